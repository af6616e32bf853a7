/-
The columns of the Rips boundary and coboundary matrices in terms of simplices.
-/
import Verif.Proofs.RipsIndex
import Verif.Proofs.Matrices

set_option linter.unusedSectionVars false
set_option linter.unusedSimpArgs false

namespace Phlite
open Finsupp (single linearCombination linearCombination_single)

/-! ### Sorted vertex lists -/

theorem sort_toFinset_lt {l : List ℕ} (h : l.Pairwise (· < ·)) : l.toFinset.sort (· ≤ ·) = l :=
  (List.toFinset_sort (r := (· ≤ ·)) (h.imp fun h => h.ne)).2 (h.imp fun h => h.le)

theorem sort_lt (σ : Finset ℕ) : (σ.sort (· ≤ ·)).Pairwise (· < ·) := (Finset.sortedLT_sort σ).pairwise

theorem sort_ne_nil {σ : Finset ℕ} (h : σ.Nonempty) : σ.sort (· ≤ ·) ≠ [] := by
  intro e
  have := congrArg List.length e
  rw [Finset.length_sort] at this
  exact h.card_pos.ne' (by simpa using this)

theorem sum_posIn (b : ℕ) {l : List ℕ} (h : l.Pairwise (· < ·)) : ∑ v ∈ l.toFinset, b ^ posIn l.toFinset v * (v + 1) = enc b l := by
  induction l with
  | nil => rfl
  | cons a l ih =>
    obtain ⟨h1, h2⟩ := List.pairwise_cons.1 h
    have ha : a ∉ l.toFinset := fun hm => (h1 a (List.mem_toFinset.1 hm)).false
    have h0 : posIn (insert a l.toFinset) a = 0 := by
      unfold posIn
      rw [Finset.card_eq_zero, Finset.filter_eq_empty_iff]
      intro x hx
      rcases Finset.mem_insert.1 hx with rfl | hx
      · exact lt_irrefl _
      · exact (h1 x (List.mem_toFinset.1 hx)).not_gt
    have hs : ∀ v ∈ l.toFinset, posIn (insert a l.toFinset) v = posIn l.toFinset v + 1 := by
      intro v hv
      unfold posIn
      rw [Finset.filter_insert, if_pos (h1 v (List.mem_toFinset.1 hv)), Finset.card_insert_of_notMem fun hm => ha (Finset.mem_filter.1 hm).1]
    rw [List.toFinset_cons, Finset.sum_insert ha, h0, pow_zero, one_mul, enc, ← ih h2, Finset.mul_sum]
    congr 1
    refine Finset.sum_congr rfl fun v hv => ?_
    rw [hs v hv, pow_succ]
    ring

theorem simplexIndex_eq (n : ℕ) {σ : Finset ℕ} (h : σ.Nonempty) : simplexIndex n σ = enc (n + 1) (σ.sort (· ≤ ·)) := by
  rw [← sum_posIn (n + 1) (sort_lt σ), Finset.sort_toFinset]
  rfl

theorem fromIndices_simplex (n : ℕ) {σ : Finset ℕ} (h : σ.Nonempty) : fromIndices n (σ.sort (· ≤ ·)) = some (simplexIndex n σ) := by
  rw [fromIndices_eq n (sort_ne_nil h), simplexIndex_eq n h]

theorem IsSimplex.lt {n : ℕ} {σ : Finset ℕ} (h : IsSimplex n σ) : ∀ v ∈ σ.sort (· ≤ ·), v < n := by
  intro v hv
  exact Finset.mem_range.1 (h.2 ((Finset.mem_sort _).1 hv))

theorem toVec_simplex {n : ℕ} {σ : Finset ℕ} (h : IsSimplex n σ) : toVec n (simplexIndex n σ) = some (σ.sort (· ≤ ·)) := by
  rw [simplexIndex_eq n h.1]; exact toVec_enc n _ h.lt

theorem simplexIndex_inj {n : ℕ} {σ τ : Finset ℕ} (hσ : IsSimplex n σ) (hτ : IsSimplex n τ) (h : simplexIndex n σ = simplexIndex n τ) :
    σ = τ := by
  have h1 := toVec_simplex hσ
  rw [h, toVec_simplex hτ] at h1
  have := congrArg List.toFinset (Option.some.inj h1)
  rw [Finset.sort_toFinset, Finset.sort_toFinset] at this
  exact this.symm

theorem simplexIndex_lt {n : ℕ} {σ τ : Finset ℕ} (hσ : IsSimplex n σ) (hτ : IsSimplex n τ) (h : σ.card < τ.card) :
    simplexIndex n σ < simplexIndex n τ := by
  rw [simplexIndex_eq n hσ.1, simplexIndex_eq n hτ.1]
  exact enc_lt_of_length hσ.lt (by simpa using h)

theorem ripsDimension_simplex {n : ℕ} {σ : Finset ℕ} (h : IsSimplex n σ) : ripsDimension n (simplexIndex n σ) = some (σ.card - 1) := by
  unfold ripsDimension
  rw [toVec_simplex h, Option.bind_some, Finset.length_sort, if_neg h.1.card_pos.ne']

theorem split_take_drop {l : List ℕ} (h : l.Pairwise (· < ·)) {i : ℕ} (hi : i < l.length) :
    l = l.take i ++ l[i] :: l.drop (i + 1) ∧ (∀ w ∈ l.take i, w < l[i]) ∧ ∀ w ∈ l.drop (i + 1), l[i] < w := by
  have e : l = l.take i ++ l[i] :: l.drop (i + 1) := by
    rw [List.getElem_cons_drop, List.take_append_drop]
  refine ⟨e, ?_, ?_⟩
  · rw [e] at h
    intro w hw
    exact (List.pairwise_append.1 h).2.2 w hw _ List.mem_cons_self
  · rw [e] at h
    intro w hw
    exact (List.pairwise_cons.1 (List.pairwise_append.1 h).2.1).1 w hw

/-- If `σ` is listed as `a ++ b` with `a` before `v` and `b` not before, then `v` has position `a.length`. -/
theorem posIn_eq {σ : Finset ℕ} {a b : List ℕ} (hl : σ.sort (· ≤ ·) = a ++ b) {v : ℕ} (ha : ∀ w ∈ a, w < v) (hb : ∀ w ∈ b, ¬ w < v) :
    posIn σ v = a.length := by
  have hnd : a.Nodup := by
    have := Finset.sort_nodup σ (· ≤ ·)
    rw [hl] at this
    exact (List.nodup_append.1 this).1
  have : σ.filter (· < v) = a.toFinset := by
    ext w
    rw [Finset.mem_filter, ← Finset.mem_sort (· ≤ ·), hl, List.mem_append, List.mem_toFinset]
    constructor
    · rintro ⟨h | h, h2⟩
      · exact h
      · exact absurd h2 (hb w h)
    · exact fun h => ⟨Or.inl h, ha w h⟩
  unfold posIn
  rw [this, List.toFinset_card_of_nodup hnd]

theorem posIn_getElem {σ : Finset ℕ} {i : ℕ} (hi : i < (σ.sort (· ≤ ·)).length) : posIn σ (σ.sort (· ≤ ·))[i] = i := by
  obtain ⟨e, h1, h2⟩ := split_take_drop (sort_lt σ) hi
  rw [posIn_eq e h1]
  · simp; rw [Finset.length_sort] at hi; exact hi.le
  · intro w hw
    rcases List.mem_cons.1 hw with rfl | hw
    · exact lt_irrefl _
    · exact not_lt.2 (h2 w hw).le

theorem sort_erase_getElem {σ : Finset ℕ} {i : ℕ} (hi : i < (σ.sort (· ≤ ·)).length) :
    (σ.erase (σ.sort (· ≤ ·))[i]).sort (· ≤ ·) = (σ.sort (· ≤ ·)).eraseIdx i := by
  obtain ⟨e, h1, h2⟩ := split_take_drop (sort_lt σ) hi
  have hp : ((σ.sort (· ≤ ·)).eraseIdx i).Pairwise (· < ·) := (sort_lt σ).sublist (List.eraseIdx_sublist _ _)
  rw [← sort_toFinset_lt hp]
  congr 1
  ext w
  rw [Finset.mem_erase, List.mem_toFinset, List.eraseIdx_eq_take_drop_succ, List.mem_append, ← Finset.mem_sort (s := σ) (· ≤ ·)]
  constructor
  · rintro ⟨h3, h4⟩
    rw [e, List.mem_append, List.mem_cons] at h4
    rcases h4 with h4 | h4 | h4
    · exact Or.inl h4
    · exact absurd h4 h3
    · exact Or.inr h4
  · rintro (h | h)
    · exact ⟨(h1 w h).ne, List.mem_of_mem_take h⟩
    · exact ⟨(h2 w h).ne', List.mem_of_mem_drop h⟩

theorem zipIdx_filter_ne (l : List ℕ) (k i : ℕ) :
    ((l.zipIdx k).filter fun p => p.2 ≠ i + k).map Prod.fst = l.eraseIdx i := by
  induction l generalizing k i with
  | nil => rfl
  | cons a l ih =>
    rw [List.zipIdx_cons]
    cases i with
    | zero =>
      rw [List.filter_cons_of_neg (by simp), List.eraseIdx_cons_zero]
      have : (l.zipIdx (k + 1)).filter (fun p => p.2 ≠ 0 + k) = l.zipIdx (k + 1) := by
        rw [List.filter_eq_self]
        intro p hp
        have := List.le_snd_of_mem_zipIdx hp
        simp; omega
      rw [this, List.zipIdx_map_fst]
    | succ i =>
      rw [List.filter_cons_of_pos (by simp), List.eraseIdx_cons_succ, List.map_cons]
      have := ih (k + 1) i
      rw [show i + (k + 1) = i + 1 + k by omega] at this
      rw [this]

theorem filterMap_range {α : Type} (l : List ℕ) (g : ℕ → Option α) (h : ℕ → α) (hg : ∀ i (hi : i < l.length), g i = some (h l[i])) :
    (List.range l.length).filterMap g = l.map h := by
  have : (List.range l.length).filterMap g = (List.range l.length).filterMap fun i => some (h (l.getD i 0)) := by
    refine List.filterMap_congr fun i hi => ?_
    have hi : i < l.length := by simpa using hi
    rw [hg i hi]; simp [List.getD, hi]
  rw [this, List.filterMap_eq_map']
  refine List.ext_getElem (by simp) ?_
  intro i h1 h2
  have hi : i < l.length := by simpa using h1
  simp [List.getD, hi]

section
variable {CF K : Type} [NonZeroCoeff CF] [Field K] [LawfulCoeff CF K]

theorem val_parity (i : ℕ) : (LawfulCoeff.val (parity i : CF) : K) = (-1) ^ i := by
  unfold parity
  split
  · rename_i h
    rw [LawfulCoeff.val_one, Even.neg_one_pow (Nat.even_iff.2 h)]
  · rename_i h
    rw [LawfulCoeff.val_neg, LawfulCoeff.val_one, Odd.neg_one_pow (Nat.odd_iff.2 (by omega))]

theorem erase_isSimplex {n : ℕ} {σ : Finset ℕ} (h : IsSimplex n σ) (hc : ¬ σ.card ≤ 1) {v : ℕ} (hv : v ∈ σ) : IsSimplex n (σ.erase v) := by
  refine ⟨?_, (Finset.erase_subset _ _).trans h.2⟩
  rw [← Finset.card_pos, Finset.card_erase_of_mem hv]; omega

theorem insert_isSimplex {n : ℕ} {σ : Finset ℕ} (h : IsSimplex n σ) {v : ℕ} (hv : v < n) : IsSimplex n (insert v σ) := by
  refine ⟨⟨v, by simp⟩, ?_⟩
  intro w hw
  rcases Finset.mem_insert.1 hw with rfl | hw
  · exact Finset.mem_range.2 hv
  · exact h.2 hw

/-- The exact list of entries of a Rips boundary column. -/
theorem ripsBoundaryColumn_eq {n : ℕ} {σ : Finset ℕ} (h : IsSimplex n σ) :
    ripsBoundaryColumn (CF := CF) n (simplexIndex n σ) =
      some (if σ.card ≤ 1 then [] else (σ.sort (· ≤ ·)).map fun v => (parity (posIn σ v), simplexIndex n (σ.erase v))) := by
  unfold ripsBoundaryColumn
  rw [toVec_simplex h, Option.map_some]
  congr 1
  have hz : ∀ i, ((σ.sort (· ≤ ·)).zipIdx.filter fun p => decide (p.2 ≠ i)).map Prod.fst = (σ.sort (· ≤ ·)).eraseIdx i := fun i => by
    have := zipIdx_filter_ne (σ.sort (· ≤ ·)) 0 i
    simpa using this
  split
  · rename_i hc
    have h1 : (σ.sort (· ≤ ·)).length = 1 := by
      rw [Finset.length_sort]
      have := h.1.card_pos
      omega
    rw [h1]
    have : (σ.sort (· ≤ ·)).eraseIdx 0 = [] := by
      rw [← List.length_eq_zero_iff, List.length_eraseIdx]; simp [h1]
    have h2 := hz 0
    rw [this] at h2
    rw [List.range_one, List.filterMap_cons, h2, fromIndices_nil]
    rfl
  · rename_i hc
    refine filterMap_range _ _ _ fun i hi => ?_
    have hm : (σ.sort (· ≤ ·))[i] ∈ σ := (Finset.mem_sort _).1 (List.getElem_mem hi)
    rw [hz, ← sort_erase_getElem hi, fromIndices_simplex n (erase_isSimplex h hc hm).1, posIn_getElem]
    rfl

theorem lcOf_map_sum {α : Type} (l : List α) (c : α → CF) (r : α → ℕ) :
    lcOf K (l.map fun v => (c v, r v)) = (l.map fun v => single (r v) (LawfulCoeff.val (c v))).sum := by
  unfold lcOf; rw [List.map_map]; rfl

theorem ripsBoundary_lcOf (n : ℕ) (σ : Finset ℕ) :
    lcOf K (if σ.card ≤ 1 then [] else (σ.sort (· ≤ ·)).map fun v => ((parity (posIn σ v) : CF), simplexIndex n (σ.erase v))) =
      (simplexBoundary K σ).mapDomain (simplexIndex n) := by
  unfold simplexBoundary
  split
  · simp
  · rw [lcOf_map_sum, ← List.sum_toFinset _ (Finset.sort_nodup σ _), Finset.sort_toFinset, Finsupp.mapDomain_finsetSum]
    refine Finset.sum_congr rfl fun v _ => ?_
    rw [Finsupp.mapDomain_single, val_parity]

/-! ### The coboundary iterator -/

theorem seek_spec {l : List ℕ} (hl : l.Pairwise (· < ·)) (mv : ℕ) (fuel nv pos : ℕ) (hpos : pos ≤ l.length)
    (hlt : ∀ w ∈ l.take pos, w < nv) (hfuel : (mv + 1 - nv) + (l.length - pos) < fuel) :
    (CobIter.seek fuel ⟨l, nv, mv, pos⟩ = some none ∧ ∀ v, nv ≤ v → v < mv + 1 → v ∈ l) ∨
    ∃ v k, CobIter.seek fuel ⟨l, nv, mv, pos⟩ = some (some ⟨l, v, mv, k⟩) ∧ nv ≤ v ∧ v < mv + 1 ∧ v ∉ l ∧ (∀ u, nv ≤ u → u < v → u ∈ l) ∧
      k ≤ l.length ∧ (∀ w ∈ l.take k, w < v) ∧ ∀ w ∈ l.drop k, v < w := by
  induction fuel generalizing nv pos with
  | zero => omega
  | succ fuel ih =>
    unfold CobIter.seek
    by_cases h1 : nv > mv
    · left
      simp only [h1, if_true, true_and]
      intro v _ _; omega
    · simp only [h1, if_false]
      by_cases h2 : pos < l.length
      · simp only [List.getElem?_eq_getElem h2]
        obtain ⟨e, s1, s2⟩ := split_take_drop hl h2
        by_cases h3 : l[pos] < nv
        · simp only [h3, if_true]
          refine ih nv (pos + 1) h2 ?_ (by omega)
          intro w hw
          rw [List.take_add_one] at hw
          rcases List.mem_append.1 hw with hw | hw
          · exact hlt w hw
          · simp [h2] at hw; rw [hw]; exact h3
        · simp only [h3, if_false]
          by_cases h4 : l[pos] = nv
          · simp only [h4, if_true]
            rcases ih (nv + 1) pos hpos (fun w hw => (hlt w hw).trans (Nat.lt_succ_self _)) (by omega) with ⟨a, b⟩ | ⟨v, k, a, b, c, d, f, g⟩
            · left
              refine ⟨a, ?_⟩
              intro v hv hv'
              rcases Nat.eq_or_lt_of_le hv with rfl | hv
              · rw [← h4]; exact List.getElem_mem h2
              · exact b v hv hv'
            · right
              refine ⟨v, k, a, by omega, c, d, ?_, g⟩
              intro u hu hu'
              rcases Nat.eq_or_lt_of_le hu with rfl | hu
              · rw [← h4]; exact List.getElem_mem h2
              · exact f u hu hu'
          · simp only [h4, if_false]
            right
            have hgt : ∀ w ∈ l.drop pos, nv < w := by
              intro w hw
              rw [List.drop_eq_getElem_cons h2] at hw
              rcases List.mem_cons.1 hw with rfl | hw
              · omega
              · have := s2 w hw; omega
            refine ⟨nv, pos, rfl, Nat.le_refl _, by omega, ?_, fun u h h' => absurd h' (not_lt.2 h), hpos, hlt, hgt⟩
            intro hmem
            rw [← List.take_append_drop pos l] at hmem
            rcases List.mem_append.1 hmem with h | h
            · exact lt_irrefl _ (hlt _ h)
            · exact lt_irrefl _ (hgt _ h)
      · right
        have e : l[pos]? = none := by rw [List.getElem?_eq_none_iff]; omega
        simp only [e]
        have ht : l.take pos = l := List.take_of_length_le (by omega)
        rw [ht] at hlt
        refine ⟨nv, pos, rfl, Nat.le_refl _, by omega, fun h => lt_irrefl _ (hlt _ h), fun u h h' => absurd h' (not_lt.2 h), hpos, ?_, ?_⟩
        · rw [ht]; exact hlt
        · rw [List.drop_eq_nil_of_le (by omega)]; simp

theorem sort_insert_at {σ : Finset ℕ} {k v : ℕ} (h1 : ∀ w ∈ (σ.sort (· ≤ ·)).take k, w < v) (h2 : ∀ w ∈ (σ.sort (· ≤ ·)).drop k, v < w) :
    (insert v σ).sort (· ≤ ·) = (σ.sort (· ≤ ·)).take k ++ [v] ++ (σ.sort (· ≤ ·)).drop k := by
  have hs := sort_lt σ
  have hp : ((σ.sort (· ≤ ·)).take k ++ [v] ++ (σ.sort (· ≤ ·)).drop k).Pairwise (· < ·) := by
    rw [← List.take_append_drop k (σ.sort (· ≤ ·))] at hs
    obtain ⟨a, b, c⟩ := List.pairwise_append.1 hs
    rw [List.append_assoc, List.singleton_append, List.pairwise_append]
    refine ⟨a, List.pairwise_cons.2 ⟨h2, b⟩, ?_⟩
    intro x hx y hy
    rcases List.mem_cons.1 hy with rfl | hy
    · exact h1 x hx
    · exact c x hx y hy
  rw [← sort_toFinset_lt hp]
  congr 1
  ext w
  rw [Finset.mem_insert, List.mem_toFinset, List.mem_append, List.mem_append, List.mem_singleton, ← Finset.mem_sort (s := σ) (· ≤ ·)]
  conv_lhs => rw [← List.take_append_drop k (σ.sort (· ≤ ·))]
  rw [List.mem_append]
  tauto

theorem collect_spec {n : ℕ} {σ : Finset ℕ} (h : IsSimplex (n + 1) σ) (fuel nv pos : ℕ) (hpos : pos ≤ (σ.sort (· ≤ ·)).length)
    (hlt : ∀ w ∈ (σ.sort (· ≤ ·)).take pos, w < nv) (hnv : nv ≤ n + 1) (hfuel : n + 1 - nv < fuel) :
    CobIter.collect (CF := CF) fuel ⟨σ.sort (· ≤ ·), nv, n, pos⟩ =
      some (((List.range' nv (n + 1 - nv)).filter (· ∉ σ)).map fun v => (parity (posIn σ v), simplexIndex (n + 1) (insert v σ), v + 1)) := by
  induction fuel generalizing nv pos with
  | zero => omega
  | succ fuel ih =>
    unfold CobIter.collect
    rcases seek_spec (sort_lt σ) n (n + (σ.sort (· ≤ ·)).length + 3) nv pos hpos hlt (by omega) with ⟨a, b⟩ | ⟨v, k, a, b, c, d, f, g1, g2, g3⟩
    · simp only [a, Option.bind_some]
      rw [List.filter_eq_nil_iff.2]
      · rfl
      · intro v hv
        rw [List.mem_range'_1] at hv
        have := b v hv.1 (by omega)
        rw [Finset.mem_sort] at this
        simpa using this
    · simp only [a, Option.bind_some]
      have hv : v ∉ σ := fun hh => d ((Finset.mem_sort _).2 hh)
      have hpo : posIn σ v = k := by
        rw [posIn_eq (List.take_append_drop k _).symm g2 (fun w hw => not_lt.2 (g3 w hw).le), List.length_take, min_eq_left g1]
      have hy : CobIter.yield_ (CF := CF) ⟨σ.sort (· ≤ ·), v, n, k⟩ =
          some ((parity (posIn σ v), simplexIndex (n + 1) (insert v σ), v + 1), ⟨σ.sort (· ≤ ·), v + 1, n, k⟩) := by
        unfold CobIter.yield_
        simp only
        rw [← sort_insert_at g2 g3, fromIndices_simplex _ (insert_isSimplex h c).1, hpo]
        rfl
      rw [hy, Option.bind_some]
      rw [ih (v + 1) k g1 (fun w hw => (g2 w hw).trans (Nat.lt_succ_self _)) (by omega) (by omega), Option.map_some]
      congr 1
      have e : List.range' nv (n + 1 - nv) = List.range' nv (v - nv) ++ v :: List.range' (v + 1) (n + 1 - (v + 1)) := by
        have e1 : n + 1 - nv = (v - nv) + (n + 1 - v) := by omega
        rw [e1, ← List.range'_append_1, show nv + (v - nv) = v by omega, show n + 1 - v = (n + 1 - (v + 1)) + 1 by omega, List.range'_succ]
      have e2 : (List.range' nv (v - nv)).filter (fun x => decide (x ∉ σ)) = [] := by
        rw [List.filter_eq_nil_iff]
        intro u hu
        rw [List.mem_range'_1] at hu
        have := f u hu.1 (by omega)
        rw [Finset.mem_sort] at this
        simpa using this
      rw [e, List.filter_append, e2, List.nil_append, List.filter_cons_of_pos (by simpa using hv), List.map_cons]

theorem cobItems_eq {n : ℕ} {σ : Finset ℕ} (h : IsSimplex n σ) :
    cobItems (CF := CF) n (simplexIndex n σ) =
      some (((List.range n).filter (· ∉ σ)).map fun v => (parity (posIn σ v), simplexIndex n (insert v σ), v + 1)) := by
  unfold cobItems
  rw [toVec_simplex h, Option.bind_some]
  cases n with
  | zero =>
    obtain ⟨⟨v, hv⟩, h2⟩ := h
    have := h2 hv
    simp at this
  | succ n =>
    unfold CobIter.new
    rw [if_neg (Nat.succ_ne_zero n), Option.bind_some]
    have := collect_spec (CF := CF) h (n + 1 + 1) 0 0 (Nat.zero_le _) (by simp) (Nat.zero_le _) (by omega)
    rw [List.range_eq_range']
    exact this

/-- The exact list of entries of a Rips coboundary column. -/
theorem ripsCoboundaryColumn_eq {n : ℕ} {σ : Finset ℕ} (h : IsSimplex n σ) :
    ripsCoboundaryColumn (CF := CF) n (simplexIndex n σ) =
      some (((List.range n).filter (· ∉ σ)).map fun v => (parity (posIn σ v), simplexIndex n (insert v σ))) := by
  unfold ripsCoboundaryColumn
  rw [cobItems_eq h, Option.map_some, List.map_map]; rfl

theorem ripsCoboundary_lcOf (n : ℕ) (σ : Finset ℕ) :
    lcOf K (((List.range n).filter (· ∉ σ)).map fun v => ((parity (posIn σ v) : CF), simplexIndex n (insert v σ))) =
      (simplexCoboundary K n σ).mapDomain (simplexIndex n) := by
  unfold simplexCoboundary
  rw [lcOf_map_sum, ← List.sum_toFinset _ (List.nodup_range.filter _), Finsupp.mapDomain_finsetSum]
  refine Finset.sum_congr ?_ fun v _ => ?_
  · ext v; simp
  · rw [Finsupp.mapDomain_single, val_parity]

end
end Phlite
