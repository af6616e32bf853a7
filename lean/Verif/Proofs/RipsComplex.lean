/-
The Rips matrices and bases form a cell complex.
-/
import Verif.Proofs.RipsColumns
import Verif.Proofs.RipsBases
import Verif.Proofs.CellSplit
import Verif.Theory.Simplex
import Verif.Theory.Relabel

set_option linter.unusedSectionVars false
set_option linter.unusedSimpArgs false

namespace Phlite
open Finsupp (single linearCombination linearCombination_single)
open OrderDual (toDual ofDual)

/-! ### Sublists of a range are simplices -/

theorem range_le (n : ℕ) : (List.range n).Pairwise (· ≤ ·) := List.pairwise_lt_range.imp fun h => h.le

theorem sort_sublist {n : ℕ} {σ : Finset ℕ} (h : σ ⊆ Finset.range n) : (σ.sort (· ≤ ·)).Sublist (List.range n) := by
  refine List.sublist_of_subperm_of_pairwise (r := (· ≤ ·)) ?_ ((sort_lt σ).imp fun h => h.le) (range_le n)
  refine List.subperm_of_subset (Finset.sort_nodup σ _) ?_
  intro v hv
  rw [List.mem_range]
  exact Finset.mem_range.1 (h ((Finset.mem_sort _).1 hv))

theorem sublist_lt {n : ℕ} {l : List ℕ} (h : l.Sublist (List.range n)) : l.Pairwise (· < ·) := List.pairwise_lt_range.sublist h

theorem mem_sublistsLen_range {n k : ℕ} {l : List ℕ} :
    l ∈ (List.range n).sublistsLen (k + 1) ↔ ∃ σ, IsSimplex n σ ∧ σ.card = k + 1 ∧ l = σ.sort (· ≤ ·) := by
  rw [List.mem_sublistsLen]
  constructor
  · rintro ⟨h1, h2⟩
    have hl := sublist_lt h1
    have hnd : l.Nodup := hl.imp fun h => h.ne
    refine ⟨l.toFinset, ⟨?_, ?_⟩, ?_, (sort_toFinset_lt hl).symm⟩
    · rw [List.toFinset_nonempty_iff]; rintro rfl; simp at h2
    · intro v hv
      exact Finset.mem_range.2 (List.mem_range.1 (h1.subset (List.mem_toFinset.1 hv)))
    · rw [List.toFinset_card_of_nodup hnd, h2]
  · rintro ⟨σ, h1, h2, rfl⟩
    exact ⟨sort_sublist h1.2, by simp [h2]⟩

section
variable {F : Type} [LinearOrder F] [Zero F] {distances : List (List F)} {d : ℕ → ℕ → F}

/-! ### Filtration values -/

theorem maxPairwise_spec (hd : ∀ i < distances.length, ∀ j < distances.length, distAt distances i j = some (d i j))
    {l : List ℕ} (hne : l ≠ []) (hl : ∀ v ∈ l, v < distances.length) :
    ∃ m, maxPairwiseDistance l distances = some m ∧ ∀ x, m ≤ x ↔ ∀ a ∈ l, ∀ b ∈ l, d a b ≤ x := by
  set P : List (ℕ × ℕ) := (List.range l.length).flatMap fun i => (List.range l.length).map fun j => (i, j) with hP
  have e1 : mapOpt (fun p : ℕ × ℕ => (l[p.1]?).bind fun vi => (l[p.2]?).bind fun vj => distAt distances vi vj) P =
      some (P.map fun p => d (l.getD p.1 0) (l.getD p.2 0)) := by
    refine mapOpt_eq_map _ _ _ fun p hp => ?_
    obtain ⟨i, hi, hj⟩ := List.mem_flatMap.1 hp
    obtain ⟨j, hj', rfl⟩ := List.mem_map.1 hj
    replace hj := List.mem_range.1 hj'
    rw [List.mem_range] at hi
    simp only [List.getElem?_eq_getElem hi, List.getElem?_eq_getElem hj, Option.bind_some, List.getD_eq_getElem?_getD, Option.getD_some]
    exact hd _ (hl _ (List.getElem_mem hi)) _ (hl _ (List.getElem_mem hj))
  have hpos := List.length_pos_of_ne_nil hne
  have hne' : P ≠ [] := by
    have : ((0 : ℕ), (0 : ℕ)) ∈ P := by
      rw [hP]
      exact List.mem_flatMap.2 ⟨0, List.mem_range.2 hpos, List.mem_map.2 ⟨0, List.mem_range.2 hpos, rfl⟩⟩
    exact List.ne_nil_of_mem this
  obtain ⟨m, hm⟩ : ∃ m, maxOpt (P.map fun p => d (l.getD p.1 0) (l.getD p.2 0)) = some m := by
    cases hq : P with
    | nil => exact absurd hq hne'
    | cons a q => exact ⟨_, rfl⟩
  refine ⟨m, ?_, ?_⟩
  · unfold maxPairwiseDistance
    rw [e1, Option.bind_some, hm]
  · intro x
    rw [maxOpt_some hm]
    constructor
    · intro h a ha b hb
      obtain ⟨i, hi, rfl⟩ := List.getElem_of_mem ha
      obtain ⟨j, hj, rfl⟩ := List.getElem_of_mem hb
      refine h _ (List.mem_map.2 ⟨(i, j), ?_, ?_⟩)
      · exact List.mem_flatMap.2 ⟨i, List.mem_range.2 hi, List.mem_map.2 ⟨j, List.mem_range.2 hj, rfl⟩⟩
      · simp [List.getD_eq_getElem?_getD, hi, hj]
    · intro h b hb
      obtain ⟨p, hp, rfl⟩ := List.mem_map.1 hb
      obtain ⟨i, hi, hj⟩ := List.mem_flatMap.1 hp
      obtain ⟨j, hj', rfl⟩ := List.mem_map.1 hj
      replace hj := List.mem_range.1 hj'
      rw [List.mem_range] at hi
      simp only [List.getD_eq_getElem?_getD, List.getElem?_eq_getElem hi, List.getElem?_eq_getElem hj, Option.getD_some]
      exact h _ (List.getElem_mem hi) _ (List.getElem_mem hj)

/-- The filtration value of a simplex. -/
theorem filt_simplex (hd : ∀ i < distances.length, ∀ j < distances.length, distAt distances i j = some (d i j))
    {σ : Finset ℕ} (h : IsSimplex distances.length σ) :
    ∃ m, ripsFiltrationValue distances (simplexIndex distances.length σ) = some m ∧ ∀ x, m ≤ x ↔ ∀ a ∈ σ, ∀ b ∈ σ, d a b ≤ x := by
  obtain ⟨m, h1, h2⟩ := maxPairwise_spec hd (sort_ne_nil h.1) h.lt
  refine ⟨m, ?_, ?_⟩
  · unfold ripsFiltrationValue
    rw [toVec_simplex h, Option.bind_some, h1]
  · intro x
    rw [h2]; simp

/-- The filtration values as a function. -/
def ripsF (distances : List (List F)) (c : RipsIndex) : F := (ripsFiltrationValue distances c).getD 0

theorem ripsF_eq (hd : ∀ i < distances.length, ∀ j < distances.length, distAt distances i j = some (d i j))
    {σ : Finset ℕ} (h : IsSimplex distances.length σ) :
    ripsFiltrationValue distances (simplexIndex distances.length σ) = some (ripsF distances (simplexIndex distances.length σ)) := by
  obtain ⟨m, h1, _⟩ := filt_simplex hd h
  unfold ripsF
  rw [h1]; rfl

theorem ripsF_le (hd : ∀ i < distances.length, ∀ j < distances.length, distAt distances i j = some (d i j))
    {σ : Finset ℕ} (h : IsSimplex distances.length σ) (x : F) :
    ripsF distances (simplexIndex distances.length σ) ≤ x ↔ ∀ a ∈ σ, ∀ b ∈ σ, d a b ≤ x := by
  obtain ⟨m, h1, h2⟩ := filt_simplex hd h
  unfold ripsF
  rw [h1]; exact h2 x

theorem stored_eq (hD : IsDistanceMatrix distances d) {σ : Finset ℕ} (h : IsSimplex distances.length σ) :
    stored d (σ.sort (· ≤ ·)) = ripsF distances (simplexIndex distances.length σ) := by
  refine eq_of_forall_ge_iff fun x => ?_
  rw [stored_le d (sort_ne_nil h.1), ripsF_le hD.entry h]
  have hlt : ∀ a ∈ σ, a < distances.length := fun a ha => Finset.mem_range.1 (h.2 ha)
  constructor
  · rintro ⟨h0, h1⟩ a ha b hb
    rcases eq_or_ne a b with rfl | hne
    · rw [hD.diag a (hlt a ha)]; exact h0
    · have hsym : ∀ a ∈ σ.sort (· ≤ ·), ∀ b ∈ σ.sort (· ≤ ·), a ≠ b → (d a b ≤ x ∧ d b a ≤ x) := by
        have h2 : (σ.sort (· ≤ ·)).Pairwise fun a b => d a b ≤ x ∧ d b a ≤ x := by
          refine List.Pairwise.imp_of_mem ?_ h1
          intro a b ha hb hab
          refine ⟨hab, ?_⟩
          rw [hD.symm b (h.lt b hb) a (h.lt a ha)]; exact hab
        intro a ha b hb hne
        haveI : Std.Symm fun a b => d a b ≤ x ∧ d b a ≤ x := ⟨fun _ _ h => ⟨h.2, h.1⟩⟩
        exact h2.forall ha hb hne
      exact (hsym a ((Finset.mem_sort _).2 ha) b ((Finset.mem_sort _).2 hb) hne).1
  · intro h1
    obtain ⟨v, hv⟩ := h.1
    refine ⟨?_, ?_⟩
    · have := h1 v hv v hv
      rwa [hD.diag v (hlt v hv)] at this
    · refine List.Pairwise.imp_of_mem (R := fun _ _ => True) ?_ (List.pairwise_of_forall fun _ _ => trivial)
      intro a b ha hb _
      exact h1 a ((Finset.mem_sort _).1 ha) b ((Finset.mem_sort _).1 hb)

/-! ### Cells -/

/-- The basis elements in each degree. -/
def ripsCells (n : ℕ) (d : ℕ → ℕ → F) : ℤ → List RipsIndex
  | .ofNat k => (dimBasis n d k).map Prod.snd
  | .negSucc _ => []

theorem mem_dimBasis {n k : ℕ} {x : F × RipsIndex} :
    x ∈ dimBasis n d k ↔ ∃ σ, IsSimplex n σ ∧ σ.card = k + 1 ∧ x = (stored d (σ.sort (· ≤ ·)), simplexIndex n σ) := by
  unfold dimBasis
  rw [List.mem_insertionSort, List.mem_map]
  constructor
  · rintro ⟨l, hl, rfl⟩
    obtain ⟨σ, h1, h2, rfl⟩ := mem_sublistsLen_range.1 hl
    exact ⟨σ, h1, h2, by rw [simplexIndex_eq n h1.1]⟩
  · rintro ⟨σ, h1, h2, rfl⟩
    exact ⟨_, mem_sublistsLen_range.2 ⟨σ, h1, h2, rfl⟩, by rw [simplexIndex_eq n h1.1]⟩

theorem mem_ripsCells {n : ℕ} {k : ℕ} {x : RipsIndex} :
    x ∈ ripsCells n d (k : ℤ) ↔ ∃ σ, IsSimplex n σ ∧ σ.card = k + 1 ∧ x = simplexIndex n σ := by
  show x ∈ (dimBasis n d k).map Prod.snd ↔ _
  rw [List.mem_map]
  constructor
  · rintro ⟨a, ha, rfl⟩
    obtain ⟨σ, h1, h2, rfl⟩ := mem_dimBasis.1 ha
    exact ⟨σ, h1, h2, rfl⟩
  · rintro ⟨σ, h1, h2, rfl⟩
    exact ⟨_, mem_dimBasis.2 ⟨σ, h1, h2, rfl⟩, rfl⟩

theorem mem_ripsCells_int {n : ℕ} {k : ℤ} {x : RipsIndex} :
    x ∈ ripsCells n d k ↔ ∃ σ, IsSimplex n σ ∧ (σ.card : ℤ) = k + 1 ∧ x = simplexIndex n σ := by
  cases k with
  | ofNat k =>
    have := mem_ripsCells (d := d) (n := n) (k := k) (x := x)
    rw [show (Int.ofNat k : ℤ) = (k : ℤ) from rfl, this]
    refine exists_congr fun σ => and_congr_right fun _ => and_congr_left fun _ => ?_
    omega
  | negSucc k =>
    refine ⟨fun h => absurd h List.not_mem_nil, ?_⟩
    rintro ⟨σ, h1, h2, -⟩
    have := h1.1.card_pos
    omega

theorem dimBasis_nodup (n k : ℕ) : ((dimBasis n d k).map Prod.snd).Nodup := by
  have hp := (List.perm_insertionSort tupleLe (((List.range n).sublistsLen (k + 1)).map fun l => (stored d l, enc (n + 1) l))).map Prod.snd
  unfold dimBasis
  rw [hp.nodup_iff, List.map_map]
  refine List.Nodup.map_on ?_ (List.nodup_sublistsLen _ List.nodup_range)
  intro l hl l' hl' e
  obtain ⟨σ, h1, _, rfl⟩ := mem_sublistsLen_range.1 hl
  obtain ⟨τ, h2, _, rfl⟩ := mem_sublistsLen_range.1 hl'
  exact enc_inj h1.lt h2.lt e

theorem ripsCells_sorted (hD : IsDistanceMatrix distances d) (k : ℤ) :
    (ripsCells distances.length d k).Pairwise fun a b => rowKey (ripsF distances) a < rowKey (ripsF distances) b := by
  cases k with
  | negSucc k => exact List.Pairwise.nil
  | ofNat k =>
    show ((dimBasis distances.length d k).map Prod.snd).Pairwise _
    rw [List.pairwise_map]
    have h1 : (dimBasis distances.length d k).Pairwise tupleLe := List.pairwise_insertionSort _ _
    have h2 : (dimBasis distances.length d k).Pairwise fun a b => a.2 ≠ b.2 := List.pairwise_map.1 (dimBasis_nodup _ k)
    refine List.Pairwise.imp_of_mem ?_ (h1.and h2)
    rintro a b ha hb ⟨hab, hne⟩
    have key : ∀ x ∈ dimBasis distances.length d k, rowKey (ripsF distances) x.2 = toLex x := by
      intro x hx
      obtain ⟨σ, s1, _, rfl⟩ := mem_dimBasis.1 hx
      rw [stored_eq hD s1]; rfl
    rw [key a ha, key b hb]
    exact lt_of_le_of_ne hab fun e => hne (congrArg (fun x => (ofLex x).2) e)

/-! ### The complex -/

/-- The simplex with a given index. -/
def decode (n : ℕ) (c : RipsIndex) : Finset ℕ := ((toVec n c).getD []).toFinset

theorem decode_simplex {n : ℕ} {σ : Finset ℕ} (h : IsSimplex n σ) : decode n (simplexIndex n σ) = σ := by
  unfold decode
  rw [toVec_simplex h, Option.getD_some, Finset.sort_toFinset]

/-- The degree of an index. -/
def ripsDeg (n : ℕ) (c : RipsIndex) : ℤ := ((ripsDimension n c).getD 0 : ℕ)

theorem ripsDeg_simplex {n : ℕ} {σ : Finset ℕ} (h : IsSimplex n σ) : ripsDeg n (simplexIndex n σ) = σ.card - 1 := by
  unfold ripsDeg
  rw [ripsDimension_simplex h, Option.getD_some]
  have := h.1.card_pos
  omega

variable (K : Type) [Field K]

/-- The boundary in terms of indices. -/
noncomputable def ripsM (n : ℕ) (c : RipsIndex) : RipsIndex →₀ K := (simplexBoundary K (decode n c)).mapDomain (simplexIndex n)

/-- The coboundary in terms of indices. -/
noncomputable def ripsN (n : ℕ) (c : RipsIndex) : RipsIndex →₀ K := (simplexCoboundary K n (decode n c)).mapDomain (simplexIndex n)

variable {K}

theorem simplexIndex_injOn (n : ℕ) : Set.InjOn (simplexIndex n) {σ | IsSimplex n σ} := fun _ h _ h' e => simplexIndex_inj h h' e

theorem bdry_isSimplex {n : ℕ} {σ ρ : Finset ℕ} (h : IsSimplex n σ) (hr : simplexBoundary K σ ρ ≠ 0) : IsSimplex n ρ ∧ ρ.card + 1 = σ.card := by
  obtain ⟨hc, v, hv, rfl⟩ := simplexBoundary_support hr
  refine ⟨erase_isSimplex h hc hv, ?_⟩
  rw [Finset.card_erase_of_mem hv]; omega

theorem cob_isSimplex {n : ℕ} {σ ρ : Finset ℕ} (h : IsSimplex n σ) (hr : simplexCoboundary K n σ ρ ≠ 0) : IsSimplex n ρ ∧ ρ.card = σ.card + 1 := by
  obtain ⟨v, hv, hv', rfl⟩ := simplexCoboundary_support hr
  exact ⟨insert_isSimplex h hv, Finset.card_insert_of_notMem hv'⟩

theorem mapDomain_index_ne {n : ℕ} {x : Finset ℕ →₀ K} {r : RipsIndex} (h : x.mapDomain (simplexIndex n) r ≠ 0) :
    ∃ ρ, x ρ ≠ 0 ∧ r = simplexIndex n ρ := by
  classical
  have := Finsupp.mapDomain_support (Finsupp.mem_support_iff.2 h)
  obtain ⟨ρ, hρ, rfl⟩ := Finset.mem_image.1 this
  exact ⟨ρ, Finsupp.mem_support_iff.1 hρ, rfl⟩

theorem mapDomain_index_apply {n : ℕ} {x : Finset ℕ →₀ K} (hx : ∀ ρ, x ρ ≠ 0 → IsSimplex n ρ) {σ : Finset ℕ} (hσ : IsSimplex n σ) :
    x.mapDomain (simplexIndex n) (simplexIndex n σ) = x σ :=
  Finsupp.mapDomain_apply' {σ | IsSimplex n σ} x (fun ρ hρ => hx ρ (Finsupp.mem_support_iff.1 hρ)) (simplexIndex_injOn n) hσ

theorem ripsM_sq {n : ℕ} {σ : Finset ℕ} (h1 : IsSimplex n σ) : linearCombination K (ripsM K n) (ripsM K n (simplexIndex n σ)) = 0 := by
  have e : ripsM K n (simplexIndex n σ) = (simplexBoundary K σ).mapDomain (simplexIndex n) := by
    unfold ripsM; rw [decode_simplex h1]
  rw [e, Finsupp.linearCombination_mapDomain, Finsupp.linearCombination_apply, Finsupp.sum]
  have h3 := simplexBoundary_sq (K := K) σ
  rw [Finsupp.linearCombination_apply, Finsupp.sum] at h3
  have h4 := congrArg (Finsupp.mapDomain (simplexIndex n)) h3
  rw [Finsupp.mapDomain_finsetSum, Finsupp.mapDomain_zero] at h4
  rw [← h4]
  refine Finset.sum_congr rfl fun ρ hρ => ?_
  obtain ⟨a, _⟩ := bdry_isSimplex h1 (Finsupp.mem_support_iff.1 hρ)
  rw [Function.comp_apply, Finsupp.mapDomain_smul]
  unfold ripsM
  rw [decode_simplex a]

theorem ripsCellComplex (hD : IsDistanceMatrix distances d) :
    CellComplex K (ripsF distances) (ripsDeg distances.length) (ripsCells distances.length d) (ripsM K distances.length)
      (ripsN K distances.length) where
  deg_cells k c hc := by
    obtain ⟨σ, h1, h2, rfl⟩ := mem_ripsCells_int.1 hc
    rw [ripsDeg_simplex h1]; omega
  sorted := ripsCells_sorted hD
  rowsM k c hc r hr := by
    obtain ⟨σ, h1, h2, rfl⟩ := mem_ripsCells_int.1 hc
    unfold ripsM at hr
    rw [decode_simplex h1] at hr
    obtain ⟨ρ, hρ, rfl⟩ := mapDomain_index_ne hr
    obtain ⟨a, b⟩ := bdry_isSimplex h1 hρ
    exact mem_ripsCells_int.2 ⟨ρ, a, by omega, rfl⟩
  rowsN k c hc r hr := by
    obtain ⟨σ, h1, h2, rfl⟩ := mem_ripsCells_int.1 hc
    unfold ripsN at hr
    rw [decode_simplex h1] at hr
    obtain ⟨ρ, hρ, rfl⟩ := mapDomain_index_ne hr
    obtain ⟨a, b⟩ := cob_isSimplex h1 hρ
    exact mem_ripsCells_int.2 ⟨ρ, a, by omega, rfl⟩
  transpose k c hc e he := by
    obtain ⟨σ, h1, h2, rfl⟩ := mem_ripsCells_int.1 hc
    obtain ⟨τ, t1, t2, rfl⟩ := mem_ripsCells_int.1 he
    unfold ripsM ripsN
    rw [decode_simplex h1, decode_simplex t1, mapDomain_index_apply (fun ρ hρ => (cob_isSimplex h1 hρ).1) t1,
      mapDomain_index_apply (fun ρ hρ => (bdry_isSimplex t1 hρ).1) h1, simplex_transpose h1 t1]
  sq k c hc := by
    obtain ⟨σ, h1, h2, rfl⟩ := mem_ripsCells_int.1 hc
    exact ripsM_sq h1

/-! ### The matrices -/

variable {CF : Type} [NonZeroCoeff CF] [LawfulCoeff CF K]

/-- A matrix with the default `column_with_filtration`. -/
theorem readsCol_ref {T : Type} [LinearOrder T] {D : FOracle CF T T F} {f : T → F} {M : T → (T →₀ K)} {c : T} {l : List (CF × T)} (h1 : D.column c = some l)
    (h2 : ∀ t ∈ l, D.filt t.2 = some (f t.2)) (h3 : lcOf K l = M c) : ReadsCol K D.ref f M c := by
  refine ⟨l, h1, ?_, h2, h3⟩
  show (D.column c).bind _ = _
  rw [h1, Option.bind_some]
  refine mapOpt_eq_map _ _ _ fun t ht => ?_
  rw [h2 t ht]; rfl

theorem reads_ripsBoundary (hd : ∀ i < distances.length, ∀ j < distances.length, distAt distances i j = some (d i j)) {σ : Finset ℕ} (h : IsSimplex distances.length σ) :
    ReadsCol K (ripsBoundary CF distances).ref (ripsF distances) (ripsM K distances.length) (simplexIndex distances.length σ) := by
  refine readsCol_ref (ripsBoundaryColumn_eq h) ?_ ?_
  · intro t ht
    split at ht
    · simp at ht
    · rename_i hc
      obtain ⟨v, hv, rfl⟩ := List.mem_map.1 ht
      exact ripsF_eq hd (erase_isSimplex h hc ((Finset.mem_sort _).1 hv))
  · rw [ripsBoundary_lcOf, ripsM, decode_simplex h]

theorem reads_ripsCoboundary (hd : ∀ i < distances.length, ∀ j < distances.length, distAt distances i j = some (d i j)) {σ : Finset ℕ} (h : IsSimplex distances.length σ) :
    ReadsCol K (ripsCoboundary CF distances).ref (ripsF distances) (ripsN K distances.length) (simplexIndex distances.length σ) := by
  refine readsCol_ref (ripsCoboundaryColumn_eq h) ?_ ?_
  · intro t ht
    obtain ⟨v, hv, rfl⟩ := List.mem_map.1 ht
    obtain ⟨hv, -⟩ := List.mem_filter.1 hv
    exact ripsF_eq hd (insert_isSimplex h (List.mem_range.1 hv))
  · rw [ripsCoboundary_lcOf, ripsN, decode_simplex h]

theorem withBasis_ref (D : FOracle CF RipsIndex RipsIndex F) : D.withBasis.ref = D.ref := rfl
theorem ref_ref (D : FOracle CF RipsIndex RipsIndex F) : D.ref.ref = D.ref := rfl

theorem elems_singleDim (l : List (F × RipsIndex)) : (singleDimBasis l).elems = some (l.map Prod.snd) := by
  unfold Basis.elems singleDimBasis
  have : mapOpt (fun i => (l[i]?).map Prod.snd) (List.range l.length) = some ((List.range l.length).map fun i => ((l[i]?).map Prod.snd).getD 0) := by
    refine mapOpt_eq_map _ _ _ fun i hi => ?_
    rw [List.getElem?_eq_getElem (List.mem_range.1 hi)]; rfl
  show mapOpt (fun i => (l[i]?).map Prod.snd) (List.range l.length) = _
  rw [this]
  congr 1
  refine List.ext_getElem (by simp) ?_
  intro i h1 h2
  simp at h1
  simp [h1]

theorem ripsBasis (hd : ∀ i < distances.length, ∀ j < distances.length, distAt distances i j = some (d i j)) {max_dim : ℕ}
    {bases : List (List (F × RipsIndex))} (hb : buildRipsBases distances max_dim = some bases)
    (h1 : 1 ≤ max_dim ∨ distances.length ≤ 1) (k : ℕ) (hk : k ≤ max_dim) :
    ∃ Bd, (multiDimBasis bases).inDim k = some Bd ∧ Bd.elems = some (ripsCells distances.length d k) := by
  rw [buildRipsBases_spec hd h1] at hb
  cases hb
  refine ⟨singleDimBasis (dimBasis distances.length d k), ?_, elems_singleDim _⟩
  simp [multiDimBasis, Nat.lt_succ_of_le hk]

theorem ripsSplitCob (hD : IsDistanceMatrix distances d) {max_dim : ℕ} {bases : List (List (F × RipsIndex))}
    (hb : buildRipsBases distances max_dim = some bases) (h1 : 1 ≤ max_dim ∨ distances.length ≤ 1) :
    SplitComplex K (ripsCoboundary CF distances).ref (multiDimBasis bases) (ripsF distances) (ripsN K distances.length)
      (ripsDeg distances.length) 1 (List.range (max_dim + 1)) fun k => ripsCells distances.length d k := by
  refine (ripsCellComplex hD).splitCob (ripsBasis hD.entry hb h1) ?_ ?_
  · intro k _ c hc
    obtain ⟨σ, s1, s2, rfl⟩ := mem_ripsCells_int.1 hc
    exact reads_ripsCoboundary hD.entry s1
  · intro k _ c hc l hl t ht
    obtain ⟨σ, s1, s2, rfl⟩ := mem_ripsCells_int.1 hc
    have e : l = _ := Option.some.inj (hl.symm.trans (ripsCoboundaryColumn_eq s1))
    rw [e] at ht
    obtain ⟨v, hv, rfl⟩ := List.mem_map.1 ht
    obtain ⟨hv, hv'⟩ := List.mem_filter.1 hv
    refine mem_ripsCells_int.2 ⟨insert v σ, insert_isSimplex s1 (List.mem_range.1 hv), ?_, rfl⟩
    rw [Finset.card_insert_of_notMem (by simpa using hv')]; push_cast; omega

theorem ripsSplitBdry (hD : IsDistanceMatrix distances d) {max_dim : ℕ} {bases : List (List (F × RipsIndex))}
    (hb : buildRipsBases distances max_dim = some bases) (h1 : 1 ≤ max_dim ∨ distances.length ≤ 1) :
    SplitComplex K (ripsBoundary CF distances).ref (multiDimBasis bases) (ripsF distances) (ripsM K distances.length)
      (ripsDeg distances.length) (-1) (List.range (max_dim + 1)).reverse fun k => ripsCells distances.length d k := by
  refine (ripsCellComplex hD).splitBdry (ripsBasis hD.entry hb h1) ?_ ?_
  · intro k _ c hc
    obtain ⟨σ, s1, s2, rfl⟩ := mem_ripsCells_int.1 hc
    exact reads_ripsBoundary hD.entry s1
  · intro k _ c hc l hl t ht
    obtain ⟨σ, s1, s2, rfl⟩ := mem_ripsCells_int.1 hc
    have e : l = _ := Option.some.inj (hl.symm.trans (ripsBoundaryColumn_eq s1))
    rw [e] at ht
    split at ht
    · simp at ht
    · rename_i hcard
      obtain ⟨v, hv, rfl⟩ := List.mem_map.1 ht
      have hv := (Finset.mem_sort _).1 hv
      refine mem_ripsCells_int.2 ⟨σ.erase v, erase_isSimplex s1 hcard hv, ?_, rfl⟩
      rw [Finset.card_erase_of_mem hv]; omega

/-- Sublevel sets of the basis are Vietoris-Rips complexes. -/
theorem sublevel_rips (hd : ∀ i < distances.length, ∀ j < distances.length, distAt distances i j = some (d i j)) (p : ℕ) (s : F) :
    sublevel (ripsF distances) (ripsCells distances.length d) p s = simplexIndex distances.length '' vietorisRips distances.length d p s := by
  ext x
  constructor
  · rintro ⟨h1, h2⟩
    obtain ⟨σ, s1, s2, rfl⟩ := mem_ripsCells.1 h1
    exact ⟨σ, ⟨s1.2, s2, (ripsF_le hd s1 s).1 h2⟩, rfl⟩
  · rintro ⟨σ, ⟨s1, s2, s3⟩, rfl⟩
    have hs : IsSimplex distances.length σ := ⟨Finset.card_pos.1 (by omega), s1⟩
    exact ⟨mem_ripsCells.2 ⟨σ, hs, s2, rfl⟩, (ripsF_le hd hs s).2 s3⟩

theorem vietorisRips_simplex {n p : ℕ} {s : F} {σ : Finset ℕ} (h : σ ∈ vietorisRips n d p s) : IsSimplex n σ :=
  ⟨Finset.card_pos.1 (by rw [h.2.1]; omega), h.1⟩

/-- Persistent Betti numbers of the Vietoris-Rips filtration, computed with indices. -/
theorem betti_rips (hd : ∀ i < distances.length, ∀ j < distances.length, distAt distances i j = some (d i j)) (p : ℕ) {s t : F} (hst : s ≤ t) :
    persistentBetti (ripsM K distances.length) (sublevel_mono (ripsF distances) (ripsCells distances.length d) p hst)
      (sublevel_mono (ripsF distances) (ripsCells distances.length d) (p + 1) hst) =
    persistentBetti (simplexBoundary K) (vietorisRips_mono distances.length d p hst) (vietorisRips_mono distances.length d (p + 1) hst) := by
  refine persistentBetti_relabel (simplexIndex distances.length) {σ | IsSimplex distances.length σ} (simplexIndex_injOn _) ?_
    (fun σ h => vietorisRips_simplex h) (fun σ h => vietorisRips_simplex h) ?_ ?_ ?_ _ _ (sublevel_rips hd p s) (sublevel_rips hd p t) ?_ ?_ _ _
  · refine Set.Finite.subset (Finset.finite_toSet ((Finset.range distances.length).powerset)) ?_
    intro σ h
    exact Finset.mem_coe.2 (Finset.mem_powerset.2 h.1)
  · intro σ h ρ hρ
    exact (bdry_isSimplex (vietorisRips_simplex h) hρ).1
  · intro σ h ρ hρ
    exact (bdry_isSimplex (vietorisRips_simplex h) hρ).1
  · intro σ h
    have : IsSimplex distances.length σ := h.elim vietorisRips_simplex vietorisRips_simplex
    unfold ripsM
    rw [decode_simplex this]
  · have := sublevel_rips hd (p + 1) s
    rwa [Nat.cast_add, Nat.cast_one] at this
  · have := sublevel_rips hd (p + 1) t
    rwa [Nat.cast_add, Nat.cast_one] at this

end
end Phlite
