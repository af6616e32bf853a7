/-
The clearing algorithm cannot avoid reading columns in a dimension where the boundary is not zero.
-/
import Verif.Props.Clearing

set_option linter.unusedSectionVars false
set_option linter.unusedSimpArgs false

namespace Phlite
open Finsupp (single linearCombination linearCombination_single)

section
variable [StdHeap] {CF T F K : Type} [NonZeroCoeff CF] [Field K] [LawfulCoeff CF K] [LinearOrder F] [LinearOrder T]

/-- If no column can be read, then all columns have been cleared before. -/
theorem clrLoop_unread {D : FOracle CF T T F} {Bd : Basis T} {fuel : ℕ} {is : List ℕ} {p p' : CrmState CF T × (T → Option (T × CF))}
    (hD : ∀ i ∈ is, ∀ b, Bd.element i = some b → D.colF b = none) (h : clrLoop D Bd fuel is p = some p') :
    ∀ i ∈ is, ∀ b, Bd.element i = some b → (p.1.rc b).isSome := by
  induction is generalizing p with
  | nil => simp
  | cons i is ih =>
    simp only [clrLoop, Option.bind_eq_some_iff] at h
    obtain ⟨b, h1, q, h2, h3⟩ := h
    unfold clrColumn at h2
    split at h2
    · rename_i hb
      cases h2
      intro j hj c hc
      rcases List.mem_cons.1 hj with rfl | hj
      · rw [h1] at hc; cases hc; exact hb
      · exact ih (fun i hi => hD i (List.mem_cons_of_mem _ hi)) h3 j hj c hc
    · obtain ⟨r0, h4, _⟩ := Option.bind_eq_some_iff.1 h2
      unfold FOracle.buildBhcol at h4
      rw [hD i List.mem_cons_self b h1] at h4
      cases h4

theorem clrAll_append {D : FOracle CF T T F} {B : SplitBasis T} {fuel : ℕ} {dims dims' : List ℕ} {s : CrmState CF T} :
    clrAll D B fuel (dims ++ dims') s = (clrAll D B fuel dims s).bind (clrAll D B fuel dims') := by
  induction dims generalizing s with
  | nil => rfl
  | cons d dims ih =>
    simp only [List.cons_append, clrAll, Option.bind_assoc]
    congr 1
    funext s'
    exact ih

variable {D D' : FOracle CF T T F} {B : SplitBasis T} {f : T → F} {M : T → (T →₀ K)} {deg : T → ℤ} {ε : ℤ} {dims : List ℕ}
  {els : ℕ → List T}

theorem SplitComplex.init {d : ℕ} (h : SplitComplex K D B f M deg ε (dims ++ [d]) els) : SplitComplex K D B f M deg ε dims els where
  basis d' hd := h.basis d' (List.mem_append_left _ hd)
  deg_els d' hd := h.deg_els d' (List.mem_append_left _ hd)
  sorted d' hd := h.sorted d' (List.mem_append_left _ hd)
  good d' hd := h.good d' (List.mem_append_left _ hd)
  rows d' hd c hc l hl t ht := ⟨(h.rows d' (List.mem_append_left _ hd) c hc l hl t ht).1,
    fun e he => (h.rows d' (List.mem_append_left _ hd) c hc l hl t ht).2 e (List.mem_append_left _ he)⟩
  nodup := (List.nodup_append.1 h.nodup).1
  order p d' q e := h.order p d' (q ++ [d]) (by rw [e]; simp)
  shift := h.shift
  sq d' hd e he := h.sq d' (List.mem_append_left _ hd) e (List.mem_append_left _ he)

/-- On a chain complex the algorithm panics if no column of the last dimension `d` can be read, unless all columns of dimension `d` are zero. (`D'` is like
`D` but may panic more often.) -/
theorem clearing_reads_last {d : ℕ} (hC : SplitComplex K D B f M deg ε (dims ++ [d]) els) (hle : DLE D' D) (hnone : ∀ c ∈ els d, D'.colF c = none)
    {c : T} (hc : c ∈ els d) (hne : M c ≠ 0) (fuel : ℕ) : buildWithDiagram D' B fuel (dims ++ [d]) = none := by
  by_contra hcon
  obtain ⟨x, hx⟩ := Option.ne_none_iff_exists'.1 hcon
  unfold buildWithDiagram at hx
  rw [clrAll_append] at hx
  obtain ⟨s2, h2, -⟩ := Option.map_eq_some_iff.1 hx
  obtain ⟨s, hs, h3⟩ := Option.bind_eq_some_iff.1 h2
  simp only [clrAll, Option.bind_eq_some_iff] at h3
  obtain ⟨s3, h4, -⟩ := h3
  unfold clrDimension at h4
  obtain ⟨Bd, hBd, h5⟩ := Option.bind_eq_some_iff.1 h4
  obtain ⟨p', h6, -⟩ := Option.map_eq_some_iff.1 h5
  have hdm : d ∈ dims ++ [d] := by simp
  obtain ⟨Bd', hB1, hB2⟩ := hC.basis d hdm
  rw [hBd] at hB1; cases hB1
  obtain ⟨hlen, hel⟩ := elems_spec hB2
  have hall : ∀ b ∈ els d, (s.rc b).isSome := by
    intro b hb
    obtain ⟨i, hi, rfl⟩ := List.mem_iff_getElem.1 hb
    refine clrLoop_unread (fun i hi b hb => ?_) h6 i (List.mem_range.2 (by omega)) _ (by rw [hel i (by omega)]; simp [hi])
    rw [List.mem_range] at hi
    rw [hel i hi] at hb
    exact hnone b (List.mem_of_getElem? hb)
  -- the state before the last dimension
  obtain ⟨t, ht1, ht2⟩ := clearing_unique hC.init (fuel := fuel) (rc := s.rc) (dgm := s.diagram) (by
    unfold buildWithDiagram
    rw [clrAll_mono hle (le_refl fuel) hs]; rfl)
  have hinv := ht2.2
  rw [show s = t by cases s; cases t; simp only at ht1 ht2; rw [ht1, ht2.1]] at hall
  -- every cell of dimension `d` is the leading term of a cycle of cells of dimension `d`
  have hlead : ∀ b ∈ els d, ∃ R : T →₀ K, IsPivot f R b ∧ linearCombination K M R = 0 ∧ ∀ y, R y ≠ 0 → y ∈ els d := by
    intro b hb
    have hbd := hC.deg_els d hdm b hb
    have hnp : b ∉ dims.flatMap els := by
      intro hm
      obtain ⟨d', hd', hb'⟩ := List.mem_flatMap.1 hm
      have := hC.deg_els d' (List.mem_append_left _ hd') b hb'
      have : d' = d := by omega
      subst this
      exact (List.nodup_append.1 hC.nodup).2.2 d' hd' d' (by simp) rfl
    have hcl : ∃ j, t.rc b = some (.cleared j) := by
      obtain ⟨y, hy⟩ := Option.isSome_iff_exists.1 (hall b hb)
      cases y with
      | cleared j => exact ⟨j, hy⟩
      | reduced l => exact absurd ((hinv.reduced b).1 ⟨l, hy⟩).1 hnp
    obtain ⟨j, hj⟩ := hcl
    obtain ⟨hjp, hpiv⟩ := (hinv.cleared b j).1 hj
    obtain ⟨dj, hdj, hjd⟩ := List.mem_flatMap.1 hjp
    have hdj' : dj ∈ dims ++ [d] := List.mem_append_left _ hdj
    have hsupp : ∀ y, Wc K M t.rc j y ≠ 0 → y ∈ els dj := by
      intro y hy
      obtain ⟨dy, hdy, hyd⟩ := List.mem_flatMap.1 (hinv.dec.mem_of_ne hjp hy)
      have e1 := hC.deg_els dy (List.mem_append_left _ hdy) y hyd
      have e2 := hinv.degW j hjp y hy
      have e3 := hC.deg_els dj hdj' j hjd
      have : dy = dj := by omega
      exact this ▸ hyd
    have hdd : (d : ℤ) = dj + ε := by
      obtain ⟨y, y1, y2⟩ := lc_support hpiv.1
      rw [← (hC.row_of_ne hdj' (hsupp y y1) y2).1, hbd]
    refine ⟨_, hpiv, ?_, ?_⟩
    · rw [Finsupp.linearCombination_apply K (Wc K M t.rc j), Finsupp.sum, map_sum]
      refine Finset.sum_eq_zero fun y hy => ?_
      rw [map_smul, hC.sq dj hdj' d hdm hdd y (hsupp y (Finsupp.mem_support_iff.1 hy)), smul_zero]
    · intro y hy
      obtain ⟨z, z1, z2⟩ := lc_support hy
      exact (hC.row_of_ne hdj' (hsupp z z1) z2).2 d hdm hdd
  -- so all columns are zero
  have hzero : ∀ (m : ℕ) (b : T), b ∈ els d → ((els d).filter fun y => rowKey f y < rowKey f b).length = m → M b = 0 := by
    intro m
    induction m using Nat.strong_induction_on with
    | _ m ih =>
      intro b hb hm
      obtain ⟨R, hp, hR, hsup⟩ := hlead b hb
      have hlow : ∀ y, R y ≠ 0 → y ≠ b → M y = 0 := by
        intro y hy hyb
        have hlt : rowKey f y < rowKey f b := lt_of_le_of_ne (hp.2 y hy) fun e => hyb (rowKey_injective f e)
        refine ih _ ?_ y (hsup y hy) rfl
        rw [← hm]
        rw [← List.countP_eq_length_filter, ← List.countP_eq_length_filter]
        have hle : (els d).countP (fun z => decide (rowKey f z < rowKey f y)) + 1 ≤ (els d).countP fun z => decide (rowKey f z < rowKey f b) := by
          obtain ⟨l1, l2, hl⟩ := List.append_of_mem (hsup y hy)
          rw [hl, List.countP_append, List.countP_append, List.countP_cons, List.countP_cons]
          have a1 : l1.countP (fun z => decide (rowKey f z < rowKey f y)) ≤ l1.countP fun z => decide (rowKey f z < rowKey f b) :=
            List.countP_mono_left fun z _ hz => by
              simp only [decide_eq_true_eq] at hz ⊢; exact hz.trans hlt
          have a2 : l2.countP (fun z => decide (rowKey f z < rowKey f y)) ≤ l2.countP fun z => decide (rowKey f z < rowKey f b) :=
            List.countP_mono_left fun z _ hz => by
              simp only [decide_eq_true_eq] at hz ⊢; exact hz.trans hlt
          simp only [lt_self_iff_false, decide_false, Bool.false_eq_true, if_false, hlt, decide_true, if_true]
          omega
        omega
      rw [Finsupp.linearCombination_apply, Finsupp.sum, Finset.sum_eq_single b] at hR
      · exact (smul_eq_zero.1 hR).resolve_left hp.1
      · intro y hy hyb
        rw [hlow y (Finsupp.mem_support_iff.1 hy) hyb, smul_zero]
      · intro hb'
        exact absurd (Finsupp.mem_support_iff.2 hp.1) hb'
  exact hne (hzero _ c hc rfl)

end
end Phlite
