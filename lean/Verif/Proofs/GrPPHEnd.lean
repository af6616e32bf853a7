/-
The entry point `grpph`: the coboundary matrix as input of clearing, and the translation of the diagram.
-/
import Verif.Proofs.GrPPHCoboundary
import Verif.Proofs.GrPPHHomology
import Verif.Props.Homology

set_option linter.unusedSectionVars false
set_option linter.unusedSimpArgs false

namespace Phlite
open Finsupp (single linearCombination linearCombination_single)
open OrderDual (toDual ofDual)

section
variable {F : Type} [LinearOrder F] [Zero F] [OrderTop F]
variable {et : EdgeTime F} {n : ℕ} {time : ℕ → ℕ → Option F} {E : List (ℕ × ℕ)} {bm : BridgeMap}
variable {K CF : Type} [Field K] [NonZeroCoeff CF] [LawfulCoeff CF K]

theorem grpphBasis (h : IsDigraphFiltration et n time) {basis : List (List (F × PathHomCell))} (hb : buildGrpphBasis et E n = some basis) :
    ∀ d : ℕ, d ≤ 1 → ∃ Bd, (multiDimBasis basis).inDim d = some Bd ∧ Bd.elems = some (grpphCells et n time E d) := by
  rw [buildGrpphBasis_spec h] at hb
  cases hb
  intro d hd
  interval_cases d
  · exact ⟨singleDimBasis ((raw0 F n).insertionSort cellTupleLe), by simp [multiDimBasis], elems_singleDim' _⟩
  · exact ⟨singleDimBasis ((raw1 n time E).insertionSort cellTupleLe), by simp [multiDimBasis], elems_singleDim' _⟩

theorem grpphSplit (h : IsDigraphFiltration et n time) (hE : E.Nodup) (hEn : ∀ e ∈ E, e.1 < n ∧ e.2 < n)
    (hbm : ∀ a c b, bm (a, c) = some b ↔ IsPrimaryBridge n time a c b) {basis : List (List (F × PathHomCell))}
    (hb : buildGrpphBasis et E n = some basis) :
    SplitComplex K (grpphCoboundary CF et bm E n).ref (multiDimBasis basis) (grpphF et E) (grpphN K et n time E) grpphDeg 1
      (List.range 2) fun d => grpphCells et n time E d := by
  refine (grpphCellComplex h hE hEn CF).splitCob (m := 1) (grpphBasis h hb) ?_ ?_
  · intro d hd c hc
    obtain ⟨l, h1, _, h3, h4⟩ := grpphCoboundary_spec (CF := CF) (K := K) h hE hEn hbm (by omega) hc
    refine readsCol_ref h1 ?_ h4
    intro x hx
    obtain ⟨y, hy, rfl⟩ := List.mem_map.1 hx
    have := (h3 y hy).2
    show grpphFiltrationValue et E y.2.1 = some (grpphF et E y.2.1)
    unfold grpphF; rw [this]; rfl
  · intro d hd c hc l hl x hx
    obtain ⟨l', h1, _, h3, _⟩ := grpphCoboundary_spec (CF := CF) (K := K) h hE hEn hbm (by omega) hc
    have e : l = _ := Option.some.inj (hl.symm.trans h1)
    rw [e] at hx
    obtain ⟨y, hy, rfl⟩ := List.mem_map.1 hx
    exact (h3 y hy).1

/-! ### Reports -/

theorem reportEssential_spec {filt : PathHomCell → Option F} {f : PathHomCell → F} (l : List PathHomCellᵒᵈ)
    (hl : ∀ x ∈ l, filt (ofDual x) = some (f (ofDual x)) ∧ (ofDual x).dimension < 2) :
    reportEssential filt l = some [(l.filter fun x => (ofDual x).dimension = 0).map fun x => f (ofDual x),
      (l.filter fun x => (ofDual x).dimension = 1).map fun x => f (ofDual x)] := by
  have key : ∀ (l : List PathHomCellᵒᵈ) (A B : List F), (∀ x ∈ l, filt (ofDual x) = some (f (ofDual x)) ∧ (ofDual x).dimension < 2) →
      l.foldlM (fun essential idx => (filt (OrderDual.ofDual idx)).bind fun f_val =>
        pushBar essential (OrderDual.ofDual idx).dimension f_val) [A, B] =
      some [A ++ (l.filter fun x => (ofDual x).dimension = 0).map fun x => f (ofDual x),
        B ++ (l.filter fun x => (ofDual x).dimension = 1).map fun x => f (ofDual x)] := by
    intro l
    induction l with
    | nil => intro A B _; simp
    | cons x l ih =>
      intro A B hl
      obtain ⟨h1, h2⟩ := hl x (by simp)
      rw [List.foldlM_cons, h1, Option.bind_some]
      have h3 : (ofDual x).dimension = 0 ∨ (ofDual x).dimension = 1 := by omega
      rcases h3 with h3 | h3
      · rw [h3]
        show (List.foldlM _ [A ++ [f (ofDual x)], B] l) = _
        rw [ih _ _ fun y hy => hl y (by simp [hy])]
        simp [h3]
      · rw [h3]
        show (List.foldlM _ [A, B ++ [f (ofDual x)]] l) = _
        rw [ih _ _ fun y hy => hl y (by simp [hy])]
        simp [h3]
  exact key l [] [] hl

/-- The bars reported in dimension `d`. -/
def barsIn (f : PathHomCell → F) (l : List (PathHomCellᵒᵈ × PathHomCellᵒᵈ)) (d : ℕ) : List (F × F) :=
  (l.filter fun x => f (ofDual x.1) ≠ f (ofDual x.2) ∧ (ofDual x.2).dimension = d).map fun x => (f (ofDual x.2), f (ofDual x.1))

theorem reportPairings_spec {filt : PathHomCell → Option F} {f : PathHomCell → F} (l : List (PathHomCellᵒᵈ × PathHomCellᵒᵈ))
    (hl : ∀ x ∈ l, filt (ofDual x.2) = some (f (ofDual x.2)) ∧ filt (ofDual x.1) = some (f (ofDual x.1)) ∧ (ofDual x.2).dimension < 2) :
    reportPairings filt l = some [barsIn f l 0, barsIn f l 1] := by
  have key : ∀ (l : List (PathHomCellᵒᵈ × PathHomCellᵒᵈ)) (A B : List (F × F)),
      (∀ x ∈ l, filt (ofDual x.2) = some (f (ofDual x.2)) ∧ filt (ofDual x.1) = some (f (ofDual x.1)) ∧ (ofDual x.2).dimension < 2) →
      l.foldlM (fun pairings p =>
        (filt (OrderDual.ofDual p.2)).bind fun birth_f => (filt (OrderDual.ofDual p.1)).bind fun death_f =>
          if death_f = birth_f then some pairings else pushBar pairings (OrderDual.ofDual p.2).dimension (birth_f, death_f)) [A, B] =
      some [A ++ barsIn f l 0, B ++ barsIn f l 1] := by
    intro l
    induction l with
    | nil => intro A B _; simp [barsIn]
    | cons x l ih =>
      intro A B hl
      obtain ⟨h1, h1', h2⟩ := hl x (by simp)
      rw [List.foldlM_cons, h1, Option.bind_some, h1', Option.bind_some]
      by_cases hz : f (ofDual x.1) = f (ofDual x.2)
      · rw [if_pos hz]
        show (List.foldlM _ [A, B] l) = _
        rw [ih _ _ fun y hy => hl y (by simp [hy])]
        simp [barsIn, hz]
      rw [if_neg hz]
      have h3 : (ofDual x.2).dimension = 0 ∨ (ofDual x.2).dimension = 1 := by omega
      rcases h3 with h3 | h3
      · rw [h3]
        show (List.foldlM _ [A ++ [(f (ofDual x.2), f (ofDual x.1))], B] l) = _
        rw [ih _ _ fun y hy => hl y (by simp [hy])]
        simp [barsIn, h3, hz]
      · rw [h3]
        show (List.foldlM _ [A, B ++ [(f (ofDual x.2), f (ofDual x.1))]] l) = _
        rw [ih _ _ fun y hy => hl y (by simp [hy])]
        simp [barsIn, h3, hz]
  exact key l [] [] hl

/-- Counting in the reports is counting in the diagram. -/
theorem report_count {f : PathHomCell → F} {dgm : Diagram PathHomCellᵒᵈ} {le : List PathHomCellᵒᵈ} {lp : List (PathHomCellᵒᵈ × PathHomCellᵒᵈ)}
    (he : le.Nodup) (he' : ∀ x, x ∈ le ↔ x ∈ dgm.essential) (hp : lp.Nodup) (hp' : ∀ x, x ∈ lp ↔ x ∈ dgm.pairings) (p : ℕ) {s t : F} (hst : s ≤ t) :
    barsAliveRev grpphDeg f dgm p s t =
      (((le.filter fun x => (ofDual x).dimension = p).map fun x => f (ofDual x)).countP fun b => b ≤ s) +
        (barsIn f lp p).countP fun b => b.1 ≤ s ∧ t < b.2 := by
  classical
  unfold barsAliveRev
  congr 1
  · rw [List.countP_map, List.countP_filter, List.countP_eq_length_filter, ← List.toFinset_card_of_nodup (he.filter _)]
    congr 1
    ext x
    simp only [Finset.mem_filter, List.mem_toFinset, List.mem_filter, he', Function.comp_apply, Bool.and_eq_true, decide_eq_true_eq, grpphDeg,
      Nat.cast_inj]
    tauto
  · unfold barsIn
    rw [List.countP_map, List.countP_filter, List.countP_eq_length_filter, ← List.toFinset_card_of_nodup (hp.filter _)]
    congr 1
    ext x
    simp only [Finset.mem_filter, List.mem_toFinset, List.mem_filter, hp', Function.comp_apply, Bool.and_eq_true, decide_eq_true_eq, grpphDeg,
      Nat.cast_inj]
    constructor
    · rintro ⟨h1, h2, h3, h4⟩
      refine ⟨h1, ⟨h3, h4⟩, ?_, h2⟩
      intro e
      rw [e] at h4
      exact absurd (lt_of_le_of_lt (h3.trans hst) h4) (lt_irrefl _)
    · tauto

/-! ### The diagram -/

variable [StdHeap]

/-- The run of clearing, for any filtration. -/
theorem grpphRun_spec (h : IsDigraphFiltration et n time)
    (hE : E.Nodup) (hEn : ∀ e ∈ E, e.1 < n ∧ e.2 < n) :
    ∃ D dgm, (∃ enough, ∀ fuel ≥ enough, grpphRun CF et E n fuel = some (D, dgm)) ∧
      D.filt = grpphFiltrationValue et E ∧
      (∀ σ τ, (toDual τ, toDual σ) ∈ dgm.pairings ↔ (∃ d ∈ List.range 2,
        IsPersistencePair (rowKey (grpphF et E)) (grpphCells et n time E (d + 1)) (grpphM K) σ τ)) ∧
      (∀ σ, toDual σ ∈ dgm.essential → (∃ d < 2, σ ∈ grpphCells et n time E (d : ℕ)) ∧ ∀ τ, (toDual τ, toDual σ) ∉ dgm.pairings) ∧
      ∀ p : ℕ, p < 2 → ∀ (s t : F) (hst : s ≤ t), persistentBetti (grpphM K)
          (sublevel_mono (grpphF et E) (grpphCells et n time E) p hst)
          (sublevel_mono (grpphF et E) (grpphCells et n time E) (p + 1) hst) =
        barsAliveRev grpphDeg (grpphF et E) dgm p s t := by
  obtain ⟨bm, hb1, hb2⟩ := buildPrimaryBridgeMap_spec h
  obtain ⟨basis, hbas⟩ : ∃ basis, buildGrpphBasis et E n = some basis := ⟨_, buildGrpphBasis_spec h E⟩
  have hS := grpphSplit (K := K) (CF := CF) h hE hEn hb2 hbas
  have hX := grpphCellComplex (K := K) h hE hEn CF
  obtain ⟨rc, dgm, hrun⟩ := C20_clearing_terminates hS.reverse
  set cells := grpphCells et n time E with hcells
  have hrun' : ∀ fuel ≥ ((List.range 2).map fun k : ℕ => (cells k).length).sum + 1,
      buildWithDiagram (grpphCoboundary CF et bm E n).ref.reverse (multiDimBasis basis).reverse fuel (List.range 2) =
        some (rc, dgm) := by
    intro fuel hf
    refine (hrun fuel fun k hk => ?_).1
    rw [List.length_map, List.length_reverse]
    have : (cells k).length ≤ ((List.range 2).map fun k : ℕ => (cells k).length).sum := List.le_sum_of_mem (List.mem_map.2 ⟨k, hk, rfl⟩)
    omega
  obtain ⟨cp, ce⟩ := clearing_pair_dim hS.reverse (hrun' _ le_rfl)
  refine ⟨(grpphCoboundary CF et bm E n).withBasis, dgm,
    ⟨((List.range 2).map fun k : ℕ => (cells k).length).sum + 1, fun fuel hf => ?_⟩, rfl, ?_, ?_, ?_⟩
  · unfold grpphRun buildGrpphCoboundary
    rw [hb1, Option.bind_some, hbas, Option.map_some, Option.bind_some]
    have := hrun' fuel hf
    have e2 : (grpphCoboundary CF et bm E n).withBasis.ref.reverse.ref =
        (grpphCoboundary CF et bm E n).ref.reverse := by
      rw [reverse_ref]; rfl
    show (buildWithDiagram (grpphCoboundary CF et bm E n).withBasis.ref.reverse.ref _ fuel (List.range 2)).map _ = _
    rw [e2, this, Option.map_some]
  · intro σ τ
    rw [cp]
    constructor
    · rintro ⟨d, hd, hp⟩
      obtain ⟨h1, h2⟩ := hX.copair_mem hp
      exact ⟨d, hd, (hX.dual h1 h2).1 hp⟩
    · rintro ⟨d, hd, hp⟩
      obtain ⟨h2, h1⟩ := hX.pair_mem hp
      rw [add_sub_cancel_right] at h1
      exact ⟨d, hd, (hX.dual h1 h2).2 hp⟩
  · intro σ hσ
    have hmem : ∀ {d : ℕ}, toDual σ ∈ (cells d).reverse.map toDual → σ ∈ cells d := by
      intro d this
      obtain ⟨x, hx, e⟩ := List.mem_map.1 this
      rw [OrderDual.toDual_inj] at e
      rw [← e]; exact List.mem_reverse.1 hx
    obtain ⟨d, hd, hdep, _⟩ := (ce _).1 hσ
    have hσd := hmem hdep.mem
    refine ⟨⟨d, List.mem_range.1 hd, hσd⟩, fun τ hp => ?_⟩
    obtain ⟨d', hd', hp'⟩ := (cp _ _).1 hp
    obtain ⟨pre, post, h1, _⟩ := id hp'
    have hσd' : σ ∈ cells d' := hmem (by rw [h1]; simp)
    have e : (d : ℤ) = d' := by rw [← hX.deg_cells _ _ hσd, ← hX.deg_cells _ _ hσd']
    have e : d = d' := by exact_mod_cast e
    subst e
    refine (death_iff (rowKey_injective _) ?_ _ hdep.mem).1 hdep ⟨_, hp'⟩
    exact (List.nodup_reverse.2 (grpphCells_nodup hE d)).map fun _ _ h => h
  · intro p hp s t hst
    refine C26_betti hX hS (hrun' _ le_rfl) (List.mem_range.2 hp) ?_ hst
    interval_cases p
    · exact Or.inl (cells_other (by decide) (by decide) (by decide))
    · exact Or.inr ⟨0, by simp, rfl⟩

end
end Phlite
