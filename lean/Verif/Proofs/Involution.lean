/-
The second half of `grpph_with_involution`: the involution basis, its reduction and the representatives.
-/
import Verif.Proofs.GrPPHEnd
import Verif.Theory.Reps
import Verif.Props.Standard
import Verif.Props.Columns
import Verif.Props.GrPPH

set_option linter.unusedSectionVars false
set_option linter.unusedSimpArgs false

namespace Phlite
open Finsupp (single linearCombination linearCombination_single)
open OrderDual (toDual ofDual)

section
variable {F : Type} [LinearOrder F] [Zero F] [OrderTop F]
variable {et : EdgeTime F} {n : ℕ} {time : ℕ → ℕ → Option F} {E : List (ℕ × ℕ)} {bm : BridgeMap}
variable {K CF : Type} [Field K] [NonZeroCoeff CF] [LawfulCoeff CF K]

theorem grpphF_spec (h : IsDigraphFiltration et n time) {d : ℤ} {c : PathHomCell} (hc : c ∈ grpphCells et n time E d) :
    grpphFiltrationValue et E c = some (grpphF et E c) := by
  by_cases e0 : d = 0
  · subst e0
    obtain ⟨s, hs, rfl⟩ := mem_cells0.1 hc; rfl
  by_cases e1 : d = 1
  · subst e1
    obtain ⟨e, rfl, he⟩ := mem_cells1.1 hc
    exact grpphF_edge h he
  by_cases e2 : d = 2
  · subst e2
    obtain ⟨τ, t, hτ, rfl⟩ := mem_cells2.1 hc
    unfold grpphF; rw [hτ.filt h E]; rfl
  rw [cells_other e0 e1 e2] at hc; simp at hc

theorem eq_of_sorted {T : Type} [LinearOrder T] {f : T → F} {l l' : List T} (hl : l.Pairwise fun a b => rowKey f a < rowKey f b)
    (hl' : l'.Pairwise fun a b => rowKey f a < rowKey f b) (hm : ∀ x, x ∈ l ↔ x ∈ l') : l = l' :=
  ((List.perm_ext_iff_of_nodup (sorted_nodup hl) (sorted_nodup hl')).2 hm).eq_of_pairwise
    (fun _ _ _ _ hab hba => absurd (hab.trans hba) (lt_irrefl _)) hl hl'

/-- The involution basis consists of the death cells of degree 2. -/
theorem involutionBasis_spec (h : IsDigraphFiltration et n time) (hE : E.Nodup) (hEn : ∀ e ∈ E, e.1 < n ∧ e.2 < n)
    {lp : List (PathHomCellᵒᵈ × PathHomCellᵒᵈ)} (hlp : lp.Nodup) (hp : ∀ σ τ, (toDual τ, toDual σ) ∈ lp ↔
      ∃ d ∈ List.range 2, IsPersistencePair (rowKey (grpphF et E)) (grpphCells et n time E (d + 1)) (grpphM K) σ τ) (CF : Type) [NonZeroCoeff CF]
    [LawfulCoeff CF K] :
    ∃ basis, involutionBasis (grpphFiltrationValue et E) lp = some basis ∧
      basis.map Prod.snd = deathsOf (rowKey (grpphF et E)) (grpphCells et n time E 2) (grpphM K) := by
  have hX := grpphCellComplex (K := K) h hE hEn CF
  have hmem : ∀ x ∈ lp, ∃ d : ℕ, d < 2 ∧ ofDual x.2 ∈ grpphCells et n time E d ∧ ofDual x.1 ∈ grpphCells et n time E (d + 1) ∧
      IsPersistencePair (rowKey (grpphF et E)) (grpphCells et n time E (d + 1)) (grpphM K) (ofDual x.2) (ofDual x.1) := by
    intro x hx
    obtain ⟨d, hd, hpair⟩ := (hp (ofDual x.2) (ofDual x.1)).1 hx
    obtain ⟨h1, h2⟩ := hX.pair_mem hpair
    rw [add_sub_cancel_right] at h2
    exact ⟨d, List.mem_range.1 hd, h2, h1, hpair⟩
  set g : PathHomCellᵒᵈ × PathHomCellᵒᵈ → Option (F × PathHomCell) := fun p =>
    if (ofDual p.2).dimension = 1 then some (grpphF et E (ofDual p.1), ofDual p.1) else none with hg
  have h1 : involutionBasis (grpphFiltrationValue et E) lp = some ((lp.filterMap g).insertionSort cellTupleLe) := by
    unfold involutionBasis
    rw [filterMapOpt_eq _ g]
    · rfl
    · intro x hx
      obtain ⟨d, _, h2, h3, _⟩ := hmem x hx
      rw [grpphF_spec h h2, grpphF_spec h h3]
      rfl
  have gsome : ∀ x ∈ lp, ∀ y, g x = some y → y = (grpphF et E (ofDual x.1), ofDual x.1) ∧
      IsPersistencePair (rowKey (grpphF et E)) (grpphCells et n time E 2) (grpphM K) (ofDual x.2) (ofDual x.1) := by
    intro x hx y hy
    obtain ⟨d, hd, h2, h3, h4⟩ := hmem x hx
    rw [hg] at hy
    simp only at hy
    split at hy
    · rename_i hdim
      have := deg_of_mem h2
      unfold grpphDeg at this
      rw [hdim] at this
      have : d = 1 := by omega
      subst this
      exact ⟨(Option.some.inj hy).symm, h4⟩
    · cases hy
  have hnd : ((lp.filterMap g).map Prod.snd).Nodup := by
    refine filterMap_nodup g Prod.snd hlp ?_
    intro x hx x' hx' y y' hy hy' e
    obtain ⟨rfl, q⟩ := gsome x hx y hy
    obtain ⟨rfl, q'⟩ := gsome x' hx' y' hy'
    simp only at e
    rw [← e] at q'
    have := (pair_unique (rowKey_injective _) (grpphCells_nodup hE 2) (grpphM K)).1 _ _ _ q q'
    exact Prod.ext (congrArg toDual e) (congrArg toDual this)
  refine ⟨_, h1, ?_⟩
  refine eq_of_sorted (sort_sorted hnd ?_) (deathsOf_sorted (grpphCells_sorted h hE 2)) ?_
  · intro y hy
    obtain ⟨x, hx, hxy⟩ := List.mem_filterMap.1 hy
    obtain ⟨rfl, _⟩ := gsome x hx y hxy
    rfl
  · intro τ
    rw [mem_sort_map, mem_deathsOf, List.mem_map]
    constructor
    · rintro ⟨y, hy, rfl⟩
      obtain ⟨x, hx, hxy⟩ := List.mem_filterMap.1 hy
      obtain ⟨rfl, q⟩ := gsome x hx y hxy
      exact ⟨_, q⟩
    · rintro ⟨σ, hσ⟩
      obtain ⟨_, h2⟩ := hX.pair_mem hσ
      refine ⟨(grpphF et E τ, τ), List.mem_filterMap.2 ⟨(toDual τ, toDual σ), (hp σ τ).2 ⟨1, by simp, hσ⟩, ?_⟩, rfl⟩
      have := deg_of_mem h2
      unfold grpphDeg at this
      exact if_pos (show σ.dimension = 1 by omega)

/-- The boundary matrix on the death cells. -/
theorem grpphFinite (h : IsDigraphFiltration et n time) (hE : E.Nodup) (hEn : ∀ e ∈ E, e.1 < n ∧ e.2 < n) {basis : List (F × PathHomCell)}
    (hb : basis.map Prod.snd = deathsOf (rowKey (grpphF et E)) (grpphCells et n time E 2) (grpphM K)) :
    FiniteMatrix K (buildGrpphBoundary CF et E basis).1.ref (buildGrpphBoundary CF et E basis).2 (grpphF et E) (grpphM K)
      (deathsOf (rowKey (grpphF et E)) (grpphCells et n time E 2) (grpphM K)) where
  basis := by rw [← hb]; exact elems_singleDim' basis
  nodup := (grpphCells_nodup hE 2).filter _
  reads c hc := by
    have hc2 : c ∈ grpphCells et n time E 2 := (List.mem_filter.1 hc).1
    refine readsCol_ref (l := grpphBoundaryColumn CF c) rfl ?_ (grpphBoundary_lcOf c)
    intro t ht
    exact grpphF_spec h (boundary_rows h hEn hc2 t ht)

/-! ### Sorted columns of products -/

variable [StdHeap]

/-- Building and draining an enriched column. -/
theorem drain_hasCol {T : Type} [LinearOrder T] {M : FOracle CF T T F} (hM : Enriches M) {f : T → F} {c : T} {v : T →₀ K}
    (hv : HasCol K M.toOracle c v) (hf : ∀ l, M.column c = some l → ∀ t ∈ l, M.filt t.2 = some (f t.2)) :
    ∃ b es, M.buildBhcol c = some b ∧ BHCol.toSortedVec b = some es ∧ BHCol.IsCanonical f v es := by
  obtain ⟨l, h1, h2⟩ := hv
  have hcol : M.colF c = some (l.map fun t => ⟨f t.2, t.2, t.1⟩) := by
    rw [hM c, h1, Option.bind_some]
    refine mapOpt_eq_map _ _ _ fun t ht => ?_
    rw [hf l h1 t ht]; rfl
  have hco : Coherent f (StdHeap.bag ((BHCol.empty : BHCol F T CF).addEntries (l.map fun t => ⟨f t.2, t.2, t.1⟩))) := by
    refine coherent_add ?_ ?_
    · intro e he; rw [BHCol.bag_empty'] at he; simp at he
    · intro e he
      obtain ⟨t, _, rfl⟩ := List.mem_map.1 he
      rfl
  obtain ⟨es, h3, h4⟩ := BHCol.toSortedVec_spec (K := K) f _ hco
  refine ⟨_, es, by unfold FOracle.buildBhcol; rw [hcol]; rfl, h3, ?_⟩
  rw [BHCol.vec_addEntries, BHCol.vec_empty, add_zero, sum_vec_eq_lcOf, List.map_map] at h4
  have : (l.map ((fun e : Entry F T CF => (e.coeff, e.row)) ∘ fun t => ⟨f t.2, t.2, t.1⟩)) = l := by
    rw [List.map_congr_left (g := id)]
    · simp
    · intro t _; rfl
  rw [this, h2] at h4
  exact h4

/-- The representatives: every death cell of degree 2 (with a bar of positive length) contributes the list of the edges of its reduced
boundary, in descending order. -/
theorem involutionReps_spec (h : IsDigraphFiltration et n time) (hE : E.Nodup) (hEn : ∀ e ∈ E, e.1 < n ∧ e.2 < n) {basis : List (F × PathHomCell)}
    (hb : basis.map Prod.snd = deathsOf (rowKey (grpphF et E)) (grpphCells et n time E 2) (grpphM K)) :
    ∃ (W : PathHomCell → (PathHomCell →₀ K)) (rep : PathHomCell → List (ℕ × ℕ)) (S : Finset (PathHomCell × PathHomCell)),
      Decomp (rowKey (grpphF et E)) (deathsOf (rowKey (grpphF et E)) (grpphCells et n time E 2) (grpphM K)) (grpphM K) W ∧
      (∀ σ τ, (σ, τ) ∈ S ↔ IsPersistencePair (rowKey (grpphF et E)) (grpphCells et n time E 2) (grpphM K) σ τ) ∧
      (∀ σ τ, (σ, τ) ∈ S → (rep τ).Nodup ∧ (∀ e : ℕ × ℕ, e ∈ rep τ ↔ linearCombination K (grpphM K) (W τ) (.edge e.1 e.2) ≠ 0) ∧
        ∃ e ∈ (rep τ).head?, PathHomCell.edge e.1 e.2 = σ) ∧
      ∀ fuel : ℕ → ℕ, (∀ i < basis.length, i + 1 ≤ fuel i) → ∀ enumB : Finset (PathHomCell × PathHomCell) → List (PathHomCell × PathHomCell),
        (∀ x, x ∈ enumB S ↔ x ∈ S) →
        involutionReps CF enumB et E (grpphFiltrationValue et E) basis fuel =
          some (((enumB S).filter fun p => grpphF et E p.2 ≠ grpphF et E p.1).map fun p => rep p.2) := by
  classical
  have hX := grpphCellComplex (K := K) h hE hEn CF
  have hF := grpphFinite (K := K) (CF := CF) h hE hEn hb
  set f := grpphF et E with hf
  set deaths := deathsOf (rowKey f) (grpphCells et n time E 2) (grpphM K) with hdeaths
  obtain ⟨v, dgm, hrun⟩ := C16_standard_terminates hF false
  have hlen : (buildGrpphBoundary CF et E basis).2.size = basis.length := rfl
  have hr0 := hrun (fun i => i + 1) fun _ _ => le_rfl
  obtain ⟨hv, V, hV1, hV2, hV3, hV4, hV5, _⟩ := C17_standard_rdv hF hr0.1
  have hW : Decomp (rowKey f) deaths (grpphM K) V := by
    refine ⟨hF.nodup, fun c hc => ?_, hV3, hV5⟩
    rw [hV2 c hc]; exact one_ne_zero
  have hS : ∀ σ τ, (σ, τ) ∈ dgm.pairings ↔ IsPersistencePair (rowKey f) (grpphCells et n time E 2) (grpphM K) σ τ := by
    intro σ τ
    rw [C18_pairings hF hr0.2.2.1, pairs_restrict (rowKey_injective _) (grpphCells_nodup hE 2)]
  set R : FOracle CF PathHomCell PathHomCell F := productF (buildGrpphBoundary CF et E basis).1.ref (mapVecMatrix v) with hR
  obtain ⟨hR1, hR2, hR3⟩ := C08_product_filtration (buildGrpphBoundary CF et E basis).1.ref (mapVecMatrix v) (fun _ => rfl)
  have hdrain : ∀ τ ∈ deaths, ∃ b es, R.buildBhcol τ = some b ∧ BHCol.toSortedVec b = some es ∧
      BHCol.IsCanonical f (linearCombination K (grpphM K) (V τ)) es := by
    intro τ hτ
    refine drain_hasCol hR1 ?_ ?_
    · rw [hR2]; exact hV4 τ hτ
    · intro l hl t ht
      have hl' : (product (buildGrpphBoundary CF et E basis).1.ref.toOracle (mapVecMatrix v)).column τ = some l := hl
      obtain ⟨lv, hlv, _⟩ := hV1 τ hτ
      simp only [product, prodColumn, mapVecMatrix, hlv, Option.bind_some] at hl'
      have : flatMapOpt (fun t : CF × PathHomCell => ((buildGrpphBoundary CF et E basis).1.ref.column t.2).map fun lc =>
          lc.map fun u => (NonZeroCoeff.mul u.1 t.1, u.2)) lv =
          some (lv.flatMap fun t => (grpphBoundaryColumn CF t.2).map fun u => (NonZeroCoeff.mul u.1 t.1, u.2)) := flatMapOpt_eq _ _ _ fun _ _ => rfl
      rw [this] at hl'
      cases hl'
      obtain ⟨x, hx, hx'⟩ := List.mem_flatMap.1 ht
      obtain ⟨u, hu, rfl⟩ := List.mem_map.1 hx'
      obtain ⟨lv', e1, hsp⟩ := hV1 τ hτ
      rw [hlv] at e1; cases e1
      have hxd : x.2 ∈ deaths := by
        obtain ⟨p, q, hpq⟩ := List.append_of_mem hτ
        rcases hV3 p τ q hpq x.2 ((hsp.2 x).1 hx).1 with e | e
        · rw [e]; exact hτ
        · rw [hpq]; simp [e]
      exact grpphF_spec h (boundary_rows h hEn (List.mem_filter.1 hxd).1 u hu)
  have : Nonempty (BHCol F PathHomCell CF) := ⟨BHCol.empty⟩
  choose! bcol es hb1 hb2 hb3 using hdrain
  let toEdge : PathHomCell → ℕ × ℕ := fun c => match c with
    | .edge a b => (a, b)
    | _ => (0, 0)
  have hedge : ∀ τ ∈ deaths, ∀ e ∈ es τ, ∃ a b, e.row = PathHomCell.edge a b := by
    intro τ hτ e he
    have hne := ((hb3 τ hτ).2 e).1 he
    obtain ⟨x, h1, h2⟩ := lc_support hne.1
    have hxd := (List.mem_filter.1 (hW.mem_of_ne hτ h1)).1
    obtain ⟨g, hg, _⟩ := mem_cells1.1 (hX.rowsM 2 x hxd _ h2)
    exact ⟨g.1, g.2, hg⟩
  have hSd : ∀ σ τ, (σ, τ) ∈ dgm.pairings → τ ∈ deaths := fun σ τ hp => mem_deathsOf.2 ⟨σ, (hS σ τ).1 hp⟩
  refine ⟨V, fun τ => (es τ).map fun e => toEdge e.row, dgm.pairings, hW, hS, ?_, ?_⟩
  · intro σ τ hp
    have hτ := hSd σ τ hp
    obtain ⟨hsort, hmem⟩ := hb3 τ hτ
    have hmem' : ∀ e : ℕ × ℕ, e ∈ (es τ).map (fun e => toEdge e.row) ↔ linearCombination K (grpphM K) (V τ) (.edge e.1 e.2) ≠ 0 := by
      intro e
      rw [List.mem_map]
      constructor
      · rintro ⟨x, hx, rfl⟩
        obtain ⟨a, b, hab⟩ := hedge τ hτ x hx
        have := ((hmem x).1 hx).1
        rw [hab] at this ⊢
        exact this
      · intro hne
        obtain ⟨k, hk⟩ := LawfulCoeff.val_surj (CF := CF) _ hne
        exact ⟨⟨f (.edge e.1 e.2), .edge e.1 e.2, k⟩, (hmem _).2 ⟨hne, hk, rfl⟩, rfl⟩
    refine ⟨?_, hmem', ?_⟩
    · rw [List.nodup_iff_pairwise_ne, List.pairwise_map]
      refine List.Pairwise.imp_of_mem ?_ hsort
      intro x y hx hy hlt e
      obtain ⟨a, b, hab⟩ := hedge τ hτ x hx
      obtain ⟨a', b', hab'⟩ := hedge τ hτ y hy
      rw [hab, hab'] at e
      simp only [toEdge, Prod.mk.injEq] at e
      have hrow : x.row = y.row := by rw [hab, hab', e.1, e.2]
      have hfx := ((hmem x).1 hx).2.2
      have hfy := ((hmem y).1 hy).2.2
      have : x.key = y.key := by unfold Entry.key; rw [hfx, hfy, hrow]
      rw [this] at hlt
      exact lt_irrefl _ hlt
    · have hlead := reduced_lead (grpphCells_sorted h hE 2) hW ((hS σ τ).1 hp)
      cases hes : es τ with
      | nil =>
        exfalso
        obtain ⟨k, hk⟩ := LawfulCoeff.val_surj (CF := CF) _ hlead.1
        have := (hmem ⟨f σ, σ, k⟩).2 ⟨hlead.1, hk, rfl⟩
        rw [hes] at this; simp at this
      | cons x l =>
        have hx : x ∈ es τ := by rw [hes]; simp
        refine ⟨toEdge x.row, by simp [hes], ?_⟩
        obtain ⟨a, b, hab⟩ := hedge τ hτ x hx
        have hxr : x.row = σ := by
          refine rowKey_injective f (le_antisymm (hlead.2 _ ((hmem x).1 hx).1) ?_)
          obtain ⟨k, hk⟩ := LawfulCoeff.val_surj (CF := CF) _ hlead.1
          have hσ := (hmem ⟨f σ, σ, k⟩).2 ⟨hlead.1, hk, rfl⟩
          rw [hes] at hσ hsort
          rcases List.mem_cons.1 hσ with e | hl
          · rw [← e]
          · have := (List.pairwise_cons.1 hsort).1 _ hl
            have hfx := ((hmem x).1 hx).2.2
            unfold Entry.key at this
            rw [hfx] at this
            exact this.le
        rw [← hxr, hab]
  · intro fuel hfuel enumB henum
    have hr1 := (hrun fuel fun i hi => hfuel i (by rwa [hlen] at hi)).2.2.1
    unfold involutionReps
    simp only [hr1, Option.bind_some]
    unfold readReps
    rw [filterMapOpt_eq _ (fun p : PathHomCell × PathHomCell => if f p.2 = f p.1 then none else some ((es p.2).map fun e => toEdge e.row))]
    · congr 1
      generalize enumB dgm.pairings = l
      induction l with
      | nil => rfl
      | cons x l ih =>
        rw [List.filterMap_cons]
        by_cases hx : f x.2 = f x.1
        · simp [hx, ih]
        · simp [hx, ih]
    · rintro ⟨σ, τ⟩ hx
      have hp := (henum _).1 hx
      have hτ := hSd σ τ hp
      obtain ⟨c2, c1⟩ := hX.pair_mem ((hS σ τ).1 hp)
      simp only
      rw [grpphF_spec h c1, grpphF_spec h c2, Option.bind_some, Option.bind_some]
      by_cases hz : f τ = f σ
      · rw [if_pos hz, if_pos hz]
      · rw [if_neg hz, if_neg hz]
        have hb1' : (productF (buildGrpphBoundary CF et E basis).1.ref (mapVecMatrix v)).buildBhcol τ = some (bcol τ) := hb1 τ hτ
        rw [hb1', Option.bind_some, hb2 τ hτ, Option.bind_some, mapOpt_eq_map _ (fun e => toEdge e.row)]
        · rfl
        · intro e he
          obtain ⟨a, b, hab⟩ := hedge τ hτ e he
          rw [hab]

end
end Phlite
