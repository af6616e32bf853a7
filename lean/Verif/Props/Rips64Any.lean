/-
Property theorems C78: exactly when the Rips program overflows on a 64-bit machine, for any input.
-/
import Verif.Props.Rips64
import Verif.Props.RipsAny
import Verif.Proofs.ClearingFirst
import Verif.Props.RipsProgram

set_option linter.unusedSectionVars false
set_option linter.unusedSimpArgs false

namespace Phlite
open Finsupp (single linearCombination linearCombination_single)
open OrderDual (toDual ofDual)

section
variable {K : Type} [Field K]

/-- The coboundary of the coboundary vanishes. -/
theorem ripsN_sq {n : ℕ} {σ : Finset ℕ} (h : IsSimplex n σ) : linearCombination K (ripsN K n) (ripsN K n (simplexIndex n σ)) = 0 := by
  have hD : IsDistanceMatrix (List.replicate n (List.replicate n (0 : ℕ))) fun _ _ => 0 := by
    refine ⟨?_, fun _ _ _ _ => rfl, fun _ _ => rfl, fun _ _ _ _ => le_rfl⟩
    intro i hi j hj
    rw [List.length_replicate] at hi hj
    simp [hi, hj]
  have hc := ripsCellComplex (K := K) hD
  rw [List.length_replicate] at hc
  refine hc.cosq (d := (σ.card : ℤ) - 1) (mem_ripsCells_int.2 ⟨σ, h, ?_, rfl⟩)
  omega

theorem cob_entry {n : ℕ} {σ τ : Finset ℕ} (hσ : IsSimplex n σ) (hτ : IsSimplex n τ) (h : ripsN K n (simplexIndex n σ) (simplexIndex n τ) ≠ 0) :
    ∃ v ∈ τ, σ = τ.erase v := by
  unfold ripsN at h
  rw [decode_simplex hσ, mapDomain_index_apply (fun ρ hρ => (cob_isSimplex hσ hρ).1) hτ] at h
  unfold simplexCoboundary at h
  rw [Finsupp.finsetSum_apply] at h
  obtain ⟨v, hv, hne⟩ := Finset.exists_ne_zero_of_sum_ne_zero h
  have e : insert v σ = τ := by
    by_contra hcon
    exact hne (Finsupp.single_eq_of_ne (Ne.symm hcon))
  rw [Finset.mem_sdiff] at hv
  exact ⟨v, e ▸ Finset.mem_insert_self _ _, by rw [← e, Finset.erase_insert hv.2]⟩

theorem cob_face {n : ℕ} {τ : Finset ℕ} (hτ : IsSimplex n τ) (hc : ¬ τ.card ≤ 1) {v : ℕ} (hv : v ∈ τ) :
    ripsN K n (simplexIndex n (τ.erase v)) (simplexIndex n τ) ≠ 0 := by
  have hσ := erase_isSimplex hτ hc hv
  unfold ripsN
  rw [decode_simplex hσ, mapDomain_index_apply (fun ρ hρ => (cob_isSimplex hσ hρ).1) hτ]
  unfold simplexCoboundary
  rw [Finsupp.finsetSum_apply, Finset.sum_eq_single v]
  · rw [Finset.insert_erase hv, Finsupp.single_eq_same]
    exact pow_ne_zero _ (neg_ne_zero.2 one_ne_zero)
  · intro w hw hne
    rw [Finset.mem_sdiff] at hw
    refine Finsupp.single_eq_of_ne ?_
    intro e
    have h1 : w ∈ τ := e.symm ▸ Finset.mem_insert_self _ _
    exact hw.2 (Finset.mem_erase.2 ⟨hne, h1⟩)
  · intro hnot
    exact absurd (Finset.mem_sdiff.2 ⟨hτ.2 hv, Finset.notMem_erase _ _⟩) hnot

end

section
variable {F : Type} [LinearOrder F] [Zero F] {distances : List (List F)} {d : ℕ → ℕ → F} {K : Type} [Field K]

/-- The first face of a simplex, in the order of the reduction, is not the pivot of a coboundary. -/
theorem first_face_no_pivot {n : ℕ} {τ : Finset ℕ} (hτ : IsSimplex n τ) (hc : ¬ τ.card ≤ 1) (f : RipsIndexᵒᵈ → Fᵒᵈ) :
    ∃ v ∈ τ, ∀ w : RipsIndexᵒᵈ →₀ K, (∀ x, w x ≠ 0 → ∃ σ, IsSimplex n σ ∧ x = toDual (simplexIndex n σ)) →
      ¬ IsPivot f (linearCombination K (dualCols (ripsN K n)) w) (toDual (simplexIndex n (τ.erase v))) := by
  obtain ⟨v, hv, hmin⟩ := Finset.exists_min_image τ (fun v => rowKey f (toDual (simplexIndex n (τ.erase v)))) hτ.1
  refine ⟨v, hv, fun w hw hp => ?_⟩
  set R := linearCombination K (dualCols (ripsN K n)) w with hR
  have hsq : linearCombination K (dualCols (ripsN K n)) R = 0 := by
    rw [hR, Finsupp.linearCombination_apply K w, Finsupp.sum, map_sum]
    refine Finset.sum_eq_zero fun x hx => ?_
    obtain ⟨σ, hσ, rfl⟩ := hw x (Finsupp.mem_support_iff.1 hx)
    rw [map_smul]
    have : linearCombination K (dualCols (ripsN K n)) (dualCols (ripsN K n) (toDual (simplexIndex n σ))) = 0 := by
      show linearCombination K (dualCols (ripsN K n)) ((ripsN K n (simplexIndex n σ)).equivMapDomain (toDual : RipsIndex ≃ RipsIndexᵒᵈ)) = 0
      rw [lc_dual, ripsN_sq hσ]
      exact Finsupp.equivMapDomain_zero
    rw [this, smul_zero]
  have hval := DFunLike.congr_fun hsq (toDual (simplexIndex n τ))
  rw [Finsupp.linearCombination_apply, Finsupp.sum, Finsupp.finsetSum_apply, Finset.sum_eq_single (toDual (simplexIndex n (τ.erase v)))] at hval
  · rw [Finsupp.smul_apply, smul_eq_mul, dualCols_apply, Finsupp.coe_zero, Pi.zero_apply] at hval
    rcases mul_eq_zero.1 hval with h | h
    · exact hp.1 h
    · exact cob_face hτ hc hv h
  · intro y hy hne
    rw [Finsupp.smul_apply, smul_eq_mul, dualCols_apply]
    by_contra hcon
    have h1 := Finsupp.mem_support_iff.1 hy
    have h2 := right_ne_zero_of_mul hcon
    obtain ⟨x, x1, x2⟩ := lc_support h1
    obtain ⟨ρ, hρ, rfl⟩ := hw x x1
    rw [dualCols_apply] at x2
    unfold ripsN at x2
    rw [show ofDual (toDual (simplexIndex n ρ)) = simplexIndex n ρ from rfl, decode_simplex hρ] at x2
    obtain ⟨σ, s1, s2⟩ := mapDomain_index_ne x2
    have hσ := (cob_isSimplex hρ s1).1
    rw [s2] at h2
    obtain ⟨u, hu, e⟩ := cob_entry hσ hτ h2
    have hy' : y = toDual (simplexIndex n (τ.erase u)) := by rw [← e, ← s2]; rfl
    have h3 := hp.2 y h1
    have h4 := hmin u hu
    rw [← hy'] at h4
    exact hne (rowKey_injective f (le_antisymm h3 h4))
  · intro hnot
    exact absurd (Finsupp.mem_support_iff.2 hp.1) hnot

end

section
variable {F : Type} [LinearOrder F] [Zero F] {distances : List (List F)} {d : ℕ → ℕ → F} [StdHeap] (CF K : Type) [Field K] [NonZeroCoeff CF] [LawfulCoeff CF K]
include K

/-- With an implementation of `from_indices` that is right below `b`, where all simplices of dimension up to `max_dim + 1` have their indices, the
program does the same, on any square matrix. -/
theorem ripsMainW_eq_any (hd : ∀ i < distances.length, ∀ j < distances.length, (distances[i]?.bind fun row => row[j]?) = some (d i j)) (arg : Option ℕ)
    (h1 : 1 ≤ arg.getD 1 ∨ distances.length ≤ 1) {fi : FromIndices} {b : ℕ} (hfi : AgreesBelow fi distances.length b)
    (hfit : ∀ σ, IsSimplex distances.length σ → σ.card ≤ arg.getD 1 + 2 → simplexIndex distances.length σ < b)
    (long : F → F → Bool) (enumE : Finset RipsIndexᵒᵈ → List RipsIndexᵒᵈ) (enumP : Finset (RipsIndexᵒᵈ × RipsIndexᵒᵈ) → List (RipsIndexᵒᵈ × RipsIndexᵒᵈ)) :
    ∃ enough, ∀ fuel ≥ enough, ripsMainW fi CF long enumE enumP distances arg fuel = ripsMain CF long enumE enumP distances arg fuel := by
  obtain ⟨bases, hb, -⟩ := C30_bases hd h1
  have hbW : buildRipsBasesW fi distances (arg.getD 1) = some bases :=
    buildRipsBasesW_succ hfi hb ((bases_fit hd h1 hb).2 fun σ hσ hc => hfit σ hσ (by omega))
  have hS := (ripsDimensioned CF K hd hb h1).reverse
  obtain ⟨rc, dgm, hrun, -⟩ := C74_any_matrix hS
  refine ⟨((List.range (arg.getD 1 + 1)).map fun k : ℕ => (ripsCells distances.length d k).length).sum + 1, fun fuel hf => ?_⟩
  have hrun' := hrun fuel (by
    intro k hk
    rw [List.length_map, List.length_reverse]
    have : (ripsCells distances.length d k).length ≤ ((List.range (arg.getD 1 + 1)).map fun k : ℕ => (ripsCells distances.length d k).length).sum :=
      List.le_sum_of_mem (List.mem_map.2 ⟨k, hk, rfl⟩)
    omega)
  have e1 : (ripsCoboundary CF distances).ref.reverse = (ripsCoboundary CF distances).withBasis.reverse.ref := (reverse_ref _).symm
  rw [e1] at hrun'
  have e2 : buildWithDiagram (ripsCoboundaryW fi CF distances).withBasis.reverse.ref (multiDimBasis bases).reverse fuel (List.range (arg.getD 1 + 1)) =
      some (rc, dgm) := by
    refine buildWithDiagram_mono (restrict_ref_le (D := (ripsCoboundary CF distances).withBasis.reverse)
      (els := (List.range (arg.getD 1 + 1)).flatMap fun k : ℕ => (ripsCells distances.length d k).reverse.map toDual) ?_ ?_) le_rfl hrun'.1
    · intro c hc
      obtain ⟨k, hk, hc⟩ := List.mem_flatMap.1 hc
      rw [List.mem_range] at hk
      obtain ⟨x, hx, rfl⟩ := List.mem_map.1 hc
      obtain ⟨σ, hσ, hc, rfl⟩ := mem_ripsCells.1 (List.mem_reverse.1 hx)
      show (ripsCoboundaryColumnW fi distances.length (simplexIndex distances.length σ)).map _ = (ripsCoboundaryColumn distances.length _).map _
      rw [cob_column_fits hfi hfit hσ (by omega)]
      rfl
    · rfl
  unfold ripsMainW ripsMain ripsMaxDim buildRipsCoboundaryMatrixW buildRipsCoboundaryMatrix
  dsimp only
  rw [hb, hbW, Option.map_some, Option.map_some, Option.bind_some, Option.bind_some]
  dsimp only
  rw [e2, hrun'.2]
  rfl

omit K [Field K] [LawfulCoeff CF K] in
theorem coboundary64_le (hn : distances.length + 1 < 2 ^ 64) :
    DLE (ripsCoboundaryW fromIndices64 CF distances).withBasis.reverse.ref (ripsCoboundary CF distances).withBasis.reverse.ref := by
  have hcol : OLE (ripsCoboundaryW fromIndices64 CF distances).withBasis.reverse.column (ripsCoboundary CF distances).reverse.column := by
    intro c l hl
    obtain ⟨l', hl', rfl⟩ := Option.map_eq_some_iff.1 hl
    exact Option.map_eq_some_iff.2 ⟨l', (((C57_columns hn _).1 l').1 hl').1, rfl⟩
  exact ⟨hcol, OLE.refl _, defaultColF_mono hcol (OLE.refl _)⟩

omit K [Field K] [LawfulCoeff CF K] in
/-- Whatever the debug build returns on a 64-bit machine is right. -/
theorem ripsMain64_le (hn : distances.length + 1 < 2 ^ 64) {arg : Option ℕ} {long : F → F → Bool} {enumE : Finset RipsIndexᵒᵈ → List RipsIndexᵒᵈ}
    {enumP : Finset (RipsIndexᵒᵈ × RipsIndexᵒᵈ) → List (RipsIndexᵒᵈ × RipsIndexᵒᵈ)} {fuel : ℕ} {report : RipsReport F}
    (h : ripsMainW fromIndices64 CF long enumE enumP distances arg fuel = some report) :
    ripsMain CF long enumE enumP distances arg fuel = some report := by
  unfold ripsMainW buildRipsCoboundaryMatrixW at h
  unfold ripsMain buildRipsCoboundaryMatrix
  dsimp only at h ⊢
  obtain ⟨⟨D, B⟩, hb, h⟩ := Option.bind_eq_some_iff.1 h
  obtain ⟨bases, hbases, hDB⟩ := Option.map_eq_some_iff.1 hb
  obtain ⟨rfl, rfl⟩ := Prod.mk.inj hDB
  rw [((C57_bases hn bases).1 hbases).1, Option.map_some, Option.bind_some]
  obtain ⟨sizes, hs, h⟩ := Option.bind_eq_some_iff.1 h
  obtain ⟨r, hr, h⟩ := Option.bind_eq_some_iff.1 h
  dsimp only at hs hr h ⊢
  rw [hs, Option.bind_some, buildWithDiagram_mono (coboundary64_le CF hn) le_rfl hr, Option.bind_some]
  exact h

/-- C78: the debug build of the Rips program on a 64-bit machine, on any matrix: it returns exactly if the program with unbounded numbers returns and all simplices
with at most `max_dim + 2` of the points have indices below `2^64`. -/
theorem C78_fits (hn : distances.length + 1 < 2 ^ 64) {arg : Option ℕ} {long : F → F → Bool} {enumE : Finset RipsIndexᵒᵈ → List RipsIndexᵒᵈ} (hE : Enumerates enumE)
    {enumP : Finset (RipsIndexᵒᵈ × RipsIndexᵒᵈ) → List (RipsIndexᵒᵈ × RipsIndexᵒᵈ)} (hP : Enumerates enumP) {fuel : ℕ} {report : RipsReport F}
    (h : ripsMainW fromIndices64 CF long enumE enumP distances arg fuel = some report) :
    ∀ σ, IsSimplex distances.length σ → σ.card ≤ arg.getD 1 + 2 → simplexIndex distances.length σ < 2 ^ 64 := by
  have hmain := ripsMain64_le CF hn h
  have hshape : ¬ ((∃ i < distances.length, ∃ j < distances.length, (distances[i]?.bind fun row => row[j]?) = none) ∨ (arg.getD 1 = 0 ∧ 2 ≤ distances.length)) := by
    intro hc
    rw [C75_rips_panics CF K arg hc long hE hP fuel] at hmain
    cases hmain
  push Not at hshape
  obtain ⟨hent, hdim⟩ := hshape
  have h1 : 1 ≤ arg.getD 1 ∨ distances.length ≤ 1 := by
    by_contra hc
    push Not at hc
    have := hdim (by omega)
    omega
  set d : ℕ → ℕ → F := fun i j => (distances[i]?.bind fun row => row[j]?).getD 0 with hdd
  have hd : ∀ i < distances.length, ∀ j < distances.length, (distances[i]?.bind fun row => row[j]?) = some (d i j) := by
    intro i hi j hj
    obtain ⟨x, hx⟩ := Option.ne_none_iff_exists'.1 (hent i hi j hj)
    rw [hdd]; dsimp only; rw [hx]; rfl
  unfold ripsMainW ripsMaxDim buildRipsCoboundaryMatrixW at h
  dsimp only at h
  obtain ⟨⟨D, B⟩, hb, h⟩ := Option.bind_eq_some_iff.1 h
  obtain ⟨bases, hbases, hDB⟩ := Option.map_eq_some_iff.1 hb
  obtain ⟨rfl, rfl⟩ := Prod.mk.inj hDB
  obtain ⟨hb', hfitb⟩ := (C57_bases hn bases).1 hbases
  have hbf := (bases_fit (b := 2 ^ 64) hd h1 hb').1 hfitb
  obtain ⟨sizes, hs, h⟩ := Option.bind_eq_some_iff.1 h
  obtain ⟨r, hr, -⟩ := Option.bind_eq_some_iff.1 h
  dsimp only at hr
  intro τ hτ hc
  by_cases hc1 : τ.card ≤ arg.getD 1 + 1
  · exact hbf τ hτ hc1
  have hc2 : τ.card = arg.getD 1 + 2 := by omega
  have hle1 : ¬ τ.card ≤ 1 := by omega
  -- the run up to the last dimension
  unfold buildWithDiagram at hr
  rw [List.range_succ, clrAll_append] at hr
  obtain ⟨s2, h2, -⟩ := Option.map_eq_some_iff.1 hr
  obtain ⟨s, hs1, h3⟩ := Option.bind_eq_some_iff.1 h2
  simp only [clrAll, Option.bind_eq_some_iff] at h3
  obtain ⟨s3, h4, -⟩ := h3
  have hS := (ripsDimensioned CF K hd hb' h1).reverse
  have hS' : DimensionedMatrix K (ripsCoboundary CF distances).withBasis.reverse.ref (multiDimBasis bases).reverse (dualFilt (ripsF distances))
      (dualCols (ripsN K distances.length)) (List.range (arg.getD 1)) fun k => (ripsCells distances.length d k).reverse.map toDual := by
    rw [reverse_ref, withBasis_ref]
    have hm : ∀ k ∈ List.range (arg.getD 1), k ∈ List.range (arg.getD 1 + 1) := by
      intro k hk; rw [List.mem_range] at hk ⊢; omega
    exact ⟨fun k hk => hS.basis k (hm k hk), fun k hk => hS.nodup k (hm k hk), fun k hk => hS.good k (hm k hk), fun k hk => hS.rows k (hm k hk)⟩
  have hmem : ∀ k : ℕ, ∀ x ∈ (ripsCells distances.length d k).reverse.map toDual, ∃ σ, IsSimplex distances.length σ ∧ σ.card = k + 1 ∧
      x = toDual (simplexIndex distances.length σ) := by
    intro k x hx
    obtain ⟨y, hy, rfl⟩ := List.mem_map.1 hx
    obtain ⟨σ, s1, s2, rfl⟩ := mem_ripsCells.1 (List.mem_reverse.1 hy)
    exact ⟨σ, s1, s2, rfl⟩
  obtain ⟨v, hv, hnp⟩ := first_face_no_pivot (K := K) hτ hle1 (dualFilt (ripsF distances))
  have hface := erase_isSimplex hτ hle1 hv
  have hcard : (τ.erase v).card = arg.getD 1 + 1 := by rw [Finset.card_erase_of_mem hv]; omega
  have hnone := clearing_unstored hS' (coboundary64_le CF hn) hs1 (r := toDual (simplexIndex distances.length (τ.erase v)))
    (by
      intro k hk hx
      obtain ⟨σ, s1, s2, e⟩ := hmem k _ hx
      have := simplexIndex_inj hface s1 ((toDual : RipsIndex ≃ RipsIndexᵒᵈ).injective e)
      rw [List.mem_range] at hk
      rw [← this] at s2
      omega)
    (by
      intro k hk w hw
      exact hnp w fun x hx => by
        obtain ⟨σ, s1, _, e⟩ := hmem k x (hw x hx)
        exact ⟨σ, s1, e⟩)
  -- the last dimension
  obtain ⟨Bd, hB1, hB2⟩ := hS.basis (arg.getD 1) (List.mem_range.2 (by omega))
  obtain ⟨hlen, hel⟩ := elems_spec hB2
  have hread := (clrDimension_read (D := (ripsCoboundaryW fromIndices64 CF distances).withBasis.reverse)
    (A := fun x => ∃ σ, IsSimplex distances.length σ ∧ σ.card = arg.getD 1 + 1 ∧ x = toDual (simplexIndex distances.length σ))
    (P := fun x => ∃ σ, IsSimplex distances.length σ ∧ σ.card = arg.getD 1 + 2 ∧ x = toDual (simplexIndex distances.length σ))
    (by
      rintro x ⟨σ, s1, s2, rfl⟩ l hl t ht
      obtain ⟨l', hl', rfl⟩ := Option.map_eq_some_iff.1 hl
      have hl2 := (((C57_columns hn _).1 l').1 hl').1
      rw [show ofDual (toDual (simplexIndex distances.length σ)) = simplexIndex distances.length σ from rfl, ripsCoboundaryColumn_eq s1] at hl2
      cases hl2
      obtain ⟨u, hu, rfl⟩ := List.mem_map.1 ht
      obtain ⟨a, ha, rfl⟩ := List.mem_map.1 hu
      obtain ⟨ha1, ha2⟩ := List.mem_filter.1 ha
      refine ⟨_, insert_isSimplex s1 (List.mem_range.1 ha1), ?_, rfl⟩
      rw [Finset.card_insert_of_notMem (by simpa using ha2), s2])
    (by
      rintro x ⟨σ, s1, s2, rfl⟩ ⟨ρ, t1, t2, e⟩
      have := simplexIndex_inj s1 t1 ((toDual : RipsIndex ≃ RipsIndexᵒᵈ).injective e)
      rw [this] at s2
      omega)
    hB1
    (by
      intro i x hx
      by_cases hi : i < Bd.size
      · rw [hel i hi] at hx
        exact hmem _ x (List.mem_of_getElem? hx)
      · obtain ⟨Bd0, -, rfl⟩ := Option.map_eq_some_iff.1 hB1
        simp only [Basis.reverse] at hx hi
        rw [if_neg hi] at hx
        cases hx)
    h4).1
  have hmemB : toDual (simplexIndex distances.length (τ.erase v)) ∈ (ripsCells distances.length d (arg.getD 1 : ℕ)).reverse.map toDual :=
    List.mem_map.2 ⟨_, List.mem_reverse.2 (mem_ripsCells.2 ⟨_, hface, hcard, rfl⟩), rfl⟩
  obtain ⟨i, hi, ei⟩ := List.mem_iff_getElem.1 hmemB
  have hcol := (hread i (by omega) _ (by rw [hel i (by omega), List.getElem?_eq_getElem hi, ei])).resolve_left (by rw [hnone]; simp)
  obtain ⟨l, hl⟩ := Option.isSome_iff_exists.1 hcol
  obtain ⟨l', hl', -⟩ := Option.map_eq_some_iff.1 hl
  obtain ⟨k1, k2⟩ := ((C57_columns hn _).1 l').1 hl'
  rw [show ofDual (toDual (simplexIndex distances.length (τ.erase v))) = simplexIndex distances.length (τ.erase v) from rfl, ripsCoboundaryColumn_eq hface] at k1
  cases k1
  have := k2 (parity (posIn (τ.erase v) v), simplexIndex distances.length (insert v (τ.erase v)))
    (List.mem_map.2 ⟨v, List.mem_filter.2 ⟨List.mem_range.2 (Finset.mem_range.1 (hτ.2 hv)), by simp⟩, rfl⟩)
  rwa [Finset.insert_erase hv] at this


/-- C78: the debug build of the Rips program on a 64-bit machine, on any matrix. It returns exactly if there are as many columns as rows, the dimension is not 0 (or there is at most
one point) and all simplices with at most `max_dim + 2` of the points have indices below `2^64`; otherwise it panics. If it returns, then it gives the report of the program
with unbounded numbers, and so does the release build. -/
theorem C78_returns_iff (hn : distances.length + 1 < 2 ^ 64) (arg : Option ℕ) (long : F → F → Bool) {enumE : Finset RipsIndexᵒᵈ → List RipsIndexᵒᵈ} (hE : Enumerates enumE)
    {enumP : Finset (RipsIndexᵒᵈ × RipsIndexᵒᵈ) → List (RipsIndexᵒᵈ × RipsIndexᵒᵈ)} (hP : Enumerates enumP) :
    ((∃ fuel report, ripsMainW fromIndices64 CF long enumE enumP distances arg fuel = some report) ↔
      (∀ i < distances.length, ∀ j < distances.length, (distances[i]?.bind fun row => row[j]?) ≠ none) ∧ (1 ≤ arg.getD 1 ∨ distances.length ≤ 1) ∧
      ∀ σ, IsSimplex distances.length σ → σ.card ≤ arg.getD 1 + 2 → simplexIndex distances.length σ < 2 ^ 64) ∧
    ((∃ report enough, ∀ fuel ≥ enough,
        ripsMain CF long enumE enumP distances arg fuel = some report ∧
        ripsMainW fromIndices64 CF long enumE enumP distances arg fuel = some report ∧
        ripsMainW fromIndicesRelease CF long enumE enumP distances arg fuel = some report) ∨
      ∀ fuel, ripsMainW fromIndices64 CF long enumE enumP distances arg fuel = none) := by
  have hsuff : (∀ i < distances.length, ∀ j < distances.length, (distances[i]?.bind fun row => row[j]?) ≠ none) → (1 ≤ arg.getD 1 ∨ distances.length ≤ 1) →
      (∀ σ, IsSimplex distances.length σ → σ.card ≤ arg.getD 1 + 2 → simplexIndex distances.length σ < 2 ^ 64) →
      ∃ report enough, ∀ fuel ≥ enough,
        ripsMain CF long enumE enumP distances arg fuel = some report ∧
        ripsMainW fromIndices64 CF long enumE enumP distances arg fuel = some report ∧
        ripsMainW fromIndicesRelease CF long enumE enumP distances arg fuel = some report := by
    intro hent h1 hfit
    have hd : ∀ i < distances.length, ∀ j < distances.length, (distances[i]?.bind fun row => row[j]?) =
        some ((fun i j => (distances[i]?.bind fun row => row[j]?).getD 0) i j) := by
      intro i hi j hj
      obtain ⟨x, hx⟩ := Option.ne_none_iff_exists'.1 (hent i hi j hj)
      dsimp only; rw [hx]; rfl
    obtain ⟨report, ⟨n0, r0⟩, -⟩ := C75_rips_any_matrix CF K hd arg h1 long hE hP
    obtain ⟨n1, r1⟩ := ripsMainW_eq_any CF K hd arg h1 (fromIndices64_agrees hn) hfit long enumE enumP
    obtain ⟨n2, r2⟩ := ripsMainW_eq_any CF K hd arg h1 (fi := fromIndicesRelease) fromIndicesWrapping_agrees hfit long enumE enumP
    refine ⟨report, max n0 (max n1 n2), fun fuel hf => ?_⟩
    have h0 := r0 fuel (by omega)
    exact ⟨h0, (r1 fuel (by omega)).trans h0, (r2 fuel (by omega)).trans h0⟩
  have hnec : (∃ fuel report, ripsMainW fromIndices64 CF long enumE enumP distances arg fuel = some report) →
      (∀ i < distances.length, ∀ j < distances.length, (distances[i]?.bind fun row => row[j]?) ≠ none) ∧ (1 ≤ arg.getD 1 ∨ distances.length ≤ 1) ∧
      ∀ σ, IsSimplex distances.length σ → σ.card ≤ arg.getD 1 + 2 → simplexIndex distances.length σ < 2 ^ 64 := by
    rintro ⟨fuel, report, h⟩
    have hmain := ripsMain64_le CF hn h
    have hshape : ¬ ((∃ i < distances.length, ∃ j < distances.length, (distances[i]?.bind fun row => row[j]?) = none) ∨ (arg.getD 1 = 0 ∧ 2 ≤ distances.length)) := by
      intro hc
      rw [C75_rips_panics CF K arg hc long hE hP fuel] at hmain
      cases hmain
    push Not at hshape
    refine ⟨hshape.1, ?_, C78_fits CF K hn hE hP h⟩
    by_contra hc
    push Not at hc
    have := hshape.2 (by omega)
    omega
  refine ⟨⟨hnec, fun h => ?_⟩, ?_⟩
  · obtain ⟨report, enough, hr⟩ := hsuff h.1 h.2.1 h.2.2
    exact ⟨enough, report, (hr enough le_rfl).2.1⟩
  · by_cases hc : ∃ fuel report, ripsMainW fromIndices64 CF long enumE enumP distances arg fuel = some report
    · obtain ⟨h1, h2, h3⟩ := hnec hc
      exact Or.inl (hsuff h1 h2 h3)
    · push Not at hc
      exact Or.inr fun fuel => Option.eq_none_iff_forall_ne_some.2 (hc fuel)

end

/-! ### The threshold -/

/-- The greatest index of a simplex with `m` of `n` points: the one with the last `m` points. -/
def topIndex (n m : ℕ) : ℕ := ∑ i ∈ Finset.range m, (n - m + 1 + i) * (n + 1) ^ i

theorem enc_range' (b a m : ℕ) : enc b (List.range' a m) = ∑ i ∈ Finset.range m, (a + 1 + i) * b ^ i := by
  induction m generalizing a with
  | zero => rfl
  | succ m ih =>
    rw [List.range'_succ, enc, ih, Finset.sum_range_succ', Finset.mul_sum]
    rw [pow_zero, Nat.mul_one, Nat.add_zero, Nat.add_comm]
    congr 1
    refine Finset.sum_congr rfl fun i _ => ?_
    rw [pow_succ]
    ring

theorem enc_le_top {n : ℕ} (b : ℕ) : ∀ l : List ℕ, l.Pairwise (· < ·) → (∀ v ∈ l, v < n) → enc b l ≤ enc b (List.range' (n - l.length) l.length) ∧ l.length ≤ n ∧
    ∀ v ∈ l.head?, v + l.length ≤ n
  | [], _, _ => ⟨le_rfl, by simp, by simp⟩
  | v :: l, hl, hv => by
    rw [List.pairwise_cons] at hl
    obtain ⟨h1, h2, h3⟩ := enc_le_top b l hl.2 fun w hw => hv w (by simp [hw])
    have hvn : v + (l.length + 1) ≤ n := by
      cases l with
      | nil => have := hv v (by simp); simp; omega
      | cons w l =>
        have h4 := h3 w (by simp)
        have h5 := hl.1 w (by simp)
        omega
    refine ⟨?_, by simpa using (by omega), by simpa using hvn⟩
    rw [List.length_cons, List.range'_succ, show n - (l.length + 1) + 1 = n - l.length by omega]
    unfold enc
    have := Nat.mul_le_mul_left b h1
    omega

theorem simplexIndex_le_top {n : ℕ} {σ : Finset ℕ} (hσ : IsSimplex n σ) : simplexIndex n σ ≤ topIndex n σ.card := by
  have h := (enc_le_top (n := n) (n + 1) (σ.sort (· ≤ ·)) (sort_lt σ) hσ.lt).1
  rw [Finset.length_sort] at h
  rw [simplexIndex_eq n hσ.1]
  refine h.trans (le_of_eq ?_)
  rw [enc_range']
  rfl

theorem simplexIndex_top {n m : ℕ} (hm : 1 ≤ m) (hmn : m ≤ n) : IsSimplex n (Finset.Ico (n - m) n) ∧ (Finset.Ico (n - m) n).card = m ∧
    simplexIndex n (Finset.Ico (n - m) n) = topIndex n m := by
  have hs : IsSimplex n (Finset.Ico (n - m) n) :=
    ⟨⟨n - 1, by rw [Finset.mem_Ico]; omega⟩, fun x hx => by rw [Finset.mem_Ico] at hx; rw [Finset.mem_range]; omega⟩
  refine ⟨hs, by rw [Nat.card_Ico]; omega, ?_⟩
  rw [simplexIndex_eq n hs.1]
  have : (Finset.Ico (n - m) n).sort (· ≤ ·) = List.range' (n - m) m := by
    rw [← sort_toFinset_lt (l := List.range' (n - m) m) List.pairwise_lt_range']
    congr 1
    ext x
    rw [Finset.mem_Ico, List.mem_toFinset, List.mem_range'_1]
    omega
  rw [this, enc_range']
  rfl

/-- All simplices with at most `max_dim + 2` of the points have indices below `b` exactly if this is so for the one with the last points. -/
theorem fits_iff_top {n k b : ℕ} (hn : 1 ≤ n) :
    (∀ σ, IsSimplex n σ → σ.card ≤ k + 2 → simplexIndex n σ < b) ↔ topIndex n (min (k + 2) n) < b := by
  obtain ⟨h1, h2, h3⟩ := simplexIndex_top (n := n) (m := min (k + 2) n) (by omega) (by omega)
  constructor
  · intro h
    rw [← h3]
    exact h _ h1 (by omega)
  · intro h σ hσ hc
    have hcn : σ.card ≤ n := by simpa using Finset.card_le_card hσ.2
    rcases Nat.lt_or_ge σ.card (min (k + 2) n) with hlt | hge
    · rw [← h3] at h
      exact lt_trans (simplexIndex_lt hσ h1 (by omega)) h
    · have : σ.card = min (k + 2) n := by omega
      rw [← this] at h
      exact lt_of_le_of_lt (simplexIndex_le_top hσ) h

/-- C78: the bound in numbers. With `n` points, all simplices with at most `max_dim + 2` points have indices below `2^64` exactly if the sum of
`(n - m + 1 + i) * (n + 1)^i` over `i < m` is, where `m` is the lesser of `max_dim + 2` and `n`. -/
theorem C78_threshold {n k : ℕ} :
    (∀ σ, IsSimplex n σ → σ.card ≤ k + 2 → simplexIndex n σ < 2 ^ 64) ↔
      ∑ i ∈ Finset.range (min (k + 2) n), (n - min (k + 2) n + 1 + i) * (n + 1) ^ i < 2 ^ 64 := by
  rcases Nat.eq_zero_or_pos n with rfl | hn
  · refine ⟨fun _ => by simp, fun _ σ hσ => ?_⟩
    obtain ⟨v, hv⟩ := hσ.1
    have := hσ.2 hv
    simp at this
  · exact fits_iff_top hn

/-- C78: with at most 15 points there is no overflow, whatever the dimension, and with 16 or more points there is one if the dimension is at least 14. -/
theorem C78_few_points {n : ℕ} : (n ≤ 15 → ∀ k, ∀ σ, IsSimplex n σ → σ.card ≤ k + 2 → simplexIndex n σ < 2 ^ 64) ∧
    (16 ≤ n → ∀ k ≥ 14, ∃ σ, IsSimplex n σ ∧ σ.card ≤ k + 2 ∧ 2 ^ 64 ≤ simplexIndex n σ) := by
  constructor
  · intro h k σ hσ _
    rw [simplexIndex_eq n hσ.1]
    refine lt_of_lt_of_le (enc_lt_pow hσ.lt) ?_
    rw [Finset.length_sort]
    have hc : σ.card ≤ 15 := (Finset.card_le_card hσ.2).trans (by simpa using h)
    calc (n + 1) ^ σ.card ≤ 16 ^ σ.card := Nat.pow_le_pow_left (by omega) _
      _ ≤ 16 ^ 15 := Nat.pow_le_pow_right (by omega) hc
      _ ≤ 2 ^ 64 := by norm_num
  · intro h k hk
    obtain ⟨h1, h2, -⟩ := simplexIndex_top (n := n) (m := 16) (by omega) h
    refine ⟨_, h1, by omega, ?_⟩
    refine le_trans ?_ (le_simplexIndex (k := 15) h1 h2 (by rw [Finset.mem_Ico]; omega))
    calc 2 ^ 64 ≤ 16 * 17 ^ 15 := by norm_num
      _ ≤ n * (n + 1) ^ 15 := Nat.mul_le_mul h (Nat.pow_le_pow_left (by omega) _)

/-- C78: in the default dimension 1 there is no overflow exactly with at most 2642244 points. -/
theorem C78_default {n : ℕ} : (∀ σ, IsSimplex n σ → σ.card ≤ 1 + 2 → simplexIndex n σ < 2 ^ 64) ↔ n ≤ 2642244 := by
  rcases Nat.lt_or_ge n 3 with h | h
  · exact ⟨fun _ => by omega, fun _ => (C78_few_points.1 (by omega)) 1⟩
  rw [fits_iff_top (by omega), show min (1 + 2) n = 3 by omega]
  have e : topIndex n 3 = n * (n + 1) ^ 2 + (n - 1) * (n + 1) + (n - 2) := by
    unfold topIndex
    simp only [Finset.sum_range_succ, Finset.sum_range_zero]
    rw [show n - 3 + 1 + 0 = n - 2 by omega, show n - 2 + 1 = n - 1 by omega, show n - 2 + 2 = n by omega]
    ring
  rw [e]
  constructor
  · intro hlt
    by_contra hc
    push Not at hc
    have h1 : (2642244 + 1) * (2642244 + 2) ^ 2 ≤ n * (n + 1) ^ 2 := Nat.mul_le_mul (by omega) (Nat.pow_le_pow_left (by omega) _)
    have h2 : 2642244 * (2642244 + 2) ≤ (n - 1) * (n + 1) := Nat.mul_le_mul (by omega) (by omega)
    norm_num at h1 h2
    omega
  · intro hle
    have h1 : n * (n + 1) ^ 2 ≤ 2642244 * (2642244 + 1) ^ 2 := Nat.mul_le_mul (by omega) (Nat.pow_le_pow_left (by omega) _)
    have h2 : (n - 1) * (n + 1) ≤ (2642244 - 1) * (2642244 + 1) := Nat.mul_le_mul (by omega) (by omega)
    norm_num at h1 h2
    omega

section
variable [StdHeap] (CF K : Type) [Field K] [NonZeroCoeff CF] [LawfulCoeff CF K] {parse : String → Option (Option NotNan)}
variable {enumE : Finset RipsIndexᵒᵈ → List RipsIndexᵒᵈ} {enumP : Finset (RipsIndexᵒᵈ × RipsIndexᵒᵈ) → List (RipsIndexᵒᵈ × RipsIndexᵒᵈ)}
include K

/-- C78: the program on a 64-bit machine. The debug build returns exactly if the csv reader yields no error, all entries are numbers other than NaN, no row has fewer entries than
there are rows, the dimension (1, or the numeral given as first argument) is not 0 unless there is at most one row, a vector with one element more can be allocated, and the greatest index is below
`2^64`. Otherwise it panics. If it returns, it gives the report of the program with unbounded numbers (see C76), and so does the release build. -/
theorem C78_program (hE : Enumerates enumE) (hP : Enumerates enumP) (records : List (Option (List String))) (args : List String) (hn : records.length + 1 < 2 ^ 64) :
    ((∃ fuel report, ripsProgramW fromIndices64 CF parse enumE enumP records args fuel = some report) ↔
      (∀ r ∈ records, ∃ row, r = some row ∧ records.length ≤ row.length ∧ ∀ s ∈ row, ∃ x, parse s = some (some x)) ∧
      ∃ k, ((args[1]? = none ∧ k = 1) ∨ ∃ arg, args[1]? = some arg ∧ IsNumeral arg k) ∧ 24 * (k + 1) < 2 ^ 63 ∧ (1 ≤ k ∨ records.length ≤ 1) ∧
        ∑ i ∈ Finset.range (min (k + 2) records.length), (records.length - min (k + 2) records.length + 1 + i) * (records.length + 1) ^ i < 2 ^ 64) ∧
    ((∃ report enough, ∀ fuel ≥ enough,
        ripsProgram CF parse enumE enumP records args fuel = some report ∧
        ripsProgramW fromIndices64 CF parse enumE enumP records args fuel = some report ∧
        ripsProgramW fromIndicesRelease CF parse enumE enumP records args fuel = some report) ∨
      ∀ fuel, ripsProgramW fromIndices64 CF parse enumE enumP records args fuel = none) := by
  -- the dimension
  have hdim : ∀ k, ((args[1]? = none ∧ k = 1) ∨ ∃ arg, args[1]? = some arg ∧ IsNumeral arg k) ∧ k < 2 ^ 64 ↔ ∃ a, readArg args = some a ∧ a.getD 1 = k := by
    intro k
    unfold readArg
    cases args[1]? with
    | none =>
      constructor
      · rintro ⟨⟨-, rfl⟩ | ⟨arg, h, -⟩, -⟩
        · exact ⟨none, rfl, rfl⟩
        · cases h
      · rintro ⟨a, h, rfl⟩
        cases h
        exact ⟨Or.inl ⟨rfl, rfl⟩, by simp⟩
    | some arg =>
      constructor
      · rintro ⟨⟨h, -⟩ | ⟨arg', h, hk⟩, hlt⟩
        · cases h
        · cases h
          exact ⟨some k, by simp [(C76_argument arg k).2 ⟨hk, hlt⟩], rfl⟩
      · rintro ⟨a, h, rfl⟩
        obtain ⟨k, hk, rfl⟩ := Option.map_eq_some_iff.1 h
        obtain ⟨h1, h2⟩ := (C76_argument arg k).1 hk
        exact ⟨Or.inr ⟨arg, rfl, h1⟩, h2⟩
  have hfuel : ∀ fuel, ripsProgramW fromIndices64 CF parse enumE enumP records args fuel =
      (readMatrix parse records).bind fun m => (readArg args).bind fun a => (allocBases (a.getD 1)).bind fun _ =>
        ripsMainW fromIndices64 CF longF64 enumE enumP m a fuel := fun _ => rfl
  cases hm : readMatrix parse records with
  | none =>
    have hnone : ∀ fuel, ripsProgramW fromIndices64 CF parse enumE enumP records args fuel = none := fun fuel => by rw [hfuel, hm]; rfl
    refine ⟨⟨fun ⟨fuel, report, h⟩ => ?_, fun ⟨h, _⟩ => ?_⟩, Or.inr hnone⟩
    · rw [hnone] at h; cases h
    · obtain ⟨m, hm'⟩ := (readMatrix_eq parse records).2 fun r hr => by
        obtain ⟨row, e, _, h⟩ := h r hr
        exact ⟨row, e, h⟩
      rw [hm] at hm'; cases hm'
  | some m =>
    obtain ⟨hl, hent⟩ := readMatrix_entry hm
    have hread := (readMatrix_eq parse records).1 ⟨m, hm⟩
    cases ha : readArg args with
    | none =>
      have hnone : ∀ fuel, ripsProgramW fromIndices64 CF parse enumE enumP records args fuel = none := fun fuel => by rw [hfuel, hm, ha]; rfl
      refine ⟨⟨fun ⟨fuel, report, h⟩ => ?_, fun ⟨_, k, hk, hk2, _⟩ => ?_⟩, Or.inr hnone⟩
      · rw [hnone] at h; cases h
      · obtain ⟨a, ha', -⟩ := (hdim k).1 ⟨hk, by omega⟩
        rw [ha] at ha'; cases ha'
    | some a =>
      have hk0 := (hdim (a.getD 1)).2 ⟨a, ha, rfl⟩
      have huniq : ∀ k, ((args[1]? = none ∧ k = 1) ∨ ∃ arg, args[1]? = some arg ∧ IsNumeral arg k) → k < 2 ^ 64 → k = a.getD 1 := by
        intro k hk hk2
        obtain ⟨a', ha', rfl⟩ := (hdim k).1 ⟨hk, hk2⟩
        rw [ha] at ha'; cases ha'; rfl
      by_cases hal : 24 * (a.getD 1 + 1) < 2 ^ 63
      · have hal' : allocBases (a.getD 1) = some () := if_pos hal
        have hrun : ∀ fi fuel, ripsProgramW fi CF parse enumE enumP records args fuel = ripsMainW fi CF longF64 enumE enumP m a fuel := by
          intro fi fuel
          unfold ripsProgramW ripsMaxDim
          rw [hm, Option.bind_some, ha, Option.bind_some, hal', Option.bind_some]
        have hrun0 : ∀ fuel, ripsProgram CF parse enumE enumP records args fuel = ripsMain CF longF64 enumE enumP m a fuel := by
          intro fuel
          unfold ripsProgram
          rw [hm, Option.bind_some, ha, Option.bind_some]
        obtain ⟨k1, k2⟩ := C78_returns_iff (distances := m) CF K (by rw [hl]; exact hn) a longF64 hE hP
        rw [C78_threshold, hl] at k1
        simp only [hrun, hrun0]
        refine ⟨?_, k2⟩
        rw [k1]
        constructor
        · rintro ⟨h1, h2, h3⟩
          refine ⟨fun r hr => ?_, a.getD 1, hk0.1, hal, h2, h3⟩
          obtain ⟨row, rfl, h4⟩ := hread r hr
          refine ⟨row, rfl, ?_, h4⟩
          obtain ⟨i, hi, e⟩ := List.getElem_of_mem hr
          by_contra hlt
          obtain ⟨x, hx⟩ := Option.ne_none_iff_exists'.1 (h1 i hi (records.length - 1) (by omega))
          obtain ⟨row', s, h4, h5, _⟩ := (hent _ _ x).1 hx
          rw [List.getElem?_eq_getElem hi, e] at h4
          cases h4
          have := (List.getElem?_eq_some_iff.1 h5).1
          omega
        · rintro ⟨h1, k, hk, hk2, h2, h3⟩
          obtain rfl := huniq k hk (by omega)
          refine ⟨fun i hi j hj => ?_, h2, h3⟩
          obtain ⟨row, e, h3, h4⟩ := h1 _ (List.getElem_mem hi)
          obtain ⟨x, hx⟩ := h4 _ (List.getElem_mem (show j < row.length by omega))
          have := (hent i j x).2 ⟨row, _, by rw [List.getElem?_eq_getElem hi, e], List.getElem?_eq_getElem (by omega), hx⟩
          rw [this]; simp
      · have hal' : allocBases (a.getD 1) = none := if_neg hal
        have hnone : ∀ fuel, ripsProgramW fromIndices64 CF parse enumE enumP records args fuel = none := fun fuel => by
          rw [hfuel, hm, ha, Option.bind_some, Option.bind_some, hal']; rfl
        refine ⟨⟨fun ⟨fuel, report, h⟩ => ?_, fun ⟨_, k, hk, hk2, _⟩ => ?_⟩, Or.inr hnone⟩
        · rw [hnone] at h; cases h
        · obtain rfl := huniq k hk (by omega)
          exact absurd hk2 hal

end

namespace RipsExample

/-- The square again, in a debug and in a release build. -/
example : (letI := listHeap; (ripsProgramW fromIndices64 Z2 parse enumE enumP
      [some ["0", "1", "2", "1"], some ["1", "0", "1", "2"], some ["2", "1", "0", "1"], some ["1", "2", "1", "0"]] ["phlite_rips", "2"] 30).map fun r =>
      (r.sizes, r.essential.map fun x => (x.1, floor x.2.2), r.pairings.map fun x => (x.1, floor x.2.2.1, floor x.2.2.2))) =
    some ([(0, 4), (1, 6), (2, 4)], [(0, 0)], [(1, 1, 2), (0, 0, 1), (0, 0, 1), (0, 0, 1)]) := by decide +kernel
example : (letI := listHeap; (ripsProgramW fromIndicesRelease Z2 parse enumE enumP [some ["0", "1"], some ["1", "0"]] [] 30).map fun r => r.sizes) = some [(0, 2), (1, 1)] := by
  decide +kernel

/-- 16 points, all distances 0. -/
def sixteen : List (Option (List String)) := List.replicate 16 (some (List.replicate 16 "0"))

/-- Dimension 13 is fine, dimension 14 overflows; an unreasonable dimension cannot be allocated even for one point. -/
example : letI := listHeap; ∃ fuel report, ripsProgramW fromIndices64 Z2 parse enumE enumP sixteen ["phlite_rips", "13"] fuel = some report := by
  refine (@C78_program listHeap Z2 (ZMod 2) _ _ _ parse _ _ (enumBy_enumerates _ _) (enumBy_enumerates _ _) sixteen ["phlite_rips", "13"] (by decide +kernel)).1.2 ⟨?_, 13, Or.inr ⟨"13", rfl, ?_⟩, by norm_num, Or.inl (by norm_num), by decide +kernel⟩
  · intro r hr
    obtain rfl := List.eq_of_mem_replicate hr
    refine ⟨_, rfl, by decide, fun s hs => ?_⟩
    obtain rfl := List.eq_of_mem_replicate hs
    exact ⟨_, rfl⟩
  · exact ⟨[1, 3], by decide, by decide, Or.inl (by decide), by decide⟩
example : letI := listHeap; ∀ fuel, ripsProgramW fromIndices64 Z2 parse enumE enumP sixteen ["phlite_rips", "14"] fuel = none := by
  refine (@C78_program listHeap Z2 (ZMod 2) _ _ _ parse _ _ (enumBy_enumerates _ _) (enumBy_enumerates _ _) sixteen ["phlite_rips", "14"] (by decide +kernel)).2.resolve_left fun ⟨report, enough, h⟩ => ?_
  obtain ⟨-, k, hk, hk2, -, hk4⟩ := (@C78_program listHeap Z2 (ZMod 2) _ _ _ parse _ _ (enumBy_enumerates _ _) (enumBy_enumerates _ _) sixteen ["phlite_rips", "14"] (by decide +kernel)).1.1
    ⟨enough, report, (h enough le_rfl).2.1⟩
  have hk' : k = 14 := by
    rcases hk with ⟨h, -⟩ | ⟨arg, h, h2⟩
    · cases h
    · cases h
      have := (C76_argument "14" k).2 ⟨h2, by omega⟩
      rw [show parseUsize "14" = some 14 by decide +kernel] at this
      exact (Option.some.inj this).symm
  subst hk'
  exact absurd hk4 (by decide +kernel)
example : (letI := listHeap; (ripsProgramW fromIndices64 Z2 parse enumE enumP [some ["0"]] ["phlite_rips", "1000000000000000000"] 30).isNone) = true := by decide +kernel

end RipsExample
end Phlite
