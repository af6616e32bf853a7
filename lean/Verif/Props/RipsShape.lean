/-
Property theorems C45: the shape of Rips barcodes.
-/
import Verif.Theory.Cone
import Verif.Props.Rips

set_option linter.unusedSectionVars false
set_option linter.unusedSimpArgs false

namespace Phlite
open Finsupp (single linearCombination linearCombination_single)
open OrderDual (toDual ofDual)

section
variable {F CF K : Type} [LinearOrder F] [Zero F] [Field K] [NonZeroCoeff CF] [LawfulCoeff CF K] [StdHeap]
variable {distances : List (List F)} {d : ℕ → ℕ → F}

/-- Every run of the Rips cohomology program counts persistent Betti numbers. -/
theorem rips_run_betti (hD : IsDistanceMatrix distances d) {max_dim : ℕ} (h1 : 1 ≤ max_dim ∨ distances.length ≤ 1)
    {D : FOracle CF RipsIndex RipsIndex F} {B : SplitBasis RipsIndex} (hb : buildRipsCoboundaryMatrix CF distances max_dim = some (D, B))
    {fuel : ℕ} {rc : RipsIndexᵒᵈ → Option (RedCol CF RipsIndexᵒᵈ)} {dgm : Diagram RipsIndexᵒᵈ}
    (h : buildWithDiagram D.reverse.ref B.reverse fuel (List.range (max_dim + 1)) = some (rc, dgm)) :
    D.filt = ripsFiltrationValue distances ∧
    (∀ p ≤ max_dim, ∀ (s t : F) (hst : s ≤ t),
      persistentBetti (simplexBoundary K) (vietorisRips_mono distances.length d p hst) (vietorisRips_mono distances.length d (p + 1) hst) =
        barsAliveRev (ripsDeg distances.length) (ripsF distances) dgm p s t) ∧
    (∀ x ∈ dgm.essential, ∃ σ, IsSimplex distances.length σ ∧ σ.card ≤ max_dim + 1 ∧ ofDual x = simplexIndex distances.length σ) ∧
    ∀ x ∈ dgm.pairings, ∃ σ τ, (IsSimplex distances.length σ ∧ σ.card ≤ max_dim + 1 ∧ ofDual x.2 = simplexIndex distances.length σ) ∧
      IsSimplex distances.length τ ∧ τ.card = σ.card + 1 ∧ ofDual x.1 = simplexIndex distances.length τ := by
  have hbs := buildRipsBases_spec hD.entry h1
  have hS := ripsSplitCob (CF := CF) (K := K) hD hbs h1
  unfold buildRipsCoboundaryMatrix at hb
  rw [hbs] at hb
  obtain ⟨rfl, rfl⟩ := Prod.mk.inj (Option.some.inj hb)
  rw [reverse_ref] at h
  refine ⟨rfl, ?_, ?_, ?_⟩
  · intro p hp s t hst
    rw [← betti_rips hD.entry p hst]
    refine C26_betti (ripsCellComplex hD) hS h (List.mem_range.2 (by omega)) ?_ hst
    rcases Nat.eq_zero_or_pos p with rfl | h0
    · exact Or.inl rfl
    · exact Or.inr ⟨p - 1, List.mem_range.2 (by omega), by omega⟩
  · intro x hx
    have hnd := flatMap_nodup hS.reverse
    obtain ⟨hP, hE⟩ := clearing_diagram hS.reverse h hnd (fun d hd => flatMap_filter hS.reverse.nodup hS.reverse.deg_els hd) (split_hdims hS.reverse)
    obtain ⟨k, hk, hxk⟩ := List.mem_flatMap.1 ((hE x).1 hx).1.mem
    obtain ⟨y, hy, rfl⟩ := List.mem_map.1 hxk
    rw [List.mem_reverse] at hy
    obtain ⟨σ, h3, h4, rfl⟩ := mem_ripsCells.1 hy
    rw [List.mem_range] at hk
    exact ⟨σ, h3, by omega, rfl⟩
  · rintro ⟨x, y⟩ hx
    have hnd := flatMap_nodup hS.reverse
    obtain ⟨hP, hE⟩ := clearing_diagram hS.reverse h hnd (fun d hd => flatMap_filter hS.reverse.nodup hS.reverse.deg_els hd) (split_hdims hS.reverse)
    have hp := (hP x y).1 hx
    obtain ⟨hy, hdeg, z, hz, _, hzx, _⟩ := pair_deg (rowKey_injective _) hnd (split_deg hS.reverse) hp
    obtain ⟨σ, hσ⟩ : ∃ σ, IsSimplex distances.length σ ∧ σ.card ≤ max_dim + 1 ∧ ofDual y = simplexIndex distances.length σ := by
      obtain ⟨k, hk, hxk⟩ := List.mem_flatMap.1 hy
      obtain ⟨w, hw, rfl⟩ := List.mem_map.1 hxk
      rw [List.mem_reverse] at hw
      obtain ⟨σ, h3, h4, rfl⟩ := mem_ripsCells.1 hw
      rw [List.mem_range] at hk
      exact ⟨σ, h3, by omega, rfl⟩
    obtain ⟨τ, hτ⟩ : ∃ τ, IsSimplex distances.length τ ∧ ofDual x = simplexIndex distances.length τ := by
      obtain ⟨k, hk, hxk⟩ := List.mem_flatMap.1 hz
      obtain ⟨w, hw, rfl⟩ := List.mem_map.1 hxk
      rw [List.mem_reverse] at hw
      have hr := (ripsCellComplex (K := K) hD).rowsN k w hw (ofDual x) (by simpa [dualCols, Finsupp.equivMapDomain_apply] using hzx)
      obtain ⟨σ, h3, h4, e⟩ := mem_ripsCells_int.1 hr
      exact ⟨σ, h3, e⟩
    refine ⟨σ, τ, hσ, hτ.1, ?_, hτ.2⟩
    have h5 : ripsDeg distances.length (ofDual x) = ripsDeg distances.length (ofDual y) + 1 := hdeg
    rw [hτ.2, hσ.2.2, ripsDeg_simplex hτ.1, ripsDeg_simplex hσ.1] at h5
    omega

theorem ripsF_vertex (hD : IsDistanceMatrix distances d) {v : ℕ} (hv : v < distances.length) :
    ripsF distances (simplexIndex distances.length {v}) = 0 := by
  have hs : IsSimplex distances.length {v} := ⟨by simp, by simpa using hv⟩
  apply le_antisymm
  · rw [ripsF_le hD.entry hs]
    simp [hD.diag v hv]
  · have := (ripsF_le hD.entry hs _).1 le_rfl v (by simp) v (by simp)
    rwa [hD.diag v hv] at this

/-- C45: in the Rips cohomology program, at each scale `t ≥ 0` the bars of dimension 0 that are alive are as many as the connected
components of the graph of points at distance at most `t`; and for at least one point there is exactly one essential class, a vertex born
at 0, whatever `max_dim` (for no points, there is none). -/
theorem C45_rips_shape (K : Type) [Field K] [LawfulCoeff CF K] (hD : IsDistanceMatrix distances d) {max_dim : ℕ}
    (h1 : 1 ≤ max_dim ∨ distances.length ≤ 1)
    {D : FOracle CF RipsIndex RipsIndex F} {B : SplitBasis RipsIndex} (hb : buildRipsCoboundaryMatrix CF distances max_dim = some (D, B))
    {fuel : ℕ} {rc : RipsIndexᵒᵈ → Option (RedCol CF RipsIndexᵒᵈ)} {dgm : Diagram RipsIndexᵒᵈ}
    (h : buildWithDiagram D.reverse.ref B.reverse fuel (List.range (max_dim + 1)) = some (rc, dgm)) :
    (∀ s t : F, 0 ≤ s → s ≤ t →
      barsAliveRev (fun c => (((ripsDimension distances.length c).getD 0 : ℕ) : ℤ)) (fun c => (D.filt c).getD 0) dgm 0 s t =
        componentCount distances.length fun a b => d a b ≤ t) ∧
    (1 ≤ distances.length → ∃ v < distances.length, dgm.essential = {toDual (simplexIndex distances.length {v})} ∧
      D.filt (simplexIndex distances.length {v}) = some 0) ∧
    (distances.length = 0 → dgm.essential = ∅) := by
  classical
  obtain ⟨hfilt, hbetti, hess, hpairs⟩ := rips_run_betti (K := K) hD h1 hb h
  have hff : (fun c => (D.filt c).getD 0) = ripsF distances := by rw [hfilt]; rfl
  have hdd : (fun c => (((ripsDimension distances.length c).getD 0 : ℕ) : ℤ)) = ripsDeg distances.length := rfl
  have hcomp : ∀ s t : F, 0 ≤ s → s ≤ t → barsAliveRev (ripsDeg distances.length) (ripsF distances) dgm 0 s t =
        componentCount distances.length fun a b => d a b ≤ t := by
    intro s t hs hst
    have := hbetti 0 (Nat.zero_le _) s t hst
    rw [rips_components hD.diag hD.symm hs hst] at this
    exact this.symm
  refine ⟨by rw [hff, hdd]; exact hcomp, ?_, ?_⟩
  · intro hn
    -- a scale at which everything has appeared
    obtain ⟨t, ht⟩ : ∃ t : F, ∀ i < distances.length, ∀ j < distances.length, d i j ≤ t := by
      obtain ⟨t, ht⟩ := Finset.exists_le (((Finset.range distances.length) ×ˢ (Finset.range distances.length)).image fun p => d p.1 p.2)
      exact ⟨t, fun i hi j hj => ht _ (Finset.mem_image.2 ⟨(i, j), by simp [hi, hj], rfl⟩)⟩
    have h0t : 0 ≤ t := by
      have := ht 0 hn 0 hn
      rwa [hD.diag 0 hn] at this
    have hft : ∀ σ, IsSimplex distances.length σ → ripsF distances (simplexIndex distances.length σ) ≤ t := by
      intro σ hσ
      rw [ripsF_le hD.entry hσ]
      intro a ha b hb
      exact ht a (by simpa using hσ.2 ha) b (by simpa using hσ.2 hb)
    have hall : ∀ p, barsAliveRev (ripsDeg distances.length) (ripsF distances) dgm p t t =
        (dgm.essential.filter fun x => ripsDeg distances.length (ofDual x) = p).card := by
      intro p
      unfold barsAliveRev
      rw [Finset.filter_eq_empty_iff (s := dgm.pairings) |>.2, Finset.card_empty, add_zero]
      · congr 1
        apply Finset.filter_congr
        intro x hx
        obtain ⟨σ, hσ, _, e⟩ := hess x hx
        rw [e]
        simp [hft σ hσ]
      · rintro x hx ⟨_, _, hlt⟩
        obtain ⟨_, τ, _, hτ, _, e⟩ := hpairs x hx
        rw [e] at hlt
        exact absurd (hft τ hτ) (not_le.2 hlt)
    have hvr : ∀ p, vietorisRips distances.length d p t = {σ | σ ⊆ Finset.range distances.length ∧ σ.card = p + 1} := by
      intro p
      ext σ
      refine ⟨fun h => ⟨h.1, h.2.1⟩, fun h => ⟨h.1, h.2, ?_⟩⟩
      intro a ha b hb
      exact ht a (by simpa using h.1 ha) b (by simpa using h.1 hb)
    have hzero : ∀ x ∈ dgm.essential, ripsDeg distances.length (ofDual x) = 0 := by
      intro x hx
      obtain ⟨σ, hσ, hc, e⟩ := hess x hx
      rw [e, ripsDeg_simplex hσ]
      by_contra hne
      have hpos := hσ.1.card_pos
      have hb := hbetti (σ.card - 1) (by omega) t t le_rfl
      rw [hall] at hb
      have hz : persistentBetti (simplexBoundary K) (vietorisRips_mono distances.length d (σ.card - 1) (le_refl t))
          (vietorisRips_mono distances.length d (σ.card - 1 + 1) (le_refl t)) = 0 := by
        unfold persistentBetti
        rw [finrank_range_eq_zero]
        · have := cone_cycles (K := K) (n := distances.length) (p := σ.card - 1) (by omega) hn
          rw [hvr, hvr]
          exact this
      rw [hz] at hb
      have := Finset.filter_eq_empty_iff.1 (Finset.card_eq_zero.1 hb.symm) hx
      apply this
      rw [e, ripsDeg_simplex hσ]
      omega
    have hone : dgm.essential.card = 1 := by
      have h2 := hcomp t t h0t le_rfl
      rw [componentCount_complete hn fun a ha b hb _ => ht a ha b hb] at h2
      have h3 := hall 0
      rw [h2, Finset.filter_true_of_mem hzero] at h3
      exact h3.symm
    obtain ⟨x, hx⟩ := Finset.card_eq_one.1 hone
    obtain ⟨σ, hσ, _, e⟩ := hess x (by rw [hx]; simp)
    have hd0 := hzero x (by rw [hx]; simp)
    rw [e, ripsDeg_simplex hσ] at hd0
    obtain ⟨v, rfl⟩ := Finset.card_eq_one.1 (by omega : σ.card = 1)
    have hv : v < distances.length := by simpa using hσ.2 (by simp : v ∈ ({v} : Finset ℕ))
    refine ⟨v, hv, ?_, ?_⟩
    · rw [hx, ← e]; rfl
    · rw [hfilt, ripsF_eq hD.entry hσ, ripsF_vertex hD hv]
  · intro hn
    rw [Finset.eq_empty_iff_forall_notMem]
    intro x hx
    obtain ⟨σ, hσ, _, _⟩ := hess x hx
    obtain ⟨v, hv⟩ := hσ.1
    have := hσ.2 hv
    rw [hn] at this
    simp at this

end

namespace RipsExample

/-- The hypotheses of C45 hold of the square. -/
example : letI := listHeap
    IsDistanceMatrix dist d ∧ (1 ≤ 1 ∨ dist.length ≤ 1) ∧
    ∃ D B, buildRipsCoboundaryMatrix (ZP 3) dist 1 = some (D, B) ∧ (buildWithDiagram D.reverse.ref B.reverse 20 (List.range 2)).isSome := by
  letI := listHeap
  refine ⟨isDist, Or.inl le_rfl, ?_⟩
  cases h : buildRipsCoboundaryMatrix (ZP 3) dist 1 with
  | none =>
    have : (buildRipsCoboundaryMatrix (ZP 3) dist 1).isSome = true := by decide +kernel
    rw [h] at this; exact absurd this (by simp)
  | some p =>
    refine ⟨p.1, p.2, rfl, ?_⟩
    have : ((buildRipsCoboundaryMatrix (ZP 3) dist 1).bind fun p => buildWithDiagram p.1.reverse.ref p.2.reverse 20 (List.range 2)).isSome = true := by
      decide +kernel
    rw [h] at this
    exact this

/-- The square is connected at scale 1. -/
example : (componentCount 4 fun a b => d a b ≤ 1) = 1 := by
  unfold componentCount
  rw [Nat.card_eq_one_iff_unique]
  refine ⟨⟨?_⟩, ⟨SimpleGraph.connectedComponentMk _ 0⟩⟩
  have h0 : ∀ x : Fin 4, (SimpleGraph.fromRel fun a b : Fin 4 => d a b ≤ 1).Reachable 0 x := by
    have e : ∀ x y : Fin 4, x ≠ y → d x y ≤ 1 → (SimpleGraph.fromRel fun a b : Fin 4 => d a b ≤ 1).Reachable x y := fun x y h1 h2 =>
      SimpleGraph.Adj.reachable ((SimpleGraph.fromRel_adj _ _ _).2 ⟨h1, Or.inl h2⟩)
    intro x
    match x with
    | 0 => exact SimpleGraph.Reachable.refl _
    | 1 => exact e 0 1 (by decide) (by decide)
    | 2 => exact (e 0 1 (by decide) (by decide)).trans (e 1 2 (by decide) (by decide))
    | 3 => exact e 0 3 (by decide) (by decide)
  intro c c'
  induction c using Quot.ind with | mk x =>
  induction c' using Quot.ind with | mk y =>
  exact Quot.sound ((h0 x).symm.trans (h0 y))

end RipsExample
end Phlite
