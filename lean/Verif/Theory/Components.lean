/-
Degree-0 homology counts connected components, and the circuit rank.
-/
import Verif.Spec.Persistence
import Verif.Spec.Graph
import Mathlib.LinearAlgebra.Dimension.Constructions

set_option linter.unusedSectionVars false
set_option linter.unusedSimpArgs false

namespace Phlite
open Finsupp (single linearCombination linearCombination_single supported)

section
variable {K V : Type} [Field K]

/-- The differences along a relation. -/
def diffs (K : Type) [Field K] (r : V → V → Prop) : Set (V →₀ K) := {v | ∃ a b, r a b ∧ v = single b 1 - single a 1}

/-- Two chains agree on components iff they differ by differences along the relation. -/
theorem ker_components (r : V → V → Prop) : LinearMap.ker (Finsupp.lmapDomain K K (Quot.mk r)) = Submodule.span K (diffs K r) := by
  classical
  apply le_antisymm
  · -- a left inverse modulo the span
    set B := Submodule.span K (diffs K r)
    have hrel : ∀ a b, r a b → B.mkQ (single a 1) = B.mkQ (single b 1) := by
      intro a b hab
      rw [← sub_eq_zero, ← map_sub, Submodule.mkQ_apply, Submodule.Quotient.mk_eq_zero, ← Submodule.neg_mem_iff, neg_sub]
      exact Submodule.subset_span ⟨a, b, hab, rfl⟩
    let g : Quot r → (V →₀ K) ⧸ B := Quot.lift (fun a => B.mkQ (single a 1)) hrel
    have key : ∀ v : V →₀ K, linearCombination K g (Finsupp.lmapDomain K K (Quot.mk r) v) = B.mkQ v := by
      intro v
      induction v using Finsupp.induction_linear with
      | zero => simp
      | add a b ha hb => rw [map_add, map_add, map_add, ha, hb]
      | single a k =>
        rw [Finsupp.lmapDomain_apply, Finsupp.mapDomain_single, linearCombination_single]
        show k • B.mkQ (single a 1) = _
        rw [← map_smul, Finsupp.smul_single, smul_eq_mul, mul_one]
    intro v hv
    have := key v
    rw [LinearMap.mem_ker.1 hv, map_zero] at this
    rw [← Submodule.Quotient.mk_eq_zero, ← Submodule.mkQ_apply, ← this]
  · apply Submodule.span_le.2
    rintro _ ⟨a, b, hab, rfl⟩
    show Finsupp.lmapDomain K K (Quot.mk r) _ = 0
    rw [map_sub, Finsupp.lmapDomain_apply, Finsupp.lmapDomain_apply, Finsupp.mapDomain_single, Finsupp.mapDomain_single, Quot.sound hab, sub_self]

theorem finrank_supported_ncard {S : Set V} : Module.finrank K (supported K K S) = S.ncard := by
  rw [(Finsupp.supportedEquivFinsupp (M := K) (R := K) S).finrank_eq]
  by_cases h : S.Finite
  · have := h.fintype
    rw [Module.finrank_finsupp_self, ← Nat.card_eq_fintype_card, Nat.card_coe_set_eq]
  · rw [Set.Infinite.ncard h]
    have : Infinite S := Set.infinite_coe_iff.2 h
    apply Module.finrank_of_not_finite
    intro hf
    have := Module.Finite.finite_basis (Finsupp.basisSingleOne (R := K) (ι := S))
    exact not_finite S

/-- Chains on `S` modulo the differences along `r`: one dimension per component. -/
theorem finrank_components (r : V → V → Prop) (S : Set V) :
    Module.finrank K (QuotBy (supported K K S) (Submodule.span K (diffs K r))) = (Quot.mk r '' S).ncard := by
  rw [← finrank_supported_ncard (K := K), ← Finsupp.lmapDomain_supported (M := K) (R := K)]
  obtain ⟨φ, hφ⟩ : ∃ φ : supported K K S →ₗ[K] (Quot r →₀ K), φ = (Finsupp.lmapDomain K K (Quot.mk r)).comp (supported K K S).subtype := ⟨_, rfl⟩
  have h1 : LinearMap.ker φ = (Submodule.span K (diffs K r)).comap (supported K K S).subtype := by
    rw [hφ, LinearMap.ker_comp, ker_components]
  have h2 : LinearMap.range φ = (supported K K S).map (Finsupp.lmapDomain K K (Quot.mk r)) := by
    rw [hφ, LinearMap.range_comp, Submodule.range_subtype]
  have h3 := LinearEquiv.finrank_eq (LinearMap.quotKerEquivRange (R := K) (M := supported K K S) (M₂ := Quot r →₀ K) φ)
  rw [h1, h2] at h3
  exact h3

/-- The rank of the identity on chains modulo more differences. -/
theorem range_quotByMap_same {W : Type} [AddCommGroup W] [Module K W] {Z Z' B B' : Submodule K W} (hZ : Z ≤ Z') (hB : B ≤ B') (hZB : Z' ≤ Z ⊔ B') :
    Module.finrank K (LinearMap.range (quotByMap hZ hB)) = Module.finrank K (QuotBy Z' B') := by
  have : LinearMap.range (quotByMap hZ hB) = ⊤ := by
    rw [LinearMap.range_eq_top]
    intro x
    obtain ⟨⟨w, hw⟩, rfl⟩ := Submodule.mkQ_surjective _ x
    obtain ⟨a, ha, b, hb, rfl⟩ := Submodule.mem_sup.1 (hZB hw)
    refine ⟨Submodule.mkQ _ ⟨a, ha⟩, ?_⟩
    show Submodule.mkQ _ (Submodule.inclusion hZ ⟨a, ha⟩) = _
    rw [← sub_eq_zero, ← map_sub, Submodule.mkQ_apply, Submodule.Quotient.mk_eq_zero, Submodule.mem_comap]
    show a - (a + b) ∈ B'
    rw [sub_add_cancel_left]
    exact Submodule.neg_mem _ hb
  rw [this, finrank_top]

/-- The map is zero if all cycles are boundaries. -/
theorem finrank_range_eq_zero {W : Type} [AddCommGroup W] [Module K W] {Z Z' B B' : Submodule K W} (hZ : Z ≤ Z') (hB : B ≤ B') (h : Z' ≤ B') :
    Module.finrank K (LinearMap.range (quotByMap hZ hB)) = 0 := by
  have : quotByMap hZ hB = 0 := by
    ext ⟨w, hw⟩
    show Submodule.mkQ _ (Submodule.inclusion hZ ⟨w, hw⟩) = 0
    rw [Submodule.mkQ_apply, Submodule.Quotient.mk_eq_zero, Submodule.mem_comap]
    exact h (hZ hw)
  rw [this, LinearMap.range_zero, finrank_bot]

/-- The components of a graph, as classes of the generated equivalence relation. -/
theorem components_ncard {n : ℕ} {R : ℕ → ℕ → Prop} {r : V → V → Prop} {ι : ℕ → V} (hι : ∀ a < n, ∀ b < n, ι a = ι b → a = b)
    (hr : ∀ x y, r x y ↔ ∃ a b, a < n ∧ b < n ∧ R a b ∧ x = ι a ∧ y = ι b) :
    (Quot.mk r '' {x | ∃ a < n, x = ι a}).ncard = componentCount n R := by
  classical
  unfold componentCount
  set G := SimpleGraph.fromRel fun a b : Fin n => R a b
  rw [← Nat.card_coe_set_eq]
  have hto : ∀ x y : Fin n, G.Reachable x y → (Quot.mk r (ι x) : Quot r) = Quot.mk r (ι y) := by
    intro x y h
    obtain ⟨w⟩ := h
    induction w with
    | nil => rfl
    | cons h _ ih =>
      rw [← ih]
      rcases ((SimpleGraph.fromRel_adj _ _ _).1 h).2 with h | h
      · exact Quot.sound ((hr _ _).2 ⟨_, _, Fin.is_lt _, Fin.is_lt _, h, rfl, rfl⟩)
      · exact (Quot.sound ((hr _ _).2 ⟨_, _, Fin.is_lt _, Fin.is_lt _, h, rfl, rfl⟩)).symm
  -- the component of a vertex, by its name
  let g : V → Option G.ConnectedComponent := fun x => if h : ∃ a : Fin n, x = ι a then some (G.connectedComponentMk h.choose) else none
  have hgι : ∀ a : Fin n, g (ι a) = some (G.connectedComponentMk a) := by
    intro a
    have h : ∃ b : Fin n, ι a = ι b := ⟨a, rfl⟩
    simp only [g, dif_pos h]
    have := hι a a.2 h.choose h.choose.2 h.choose_spec
    rw [← Fin.ext this]
  have hg : ∀ x y, r x y → g x = g y := by
    intro x y h
    obtain ⟨a, b, ha, hb, hab, rfl, rfl⟩ := (hr x y).1 h
    have h1 := hgι ⟨a, ha⟩
    have h2 := hgι ⟨b, hb⟩
    simp only at h1 h2
    rw [h1, h2]
    congr 1
    rw [SimpleGraph.ConnectedComponent.eq]
    by_cases hne : a = b
    · subst hne; exact SimpleGraph.Reachable.refl _
    · exact SimpleGraph.Adj.reachable ((SimpleGraph.fromRel_adj _ _ _).2 ⟨fun h => hne (by simpa using h), Or.inl hab⟩)
  refine Nat.card_congr (Equiv.ofBijective
    (Quot.lift (fun x : Fin n => (⟨Quot.mk r (ι x), ι x, ⟨x, x.2, rfl⟩, rfl⟩ : ↥(Quot.mk r '' {x | ∃ a < n, x = ι a}))) ?_) ?_).symm
  · intro x y h; exact Subtype.ext (hto x y h)
  · constructor
    · intro c c'
      induction c using Quot.ind with | mk x =>
      induction c' using Quot.ind with | mk y =>
      intro h
      have h : (Quot.mk r (ι x) : Quot r) = Quot.mk r (ι y) := congrArg Subtype.val h
      have := congrArg (Quot.lift g hg) h
      simp only [hgι] at this
      exact Option.some.inj this
    · rintro ⟨_, _, ⟨a, ha, rfl⟩, rfl⟩
      exact ⟨Quot.mk _ ⟨a, ha⟩, rfl⟩

end
theorem componentCount_complete {n : ℕ} {R : ℕ → ℕ → Prop} (hn : 1 ≤ n) (h : ∀ a < n, ∀ b < n, a ≠ b → R a b) : componentCount n R = 1 := by
  unfold componentCount
  rw [Nat.card_eq_one_iff_unique]
  refine ⟨⟨?_⟩, ⟨SimpleGraph.connectedComponentMk _ ⟨0, hn⟩⟩⟩
  intro c c'
  induction c using Quot.ind with | mk x =>
  induction c' using Quot.ind with | mk y =>
  apply Quot.sound
  by_cases hxy : x = y
  · rw [hxy]
  · exact SimpleGraph.Adj.reachable ((SimpleGraph.fromRel_adj _ _ _).2 ⟨hxy, Or.inl (h x x.2 y y.2 fun e => hxy (Fin.ext e))⟩)

theorem componentCount_zero {R : ℕ → ℕ → Prop} : componentCount 0 R = 0 := by
  unfold componentCount
  rw [Nat.card_eq_zero]
  left
  refine ⟨fun c => ?_⟩
  induction c using Quot.ind with | mk x =>
  exact x.elim0

end Phlite
