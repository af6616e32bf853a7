/-
Persistent Betti numbers do not depend on how cells are named.
-/
import Verif.Theory.Betti

set_option linter.unusedSectionVars false
set_option linter.unusedSimpArgs false

namespace Phlite
open Finsupp (single linearCombination linearCombination_single)

section
variable {K S T : Type} [Field K]

theorem finrank_map_injOn {V V' : Type} [AddCommGroup V] [Module K V] [AddCommGroup V'] [Module K V'] (g : V →ₗ[K] V')
    (P : Submodule K V) (h : ∀ x ∈ P, g x = 0 → x = 0) : Module.finrank K (P.map g) = Module.finrank K P := by
  rw [← LinearMap.range_domRestrict]
  refine LinearMap.finrank_range_of_inj ?_
  rw [← LinearMap.ker_eq_bot, LinearMap.ker_eq_bot']
  rintro ⟨x, hx⟩ hh
  exact Subtype.ext (h x hx hh)

/-- Transport of persistent Betti numbers along a linear map `φ` that sends chains on a set of cells onto chains on its image. -/
theorem persistentBetti_transport (e : S → T) (A : Set S) (φ : (S →₀ K) →ₗ[K] (T →₀ K)) (h0 : ∀ x : S →₀ K, x ∈ Finsupp.supported K K A → φ x = 0 → x = 0)
    (hsup : ∀ Q : Set S, Finsupp.supported K K (e '' Q) = (Finsupp.supported K K Q).map φ) {MS : S → (S →₀ K)} {MT : T → (T →₀ K)} {X X' Y Y' : Set S}
    (hfin : X.Finite) (hX : X ⊆ A) (hrowsX : ∀ x ∈ X, ∀ r, MS x r ≠ 0 → r ∈ A) (hrowsY : ∀ y ∈ Y', ∀ r, MS y r ≠ 0 → r ∈ A)
    (hM : ∀ x ∈ X ∪ Y', bdry MT (φ (single x 1)) = φ (MS x)) (hXX : X ⊆ X') (hYY : Y ⊆ Y') {UX UX' UY UY' : Set T}
    (hUX : UX = e '' X) (hUX' : UX' = e '' X') (hUY : UY = e '' Y) (hUY' : UY' = e '' Y') (hUXX : UX ⊆ UX') (hUYY : UY ⊆ UY') :
    persistentBetti MT hUXX hUYY = persistentBetti MS hXX hYY := by
  subst hUX; subst hUX'; subst hUY; subst hUY'
  -- the boundary commutes with `φ`
  have hb : ∀ Q : Set S, (∀ x ∈ Q, bdry MT (φ (single x 1)) = φ (MS x)) → ∀ x ∈ Finsupp.supported K K Q, bdry MT (φ x) = φ (bdry MS x) := by
    intro Q hQ x hx
    conv_lhs => rw [← Finsupp.sum_single x]
    unfold bdry
    rw [Finsupp.linearCombination_apply K x, Finsupp.sum, Finsupp.sum, map_sum, map_sum, map_sum]
    refine Finset.sum_congr rfl fun s hs => ?_
    rw [map_smul, ← hQ s (hx hs), bdry, ← map_smul, ← map_smul, Finsupp.smul_single, smul_eq_mul, mul_one]
  have hbs : ∀ Q : Set S, (∀ x ∈ Q, ∀ r, MS x r ≠ 0 → r ∈ A) → ∀ x ∈ Finsupp.supported K K Q, bdry MS x ∈ Finsupp.supported K K A := by
    intro Q hQ x hx
    unfold bdry
    rw [Finsupp.linearCombination_apply, Finsupp.sum]
    refine Submodule.sum_mem _ fun s hs => Submodule.smul_mem _ _ ?_
    rw [Finsupp.mem_supported]
    intro r hr
    exact hQ s (hx hs) r (Finsupp.mem_support_iff.1 hr)
  have hZle : cyclesOn MS X ≤ Finsupp.supported K K A := inf_le_left.trans (Finsupp.supported_mono hX)
  have hBle : boundariesOn MS Y' ≤ Finsupp.supported K K A := by
    rintro _ ⟨y, hy, rfl⟩
    exact hbs Y' hrowsY y hy
  have hZ : cyclesOn MT (e '' X) = (cyclesOn MS X).map φ := by
    ext w
    constructor
    · rintro ⟨h1, h2⟩
      rw [SetLike.mem_coe, hsup] at h1
      obtain ⟨x, hx, rfl⟩ := h1
      refine ⟨x, ⟨hx, ?_⟩, rfl⟩
      have h3 : bdry MT (φ x) = 0 := h2
      rw [hb X (fun x hx => hM x (Or.inl hx)) x hx] at h3
      exact h0 _ (hbs X hrowsX x hx) h3
    · rintro ⟨x, ⟨h1, h2⟩, rfl⟩
      refine ⟨?_, ?_⟩
      · rw [SetLike.mem_coe, hsup]; exact ⟨x, h1, rfl⟩
      · have h3 : bdry MS x = 0 := h2
        show bdry MT (φ x) = 0
        rw [hb X (fun x hx => hM x (Or.inl hx)) x h1, h3, map_zero]
  have hB : boundariesOn MT (e '' Y') = (boundariesOn MS Y').map φ := by
    unfold boundariesOn
    rw [hsup]
    ext w
    constructor
    · rintro ⟨_, ⟨y, hy, rfl⟩, rfl⟩
      exact ⟨_, ⟨y, hy, rfl⟩, (hb Y' (fun x hx => hM x (Or.inr hx)) y hy).symm⟩
    · rintro ⟨_, ⟨y, hy, rfl⟩, rfl⟩
      exact ⟨_, ⟨y, hy, rfl⟩, hb Y' (fun x hx => hM x (Or.inr hx)) y hy⟩
  have hI : cyclesOn MT (e '' X) ⊓ boundariesOn MT (e '' Y') = (cyclesOn MS X ⊓ boundariesOn MS Y').map φ := by
    rw [hZ, hB]
    ext w
    constructor
    · rintro ⟨⟨z, hz, rfl⟩, ⟨b, hb', hzb⟩⟩
      have : b = z := by
        have := h0 (b - z) (Submodule.sub_mem _ (hBle hb') (hZle hz)) (by rw [map_sub, hzb, sub_self])
        exact sub_eq_zero.1 this
      subst this
      exact ⟨b, ⟨hz, hb'⟩, rfl⟩
    · rintro ⟨z, ⟨h1, h2⟩, rfl⟩
      exact ⟨⟨z, h1, rfl⟩, ⟨z, h2, rfl⟩⟩
  have fd : ∀ {U : Type} (Q : Set U), Q.Finite → FiniteDimensional K (Finsupp.supported K K Q) := by
    intro U Q hQ
    rw [Finsupp.supported_eq_span_single]
    exact FiniteDimensional.span_of_finite K (hQ.image _)
  haveI := fd X hfin
  haveI := fd (e '' X) (hfin.image e)
  haveI f1 : FiniteDimensional K (cyclesOn MS X) := Submodule.finiteDimensional_of_le (inf_le_left : cyclesOn MS X ≤ Finsupp.supported K K X)
  haveI f2 : FiniteDimensional K (cyclesOn MT (e '' X)) :=
    Submodule.finiteDimensional_of_le (inf_le_left : cyclesOn MT (e '' X) ≤ Finsupp.supported K K (e '' X))
  have a1 := finrank_quotBy (cyclesOn_mono MS hXX) (boundariesOn_mono MS hYY)
  have a2 := finrank_quotBy (cyclesOn_mono MT hUXX) (boundariesOn_mono MT hUYY)
  have a3 : Module.finrank K (cyclesOn MT (e '' X)) = Module.finrank K (cyclesOn MS X) := by
    rw [hZ, finrank_map_injOn φ _ (fun x hx => h0 x (hZle hx))]
  rw [hI, finrank_map_injOn φ _ (fun x hx => h0 x (hZle (Submodule.mem_inf.1 hx).1)), a3] at a2
  unfold persistentBetti
  omega

/-- Renaming cells along a map that is injective on the cells involved. -/
theorem persistentBetti_relabel (e : S → T) (A : Set S) (hinj : Set.InjOn e A) {MS : S → (S →₀ K)} {MT : T → (T →₀ K)} {X X' Y Y' : Set S}
    (hfin : X.Finite) (hX : X ⊆ A) (hY : Y' ⊆ A) (hrowsX : ∀ x ∈ X, ∀ r, MS x r ≠ 0 → r ∈ A) (hrowsY : ∀ y ∈ Y', ∀ r, MS y r ≠ 0 → r ∈ A)
    (hM : ∀ x ∈ X ∪ Y', MT (e x) = (MS x).mapDomain e) (hXX : X ⊆ X') (hYY : Y ⊆ Y') {UX UX' UY UY' : Set T}
    (hUX : UX = e '' X) (hUX' : UX' = e '' X') (hUY : UY = e '' Y) (hUY' : UY' = e '' Y') (hUXX : UX ⊆ UX') (hUYY : UY ⊆ UY') :
    persistentBetti MT hUXX hUYY = persistentBetti MS hXX hYY := by
  refine persistentBetti_transport e A (Finsupp.lmapDomain K K e) ?_ ?_ hfin hX hrowsX hrowsY ?_ hXX hYY hUX hUX' hUY hUY' hUXX hUYY
  · intro x hx hh
    exact Finsupp.mapDomain_injOn A hinj hx (by simp) (by rw [← Finsupp.lmapDomain_apply K K, hh]; simp)
  · intro Q
    rw [Finsupp.lmapDomain_supported]
  · intro x hx
    rw [Finsupp.lmapDomain_apply, Finsupp.mapDomain_single, bdry, linearCombination_single, one_smul, hM x hx, Finsupp.lmapDomain_apply]

/-- Renaming cells along an injective map, with signs (or other non-zero factors). -/
theorem persistentBetti_relabel_units (e : S → T) (hinj : Function.Injective e) (u : S → K) (hu : ∀ x, u x ≠ 0) {MS : S → (S →₀ K)} {MT : T → (T →₀ K)}
    {X X' Y Y' : Set S} (hfin : X.Finite)
    (hM : ∀ x ∈ X ∪ Y', u x • MT (e x) = linearCombination K (fun y => single (e y) (u y)) (MS x)) (hXX : X ⊆ X') (hYY : Y ⊆ Y') {UX UX' UY UY' : Set T}
    (hUX : UX = e '' X) (hUX' : UX' = e '' X') (hUY : UY = e '' Y) (hUY' : UY' = e '' Y') (hUXX : UX ⊆ UX') (hUYY : UY ⊆ UY') :
    persistentBetti MT hUXX hUYY = persistentBetti MS hXX hYY := by
  classical
  have happ : ∀ (x : S →₀ K) (y : S), linearCombination K (fun y => single (e y) (u y)) x (e y) = x y * u y := by
    intro x y
    rw [Finsupp.linearCombination_apply, Finsupp.sum, Finsupp.finsetSum_apply, Finset.sum_eq_single y]
    · simp
    · intro b _ hb
      simp [Finsupp.single_apply, hinj.ne hb]
    · intro h
      rw [Finsupp.notMem_support_iff.1 h]; simp
  refine persistentBetti_transport e Set.univ (linearCombination K fun y => single (e y) (u y)) ?_ ?_ hfin (Set.subset_univ _) (fun _ _ _ _ => trivial)
    (fun _ _ _ _ => trivial) ?_ hXX hYY hUX hUX' hUY hUY' hUXX hUYY
  · intro x _ hx
    ext y
    have := happ x y
    rw [hx, Finsupp.zero_apply] at this
    simpa [hu y] using this.symm
  · intro Q
    rw [Finsupp.supported_eq_span_single, Finsupp.supported_eq_span_single, Submodule.map_span, ← Set.image_comp, ← Set.image_comp]
    apply le_antisymm
    · rw [Submodule.span_le]
      rintro _ ⟨y, hy, rfl⟩
      have : single (e y) (1 : K) = (u y)⁻¹ • single (e y) (u y) := by rw [Finsupp.smul_single, smul_eq_mul, inv_mul_cancel₀ (hu y)]
      rw [Function.comp_apply, SetLike.mem_coe, this]
      exact Submodule.smul_mem _ _ (Submodule.subset_span ⟨y, hy, by simp⟩)
    · rw [Submodule.span_le]
      rintro _ ⟨y, hy, rfl⟩
      have : single (e y) (u y) = (u y) • single (e y) (1 : K) := by rw [Finsupp.smul_single, smul_eq_mul, mul_one]
      rw [Function.comp_apply, linearCombination_single, one_smul, SetLike.mem_coe, this]
      exact Submodule.smul_mem _ _ (Submodule.subset_span ⟨y, hy, rfl⟩)
  · intro x hx
    rw [linearCombination_single, one_smul, bdry, linearCombination_single, hM x hx]

end
end Phlite
