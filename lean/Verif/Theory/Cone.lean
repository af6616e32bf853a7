/-
The full simplex is contractible: every simplicial cycle of positive degree is a boundary.
-/
import Verif.Spec.Rips
import Verif.Theory.Components
import Verif.Theory.Betti

set_option linter.unusedSectionVars false
set_option linter.unusedSimpArgs false

namespace Phlite
open Finsupp (single linearCombination linearCombination_single supported)

section
variable (K : Type) [Field K]

/-- The cone with the vertex 0. -/
noncomputable def coneMap : (Finset ℕ →₀ K) →ₗ[K] (Finset ℕ →₀ K) :=
  linearCombination K fun σ => if 0 ∈ σ then 0 else single (insert 0 σ) 1

variable {K}

theorem cone_homotopy {σ : Finset ℕ} (h : 2 ≤ σ.card) :
    bdry (simplexBoundary K) (coneMap K (single σ 1)) + coneMap K (bdry (simplexBoundary K) (single σ 1)) = single σ 1 := by
  classical
  have e0 : bdry (simplexBoundary K) (single σ 1) = ∑ v ∈ σ, single (σ.erase v) ((-1 : K) ^ posIn σ v) := by
    rw [bdry, linearCombination_single, one_smul, simplexBoundary, if_neg (by omega)]
  rw [e0, map_sum]
  by_cases h0 : 0 ∈ σ
  · have e1 : coneMap K (single σ 1) = 0 := by rw [coneMap, linearCombination_single, if_pos h0, smul_zero]
    rw [e1, map_zero, zero_add, Finset.sum_eq_single 0]
    · rw [coneMap, linearCombination_single, if_neg (by simp), Finset.insert_erase h0]
      have : posIn σ 0 = 0 := by simp [posIn]
      rw [this, pow_zero, one_smul]
    · intro v hv hv0
      rw [coneMap, linearCombination_single, if_pos (Finset.mem_erase.2 ⟨fun h => hv0 h.symm, h0⟩), smul_zero]
    · intro h; exact absurd h0 h
  · have e1 : coneMap K (single σ 1) = single (insert 0 σ) 1 := by rw [coneMap, linearCombination_single, if_neg h0, one_smul]
    have hc : (insert 0 σ).card = σ.card + 1 := Finset.card_insert_of_notMem h0
    rw [e1, bdry, linearCombination_single, one_smul, simplexBoundary, if_neg (by omega), Finset.sum_insert h0, Finset.erase_insert h0]
    have : posIn (insert 0 σ) 0 = 0 := by simp [posIn]
    rw [this, pow_zero, add_assoc, ← Finset.sum_add_distrib, Finset.sum_eq_zero, add_zero]
    intro v hv
    have hv0 : v ≠ 0 := fun h => h0 (h ▸ hv)
    have hp : posIn (insert 0 σ) v = posIn σ v + 1 := by
      unfold posIn
      rw [Finset.filter_insert, if_pos (by omega), Finset.card_insert_of_notMem]
      simp [h0]
    rw [coneMap, linearCombination_single, if_neg (by simp [h0]), Finset.erase_insert_of_ne (fun h => hv0 h.symm), hp, pow_succ, Finsupp.smul_single,
      smul_eq_mul, mul_one, ← Finsupp.single_add]
    simp

/-- Cycles of positive degree of the full simplex are boundaries. -/
theorem cone_cycles {n p : ℕ} (hp : 1 ≤ p) (hn : 1 ≤ n) :
    cyclesOn (simplexBoundary K) {σ | σ ⊆ Finset.range n ∧ σ.card = p + 1} ≤
      boundariesOn (simplexBoundary K) {σ | σ ⊆ Finset.range n ∧ σ.card = p + 2} := by
  classical
  intro z hz
  obtain ⟨h1, h2⟩ := Submodule.mem_inf.1 hz
  have h1 := (Finsupp.mem_supported K z).1 h1
  have key : ∀ w : Finset ℕ →₀ K, (∀ σ ∈ w.support, 2 ≤ σ.card) →
      bdry (simplexBoundary K) (coneMap K w) + coneMap K (bdry (simplexBoundary K) w) = w := by
    intro w hw
    conv_rhs => rw [← Finsupp.sum_single w]
    conv_lhs => rw [← Finsupp.sum_single w]
    rw [Finsupp.sum, map_sum, map_sum, map_sum, map_sum, ← Finset.sum_add_distrib]
    refine Finset.sum_congr rfl fun σ hσ => ?_
    have : single σ (w σ) = w σ • single σ (1 : K) := by rw [Finsupp.smul_single, smul_eq_mul, mul_one]
    rw [this, map_smul, map_smul, map_smul, map_smul, ← smul_add, cone_homotopy (hw σ hσ)]
  have hk := key z fun σ hσ => by have := (h1 hσ).2; omega
  rw [LinearMap.mem_ker.1 h2, map_zero, add_zero] at hk
  refine ⟨coneMap K z, ?_, hk⟩
  rw [SetLike.mem_coe, coneMap, Finsupp.linearCombination_apply, Finsupp.sum]
  apply Submodule.sum_mem
  intro σ hσ
  apply Submodule.smul_mem
  split
  · exact Submodule.zero_mem _
  · rename_i h0
    refine Finsupp.single_mem_supported K 1 ⟨?_, ?_⟩
    · intro x hx
      rcases Finset.mem_insert.1 hx with h | h
      · rw [h]; exact Finset.mem_range.2 hn
      · exact (h1 hσ).1 h
    · rw [Finset.card_insert_of_notMem h0, (h1 hσ).2]

end

section
variable {K F : Type} [Field K] [LinearOrder F] [Zero F] {n : ℕ} {d : ℕ → ℕ → F}

theorem edge_boundary {a b : ℕ} (h : a < b) : simplexBoundary K {a, b} = single {b} 1 - single {a} 1 := by
  have hab : a ≠ b := h.ne
  rw [simplexBoundary, if_neg (by rw [Finset.card_pair hab]; omega), Finset.sum_pair hab]
  have e1 : posIn {a, b} a = 0 := by
    unfold posIn
    rw [Finset.card_eq_zero, Finset.filter_eq_empty_iff]
    intro x hx
    simp only [Finset.mem_insert, Finset.mem_singleton] at hx
    omega
  have e2 : posIn {a, b} b = 1 := by
    unfold posIn
    rw [Finset.card_eq_one]
    refine ⟨a, ?_⟩
    ext x
    simp only [Finset.mem_filter, Finset.mem_insert, Finset.mem_singleton]
    omega
  have e3 : ({a, b} : Finset ℕ).erase a = {b} := by
    ext x; simp only [Finset.mem_erase, Finset.mem_insert, Finset.mem_singleton]; omega
  have e4 : ({a, b} : Finset ℕ).erase b = {a} := by
    ext x; simp only [Finset.mem_erase, Finset.mem_insert, Finset.mem_singleton]; omega
  rw [e1, e2, e3, e4, pow_zero, pow_one, Finsupp.single_neg, sub_eq_add_neg]

/-- Degree-0 persistent homology of the Vietoris-Rips filtration counts connected components. -/
theorem rips_components (hdiag : ∀ i < n, d i i = 0) (hsymm : ∀ i < n, ∀ j < n, d i j = d j i) {s t : F} (hs : 0 ≤ s) (hst : s ≤ t) :
    persistentBetti (simplexBoundary K) (vietorisRips_mono n d 0 hst) (vietorisRips_mono n d 1 hst) =
      componentCount n fun a b => d a b ≤ t := by
  classical
  have hV : ∀ u : F, 0 ≤ u → vietorisRips n d 0 u = {x | ∃ a < n, x = {a}} := by
    intro u hu
    ext σ
    constructor
    · rintro ⟨h1, h2, _⟩
      obtain ⟨a, rfl⟩ := Finset.card_eq_one.1 h2
      exact ⟨a, by simpa using h1, rfl⟩
    · rintro ⟨a, ha, rfl⟩
      refine ⟨by simpa using ha, by simp, ?_⟩
      simp only [Finset.mem_singleton]
      rintro _ rfl _ rfl
      rw [hdiag _ ha]; exact hu
  have hZ : ∀ u : F, 0 ≤ u → cyclesOn (simplexBoundary K) (vietorisRips n d 0 u) = supported K K {x | ∃ a < n, x = {a}} := by
    intro u hu
    rw [hV u hu]
    apply le_antisymm inf_le_left
    refine le_inf le_rfl ?_
    intro z hz
    have hz := (Finsupp.mem_supported K z).1 hz
    show bdry _ z = 0
    rw [bdry, Finsupp.linearCombination_apply, Finsupp.sum]
    apply Finset.sum_eq_zero
    intro σ hσ
    obtain ⟨a, _, rfl⟩ := hz hσ
    simp [simplexBoundary]
  set r : Finset ℕ → Finset ℕ → Prop := fun x y => ∃ a b, a < n ∧ b < n ∧ d a b ≤ t ∧ x = {a} ∧ y = {b} with hr
  have hB : boundariesOn (simplexBoundary K) (vietorisRips n d 1 t) = Submodule.span K (diffs K r) := by
    rw [boundariesOn_eq_span]
    apply le_antisymm
    · apply Submodule.span_le.2
      rintro _ ⟨σ, ⟨h1, h2, h3⟩, rfl⟩
      obtain ⟨a, b, hab, rfl⟩ : ∃ a b, a < b ∧ σ = {a, b} := by
        obtain ⟨a, b, hne, rfl⟩ := Finset.card_eq_two.1 h2
        rcases Nat.lt_or_gt_of_ne hne with h | h
        · exact ⟨a, b, h, rfl⟩
        · exact ⟨b, a, h, Finset.pair_comm _ _⟩
      rw [edge_boundary hab]
      refine Submodule.subset_span ⟨_, _, ⟨a, b, ?_, ?_, h3 a (by simp) b (by simp), rfl, rfl⟩, rfl⟩
      · simpa using h1 (by simp : a ∈ ({a, b} : Finset ℕ))
      · simpa using h1 (by simp : b ∈ ({a, b} : Finset ℕ))
    · apply Submodule.span_le.2
      rintro _ ⟨_, _, ⟨a, b, ha, hb, hab, rfl, rfl⟩, rfl⟩
      have hmem : ∀ a b, a < n → b < n → a < b → d a b ≤ t → ({a, b} : Finset ℕ) ∈ vietorisRips n d 1 t := by
        intro a b ha hb hab h
        refine ⟨?_, Finset.card_pair hab.ne, ?_⟩
        · intro x hx
          rcases Finset.mem_insert.1 hx with rfl | hx
          · simpa using ha
          · rw [Finset.mem_singleton.1 hx]; simpa using hb
        · have h0 : (0 : F) ≤ t := hs.trans hst
          intro x hx y hy
          simp only [Finset.mem_insert, Finset.mem_singleton] at hx hy
          rcases hx with rfl | rfl <;> rcases hy with rfl | rfl
          · rw [hdiag _ ha]; exact h0
          · exact h
          · rw [hsymm _ hb _ ha]; exact h
          · rw [hdiag _ hb]; exact h0
      rcases lt_trichotomy a b with h | rfl | h
      · rw [← edge_boundary h]
        exact Submodule.subset_span ⟨_, hmem a b ha hb h hab, rfl⟩
      · rw [sub_self]; exact Submodule.zero_mem _
      · rw [← neg_sub, ← edge_boundary h]
        exact Submodule.neg_mem _ (Submodule.subset_span ⟨_, hmem b a hb ha h (by rw [hsymm _ hb _ ha]; exact hab), rfl⟩)
  have hc := components_ncard (n := n) (R := fun a b => d a b ≤ t) (r := r) (ι := fun a : ℕ => ({a} : Finset ℕ))
    (fun a _ b _ h => Finset.singleton_injective h) fun x y => Iff.rfl
  rw [← hc, ← finrank_components (K := K)]
  unfold persistentBetti
  rw [range_quotByMap_same]
  · rw [hZ t (hs.trans hst), hB]
  · rw [hZ s hs, hZ t (hs.trans hst)]; exact le_sup_left

end
end Phlite
