/-
Vietoris-Rips complexes at scales above the enclosing radius: cones.
-/
import Verif.Theory.Cone
import Verif.Theory.RipsInvariance

set_option linter.unusedSectionVars false
set_option linter.unusedSimpArgs false

namespace Phlite
open Finsupp (single linearCombination linearCombination_single supported)

section
variable {K F : Type} [Field K] [LinearOrder F] [Zero F] {n : ℕ} {d d' : ℕ → ℕ → F}

/-- At a scale at which all points are joined to the point 0, cycles of positive degree are boundaries. -/
theorem cone_cycles_at {p : ℕ} (hp : 1 ≤ p) (hn : 1 ≤ n) {t : F} (ht : ∀ i < n, d 0 i ≤ t ∧ d i 0 ≤ t) :
    cyclesOn (simplexBoundary K) (vietorisRips n d p t) ≤ boundariesOn (simplexBoundary K) (vietorisRips n d (p + 1) t) := by
  classical
  intro z hz
  obtain ⟨h1, h2⟩ := Submodule.mem_inf.1 hz
  have h1 := (Finsupp.mem_supported K z).1 h1
  have key : bdry (simplexBoundary K) (coneMap K z) + coneMap K (bdry (simplexBoundary K) z) = z := by
    conv_rhs => rw [← Finsupp.sum_single z]
    conv_lhs => rw [← Finsupp.sum_single z]
    rw [Finsupp.sum, map_sum, map_sum, map_sum, map_sum, ← Finset.sum_add_distrib]
    refine Finset.sum_congr rfl fun σ hσ => ?_
    have : single σ (z σ) = z σ • single σ (1 : K) := by rw [Finsupp.smul_single, smul_eq_mul, mul_one]
    rw [this, map_smul, map_smul, map_smul, map_smul, ← smul_add, cone_homotopy (by have := (h1 hσ).2.1; omega)]
  rw [LinearMap.mem_ker.1 h2, map_zero, add_zero] at key
  refine ⟨coneMap K z, ?_, key⟩
  rw [SetLike.mem_coe, coneMap, Finsupp.linearCombination_apply, Finsupp.sum]
  apply Submodule.sum_mem
  intro σ hσ
  apply Submodule.smul_mem
  split
  · exact Submodule.zero_mem _
  · rename_i h0
    obtain ⟨g1, g2, g3⟩ := h1 hσ
    refine Finsupp.single_mem_supported K 1 ⟨?_, ?_, ?_⟩
    · intro x hx
      rcases Finset.mem_insert.1 hx with h | h
      · rw [h]; exact Finset.mem_range.2 hn
      · exact g1 h
    · rw [Finset.card_insert_of_notMem h0, g2]
    · intro a ha b hb
      rcases Finset.mem_insert.1 ha with rfl | ha
      · rcases Finset.mem_insert.1 hb with rfl | hb
        · exact (ht 0 hn).1
        · exact (ht b (Finset.mem_range.1 (g1 hb))).1
      · rcases Finset.mem_insert.1 hb with rfl | hb
        · exact (ht a (Finset.mem_range.1 (g1 ha))).2
        · exact g3 a ha b hb

/-- The same for any point. -/
theorem betti_cone {q p : ℕ} (hp : 1 ≤ p) (hq : q < n) {s t : F} (hst : s ≤ t) (ht : ∀ i < n, d q i ≤ t ∧ d i q ≤ t) :
    persistentBetti (simplexBoundary K) (vietorisRips_mono n d p hst) (vietorisRips_mono n d (p + 1) hst) = 0 := by
  have hπ : ∀ i, i < n ↔ Equiv.swap 0 q i < n := by
    intro i
    by_cases h0 : i = 0
    · subst h0; rw [Equiv.swap_apply_left]; omega
    by_cases h1 : i = q
    · subst h1; rw [Equiv.swap_apply_right]; omega
    · rw [Equiv.swap_apply_of_ne_of_ne h0 h1]
  rw [betti_permute (d' := fun i j => d (Equiv.swap 0 q i) (Equiv.swap 0 q j)) (Equiv.swap 0 q) hπ (fun _ _ _ _ => rfl) p hst]
  unfold persistentBetti
  refine finrank_range_eq_zero _ _ (cone_cycles_at hp (by omega) fun i hi => ?_)
  simp only [Equiv.swap_apply_left]
  exact ht _ ((hπ i).1 hi)

end
end Phlite
