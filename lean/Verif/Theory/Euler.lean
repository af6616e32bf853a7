/-
Betti numbers and numbers of simplices: the Euler characteristic and the Morse inequalities of Vietoris-Rips complexes.
-/
import Verif.Theory.RipsInvariance
import Verif.Theory.Twin
import Verif.Theory.Components
import Verif.Theory.Betti
import Mathlib.Algebra.BigOperators.Intervals
import Mathlib.Tactic.Ring

set_option linter.unusedSectionVars false
set_option linter.unusedSimpArgs false

namespace Phlite

section
variable {F : Type} [LinearOrder F] [Zero F] (K : Type) [Field K] (n : ℕ) (d : ℕ → ℕ → F) (t : F)

/-- The rank of the boundary map on the `p`-simplices at scale `t`. -/
noncomputable def boundaryRank (p : ℕ) : ℕ := Module.finrank K (boundariesOn (simplexBoundary K) (vietorisRips n d p t))

theorem boundaryRank_zero : boundaryRank K n d t 0 = 0 := by
  unfold boundaryRank
  have : boundariesOn (simplexBoundary K) (vietorisRips n d 0 t) = ⊥ := by
    rw [boundariesOn_eq_span, Submodule.span_eq_bot]
    rintro _ ⟨σ, hσ, rfl⟩
    unfold simplexBoundary
    rw [if_pos (by rw [hσ.2.1])]
  rw [this, finrank_bot]

theorem boundaryRank_empty {p : ℕ} (h : n ≤ p) : boundaryRank K n d t p = 0 := by
  unfold boundaryRank
  have : boundariesOn (simplexBoundary K) (vietorisRips n d p t) = ⊥ := by
    rw [boundariesOn_eq_span, Submodule.span_eq_bot]
    rintro _ ⟨σ, hσ, rfl⟩
    have := Finset.card_le_card hσ.1
    rw [hσ.2.1, Finset.card_range] at this
    omega
  rw [this, finrank_bot]

/-- The `p`-simplices are as many as the Betti number and the ranks of the boundary maps on the `p`- and `p+1`-simplices together. -/
theorem betti_add_ranks (p : ℕ) :
    persistentBetti (simplexBoundary K) (vietorisRips_mono n d p (le_refl t)) (vietorisRips_mono n d (p + 1) (le_refl t)) + boundaryRank K n d t (p + 1) + boundaryRank K n d t p =
      (vietorisRips n d p t).ncard := by
  have : FiniteDimensional K (Finsupp.supported K K (vietorisRips n d p t)) := by
    rw [Finsupp.supported_eq_span_single]
    exact FiniteDimensional.span_of_finite K ((vietorisRips_finite n d p t).image _)
  have h1 := finrank_map_add (bdry (simplexBoundary K)) (Finsupp.supported K K (vietorisRips n d p t))
  have : FiniteDimensional K (cyclesOn (simplexBoundary K) (vietorisRips n d p t)) := Submodule.finiteDimensional_of_le (inf_le_left : _ ≤ Finsupp.supported K K (vietorisRips n d p t))
  have h2 := finrank_quotBy (K := K) (cyclesOn_mono (simplexBoundary K) (vietorisRips_mono n d p (le_refl t)))
    (boundariesOn_mono (simplexBoundary K) (vietorisRips_mono n d (p + 1) (le_refl t)))
  have h3 : cyclesOn (simplexBoundary K) (vietorisRips n d p t) ⊓ boundariesOn (simplexBoundary K) (vietorisRips n d (p + 1) t) =
      boundariesOn (simplexBoundary K) (vietorisRips n d (p + 1) t) := by
    rw [inf_eq_right, boundariesOn_eq_span, Submodule.span_le]
    rintro _ ⟨σ, hσ, rfl⟩
    refine ⟨?_, ?_⟩
    · rw [SetLike.mem_coe, Finsupp.mem_supported]
      intro ρ hρ
      obtain ⟨-, v, hv, rfl⟩ := simplexBoundary_support (Finsupp.mem_support_iff.1 hρ)
      exact ⟨(Finset.erase_subset v σ).trans hσ.1, by rw [Finset.card_erase_of_mem hv, hσ.2.1]; rfl,
        fun a ha b hb => hσ.2.2 a (Finset.mem_of_mem_erase ha) b (Finset.mem_of_mem_erase hb)⟩
    · exact LinearMap.mem_ker.2 (simplexBoundary_sq σ)
  rw [h3] at h2
  rw [finrank_supported_ncard] at h1
  unfold persistentBetti boundaryRank
  unfold boundariesOn at h2 ⊢
  unfold cyclesOn at h2
  unfold cyclesOn
  omega

/-- The alternating sums of Betti numbers and of numbers of simplices. -/
theorem alternating_sum (m : ℕ) :
    ∑ p ∈ Finset.range (m + 1), (-1 : ℤ) ^ (m + p) *
        (persistentBetti (simplexBoundary K) (vietorisRips_mono n d p (le_refl t)) (vietorisRips_mono n d (p + 1) (le_refl t)) : ℤ) + boundaryRank K n d t (m + 1) =
      ∑ p ∈ Finset.range (m + 1), (-1 : ℤ) ^ (m + p) * ((vietorisRips n d p t).ncard : ℤ) := by
  induction m with
  | zero =>
    have h := betti_add_ranks K n d t 0
    rw [boundaryRank_zero, add_zero] at h
    simp only [zero_add, Finset.range_one, Finset.sum_singleton, pow_zero, one_mul]
    exact_mod_cast h
  | succ m ih =>
    have h := betti_add_ranks K n d t (m + 1)
    have hz : (persistentBetti (simplexBoundary K) (vietorisRips_mono n d (m + 1) (le_refl t)) (vietorisRips_mono n d (m + 1 + 1) (le_refl t)) : ℤ) +
      boundaryRank K n d t (m + 1 + 1) + boundaryRank K n d t (m + 1) = ((vietorisRips n d (m + 1) t).ncard : ℤ) := by exact_mod_cast h
    have hsign : ∀ f : ℕ → ℤ, ∑ p ∈ Finset.range (m + 1), (-1 : ℤ) ^ (m + 1 + p) * f p = - ∑ p ∈ Finset.range (m + 1), (-1 : ℤ) ^ (m + p) * f p := by
      intro f
      rw [← Finset.sum_neg_distrib]
      exact Finset.sum_congr rfl fun p _ => by ring
    have heven : (-1 : ℤ) ^ (m + 1 + (m + 1)) = 1 := Even.neg_one_pow ⟨m + 1, rfl⟩
    rw [Finset.sum_range_succ _ (m + 1), Finset.sum_range_succ _ (m + 1), hsign, hsign, heven]
    linarith

end
end Phlite
