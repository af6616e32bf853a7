/-
Simplicial chains: the boundary squares to zero, and the coboundary is its transpose.
-/
import Verif.Spec.Rips
import Mathlib.Data.Finset.Prod

set_option linter.unusedSectionVars false
set_option linter.unusedSimpArgs false

namespace Phlite
open Finsupp (single linearCombination linearCombination_single)

theorem posIn_erase_lt {σ : Finset ℕ} {v u : ℕ} (hv : v ∈ σ) (h : v < u) : posIn (σ.erase v) u + 1 = posIn σ u := by
  unfold posIn
  rw [Finset.filter_erase, Finset.card_erase_of_mem (by simp [hv, h])]
  have : 0 < (σ.filter (· < u)).card := Finset.card_pos.2 ⟨v, by simp [hv, h]⟩
  omega

theorem posIn_erase_ge {σ : Finset ℕ} {v u : ℕ} (h : ¬ v < u) : posIn (σ.erase v) u = posIn σ u := by
  unfold posIn
  rw [Finset.filter_erase, Finset.erase_eq_of_notMem (by simp [h])]

section
variable {K : Type} [Field K]

theorem sign_swap {σ : Finset ℕ} {v u : ℕ} (hv : v ∈ σ) (hu : u ∈ σ) (hne : v ≠ u) :
    ((-1 : K) ^ posIn σ v * (-1) ^ posIn (σ.erase v) u) + (-1) ^ posIn σ u * (-1) ^ posIn (σ.erase u) v = 0 := by
  rcases Nat.lt_or_gt_of_ne hne with h | h
  · rw [← posIn_erase_lt hv h, posIn_erase_ge (σ := σ) (v := u) (u := v) (by omega), pow_succ]; ring
  · rw [← posIn_erase_lt hu h, posIn_erase_ge (σ := σ) (v := v) (u := u) (by omega), pow_succ]; ring

/-- The simplicial boundary squares to zero. -/
theorem simplexBoundary_sq (σ : Finset ℕ) : linearCombination K (simplexBoundary K) (simplexBoundary K σ) = 0 := by
  by_cases h1 : σ.card ≤ 1
  · simp [simplexBoundary, h1]
  by_cases h2 : σ.card ≤ 2
  · rw [simplexBoundary, if_neg h1, map_sum]
    refine Finset.sum_eq_zero fun v hv => ?_
    have : (σ.erase v).card ≤ 1 := by rw [Finset.card_erase_of_mem hv]; omega
    rw [linearCombination_single, simplexBoundary, if_pos this, smul_zero]
  · have e : linearCombination K (simplexBoundary K) (simplexBoundary K σ) =
        ∑ p ∈ σ.offDiag, single ((σ.erase p.1).erase p.2) ((-1 : K) ^ posIn σ p.1 * (-1) ^ posIn (σ.erase p.1) p.2) := by
      rw [simplexBoundary, if_neg h1, map_sum]
      have hs : σ.offDiag = (σ ×ˢ σ).filter fun p => p.2 ≠ p.1 := by
        ext ⟨a, b⟩; simp [Finset.mem_offDiag, and_assoc]; intro _ _; exact ne_comm
      rw [hs, Finset.sum_filter, Finset.sum_product]
      refine Finset.sum_congr rfl fun v hv => ?_
      have : ¬ (σ.erase v).card ≤ 1 := by rw [Finset.card_erase_of_mem hv]; omega
      rw [linearCombination_single, simplexBoundary, if_neg this, Finset.smul_sum, ← Finset.sum_filter]
      refine Finset.sum_congr ?_ fun u _ => ?_
      · ext u; simp [and_comm]
      · rw [Finsupp.smul_single, smul_eq_mul]
    rw [e]
    refine Finset.sum_involution (fun p _ => (p.2, p.1)) ?_ ?_ ?_ ?_
    · rintro ⟨v, u⟩ hp
      simp only [Finset.mem_offDiag] at hp
      rw [Finset.erase_right_comm, ← Finsupp.single_add, sign_swap hp.1 hp.2.1 hp.2.2, Finsupp.single_zero]
    · rintro ⟨v, u⟩ hp _ h
      simp only [Finset.mem_offDiag] at hp
      simp only [Prod.mk.injEq] at h
      exact hp.2.2 h.2
    · rintro ⟨v, u⟩ hp
      simp only [Finset.mem_offDiag] at hp ⊢
      exact ⟨hp.2.1, hp.1, fun h => hp.2.2 h.symm⟩
    · rintro ⟨v, u⟩ _; rfl

/-- The simplicial coboundary is the transpose of the boundary. -/
theorem simplex_transpose {n : ℕ} {σ τ : Finset ℕ} (hσ : IsSimplex n σ) (hτ : IsSimplex n τ) :
    simplexCoboundary K n σ τ = simplexBoundary K τ σ := by
  have hiff : ∀ v, (v ∈ Finset.range n \ σ ∧ insert v σ = τ) ↔ (v ∈ τ ∧ τ.erase v = σ) := by
    intro v
    constructor
    · rintro ⟨h1, rfl⟩
      rw [Finset.mem_sdiff] at h1
      exact ⟨by simp, Finset.erase_insert h1.2⟩
    · rintro ⟨h1, rfl⟩
      exact ⟨Finset.mem_sdiff.2 ⟨hτ.2 h1, by simp⟩, Finset.insert_erase h1⟩
  have hpos : ∀ v, τ.erase v = σ → posIn σ v = posIn τ v := by
    rintro v rfl
    exact posIn_erase_ge (lt_irrefl v)
  unfold simplexCoboundary simplexBoundary
  split
  · rename_i hc
    rw [Finsupp.finsetSum_apply, Finsupp.coe_zero, Pi.zero_apply]
    refine Finset.sum_eq_zero fun v hv => ?_
    rw [Finsupp.single_apply, if_neg]
    rintro rfl
    rw [Finset.mem_sdiff] at hv
    rw [Finset.card_insert_of_notMem hv.2] at hc
    have := hσ.1.card_pos
    omega
  · rw [Finsupp.finsetSum_apply, Finsupp.finsetSum_apply]
    simp only [Finsupp.single_apply]
    rw [← Finset.sum_filter, ← Finset.sum_filter]
    refine Finset.sum_congr ?_ ?_
    · ext v
      rw [Finset.mem_filter, Finset.mem_filter, hiff]
    · intro v hv
      rw [Finset.mem_filter] at hv
      rw [hpos v hv.2]

theorem simplexBoundary_support {σ ρ : Finset ℕ} (h : simplexBoundary K σ ρ ≠ 0) : ¬ σ.card ≤ 1 ∧ ∃ v ∈ σ, ρ = σ.erase v := by
  unfold simplexBoundary at h
  split at h
  · exact absurd rfl h
  · rename_i hc
    refine ⟨hc, ?_⟩
    rw [Finsupp.finsetSum_apply] at h
    obtain ⟨v, hv, hne⟩ := Finset.exists_ne_zero_of_sum_ne_zero h
    rw [Finsupp.single_apply] at hne
    refine ⟨v, hv, ?_⟩
    by_contra hh
    rw [if_neg (fun e => hh e.symm)] at hne
    exact hne rfl

theorem simplexCoboundary_support {n : ℕ} {σ τ : Finset ℕ} (h : simplexCoboundary K n σ τ ≠ 0) : ∃ v < n, v ∉ σ ∧ τ = insert v σ := by
  unfold simplexCoboundary at h
  rw [Finsupp.finsetSum_apply] at h
  obtain ⟨v, hv, hne⟩ := Finset.exists_ne_zero_of_sum_ne_zero h
  rw [Finsupp.single_apply] at hne
  rw [Finset.mem_sdiff, Finset.mem_range] at hv
  refine ⟨v, hv.1, hv.2, ?_⟩
  by_contra hh
  rw [if_neg (fun e => hh e.symm)] at hne
  exact hne rfl

end
end Phlite
