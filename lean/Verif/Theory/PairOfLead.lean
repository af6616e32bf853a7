/-
A criterion for persistence pairs: a column that needs no reduction.
-/
import Verif.Theory.Complex

set_option linter.unusedSectionVars false
namespace Phlite
open Finsupp
section
variable {K C R L : Type} [Field K] [LinearOrder L]

theorem minorRank_insert_zero {M : C → (R →₀ K)} {U : Set R} {Q : Set C} {c : C} (h : ∀ x ∈ U, M c x = 0) : minorRank M U (insert c Q) = minorRank M U Q := by
  classical
  unfold minorRank
  rw [Set.image_insert_eq, Submodule.span_insert, (Finsupp.filter_eq_zero_iff _ _).2 h, Submodule.span_zero_singleton, bot_sup_eq]

theorem minorRank_insert_new {M : C → (R →₀ K)} {U : Set R} {Q : Set C} (hQ : Q.Finite) {c : C}
    (h : ∀ z ∈ Submodule.span K (M '' Q), ∃ x ∈ U, M c x ≠ z x) : minorRank M U (insert c Q) = minorRank M U Q + 1 := by
  classical
  set f : (R →₀ K) →ₗ[K] (R →₀ K) := (Submodule.subtype _).comp (@Finsupp.restrictDom R K K _ _ _ U fun _ => Classical.propDecidable _) with hf
  have hfa : ∀ v, f v = @Finsupp.filter R K _ (· ∈ U) (fun _ => Classical.propDecidable _) v := fun v => rfl
  have hrank : ∀ Q : Set C, minorRank M U Q = Module.finrank K (Submodule.span K ((fun c => f (M c)) '' Q)) := fun Q => rfl
  rw [hrank, hrank, Set.image_insert_eq, Submodule.span_insert]
  set S := Submodule.span K ((fun c => f (M c)) '' Q) with hS
  have hSm : S = (Submodule.span K (M '' Q)).map f := by rw [hS, Submodule.map_span, Set.image_image]
  have hn : f (M c) ∉ S := by
    rw [hSm]
    rintro ⟨z, hz, he⟩
    obtain ⟨x, hx, hne⟩ := h z hz
    apply hne
    have := DFunLike.congr_fun he x
    rw [hfa, hfa, Finsupp.filter_apply_pos _ _ hx, Finsupp.filter_apply_pos _ _ hx] at this
    exact this.symm
  have hne : f (M c) ≠ 0 := fun e => hn (by rw [e]; exact S.zero_mem)
  have : FiniteDimensional K S := FiniteDimensional.span_of_finite K (hQ.image _)
  have hd : Submodule.span K {f (M c)} ⊓ S = ⊥ := by
    rw [← disjoint_iff, disjoint_comm]
    exact (Submodule.disjoint_span_singleton' hne).2 hn
  have := Submodule.finrank_sup_add_finrank_inf_eq (Submodule.span K {f (M c)}) S
  rw [hd, finrank_bot, finrank_span_singleton hne] at this
  omega

/-- A column with lead `r` is paired with `r` if nothing in the span of the columns before it has lead `r`. -/
theorem pair_of_lead {key : R → L} {M : C → (R →₀ K)} {cols pre post : List C} {r : R} {c : C} (hc : cols = pre ++ c :: post) (hl : IsLead key (M c) r)
    (hno : ∀ z ∈ Submodule.span K (M '' {x | x ∈ pre}), ¬ IsLead key z r) : IsPersistencePair key cols M r c := by
  refine ⟨pre, post, hc, ?_⟩
  unfold PairRank
  rw [minorRank_insert_zero (U := {x | key r < key x}), minorRank_insert_new (U := {x | key r ≤ key x}) (List.finite_toSet pre)]
  · omega
  · intro z hz
    by_contra hcon
    have heq : ∀ x, key r ≤ key x → M c x = z x := by
      intro x hx
      by_contra h
      exact hcon ⟨x, hx, h⟩
    refine hno z hz ⟨by rw [← heq r le_rfl]; exact hl.1, fun x hx => ?_⟩
    by_contra h
    have h := not_le.1 h
    rw [← heq x h.le] at hx
    exact absurd (hl.2 x hx) (not_le.2 h)
  · intro x hx
    by_contra hne
    exact absurd (hl.2 x hne) (not_le.2 hx)

end
end Phlite
