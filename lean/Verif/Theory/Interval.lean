/-
The columns of a reduction are representatives of the bars: a persistence basis.
-/
import Verif.Spec.Reps
import Verif.Theory.Reps

set_option linter.unusedSectionVars false
set_option linter.unusedSimpArgs false

namespace Phlite
open Finsupp (single linearCombination linearCombination_single)

section
variable {K T F : Type} [Field K] [LinearOrder F] [LinearOrder T]

/-- Cycles on a prefix of the cells are spanned by representatives with distinct leads. -/
theorem cycles_span {C : Type} {key : T → F} {X : List T} (hX : X.Pairwise fun a b => key a < key b)
    {M : T → (T →₀ K)} {I : Set C} {birth : C → T} {z : C → (T →₀ K)} (hlead : ∀ i ∈ I, IsLead key (z i) (birth i))
    (hsupp : ∀ i ∈ I, ∀ x, z i x ≠ 0 → x ∈ X) (hcyc : ∀ i ∈ I, bdry M (z i) = 0)
    (hbirth : ∀ c, IsDependent X M c → ∃ i ∈ I, birth i = c) {pre post : List T} (h : X = pre ++ post) :
    cyclesOn M {x | x ∈ pre} ≤ Submodule.span K (z '' {i | i ∈ I ∧ birth i ∈ pre}) := by
  classical
  induction pre using List.reverseRecOn generalizing post with
  | nil =>
    intro w hw
    have h1 := (Submodule.mem_inf.1 hw).1
    have : w = 0 := by
      ext x
      by_contra hne
      exact absurd ((Finsupp.mem_supported K w).1 h1 (Finsupp.mem_support_iff.2 hne)) (by simp)
    rw [this]; exact Submodule.zero_mem _
  | append_singleton pre c ih =>
    have h2 : X = pre ++ c :: post := by rw [h]; simp
    have ih := ih h2
    have hmono : Submodule.span K (z '' {i | i ∈ I ∧ birth i ∈ pre}) ≤ Submodule.span K (z '' {i | i ∈ I ∧ birth i ∈ pre ++ [c]}) := by
      apply Submodule.span_mono
      apply Set.image_mono
      rintro i ⟨h1, h2⟩
      exact ⟨h1, by simp [h2]⟩
    intro w hw
    obtain ⟨h1, h3⟩ := Submodule.mem_inf.1 hw
    have hsw : ∀ x, w x ≠ 0 → x ∈ pre ∨ x = c := by
      intro x hx
      have := (Finsupp.mem_supported K w).1 h1 (Finsupp.mem_support_iff.2 hx)
      simpa using this
    -- a cycle without `c`
    have hsmall : ∀ u : T →₀ K, (∀ x, u x ≠ 0 → x ∈ pre ∨ x = c) → u c = 0 → bdry M u = 0 →
        u ∈ Submodule.span K (z '' {i | i ∈ I ∧ birth i ∈ pre ++ [c]}) := by
      intro u hu huc hz
      refine hmono (ih (Submodule.mem_inf.2 ⟨(Finsupp.mem_supported K u).2 ?_, hz⟩))
      intro x hx
      rcases hu x (Finsupp.mem_support_iff.1 hx) with h | h
      · exact h
      · subst h; exact absurd huc (Finsupp.mem_support_iff.1 hx)
    by_cases hwc : w c = 0
    · exact hsmall w hsw hwc h3
    · -- `c` is dependent
      have hdep : IsDependent X M c := by
        refine ⟨pre, post, h2, ?_⟩
        have hz : bdry M w = 0 := h3
        rw [(Finsupp.single_add_erase c w).symm, map_add, bdry, linearCombination_single] at hz
        have hmem : linearCombination K M (w.erase c) ∈ Submodule.span K (M '' {x | x ∈ pre}) := by
          rw [Finsupp.linearCombination_apply, Finsupp.sum]
          apply Submodule.sum_mem
          intro y hy
          apply Submodule.smul_mem
          apply Submodule.subset_span
          refine ⟨y, ?_, rfl⟩
          simp only [Finsupp.support_erase, Finset.mem_erase, Finsupp.mem_support_iff] at hy
          exact (hsw y hy.2).resolve_right hy.1
        have : M c = -((w c)⁻¹ • linearCombination K M (w.erase c)) := by
          have h2 : w c • M c = -linearCombination K M (w.erase c) := by rw [eq_neg_iff_add_eq_zero]; exact hz
          rw [← smul_neg, ← h2, smul_smul, inv_mul_cancel₀ hwc, one_smul]
        rw [this]
        exact Submodule.neg_mem _ (Submodule.smul_mem _ _ hmem)
      obtain ⟨i, hi, rfl⟩ := hbirth c hdep
      have hl := hlead i hi
      set k := w (birth i) * (z i (birth i))⁻¹ with hk
      have hzi : z i ∈ Submodule.span K (z '' {j | j ∈ I ∧ birth j ∈ pre ++ [birth i]}) :=
        Submodule.subset_span ⟨i, ⟨hi, by simp⟩, rfl⟩
      have hsz : ∀ x, z i x ≠ 0 → x ∈ pre ∨ x = birth i := by
        intro x hx
        have hx1 := hsupp i hi x hx
        have hx2 := hl.2 x hx
        rw [h2] at hx1 hX
        rcases List.mem_append.1 hx1 with h | h
        · exact Or.inl h
        · rcases List.mem_cons.1 h with h | h
          · exact Or.inr h
          · have := (List.pairwise_cons.1 (List.pairwise_append.1 hX).2.1).1 x h
            exact absurd hx2 (not_le.2 this)
      have := hsmall (w - k • z i) (by
        intro x hx
        by_cases h : w x = 0
        · rw [Finsupp.sub_apply, h, zero_sub, Finsupp.smul_apply] at hx
          exact hsz x fun h => hx (by rw [h]; simp)
        · exact hsw x h) (by
        rw [Finsupp.sub_apply, Finsupp.smul_apply, smul_eq_mul, hk, mul_assoc, inv_mul_cancel₀ hl.1, mul_one, sub_self])
        (by rw [map_sub, map_smul, hcyc i hi, smul_zero, sub_zero]; exact h3)
      have h4 := Submodule.add_mem _ this (Submodule.smul_mem _ k hzi)
      rwa [sub_add_cancel] at h4

/-- Chains with the birth cells as leads, for the cells `X`, `Y` of two adjacent degrees. -/
theorem interval_core {f : T → F} {X Y : List T} (hX : X.Pairwise fun a b => rowKey f a < rowKey f b) {M : T → (T →₀ K)}
    {I : Set (T × Option T)} {z : T × Option T → (T →₀ K)} (hlead : ∀ i ∈ I, IsLead (rowKey f) (z i) i.1)
    (hinj : Set.InjOn Prod.fst I) (hsupp : ∀ i ∈ I, ∀ x, z i x ≠ 0 → x ∈ X) (hcyc : ∀ i ∈ I, bdry M (z i) = 0)
    (hbirth : ∀ c, IsDependent X M c → ∃ i ∈ I, i.1 = c)
    (hbd : ∀ σ τ, (σ, some τ) ∈ I → z (σ, some τ) ∈ Submodule.span K (M '' {y | y ∈ Y ∧ f y ≤ f τ}))
    (hspan : ∀ t, Submodule.span K (M '' {y | y ∈ Y ∧ f y ≤ t}) ≤ Submodule.span K (z '' {i | i ∈ I ∧ barDeath f i ≤ (t : WithTop F)})) :
    IsPersistenceBasis (fun t => cyclesOn M {x | x ∈ X ∧ f x ≤ t}) (fun t => boundariesOn M {y | y ∈ Y ∧ f y ≤ t}) I z
      (fun i => f i.1) (barDeath f) := by
  classical
  have hk := rowKey_injective f
  have hB : ∀ t, boundariesOn M {y | y ∈ Y ∧ f y ≤ t} = Submodule.span K (M '' {y | y ∈ Y ∧ f y ≤ t}) := fun t => boundariesOn_eq_span M _
  have hbound : ∀ i ∈ I, ∀ t : F, barDeath f i ≤ t → z i ∈ boundariesOn M {y | y ∈ Y ∧ f y ≤ t} := by
    rintro ⟨σ, o⟩ hi t ht
    cases o with
    | none => simp [barDeath] at ht
    | some τ =>
      have ht : f τ ≤ t := by simpa [barDeath] using ht
      rw [hB]
      refine Submodule.span_mono (Set.image_mono ?_) (hbd σ τ hi)
      rintro y ⟨h1, h2⟩
      exact ⟨h1, h2.trans ht⟩
  refine ⟨?_, hbound, ?_, ?_⟩
  · intro i hi t ht
    refine Submodule.mem_inf.2 ⟨(Finsupp.mem_supported K _).2 ?_, hcyc i hi⟩
    intro x hx
    have hx := Finsupp.mem_support_iff.1 hx
    refine ⟨hsupp i hi x hx, le_trans ?_ ht⟩
    have := (hlead i hi).2 x hx
    rcases Prod.Lex.le_iff.1 this with h | h
    · exact h.le
    · exact h.1.le
  · intro t
    rw [linearIndepOn_iff]
    intro l hl h0
    have h1 : linearCombination K (fun i => (boundariesOn M {y | y ∈ Y ∧ f y ≤ t}).mkQ (z i)) l =
        (boundariesOn M {y | y ∈ Y ∧ f y ≤ t}).mkQ (linearCombination K z l) := by
      rw [Finsupp.linearCombination_apply, Finsupp.linearCombination_apply, Finsupp.sum, Finsupp.sum, map_sum]
      simp
    rw [h1, Submodule.mkQ_apply, Submodule.Quotient.mk_eq_zero, hB] at h0
    obtain ⟨b, hb, e⟩ := (Finsupp.mem_span_image_iff_linearCombination K).1 (hspan t h0)
    by_contra hne
    obtain ⟨i, hi⟩ := Finsupp.ne_iff.1 hne
    rw [Finsupp.zero_apply] at hi
    have hli := (Finsupp.mem_supported K l).1 hl (Finsupp.mem_support_iff.2 hi)
    have hbi : b i = 0 := by
      by_contra h
      have := ((Finsupp.mem_supported K b).1 hb (Finsupp.mem_support_iff.2 h)).2
      exact absurd this (not_le.2 hli.2.2)
    obtain ⟨r, _, h2⟩ := lead_of_combination (K := K) hk (S := I) (R := z) (lead := Prod.fst) hlead hinj (a := l - b) (by
      intro c hc
      rw [Finsupp.sub_apply] at hc
      by_cases h : l c = 0
      · rw [h, zero_sub, neg_ne_zero] at hc
        exact ((Finsupp.mem_supported K b).1 hb (Finsupp.mem_support_iff.2 hc)).1
      · exact ((Finsupp.mem_supported K l).1 hl (Finsupp.mem_support_iff.2 h)).1) (c := i) (by rw [Finsupp.sub_apply, hbi, sub_zero]; exact hi)
    rw [map_sub, e, sub_self] at h2
    exact h2 rfl
  · intro t
    have hset : {x | x ∈ X ∧ f x ≤ t} = {x | x ∈ X.filter fun x => f x ≤ t} := by ext x; simp
    have h1 := cycles_span (birth := Prod.fst) hX hlead hsupp hcyc hbirth (sorted_split X hX t)
    simp only [hset]
    refine h1.trans (Submodule.span_le.2 ?_)
    rintro _ ⟨i, ⟨hi, hit⟩, rfl⟩
    have hit : f i.1 ≤ t := by simpa using (List.mem_filter.1 hit).2
    rcases le_or_gt (barDeath f i) (t : WithTop F) with h | h
    · exact Submodule.mem_sup_right (hbound i hi t h)
    · exact Submodule.mem_sup_left (Submodule.subset_span ⟨i, ⟨hi, hit, h⟩, rfl⟩)

end
end Phlite
