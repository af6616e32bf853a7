/-
Reduced decompositions compute ranks of lower-left minors, hence persistence pairs.
-/
import Verif.Spec.Persistence
import Mathlib.LinearAlgebra.LinearIndependent.Lemmas
import Mathlib.LinearAlgebra.Dimension.Constructions

set_option linter.unusedSectionVars false

namespace Phlite
open Finsupp

variable {K C R L : Type} [Field K] [LinearOrder L]

/-- `r` carries the leading coefficient of `v`. -/
def IsLead (key : R → L) (v : R →₀ K) (r : R) : Prop := v r ≠ 0 ∧ ∀ r', v r' ≠ 0 → key r' ≤ key r

theorem IsLead.unique {key : R → L} (hk : Function.Injective key) {v : R →₀ K} {r r' : R} (h : IsLead key v r)
    (h' : IsLead key v r') : r = r' := hk (le_antisymm (h'.2 r h.1) (h.2 r' h'.1))

theorem exists_lead (key : R → L) {v : R →₀ K} (hv : v ≠ 0) : ∃ r, IsLead key v r := by
  have : v.support.Nonempty := by rwa [Finsupp.support_nonempty_iff]
  obtain ⟨r, h1, h2⟩ := v.support.exists_max_image key this
  exact ⟨r, by simpa using h1, fun r' hr' => h2 r' (by simpa using hr')⟩

theorem IsLead.ne_zero {key : R → L} {v : R →₀ K} {r : R} (h : IsLead key v r) : v ≠ 0 := by
  rintro rfl; exact h.1 rfl

theorem linearIndependent_of_lead {ι : Type} {key : R → L} (hk : Function.Injective key) (v : ι → (R →₀ K)) (lead : ι → R)
    (hinj : Function.Injective lead) (hl : ∀ i, IsLead key (v i) (lead i)) : LinearIndependent K v := by
  classical
  rw [linearIndependent_iff']
  intro s g hg
  by_contra hc
  push Not at hc
  obtain ⟨i0, hi0, hgi0⟩ := hc
  obtain ⟨i, hi, hmax⟩ := (s.filter fun i => g i ≠ 0).exists_max_image (fun i => key (lead i)) ⟨i0, by simp [hi0, hgi0]⟩
  simp only [Finset.mem_filter] at hi hmax
  have h := DFunLike.congr_fun hg (lead i)
  rw [Finsupp.finset_sum_apply, Finsupp.zero_apply, Finset.sum_eq_single i] at h
  · simp only [Finsupp.smul_apply, smul_eq_mul, mul_eq_zero] at h
    exact h.elim hi.2 (hl i).1
  · intro j hj hji
    by_cases hgj : g j = 0
    · simp [hgj]
    · simp only [Finsupp.smul_apply, smul_eq_mul, mul_eq_zero]
      refine Or.inr ?_
      by_contra hne
      exact hji (hinj (hk (le_antisymm (hmax j ⟨hj, hgj⟩) ((hl j).2 _ hne))))
  · intro h; exact absurd hi.1 h

theorem minorRank_univ (M : C → (R →₀ K)) (Q : Set C) :
    minorRank M Set.univ Q = Module.finrank K (Submodule.span K (M '' Q)) := by
  unfold minorRank
  have : ∀ [DecidablePred (· ∈ (Set.univ : Set R))], (fun c => (M c).filter (· ∈ (Set.univ : Set R))) '' Q = M '' Q := by
    intro _
    apply Set.image_congr
    intro c _
    rw [Finsupp.filter_eq_self_iff]
    intros; trivial
  rw [@this (fun _ => Classical.propDecidable _)]

/-- A reduced decomposition `R = M W` of the matrix with columns `M c`, `c ∈ cols` in list order: `W` is triangular with non-zero
diagonal and the non-zero columns of `R` have distinct leads. -/
structure Decomp (key : R → L) (cols : List C) (M : C → (R →₀ K)) (W : C → (C →₀ K)) : Prop where
  nodup : cols.Nodup
  diag : ∀ c ∈ cols, W c c ≠ 0
  tri : ∀ pre c post, cols = pre ++ c :: post → ∀ d, W c d ≠ 0 → d = c ∨ d ∈ pre
  reduced : ∀ c ∈ cols, ∀ c' ∈ cols, ∀ r, IsLead key (linearCombination K M (W c)) r →
    IsLead key (linearCombination K M (W c')) r → c = c'

namespace Decomp
variable {key : R → L} {cols : List C} {M : C → (R →₀ K)} {W : C → (C →₀ K)}

theorem of_prefix {pre post : List C} (h : Decomp key (pre ++ post) M W) : Decomp key pre M W where
  nodup := (List.nodup_append.1 h.nodup).1
  diag c hc := h.diag c (by simp [hc])
  tri p c q hq := h.tri p c (q ++ post) (by rw [hq]; simp)
  reduced c hc c' hc' := h.reduced c (by simp [hc]) c' (by simp [hc'])

theorem lc_mem_span {pre post : List C} {c : C} (h : Decomp key (pre ++ c :: post) M W) (f : (R →₀ K) →ₗ[K] (R →₀ K)) :
    ∃ w ∈ Submodule.span K ((fun c => f (M c)) '' {x | x ∈ pre}),
      f (linearCombination K M (W c)) = W c c • f (M c) + w := by
  classical
  refine ⟨f (linearCombination K M ((W c).erase c)), ?_, ?_⟩
  · rw [Finsupp.linearCombination_apply, Finsupp.sum, map_sum]
    apply Submodule.sum_mem
    intro d hd
    rw [map_smul]
    apply Submodule.smul_mem
    apply Submodule.subset_span
    have hd' : d ≠ c ∧ W c d ≠ 0 := by
      simp only [Finsupp.support_erase, Finset.mem_erase, Finsupp.mem_support_iff] at hd; exact hd
    rcases h.tri pre c post rfl d hd'.2 with h1 | h1
    · exact absurd h1 hd'.1
    · exact ⟨d, h1, rfl⟩
  · have : W c = single c (W c c) + (W c).erase c := (Finsupp.single_add_erase c (W c)).symm
    conv_lhs => rw [this]
    simp

/-- Triangular column operations do not change the span of the columns of a prefix, even after restricting rows. -/
theorem span_prefix (f : (R →₀ K) →ₗ[K] (R →₀ K)) (h : Decomp key cols M W) :
    Submodule.span K ((fun c => f (M c)) '' {x | x ∈ cols}) =
      Submodule.span K ((fun c => f (linearCombination K M (W c))) '' {x | x ∈ cols}) := by
  induction cols using List.reverseRecOn with
  | nil => simp
  | append_singleton pre c ih =>
    have ih := ih h.of_prefix
    have hset : {x | x ∈ pre ++ [c]} = insert c {x | x ∈ pre} := by ext x; simp [or_comm]
    obtain ⟨w, hw, he⟩ := h.lc_mem_span f
    rw [hset, Set.image_insert_eq, Set.image_insert_eq, Submodule.span_insert, Submodule.span_insert, ← ih, he]
    have hd := h.diag c (by simp)
    apply le_antisymm
    · apply sup_le _ le_sup_right
      rw [Submodule.span_singleton_le_iff_mem]
      have e : (W c c)⁻¹ • (W c c • f (M c) + w) - (W c c)⁻¹ • w = f (M c) := by
        rw [smul_add, smul_smul, inv_mul_cancel₀ hd]; simp
      have hm := Submodule.sub_mem _ (Submodule.smul_mem _ ((W c c)⁻¹) (Submodule.mem_sup_left
        (Submodule.mem_span_singleton_self (R := K) (W c c • f (M c) + w)))) (Submodule.smul_mem _ ((W c c)⁻¹) (Submodule.mem_sup_right hw))
      rwa [e] at hm
    · apply sup_le _ le_sup_right
      rw [Submodule.span_singleton_le_iff_mem]
      exact Submodule.add_mem _ (Submodule.smul_mem _ _ (Submodule.mem_sup_left (Submodule.mem_span_singleton_self _)))
        (Submodule.mem_sup_right hw)

open Classical in
/-- The rank of the minor with the upper rows `U` counts the leads in `U`. -/
theorem minorRank_eq (hk : Function.Injective key) (h : Decomp key cols M W) (U : Set R)
    (hU : ∀ r ∈ U, ∀ r', key r ≤ key r' → r' ∈ U) :
    minorRank M U {x | x ∈ cols} = cols.countP (fun c => ∃ r ∈ U, IsLead key (linearCombination K M (W c)) r) := by
  unfold minorRank
  let f : (R →₀ K) →ₗ[K] (R →₀ K) := { toFun := fun v => v.filter (· ∈ U), map_add' := fun _ _ => Finsupp.filter_add, map_smul' := fun _ _ => Finsupp.filter_smul }
  have hf : ∀ v, f v = v.filter (· ∈ U) := fun _ => rfl
  have hspan := h.span_prefix f
  simp only [hf] at hspan
  rw [hspan]
  set P : C → Prop := fun c => ∃ r ∈ U, IsLead key (linearCombination K M (W c)) r with hP
  let S : Finset C := cols.toFinset.filter P
  have hz : ∀ c, ¬ P c → (linearCombination K M (W c)).filter (· ∈ U) = 0 := by
    intro c hc
    by_contra hne
    obtain ⟨r, hr⟩ := exists_lead key hne
    have hr1 := hr.1
    rw [Finsupp.filter_apply] at hr1
    split at hr1
    · rename_i hrU
      have hne' : linearCombination K M (W c) ≠ 0 := by rintro h0; rw [h0] at hr1; simp at hr1
      obtain ⟨p, hp⟩ := exists_lead key hne'
      exact hc ⟨p, hU r hrU p (hp.2 r hr1), hp⟩
    · exact hr1 rfl
  let v : S → (R →₀ K) := fun c => (linearCombination K M (W c)).filter (· ∈ U)
  have hsp : Submodule.span K ((fun c => (linearCombination K M (W c)).filter (· ∈ U)) '' {x | x ∈ cols}) =
      Submodule.span K (Set.range v) := by
    apply le_antisymm
    · rw [Submodule.span_le]
      rintro _ ⟨c, hc, rfl⟩
      by_cases hPc : P c
      · exact Submodule.subset_span ⟨⟨c, by simp [S, hPc]; exact hc⟩, rfl⟩
      · simp only [hz c hPc]; exact Submodule.zero_mem _
    · apply Submodule.span_mono
      rintro _ ⟨⟨c, hc⟩, rfl⟩
      simp only [S, Finset.mem_filter, List.mem_toFinset] at hc
      exact ⟨c, hc.1, rfl⟩
  have hPS : ∀ c : S, P c := fun c => by have := c.2; simp only [S, Finset.mem_filter] at this; exact this.2
  have hCS : ∀ c : S, (c : C) ∈ cols := fun c => by
    have := c.2; simp only [S, Finset.mem_filter, List.mem_toFinset] at this; exact this.1
  choose lead hleadU hlead using hPS
  have hli : LinearIndependent K v := by
    refine linearIndependent_of_lead hk v lead ?_ ?_
    · intro a b hab
      have ha := hlead a
      rw [hab] at ha
      exact Subtype.ext (h.reduced a (hCS a) b (hCS b) _ ha (hlead b))
    · intro c
      refine ⟨?_, ?_⟩
      · simp only [v, Finsupp.filter_apply, hleadU c, if_true]; exact (hlead c).1
      · intro r' hr'
        apply (hlead c).2
        simp only [v, Finsupp.filter_apply] at hr'
        split at hr' <;> simp_all
  rw [hsp, finrank_span_eq_card hli, Fintype.card_coe, List.countP_eq_length_filter]
  rw [← List.toFinset_card_of_nodup (h.nodup.filter _)]
  congr 1
  ext c; simp [S, P]

/-- The leads of any reduced decomposition are exactly the persistence pairs. -/
theorem pair_iff (hk : Function.Injective key) (h : Decomp key cols M W) (r : R) (c : C) :
    IsPersistencePair key cols M r c ↔ c ∈ cols ∧ IsLead key (linearCombination K M (W c)) r := by
  classical
  have core : ∀ pre post, cols = pre ++ c :: post →
      (PairRank key M {x | x ∈ pre} r c ↔ IsLead key (linearCombination K M (W c)) r) := by
    intro pre post hc
    have hset : insert c {x | x ∈ pre} = {x | x ∈ pre ++ [c]} := by ext x; simp [or_comm]
    have h1 : Decomp key (pre ++ [c]) M W := by
      apply Decomp.of_prefix (post := post); rw [List.append_assoc]; simpa [← hc] using h
    have h0 : Decomp key pre M W := h1.of_prefix
    have u1 : ∀ a ∈ {x | key r ≤ key x}, ∀ b, key a ≤ key b → b ∈ {x | key r ≤ key x} := fun a ha b hab => le_trans ha hab
    have u2 : ∀ a ∈ {x | key r < key x}, ∀ b, key a ≤ key b → b ∈ {x | key r < key x} := fun a ha b hab => lt_of_lt_of_le ha hab
    unfold PairRank
    rw [hset, h1.minorRank_eq hk _ u1, h1.minorRank_eq hk _ u2, h0.minorRank_eq hk _ u1, h0.minorRank_eq hk _ u2]
    rw [List.countP_append, List.countP_append, List.countP_singleton, List.countP_singleton]
    simp only [Set.mem_ofPred_eq, decide_eq_true_eq]
    constructor
    · intro he
      split at he
      · rename_i hp
        obtain ⟨p, hp1, hp2⟩ := hp
        split at he
        · omega
        · rename_i hn
          rcases eq_or_lt_of_le hp1 with h2 | h2
          · rw [hk h2]; exact hp2
          · exact absurd ⟨p, h2, hp2⟩ hn
      · split at he <;> omega
    · intro hl
      rw [if_pos ⟨r, le_refl _, hl⟩, if_neg]
      · omega
      · rintro ⟨p, hp1, hp2⟩
        rw [hl.unique hk hp2] at hp1
        exact lt_irrefl _ hp1
  constructor
  · rintro ⟨pre, post, hc, hp⟩
    exact ⟨by rw [hc]; simp, (core pre post hc).1 hp⟩
  · rintro ⟨hc, hl⟩
    obtain ⟨pre, post, hc⟩ := List.append_of_mem hc
    exact ⟨pre, post, hc, (core pre post hc).2 hl⟩

/-- A column of `R` vanishes iff the column of `M` depends on the previous ones. -/
theorem zero_iff (hk : Function.Injective key) (h : Decomp key cols M W) (c : C) :
    IsDependent cols M c ↔ c ∈ cols ∧ linearCombination K M (W c) = 0 := by
  classical
  have core : ∀ pre post, cols = pre ++ c :: post →
      (M c ∈ Submodule.span K (M '' {x | x ∈ pre}) ↔ linearCombination K M (W c) = 0) := by
    intro pre post hc
    have h1 : Decomp key (pre ++ [c]) M W := by
      apply Decomp.of_prefix (post := post); rw [List.append_assoc]; simpa [← hc] using h
    have h0 : Decomp key pre M W := h1.of_prefix
    have uu : ∀ a ∈ (Set.univ : Set R), ∀ b, key a ≤ key b → b ∈ (Set.univ : Set R) := fun _ _ _ _ => trivial
    have r1 := h1.minorRank_eq hk _ uu
    have r0 := h0.minorRank_eq hk _ uu
    rw [minorRank_univ] at r1 r0
    have hset : {x | x ∈ pre ++ [c]} = insert c {x | x ∈ pre} := by ext x; simp [or_comm]
    rw [hset, Set.image_insert_eq] at r1
    rw [List.countP_append, List.countP_singleton, ← r0] at r1
    simp only [Set.mem_univ, true_and, decide_eq_true_eq] at r1
    constructor
    · intro hm
      by_contra hne
      obtain ⟨p, hp⟩ := exists_lead key hne
      rw [if_pos ⟨p, hp⟩, Submodule.span_insert_eq_span hm] at r1
      omega
    · intro hz
      obtain ⟨w, hw, he⟩ := h1.lc_mem_span LinearMap.id
      simp only [LinearMap.id_coe, id_eq] at hw he
      rw [hz] at he
      have hd := h1.diag c (by simp)
      have : M c = -((W c c)⁻¹ • w) := by
        have h2 : W c c • M c = -w := by rw [eq_neg_iff_add_eq_zero]; exact he.symm
        rw [← smul_neg, ← h2, smul_smul, inv_mul_cancel₀ hd, one_smul]
      rw [this]
      exact Submodule.neg_mem _ (Submodule.smul_mem _ _ hw)
  constructor
  · rintro ⟨pre, post, hc, hp⟩
    exact ⟨by rw [hc]; simp, (core pre post hc).1 hp⟩
  · rintro ⟨hc, hl⟩
    obtain ⟨pre, post, hc⟩ := List.append_of_mem hc
    exact ⟨pre, post, hc, (core pre post hc).2 hl⟩

end Decomp
end Phlite
