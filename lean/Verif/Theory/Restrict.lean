/-
Restricting a matrix to the columns that carry a persistence pair, and independence of reduced columns.
-/
import Verif.Theory.Complex

set_option linter.unusedSectionVars false
set_option linter.unusedSimpArgs false

namespace Phlite
open Finsupp (single linearCombination linearCombination_single)

variable {K T L : Type} [Field K] [LinearOrder L]

/-- Minor ranks depend only on the span of the columns. -/
theorem minorRank_congr {M : T → (T →₀ K)} {Q Q' : Set T} (h : Submodule.span K (M '' Q) = Submodule.span K (M '' Q')) (U : Set T) :
    minorRank M U Q = minorRank M U Q' := by
  classical
  let g : (T →₀ K) →ₗ[K] (T →₀ K) :=
    { toFun := fun v => v.filter (· ∈ U), map_add' := fun _ _ => Finsupp.filter_add, map_smul' := fun _ _ => Finsupp.filter_smul }
  have e : ∀ Q : Set T, Submodule.span K ((fun c => (M c).filter (· ∈ U)) '' Q) = (Submodule.span K (M '' Q)).map g := by
    intro Q
    rw [Submodule.map_span, Set.image_image]
    rfl
  have e1 := e Q
  have e2 := e Q'
  unfold minorRank
  rw [e1, e2, h]

theorem pairRank_congr {key : T → L} {M : T → (T →₀ K)} {Q Q' : Set T} (h : Submodule.span K (M '' Q) = Submodule.span K (M '' Q')) (r c : T) :
    PairRank key M Q r c ↔ PairRank key M Q' r c := by
  have h' : Submodule.span K (M '' insert c Q) = Submodule.span K (M '' insert c Q') := by
    rw [Set.image_insert_eq, Set.image_insert_eq, Submodule.span_insert, Submodule.span_insert, h]
  unfold PairRank
  rw [minorRank_congr h, minorRank_congr h, minorRank_congr h', minorRank_congr h']

open Classical in
/-- The columns that carry a persistence pair, in order. -/
noncomputable def deathsOf (key : T → L) (cols : List T) (M : T → (T →₀ K)) : List T :=
  cols.filter fun c => ∃ r, IsPersistencePair key cols M r c

/-- Death columns span what all columns span, for every prefix. -/
theorem span_deaths {key : T → L} (hk : Function.Injective key) {cols : List T} (hnd : cols.Nodup) (M : T → (T →₀ K)) {pre post : List T}
    (h : cols = pre ++ post) : Submodule.span K (M '' {x | x ∈ pre ∧ ∃ r, IsPersistencePair key cols M r x}) = Submodule.span K (M '' {x | x ∈ pre}) := by
  induction pre using List.reverseRecOn generalizing post with
  | nil => simp
  | append_singleton pre c ih =>
    have h2 : cols = pre ++ c :: post := by rw [h]; simp
    have ih := ih h2
    have hset : {x | x ∈ pre ++ [c]} = insert c {x | x ∈ pre} := by ext x; simp [or_comm]
    rw [hset, Set.image_insert_eq]
    by_cases hd : ∃ r, IsPersistencePair key cols M r c
    · have hset' : {x | x ∈ pre ++ [c] ∧ ∃ r, IsPersistencePair key cols M r x} = insert c {x | x ∈ pre ∧ ∃ r, IsPersistencePair key cols M r x} := by
        ext x
        simp only [Set.mem_ofPred_eq, Set.mem_insert_iff, List.mem_append, List.mem_singleton]
        constructor
        · rintro ⟨h | h, hx⟩
          · exact Or.inr ⟨h, hx⟩
          · exact Or.inl h
        · rintro (h | ⟨h, hx⟩)
          · rw [h]; exact ⟨Or.inr rfl, hd⟩
          · exact ⟨Or.inl h, hx⟩
      rw [hset', Set.image_insert_eq, Submodule.span_insert, Submodule.span_insert, ih]
    · have hset' : {x | x ∈ pre ++ [c] ∧ ∃ r, IsPersistencePair key cols M r x} = {x | x ∈ pre ∧ ∃ r, IsPersistencePair key cols M r x} := by
        ext x
        simp only [Set.mem_ofPred_eq, List.mem_append, List.mem_singleton]
        constructor
        · rintro ⟨h | h, hx⟩
          · exact ⟨h, hx⟩
          · rw [h] at hx; exact absurd hx hd
        · rintro ⟨h, hx⟩
          exact ⟨Or.inl h, hx⟩
      rw [hset', ih]
      have hdep := (death_iff hk hnd M (c := c) (by rw [h2]; simp)).2 hd
      obtain ⟨p, q, hpq, hm⟩ := hdep
      have : p = pre := by
        rw [h2] at hpq hnd
        have h3 := List.append_eq_append_iff.1 hpq
        rcases h3 with ⟨a, ha, ha'⟩ | ⟨a, ha, ha'⟩
        · cases a with
          | nil => simpa using ha
          | cons y a =>
            exfalso
            simp only [List.cons_append, List.cons.injEq] at ha'
            rw [ha'.2] at hnd
            have := (List.nodup_cons.1 (List.nodup_append.1 hnd).2.1).1
            exact this (by simp)
        · cases a with
          | nil => simpa using ha.symm
          | cons y a =>
            exfalso
            simp only [List.cons_append, List.cons.injEq] at ha'
            rw [ha] at hnd
            have h4 := (List.nodup_append.1 hnd).2.2 c (by rw [ha'.1]; simp) c (by simp)
            exact h4 rfl
      rw [this] at hm
      rw [Submodule.span_insert_eq_span hm]

/-- Restricting the matrix to the death columns keeps all persistence pairs. -/
theorem pairs_restrict {key : T → L} (hk : Function.Injective key) {cols : List T} (hnd : cols.Nodup) (M : T → (T →₀ K)) (r c : T) :
    IsPersistencePair key (deathsOf key cols M) M r c ↔ IsPersistencePair key cols M r c := by
  classical
  have core : ∀ pre post, cols = pre ++ c :: post → ∀ pre' post', deathsOf key cols M = pre' ++ c :: post' →
      (PairRank key M {x | x ∈ pre'} r c ↔ PairRank key M {x | x ∈ pre} r c) := by
    intro pre post h pre' post' h'
    refine pairRank_congr ?_ r c
    rw [← span_deaths hk hnd M h]
    congr 2
    -- the prefix of the filtered list
    have e : deathsOf key cols M = pre.filter (fun c => ∃ r, IsPersistencePair key cols M r c) ++
        (c :: post).filter (fun c => ∃ r, IsPersistencePair key cols M r c) := by
      unfold deathsOf
      conv_lhs => rw [show (List.filter (fun c => decide (∃ r, IsPersistencePair key cols M r c)) cols) =
        List.filter (fun c => decide (∃ r, IsPersistencePair key cols M r c)) (pre ++ c :: post) from congrArg _ h]
      rw [List.filter_append]
    have hc : ∃ r, IsPersistencePair key cols M r c := by
      have : c ∈ deathsOf key cols M := by rw [h']; simp
      simpa using (List.mem_filter.1 this).2
    rw [List.filter_cons_of_pos (by simpa using hc)] at e
    have hnd' : (deathsOf key cols M).Nodup := hnd.filter _
    have : pre' = pre.filter (fun c => ∃ r, IsPersistencePair key cols M r c) := by
      rw [e] at h' hnd'
      have h3 := List.append_eq_append_iff.1 h'
      rcases h3 with ⟨a, ha, ha'⟩ | ⟨a, ha, ha'⟩
      · cases a with
        | nil => simpa using ha
        | cons y a =>
          exfalso
          simp only [List.cons_append, List.cons.injEq] at ha'
          rw [ha'.2] at hnd'
          have := (List.nodup_cons.1 (List.nodup_append.1 hnd').2.1).1
          exact this (by simp)
      · cases a with
        | nil => simpa using ha.symm
        | cons y a =>
          exfalso
          simp only [List.cons_append, List.cons.injEq] at ha'
          rw [ha] at hnd'
          have h4 := (List.nodup_append.1 hnd').2.2 c (by rw [ha'.1]; simp) c (by simp)
          exact h4 rfl
    rw [this]
    ext x
    simp [List.mem_filter]
  constructor
  · rintro ⟨pre', post', h', hp⟩
    have : c ∈ cols := (List.mem_filter.1 (by rw [← deathsOf, h']; simp : c ∈ cols.filter fun c => ∃ r, IsPersistencePair key cols M r c)).1
    obtain ⟨pre, post, h⟩ := List.append_of_mem this
    exact ⟨pre, post, h, (core pre post h pre' post' h').1 hp⟩
  · intro hp
    obtain ⟨pre, post, h, hq⟩ := hp
    have : c ∈ deathsOf key cols M := List.mem_filter.2 ⟨by rw [h]; simp, by simpa using ⟨r, pre, post, h, hq⟩⟩
    obtain ⟨pre', post', h'⟩ := List.append_of_mem this
    exact ⟨pre', post', h', (core pre post h pre' post' h').2 hq⟩

/-- The leading row of a combination of columns with distinct leads is the largest lead. -/
theorem lead_of_combination {C : Type} {key : T → L} (hk : Function.Injective key) {S : Set C} {R : C → (T →₀ K)} {lead : C → T}
    (hlead : ∀ c ∈ S, IsLead key (R c) (lead c)) (hinj : Set.InjOn lead S) {a : C →₀ K} (ha : ∀ c, a c ≠ 0 → c ∈ S) {c : C} (hc : a c ≠ 0) :
    ∃ r, key (lead c) ≤ key r ∧ linearCombination K R a r ≠ 0 := by
  classical
  obtain ⟨m, hm, hmax⟩ := a.support.exists_max_image (fun c => key (lead c)) ⟨c, Finsupp.mem_support_iff.2 hc⟩
  refine ⟨lead m, hmax c (Finsupp.mem_support_iff.2 hc), ?_⟩
  rw [Finsupp.linearCombination_apply, Finsupp.sum, Finsupp.finsetSum_apply, Finset.sum_eq_single m]
  · rw [Finsupp.smul_apply, smul_eq_mul]
    exact mul_ne_zero (Finsupp.mem_support_iff.1 hm) (hlead m (ha m (Finsupp.mem_support_iff.1 hm))).1
  · intro j hj hjm
    rw [Finsupp.smul_apply, smul_eq_mul]
    by_contra hne
    have h1 := (hlead j (ha j (Finsupp.mem_support_iff.1 hj))).2 _ (right_ne_zero_of_mul hne)
    have h2 := hmax j hj
    exact hjm (hinj (ha j (Finsupp.mem_support_iff.1 hj)) (ha m (Finsupp.mem_support_iff.1 hm)) (hk (le_antisymm h2 h1)))
  · intro h; exact absurd hm h

end Phlite
