/-
Persistence pairs of the transposed matrix with both orders reversed.
-/
import Verif.Theory.Complex
import Mathlib.LinearAlgebra.Matrix.Rank

set_option linter.unusedSectionVars false
set_option linter.unusedSimpArgs false

namespace Phlite
open Finsupp (single linearCombination linearCombination_single)

variable {K C R L L' : Type} [Field K] [LinearOrder L] [LinearOrder L']

theorem minorRank_eq_rank (M : C → (R →₀ K)) (U : Set R) (Q : Finset C) (P : Finset R) (hPU : ∀ r ∈ P, r ∈ U)
    (hP : ∀ c ∈ Q, ∀ r ∈ U, M c r ≠ 0 → r ∈ P) :
    minorRank M U {x | x ∈ Q} = (Matrix.of fun (r : P) (c : Q) => M c r).rank := by
  classical
  rw [Matrix.rank_eq_finrank_span_cols]
  unfold minorRank
  let ι : (P → K) →ₗ[K] (R →₀ K) :=
    (Finsupp.lmapDomain K K (Subtype.val : P → R)) ∘ₗ (Finsupp.linearEquivFunOnFinite K K P).symm.toLinearMap
  have hι : Function.Injective ι :=
    (Finsupp.mapDomain_injective Subtype.val_injective).comp (LinearEquiv.injective _)
  have hval : ∀ (g : P → K) (r : P), ι g r = g r := by
    intro g r
    simp only [ι, LinearMap.comp_apply, Finsupp.lmapDomain_apply, LinearEquiv.coe_coe]
    rw [Finsupp.mapDomain_apply Subtype.val_injective]; rfl
  have hval0 : ∀ (g : P → K) (r : R), r ∉ P → ι g r = 0 := by
    intro g r hr
    simp only [ι, LinearMap.comp_apply, Finsupp.lmapDomain_apply, LinearEquiv.coe_coe]
    apply Finsupp.mapDomain_notin_range
    rintro ⟨x, rfl⟩; exact hr x.2
  have himg : Submodule.span K ((fun c => (M c).filter (· ∈ U)) '' {x | x ∈ Q}) =
      (Submodule.span K (Set.range (Matrix.of fun (r : P) (c : Q) => M c r).col)).map ι := by
    rw [Submodule.map_span]
    congr 1
    ext v
    simp only [Set.mem_image, Set.mem_range, Set.mem_ofPred_eq]
    have key : ∀ c : Q, ι ((Matrix.of fun (r : P) (c : Q) => M c r).col c) = (M c).filter (· ∈ U) := by
      intro c
      ext r
      rw [Finsupp.filter_apply]
      by_cases hr : r ∈ P
      · rw [hval _ ⟨r, hr⟩, if_pos (hPU r hr)]; rfl
      · rw [hval0 _ r hr]
        split
        · rename_i hrU
          by_contra hne
          exact hr (hP c c.2 r hrU (Ne.symm hne))
        · rfl
    constructor
    · rintro ⟨c, hc, rfl⟩
      exact ⟨_, ⟨⟨c, hc⟩, rfl⟩, key ⟨c, hc⟩⟩
    · rintro ⟨_, ⟨c, rfl⟩, rfl⟩
      exact ⟨c, c.2, (key c).symm⟩
  rw [himg]
  exact (LinearEquiv.finrank_eq (Submodule.equivMapOfInjective ι hι _)).symm

/-- Ranks of minors do not change under transposition. `rows` and `cols` list the rows and columns that matter. -/
theorem minorRank_transpose {M : C → (R →₀ K)} {N : R → (C →₀ K)} {cols : List C} {rows : List R}
    (hMN : ∀ c ∈ cols, ∀ r ∈ rows, N r c = M c r) (hM : ∀ c ∈ cols, ∀ r, M c r ≠ 0 → r ∈ rows)
    (hN : ∀ r ∈ rows, ∀ c, N r c ≠ 0 → c ∈ cols) {U : Set R} {Q : Set C} {U' : Set C} {Q' : Set R}
    (hQ : ∀ c, c ∈ Q ↔ c ∈ cols ∧ c ∈ U') (hQ' : ∀ r, r ∈ Q' ↔ r ∈ rows ∧ r ∈ U) :
    minorRank M U Q = minorRank N U' Q' := by
  classical
  let q : Finset C := cols.toFinset.filter (· ∈ U')
  let p : Finset R := rows.toFinset.filter (· ∈ U)
  have e1 : Q = {x | x ∈ q} := by ext c; simp [q, hQ]
  have e2 : Q' = {x | x ∈ p} := by ext c; simp [p, hQ']
  have hq : ∀ c ∈ q, c ∈ cols ∧ c ∈ U' := fun c hc => by simpa [q] using hc
  have hp : ∀ r ∈ p, r ∈ rows ∧ r ∈ U := fun r hr => by simpa [p] using hr
  rw [e1, e2, minorRank_eq_rank M U q p (fun r hr => (hp r hr).2)
    (fun c hc r hr hne => by simp [p, hr, hM c (hq c hc).1 r hne]),
    minorRank_eq_rank N U' p q (fun c hc => (hq c hc).2)
    (fun r hr c hc hne => by simp [q, hc, hN r (hp r hr).1 c hne])]
  rw [← Matrix.rank_transpose]
  congr 1
  ext c r
  simp only [Matrix.transpose_apply, Matrix.of_apply]
  exact (hMN c (hq c c.2).1 r (hp r r.2).1).symm

theorem mem_prefix_iff {key : C → L} {cols pre post : List C} {c : C} (h : cols = pre ++ c :: post)
    (hs : cols.Pairwise fun a b => key a < key b) (x : C) : x ∈ pre ↔ x ∈ cols ∧ key x < key c := by
  rw [h] at hs
  obtain ⟨h1, h2, h3⟩ := List.pairwise_append.1 hs
  constructor
  · intro hx
    exact ⟨by rw [h]; simp [hx], h3 x hx c (by simp)⟩
  · rintro ⟨hx, hlt⟩
    rw [h] at hx
    rcases List.mem_append.1 hx with hx | hx
    · exact hx
    · rcases List.mem_cons.1 hx with rfl | hx
      · exact absurd hlt (lt_irrefl _)
      · exact absurd ((List.pairwise_cons.1 h2).1 x hx) (not_lt.2 hlt.le)

/-- Duality: the pairs of the transposed matrix, with the orders of rows and columns reversed, are the swapped pairs. -/
theorem pair_transpose {kR : R → L} {kC : C → L'} (hkR : Function.Injective kR) (hkC : Function.Injective kC)
    {M : C → (R →₀ K)} {N : R → (C →₀ K)} {cols : List C} {rows : List R}
    (hMN : ∀ c ∈ cols, ∀ r ∈ rows, N r c = M c r) (hM : ∀ c ∈ cols, ∀ r, M c r ≠ 0 → r ∈ rows)
    (hN : ∀ r ∈ rows, ∀ c, N r c ≠ 0 → c ∈ cols)
    (hcols : cols.Pairwise fun a b => kC a < kC b) (hrows : rows.Pairwise fun a b => kR a < kR b) {r : R} {c : C}
    (hr : r ∈ rows) (hc : c ∈ cols) :
    IsPersistencePair kR cols M r c ↔ IsPersistencePair (fun x => OrderDual.toDual (kC x)) rows.reverse N c r := by
  have hrows' : rows.reverse.Pairwise fun a b => OrderDual.toDual (kR a) < OrderDual.toDual (kR b) := by
    rw [List.pairwise_reverse]; exact hrows
  have core : ∀ pre post, cols = pre ++ c :: post → ∀ pre' post', rows.reverse = pre' ++ r :: post' →
      (PairRank kR M {x | x ∈ pre} r c ↔ PairRank (fun x => OrderDual.toDual (kC x)) N {x | x ∈ pre'} c r) := by
    intro pre post hp pre' post' hp'
    have m1 := mem_prefix_iff hp hcols
    have m2 := mem_prefix_iff hp' hrows'
    have i1 : ∀ x, x ∈ insert c {x | x ∈ pre} ↔ x ∈ cols ∧ kC x ≤ kC c := by
      intro x
      rw [Set.mem_insert_iff, Set.mem_ofPred_eq, m1]
      constructor
      · rintro (rfl | ⟨h, h'⟩)
        · exact ⟨hc, le_refl _⟩
        · exact ⟨h, h'.le⟩
      · rintro ⟨h, h'⟩
        rcases eq_or_lt_of_le h' with h' | h'
        · exact Or.inl (hkC h')
        · exact Or.inr ⟨h, h'⟩
    have i2 : ∀ x, x ∈ insert r {x | x ∈ pre'} ↔ x ∈ rows ∧ kR r ≤ kR x := by
      intro x
      rw [Set.mem_insert_iff, Set.mem_ofPred_eq, m2]
      constructor
      · rintro (rfl | ⟨h, h'⟩)
        · exact ⟨hr, le_refl _⟩
        · exact ⟨by simpa using h, (OrderDual.toDual_lt_toDual.1 h').le⟩
      · rintro ⟨h, h'⟩
        rcases eq_or_lt_of_le h' with h' | h'
        · exact Or.inl (hkR h').symm
        · exact Or.inr ⟨by simpa using h, OrderDual.toDual_lt_toDual.2 h'⟩
    have j1 : ∀ x, x ∈ {x | x ∈ pre} ↔ x ∈ cols ∧ kC x < kC c := m1
    have j2 : ∀ x, x ∈ {x | x ∈ pre'} ↔ x ∈ rows ∧ kR r < kR x := by
      intro x
      rw [Set.mem_ofPred_eq, m2, OrderDual.toDual_lt_toDual]; simp
    unfold PairRank
    rw [minorRank_transpose hMN hM hN (U := {x | kR r ≤ kR x}) (U' := {x | OrderDual.toDual (kC c) ≤ OrderDual.toDual (kC x)}) i1 i2,
      minorRank_transpose hMN hM hN (U := {x | kR r < kR x}) (U' := {x | OrderDual.toDual (kC c) < OrderDual.toDual (kC x)}) j1 j2,
      minorRank_transpose hMN hM hN (U := {x | kR r ≤ kR x}) (U' := {x | OrderDual.toDual (kC c) < OrderDual.toDual (kC x)}) j1 i2,
      minorRank_transpose hMN hM hN (U := {x | kR r < kR x}) (U' := {x | OrderDual.toDual (kC c) ≤ OrderDual.toDual (kC x)}) i1 j2]
    beta_reduce
    omega
  constructor
  · rintro ⟨pre, post, hp, h⟩
    obtain ⟨pre', post', hp'⟩ := List.append_of_mem (List.mem_reverse.2 hr)
    exact ⟨pre', post', hp', (core pre post hp pre' post' hp').1 h⟩
  · rintro ⟨pre', post', hp', h⟩
    obtain ⟨pre, post, hp⟩ := List.append_of_mem hc
    exact ⟨pre, post, hp, (core pre post hp pre' post' hp').2 h⟩

/-! ### Relabelling rows and columns -/
section
variable {T T' : Type}

theorem lc_relabel (e : T ≃ T') (M : T → (T →₀ K)) (w : T →₀ K) :
    linearCombination K (fun c => (M (e.symm c)).equivMapDomain e) (w.equivMapDomain e) = (linearCombination K M w).equivMapDomain e := by
  induction w using Finsupp.induction_linear with
  | zero => simp [Finsupp.equivMapDomain_zero]
  | add a b ha hb =>
    have hadd : ∀ u v : T →₀ K, (u + v).equivMapDomain e = u.equivMapDomain e + v.equivMapDomain e := by
      intro u v; ext x; simp
    rw [hadd, map_add, map_add, hadd, ha, hb]
  | single a k =>
    rw [Finsupp.equivMapDomain_single, linearCombination_single, linearCombination_single]
    ext x; simp

theorem isLead_relabel (e : T ≃ T') {key : T → L} {key' : T' → L'} (hk : ∀ a b, key' (e a) ≤ key' (e b) ↔ key a ≤ key b)
    (v : T →₀ K) (r : T) : IsLead key' (v.equivMapDomain e) (e r) ↔ IsLead key v r := by
  unfold IsLead
  simp only [Finsupp.equivMapDomain_apply, Equiv.symm_apply_apply]
  refine and_congr_right fun _ => ?_
  constructor
  · intro h r' hr'
    exact (hk r' r).1 (h (e r') (by simpa using hr'))
  · intro h r' hr'
    have := h (e.symm r') hr'
    rw [← hk] at this
    simpa using this

theorem Decomp.relabel (e : T ≃ T') {key : T → L} {key' : T' → L'} (hk : ∀ a b, key' (e a) ≤ key' (e b) ↔ key a ≤ key b)
    {cols : List T} {M W : T → (T →₀ K)} (h : Decomp key cols M W) :
    Decomp key' (cols.map e) (fun c => (M (e.symm c)).equivMapDomain e) (fun c => (W (e.symm c)).equivMapDomain e) := by
  refine ⟨h.nodup.map e.injective, ?_, ?_, ?_⟩
  · intro c hc
    obtain ⟨x, hx, rfl⟩ := List.mem_map.1 hc
    simpa using h.diag x hx
  · intro pre c post hpq d hd
    obtain ⟨l1, l2, h1, h2, h3⟩ := List.map_eq_append_iff.1 hpq
    obtain ⟨x, l3, h4, h5, h6⟩ := List.map_eq_cons_iff.1 h3
    subst h4 h5
    simp only [Equiv.symm_apply_apply, Finsupp.equivMapDomain_apply] at hd
    rcases h.tri l1 x l3 h1 _ hd with h7 | h7
    · left; rw [← h7]; simp
    · right; rw [← h2]; exact List.mem_map.2 ⟨_, h7, by simp⟩
  · intro c hc c' hc' r hr hr'
    rw [lc_relabel] at hr hr'
    have e1 := (isLead_relabel e hk (linearCombination K M (W (e.symm c))) (e.symm r))
    have e2 := (isLead_relabel e hk (linearCombination K M (W (e.symm c'))) (e.symm r))
    rw [Equiv.apply_symm_apply] at e1 e2
    have := h.reduced _ (by obtain ⟨x, hx, rfl⟩ := List.mem_map.1 hc; simpa using hx) _
      (by obtain ⟨x, hx, rfl⟩ := List.mem_map.1 hc'; simpa using hx) _ (e1.1 hr) (e2.1 hr')
    exact e.symm.injective this

theorem pair_relabel (e : T ≃ T') {key : T → L} {key' : T' → L'} (hki : Function.Injective key)
    (hk : ∀ a b, key' (e a) ≤ key' (e b) ↔ key a ≤ key b) {cols : List T} (hnd : cols.Nodup) {M : T → (T →₀ K)} (r c : T) :
    IsPersistencePair key' (cols.map e) (fun c => (M (e.symm c)).equivMapDomain e) (e r) (e c) ↔ IsPersistencePair key cols M r c := by
  have hki' : Function.Injective key' := by
    intro a b hab
    have h1 := (hk (e.symm a) (e.symm b)).1 (by simp [hab])
    have h2 := (hk (e.symm b) (e.symm a)).1 (by simp [hab])
    exact e.symm.injective (hki (le_antisymm h1 h2))
  obtain ⟨W, hW⟩ := exists_decomp (K := K) hki cols hnd M
  rw [hW.pair_iff hki, (hW.relabel e hk).pair_iff hki', lc_relabel]
  simp only [Equiv.symm_apply_apply, isLead_relabel e hk]
  simp

theorem dependent_relabel (e : T ≃ T') {key : T → L} {key' : T' → L'} (hki : Function.Injective key)
    (hk : ∀ a b, key' (e a) ≤ key' (e b) ↔ key a ≤ key b) {cols : List T} (hnd : cols.Nodup) {M : T → (T →₀ K)} (c : T) :
    IsDependent (cols.map e) (fun c => (M (e.symm c)).equivMapDomain e) (e c) ↔ IsDependent cols M c := by
  have hki' : Function.Injective key' := by
    intro a b hab
    have h1 := (hk (e.symm a) (e.symm b)).1 (by simp [hab])
    have h2 := (hk (e.symm b) (e.symm a)).1 (by simp [hab])
    exact e.symm.injective (hki (le_antisymm h1 h2))
  obtain ⟨W, hW⟩ := exists_decomp (K := K) hki cols hnd M
  rw [hW.zero_iff hki, (hW.relabel e hk).zero_iff hki', lc_relabel]
  simp only [Equiv.symm_apply_apply]
  have : (linearCombination K M (W c)).equivMapDomain e = 0 ↔ linearCombination K M (W c) = 0 := by
    constructor
    · intro h
      ext x
      have := DFunLike.congr_fun h (e x)
      simpa using this
    · intro h; rw [h]; exact Finsupp.equivMapDomain_zero
  rw [this]
  simp
end

end Phlite
