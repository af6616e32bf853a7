/-
Persistence pairs of a graded matrix with D² = 0: pairs are found degree by degree, and every cell is exactly one of birth, death,
essential.
-/
import Verif.Theory.Betti
import Verif.Spec.Reduction

set_option linter.unusedSectionVars false
set_option linter.unusedSimpArgs false

namespace Phlite
open Finsupp (single linearCombination linearCombination_single)

variable {K T L : Type} [Field K] [LinearOrder L]

/-- The columns `W` only combine cells of equal degree. -/
def Homog (deg : T → ℤ) (W : T → (T →₀ K)) (all : List T) : Prop := ∀ c ∈ all, ∀ x, W c x ≠ 0 → deg x = deg c

theorem IsDependent.mem {C R : Type} {els : List C} {M : C → (R →₀ K)} {x : C} (h : IsDependent els M x) : x ∈ els := by
  obtain ⟨p, q, h, _⟩ := h; rw [h]; simp

theorem filter_split {deg : T → ℤ} {all pre post : List T} {c : T} {d : ℤ}
    (h : all.filter (fun x => deg x = d) = pre ++ c :: post) :
    ∃ p q, all = p ++ c :: q ∧ p.filter (fun x => deg x = d) = pre := by
  rw [List.filter_eq_append_iff] at h
  obtain ⟨l1, l2, h1, h2, h3⟩ := h
  rw [List.filter_eq_cons_iff] at h3
  obtain ⟨m, n, h4, h5, h6, h7⟩ := h3
  refine ⟨l1 ++ m, n, by rw [h1, h4]; simp, ?_⟩
  rw [List.filter_append, h2, List.filter_eq_nil_iff.2 h5, List.append_nil]

/-- A homogeneous decomposition of a list is one of any list with the same cells in each degree, in the same order there. -/
theorem Decomp.reorder {key : T → L} {deg : T → ℤ} {A A' : List T} {M W : T → (T →₀ K)} (h : Decomp key A M W)
    (hW : Homog deg W A) (hnd : A'.Nodup)
    (hA : ∀ c ∈ A', A'.filter (fun x => deg x = deg c) = A.filter (fun x => deg x = deg c)) : Decomp key A' M W := by
  have hmem : ∀ c ∈ A', c ∈ A := by
    intro c hc
    have : c ∈ A'.filter (fun x => deg x = deg c) := by simp [hc]
    rw [hA c hc] at this
    exact (List.mem_filter.1 this).1
  refine ⟨hnd, fun c hc => h.diag c (hmem c hc), ?_, fun c hc c' hc' => h.reduced c (hmem c hc) c' (hmem c' hc')⟩
  intro pre c post hpq d hd
  have hc : c ∈ A' := by rw [hpq]; simp
  have hf := hA c hc
  have e : A.filter (fun x => deg x = deg c) = pre.filter (fun x => deg x = deg c) ++ c :: post.filter (fun x => deg x = deg c) := by
    rw [← hf, hpq]; simp
  obtain ⟨p, q, h1, h2⟩ := filter_split e
  rcases h.tri p c q h1 d hd with h3 | h3
  · exact Or.inl h3
  · right
    have : d ∈ p.filter (fun x => deg x = deg c) := by simp [h3, hW c (hmem c hc) d hd]
    rw [h2] at this
    exact (List.mem_filter.1 this).1

theorem Decomp.filterDeg {key : T → L} {deg : T → ℤ} {A : List T} {M W : T → (T →₀ K)} (h : Decomp key A M W)
    (hW : Homog deg W A) (d : ℤ) : Decomp key (A.filter fun x => deg x = d) M W := by
  refine h.reorder hW (h.nodup.filter _) ?_
  intro c hc
  have hcd : deg c = d := by simpa using (List.mem_filter.1 hc).2
  rw [List.filter_filter, hcd]
  simp

theorem exists_graded_decomp {key : T → L} (hk : Function.Injective key) {all : List T} (hnd : all.Nodup) {M : T → (T →₀ K)}
    {deg : T → ℤ} {ε : ℤ} (hdeg : ∀ c ∈ all, ∀ r, M c r ≠ 0 → deg r = deg c + ε) :
    ∃ W, Decomp key all M W ∧ Homog deg W all := by
  have hex : ∀ d : ℤ, ∃ W, Decomp key (all.filter fun x => deg x = d) M W := fun d => exists_decomp hk _ (hnd.filter _) M
  choose Wd hWd using hex
  have hH : Homog deg (fun c => Wd (deg c) c) all := by
    intro c hc x hx
    have hc' : c ∈ all.filter fun x => deg x = deg c := by simp [hc]
    simpa using (List.mem_filter.1 ((hWd (deg c)).mem_of_ne hc' hx)).2
  have hlead : ∀ c ∈ all, ∀ r, IsLead key (linearCombination K M (Wd (deg c) c)) r → deg r = deg c + ε := by
    intro c hc r hr
    obtain ⟨x, x1, x2⟩ := lc_support hr.1
    have hxc := hH c hc x x1
    have hc' : c ∈ all.filter fun x => deg x = deg c := by simp [hc]
    have hx : x ∈ all := (List.mem_filter.1 ((hWd (deg c)).mem_of_ne hc' x1)).1
    rw [hdeg x hx r x2, hxc]
  refine ⟨fun c => Wd (deg c) c, ⟨hnd, ?_, ?_, ?_⟩, hH⟩
  · intro c hc
    exact (hWd (deg c)).diag c (by simp [hc])
  · intro pre c post hpq d hd
    have e : all.filter (fun x => deg x = deg c) = pre.filter (fun x => deg x = deg c) ++ c :: post.filter (fun x => deg x = deg c) := by
      rw [hpq]; simp
    rcases (hWd (deg c)).tri _ c _ e d hd with h | h
    · exact Or.inl h
    · exact Or.inr (List.mem_filter.1 h).1
  · intro c hc c' hc' r h h'
    have e : deg c = deg c' := by have := hlead c hc r h; have := hlead c' hc' r h'; omega
    simp only [← e] at h'
    exact (hWd (deg c)).reduced c (by simp [hc]) c' (by simp [hc', e]) r h h'

/-- Persistence pairs of a graded matrix are found degree by degree. -/
theorem pair_filter {key : T → L} (hk : Function.Injective key) {all : List T} (hnd : all.Nodup) {M : T → (T →₀ K)}
    {deg : T → ℤ} {ε : ℤ} (hdeg : ∀ c ∈ all, ∀ r, M c r ≠ 0 → deg r = deg c + ε) {d : ℤ} {r c : T} (hc : deg c = d) :
    IsPersistencePair key all M r c ↔ IsPersistencePair key (all.filter fun x => deg x = d) M r c := by
  obtain ⟨W, hW, hH⟩ := exists_graded_decomp hk hnd hdeg
  rw [hW.pair_iff hk, (hW.filterDeg hH d).pair_iff hk]
  simp [hc]

theorem pair_deg {key : T → L} (hk : Function.Injective key) {all : List T} (hnd : all.Nodup) {M : T → (T →₀ K)}
    {deg : T → ℤ} {ε : ℤ} (hdeg : ∀ c ∈ all, ∀ r, M c r ≠ 0 → deg r = deg c + ε) {r c : T}
    (h : IsPersistencePair key all M r c) : c ∈ all ∧ deg r = deg c + ε ∧
      ∃ x ∈ all, deg x = deg c ∧ M x r ≠ 0 ∧ ∃ p q, all = p ++ c :: q ∧ (x = c ∨ x ∈ p) := by
  obtain ⟨W, hW, hH⟩ := exists_graded_decomp hk hnd hdeg
  rw [hW.pair_iff hk] at h
  obtain ⟨hc, hl⟩ := h
  obtain ⟨x, x1, x2⟩ := lc_support hl.1
  have hx := hW.mem_of_ne hc x1
  have hxc := hH c hc x x1
  refine ⟨hc, by rw [hdeg x hx r x2, hxc], x, hx, hxc, x2, ?_⟩
  obtain ⟨p, q, hpq⟩ := List.append_of_mem hc
  exact ⟨p, q, hpq, hW.tri p c q hpq x x1⟩

theorem dependent_filter {key : T → L} (hk : Function.Injective key) {all : List T} (hnd : all.Nodup) {M : T → (T →₀ K)}
    {deg : T → ℤ} {ε : ℤ} (hdeg : ∀ c ∈ all, ∀ r, M c r ≠ 0 → deg r = deg c + ε) {d : ℤ} {c : T} (hc : deg c = d) :
    IsDependent all M c ↔ IsDependent (all.filter fun x => deg x = d) M c := by
  obtain ⟨W, hW, hH⟩ := exists_graded_decomp hk hnd hdeg
  rw [hW.zero_iff hk, (hW.filterDeg hH d).zero_iff hk]
  simp [hc]

/-- A cell of the list is the death of a pair or dependent, not both. -/
theorem death_iff {key : T → L} (hk : Function.Injective key) {all : List T} (hnd : all.Nodup) (M : T → (T →₀ K)) {c : T}
    (hc : c ∈ all) : IsDependent all M c ↔ ¬ ∃ r, IsPersistencePair key all M r c := by
  obtain ⟨W, hW⟩ := exists_decomp hk all hnd M
  rw [hW.zero_iff hk]
  constructor
  · rintro ⟨_, h⟩ ⟨r, hr⟩
    exact ((hW.pair_iff hk r c).1 hr).2.ne_zero h
  · intro h
    refine ⟨hc, ?_⟩
    by_contra hne
    obtain ⟨r, hr⟩ := exists_lead key hne
    exact h ⟨r, (hW.pair_iff hk r c).2 ⟨hc, hr⟩⟩

theorem pair_unique {key : T → L} (hk : Function.Injective key) {all : List T} (hnd : all.Nodup) (M : T → (T →₀ K)) :
    (∀ r r' c, IsPersistencePair key all M r c → IsPersistencePair key all M r' c → r = r') ∧
    (∀ r c c', IsPersistencePair key all M r c → IsPersistencePair key all M r c' → c = c') := by
  obtain ⟨W, hW⟩ := exists_decomp hk all hnd M
  constructor
  · intro r r' c h h'
    rw [hW.pair_iff hk] at h h'
    exact h.2.unique hk h'.2
  · intro r c c' h h'
    rw [hW.pair_iff hk] at h h'
    exact hW.reduced c h.1 c' h'.1 r h.2 h'.2

/-- With `D² = 0`, a birth is not a death. Cells of each degree are sorted by `key`. -/
theorem birth_dependent {key : T → L} (hk : Function.Injective key) {all : List T} (hnd : all.Nodup) {M : T → (T →₀ K)}
    {deg : T → ℤ} {ε : ℤ} (hdeg : ∀ c ∈ all, ∀ r, M c r ≠ 0 → deg r = deg c + ε)
    (hsort : ∀ d : ℤ, (all.filter fun x => deg x = d).Pairwise fun a b => key a < key b) {r c : T}
    (hrows : ∀ x ∈ all, deg x = deg c → ∀ r, M x r ≠ 0 → r ∈ all)
    (hsq : ∀ x ∈ all, deg x = deg c → linearCombination K M (M x) = 0)
    (h : IsPersistencePair key all M r c) : r ∈ all ∧ IsDependent all M r := by
  classical
  obtain ⟨W, hW, hH⟩ := exists_graded_decomp hk hnd hdeg
  rw [hW.pair_iff hk] at h
  obtain ⟨hc, hl⟩ := h
  have hcoef : ∀ z, linearCombination K M (W c) z ≠ 0 → z ∈ all ∧ deg z = deg c + ε := by
    intro z hz
    obtain ⟨x, x1, x2⟩ := lc_support hz
    have hx := hW.mem_of_ne hc x1
    have hxc := hH c hc x x1
    exact ⟨hrows x hx hxc z x2, by rw [hdeg x hx z x2, hxc]⟩
  obtain ⟨hr, hrdeg⟩ := hcoef r hl.1
  refine ⟨hr, ?_⟩
  rw [dependent_filter hk hnd hdeg hrdeg]
  have hrf : r ∈ all.filter fun x => deg x = deg c + ε := by simp [hr, hrdeg]
  obtain ⟨p, q, hpq⟩ := List.append_of_mem hrf
  refine ⟨p, q, hpq, ?_⟩
  set w := linearCombination K M (W c) with hw
  have hz : bdry M w = 0 := by
    rw [hw, bdry, lc_lc, Finsupp.linearCombination_apply, Finsupp.sum]
    apply Finset.sum_eq_zero
    intro x hx
    have hx' : W c x ≠ 0 := by simpa using hx
    rw [hsq x (hW.mem_of_ne hc hx') (hH c hc x hx'), smul_zero]
  have hsplit : w = single r (w r) + w.erase r := (Finsupp.single_add_erase r w).symm
  rw [hsplit, map_add, bdry, linearCombination_single] at hz
  have hmem : linearCombination K M (w.erase r) ∈ Submodule.span K (M '' {z | z ∈ p}) := by
    rw [Finsupp.linearCombination_apply, Finsupp.sum]
    apply Submodule.sum_mem
    intro z hz
    apply Submodule.smul_mem
    apply Submodule.subset_span
    refine ⟨z, ?_, rfl⟩
    simp only [Finsupp.support_erase, Finset.mem_erase, Finsupp.mem_support_iff] at hz
    obtain ⟨z1, z2⟩ := hcoef z hz.2
    have hzf : z ∈ all.filter fun x => deg x = deg c + ε := by simp [z1, z2]
    have hzk := hl.2 z hz.2
    have hs := hsort (deg c + ε)
    rw [hpq] at hzf hs
    rcases List.mem_append.1 hzf with h | h
    · exact h
    · rcases List.mem_cons.1 h with h | h
      · exact absurd h hz.1
      · exfalso
        have := (List.pairwise_cons.1 (List.pairwise_append.1 hs).2.1).1 z h
        exact absurd hzk (not_le.2 this)
  have : M r = -((w r)⁻¹ • linearCombination K M (w.erase r)) := by
    have h2 : w r • M r = -linearCombination K M (w.erase r) := by rw [eq_neg_iff_add_eq_zero]; exact hz
    rw [← smul_neg, ← h2, smul_smul, inv_mul_cancel₀ hl.1, one_smul]
  rw [this]
  exact Submodule.neg_mem _ (Submodule.smul_mem _ _ hmem)

end Phlite
