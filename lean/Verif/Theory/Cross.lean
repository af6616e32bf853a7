/-
The cross-polytopes: `2 p + 2` points with a cycle of dimension `p` that is not a boundary.
-/
import Verif.Theory.Flag
import Verif.Theory.Circle
import Verif.Theory.Enclosing

set_option linter.unusedSectionVars false
set_option linter.unusedSimpArgs false

namespace Phlite
open Finsupp (single linearCombination linearCombination_single supported)

section
variable (K : Type) [Field K]

/-- The sum of the simplices of the cross-polytope on the pairs `2 j`, `2 j + 1` with `m - k ≤ j < m`, with signs. -/
noncomputable def crossCycle (m : ℕ) : ℕ → (Finset ℕ →₀ K)
  | 0 => single ∅ 1
  | k + 1 => joinMap K (2 * (m - (k + 1))) (crossCycle m k) - joinMap K (2 * (m - (k + 1)) + 1) (crossCycle m k)

variable {K}

/-- The simplices on the pairs `2 j`, `2 j + 1` with `m - k ≤ j < m` that have `k` vertices, no two opposite. -/
def crossSimplices (m k : ℕ) : Set (Finset ℕ) := {σ | σ.card = k ∧ (∀ a ∈ σ, 2 * (m - k) ≤ a ∧ a < 2 * m) ∧ ∀ a ∈ σ, ∀ b ∈ σ, a ≠ b → a / 2 ≠ b / 2}

theorem crossSimplices_after {m k : ℕ} (hk : k + 1 ≤ m) : ∀ σ ∈ crossSimplices m k, ∀ a ∈ σ, 2 * (m - (k + 1)) + 1 < a := by
  intro σ hσ a ha
  have := (hσ.2.1 a ha).1
  omega

theorem joinMap_cross {m k : ℕ} (hk : k + 1 ≤ m) {v : ℕ} (hv : v / 2 = m - (k + 1)) : ∀ x ∈ supported K K (crossSimplices m k), joinMap K v x ∈ supported K K (crossSimplices m (k + 1)) := by
  classical
  refine map_supported _ fun σ hσ => ?_
  have hlt := crossSimplices_after hk σ hσ
  have hvσ : v ∉ σ := fun h => by have := hlt v h; omega
  rw [joinMap, linearCombination_single, one_smul]
  refine Finsupp.single_mem_supported K _ ⟨by rw [Finset.card_insert_of_notMem hvσ, hσ.1], ?_, ?_⟩
  · intro a ha
    rcases Finset.mem_insert.1 ha with rfl | ha
    · omega
    · have := hσ.2.1 a ha
      omega
  · intro a ha b hb hab
    rcases Finset.mem_insert.1 ha with ha | ha <;> rcases Finset.mem_insert.1 hb with hb | hb
    · exact absurd (ha.trans hb.symm) hab
    · have := hlt b hb
      omega
    · have h := hlt a (by assumption)
      omega
    · exact hσ.2.2 a ha b hb hab

theorem crossCycle_mem {m : ℕ} : ∀ {k : ℕ}, k ≤ m → crossCycle K m k ∈ supported K K (crossSimplices m k)
  | 0, _ => Finsupp.single_mem_supported K _ ⟨rfl, fun a ha => absurd ha (Finset.notMem_empty a), fun a ha => absurd ha (Finset.notMem_empty a)⟩
  | k + 1, hk => Submodule.sub_mem _ (joinMap_cross hk (by omega) _ (crossCycle_mem (by omega))) (joinMap_cross hk (by omega) _ (crossCycle_mem (by omega)))

theorem crossCycle_cycle {m : ℕ} : ∀ {k : ℕ}, k ≤ m → augBoundary K (crossCycle K m k) = 0
  | 0, _ => by rw [crossCycle, augBoundary, linearCombination_single, Finset.sum_empty, smul_zero]
  | k + 1, hk => by
    have h1 := crossCycle_mem (K := K) (m := m) (k := k) (by omega)
    have h2 := crossSimplices_after hk
    rw [crossCycle, map_sub, join_boundary (fun σ hσ a ha => by have := h2 σ hσ a ha; omega) _ h1, join_boundary h2 _ h1, crossCycle_cycle (by omega), map_zero, map_zero, sub_self]

theorem crossCycle_ne_zero {m : ℕ} : ∀ {k : ℕ}, k ≤ m → crossCycle K m k ≠ 0
  | 0, _ => by rw [crossCycle]; exact Finsupp.single_ne_zero.2 one_ne_zero
  | k + 1, hk => by
    intro h
    have h1 := crossCycle_mem (K := K) (m := m) (k := k) (by omega)
    have h2 := crossSimplices_after hk
    refine crossCycle_ne_zero (m := m) (k := k) (by omega) ?_
    have h3 : ∀ v ≤ 2 * (m - (k + 1)) + 1, crossCycle K m k ∈ supported K K {σ : Finset ℕ | v ∉ σ} := fun v hv =>
      Finsupp.supported_mono (fun σ hσ => show v ∉ σ from fun h => by have := h2 σ hσ v h; omega) h1
    have h4 := congrArg (linkMap K (2 * (m - (k + 1)))) h
    rw [crossCycle, map_sub, linkMap_join _ (h3 _ (by omega)), map_zero, linkMap_free, sub_zero] at h4
    · exact h4
    · refine map_supported (X := {σ : Finset ℕ | 2 * (m - (k + 1)) ∉ σ}) _ (fun σ hσ => ?_) _ (h3 _ (by omega))
      rw [joinMap, linearCombination_single, one_smul]
      refine Finsupp.single_mem_supported K _ fun h => ?_
      rcases Finset.mem_insert.1 h with h | h
      · omega
      · exact hσ h

/-- The distances of the cross-polytope: 2 between the opposite points `2 j`, `2 j + 1`, and 1 between others. -/
def crossDist (i j : ℕ) : ℕ := if i = j then 0 else if i / 2 = j / 2 then 2 else 1

theorem crossDist_le_one {i j : ℕ} : crossDist i j ≤ 1 ↔ (i ≠ j → i / 2 ≠ j / 2) := by
  unfold crossDist
  split_ifs <;> simp_all

/-- Simplices without opposite points have at most as many vertices as there are pairs. -/
theorem cross_card_le {m k : ℕ} (hk : k ≤ m) {σ : Finset ℕ} (h1 : ∀ a ∈ σ, 2 * (m - k) ≤ a ∧ a < 2 * m) (h2 : ∀ a ∈ σ, ∀ b ∈ σ, a ≠ b → a / 2 ≠ b / 2) : σ.card ≤ k := by
  have h3 : σ.card ≤ (Finset.Ico (m - k) m).card := Finset.card_le_card_of_injOn (· / 2) (fun a ha => by
    have := h1 a ha
    simp only [Finset.coe_Ico, Set.mem_Ico]
    omega) (fun a ha b hb hab => by
      by_contra hne
      exact h2 a ha b hb hne hab)
  rw [Nat.card_Ico] at h3
  omega

theorem linkMap_cross {m k : ℕ} (hk : k + 1 ≤ m) {v : ℕ} (hv : v / 2 = m - (k + 1)) : ∀ x ∈ supported K K (crossSimplices m (k + 1)), linkMap K v x ∈ supported K K (crossSimplices m k) := by
  classical
  refine map_supported _ fun σ hσ => ?_
  rw [linkMap, linearCombination_single, one_smul]
  split_ifs with h
  · refine Finsupp.single_mem_supported K _ ⟨by rw [Finset.card_erase_of_mem h, hσ.1]; rfl, fun a ha => ?_, fun a ha b hb hab => ?_⟩
    · obtain ⟨h3, h4⟩ := Finset.mem_erase.1 ha
      have h5 := hσ.2.1 a h4
      have h6 := hσ.2.2 a h4 v h h3
      omega
    · exact hσ.2.2 a (Finset.mem_of_mem_erase ha) b (Finset.mem_of_mem_erase hb) hab
  · exact Submodule.zero_mem _

theorem cross_split {m k : ℕ} (hk : k + 1 ≤ m) : ∀ z ∈ supported K K (crossSimplices m (k + 1)),
    joinMap K (2 * (m - (k + 1))) (linkMap K (2 * (m - (k + 1))) z) + joinMap K (2 * (m - (k + 1)) + 1) (linkMap K (2 * (m - (k + 1)) + 1) z) = z := by
  classical
  set v := 2 * (m - (k + 1)) with hv
  refine eq_on_supported_of_basis (joinMap K v ∘ₗ linkMap K v + joinMap K (v + 1) ∘ₗ linkMap K (v + 1)) LinearMap.id fun σ hσ => ?_
  rw [LinearMap.add_apply, LinearMap.comp_apply, LinearMap.comp_apply, linkMap, linearCombination_single, one_smul, linkMap, linearCombination_single, one_smul, LinearMap.id_apply]
  by_cases h1 : v ∈ σ
  · have h2 : v + 1 ∉ σ := fun h => hσ.2.2 _ h1 _ h (by omega) (by omega)
    rw [if_pos h1, if_neg h2, map_zero, add_zero, joinMap, linearCombination_single, one_smul, Finset.insert_erase h1]
  · by_cases h2 : v + 1 ∈ σ
    · rw [if_neg h1, if_pos h2, map_zero, zero_add, joinMap, linearCombination_single, one_smul, Finset.insert_erase h2]
    · exfalso
      have := cross_card_le (m := m) (k := k) (by omega) (σ := σ) (fun a ha => by
        have h3 := hσ.2.1 a ha
        have h4 : a ≠ v := fun e => h1 (e ▸ ha)
        have h5 : a ≠ v + 1 := fun e => h2 (e ▸ ha)
        omega) hσ.2.2
      rw [hσ.1] at this
      omega

/-- All cycles are multiples of the one. -/
theorem cross_cycles {m : ℕ} : ∀ {k : ℕ}, k ≤ m → ∀ z ∈ supported K K (crossSimplices m k), augBoundary K z = 0 → ∃ c : K, z = c • crossCycle K m k
  | 0, _ => by
    intro z hz _
    refine ⟨z ∅, ?_⟩
    rw [crossCycle, Finsupp.smul_single, smul_eq_mul, mul_one]
    ext σ
    by_cases h : σ = ∅
    · rw [h, Finsupp.single_eq_same]
    · rw [Finsupp.single_eq_of_ne h]
      by_contra hne
      exact h (Finset.card_eq_zero.1 ((Finsupp.mem_supported K z).1 hz (Finsupp.mem_support_iff.2 hne)).1)
  | k + 1, hk => by
    intro z hz hzero
    have hs := cross_split (K := K) hk z hz
    have ha := linkMap_cross (K := K) hk (v := 2 * (m - (k + 1))) (by omega) z hz
    have hb := linkMap_cross (K := K) hk (v := 2 * (m - (k + 1)) + 1) (by omega) z hz
    set a := linkMap K (2 * (m - (k + 1))) z
    set b := linkMap K (2 * (m - (k + 1)) + 1) z
    have h2 := crossSimplices_after (m := m) (k := k) hk
    have hfree : ∀ v ≤ 2 * (m - (k + 1)) + 1, ∀ σ ∈ crossSimplices m k, v ∉ σ := fun v hv σ hσ h => by have := h2 σ hσ v h; omega
    have hfree' : ∀ v ≤ 2 * (m - (k + 1)) + 1, ∀ x ∈ supported K K (crossSimplices m k), x ∈ supported K K {σ : Finset ℕ | v ∉ σ} := fun v hv x hx =>
      Finsupp.supported_mono (hfree v hv) hx
    have hd : a - joinMap K (2 * (m - (k + 1))) (augBoundary K a) + (b - joinMap K (2 * (m - (k + 1)) + 1) (augBoundary K b)) = 0 := by
      rw [← join_boundary (fun σ hσ x hx => by have := h2 σ hσ x hx; omega) a ha, ← join_boundary h2 b hb, ← map_add, hs, hzero]
    have hout : ∀ x ∈ supported K K {σ : Finset ℕ | 2 * (m - (k + 1)) ∉ σ}, joinMap K (2 * (m - (k + 1)) + 1) x ∈ supported K K {σ : Finset ℕ | 2 * (m - (k + 1)) ∉ σ} := by
      refine map_supported _ fun σ hσ => ?_
      rw [joinMap, linearCombination_single, one_smul]
      refine Finsupp.single_mem_supported K _ fun h => ?_
      rcases Finset.mem_insert.1 h with h | h
      · omega
      · exact hσ h
    have hda : augBoundary K a = 0 := by
      have h := congrArg (linkMap K (2 * (m - (k + 1)))) hd
      rw [map_add, map_sub, map_sub, linkMap_free a (hfree' _ (by omega) a ha), linkMap_join _ (augBoundary_free (hfree _ (by omega)) a ha), linkMap_free b (hfree' _ (by omega) b hb),
        linkMap_free _ (hout _ (augBoundary_free (hfree _ (by omega)) b hb)), map_zero, sub_zero, add_zero, zero_sub, neg_eq_zero] at h
      exact h
    have hdb : augBoundary K b = 0 := by
      rw [hda, map_zero, sub_zero] at hd
      have h := congrArg (linkMap K (2 * (m - (k + 1)) + 1)) hd
      rw [map_add, map_sub, linkMap_free a (hfree' _ le_rfl a ha), linkMap_free b (hfree' _ le_rfl b hb), linkMap_join _ (augBoundary_free (hfree _ le_rfl) b hb),
        map_zero, zero_add, zero_sub, neg_eq_zero] at h
      exact h
    rw [hda, hdb, map_zero, map_zero, sub_zero, sub_zero] at hd
    obtain ⟨c, hc⟩ := cross_cycles (k := k) (by omega) a ha hda
    refine ⟨c, ?_⟩
    rw [← hs, eq_neg_of_add_eq_zero_right hd, map_neg, hc, map_smul, map_smul, crossCycle, smul_sub, sub_eq_add_neg]

theorem cross_rips (p : ℕ) : vietorisRips (2 * p + 2) crossDist p 1 = crossSimplices (p + 1) (p + 1) := by
  ext σ
  constructor
  · rintro ⟨h1, h2, h3⟩
    exact ⟨h2, fun a ha => by have := Finset.mem_range.1 (h1 ha); omega, fun a ha b hb => crossDist_le_one.1 (h3 a ha b hb)⟩
  · rintro ⟨h1, h2, h3⟩
    exact ⟨fun a ha => Finset.mem_range.2 (by have := h2 a ha; omega), h1, fun a ha b hb => crossDist_le_one.2 (h3 a ha b hb)⟩

theorem cross_rips_succ (p : ℕ) : vietorisRips (2 * p + 2) crossDist (p + 1) 1 = ∅ := by
  rw [Set.eq_empty_iff_forall_notMem]
  rintro σ ⟨h1, h2, h3⟩
  have := cross_card_le (m := p + 1) (k := p + 1) le_rfl (σ := σ) (fun a ha => by have := Finset.mem_range.1 (h1 ha); omega) fun a ha b hb => crossDist_le_one.1 (h3 a ha b hb)
  omega

/-- The cross-polytope has one class in dimension `p` at the scale 1. -/
theorem cross_betti {p : ℕ} (hp : 1 ≤ p) :
    persistentBetti (simplexBoundary K) (vietorisRips_mono (2 * p + 2) crossDist p (le_refl 1)) (vietorisRips_mono (2 * p + 2) crossDist (p + 1) (le_refl 1)) = 1 := by
  have h2 : ∀ σ ∈ crossSimplices (p + 1) (p + 1), 2 ≤ σ.card := fun σ hσ => by rw [hσ.1]; omega
  have hmem := crossCycle_mem (K := K) (m := p + 1) le_rfl
  refine finrank_range_one _ _ (g := crossCycle K (p + 1) (p + 1)) ?_ ?_ ?_
  · refine ⟨by rw [cross_rips]; exact hmem, ?_⟩
    rw [SetLike.mem_coe, LinearMap.mem_ker, ← augBoundary_eq h2 _ hmem]
    exact crossCycle_cycle le_rfl
  · rintro z ⟨h3, h4⟩
    rw [cross_rips] at h3
    obtain ⟨c, rfl⟩ := cross_cycles (K := K) le_rfl z h3 (by rw [augBoundary_eq h2 _ h3]; exact LinearMap.mem_ker.1 h4)
    exact Submodule.mem_sup_left (Submodule.smul_mem _ _ (Submodule.mem_span_singleton_self _))
  · rintro ⟨c, hc, h⟩
    rw [cross_rips_succ] at hc
    have hc0 : c = 0 := by simpa using hc
    rw [hc0, map_zero] at h
    exact crossCycle_ne_zero (K := K) (m := p + 1) le_rfl h.symm

theorem finrank_range_zero_of_bot {W : Type} [AddCommGroup W] [Module K W] {Z Z' B B' : Submodule K W} (hZ : Z ≤ Z') (hB : B ≤ B') (h : Z = ⊥) :
    Module.finrank K (LinearMap.range (quotByMap hZ hB)) = 0 := by
  have : quotByMap hZ hB = 0 := by
    ext ⟨w, hw⟩
    show Submodule.mkQ _ (Submodule.inclusion hZ ⟨w, hw⟩) = 0
    rw [Submodule.mkQ_apply, Submodule.Quotient.mk_eq_zero, Submodule.mem_comap]
    rw [h] at hw
    show w ∈ B'
    rw [(Submodule.mem_bot K).1 hw]
    exact Submodule.zero_mem _
  rw [this, LinearMap.range_zero, finrank_bot]

/-- The barcode of the cross-polytope in dimension `p`. -/
theorem IsRipsBarcode.cross {p : ℕ} (hp : 1 ≤ p) : IsRipsBarcode K (2 * p + 2) crossDist p {((1 : ℕ), ((2 : ℕ) : WithTop ℕ))} := by
  refine ⟨fun b hb => ?_, fun s t hst => ?_⟩
  · rw [Multiset.mem_singleton.1 hb]
    exact WithTop.coe_lt_coe.2 (by omega)
  beta_reduce
  rw [aliveBars, Multiset.countP_eq_card_filter, Multiset.filter_singleton]
  dsimp only
  have hc : ((t : ℕ) : WithTop ℕ) < ((2 : ℕ) : WithTop ℕ) ↔ t < 2 := WithTop.coe_lt_coe
  have hc' : (1 ≤ s ∧ (WithTop.some t : WithTop ℕ) < ((2 : ℕ) : WithTop ℕ)) ↔ 1 ≤ s ∧ t < 2 := and_congr_right fun _ => hc
  simp only [hc']
  by_cases h1 : 2 ≤ t
  · have hle : ∀ i j, crossDist i j ≤ 2 := fun i j => by unfold crossDist; split_ifs <;> omega
    rw [betti_cone hp (q := 0) (by omega) hst fun i _ => ⟨(hle _ _).trans h1, (hle _ _).trans h1⟩, if_neg (by omega)]
    rfl
  by_cases h2 : s = 0
  · rw [if_neg (by omega), Multiset.empty_eq_zero, Multiset.card_zero]
    symm
    have he : vietorisRips (2 * p + 2) crossDist p s = ∅ := by
      rw [Set.eq_empty_iff_forall_notMem]
      rintro σ ⟨-, h3, h4⟩
      obtain ⟨a, ha, b, hb, hab⟩ := Finset.one_lt_card.1 (by rw [h3]; omega : 1 < σ.card)
      have h5 := h4 a ha b hb
      unfold crossDist at h5
      rw [if_neg hab] at h5
      split_ifs at h5 <;> omega
    refine finrank_range_zero_of_bot _ _ ?_
    rw [eq_bot_iff]
    rintro z ⟨hz, -⟩
    rw [he] at hz
    simpa using hz
  · have hs : s = 1 := by omega
    have ht : t = 1 := by omega
    subst hs ht
    rw [if_pos (by omega), cross_betti hp]
    rfl

end
end Phlite
