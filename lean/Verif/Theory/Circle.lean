/-
The Vietoris-Rips filtration of points on a circle, in the degrees 0 and 1.
-/
import Verif.Spec.Circle
import Verif.Spec.RipsReport
import Verif.Theory.Cone
import Verif.Theory.Simplex
import Verif.Theory.Digraph
import Verif.Theory.RipsInvariance

set_option linter.unusedSectionVars false
set_option linter.unusedSimpArgs false

namespace Phlite
open Finsupp (single linearCombination linearCombination_single supported)

/-! ### Distances -/

theorem circleDist_self (n i : ℕ) : circleDist n i i = 0 := by simp [circleDist]

theorem circleDist_comm (n i j : ℕ) : circleDist n i j = circleDist n j i := by unfold circleDist; rw [min_comm]

theorem circleDist_lt {n i j : ℕ} (h : i < j) (hj : j < n) : circleDist n i j = min (j - i) (n - (j - i)) := by
  unfold circleDist
  have h1 : ((j : ℤ) - i) % n = (j : ℤ) - i := Int.emod_eq_of_lt (by omega) (by omega)
  have h2 : ((i : ℤ) - j) % n = (n : ℤ) - (j - i) := by
    rw [← Int.add_emod_right, Int.emod_eq_of_lt (by omega) (by omega)]; omega
  rw [h1, h2]
  omega

theorem circleDist_le {n : ℕ} (hn : 1 ≤ n) (i k : ℕ) : circleDist n (i % n) ((i + k) % n) ≤ k := by
  unfold circleDist
  have h1 : ((((i + k) % n : ℕ) : ℤ) - ((i % n : ℕ) : ℤ)) % n = (k : ℤ) % n := by
    push_cast
    rw [← Int.sub_emod]
    congr 1
    omega
  rw [h1]
  have h2 : (k : ℤ) % n ≤ k := by exact_mod_cast Nat.mod_le k n
  omega

section
variable {K : Type} [Field K] {n : ℕ}

/-- The edge from `a` to `b`, with its orientation; zero if `a = b`. -/
noncomputable def oe (K : Type) [Field K] (a b : ℕ) : Finset ℕ →₀ K :=
  if a < b then single {a, b} 1 else if b < a then -single {b, a} 1 else 0

theorem oe_comm (a b : ℕ) : oe K b a = -oe K a b := by
  unfold oe
  rcases lt_trichotomy a b with h | h | h
  · rw [if_neg (by omega), if_pos h, if_pos h]
  · subst h; simp
  · rw [if_pos h, if_neg (by omega), if_pos h, neg_neg]

theorem oe_self (a : ℕ) : oe K a a = 0 := by simp [oe]

theorem bdry_oe (a b : ℕ) : bdry (simplexBoundary K) (oe K a b) = single {b} 1 - single {a} 1 := by
  unfold oe bdry
  rcases lt_trichotomy a b with h | h | h
  · rw [if_pos h, linearCombination_single, one_smul, edge_boundary h]
  · subst h; simp
  · rw [if_neg (by omega), if_pos h, map_neg, linearCombination_single, one_smul, edge_boundary h, neg_sub]

theorem triangle_boundary {a b c : ℕ} (hab : a < b) (hbc : b < c) :
    simplexBoundary K {a, b, c} = oe K a b + oe K b c + oe K c a := by
  have hc : ({a, b, c} : Finset ℕ).card = 3 := Finset.card_eq_three.2 ⟨a, b, c, by omega, by omega, by omega, rfl⟩
  have ha' : a ∉ ({b, c} : Finset ℕ) := by simp; omega
  have hb' : b ∉ ({c} : Finset ℕ) := by simp; omega
  rw [simplexBoundary, if_neg (by omega), Finset.sum_insert ha', Finset.sum_insert hb', Finset.sum_singleton]
  have e1 : posIn {a, b, c} a = 0 := by
    unfold posIn
    rw [Finset.card_eq_zero, Finset.filter_eq_empty_iff]
    intro x hx
    simp only [Finset.mem_insert, Finset.mem_singleton] at hx
    omega
  have e2 : posIn {a, b, c} b = 1 := by
    unfold posIn
    rw [Finset.card_eq_one]
    refine ⟨a, ?_⟩
    ext x
    simp only [Finset.mem_filter, Finset.mem_insert, Finset.mem_singleton]
    omega
  have e3 : posIn {a, b, c} c = 2 := by
    unfold posIn
    rw [Finset.card_eq_two]
    refine ⟨a, b, by omega, ?_⟩
    ext x
    simp only [Finset.mem_filter, Finset.mem_insert, Finset.mem_singleton]
    omega
  have e4 : ({a, b, c} : Finset ℕ).erase a = {b, c} := by
    ext x; simp only [Finset.mem_erase, Finset.mem_insert, Finset.mem_singleton]; omega
  have e5 : ({a, b, c} : Finset ℕ).erase b = {a, c} := by
    ext x; simp only [Finset.mem_erase, Finset.mem_insert, Finset.mem_singleton]; omega
  have e6 : ({a, b, c} : Finset ℕ).erase c = {a, b} := by
    ext x; simp only [Finset.mem_erase, Finset.mem_insert, Finset.mem_singleton]; omega
  rw [e1, e2, e3, e4, e5, e6, pow_zero, pow_one, Finsupp.single_neg]
  unfold oe
  rw [if_pos hab, if_pos hbc, if_neg (by omega), if_pos (by omega : a < c)]
  rw [show ((-1 : K)) ^ 2 = 1 by norm_num]
  abel

/-- The boundaries of triangles at scale `t`. -/
noncomputable abbrev circleB (K : Type) [Field K] (n t : ℕ) : Submodule K (Finset ℕ →₀ K) :=
  boundariesOn (simplexBoundary K) (vietorisRips n (circleDist n) 2 t)

theorem mem_circleB {t a b c : ℕ} (ha : a < n) (hb : b < n) (hc : c < n) (hab : circleDist n a b ≤ t) (hbc : circleDist n b c ≤ t) (hac : circleDist n a c ≤ t) :
    oe K a b + oe K b c + oe K c a ∈ circleB K n t := by
  have sorted : ∀ a b c, a < b → b < c → c < n → circleDist n a b ≤ t → circleDist n b c ≤ t → circleDist n a c ≤ t →
      oe K a b + oe K b c + oe K c a ∈ circleB K n t := by
    intro a b c hab hbc hc h1 h2 h3
    rw [← triangle_boundary hab hbc]
    unfold circleB
    rw [boundariesOn_eq_span]
    refine Submodule.subset_span ⟨_, ⟨?_, ?_, ?_⟩, rfl⟩
    · intro x hx
      simp only [Finset.mem_insert, Finset.mem_singleton] at hx
      rw [Finset.mem_range]; omega
    · exact Finset.card_eq_three.2 ⟨a, b, c, by omega, by omega, by omega, rfl⟩
    · intro x hx y hy
      simp only [Finset.mem_insert, Finset.mem_singleton] at hx hy
      rcases hx with rfl | rfl | rfl <;> rcases hy with rfl | rfl | rfl <;>
        first | assumption | (rw [circleDist_self]; omega) | (rw [circleDist_comm]; assumption)
  have hba : circleDist n b a ≤ t := by rwa [circleDist_comm]
  have hcb : circleDist n c b ≤ t := by rwa [circleDist_comm]
  have hca : circleDist n c a ≤ t := by rwa [circleDist_comm]
  have ex : oe K b a = -oe K a b := oe_comm a b
  have ey : oe K c b = -oe K b c := oe_comm b c
  have ez : oe K a c = -oe K c a := oe_comm c a
  by_cases h1 : a = b
  · subst h1
    rw [oe_self, zero_add, ey, add_neg_cancel]; exact Submodule.zero_mem _
  by_cases h2 : b = c
  · subst h2
    rw [oe_self, add_zero, ex, add_neg_cancel]; exact Submodule.zero_mem _
  by_cases h3 : a = c
  · subst h3
    rw [oe_self, add_zero, ex, add_neg_cancel]; exact Submodule.zero_mem _
  have cases6 : (a < b ∧ b < c) ∨ (b < c ∧ c < a) ∨ (c < a ∧ a < b) ∨ (a < c ∧ c < b) ∨ (c < b ∧ b < a) ∨ (b < a ∧ a < c) := by omega
  rcases cases6 with ⟨g, h⟩ | ⟨g, h⟩ | ⟨g, h⟩ | ⟨g, h⟩ | ⟨g, h⟩ | ⟨g, h⟩
  · exact sorted a b c g h hc hab hbc hac
  · have := sorted b c a g h ha hbc hca hba
    convert this using 1; abel
  · have := sorted c a b g h hb hca hab hcb
    convert this using 1; abel
  · have := Submodule.neg_mem _ (sorted a c b g h hb hac hcb hab)
    rw [ex, ey, ez] at this
    convert this using 1; abel
  · have := Submodule.neg_mem _ (sorted c b a g h ha hcb hba hca)
    rw [ex, ey, ez] at this
    convert this using 1; abel
  · have := Submodule.neg_mem _ (sorted b a c g h hc hba hac hbc)
    rw [ex, ey, ez] at this
    convert this using 1; abel

/-- The step from `i` to `i + 1` on the circle. -/
noncomputable def step (K : Type) [Field K] (n i : ℕ) : Finset ℕ →₀ K := oe K (i % n) ((i + 1) % n)

/-- An edge is homologous to the arc of length at most `t` between its ends. -/
theorem arc_homologous (hn : 1 ≤ n) {t : ℕ} (i k : ℕ) (hk : k ≤ t) :
    oe K (i % n) ((i + k) % n) - ∑ m ∈ Finset.range k, step K n (i + m) ∈ circleB K n t := by
  induction k with
  | zero => simp [oe_self]
  | succ k ih =>
    rw [Finset.sum_range_succ]
    have h1 := ih (by omega)
    have h2 : oe K (i % n) ((i + k) % n) + oe K ((i + k) % n) ((i + k + 1) % n) + oe K ((i + k + 1) % n) (i % n) ∈ circleB K n t :=
      mem_circleB (Nat.mod_lt _ hn) (Nat.mod_lt _ hn) (Nat.mod_lt _ hn) ((circleDist_le hn i k).trans (by omega)) ((circleDist_le hn (i + k) 1).trans (by omega))
        ((circleDist_le hn i (k + 1)).trans hk)
    have h3 := Submodule.sub_mem _ h1 h2
    rw [oe_comm (i % n) ((i + k + 1) % n)] at h3
    convert h3 using 1
    unfold step
    rw [show i + (k + 1) = i + k + 1 by omega]
    abel

/-- The span of the steps. -/
noncomputable def stepSpan (K : Type) [Field K] (n : ℕ) : Submodule K (Finset ℕ →₀ K) := Submodule.span K (step K n '' {i | i < n})

theorem step_mod (i : ℕ) : step K n (i % n) = step K n i := by
  unfold step
  rw [Nat.mod_mod, Nat.mod_add_mod]

theorem step_mem (hn : 1 ≤ n) (i : ℕ) : step K n i ∈ stepSpan K n := by
  rw [← step_mod]
  exact Submodule.subset_span ⟨_, Nat.mod_lt _ hn, rfl⟩

/-- Every 1-chain at scale `s` is a combination of steps and of boundaries. -/
theorem edges_homologous (hn : 1 ≤ n) (s : ℕ) : supported K K (vietorisRips n (circleDist n) 1 s) ≤ stepSpan K n ⊔ circleB K n s := by
  rw [Finsupp.supported_eq_span_single, Submodule.span_le]
  rintro _ ⟨σ, ⟨h1, h2, h3⟩, rfl⟩
  obtain ⟨a, b, hab, rfl⟩ : ∃ a b, a < b ∧ σ = {a, b} := by
    obtain ⟨a, b, hne, rfl⟩ := Finset.card_eq_two.1 h2
    rcases Nat.lt_or_gt_of_ne hne with h | h
    · exact ⟨a, b, h, rfl⟩
    · exact ⟨b, a, h, Finset.pair_comm _ _⟩
  have hb : b < n := by simpa using h1 (by simp : b ∈ ({a, b} : Finset ℕ))
  have hd := h3 a (by simp) b (by simp)
  rw [circleDist_lt hab hb] at hd
  have hsum : ∀ i k, ∑ m ∈ Finset.range k, step K n (i + m) ∈ stepSpan K n ⊔ circleB K n s := fun i k =>
    Submodule.sum_mem _ fun m _ => Submodule.mem_sup_left (step_mem hn _)
  have he : (single {a, b} 1 : Finset ℕ →₀ K) = oe K a b := by unfold oe; rw [if_pos hab]
  show (single {a, b} 1 : Finset ℕ →₀ K) ∈ _
  rw [he]
  rcases min_le_iff.1 hd with hd | hd
  · have := arc_homologous (K := K) hn a (b - a) hd
    rw [show a + (b - a) = b by omega, Nat.mod_eq_of_lt hb, Nat.mod_eq_of_lt (by omega : a < n)] at this
    have := Submodule.add_mem _ (Submodule.mem_sup_right (S := stepSpan K n) this) (hsum a (b - a))
    rwa [sub_add_cancel] at this
  · have := arc_homologous (K := K) hn b (n - (b - a)) hd
    rw [show b + (n - (b - a)) = a + n by omega, Nat.add_mod_right, Nat.mod_eq_of_lt hb, Nat.mod_eq_of_lt (by omega : a < n)] at this
    have := Submodule.add_mem _ (Submodule.mem_sup_right (S := stepSpan K n) this) (hsum b (n - (b - a)))
    rw [sub_add_cancel, oe_comm] at this
    simpa using Submodule.neg_mem _ this

/-- The cycle around the circle. -/
noncomputable def aroundCycle (K : Type) [Field K] (n : ℕ) : Finset ℕ →₀ K := ∑ i ∈ Finset.range n, step K n i

theorem bdry_step (i : ℕ) : bdry (simplexBoundary K) (step K n i) = single {(i + 1) % n} 1 - single {i % n} 1 := bdry_oe _ _

theorem bdry_around : bdry (simplexBoundary K) (aroundCycle K n) = 0 := by
  unfold aroundCycle
  rw [map_sum]
  simp only [bdry_step]
  rw [Finset.sum_range_sub (fun i => (single {i % n} 1 : Finset ℕ →₀ K))]
  simp

/-- A combination of steps that is a cycle is a multiple of the cycle around the circle. -/
theorem step_cycle (hn : 1 ≤ n) {w : Finset ℕ →₀ K} (hw : w ∈ stepSpan K n) (hz : bdry (simplexBoundary K) w = 0) :
    ∃ c : K, w = c • aroundCycle K n := by
  obtain ⟨c, rfl⟩ : ∃ c : ℕ → K, w = ∑ i ∈ Finset.range n, c i • step K n i := by
    clear hz
    induction hw using Submodule.span_induction with
    | zero => exact ⟨fun _ => 0, by simp⟩
    | add x y _ _ hx hy =>
      obtain ⟨c, rfl⟩ := hx
      obtain ⟨c', rfl⟩ := hy
      exact ⟨fun i => c i + c' i, by rw [← Finset.sum_add_distrib]; exact Finset.sum_congr rfl fun i _ => (add_smul _ _ _).symm⟩
    | smul k x _ hx =>
      obtain ⟨c, rfl⟩ := hx
      exact ⟨fun i => k * c i, by rw [Finset.smul_sum]; exact Finset.sum_congr rfl fun i _ => (mul_smul _ _ _).symm⟩
    | mem x hx =>
      obtain ⟨i, hi, rfl⟩ := hx
      refine ⟨fun j => if j = i then 1 else 0, ?_⟩
      rw [Finset.sum_eq_single_of_mem i (by simpa using hi)]
      · simp
      · intro j _ hne; simp [hne]
  refine ⟨c 0, ?_⟩
  have hc : ∀ j, j < n → c j = c 0 := by
    intro j
    induction j with
    | zero => intro _; rfl
    | succ j ih =>
      intro hj
      rw [← ih (by omega)]
      have h := DFunLike.congr_fun hz ({j + 1} : Finset ℕ)
      rw [map_sum, Finsupp.finsetSum_apply] at h
      simp only [map_smul, bdry_step, Finsupp.smul_apply, Finsupp.sub_apply, smul_eq_mul, Finsupp.zero_apply] at h
      rw [Finset.sum_eq_add_of_mem j (j + 1) (by simp; omega) (by simp; omega) (by omega)] at h
      · rw [Nat.mod_eq_of_lt hj, Nat.mod_eq_of_lt (by omega : j < n)] at h
        have h5 : (j + 1 + 1) % n ≠ j + 1 := by
          by_cases e : j + 1 + 1 = n
          · rw [e, Nat.mod_self]; omega
          · rw [Nat.mod_eq_of_lt (by omega)]; omega
        simp [Finsupp.single_apply, h5] at h
        exact (add_neg_eq_zero.1 h).symm
      · intro i hi hne
        have hi : i < n := by simpa using hi
        have h6 : (i + 1) % n ≠ j + 1 := by
          by_cases e : i + 1 = n
          · rw [e, Nat.mod_self]; omega
          · rw [Nat.mod_eq_of_lt (by omega)]; omega
        rw [Nat.mod_eq_of_lt hi]
        simp [Finsupp.single_apply, h6, hne.2]
  unfold aroundCycle
  rw [Finset.smul_sum]
  exact Finset.sum_congr rfl fun i hi => by rw [hc i (by simpa using hi)]

theorem bdry_simplexBoundary (c : Finset ℕ →₀ K) : bdry (simplexBoundary K) (bdry (simplexBoundary K) c) = 0 := by
  unfold bdry
  induction c using Finsupp.induction_linear with
  | zero => simp
  | add x y hx hy => rw [map_add, map_add, hx, hy, add_zero]
  | single σ k => rw [linearCombination_single, map_smul, simplexBoundary_sq, smul_zero]

theorem circle_cycles (hn : 1 ≤ n) (s : ℕ) : cyclesOn (simplexBoundary K) (vietorisRips n (circleDist n) 1 s) ≤ Submodule.span K {aroundCycle K n} ⊔ circleB K n s := by
  rintro z ⟨hz1, hz2⟩
  obtain ⟨w, hw, b, hb, rfl⟩ := Submodule.mem_sup.1 (edges_homologous hn s hz1)
  have hb0 : bdry (simplexBoundary K) b = 0 := by
    obtain ⟨c, -, rfl⟩ := hb
    exact bdry_simplexBoundary c
  have hw0 : bdry (simplexBoundary K) w = 0 := by
    have := LinearMap.mem_ker.1 hz2
    rwa [map_add, hb0, add_zero] at this
  obtain ⟨c, rfl⟩ := step_cycle hn hw hw0
  exact Submodule.add_mem_sup (Submodule.smul_mem _ _ (Submodule.mem_span_singleton_self _)) hb

theorem around_mem (hn : 1 ≤ n) {s : ℕ} (hs : 1 ≤ s) : aroundCycle K n ∈ cyclesOn (simplexBoundary K) (vietorisRips n (circleDist n) 1 s) := by
  refine ⟨?_, bdry_around⟩
  refine Submodule.sum_mem _ fun i hi => ?_
  have hi : i < n := by simpa using hi
  have hd := (circleDist_le hn i 1).trans hs
  have hsup : ∀ a b, a < b → b < n → circleDist n a b ≤ s → (single {a, b} 1 : Finset ℕ →₀ K) ∈ supported K K (vietorisRips n (circleDist n) 1 s) := by
    intro a b hab hb h
    refine Finsupp.single_mem_supported K _ ⟨?_, Finset.card_pair hab.ne, ?_⟩
    · intro x hx
      simp only [Finset.mem_insert, Finset.mem_singleton] at hx
      rw [Finset.mem_range]; omega
    · intro x hx y hy
      simp only [Finset.mem_insert, Finset.mem_singleton] at hx hy
      rcases hx with rfl | rfl <;> rcases hy with rfl | rfl <;>
        first | assumption | (rw [circleDist_self]; omega) | (rw [circleDist_comm]; assumption)
  unfold step oe
  have hm := Nat.mod_lt (i + 1) hn
  have hm' := Nat.mod_lt i hn
  split
  · exact hsup _ _ (by assumption) hm hd
  · split
    · exact Submodule.neg_mem _ (hsup _ _ (by assumption) hm' (by rwa [circleDist_comm]))
    · exact Submodule.zero_mem _

/-- From a third of the circle on, the cycle is a boundary. -/
theorem around_boundary (hn : 1 ≤ n) {t : ℕ} (ht : n ≤ 3 * t) : aroundCycle K n ∈ circleB K n t := by
  have h1 := arc_homologous (K := K) hn 0 (n / 3) (by omega : n / 3 ≤ t)
  have h2 := arc_homologous (K := K) hn (n / 3) (2 * n / 3 - n / 3) (by omega : _ ≤ t)
  have h3 := arc_homologous (K := K) hn (2 * n / 3) (n - 2 * n / 3) (by omega : _ ≤ t)
  have e2 : n / 3 + (2 * n / 3 - n / 3) = 2 * n / 3 := by omega
  have e3 : 2 * n / 3 + (n - 2 * n / 3) = n := by omega
  have d1 := (circleDist_le hn 0 (n / 3)).trans (by omega : n / 3 ≤ t)
  have d2 := (circleDist_le hn (n / 3) (2 * n / 3 - n / 3)).trans (by omega : _ ≤ t)
  have d3 := (circleDist_le hn (2 * n / 3) (n - 2 * n / 3)).trans (by omega : _ ≤ t)
  rw [e2] at h2 d2
  rw [e3, Nat.mod_self] at h3 d3
  rw [zero_add, Nat.zero_mod] at h1 d1
  rw [circleDist_comm] at d3
  have h4 := mem_circleB (K := K) hn (Nat.mod_lt _ hn) (Nat.mod_lt _ hn) d1 d2 d3
  have h5 := Submodule.sub_mem _ (Submodule.sub_mem _ (Submodule.sub_mem _ h4 h1) h2) h3
  convert h5 using 1
  have e4 : aroundCycle K n = ∑ m ∈ Finset.range (n / 3), step K n (0 + m) + ∑ m ∈ Finset.range (2 * n / 3 - n / 3), step K n (n / 3 + m) +
      ∑ m ∈ Finset.range (n - 2 * n / 3), step K n (2 * n / 3 + m) := by
    unfold aroundCycle
    simp only [zero_add]
    rw [← Finset.sum_range_add, e2, ← Finset.sum_range_add, e3]
  rw [e4]
  abel

/-- How often an edge passes the end of the circle. -/
noncomputable def passes (K : Type) [Field K] (n : ℕ) (σ : Finset ℕ) : K :=
  open Classical in if ∃ a b, a < b ∧ σ = {a, b} ∧ n < 2 * (b - a) then -1 else 0

theorem passes_pair {a b : ℕ} (h : a < b) : passes K n {a, b} = if n < 2 * (b - a) then -1 else 0 := by
  unfold passes
  congr 1
  apply propext
  constructor
  · rintro ⟨x, y, hxy, e, hlt⟩
    have hx : x ∈ ({a, b} : Finset ℕ) := by rw [e]; simp
    have hy : y ∈ ({a, b} : Finset ℕ) := by rw [e]; simp
    simp only [Finset.mem_insert, Finset.mem_singleton] at hx hy
    omega
  · intro hlt; exact ⟨a, b, h, rfl, hlt⟩

theorem passes_oe (a b : ℕ) : linearCombination K (passes K n) (oe K a b) = if a < b then (if n < 2 * (b - a) then -1 else 0) else if n < 2 * (a - b) then 1 else 0 := by
  unfold oe
  rcases lt_trichotomy a b with h | h | h
  · rw [if_pos h, if_pos h, linearCombination_single, one_smul, passes_pair h]
  · subst h; simp
  · rw [if_neg (by omega), if_pos h, if_neg (by omega), map_neg, linearCombination_single, one_smul, passes_pair h]
    split <;> simp

/-- Below a third of the circle, boundaries do not go around the circle. -/
theorem passes_boundary {t : ℕ} (ht : 3 * t < n) {z : Finset ℕ →₀ K} (hz : z ∈ circleB K n t) : linearCombination K (passes K n) z = 0 := by
  unfold circleB at hz
  rw [boundariesOn_eq_span] at hz
  induction hz using Submodule.span_induction with
  | zero => simp
  | add x y _ _ hx hy => rw [map_add, hx, hy, add_zero]
  | smul k x _ hx => rw [map_smul, hx, smul_zero]
  | mem x hx =>
    obtain ⟨σ, ⟨h1, h2, h3⟩, rfl⟩ := hx
    obtain ⟨a, b, c, hab, hbc, rfl⟩ : ∃ a b c, a < b ∧ b < c ∧ σ = {a, b, c} := by
      have hl := Finset.length_sort (s := σ) (· ≤ ·)
      rw [h2] at hl
      obtain ⟨a, b, c, e⟩ := List.length_eq_three.1 hl
      have hs := Finset.sortedLT_sort σ
      rw [e] at hs
      have hp := hs.pairwise
      simp at hp
      refine ⟨a, b, c, hp.1.1, hp.2, ?_⟩
      rw [← Finset.sort_toFinset (r := (· ≤ ·)) σ, e]; simp
    have hc : c < n := by simpa using h1 (by simp : c ∈ ({a, b, c} : Finset ℕ))
    have d1 := h3 a (by simp) b (by simp)
    have d2 := h3 b (by simp) c (by simp)
    have d3 := h3 a (by simp) c (by simp)
    rw [circleDist_lt hab (by omega)] at d1
    rw [circleDist_lt hbc hc] at d2
    rw [circleDist_lt (by omega) hc] at d3
    rw [triangle_boundary hab hbc, map_add, map_add, passes_oe, passes_oe, passes_oe, if_pos hab, if_pos hbc, if_neg (by omega : ¬ c < a)]
    split <;> split <;> split <;> first | (exfalso; omega) | simp

theorem passes_around (hn : 3 ≤ n) : linearCombination K (passes K n) (aroundCycle K n) = 1 := by
  unfold aroundCycle
  rw [map_sum, Finset.sum_eq_single_of_mem (n - 1) (by simp; omega)]
  · unfold step
    rw [show n - 1 + 1 = n by omega, Nat.mod_self, Nat.mod_eq_of_lt (by omega : n - 1 < n), passes_oe, if_neg (by omega), if_pos (by omega)]
  · intro i hi hne
    have hi : i < n := by simpa using hi
    unfold step
    rw [Nat.mod_eq_of_lt hi, Nat.mod_eq_of_lt (by omega : i + 1 < n), passes_oe, if_pos (by omega), if_neg (by omega)]

/-- The rank of a map between quotients if its source is spanned by one element. -/
theorem finrank_range_one {W : Type} [AddCommGroup W] [Module K W] {Z Z' B B' : Submodule K W} (hZ : Z ≤ Z') (hB : B ≤ B') {g : W} (hg : g ∈ Z)
    (h : Z ≤ Submodule.span K {g} ⊔ B) (hn : g ∉ B') : Module.finrank K (LinearMap.range (quotByMap hZ hB)) = 1 := by
  set q : QuotBy Z' B' := Submodule.Quotient.mk (⟨g, hZ hg⟩ : Z') with hq
  have hr : LinearMap.range (quotByMap hZ hB) = Submodule.span K {q} := by
    apply le_antisymm
    · rintro _ ⟨x, rfl⟩
      obtain ⟨⟨w, hw⟩, rfl⟩ := Submodule.mkQ_surjective _ x
      obtain ⟨a, ha, b, hb, e⟩ := Submodule.mem_sup.1 (h hw)
      obtain ⟨c, rfl⟩ := Submodule.mem_span_singleton.1 ha
      refine Submodule.mem_span_singleton.2 ⟨c, ?_⟩
      show c • Submodule.mkQ _ (⟨g, hZ hg⟩ : Z') = Submodule.mkQ _ (Submodule.inclusion hZ ⟨w, hw⟩)
      rw [← map_smul, ← sub_eq_zero, ← map_sub, Submodule.mkQ_apply, Submodule.Quotient.mk_eq_zero, Submodule.mem_comap]
      show c • g - w ∈ B'
      rw [← e, sub_add_cancel_left]
      exact Submodule.neg_mem _ (hB hb)
    · rw [Submodule.span_singleton_le_iff_mem]
      exact ⟨Submodule.Quotient.mk ⟨g, hg⟩, rfl⟩
  rw [hr]
  apply finrank_span_singleton
  rw [hq, Ne, Submodule.Quotient.mk_eq_zero, Submodule.mem_comap]
  exact hn

/-- The barcode of the circle in degree 1: one interval from 1 to a third of the circle. -/
theorem circle_barcode_one (hn : 1 ≤ n) :
    IsRipsBarcode K n (circleDist n) 1 (if 4 ≤ n then {(1, WithTop.some ((n + 2) / 3))} else 0) := by
  have hsmall : ∀ s t, (h : s ≤ t) → s = 0 → persistentBetti (simplexBoundary K) (vietorisRips_mono n (circleDist n) 1 h) (vietorisRips_mono n (circleDist n) 2 h) = 0 := by
    intro s t hst h0
    refine betti_empty _ _ ?_
    subst h0
    rw [Set.eq_empty_iff_forall_notMem]
    rintro σ ⟨h1, h2, h3⟩
    obtain ⟨a, b, hne, rfl⟩ := Finset.card_eq_two.1 h2
    have ha : a < n := by simpa using h1 (by simp : a ∈ ({a, b} : Finset ℕ))
    have hb : b < n := by simpa using h1 (by simp : b ∈ ({a, b} : Finset ℕ))
    have := h3 a (by simp) b (by simp)
    rcases Nat.lt_or_gt_of_ne hne with h | h
    · rw [circleDist_lt h hb] at this; omega
    · rw [circleDist_comm, circleDist_lt h ha] at this; omega
  have hlarge : ∀ s t, (h : s ≤ t) → n ≤ 3 * t → persistentBetti (simplexBoundary K) (vietorisRips_mono n (circleDist n) 1 h) (vietorisRips_mono n (circleDist n) 2 h) = 0 := by
    intro s t h ht
    refine finrank_range_eq_zero _ _ ((circle_cycles hn t).trans (sup_le ?_ le_rfl))
    rw [Submodule.span_singleton_le_iff_mem]
    exact around_boundary hn ht
  have hmid : ∀ s t, (h : s ≤ t) → 1 ≤ s → 3 * t < n →
      persistentBetti (simplexBoundary K) (vietorisRips_mono n (circleDist n) 1 h) (vietorisRips_mono n (circleDist n) 2 h) = 1 := by
    intro s t h hs ht
    refine finrank_range_one _ _ (around_mem hn hs) (circle_cycles hn s) ?_
    intro hm
    have := passes_boundary ht hm
    rw [passes_around (by omega)] at this
    exact one_ne_zero this
  split
  · refine ⟨?_, ?_⟩
    · intro b hb
      rw [Multiset.mem_singleton.1 hb]
      show WithTop.some 1 < WithTop.some ((n + 2) / 3)
      exact WithTop.coe_lt_coe.2 (by omega : 1 < (n + 2) / 3)
    · intro s t hst
      unfold aliveBars
      rw [← Multiset.cons_zero, Multiset.countP_cons, Multiset.countP_zero, zero_add]
      show (if 1 ≤ s ∧ WithTop.some t < WithTop.some ((n + 2) / 3) then 1 else 0) =
        persistentBetti (simplexBoundary K) (vietorisRips_mono n (circleDist n) 1 hst) (vietorisRips_mono n (circleDist n) 2 hst)
      by_cases h1 : 1 ≤ s
      · by_cases h2 : 3 * t < n
        · rw [if_pos ⟨h1, WithTop.coe_lt_coe.2 (by omega : t < (n + 2) / 3)⟩, hmid s t hst h1 h2]
        · rw [if_neg, hlarge s t hst (by omega)]
          rintro ⟨_, h⟩
          have : t < (n + 2) / 3 := WithTop.coe_lt_coe.1 h
          omega
      · rw [if_neg (fun h => h1 h.1), hsmall s t hst (by omega)]
  · refine ⟨fun b hb => absurd hb (Multiset.notMem_zero _), ?_⟩
    intro s t hst
    show 0 = persistentBetti (simplexBoundary K) (vietorisRips_mono n (circleDist n) 1 hst) (vietorisRips_mono n (circleDist n) 2 hst)
    by_cases h1 : 1 ≤ s
    · rw [hlarge s t hst (by omega)]
    · rw [hsmall s t hst (by omega)]

/-- Without edges every vertex is a component. -/
theorem componentCount_discrete {n : ℕ} {R : ℕ → ℕ → Prop} (h : ∀ a < n, ∀ b < n, a ≠ b → ¬ R a b) : componentCount n R = n := by
  unfold componentCount
  have e : (SimpleGraph.fromRel fun a b : Fin n => R a b) = ⊥ := by
    ext a b
    rw [SimpleGraph.fromRel_adj, SimpleGraph.bot_adj, iff_false]
    rintro ⟨hne, h1 | h1⟩
    · exact h a a.2 b b.2 (fun e => hne (Fin.ext e)) h1
    · exact h b b.2 a a.2 (fun e => hne (Fin.ext e).symm) h1
  rw [e]
  have : Function.Bijective (SimpleGraph.connectedComponentMk (⊥ : SimpleGraph (Fin n))) := by
    constructor
    · intro a b hab
      rw [SimpleGraph.ConnectedComponent.eq] at hab
      exact SimpleGraph.reachable_bot.1 hab
    · intro c
      induction c using Quot.ind with | mk x => exact ⟨x, rfl⟩
  rw [← Nat.card_congr (Equiv.ofBijective _ this)]
  simp

theorem circle_connected (hn : 1 ≤ n) {t : ℕ} (ht : 1 ≤ t) : componentCount n (fun a b => circleDist n a b ≤ t) = 1 := by
  rw [componentCount_congr (R' := fun _ _ => True) (fun _ _ _ _ _ => trivial), componentCount_complete hn fun _ _ _ _ _ => trivial]
  have key : ∀ b, b < n → Relation.EqvGen (fun x y => x < n ∧ y < n ∧ circleDist n x y ≤ t) 0 b := by
    intro b
    induction b with
    | zero => intro _; exact Relation.EqvGen.refl _
    | succ b ih =>
      intro hb
      refine Relation.EqvGen.trans _ _ _ (ih (by omega)) (Relation.EqvGen.rel _ _ ⟨by omega, hb, ?_⟩)
      rw [circleDist_lt (by omega) hb]; omega
  intro a b ha hb _
  exact Relation.EqvGen.trans _ _ _ (Relation.EqvGen.symm _ _ (key a ha)) (key b hb)

/-- The barcode of the circle in degree 0. -/
theorem circle_barcode_zero (hn : 1 ≤ n) :
    IsRipsBarcode K n (circleDist n) 0 (Multiset.replicate (n - 1) (0, WithTop.some 1) + {(0, ⊤)}) := by
  refine ⟨?_, ?_⟩
  · intro b hb
    rcases Multiset.mem_add.1 hb with hb | hb
    · rw [Multiset.eq_of_mem_replicate hb]
      show WithTop.some 0 < WithTop.some 1
      exact WithTop.coe_lt_coe.2 Nat.one_pos
    · rw [Multiset.mem_singleton.1 hb]; exact WithTop.coe_lt_top 0
  · intro s t hst
    show _ = persistentBetti (simplexBoundary K) (vietorisRips_mono n (circleDist n) 0 hst) (vietorisRips_mono n (circleDist n) 1 hst)
    rw [rips_components (fun i _ => circleDist_self n i) (fun i _ j _ => circleDist_comm n i j) (Nat.zero_le s) hst]
    unfold aliveBars
    rw [Multiset.countP_add, ← Multiset.cons_zero, Multiset.countP_cons, Multiset.countP_zero, zero_add, if_pos ⟨Nat.zero_le s, WithTop.coe_lt_top t⟩]
    rcases Nat.eq_zero_or_pos t with rfl | ht
    · rw [componentCount_discrete]
      · rw [Multiset.countP_eq_card.2, Multiset.card_replicate]
        · omega
        · intro b hb
          rw [Multiset.eq_of_mem_replicate hb]
          exact ⟨Nat.zero_le s, WithTop.coe_lt_coe.2 Nat.one_pos⟩
      · intro a ha b hb hne h
        rcases Nat.lt_or_gt_of_ne hne with h' | h'
        · rw [circleDist_lt h' hb] at h; omega
        · rw [circleDist_comm, circleDist_lt h' ha] at h; omega
    · rw [circle_connected hn ht, Multiset.countP_eq_zero.2]
      intro b hb
      rw [Multiset.eq_of_mem_replicate hb]
      rintro ⟨_, h⟩
      have : t < 1 := WithTop.coe_lt_coe.1 h
      omega

end
end Phlite
