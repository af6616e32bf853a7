/-
The directed cycle: its walks, its shortest path filtration and its grounded path homology.
-/
import Verif.Theory.Digraph
import Mathlib.Data.Nat.ModEq

set_option linter.unusedSectionVars false
set_option linter.unusedSimpArgs false

namespace Phlite
open Finsupp (single linearCombination linearCombination_single supported)

section
variable {F : Type} [LinearOrder F] [Zero F] [OrderTop F]

/-- The directed cycle `0 → 1 → ... → N - 1 → 0` with all weights `w`. -/
def cycleEdges (N : ℕ) (w : F) : List (ℕ × ℕ × F) := (List.range N).map fun i => (i, (i + 1) % N, w)

/-- The length of a walk with `k` edges. -/
def cycleLength (add : F → F → F) (w : F) (k : ℕ) : F := (fun x => add x w)^[k] 0

/-- The number of edges from `i` to `j`. -/
def cycleDist (N i j : ℕ) : ℕ := if i ≤ j then j - i else j + N - i

variable {add : F → F → F} {N : ℕ} {w : F} {sp : ℕ → ℕ → Option F}

theorem mem_cycleEdges {a b : ℕ} {x : F} : (a, b, x) ∈ cycleEdges N w ↔ a < N ∧ b = (a + 1) % N ∧ x = w := by
  unfold cycleEdges
  rw [List.mem_map]
  constructor
  · rintro ⟨i, hi, e⟩
    rw [List.mem_range] at hi
    simp only [Prod.mk.injEq] at e
    obtain ⟨rfl, rfl, rfl⟩ := e
    exact ⟨hi, rfl, rfl⟩
  · rintro ⟨h, rfl, rfl⟩
    exact ⟨a, List.mem_range.2 h, rfl⟩

theorem cycleLength_succ (k : ℕ) : cycleLength add w (k + 1) = add (cycleLength add w k) w := by
  rw [cycleLength, Function.iterate_succ_apply']; rfl

theorem cycleLength_mono (hadd : IsLengthAddition add) (hw : 0 ≤ w) {k l : ℕ} (h : k ≤ l) : cycleLength add w k ≤ cycleLength add w l := by
  induction h with
  | refl => exact le_rfl
  | step _ ih => exact ih.trans (by rw [Nat.succ_eq_add_one, cycleLength_succ]; exact hadd.le_add_right _ _ hw)

theorem cycle_walk {i j : ℕ} {x : F} (hi : i < N) (h : IsWalk add (cycleEdges N w) i j x) : ∃ m, j = (i + m) % N ∧ x = cycleLength add w m := by
  induction h with
  | nil => exact ⟨0, by rw [Nat.add_zero, Nat.mod_eq_of_lt hi], rfl⟩
  | snoc _ he _ ih =>
    obtain ⟨m, rfl, rfl⟩ := ih
    obtain ⟨_, rfl, rfl⟩ := mem_cycleEdges.1 he
    exact ⟨m + 1, by rw [Nat.mod_add_mod, Nat.add_assoc], (cycleLength_succ m).symm⟩

theorem walk_cycle (hw : w < ⊤) {i : ℕ} (hi : i < N) (m : ℕ) : IsWalk add (cycleEdges N w) i ((i + m) % N) (cycleLength add w m) := by
  induction m with
  | zero =>
    rw [Nat.add_zero, Nat.mod_eq_of_lt hi]; exact IsWalk.nil
  | succ m ih =>
    rw [cycleLength_succ]
    refine IsWalk.snoc ih (mem_cycleEdges.2 ⟨Nat.mod_lt _ (by omega), ?_, rfl⟩) hw
    rw [Nat.mod_add_mod, Nat.add_assoc]

theorem cycleDist_lt {i j : ℕ} (hi : i < N) (hj : j < N) : cycleDist N i j < N := by unfold cycleDist; split <;> omega

theorem cycleDist_add {i j : ℕ} (hi : i < N) (hj : j < N) : (i + cycleDist N i j) % N = j := by
  unfold cycleDist
  split
  · rw [Nat.add_sub_cancel' (by assumption), Nat.mod_eq_of_lt hj]
  · rw [show i + (j + N - i) = j + N by omega, Nat.add_mod_right, Nat.mod_eq_of_lt hj]

theorem cycleDist_le {i j m : ℕ} (hi : i < N) (hj : j < N) (h : j = (i + m) % N) : cycleDist N i j ≤ m := by
  have h1 : (i + cycleDist N i j) ≡ i + m [MOD N] := by
    show (i + cycleDist N i j) % N = (i + m) % N
    rw [cycleDist_add hi hj, h]
  have h2 : cycleDist N i j % N = m % N := Nat.ModEq.add_left_cancel' i h1
  rw [Nat.mod_eq_of_lt (cycleDist_lt hi hj)] at h2
  rw [h2]
  exact Nat.mod_le _ _

theorem cycle_sp (hadd : IsLengthAddition add) (hw : 0 ≤ w) (hw' : w < ⊤) (hsp : IsShortestPaths add (cycleEdges N w) sp) {i j : ℕ} (hi : i < N) (hj : j < N) :
    sp i j = some (cycleLength add w (cycleDist N i j)) := by
  have h1 := walk_cycle (add := add) hw' hi (cycleDist N i j)
  rw [cycleDist_add hi hj] at h1
  obtain ⟨y, hy⟩ := hsp.reach i j _ h1
  have h2 := hsp.least i j y hy
  obtain ⟨m, hm, rfl⟩ := cycle_walk hi h2.1
  rw [hy]
  congr 1
  exact le_antisymm (h2.2 h1) (cycleLength_mono hadd hw (cycleDist_le hi hj hm))

theorem cycle_arrows (hadd : IsLengthAddition add) (hw : 0 ≤ w) (hw' : w < ⊤) (hsp : IsShortestPaths add (cycleEdges N w) sp) {i j : ℕ} {t : F} :
    (i, j) ∈ arrows N (spTime sp) t ↔ i < N ∧ j < N ∧ i ≠ j ∧ cycleLength add w (cycleDist N i j) ≤ t := by
  constructor
  · rintro ⟨hi, hj, x, hx, hxt⟩
    simp only at hi hj
    simp only [spTime] at hx
    split at hx
    · cases hx
    · rename_i hij
      rw [cycle_sp hadd hw hw' hsp hi hj] at hx
      cases hx
      exact ⟨hi, hj, hij, hxt⟩
  · rintro ⟨hi, hj, hij, h⟩
    exact ⟨hi, hj, _, by simp only [spTime, if_neg hij]; exact cycle_sp hadd hw hw' hsp hi hj, h⟩

theorem mem_edgeSet_cycle {a b : ℕ} : (a, b) ∈ edgeSet (cycleEdges N w) ↔ a < N ∧ b = (a + 1) % N := by
  constructor
  · rintro ⟨x, hx⟩
    have := mem_cycleEdges.1 hx
    exact ⟨this.1, this.2.1⟩
  · rintro ⟨h1, h2⟩; exact ⟨w, mem_cycleEdges.2 ⟨h1, h2, rfl⟩⟩

variable {K : Type} [Field K]

/-- The cycle as a chain. -/
noncomputable def cycleChain (K : Type) [Field K] (N : ℕ) : ℕ × ℕ →₀ K := ∑ i ∈ Finset.range N, single (i, (i + 1) % N) 1

theorem cycleChain_cycle (hN : 1 ≤ N) : linearCombination K (arrowBoundary K) (cycleChain K N) = 0 := by
  unfold cycleChain
  rw [map_sum]
  simp only [linearCombination_single, one_smul, arrowBoundary]
  rw [Finset.sum_sub_distrib, sub_eq_zero]
  obtain ⟨M, rfl⟩ : ∃ M, N = M + 1 := ⟨N - 1, by omega⟩
  rw [Finset.sum_range_succ, Nat.mod_self, Finset.sum_range_succ']
  congr 1
  refine Finset.sum_congr rfl fun i hi => ?_
  rw [Finset.mem_range] at hi
  rw [Nat.mod_eq_of_lt (by omega)]

theorem cycleChain_supported : cycleChain K N ∈ supported K K (edgeSet (cycleEdges N w)) :=
  Submodule.sum_mem _ fun i hi => Finsupp.single_mem_supported K _ (mem_edgeSet_cycle.2 ⟨Finset.mem_range.1 hi, rfl⟩)

theorem cycleChain_apply {a b : ℕ} : cycleChain K N (a, b) = if a < N ∧ b = (a + 1) % N then 1 else 0 := by
  classical
  unfold cycleChain
  rw [Finsupp.finsetSum_apply]
  split
  · rename_i h
    rw [Finset.sum_eq_single a]
    · rw [h.2, Finsupp.single_eq_same]
    · intro i _ hia
      rw [Finsupp.single_eq_of_ne]
      intro e; exact hia (Prod.mk.inj e).1.symm
    · intro h'; exact absurd (Finset.mem_range.2 h.1) h'
  · rename_i h
    refine Finset.sum_eq_zero fun i hi => ?_
    rw [Finsupp.single_eq_of_ne]
    intro e
    obtain ⟨rfl, rfl⟩ := Prod.mk.inj e
    exact h ⟨Finset.mem_range.1 hi, rfl⟩

/-- The number of times a chain crosses from `N - 1` to `0`. -/
noncomputable def crossing (K : Type) [Field K] : (ℕ × ℕ →₀ K) →ₗ[K] K := linearCombination K fun e => if e.2 < e.1 then 1 else 0

theorem crossing_single (a b : ℕ) : crossing K (single (a, b) 1) = if b < a then 1 else 0 := by
  unfold crossing
  rw [linearCombination_single, one_smul]

theorem crossing_cycle (hN : 2 ≤ N) : crossing K (cycleChain K N) = 1 := by
  unfold cycleChain
  rw [map_sum]
  obtain ⟨M, rfl⟩ : ∃ M, N = M + 1 := ⟨N - 1, by omega⟩
  rw [Finset.sum_range_succ, Nat.mod_self, crossing_single, if_pos (by omega), Finset.sum_eq_zero, zero_add]
  intro i hi
  rw [Finset.mem_range] at hi
  rw [crossing_single, Nat.mod_eq_of_lt (by omega), if_neg (by omega)]

theorem crossing_path {a b c : ℕ} (ha : a < N) (hb : b < N) (hc : c < N) (hab : a ≠ b) (hbc : b ≠ c) (h : cycleDist N a b + cycleDist N b c < N) :
    crossing K (twoPathBoundary K (a, b, c)) = 0 := by
  have hac : a ≠ c := by
    rintro rfl
    unfold cycleDist at h
    split at h <;> split at h <;> omega
  unfold twoPathBoundary
  simp only [if_neg hac]
  rw [map_add, map_sub, crossing_single, crossing_single, crossing_single]
  unfold cycleDist at h
  by_cases h1 : a < b <;> by_cases h2 : b < c <;> by_cases h3 : a < c
  · rw [if_neg (by omega), if_neg (by omega), if_neg (by omega)]; simp
  · omega
  · rw [if_pos (by omega), if_neg (by omega)]
    rw [if_pos (by omega), if_neg (by omega)] at h
    omega
  · rw [if_pos (by omega), if_pos (by omega), if_neg (by omega)]; simp
  · rw [if_neg (by omega), if_pos (by omega)] at h
    omega
  · rw [if_neg (by omega), if_pos (by omega), if_pos (by omega)]; simp
  · omega
  · rw [if_neg (by omega), if_neg (by omega)] at h
    omega

/-- The cycle is not a boundary while arrows span less than half of it. -/
theorem cycle_alive (hadd : IsLengthAddition add) (hw : 0 ≤ w) (hw' : w < ⊤) (hsp : IsShortestPaths add (cycleEdges N w) sp) (hN : 2 ≤ N) {t : F}
    (ht : t < cycleLength add w ((N + 1) / 2)) : cycleChain K N ∉ groundedB1 K N (spTime sp) t := by
  rintro ⟨x, ⟨hx, _⟩, hxz⟩
  have hlt : ∀ {i j}, (i, j) ∈ arrows N (spTime sp) t → i < N ∧ j < N ∧ i ≠ j ∧ cycleDist N i j < (N + 1) / 2 := by
    intro i j h
    obtain ⟨h1, h2, h3, h4⟩ := (cycle_arrows hadd hw hw' hsp).1 h
    refine ⟨h1, h2, h3, ?_⟩
    by_contra hle
    exact absurd (h4.trans_lt ht) (not_lt.2 (cycleLength_mono hadd hw (not_lt.1 hle)))
  have h1 : linearCombination K (fun p => crossing K (twoPathBoundary K p)) x ∈ (⊥ : Submodule K K) := by
    refine lc_mem_of_supported _ _ ?_ hx
    rintro ⟨a, b, c⟩ ⟨p1, p2⟩
    obtain ⟨q1, q2, q3, q4⟩ := hlt p1
    obtain ⟨_, r2, r3, r4⟩ := hlt p2
    rw [Submodule.mem_bot]
    exact crossing_path q1 q2 r2 q3 r3 (by simp only at q4 r4; omega)
  have h2 : linearCombination K (fun p => crossing K (twoPathBoundary K p)) = crossing K ∘ₗ linearCombination K (twoPathBoundary K) := by
    refine Finsupp.lhom_ext fun p k => ?_
    rw [linearCombination_single, LinearMap.comp_apply, linearCombination_single, map_smul]
  rw [h2, LinearMap.comp_apply, hxz, crossing_cycle hN, Submodule.mem_bot] at h1
  exact one_ne_zero h1

/-- The cycle is a boundary once arrows span half of it. -/
theorem cycle_dead (hadd : IsLengthAddition add) (hw : 0 ≤ w) (hw' : w < ⊤) (hsp : IsShortestPaths add (cycleEdges N w) sp) (hN : 2 ≤ N) {t : F}
    (ht : cycleLength add w ((N + 1) / 2) ≤ t) :
    supported K K (edgeSet (cycleEdges N w)) ⊓ LinearMap.ker (linearCombination K (arrowBoundary K)) ≤ groundedB1 K N (spTime sp) t := by
  set k := (N + 1) / 2 with hk
  have arr : ∀ i j, i < N → j < N → i ≠ j → cycleDist N i j ≤ k → (i, j) ∈ arrows N (spTime sp) t := fun i j hi hj hij h =>
    (cycle_arrows hadd hw hw' hsp).2 ⟨hi, hj, hij, (cycleLength_mono hadd hw h).trans ht⟩
  have dl : ∀ i j, i ≤ j → cycleDist N i j = j - i := fun i j h => if_pos h
  have dg : ∀ i j, j < i → cycleDist N i j = j + N - i := fun i j h => if_neg (by omega)
  have dbl : single (0, k) (1 : K) + single (k, 0) 1 ∈ groundedB1 K N (spTime sp) t := by
    have := twoPath_mem_B1 (K := K) (arr 0 k (by omega) (by omega) (by omega) (by rw [dl _ _ (by omega)]; omega))
      (arr k 0 (by omega) (by omega) (by omega) (by rw [dg _ _ (by omega)]; omega)) (Or.inl rfl)
    rw [twoPathBoundary, if_pos rfl, sub_zero, add_comm] at this
    exact this
  refine cycles_potential (fun v => if v = 0 then 0 else if v ≤ k then single (0, v) 1 else - single (v, 0) 1) ?_
  rintro ⟨i, j⟩ he
  obtain ⟨hi, rfl⟩ := mem_edgeSet_cycle.1 he
  simp only
  by_cases hlast : i + 1 = N
  · rw [hlast, Nat.mod_self, if_pos rfl, if_neg (by omega : i ≠ 0), zero_sub, sub_neg_eq_add]
    by_cases hik : i ≤ k
    · have : i = k := by omega
      rw [if_pos hik, this, add_comm]; exact dbl
    · rw [if_neg hik, add_neg_cancel]; exact Submodule.zero_mem _
  rw [Nat.mod_eq_of_lt (by omega), if_neg (by omega : i + 1 ≠ 0)]
  by_cases hi0 : i = 0
  · subst hi0
    rw [if_pos rfl, if_pos (by omega), sub_zero, zero_add, sub_self]; exact Submodule.zero_mem _
  rw [if_neg hi0]
  by_cases h1 : i + 1 ≤ k
  · rw [if_pos h1, if_pos (by omega)]
    have := twoPath_mem_B1 (K := K) (arr 0 i (by omega) (by omega) (by omega) (by rw [dl _ _ (by omega)]; omega))
      (arr i (i + 1) (by omega) (by omega) (by omega) (by rw [dl _ _ (by omega)]; omega))
      (Or.inr (arr 0 (i + 1) (by omega) (by omega) (by omega) (by rw [dl _ _ (by omega)]; omega)))
    rw [twoPathBoundary, if_neg (by simp)] at this
    convert this using 1
    abel
  · rw [if_neg h1]
    have tri := twoPath_mem_B1 (K := K) (arr i (i + 1) (by omega) (by omega) (by omega) (by rw [dl _ _ (by omega)]; omega))
      (arr (i + 1) 0 (by omega) (by omega) (by omega) (by rw [dg _ _ (by omega)]; omega))
      (Or.inr (arr i 0 (by omega) (by omega) (by omega) (by rw [dg _ _ (by omega)]; omega)))
    rw [twoPathBoundary, if_neg (by simpa using hi0)] at tri
    by_cases h2 : i ≤ k
    · have hik : i = k := by omega
      rw [if_pos h2]
      rw [hik] at tri ⊢
      have := Submodule.add_mem _ tri dbl
      convert this using 1
      simp only
      abel
    · rw [if_neg h2]
      convert tri using 1
      abel

end
end Phlite
