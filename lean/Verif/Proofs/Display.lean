/-
Shortest decimal numbers.
-/
import Verif.Model.Display
import Verif.Props.Decimal
import Mathlib.Algebra.Order.Field.Power

set_option linter.unusedSectionVars false
set_option linter.unusedSimpArgs false

namespace Phlite

/-- A finite number is its own rounding. -/
theorem IsRounded.self {v : NotNan} {y : ℚ} (hv : v.HasValue y) : IsRounded y v := by
  refine Or.inl ⟨y, hv, ?_, fun b' y' _ => ⟨?_, fun h h' => ?_⟩⟩
  · obtain ⟨z, hz, rfl⟩ := hv
    obtain ⟨h1, h2⟩ := v.2 z hz
    exact finite_aux (A := 1074) (b := 970) (c := 1024) (by norm_num) h1 (lt_of_lt_of_le h2 (by unfold overflowF64; exact le_of_eq rfl))
  · unfold distQ; rw [sub_self, abs_zero]; exact abs_nonneg _
  · unfold distQ at h
    rw [sub_self, abs_zero] at h
    exact absurd (sub_eq_zero.1 (abs_eq_zero.1 h.symm)).symm h'

/-- Every decimal number has a rounding. -/
theorem decimal_exists (c : ℕ) (e : ℤ) : ∃ w : NotNan, w.1 = decimalF64 false c e ∧ IsRounded ((c : ℚ) * (10 : ℚ) ^ e) w := by
  refine ⟨⟨_, isF64_decimal false c e⟩, rfl, ?_⟩
  have := decimal_rounded false c e ⟨_, isF64_decimal false c e⟩ rfl
  simpa using this

theorem readsAs_iff {v : NotNan} {n : ℕ} (hv : v.1 = F64Value.fin (n : ℤ)) (c : ℕ) (e : ℤ) : readsAs n c e = true ↔ IsRounded ((c : ℚ) * (10 : ℚ) ^ e) v := by
  unfold readsAs
  rw [decide_eq_true_iff, ← hv]
  obtain ⟨w, h1, h2⟩ := decimal_exists c e
  rw [← h1]
  constructor
  · intro h
    have : w = v := Subtype.ext h
    rwa [this] at h2
  · intro h
    rw [h2.unique h]

/-- What is between a number and one that is rounded to it is rounded to it. -/
theorem sandwich {v : NotNan} {y a : ℚ} (hy : IsRounded y v) (ha : IsRounded a v) {c : ℕ} {e : ℤ} (h : (a ≤ c * 10 ^ e ∧ (c : ℚ) * 10 ^ e ≤ y) ∨ (y ≤ c * 10 ^ e ∧ (c : ℚ) * 10 ^ e ≤ a)) :
    IsRounded ((c : ℚ) * (10 : ℚ) ^ e) v := by
  obtain ⟨w, h1, h2⟩ := decimal_exists c e
  have : w = v := by
    rcases h with ⟨h3, h4⟩ | ⟨h3, h4⟩
    · exact le_antisymm (C82_order h2 hy h4) (C82_order ha h2 h3)
    · exact le_antisymm (C82_order h2 ha h4) (C82_order hy h2 h3)
  rwa [this] at h2

theorem numDigits_spec : ∀ (f m : ℕ), m < 10 ^ f → m < 10 ^ numDigits f m ∧ (0 < m → 10 ^ numDigits f m ≤ 10 * m ∧ 1 ≤ numDigits f m)
  | 0, m, h => by simp [numDigits] at h ⊢; omega
  | f + 1, m, h => by
    unfold numDigits
    by_cases h0 : m = 0
    · simp [h0]
    · rw [if_neg h0]
      have h1 : m / 10 < 10 ^ f := by
        rw [Nat.div_lt_iff_lt_mul (by norm_num)]
        rwa [← pow_succ]
      obtain ⟨h2, h3⟩ := numDigits_spec f (m / 10) h1
      refine ⟨?_, fun _ => ⟨?_, by omega⟩⟩
      · rw [pow_succ]; omega
      · by_cases h4 : m / 10 = 0
        · have : numDigits f (m / 10) = 0 := by
            rw [h4]; cases f <;> simp [numDigits]
          rw [this]; omega
        · rw [pow_succ]
          have := (h3 (by omega)).1
          omega

theorem numDigits_log2 (m : ℕ) : m < 10 ^ numDigits (Nat.log2 m + 1) m ∧ (0 < m → 10 ^ numDigits (Nat.log2 m + 1) m ≤ 10 * m ∧ 1 ≤ numDigits (Nat.log2 m + 1) m) := by
  refine numDigits_spec _ _ (lt_of_lt_of_le Nat.lt_log2_self ?_)
  exact Nat.pow_le_pow_left (by norm_num) _

/-- The choice at the level `k`. -/
def Chosen (n m k c : ℕ) : Prop :=
  (c = m / 10 ^ k ∧ readsAs n (m / 10 ^ k) (k - 1074) = true ∧ (readsAs n (m / 10 ^ k + 1) (k - 1074) = true → 2 * (m % 10 ^ k) ≤ 10 ^ k)) ∨
  (c = m / 10 ^ k + 1 ∧ readsAs n (m / 10 ^ k + 1) (k - 1074) = true ∧ (readsAs n (m / 10 ^ k) (k - 1074) = true → 10 ^ k ≤ 2 * (m % 10 ^ k)))

theorem shortestFrom_spec (n m : ℕ) (hm : readsAs n m (-1074) = true) : ∀ K, ∃ k ≤ K, ∃ c, shortestFrom n m K = (c, (k : ℤ) - 1074) ∧ Chosen n m k c ∧
    ∀ k', k < k' → k' ≤ K → readsAs n (m / 10 ^ k') (k' - 1074) = false ∧ readsAs n (m / 10 ^ k' + 1) (k' - 1074) = false
  | 0 => ⟨0, le_rfl, m, by simp [shortestFrom], Or.inl ⟨by simp, by simpa using hm, by simp [Nat.mod_one]⟩, fun k' h h' => by omega⟩
  | K + 1 => by
    unfold shortestFrom
    dsimp only
    generalize hd : readsAs n (m / 10 ^ (K + 1)) ((K + 1 : ℕ) - 1074) = d
    generalize hu : readsAs n (m / 10 ^ (K + 1) + 1) ((K + 1 : ℕ) - 1074) = u
    by_cases h1 : (u && (!d || decide (10 ^ (K + 1) ≤ 2 * (m % 10 ^ (K + 1))))) = true
    · rw [if_pos h1]
      refine ⟨K + 1, le_rfl, _, rfl, Or.inr ⟨rfl, ?_, ?_⟩, fun k' h h' => by omega⟩
      · rw [hu]; cases u <;> simp_all
      · rw [hd]; intro hd'; subst hd'; simp at h1; exact h1.2
    · rw [if_neg h1]
      by_cases h2 : d = true
      · rw [if_pos h2]
        refine ⟨K + 1, le_rfl, _, rfl, Or.inl ⟨rfl, by rw [hd, h2], ?_⟩, fun k' h h' => by omega⟩
        rw [hu]; intro hu'; subst hu' h2; simp at h1; exact h1.le
      · rw [if_neg h2]
        obtain ⟨k, h3, c, h4, h5, h6⟩ := shortestFrom_spec n m hm K
        refine ⟨k, by omega, c, h4, h5, fun k' h h' => ?_⟩
        rcases Nat.lt_or_ge k' (K + 1) with h7 | h7
        · exact h6 k' h (by omega)
        · have : k' = K + 1 := by omega
          subst this
          have hd2 : d = false := by simpa using h2
          subst hd2
          refine ⟨hd, ?_⟩
          rw [hu]; cases u <;> simp_all

section
variable {v : NotNan} {n m D : ℕ} (hv : v.1 = F64Value.fin (n : ℤ)) (hx : IsRounded ((m : ℚ) * 10 ^ (-1074 : ℤ)) v) (hn : 0 < n)
  (hD : m < 10 ^ D) (hD' : 10 ^ D ≤ 10 * m) (hD1 : 1 ≤ D)

theorem pow_level (k : ℕ) : (10 : ℚ) ^ ((k : ℤ) - 1074) = 10 ^ k * 10 ^ (-1074 : ℤ) := by
  rw [show (k : ℤ) - 1074 = (k : ℤ) + (-1074) by ring, zpow_add₀ (by norm_num), zpow_natCast]

include hv hn in
theorem not_reads_zero (e : ℤ) : ¬ IsRounded (((0 : ℕ) : ℚ) * 10 ^ e) v := by
  intro h
  have h0 : (0 : NotNan).HasValue 0 := ⟨0, rfl, by simp [F64Value.real]⟩
  have h1 := IsRounded.self h0
  rw [Nat.cast_zero, zero_mul] at h
  have h2 := h.unique h1
  rw [h2] at hv
  have : (0 : ℤ) = n := WithTop.coe_injective (WithBot.coe_injective hv)
  omega

include hv hx hD hD' in
/-- Decimal numbers with at most `j` digits are not between the two candidates. -/
theorem digit_level {c' : ℕ} {e' : ℤ} (hr : IsRounded ((c' : ℚ) * 10 ^ e') v) {j : ℕ} (hj : 1 ≤ j) (hjD : j ≤ D) (hc : c' < 10 ^ j) :
    ((c' : ℚ) * 10 ^ e' ≤ m * 10 ^ (-1074 : ℤ) ∧ (c' : ℚ) * 10 ^ e' ≤ (m / 10 ^ (D - j) : ℕ) * 10 ^ (((D - j : ℕ) : ℤ) - 1074) ∧ readsAs n (m / 10 ^ (D - j)) (((D - j : ℕ) : ℤ) - 1074) = true) ∨
    ((m : ℚ) * 10 ^ (-1074 : ℤ) < c' * 10 ^ e' ∧ (m / 10 ^ (D - j) + 1 : ℕ) * (10 : ℚ) ^ (((D - j : ℕ) : ℤ) - 1074) ≤ c' * 10 ^ e' ∧
      readsAs n (m / 10 ^ (D - j) + 1) (((D - j : ℕ) : ℤ) - 1074) = true) := by
  rw [readsAs_iff hv, readsAs_iff hv]
  have hT : (0 : ℚ) < 10 ^ (-1074 : ℤ) := by positivity
  set T : ℚ := 10 ^ (-1074 : ℤ) with hTdef
  have hlo : ((m / 10 ^ (D - j) : ℕ) : ℚ) * 10 ^ (((D - j : ℕ) : ℤ) - 1074) ≤ m * T := by
    rw [pow_level, ← mul_assoc]
    refine mul_le_mul_of_nonneg_right ?_ hT.le
    exact_mod_cast Nat.div_mul_le_self m (10 ^ (D - j))
  have hhi : (m : ℚ) * T < ((m / 10 ^ (D - j) + 1 : ℕ) : ℚ) * 10 ^ (((D - j : ℕ) : ℤ) - 1074) := by
    rw [pow_level, ← mul_assoc]
    refine mul_lt_mul_of_pos_right ?_ hT
    have : m < (m / 10 ^ (D - j) + 1) * 10 ^ (D - j) := by
      rw [mul_comm]; exact Nat.lt_mul_div_succ m (by positivity)
    exact_mod_cast this
  -- a number with `j` digits that is not too small is a multiple
  have hmul : (10 : ℚ) ^ (D - 1) * T ≤ c' * 10 ^ e' → ∃ t : ℕ, (c' : ℚ) * 10 ^ e' = t * 10 ^ (((D - j : ℕ) : ℤ) - 1074) := by
    intro h
    have h1 : (10 : ℚ) ^ ((D - 1 : ℕ) - 1074 : ℤ) < 10 ^ (j + e' : ℤ) := by
      rw [pow_level]
      refine lt_of_le_of_lt h ?_
      rw [zpow_add₀ (by norm_num), zpow_natCast]
      refine mul_lt_mul_of_pos_right ?_ (by positivity)
      exact_mod_cast hc
    have h2 := (zpow_lt_zpow_iff_right₀ (by norm_num : (1 : ℚ) < 10)).1 h1
    obtain ⟨s, hs⟩ := Int.eq_ofNat_of_zero_le (show 0 ≤ e' - (((D - j : ℕ) : ℤ) - 1074) by omega)
    refine ⟨c' * 10 ^ s, ?_⟩
    have : e' = (s : ℤ) + (((D - j : ℕ) : ℤ) - 1074) := by omega
    conv_lhs => rw [this, zpow_add₀ (by norm_num), zpow_natCast]
    push_cast
    ring
  have hpos : (0 : ℚ) < 10 ^ (((D - j : ℕ) : ℤ) - 1074) := by positivity
  rcases le_or_gt ((c' : ℚ) * 10 ^ e') (m * T) with h | h
  · left
    have h1 : (c' : ℚ) * 10 ^ e' ≤ (m / 10 ^ (D - j) : ℕ) * 10 ^ (((D - j : ℕ) : ℤ) - 1074) := by
      rcases le_or_gt ((10 : ℚ) ^ (D - 1) * T) (c' * 10 ^ e') with h2 | h2
      · obtain ⟨t, ht⟩ := hmul h2
        rw [ht]
        refine mul_le_mul_of_nonneg_right ?_ hpos.le
        have : t * 10 ^ (D - j) ≤ m := by
          rw [ht, pow_level, ← mul_assoc] at h
          exact_mod_cast le_of_mul_le_mul_right h hT
        exact_mod_cast (Nat.le_div_iff_mul_le (by positivity)).2 this
      · refine h2.le.trans ?_
        rw [pow_level, ← mul_assoc]
        refine mul_le_mul_of_nonneg_right ?_ hT.le
        have h3 : 10 ^ (j - 1) ≤ m / 10 ^ (D - j) := by
          rw [Nat.le_div_iff_mul_le (by positivity), ← pow_add]
          have : 10 ^ D = 10 * 10 ^ (j - 1 + (D - j)) := by rw [← pow_succ']; congr 1; omega
          omega
        have h4 : 10 ^ (D - 1) ≤ m / 10 ^ (D - j) * 10 ^ (D - j) := by
          have : 10 ^ (D - 1) = 10 ^ (j - 1) * 10 ^ (D - j) := by rw [← pow_add]; congr 1; omega
          rw [this]
          exact Nat.mul_le_mul_right _ h3
        exact_mod_cast h4
    exact ⟨h, h1, sandwich hx hr (Or.inl ⟨h1, hlo⟩)⟩
  · right
    have h2 : (10 : ℚ) ^ (D - 1) * T ≤ c' * 10 ^ e' := by
      refine le_trans ?_ h.le
      refine mul_le_mul_of_nonneg_right ?_ hT.le
      have : 10 ^ D = 10 * 10 ^ (D - 1) := by rw [← pow_succ']; congr 1; omega
      have : 10 ^ (D - 1) ≤ m := by omega
      exact_mod_cast this
    obtain ⟨t, ht⟩ := hmul h2
    have h1 : (m / 10 ^ (D - j) + 1 : ℕ) * (10 : ℚ) ^ (((D - j : ℕ) : ℤ) - 1074) ≤ c' * 10 ^ e' := by
      rw [ht]
      refine mul_le_mul_of_nonneg_right ?_ hpos.le
      have : m < t * 10 ^ (D - j) := by
        rw [ht, pow_level, ← mul_assoc] at h
        exact_mod_cast lt_of_mul_lt_mul_right h hT.le
      have := (Nat.div_lt_iff_lt_mul (by positivity)).2 this
      exact_mod_cast this
    exact ⟨h, h1, sandwich hx hr (Or.inr ⟨hhi.le, h1⟩)⟩

end

/-! ### Powers of ten -/

/-- The rounding error. -/
theorem round_error (num : ℕ) {den : ℕ} (hd : 0 < den) :
    2 * Nat.dist num (roundRat num den * den) ≤ den ∨ 2 ^ 53 * Nat.dist num (roundRat num den * den) ≤ num := by
  obtain ⟨e, q, r, h0, h1, h2, h3, h4⟩ := rat_decomp num hd
  have h5 : 2 * Nat.dist num (roundRat num den * den) ≤ den * 2 ^ e := by
    have hu : q * (den * 2 ^ e) = (q * 2 ^ e) * den := by ring
    rw [hu] at h0
    split at h4
    · rename_i hc
      have : roundRat num den * den = q * 2 ^ e * den + den * 2 ^ e := by rw [h4]; ring
      rw [this, Nat.dist_eq_sub_of_le (by omega)]
      omega
    · rename_i hc
      rw [h4, Nat.dist_eq_sub_of_le_right (by omega)]
      omega
  rcases h2 with rfl | h2
  · left; simpa using h5
  · right
    have : 2 ^ 52 * (den * 2 ^ e) ≤ num := by
      rw [h0]
      exact le_trans (Nat.mul_le_mul_right _ h2) (Nat.le_add_right _ _)
    generalize den * 2 ^ e = g at *
    omega

theorem gap_aux {A D n a b : ℕ} (hab : a + A = D + b) (hr : roundRat (10 ^ a * 2 ^ A) (10 ^ b) = n) :
    2 * Nat.dist (10 ^ D) (n * 5 ^ A) ≤ 5 ^ A ∨ 2 ^ 53 * Nat.dist (10 ^ D) (n * 5 ^ A) ≤ 10 ^ D := by
  have hb : 0 < 10 ^ b := by positivity
  have h5 : 0 < 5 ^ A := by positivity
  have h1 : 10 ^ a * 2 ^ A * 5 ^ A = 10 ^ D * 10 ^ b := by
    rw [mul_assoc, ← mul_pow, show 2 * 5 = 10 by norm_num, ← pow_add, ← pow_add, hab]
  have h2 : Nat.dist (10 ^ a * 2 ^ A) (n * 10 ^ b) * 5 ^ A = Nat.dist (10 ^ D) (n * 5 ^ A) * 10 ^ b := by
    rw [← Nat.dist_mul_right, ← Nat.dist_mul_right, h1]
    congr 1
    ring
  rcases round_error (10 ^ a * 2 ^ A) hb with h | h
  · left
    rw [hr] at h
    have := Nat.mul_le_mul_right (5 ^ A) h
    rw [mul_assoc, h2, ← mul_assoc, mul_comm (10 ^ b)] at this
    exact Nat.le_of_mul_le_mul_right this hb
  · right
    rw [hr] at h
    have := Nat.mul_le_mul_right (5 ^ A) h
    rw [mul_assoc, h2, ← mul_assoc, h1] at this
    exact Nat.le_of_mul_le_mul_right this hb

/-- If a power of ten above the number is rounded to it, then it is near. -/
theorem gap_ten {n D : ℕ} (hn : 0 < n) (hD : n * 5 ^ 1074 < 10 ^ D) (hD' : 10 ^ D ≤ 10 * (n * 5 ^ 1074)) (hD1 : 1 ≤ D) (h : readsAs n 1 ((D : ℤ) - 1074) = true) :
    2 * (10 ^ D - n * 5 ^ 1074) ≤ 10 ^ (D - 1) := by
  have hr : roundRat (10 ^ ((D : ℤ) - 1074).toNat * 2 ^ 1074) (10 ^ (-((D : ℤ) - 1074)).toNat) = n := by
    unfold readsAs at h
    rw [decide_eq_true_iff] at h
    unfold decimalF64 signedF64 at h
    rw [one_mul] at h
    split at h
    · have := WithTop.coe_injective (WithBot.coe_injective h)
      simpa using this
    · simp at h
  have hg := gap_aux (A := 1074) (D := D) (n := n) (by omega) hr
  have hp : 10 ^ D = 10 * 10 ^ (D - 1) := by rw [← pow_succ']; congr 1; omega
  rw [Nat.dist_eq_sub_of_le_right hD.le] at hg
  rcases hg with hg | hg
  · rcases Nat.lt_or_ge (10 ^ (D - 1)) (5 ^ 1074) with h1 | h1
    · have e1 : 5 ^ 1074 < 10 ^ 751 := by decide +kernel
      have e2 : 10 ^ 750 ≤ 5 ^ 1074 := by decide +kernel
      have e3 : 3 * 5 ^ 1074 > 10 ^ 751 := by decide +kernel
      have e4 : 2 * (10 ^ 751 - 5 ^ 1074) > 5 ^ 1074 := by decide +kernel
      have e5 : 2 * (10 ^ 751 - 2 * 5 ^ 1074) ≤ 10 ^ 750 := by decide +kernel
      have d1 : D ≤ 751 := by
        have := (Nat.pow_lt_pow_iff_right (by norm_num : 1 < 10)).1 (h1.trans e1)
        omega
      have d2 : 751 ≤ D := by
        have : 10 ^ 750 < 10 ^ D := by
          refine lt_of_le_of_lt (e2.trans ?_) hD
          exact Nat.le_mul_of_pos_left _ hn
        have := (Nat.pow_lt_pow_iff_right (by norm_num : 1 < 10)).1 this
        omega
      have : D = 751 := by omega
      subst this
      clear hr h hp
      simp only [Nat.add_one_sub_one] at *
      generalize (5 : ℕ) ^ 1074 = F at *
      generalize (10 : ℕ) ^ 751 = G at *
      have hn3 : n < 3 := by
        by_contra h3
        have : 3 * F ≤ n * F := Nat.mul_le_mul_right _ (by omega)
        omega
      interval_cases n
      · omega
      · have : 10 ^ (751 - 1) = 10 ^ 750 := rfl
        omega
    · omega
  · omega

theorem five_pow {n A : ℕ} : ((n * 5 ^ A : ℕ) : ℚ) * 10 ^ (-(A : ℤ)) = n / 2 ^ A := by
  rw [zpow_neg, zpow_natCast, show (10 : ℚ) = 5 * 2 by norm_num, mul_pow]
  push_cast
  field_simp

/-- The value in units of 10^-1074. -/
theorem value_ten {v : NotNan} {n : ℕ} (hv : v.1 = F64Value.fin (n : ℤ)) {y : ℚ} (hy : v.HasValue y) : y = ((n * 5 ^ 1074 : ℕ) : ℚ) * 10 ^ (-1074 : ℤ) := by
  obtain ⟨z, hz, rfl⟩ := hy
  rw [hv] at hz
  have : (n : ℤ) = z := WithTop.coe_injective (WithBot.coe_injective hz)
  subst this
  have := five_pow (n := n) (A := 1074)
  rw [show (-((1074 : ℕ) : ℤ)) = (-1074 : ℤ) by norm_num] at this
  rw [this]
  unfold F64Value.real
  rw [Int.cast_natCast]

/-- The shortest digits of a positive number. -/
theorem shortest_aux {v : NotNan} {n m D : ℕ} (hv : v.1 = F64Value.fin (n : ℤ)) (hn : 0 < n) {y : ℚ} (hyv : y = (m : ℚ) * 10 ^ (-1074 : ℤ))
    (hx : IsRounded ((m : ℚ) * 10 ^ (-1074 : ℤ)) v) (hD : m < 10 ^ D) (hD' : 10 ^ D ≤ 10 * m) (hD1 : 1 ≤ D)
    (hgap : readsAs n 1 ((D : ℤ) - 1074) = true → 2 * (10 ^ D - m) ≤ 10 ^ (D - 1)) :
    1 ≤ (shortestFrom n m D).1 ∧ IsRounded ((shortestFrom n m D).1 * 10 ^ (shortestFrom n m D).2) v ∧ ∀ (c' : ℕ) (e' : ℤ), IsRounded (c' * 10 ^ e') v →
      (∀ j, c' < 10 ^ j → (shortestFrom n m D).1 < 10 ^ j) ∧
      ((∀ j, (shortestFrom n m D).1 < 10 ^ j → c' < 10 ^ j) → distQ y ((shortestFrom n m D).1 * 10 ^ (shortestFrom n m D).2) ≤ distQ y (c' * 10 ^ e')) := by
  obtain ⟨k, hk, c, hc, hch, hup⟩ := shortestFrom_spec n m ((readsAs_iff hv _ _).2 hx) D
  rw [hc]
  dsimp only
  have hT : (0 : ℚ) < 10 ^ (-1074 : ℤ) := by positivity
  have hzero : ∀ e, readsAs n 0 e = false := by
    intro e
    have := mt (readsAs_iff hv 0 e).1 (not_reads_zero hv hn e)
    simpa using this
  have hD0 : m / 10 ^ D = 0 := Nat.div_eq_of_lt hD
  -- the digits of the result
  have hpD : ∀ k ≤ D, 10 ^ D = 10 ^ (D - k) * 10 ^ k := by
    intro k hk; rw [← pow_add]; congr 1; omega
  have hcread : readsAs n c ((k : ℤ) - 1074) = true := by
    rcases hch with ⟨rfl, h, -⟩ | ⟨rfl, h, -⟩ <;> exact h
  have hlo : k < D → 10 ^ (D - k - 1) ≤ m / 10 ^ k := by
    intro hkD
    rw [Nat.le_div_iff_mul_le (by positivity), ← pow_add]
    have : 10 ^ D = 10 * 10 ^ (D - k - 1 + k) := by rw [← pow_succ']; congr 1; omega
    omega
  have hc1 : 1 ≤ c := by
    by_contra h0
    have : c = 0 := by omega
    rw [this, hzero] at hcread
    cases hcread
  have hcD : c < 10 ^ max 1 (D - k) := by
    rcases Nat.lt_or_ge k D with h | h
    · have hlt : m / 10 ^ k < 10 ^ (D - k) := by
        rw [Nat.div_lt_iff_lt_mul (by positivity), ← hpD k hk]; exact hD
      rw [max_eq_right (by omega)]
      rcases hch with ⟨h1, -⟩ | ⟨h1, h2, -⟩
      · rw [h1]; exact hlt
      · rw [h1]
        refine lt_of_le_of_ne hlt fun h3 => ?_
        have h4 := (hup D h le_rfl).2
        rw [hD0, zero_add] at h4
        have h5 : readsAs n 1 ((D : ℤ) - 1074) = true := by
          rw [readsAs_iff hv] at h2 ⊢
          have h6 : ((m / 10 ^ k + 1 : ℕ) : ℚ) * 10 ^ ((k : ℤ) - 1074) = ((1 : ℕ) : ℚ) * 10 ^ ((D : ℤ) - 1074) := by
            rw [pow_level, pow_level, ← mul_assoc, ← mul_assoc]
            congr 1
            have : (m / 10 ^ k + 1) * 10 ^ k = 1 * 10 ^ D := by
              rw [show m / 10 ^ k + 1 = 10 ^ (D - k) from h3, ← hpD k hk, one_mul]
            exact_mod_cast this
          rwa [h6] at h2
        rw [h5] at h4
        cases h4
    · have : k = D := by omega
      subst this
      unfold Chosen at hch
      rw [hD0] at hch
      rcases hch with ⟨h1, -⟩ | ⟨h1, -⟩
      · rw [h1]; positivity
      · rw [h1]; simp
  refine ⟨hc1, (readsAs_iff hv _ _).1 hcread, fun c' e' hr => ⟨fun j hj => ?_, fun hsame => ?_⟩⟩
  · -- no shorter number
    rcases Nat.lt_or_ge j (max 1 (D - k)) with h | h
    · exfalso
      rcases Nat.eq_zero_or_pos j with rfl | hj0
      · have : c' = 0 := by simpa using hj
        subst this
        exact not_reads_zero hv hn e' hr
      · have h1 : j < D - k := by
          rcases lt_max_iff.1 h with h | h <;> omega
        have h2 := hup (D - j) (by omega) (by omega)
        rcases digit_level hv hx hD hD' hr hj0 (by omega) hj with ⟨-, -, h3⟩ | ⟨-, -, h3⟩
        · rw [h2.1] at h3; cases h3
        · rw [h2.2] at h3; cases h3
    · exact lt_of_lt_of_le hcD (Nat.pow_le_pow_right (by norm_num) h)
  · -- the nearest
    have hc' := hsame _ hcD
    subst hyv
    have hdist : ∀ (t q : ℕ), distQ ((m : ℚ) * 10 ^ (-1074 : ℤ)) ((t : ℚ) * 10 ^ ((q : ℤ) - 1074)) = |(m : ℚ) - t * 10 ^ q| * 10 ^ (-1074 : ℤ) := by
      intro t q
      unfold distQ
      rw [pow_level, ← mul_assoc, ← sub_mul, abs_mul, abs_of_pos hT]
    rcases Nat.lt_or_ge k D with h | h
    · have hj : max 1 (D - k) = D - k := max_eq_right (by omega)
      rw [hj] at hc'
      have hlev := digit_level hv hx hD hD' hr (j := D - k) (by omega) (by omega) hc'
      rw [show D - (D - k) = k by omega] at hlev
      rw [hdist]
      have hmod : (m : ℚ) = (m / 10 ^ k : ℕ) * 10 ^ k + (m % 10 ^ k : ℕ) := by
        exact_mod_cast (Nat.div_add_mod' m (10 ^ k)).symm
      have hrlt : ((m % 10 ^ k : ℕ) : ℚ) < 10 ^ k := by
        exact_mod_cast Nat.mod_lt m (by positivity)
      have hr0 : (0 : ℚ) ≤ (m % 10 ^ k : ℕ) := Nat.cast_nonneg _
      have key : ∀ z : ℚ, |(m : ℚ) - c * 10 ^ k| ≤ z → z * 10 ^ (-1074 : ℤ) ≤ distQ ((m : ℚ) * 10 ^ (-1074 : ℤ)) (c' * 10 ^ e') →
          |(m : ℚ) - c * 10 ^ k| * 10 ^ (-1074 : ℤ) ≤ distQ ((m : ℚ) * 10 ^ (-1074 : ℤ)) (c' * 10 ^ e') :=
        fun z h1 h2 => (mul_le_mul_of_nonneg_right h1 hT.le).trans h2
      rcases hlev with ⟨h1, h2, h3⟩ | ⟨h1, h2, h3⟩
      · rw [pow_level, ← mul_assoc] at h2
        refine key ((m % 10 ^ k : ℕ) : ℚ) ?_ ?_
        · rcases hch with ⟨h4, -⟩ | ⟨h4, -, h5⟩
          · rw [h4, hmod, add_sub_cancel_left, abs_of_nonneg hr0]
          · have h6 : ((10 : ℚ) ^ k) ≤ 2 * (m % 10 ^ k : ℕ) := by exact_mod_cast h5 h3
            rw [h4, abs_le]
            push_cast
            constructor <;> nlinarith
        · unfold distQ
          rw [abs_of_nonneg (by linarith)]
          have : ((m % 10 ^ k : ℕ) : ℚ) = m - (m / 10 ^ k : ℕ) * 10 ^ k := by linarith
          rw [this, sub_mul]
          linarith
      · rw [pow_level, ← mul_assoc] at h2
        refine key ((10 : ℚ) ^ k - (m % 10 ^ k : ℕ)) ?_ ?_
        · rcases hch with ⟨h4, -, h5⟩ | ⟨h4, -⟩
          · have h6 : 2 * ((m % 10 ^ k : ℕ) : ℚ) ≤ 10 ^ k := by exact_mod_cast h5 h3
            rw [h4, abs_le]
            constructor <;> nlinarith
          · rw [h4, abs_le]
            push_cast
            constructor <;> nlinarith
        · unfold distQ
          rw [abs_of_nonpos (by linarith)]
          push_cast at h2
          have : (10 : ℚ) ^ k - ((m % 10 ^ k : ℕ) : ℚ) = ((m / 10 ^ k : ℕ) + 1) * 10 ^ k - m := by linarith
          rw [this, sub_mul]
          linarith
    · have : k = D := by omega
      subst this
      unfold Chosen at hch
      rw [hD0] at hch
      have hc1' : c = 1 ∧ readsAs n 1 ((k : ℤ) - 1074) = true := by
        rcases hch with ⟨-, h1, -⟩ | ⟨h1, h2, -⟩
        · rw [hzero] at h1; cases h1
        · exact ⟨by simpa using h1, by simpa using h2⟩
      obtain ⟨rfl, h1⟩ := hc1'
      have hg := hgap h1
      rw [show max 1 (k - k) = 1 by simp] at hc'
      have hlev := digit_level hv hx hD hD' hr (j := 1) le_rfl hD1 hc'
      rw [hdist]
      have hp : (10 : ℚ) ^ k = 10 * 10 ^ (k - 1) := by rw [← pow_succ']; congr 1; omega
      have hpn : (10 : ℕ) ^ k = 10 * 10 ^ (k - 1) := by rw [← pow_succ']; congr 1; omega
      have hg' : 2 * ((10 : ℚ) ^ k - m) ≤ 10 ^ (k - 1) := by
        have : 2 * 10 ^ k ≤ 10 ^ (k - 1) + 2 * m := by omega
        have : 2 * (10 : ℚ) ^ k ≤ 10 ^ (k - 1) + 2 * m := by exact_mod_cast this
        linarith
      have hmk : (m : ℚ) ≤ 10 ^ k := by exact_mod_cast hD.le
      have hlo9 : m / 10 ^ (k - 1) = 9 := by
        have hp0 : 0 < 10 ^ (k - 1) := by positivity
        apply Nat.div_eq_of_lt_le <;> omega
      rw [hlo9] at hlev
      have habs : |(m : ℚ) - (1 : ℕ) * 10 ^ k| = 10 ^ k - m := by
        rw [Nat.cast_one, one_mul, abs_of_nonpos (by linarith)]; ring
      rw [habs]
      unfold distQ
      rcases hlev with ⟨h2, h3, -⟩ | ⟨h2, h3, -⟩
      · rw [pow_level, ← mul_assoc] at h3
        rw [abs_of_nonneg (by linarith)]
        have : (10 : ℚ) ^ k - m ≤ m - (9 : ℕ) * 10 ^ (k - 1) := by push_cast; linarith
        have := mul_le_mul_of_nonneg_right this hT.le
        rw [sub_mul (m : ℚ)] at this
        linarith
      · rw [pow_level, ← mul_assoc] at h3
        rw [abs_of_nonpos (by linarith), sub_mul]
        push_cast at h3
        rw [hp]
        linarith

theorem shortest_eq (n : ℕ) : shortest n = shortestFrom n (n * 5 ^ 1074) (numDigits (Nat.log2 (n * 5 ^ 1074) + 1) (n * 5 ^ 1074)) := by
  unfold shortest
  rfl

theorem shortest_spec {v : NotNan} {n : ℕ} (hv : v.1 = F64Value.fin (n : ℤ)) (hn : 0 < n) {y : ℚ} (hy : v.HasValue y) :
    1 ≤ (shortest n).1 ∧ IsRounded ((shortest n).1 * 10 ^ (shortest n).2) v ∧ ∀ (c' : ℕ) (e' : ℤ), IsRounded (c' * 10 ^ e') v →
      (∀ j, c' < 10 ^ j → (shortest n).1 < 10 ^ j) ∧
      ((∀ j, (shortest n).1 < 10 ^ j → c' < 10 ^ j) → distQ y ((shortest n).1 * 10 ^ (shortest n).2) ≤ distQ y (c' * 10 ^ e')) := by
  have hx := IsRounded.self hy
  have hyv := value_ten hv hy
  rw [hyv] at hx
  have hm0 : 0 < n * 5 ^ 1074 := Nat.mul_pos hn (by positivity)
  obtain ⟨hD, hD'⟩ := numDigits_log2 (n * 5 ^ 1074)
  obtain ⟨hD', hD1⟩ := hD' hm0
  rw [shortest_eq]
  exact shortest_aux hv hn hyv hx hD hD' hD1 (gap_ten hn hD hD' hD1)

end Phlite
