/-
Property theorems C82: how the Rips program reads the numbers of its input.
-/
import Verif.Proofs.DecimalText
import Verif.Props.Circle
import Mathlib.Algebra.Order.Field.Basic
import Mathlib.Data.Nat.Dist
import Mathlib.Tactic.FieldSimp
import Mathlib.Tactic.LinearCombination

set_option linter.unusedSectionVars false
set_option linter.unusedSimpArgs false

namespace Phlite

/-! ### Rounding -/

/-- Rounding in natural numbers: `roundRat num den` has 53 bits and no number with 53 bits is nearer to `num / den`. -/
theorem roundRat_nearest (num : ℕ) {den : ℕ} (hd : 0 < den) (m : ℕ) (hm : Has53Bits m) :
    Nat.dist num (roundRat num den * den) ≤ Nat.dist num (m * den) ∧
    (Nat.dist num (roundRat num den * den) = Nat.dist num (m * den) → m ≠ roundRat num den →
      ∃ k e, roundRat num den = 2 * k * 2 ^ e ∧ (m = roundRat num den + 2 ^ e ∨ roundRat num den = m + 2 ^ e)) := by
  obtain ⟨e, q, r, h0, h1, h2, h3, h4⟩ := rat_decomp num hd
  have hg : m ≤ q * 2 ^ e ∨ (q + 1) * 2 ^ e ≤ m := by
    rcases h2 with rfl | h2
    · simp; omega
    · exact has53Bits_gap h2 hm
  have hs : (q + 1) * 2 ^ e = q * 2 ^ e + 2 ^ e := by ring
  have hu : q * (den * 2 ^ e) = (q * 2 ^ e) * den := by ring
  have hu' : den * 2 ^ e = 2 ^ e * den := by ring
  rw [hu] at h0
  rw [hu'] at h1 h4
  rw [hs] at hg
  have hg' : m * den ≤ (q * 2 ^ e) * den ∨ (q * 2 ^ e) * den + 2 ^ e * den ≤ m * den := by
    rcases hg with h | h
    · exact Or.inl (Nat.mul_le_mul_right _ h)
    · right; rw [← Nat.add_mul]; exact Nat.mul_le_mul_right _ h
  have hinj : ∀ a b : ℕ, a * den = b * den → a = b := fun a b h => Nat.eq_of_mul_eq_mul_right hd h
  split at h4
  · rename_i hc
    have hR : roundRat num den * den = (q * 2 ^ e) * den + 2 ^ e * den := by rw [h4, hs]; ring
    have hd' : Nat.dist num (roundRat num den * den) = 2 ^ e * den - r := by
      rw [hR, h0, Nat.dist_eq_sub_of_le (by omega)]; omega
    rw [hd']
    rcases hg' with hg' | hg'
    · have : Nat.dist num (m * den) = num - m * den := Nat.dist_eq_sub_of_le_right (by omega)
      refine ⟨by omega, fun h5 h6 => ?_⟩
      have hm' : m = q * 2 ^ e := hinj _ _ (by omega)
      have h7 : 2 * r = 2 ^ e * den ∧ q % 2 = 1 := by omega
      refine ⟨(q + 1) / 2, e, ?_, Or.inr ?_⟩
      · rw [h4]; congr 1; omega
      · rw [h4, hm', hs]
    · have : Nat.dist num (m * den) = m * den - num := Nat.dist_eq_sub_of_le (by omega)
      refine ⟨by omega, fun h5 h6 => absurd (hinj _ _ ?_) h6⟩
      rw [hR]; omega
  · rename_i hc
    have hR : roundRat num den * den = (q * 2 ^ e) * den := by rw [h4]
    have hd' : Nat.dist num (roundRat num den * den) = r := by
      rw [hR, h0, Nat.dist_eq_sub_of_le_right (by omega)]; omega
    rw [hd']
    rcases hg' with hg' | hg'
    · have : Nat.dist num (m * den) = num - m * den := Nat.dist_eq_sub_of_le_right (by omega)
      refine ⟨by omega, fun h5 h6 => absurd (hinj _ _ ?_) h6⟩
      rw [hR]; omega
    · have : Nat.dist num (m * den) = m * den - num := Nat.dist_eq_sub_of_le (by omega)
      refine ⟨by omega, fun h5 h6 => ?_⟩
      have hm' : m = q * 2 ^ e + 2 ^ e := hinj _ _ (by rw [Nat.add_mul]; omega)
      have : q % 2 = 0 := by omega
      refine ⟨q / 2, e, ?_, Or.inl ?_⟩
      · rw [h4]; congr 1; omega
      · rw [h4, hm']

/-- Integers are rounded by `roundRat` as by `roundNat`. -/
theorem roundRat_mul (n : ℕ) {k : ℕ} (hk : 0 < k) : roundRat (n * k) k = roundNat n := by
  unfold roundRat
  dsimp only
  rw [Nat.mul_div_cancel n hk]
  by_cases h : n < 2 ^ 53
  · rw [if_pos h]
    unfold roundNat
    rw [if_pos h]
    simp [Nat.mul_div_cancel n hk]
    omega
  · rw [if_neg h]
    unfold roundNat
    rw [if_neg h]
    dsimp only
    rw [mul_comm n k, Nat.mul_div_mul_left _ _ hk, Nat.mul_mod_mul_left]
    have h1 : ∀ a b : ℕ, k * a < 2 * (k * b) ↔ a < 2 * b := by
      intro a b
      rw [Nat.mul_left_comm]
      exact Nat.mul_lt_mul_left hk
    have h2 : ∀ a b : ℕ, 2 * (k * b) = k * a ↔ 2 * b = a := by
      intro a b
      rw [Nat.mul_left_comm]
      exact Nat.mul_right_inj hk.ne'
    simp only [h1, h2]

/-- When the rounded number overflows. -/
theorem roundRat_lt (num : ℕ) {den : ℕ} (hd : 0 < den) (E : ℕ) : roundRat num den < 2 ^ (54 + E) ↔ num < (2 ^ 54 - 1) * 2 ^ E * den := by
  have hpos : 0 < 2 ^ E * den := by positivity
  have hb1 : Has53Bits ((2 ^ 53 - 1) * 2 ^ (E + 1)) := ⟨2 ^ 53 - 1, E + 1, by norm_num, rfl⟩
  have hb2 : Has53Bits (2 ^ (54 + E)) := ⟨1, 54 + E, by norm_num, by simp⟩
  have hgap := has53Bits_gap (e := E + 1) (q := 2 ^ 53 - 1) (by norm_num) (has53Bits_roundRat num hd)
  have ho : (2 ^ 53 - 1 + 1) * 2 ^ (E + 1) = 2 ^ (54 + E) := by
    rw [show 2 ^ 53 - 1 + 1 = 2 ^ 53 by norm_num, ← pow_add]; congr 1; omega
  rw [ho] at hgap
  obtain ⟨h1, -⟩ := roundRat_nearest num hd _ hb1
  obtain ⟨h2, h3⟩ := roundRat_nearest num hd _ hb2
  have e1 : (2 ^ 53 - 1) * 2 ^ (E + 1) * den = 2 * (2 ^ 53 - 1) * (2 ^ E * den) := by rw [pow_succ]; ring
  have e2 : 2 ^ (54 + E) * den = 2 ^ 54 * (2 ^ E * den) := by rw [pow_add]; ring
  have e3 : (2 ^ 54 - 1) * 2 ^ E * den = (2 ^ 54 - 1) * (2 ^ E * den) := by ring
  rw [e3]
  rw [e1] at h1
  rw [e2] at h2 h3
  have hRc : ∀ c, roundRat num den ≤ c → roundRat num den * den ≤ c * den := fun c h => Nat.mul_le_mul_right _ h
  have hRo : ∀ c, c ≤ roundRat num den → c * den ≤ roundRat num den * den := fun c h => Nat.mul_le_mul_right _ h
  constructor
  · intro hlt
    by_contra hge
    have hle : roundRat num den ≤ (2 ^ 53 - 1) * 2 ^ (E + 1) := by omega
    have hle' := hRc _ hle
    rw [e1] at hle'
    have hR : Nat.dist num (roundRat num den * den) = num - roundRat num den * den := Nat.dist_eq_sub_of_le_right (by omega)
    rcases Nat.lt_or_ge num (2 ^ 54 * (2 ^ E * den)) with h | h
    · have hO : Nat.dist num (2 ^ 54 * (2 ^ E * den)) = 2 ^ 54 * (2 ^ E * den) - num := Nat.dist_eq_sub_of_le (by omega)
      rw [hR, hO] at h2 h3
      obtain ⟨k, e, h4, h5⟩ := h3 (by omega) (by omega)
      have h6 : roundRat num den * den = 2 * (2 ^ 53 - 1) * (2 ^ E * den) := by
        clear h5 h4 h3
        omega
      rw [← e1] at h6
      have h7 := Nat.eq_of_mul_eq_mul_right hd h6
      have h8 : 2 ^ (54 + E) = (2 ^ 53 - 1) * 2 ^ (E + 1) + 2 ^ (E + 1) := by rw [← ho]; ring
      have h9 : 2 ^ e = 2 ^ (E + 1) := by
        rcases h5 with h5 | h5
        · omega
        · have : 0 < 2 ^ e := by positivity
          omega
      rw [h9, h7] at h4
      have := Nat.eq_of_mul_eq_mul_right (by positivity) h4
      omega
    · have hO : Nat.dist num (2 ^ 54 * (2 ^ E * den)) = num - 2 ^ 54 * (2 ^ E * den) := Nat.dist_eq_sub_of_le_right (by omega)
      rw [hR, hO] at h2
      omega
  · intro hlt
    by_contra hge
    push Not at hge
    have hge' := hRo _ hge
    rw [e2] at hge'
    have hR : Nat.dist num (roundRat num den * den) = roundRat num den * den - num := Nat.dist_eq_sub_of_le (by omega)
    rcases Nat.lt_or_ge num (2 * (2 ^ 53 - 1) * (2 ^ E * den)) with h | h
    · have hO : Nat.dist num (2 * (2 ^ 53 - 1) * (2 ^ E * den)) = 2 * (2 ^ 53 - 1) * (2 ^ E * den) - num := Nat.dist_eq_sub_of_le (by omega)
      rw [hR, hO] at h1
      omega
    · have hO : Nat.dist num (2 * (2 ^ 53 - 1) * (2 ^ E * den)) = num - 2 * (2 ^ 53 - 1) * (2 ^ E * den) := Nat.dist_eq_sub_of_le_right (by omega)
      rw [hR, hO] at h1
      omega

/-- The same in rational numbers, with the unit `1 / U`. -/
theorem roundRat_rat (num : ℕ) {den : ℕ} (hd : 0 < den) {U : ℚ} (hU : 0 < U) (z : ℤ) (hz : Has53Bits z.natAbs) :
    distQ (num / (den * U)) (roundRat num den / U) ≤ distQ (num / (den * U)) (z / U) ∧
    (distQ (num / (den * U)) (roundRat num den / U) = distQ (num / (den * U)) (z / U) → (z : ℚ) / U ≠ roundRat num den / U →
      ∃ k : ℤ, (roundRat num den / U : ℚ) = 2 * k * (roundRat num den / U - z / U)) := by
  have hdq : (0 : ℚ) < den := by exact_mod_cast hd
  have hdU : (0 : ℚ) < den * U := mul_pos hdq hU
  have key : ∀ m : ℕ, distQ (num / (den * U)) ((m : ℚ) / U) = (Nat.dist num (m * den) : ℕ) / (den * U) := by
    intro m
    unfold distQ
    have h1 : (num : ℚ) / (den * U) - (m : ℚ) / U = ((num : ℚ) - (m * den : ℕ)) / (den * U) := by
      push_cast
      field_simp
    rw [h1, abs_div, abs_of_pos hdU]
    congr 1
    rcases Nat.le_total num (m * den) with h | h
    · rw [Nat.dist_eq_sub_of_le h, abs_of_nonpos (by rw [sub_nonpos]; exact_mod_cast h), Nat.cast_sub h]
      ring
    · rw [Nat.dist_eq_sub_of_le_right h, abs_of_nonneg (by rw [sub_nonneg]; exact_mod_cast h), Nat.cast_sub h]
  rw [key]
  rcases Int.natAbs_eq z with h | h
  · rw [h]
    generalize z.natAbs = m at hz
    rw [show (((m : ℕ) : ℤ) : ℚ) = (m : ℚ) by push_cast; rfl, key, div_le_div_iff_of_pos_right hdU, div_left_inj' hdU.ne']
    obtain ⟨h1, h2⟩ := roundRat_nearest num hd m hz
    refine ⟨by exact_mod_cast h1, fun h3 h4 => ?_⟩
    obtain ⟨k, e, h5, h6⟩ := h2 (by exact_mod_cast h3) (fun h => h4 (by rw [h]))
    have h5' : (roundRat num den : ℚ) = 2 * k * 2 ^ e := by exact_mod_cast h5
    rcases h6 with h6 | h6
    · have h6' : (m : ℚ) = roundRat num den + 2 ^ e := by exact_mod_cast h6
      refine ⟨-k, ?_⟩
      rw [← sub_div, h6', mul_div_assoc', div_left_inj' hU.ne', h5']
      push_cast
      ring
    · have h6' : (roundRat num den : ℚ) = m + 2 ^ e := by exact_mod_cast h6
      refine ⟨k, ?_⟩
      rw [← sub_div, mul_div_assoc', div_left_inj' hU.ne']
      have : (roundRat num den : ℚ) - m = 2 ^ e := by rw [h6']; ring
      rw [this, h5']
      push_cast
      ring
  · rcases Nat.eq_zero_or_pos z.natAbs with h0 | h0
    · have hz0 : z = 0 := Int.natAbs_eq_zero.1 h0
      subst hz0
      obtain ⟨h1, h2⟩ := roundRat_nearest num hd 0 hz
      have k0 := key 0
      rw [Int.cast_zero]
      rw [Nat.cast_zero] at k0
      rw [k0, div_le_div_iff_of_pos_right hdU, div_left_inj' hdU.ne']
      refine ⟨by exact_mod_cast h1, fun h3 h4 => ?_⟩
      obtain ⟨k, e, h5, h6⟩ := h2 (by exact_mod_cast h3) (fun h => h4 (by rw [← h]; simp))
      have h5' : (roundRat num den : ℚ) = 2 * k * 2 ^ e := by exact_mod_cast h5
      have hpos : 0 < 2 ^ e := by positivity
      have h6' : (roundRat num den : ℚ) = 2 ^ e := by
        have : roundRat num den = 2 ^ e := by
          rcases h6 with h6 | h6
          · omega
          · omega
        exact_mod_cast this
      refine ⟨k, ?_⟩
      rw [zero_div, sub_zero, mul_div_assoc', div_left_inj' hU.ne']
      conv_lhs => rw [h5']
      rw [h6']; push_cast; ring
    · have h1 := (roundRat_nearest num hd 0 ⟨0, 0, by norm_num, by simp⟩).1
      rw [zero_mul, Nat.dist_zero_right] at h1
      have hlt : ((Nat.dist num (roundRat num den * den) : ℕ) : ℚ) / (den * U) < distQ (num / (den * U)) (z / U) := by
        have hz1 : (z : ℚ) < 0 := by
          have : z < 0 := by omega
          exact_mod_cast this
        have h2 : (z : ℚ) / U < 0 := div_neg_of_neg_of_pos hz1 hU
        have h3 : ((Nat.dist num (roundRat num den * den) : ℕ) : ℚ) / (den * U) ≤ num / (den * U) := by
          rw [div_le_div_iff_of_pos_right hdU]; exact_mod_cast h1
        have h4 : (num : ℚ) / (den * U) - z / U ≤ distQ (num / (den * U)) (z / U) := le_abs_self _
        linarith
      exact ⟨hlt.le, fun h => absurd h hlt.ne⟩

theorem distQ_neg (x y : ℚ) : distQ (-x) (-y) = distQ x y := by
  unfold distQ
  rw [show -x - -y = -(x - y) by ring, abs_neg]

theorem rounded_aux {num den A b c : ℕ} (hd : 0 < den) (neg : Bool) (hov : overflowF64 = 2 ^ (54 + (A + b))) (hc : c = 54 + b)
    (hval : ∀ (v : NotNan) (y : ℚ), v.HasValue y ↔ ∃ z : ℤ, v.1 = F64Value.fin z ∧ (z : ℚ) / 2 ^ A = y) (v : NotNan) (hv : v.1 = signedF64 neg (roundRat num den))
    {x : ℚ} (hx : x = (if neg then -1 else 1) * ((num : ℚ) / (den * 2 ^ A))) :
    (∃ y, v.HasValue y ∧ (x < 2 ^ c - 2 ^ b ∧ -(2 ^ c - 2 ^ b) < x) ∧
      ∀ b' y', NotNan.HasValue b' y' → distQ x y ≤ distQ x y' ∧ (distQ x y = distQ x y' → y' ≠ y → ∃ k : ℤ, y = 2 * k * (y - y'))) ∨
    (v.1 = ((⊤ : WithTop ℤ) : WithBot (WithTop ℤ)) ∧ 2 ^ c - 2 ^ b ≤ x) ∨ (v.1 = ⊥ ∧ x ≤ -(2 ^ c - 2 ^ b)) := by
  have hU : (0 : ℚ) < 2 ^ A := by positivity
  have hdq : (0 : ℚ) < den := by exact_mod_cast hd
  have hx0 : (0 : ℚ) ≤ (num : ℚ) / (den * 2 ^ A) := by positivity
  have hT : (0 : ℚ) < 2 ^ c - 2 ^ b := by
    rw [hc, pow_add]
    have : (0 : ℚ) < 2 ^ b := by positivity
    linarith
  -- the overflow threshold
  have hlt : roundRat num den < overflowF64 ↔ (num : ℚ) / (den * 2 ^ A) < 2 ^ c - 2 ^ b := by
    rw [hov, roundRat_lt num hd, div_lt_iff₀ (mul_pos hdq hU), hc]
    have : ((2 : ℚ) ^ (54 + b) - 2 ^ b) * (den * 2 ^ A) = (((2 ^ 54 - 1) * 2 ^ (A + b) * den : ℕ) : ℚ) := by
      push_cast
      rw [pow_add, pow_add]
      ring
    rw [this]
    exact Nat.cast_lt.symm
  have hbits := has53Bits_roundRat num hd
  unfold signedF64 at hv
  by_cases h : roundRat num den < overflowF64
  · left
    rw [if_pos h] at hv
    have h' := hlt.1 h
    refine ⟨_, (hval v _).2 ⟨_, hv, rfl⟩, ?_, ?_⟩
    · rw [hx]; cases neg
      · simp only [Bool.false_eq_true, if_false, one_mul]
        exact ⟨h', by linarith⟩
      · simp only [if_true, neg_one_mul]
        exact ⟨by linarith, by linarith⟩
    · intro b' y' hb'
      obtain ⟨z, hz, rfl⟩ := (hval b' y').1 hb'
      have hzb := (b'.2 z hz).1
      cases neg with
      | false =>
        simp only [Bool.false_eq_true, if_false, one_mul] at hx ⊢
        rw [hx]
        have := roundRat_rat num hd hU z hzb
        simpa using this
      | true =>
        simp only [if_true, neg_one_mul] at hx ⊢
        rw [hx]
        have := roundRat_rat num hd hU (-z) (by rw [Int.natAbs_neg]; exact hzb)
        have e1 : (((-(roundRat num den : ℤ) : ℤ)) : ℚ) / 2 ^ A = -((roundRat num den : ℚ) / 2 ^ A) := by push_cast; ring
        have e2 : (z : ℚ) / 2 ^ A = -(((-z : ℤ) : ℚ) / 2 ^ A) := by push_cast; ring
        rw [e1, e2, distQ_neg, distQ_neg]
        refine ⟨this.1, fun h3 h4 => ?_⟩
        obtain ⟨k, hk⟩ := this.2 h3 (fun h => h4 (by rw [h]))
        refine ⟨k, ?_⟩
        linear_combination -hk
  · right
    rw [if_neg h] at hv
    have h' : ¬ (num : ℚ) / (den * 2 ^ A) < 2 ^ c - 2 ^ b := fun h1 => h (hlt.2 h1)
    push Not at h'
    cases neg with
    | false =>
      simp only [Bool.false_eq_true, if_false, one_mul] at hx hv
      exact Or.inl ⟨hv, by rw [hx]; exact h'⟩
    | true =>
      simp only [if_true, neg_one_mul] at hx hv
      exact Or.inr ⟨hv, by rw [hx]; linarith⟩

/-- Finite numbers are less than the threshold. -/
theorem finite_aux {A b c : ℕ} (hc : c = 54 + b) {z : ℤ} (hz : Has53Bits z.natAbs) (ho : z.natAbs < 2 ^ (54 + (A + b))) :
    (z : ℚ) / 2 ^ A < 2 ^ c - 2 ^ b ∧ -(2 ^ c - 2 ^ b) < (z : ℚ) / 2 ^ A := by
  have hU : (0 : ℚ) < 2 ^ A := by positivity
  have h1 : z.natAbs < (2 ^ 54 - 1) * 2 ^ (A + b) := by
    have := (roundRat_lt z.natAbs (den := 1) one_pos (A + b)).1 (by
      have := roundRat_mul z.natAbs one_pos
      rw [mul_one] at this
      rw [this, roundNat_of_bits hz]
      exact ho)
    simpa using this
  have h2 : ((2 : ℚ) ^ c - 2 ^ b) * 2 ^ A = (((2 ^ 54 - 1) * 2 ^ (A + b) : ℕ) : ℚ) := by
    rw [hc]
    push_cast
    rw [pow_add, pow_add]
    ring
  have h3 : ((z.natAbs : ℕ) : ℚ) < (((2 ^ 54 - 1) * 2 ^ (A + b) : ℕ) : ℚ) := by exact_mod_cast h1
  have h4 : ((z.natAbs : ℕ) : ℚ) = |(z : ℚ)| := by
    rw [← Int.cast_natCast, Int.natCast_natAbs, Int.cast_abs]
  rw [h4, ← h2, abs_lt] at h3
  constructor
  · rw [div_lt_iff₀ hU]; exact h3.2
  · rw [lt_div_iff₀ hU]; linarith [h3.1]

theorem decimal_value (m : ℕ) (e : ℤ) (A : ℕ) : ((m * 10 ^ e.toNat * 2 ^ A : ℕ) : ℚ) / ((10 ^ (-e).toNat : ℕ) * 2 ^ A) = m * (10 : ℚ) ^ e := by
  push_cast
  rw [mul_div_mul_right _ _ (by positivity)]
  rcases Int.le_total 0 e with h | h
  · obtain ⟨n, rfl⟩ := Int.eq_ofNat_of_zero_le h
    simp
  · obtain ⟨n, hn⟩ := Int.eq_ofNat_of_zero_le (show 0 ≤ -e by omega)
    have : e = -(n : ℤ) := by omega
    subst this
    simp [div_eq_mul_inv]

theorem decimal_rounded (neg : Bool) (m : ℕ) (e : ℤ) (v : NotNan) (hv : v.1 = decimalF64 neg m e) :
    IsRounded ((if neg then -1 else 1) * ((m : ℚ) * (10 : ℚ) ^ e)) v := by
  unfold IsRounded
  refine rounded_aux (A := 1074) (b := 970) (c := 1024) (num := m * 10 ^ e.toNat * 2 ^ 1074) (den := 10 ^ (-e).toNat) (by positivity) neg ?_ rfl ?_ v hv ?_
  · unfold overflowF64
    rfl
  · intro v y
    rfl
  · rw [decimal_value]

/-- Rounding determines the number. -/
theorem IsRounded.unique {x : ℚ} {a b : NotNan} (ha : IsRounded x a) (hb : IsRounded x b) : a = b := by
  unfold IsRounded at ha hb
  have hT : (0 : ℚ) < 2 ^ 1024 - 2 ^ 970 := by
    have h1 : (2 : ℚ) ^ 1024 = 2 ^ 54 * 2 ^ 970 := by rw [← pow_add]
    have h2 : (0 : ℚ) < 2 ^ 970 := by positivity
    rw [h1]
    generalize (2 : ℚ) ^ 970 = t at h2
    linarith
  generalize (2 : ℚ) ^ 1024 - 2 ^ 970 = T at ha hb hT
  have hval : ∀ {a b : NotNan} {y : ℚ}, a.HasValue y → b.HasValue y → a = b := by
    rintro a b y ⟨z, h1, h2⟩ ⟨w, h3, h4⟩
    rw [← h4] at h2
    unfold F64Value.real at h2
    have h5 : (0 : ℚ) < 2 ^ 1074 := by positivity
    rw [div_left_inj' h5.ne'] at h2
    have : z = w := by exact_mod_cast h2
    subst this
    exact Subtype.ext (h1.trans h3.symm)
  rcases ha with ⟨y, h1, h2, h3⟩ | ⟨h1, h2⟩ | ⟨h1, h2⟩ <;> rcases hb with ⟨y', h1', h2', h3'⟩ | ⟨h1', h2'⟩ | ⟨h1', h2'⟩
  · by_cases e : y = y'
    · subst e; exact hval h1 h1'
    · exfalso
      obtain ⟨h4, h5⟩ := h3 b y' h1'
      obtain ⟨h6, h7⟩ := h3' a y h1
      obtain ⟨k, hk⟩ := h5 (le_antisymm h4 h6) (Ne.symm e)
      obtain ⟨l, hl⟩ := h7 (le_antisymm h6 h4) e
      have h8 : (y - y') * (1 - 2 * (k + l)) = 0 := by
        have : y - y' = 2 * k * (y - y') - 2 * l * (y' - y) := by rw [← hk, ← hl]
        linear_combination this
      rcases mul_eq_zero.1 h8 with h | h
      · exact e (by linarith)
      · have : (1 : ℤ) - 2 * (k + l) = 0 := by exact_mod_cast h
        omega
  · exfalso; linarith [h2.1]
  · exfalso; linarith [h2.2]
  · exfalso; linarith [h2'.1]
  · exact Subtype.ext (h1.trans h1'.symm)
  · exfalso; linarith
  · exfalso; linarith [h2'.2]
  · exfalso; linarith
  · exact Subtype.ext (h1.trans h1'.symm)

/-! ### Reading numbers -/

/-- A character with which a number without a sign begins. -/
def NumberStart (c : Char) : Prop := c.isDigit = true ∨ c = '.'

theorem parseNumber_head {cs : List Char} {p : ℕ × ℤ} (h : parseNumber cs = some p) : ∃ c r, cs = c :: r ∧ NumberStart c := by
  obtain ⟨before, is, point, after, fs, exponent, k, his, hfs, hexp, hne, hpoint, rfl, -, -⟩ := (parseNumber_iff cs p.1 p.2).1 h
  cases before with
  | cons c r => exact ⟨c, r ++ point ++ after ++ exponent, by simp, Or.inl (his.all c (by simp))⟩
  | nil =>
    rcases hpoint with rfl | ⟨rfl, rfl⟩
    · exact ⟨'.', after ++ exponent, by simp, Or.inr rfl⟩
    · exact absurd (his.eq_nil.1 rfl) (by simpa using hne)

theorem NumberStart.not_sign {c : Char} (h : NumberStart c) : c ≠ '-' ∧ c ≠ '+' := by
  rcases h with h | rfl
  · constructor <;> rintro rfl <;> exact absurd h (by decide)
  · decide

theorem NumberStart.lower {c : Char} (h : NumberStart c) : c.toLower ≠ 'n' ∧ c.toLower ≠ 'i' := by
  rcases h with h | rfl
  · obtain ⟨d, hd, rfl⟩ := (digit_iff c).1 h
    interval_cases d <;> decide
  · decide

theorem parseSign_append {sign : List Char} {σ : ℤ} (h : IsSign sign σ) {cs : List Char} (hc : ∀ c r, cs = c :: r → c ≠ '-' ∧ c ≠ '+') :
    parseSign (sign ++ cs) = (decide (σ = -1), cs) := by
  rcases h with ⟨rfl, rfl⟩ | ⟨rfl, rfl⟩ | ⟨rfl, rfl⟩
  · rw [List.nil_append]
    unfold parseSign
    split
    · exact absurd rfl (hc _ _ rfl).1
    · exact absurd rfl (hc _ _ rfl).2
    · rfl
  · rfl
  · rfl

theorem parseSign_isSign (l : List Char) : ∃ sign, IsSign sign (if (parseSign l).1 then -1 else 1) ∧ l = sign ++ (parseSign l).2 := by
  unfold parseSign
  split
  · exact ⟨['-'], by simp [IsSign], rfl⟩
  · exact ⟨['+'], by simp [IsSign], rfl⟩
  · exact ⟨[], by simp [IsSign], rfl⟩

theorem IsSign.neg {sign : List Char} {σ : ℤ} (h : IsSign sign σ) : σ = if decide (σ = -1) then -1 else 1 := by
  rcases h with ⟨_, rfl⟩ | ⟨_, rfl⟩ | ⟨_, rfl⟩ <;> decide

theorem isDecimal_iff (s : String) (x : ℚ) :
    IsDecimal s x ↔ ∃ m e, parseNumber (parseSign s.toList).2 = some (m, e) ∧ x = (if (parseSign s.toList).1 then -1 else 1) * ((m : ℚ) * (10 : ℚ) ^ e) := by
  constructor
  · rintro ⟨sign, σ, before, is, point, after, fs, exponent, k, hs, his, hfs, hexp, hne, hpoint, hl, rfl⟩
    have hp := (parseNumber_iff (before ++ point ++ after ++ exponent) _ _).2 ⟨before, is, point, after, fs, exponent, k, his, hfs, hexp, hne, hpoint, rfl, rfl, rfl⟩
    have hh := parseNumber_head hp
    have e : parseSign s.toList = (decide (σ = -1), before ++ point ++ after ++ exponent) := by
      rw [hl, List.append_assoc, List.append_assoc, List.append_assoc, parseSign_append hs]
      · simp [List.append_assoc]
      · intro c r hcr
        obtain ⟨c', r', h1, h2⟩ := hh
        rw [List.append_assoc, List.append_assoc, hcr] at h1
        cases h1
        exact h2.not_sign
    rw [e]
    refine ⟨_, _, hp, ?_⟩
    have hσ := hs.neg
    generalize decide (σ = -1) = b at hσ
    subst hσ
    dsimp only
    cases b <;> push_cast <;> ring
  · rintro ⟨m, e, hp, rfl⟩
    obtain ⟨before, is, point, after, fs, exponent, k, his, hfs, hexp, hne, hpoint, hcs, rfl, rfl⟩ := (parseNumber_iff _ _ _).1 hp
    obtain ⟨sign, hs, hl⟩ := parseSign_isSign s.toList
    refine ⟨sign, _, before, is, point, after, fs, exponent, k, hs, his, hfs, hexp, hne, hpoint, ?_, ?_⟩
    · rw [hl, hcs]
      simp [List.append_assoc]
    · generalize (parseSign s.toList).1 = b
      cases b <;> push_cast <;> ring

theorem isWord_iff {w : String} (hw : ∃ c r, w.toList = c :: r ∧ (c = 'n' ∨ c = 'i')) (s : String) (σ : ℤ) :
    IsWord w s σ ↔ (parseSign s.toList).2.map Char.toLower = w.toList ∧ σ = if (parseSign s.toList).1 then -1 else 1 := by
  constructor
  · rintro ⟨sign, cs, hs, hcs, hl⟩
    rw [hl, parseSign_append hs]
    · exact ⟨hcs, hs.neg⟩
    · rintro c r rfl
      obtain ⟨d, t, h1, h2⟩ := hw
      rw [h1, List.map_cons] at hcs
      have h3 := (List.cons.inj hcs).1
      constructor
      · rintro rfl
        rw [← h3] at h2; exact absurd h2 (by decide)
      · rintro rfl
        rw [← h3] at h2; exact absurd h2 (by decide)
  · rintro ⟨h1, rfl⟩
    obtain ⟨sign, hs, hl⟩ := parseSign_isSign s.toList
    exact ⟨sign, _, hs, h1, hl⟩

theorem word_not_number {w : String} (hw : ∃ c r, w.toList = c :: r ∧ (c = 'n' ∨ c = 'i')) {cs : List Char} (h : cs.map Char.toLower = w.toList) : parseNumber cs = none := by
  cases hp : parseNumber cs with
  | none => rfl
  | some p =>
    obtain ⟨c, r, rfl, h1⟩ := parseNumber_head hp
    obtain ⟨d, t, h2, h3⟩ := hw
    rw [h2, List.map_cons] at h
    have h4 := (List.cons.inj h).1
    have h5 := h1.lower
    rw [h4] at h5
    tauto

theorem nan_word : ∃ c r, "nan".toList = c :: r ∧ (c = 'n' ∨ c = 'i') := ⟨'n', ['a', 'n'], by decide, by decide⟩
theorem inf_word : ∃ c r, "inf".toList = c :: r ∧ (c = 'n' ∨ c = 'i') := ⟨'i', ['n', 'f'], by decide, by decide⟩
theorem infinity_word : ∃ c r, "infinity".toList = c :: r ∧ (c = 'n' ∨ c = 'i') := ⟨'i', ['n', 'f', 'i', 'n', 'i', 't', 'y'], by decide, by decide⟩

theorem parseF64_value (s : String) : (parseF64 s = none ↔ parseF64Value s = none) ∧ (parseF64 s = some none ↔ parseF64Value s = some none) ∧
    ∀ v : NotNan, parseF64 s = some (some v) ↔ parseF64Value s = some (some v.1) := by
  unfold parseF64
  split
  · rename_i h; rw [h]; simp
  · rename_i h; rw [h]; simp
  · rename_i w h
    refine ⟨⟨fun e => by simp at e, fun e => by rw [h] at e; simp at e⟩, ⟨fun e => by simp at e, fun e => by rw [h] at e; simp at e⟩, fun v => ?_⟩
    constructor
    · intro e; cases e; exact h
    · intro e
      have : w = v.1 := by rw [h] at e; simpa using e
      exact congrArg (fun x => some (some x)) (Subtype.ext this)

/-- C82: which entries of the matrix are numbers, and their values. -/
theorem C82_entry (s : String) :
    (∀ v : NotNan, parseF64 s = some (some v) ↔ (∃ x, IsDecimal s x ∧ IsRounded x v) ∨
      ((IsWord "inf" s 1 ∨ IsWord "infinity" s 1) ∧ v.1 = ((⊤ : WithTop ℤ) : WithBot (WithTop ℤ))) ∨ ((IsWord "inf" s (-1) ∨ IsWord "infinity" s (-1)) ∧ v.1 = ⊥)) ∧
    (parseF64 s = some none ↔ ∃ σ, IsWord "nan" s σ) := by
  rw [(parseF64_value s).2.1]
  simp only [(parseF64_value s).2.2, isDecimal_iff, isWord_iff nan_word, isWord_iff inf_word, isWord_iff infinity_word]
  have hw : ∀ w : String, (∃ c r, w.toList = c :: r ∧ (c = 'n' ∨ c = 'i')) → ∀ p, parseNumber (parseSign s.toList).2 = some p → (parseSign s.toList).2.map Char.toLower ≠ w.toList := by
    intro w hw p hp e
    rw [word_not_number hw e] at hp
    cases hp
  have hw1 := hw _ nan_word
  have hw2 := hw _ inf_word
  have hw3 := hw _ infinity_word
  clear hw
  have hne : "nan".toList ≠ "inf".toList ∧ "nan".toList ≠ "infinity".toList := by decide
  unfold parseF64Value
  dsimp only
  generalize "nan".toList = wn at *
  generalize "inf".toList = wi at *
  generalize "infinity".toList = wy at *
  generalize parseSign s.toList = sg at hw1 hw2 hw3 ⊢
  obtain ⟨neg, cs⟩ := sg
  dsimp only at hw1 hw2 hw3 ⊢
  cases hp : parseNumber cs with
  | some p =>
    obtain ⟨m, e⟩ := p
    have h1 := hw1 _ hp
    have h2 := hw2 _ hp
    have h3 := hw3 _ hp
    refine ⟨fun v => ?_, by simp [h1]⟩
    constructor
    · intro e'
      exact Or.inl ⟨_, ⟨m, e, rfl, rfl⟩, decimal_rounded neg m e v (by simpa using e'.symm)⟩
    · rintro (⟨x, ⟨m', e', h4, rfl⟩, h5⟩ | ⟨h4, _⟩ | ⟨h4, _⟩)
      · cases h4
        have h6 := decimal_rounded neg m e ⟨decimalF64 neg m e, isF64_decimal _ _ _⟩ rfl
        exact congrArg (fun x : NotNan => some (some x.1)) (h6.unique h5)
      · rcases h4 with h4 | h4
        · exact absurd h4.1 h2
        · exact absurd h4.1 h3
      · rcases h4 with h4 | h4
        · exact absurd h4.1 h2
        · exact absurd h4.1 h3
  | none =>
    dsimp only
    by_cases h1 : cs.map Char.toLower = wn
    · rw [if_pos h1]
      refine ⟨fun v => ?_, by simp [h1]⟩
      constructor
      · intro e; simp at e
      · rintro (⟨x, ⟨m', e', h4, _⟩, _⟩ | ⟨h4, _⟩ | ⟨h4, _⟩)
        · cases h4
        · rcases h4 with h4 | h4
          · exact absurd (h1.symm.trans h4.1) hne.1
          · exact absurd (h1.symm.trans h4.1) hne.2
        · rcases h4 with h4 | h4
          · exact absurd (h1.symm.trans h4.1) hne.1
          · exact absurd (h1.symm.trans h4.1) hne.2
    · rw [if_neg h1]
      by_cases h2 : cs.map Char.toLower = wi ∨ cs.map Char.toLower = wy
      · rw [if_pos h2]
        refine ⟨fun v => ?_, by simp [h1]⟩
        constructor
        · intro e
          have e : (if neg = true then ⊥ else ((⊤ : WithTop ℤ) : WithBot (WithTop ℤ))) = v.1 := by simpa using e
          right
          cases neg with
          | true => exact Or.inr ⟨h2.imp (fun h => ⟨h, rfl⟩) fun h => ⟨h, rfl⟩, e.symm⟩
          | false => exact Or.inl ⟨h2.imp (fun h => ⟨h, rfl⟩) fun h => ⟨h, rfl⟩, e.symm⟩
        · rintro (⟨x, ⟨m', e', h4, _⟩, _⟩ | ⟨h4, h5⟩ | ⟨h4, h5⟩)
          · cases h4
          · cases neg with
            | true => rcases h4 with h4 | h4 <;> exact absurd h4.2 (by norm_num)
            | false => rw [h5]; rfl
          · cases neg with
            | true => rw [h5]; rfl
            | false => rcases h4 with h4 | h4 <;> exact absurd h4.2 (by norm_num)
      · rw [if_neg h2]
        push Not at h2
        refine ⟨fun v => ?_, by simp [h1]⟩
        constructor
        · intro e; cases e
        · rintro (⟨x, ⟨m', e', h4, _⟩, _⟩ | ⟨h4, _⟩ | ⟨h4, _⟩)
          · cases h4
          · rcases h4 with h4 | h4
            · exact absurd h4.1 h2.1
            · exact absurd h4.1 h2.2
          · rcases h4 with h4 | h4
            · exact absurd h4.1 h2.1
            · exact absurd h4.1 h2.2

/-- C82: a decimal number always has a value; a number that exists in `f64` is read exactly. -/
theorem C82_exact {s : String} {x : ℚ} (h : IsDecimal s x) : (∃ v, parseF64 s = some (some v) ∧ IsRounded x v) ∧
    ∀ v : NotNan, v.HasValue x → parseF64 s = some (some v) := by
  have h1 : ∃ v, parseF64 s = some (some v) ∧ IsRounded x v := by
    obtain ⟨m, e, h1, rfl⟩ := (isDecimal_iff s x).1 h
    have h2 := decimal_rounded (parseSign s.toList).1 m e ⟨decimalF64 (parseSign s.toList).1 m e, isF64_decimal _ _ _⟩ rfl
    exact ⟨_, ((C82_entry s).1 _).2 (Or.inl ⟨_, h, h2⟩), h2⟩
  refine ⟨h1, fun v hv => ?_⟩
  obtain ⟨w, h2, h3⟩ := h1
  suffices w = v by rw [← this]; exact h2
  have hvz := hv
  obtain ⟨z, hz1, hz2⟩ := hv
  have hz3 := (v.2 z hz1).2
  unfold IsRounded at h3
  have hb : x < 2 ^ 1024 - 2 ^ 970 ∧ -(2 ^ 1024 - 2 ^ 970) < x := by
    have hbits := (v.2 z hz1).1
    rw [← hz2]
    unfold F64Value.real
    exact finite_aux (A := 1074) (b := 970) (c := 1024) rfl hbits (by rw [show overflowF64 = 2 ^ (54 + (1074 + 970)) by unfold overflowF64; rfl] at hz3; exact hz3)
  rcases h3 with ⟨y, h4, h5, h6⟩ | ⟨h4, h5⟩ | ⟨h4, h5⟩
  · have h7 := (h6 v x hvz).1
    have h8 : distQ x x = 0 := by unfold distQ; simp
    rw [h8] at h7
    have h9 : y = x := by
      unfold distQ at h7
      have := abs_nonpos_iff.1 h7
      linarith
    subst h9
    obtain ⟨z', h10, h11⟩ := h4
    rw [← hz2] at h11
    unfold F64Value.real at h11
    have hU : (0 : ℚ) < 2 ^ 1074 := by positivity
    rw [div_left_inj' hU.ne'] at h11
    have : z' = z := by exact_mod_cast h11
    subst this
    exact Subtype.ext (h10.trans hz1.symm)
  · exact absurd h5 (not_le.2 hb.1)
  · exact absurd h5 (not_le.2 hb.2)

theorem abs_le_abs_iff_sq_aux (p q : ℚ) : |p| ≤ |q| ↔ p ^ 2 ≤ q ^ 2 := sq_le_sq.symm

/-- C82: rounding preserves the order (and so equal numbers are read as equal numbers). -/
theorem C82_order {x y : ℚ} {a b : NotNan} (ha : IsRounded x a) (hb : IsRounded y b) (h : x ≤ y) : a ≤ b := by
  by_contra hlt
  push Not at hlt
  have key : ∀ x', x' = x → x' = y → False := by
    rintro x' rfl rfl
    exact hlt.ne (hb.unique ha)
  have ha' := ha
  have hb' := hb
  unfold IsRounded at ha hb
  have hT : (0 : ℚ) < 2 ^ 1024 - 2 ^ 970 := by
    have h1 : (2 : ℚ) ^ 1024 = 2 ^ 54 * 2 ^ 970 := by rw [← pow_add]
    have h2 : (0 : ℚ) < 2 ^ 970 := by positivity
    rw [h1]
    generalize (2 : ℚ) ^ 970 = t at h2
    linarith
  generalize (2 : ℚ) ^ 1024 - 2 ^ 970 = T at ha hb hT
  have hlt' : b.1 < a.1 := hlt
  rcases ha with ⟨u, h1, h2, h3⟩ | ⟨h1, h2⟩ | ⟨h1, h2⟩
  · rcases hb with ⟨w, h1', h2', h3'⟩ | ⟨h1', h2'⟩ | ⟨h1', h2'⟩
    · have h4 := (h3 b w h1').1
      have h5 := (h3' a u h1).1
      have h6 : w < u := by
        rw [← not_le, ← h1.le_iff h1', not_le]; exact hlt
      unfold distQ at h4 h5
      rw [abs_le_abs_iff_sq_aux] at h4 h5
      have h7 : (w + u) / 2 ≤ x := by nlinarith
      have h8 : y ≤ (w + u) / 2 := by nlinarith
      exact key x rfl (by linarith)
    · rw [h1'] at hlt'
      exact absurd le_top (not_le.2 hlt')
    · linarith [h2.1, h2.2]
  · rcases hb with ⟨w, h1', h2', h3'⟩ | ⟨h1', h2'⟩ | ⟨h1', h2'⟩
    · linarith [h2'.1]
    · rw [h1, h1'] at hlt'
      exact lt_irrefl _ hlt'
    · linarith
  · rw [h1] at hlt'
    exact absurd bot_le (not_le.2 hlt')

namespace DecimalExample

/-- The number, in units of 2^-1074, if it is finite. -/
def units (s : String) : Option (Option ℤ) := (parseF64Value s).map fun v => v.bind fun v => v.recBotCoe none fun w => w.recTopCoe none some

/-- Decimal text; the nearest `f64`. -/
example : units "0.1" = some (some (7205759403792794 * 2 ^ 1018)) ∧ units "+1." = some (some (2 ^ 1074)) ∧ units "-.5" = some (some (-2 ^ 1073)) ∧
    units "1e-5" = some (some (5902958103587057 * 2 ^ 1005)) ∧ units "25E+2" = some (some (2500 * 2 ^ 1074)) ∧ units "007" = some (some (7 * 2 ^ 1074)) := by
  refine ⟨?_, ?_, ?_, ?_, ?_, ?_⟩ <;> decide +kernel

/-- Ties go to the even number: 2^53 + 1 down, 2^53 + 3 up; a little above the tie goes up. -/
example : units "9007199254740993" = some (some (9007199254740992 * 2 ^ 1074)) ∧ units "9007199254740995" = some (some (9007199254740996 * 2 ^ 1074)) ∧
    units "9007199254740993.00000000000000000000000000000000001" = some (some (9007199254740994 * 2 ^ 1074)) := by
  refine ⟨?_, ?_, ?_⟩ <;> decide +kernel

/-- Small numbers: the least positive number, and a number that is rounded to 0. -/
example : units "5e-324" = some (some 1) ∧ units "2.5e-324" = some (some 1) ∧ units "2.4e-324" = some (some 0) ∧ units "1e-400" = some (some 0) := by
  refine ⟨?_, ?_, ?_, ?_⟩ <;> decide +kernel

/-- Large numbers: the greatest number, and numbers that become infinite. -/
example : units "1.7976931348623157e308" = some (some ((2 ^ 53 - 1) * 2 ^ 2045)) ∧ parseF64Value "1.8e308" = some (some ((⊤ : WithTop ℤ) : WithBot (WithTop ℤ))) ∧
    parseF64Value "-1e999" = some (some ⊥) := by
  refine ⟨?_, ?_, ?_⟩ <;> decide +kernel

/-- Words, and text that is not a number. -/
example : parseF64Value "Infinity" = some (some ((⊤ : WithTop ℤ) : WithBot (WithTop ℤ))) ∧ parseF64Value "-inf" = some (some ⊥) ∧ parseF64Value "NaN" = some none ∧
    parseF64Value "" = none ∧ parseF64Value " 1" = none ∧ parseF64Value "1 " = none ∧ parseF64Value "." = none ∧ parseF64Value "1e" = none ∧ parseF64Value "1,5" = none ∧
    parseF64Value "0x10" = none ∧ parseF64Value "+-1" = none ∧ parseF64Value "e5" = none ∧ parseF64Value "1_000" = none ∧ parseF64Value "infinit" = none := by
  refine ⟨?_, ?_, ?_, ?_, ?_, ?_, ?_, ?_, ?_, ?_, ?_, ?_, ?_, ?_⟩ <;> decide +kernel

/-- The text `-12.50e+1` is a decimal number of value -125. -/
theorem isDecimal_example : IsDecimal "-12.50e+1" (-125) :=
  ⟨['-'], -1, ['1', '2'], [1, 2], ['.'], ['5', '0'], [5, 0], ['e', '+', '1'], 1, Or.inr (Or.inr ⟨rfl, rfl⟩), ⟨by decide, by decide⟩, ⟨by decide, by decide⟩,
    Or.inr ⟨'e', ['+'], 1, ['1'], [1], Or.inl rfl, Or.inr (Or.inl ⟨rfl, rfl⟩), ⟨by decide, by decide⟩, by decide, by decide, by decide⟩, Or.inl (by decide), Or.inl rfl, by decide, by norm_num [Nat.ofDigits]⟩

/-- C82 applied: it is read as -125. -/
example : ∃ v, parseF64 "-12.50e+1" = some (some v) ∧ IsRounded (-125) v := (C82_exact isDecimal_example).1

/-- C82 applied: order. -/
example {a b : NotNan} (ha : parseF64 "-12.50e+1" = some (some a)) (hb : parseF64 "0" = some (some b)) : a ≤ b := by
  have h0 : IsDecimal "0" 0 := ⟨[], 1, ['0'], [0], [], [], [], [], 0, by simp [IsSign], ⟨by simp, rfl⟩, ⟨by simp, rfl⟩, Or.inl ⟨rfl, rfl⟩, by simp, Or.inr ⟨rfl, rfl⟩, by decide, by simp⟩
  obtain ⟨a', h1, h2⟩ := (C82_exact isDecimal_example).1
  obtain ⟨b', h3, h4⟩ := (C82_exact h0).1
  rw [h1] at ha; rw [h3] at hb
  cases ha; cases hb
  exact C82_order h2 h4 (by norm_num)

end DecimalExample

end Phlite
