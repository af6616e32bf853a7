/-
Rounding to binary64.
-/
import Verif.Model.Float64
import Verif.Spec.Digraph
import Mathlib.Tactic.Ring
import Mathlib.Tactic.Linarith

set_option linter.unusedSectionVars false
set_option linter.unusedSimpArgs false

namespace Phlite

/-- The decomposition of a number with at least 54 bits. -/
theorem round_decomp {n : ℕ} (h : ¬ n < 2 ^ 53) : ∃ e q r, 0 < e ∧ n = q * 2 ^ e + r ∧ r < 2 ^ e ∧ 2 ^ 52 ≤ q ∧ q < 2 ^ 53 ∧
    roundNat n = (if 2 ^ e < 2 * r ∨ (2 * r = 2 ^ e ∧ q % 2 = 1) then q + 1 else q) * 2 ^ e := by
  have h0 : n ≠ 0 := by
    rintro rfl; exact h (by norm_num)
  have hl : 53 ≤ Nat.log2 n := (Nat.le_log2 h0).2 (by omega)
  refine ⟨Nat.log2 n - 52, n / 2 ^ (Nat.log2 n - 52), n % 2 ^ (Nat.log2 n - 52), by omega, ?_, Nat.mod_lt _ (by positivity), ?_, ?_, ?_⟩
  · rw [Nat.div_add_mod']
  · rw [Nat.le_div_iff_mul_le (by positivity), ← pow_add]
    have : 52 + (Nat.log2 n - 52) = Nat.log2 n := by omega
    rw [this]
    exact Nat.log2_self_le h0
  · rw [Nat.div_lt_iff_lt_mul (by positivity), ← pow_add]
    have : 53 + (Nat.log2 n - 52) = Nat.log2 n + 1 := by omega
    rw [this]
    exact Nat.lt_log2_self
  · unfold roundNat
    rw [if_neg h]

theorem has53Bits_round (n : ℕ) : Has53Bits (roundNat n) := by
  by_cases h : n < 2 ^ 53
  · unfold roundNat; rw [if_pos h]
    exact ⟨n, 0, h, by simp⟩
  · obtain ⟨e, q, r, _, _, _, _, h2, h3⟩ := round_decomp h
    rw [h3]
    split
    · by_cases hq : q + 1 < 2 ^ 53
      · exact ⟨q + 1, e, hq, rfl⟩
      · have : q + 1 = 2 ^ 53 := by omega
        exact ⟨1, 53 + e, by norm_num, by rw [this, pow_add]; ring⟩
    · exact ⟨q, e, h2, rfl⟩

/-- The representable numbers around `q 2^e + r`. -/
theorem has53Bits_gap {e q m : ℕ} (hq : 2 ^ 52 ≤ q) (hm : Has53Bits m) : m ≤ q * 2 ^ e ∨ (q + 1) * 2 ^ e ≤ m := by
  obtain ⟨a, e', ha, rfl⟩ := hm
  by_cases hee : e ≤ e'
  · obtain ⟨k, rfl⟩ := Nat.exists_eq_add_of_le hee
    rw [pow_add, mul_comm (2 ^ e), ← mul_assoc]
    rcases Nat.lt_or_ge q (a * 2 ^ k) with h | h
    · exact Or.inr (Nat.mul_le_mul_right _ h)
    · exact Or.inl (Nat.mul_le_mul_right _ h)
  · left
    have h1 : 2 ^ e = 2 ^ e' * 2 ^ (e - e') := by rw [← pow_add]; congr 1; omega
    have h2 : 2 ≤ 2 ^ (e - e') := by
      calc 2 = 2 ^ 1 := rfl
        _ ≤ 2 ^ (e - e') := Nat.pow_le_pow_right (by norm_num) (by omega)
    rw [h1]
    calc a * 2 ^ e' ≤ 2 ^ 53 * 2 ^ e' := Nat.mul_le_mul_right _ ha.le
      _ = 2 ^ 52 * (2 ^ e' * 2) := by ring
      _ ≤ q * (2 ^ e' * 2 ^ (e - e')) := Nat.mul_le_mul hq (Nat.mul_le_mul_left _ h2)

theorem roundNat_of_bits {n : ℕ} (h : Has53Bits n) : roundNat n = n := by
  by_cases hn : n < 2 ^ 53
  · unfold roundNat; rw [if_pos hn]
  · obtain ⟨e, q, r, he, h0, h1, h2, h3, h4⟩ := round_decomp hn
    have hr : r = 0 := by
      rcases has53Bits_gap (e := e) h2 h with h5 | h5
      · omega
      · rw [Nat.add_mul] at h5; omega
    subst hr
    rw [h4, if_neg]
    · omega
    · have : 0 < 2 ^ e := by positivity
      omega

/-- Bounds of the rounded number. -/
theorem round_bounds {n e q r : ℕ} (h0 : n = q * 2 ^ e + r) (h1 : r < 2 ^ e)
    (h4 : roundNat n = (if 2 ^ e < 2 * r ∨ (2 * r = 2 ^ e ∧ q % 2 = 1) then q + 1 else q) * 2 ^ e) :
    (roundNat n = q * 2 ^ e ∧ 2 * r ≤ 2 ^ e) ∨ (roundNat n = (q + 1) * 2 ^ e ∧ 2 ^ e ≤ 2 * r) := by
  rw [h4]
  split
  · right; exact ⟨rfl, by omega⟩
  · left; exact ⟨rfl, by omega⟩

theorem roundNat_mono {n m : ℕ} (h : n ≤ m) : roundNat n ≤ roundNat m := by
  by_cases hm : m < 2 ^ 53
  · unfold roundNat
    rw [if_pos hm, if_pos (by omega)]
    exact h
  · obtain ⟨e', q', r', he', h0', h1', h2', h3', h4'⟩ := round_decomp hm
    by_cases hn : n < 2 ^ 53
    · unfold roundNat at h4' ⊢
      rw [if_pos hn]
      rw [if_neg hm] at h4' ⊢
      rw [h4']
      calc n ≤ 2 ^ 52 * 2 ^ 1 := by omega
        _ ≤ q' * 2 ^ e' := Nat.mul_le_mul h2' (Nat.pow_le_pow_right (by norm_num) he')
        _ ≤ _ := Nat.mul_le_mul_right _ (by split <;> omega)
    · obtain ⟨e, q, r, he, h0, h1, h2, h3, h4⟩ := round_decomp hn
      rcases lt_trichotomy e e' with hlt | rfl | hgt
      · rw [h4, h4']
        have hpow : 2 ^ (e + 1) ≤ 2 ^ e' := Nat.pow_le_pow_right (by norm_num) hlt
        calc _ ≤ (q + 1) * 2 ^ e := Nat.mul_le_mul_right _ (by split <;> omega)
          _ ≤ 2 ^ 53 * 2 ^ e := Nat.mul_le_mul_right _ (by omega)
          _ = 2 ^ 52 * 2 ^ (e + 1) := by ring
          _ ≤ q' * 2 ^ e' := Nat.mul_le_mul h2' hpow
          _ ≤ _ := Nat.mul_le_mul_right _ (by split <;> omega)
      · rw [h4, h4']
        refine Nat.mul_le_mul_right _ ?_
        rcases lt_trichotomy q q' with hq | rfl | hq
        · split <;> split <;> omega
        · split <;> split <;> omega
        · exfalso
          have : (q' + 1) * 2 ^ e ≤ q * 2 ^ e := Nat.mul_le_mul_right _ hq
          rw [Nat.add_mul] at this
          omega
      · exfalso
        have hpow : 2 ^ (e' + 1) ≤ 2 ^ e := Nat.pow_le_pow_right (by norm_num) hgt
        have h5 : (q' + 1) * 2 ^ e' ≤ q * 2 ^ e := by
          calc (q' + 1) * 2 ^ e' ≤ 2 ^ 53 * 2 ^ e' := Nat.mul_le_mul_right _ (by omega)
            _ = 2 ^ 52 * 2 ^ (e' + 1) := by ring
            _ ≤ q * 2 ^ e := Nat.mul_le_mul h2 hpow
        rw [Nat.add_mul] at h5
        omega

theorem roundF64_mono {n m : ℕ} (h : n ≤ m) : roundF64 n ≤ roundF64 m := by
  have := roundNat_mono h
  unfold roundF64
  split
  · split
    · exact WithTop.coe_le_coe.2 this
    · exact le_top
  · rw [if_neg (by omega)]

theorem roundF64_valid (k : ℕ) : ∀ n : ℕ, roundF64 k = WithTop.some n → Has53Bits n ∧ n < overflowF64 := by
  intro n hn
  unfold roundF64 at hn
  split at hn
  · rename_i h
    have : roundNat k = n := WithTop.coe_injective hn
    subst this
    exact ⟨has53Bits_round k, h⟩
  · exact absurd hn.symm (WithTop.coe_ne_top)

theorem roundF64_of_valid {n : ℕ} (h : Has53Bits n ∧ n < overflowF64) : roundF64 n = WithTop.some n := by
  unfold roundF64
  rw [roundNat_of_bits h.1, if_pos h.2]

namespace F64

instance : LinearOrder F64 := inferInstanceAs (LinearOrder { v : WithTop ℕ // ∀ n : ℕ, v = WithTop.some n → Has53Bits n ∧ n < overflowF64 })

/-- The number nearest to `n` multiples of 2^-1074. -/
def round (n : ℕ) : F64 := ⟨roundF64 n, roundF64_valid n⟩

instance : Zero F64 := ⟨round 0⟩

instance : OrderTop F64 where
  top := ⟨⊤, fun n h => absurd h.symm WithTop.coe_ne_top⟩
  le_top x := (le_top : x.1 ≤ ⊤)

/-- `+` on `F64`: `addF64`. -/
def add (x y : F64) : F64 := ⟨addF64 x.1 y.1, by
  obtain ⟨x, hx⟩ := x
  obtain ⟨y, hy⟩ := y
  cases x with
  | top => intro n h; exact absurd h.symm WithTop.coe_ne_top
  | coe x =>
    cases y with
    | top => intro n h; exact absurd h.symm WithTop.coe_ne_top
    | coe y => exact roundF64_valid (x + y)⟩

theorem zero_val : (0 : F64).1 = WithTop.some 0 := by
  show roundF64 0 = _
  exact roundF64_of_valid ⟨⟨0, 0, by norm_num, by norm_num⟩, by unfold overflowF64; positivity⟩

theorem top_val : (⊤ : F64).1 = ⊤ := rfl

theorem zero_le' (x : F64) : 0 ≤ x := by
  show (0 : F64).1 ≤ x.1
  rw [zero_val]
  exact bot_le

theorem add_coe {x y : F64} {a b : ℕ} (hx : x.1 = WithTop.some a) (hy : y.1 = WithTop.some b) : add x y = round (a + b) := by
  apply Subtype.ext
  show addF64 x.1 y.1 = roundF64 (a + b)
  rw [hx, hy]; rfl

theorem add_top {x y : F64} (h : x.1 = ⊤ ∨ y.1 = ⊤) : add x y = ⊤ := by
  apply Subtype.ext
  show addF64 x.1 y.1 = ⊤
  rcases h with h | h
  · rw [h]; rfl
  · rw [h]
    cases x.1 <;> rfl

theorem cases_val (x : F64) : x.1 = ⊤ ∨ ∃ a : ℕ, x.1 = WithTop.some a ∧ Has53Bits a ∧ a < overflowF64 := by
  obtain ⟨x, hx⟩ := x
  cases x with
  | top => exact Or.inl rfl
  | coe x => exact Or.inr ⟨x, rfl, hx x rfl⟩

theorem le_round {x : F64} {a n : ℕ} (hx : x.1 = WithTop.some a) (h : a ≤ n) : x ≤ round n := by
  show x.1 ≤ roundF64 n
  rw [hx, ← roundF64_of_valid (x.2 a hx)]
  exact roundF64_mono h

/-- The addition of floating point numbers is an addition of lengths. -/
theorem isLengthAddition : IsLengthAddition add where
  zero_add w := by
    rcases cases_val w with h | ⟨b, hb, hv⟩
    · rw [add_top (Or.inr h)]
      exact Subtype.ext h.symm
    · rw [add_coe zero_val hb, Nat.zero_add]
      exact Subtype.ext (by rw [hb]; exact roundF64_of_valid hv)
  mono x y w h := by
    rcases cases_val y with hy | ⟨b, hb, _⟩
    · rw [add_top (x := y) (Or.inl hy)]; exact le_top
    · rcases cases_val w with hw | ⟨c, hc, _⟩
      · rw [add_top (x := y) (Or.inr hw)]; exact le_top
      · rcases cases_val x with hx | ⟨a, ha, _⟩
        · have : x.1 ≤ y.1 := h
          rw [hx, hb] at this
          exact absurd (top_le_iff.1 this) WithTop.coe_ne_top
        · rw [add_coe ha hc, add_coe hb hc]
          have : x.1 ≤ y.1 := h
          rw [ha, hb] at this
          have : a ≤ b := WithTop.coe_le_coe.1 this
          exact roundF64_mono (by omega)
  le_add_right x w _ := by
    rcases cases_val x with hx | ⟨a, ha, _⟩
    · rw [add_top (Or.inl hx)]; exact le_top
    · rcases cases_val w with hw | ⟨c, hc, _⟩
      · rw [add_top (Or.inr hw)]; exact le_top
      · rw [add_coe ha hc]
        exact le_round ha (by omega)
  le_add_left x w _ := by
    rcases cases_val x with hx | ⟨a, ha, _⟩
    · rw [add_top (Or.inl hx)]; exact le_top
    · rcases cases_val w with hw | ⟨c, hc, _⟩
      · rw [add_top (Or.inr hw)]; exact le_top
      · rw [add_coe ha hc]
        exact le_round hc (by omega)

end F64

end Phlite
