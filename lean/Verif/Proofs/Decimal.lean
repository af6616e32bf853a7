/-
Rounding of rational numbers to binary64.
-/
import Verif.Model.Decimal
import Verif.Proofs.Float64

set_option linter.unusedSectionVars false
set_option linter.unusedSimpArgs false

namespace Phlite

/-- The decomposition of the number to be rounded. -/
theorem rat_decomp (num : ℕ) {den : ℕ} (hd : 0 < den) : ∃ e q r, num = q * (den * 2 ^ e) + r ∧ r < den * 2 ^ e ∧ (e = 0 ∨ 2 ^ 52 ≤ q) ∧ q < 2 ^ 53 ∧
    roundRat num den = (if den * 2 ^ e < 2 * r ∨ (2 * r = den * 2 ^ e ∧ q % 2 = 1) then q + 1 else q) * 2 ^ e := by
  refine ⟨if num / den < 2 ^ 53 then 0 else Nat.log2 (num / den) - 52, num / (den * 2 ^ (if num / den < 2 ^ 53 then 0 else Nat.log2 (num / den) - 52)),
    num % (den * 2 ^ (if num / den < 2 ^ 53 then 0 else Nat.log2 (num / den) - 52)), (Nat.div_add_mod' _ _).symm, Nat.mod_lt _ (by positivity), ?_, ?_, rfl⟩
  · by_cases h : num / den < 2 ^ 53
    · left; rw [if_pos h]
    · right
      rw [if_neg h, ← Nat.div_div_eq_div_mul]
      have h0 : num / den ≠ 0 := by rintro e; rw [e] at h; exact h (by norm_num)
      have hl : 53 ≤ Nat.log2 (num / den) := (Nat.le_log2 h0).2 (by omega)
      rw [Nat.le_div_iff_mul_le (by positivity), ← pow_add]
      have : 52 + (Nat.log2 (num / den) - 52) = Nat.log2 (num / den) := by omega
      rw [this]
      exact Nat.log2_self_le h0
  · by_cases h : num / den < 2 ^ 53
    · rw [if_pos h, pow_zero, mul_one]; exact h
    · rw [if_neg h, ← Nat.div_div_eq_div_mul, Nat.div_lt_iff_lt_mul (by positivity), ← pow_add]
      have h0 : num / den ≠ 0 := by rintro e; rw [e] at h; exact h (by norm_num)
      have hl : 53 ≤ Nat.log2 (num / den) := (Nat.le_log2 h0).2 (by omega)
      have : 53 + (Nat.log2 (num / den) - 52) = Nat.log2 (num / den) + 1 := by omega
      rw [this]
      exact Nat.lt_log2_self

theorem has53Bits_mul {q e : ℕ} (hq : q ≤ 2 ^ 53) : Has53Bits (q * 2 ^ e) := by
  by_cases h : q < 2 ^ 53
  · exact ⟨q, e, h, rfl⟩
  · have : q = 2 ^ 53 := by omega
    exact ⟨1, 53 + e, by norm_num, by rw [this, pow_add]; ring⟩

theorem has53Bits_roundRat (num : ℕ) {den : ℕ} (hd : 0 < den) : Has53Bits (roundRat num den) := by
  obtain ⟨e, q, r, _, _, _, h2, h3⟩ := rat_decomp num hd
  rw [h3]
  split
  · exact has53Bits_mul (by omega)
  · exact has53Bits_mul (by omega)

theorem isF64_signed {n : ℕ} (h : Has53Bits n) (neg : Bool) : IsF64 (signedF64 neg n) := by
  intro z hz
  unfold signedF64 at hz
  split at hz
  · rename_i hn
    have : (if neg then -(n : ℤ) else n) = z := WithTop.coe_injective (WithBot.coe_injective hz)
    have : z.natAbs = n := by rw [← this]; cases neg <;> simp
    rw [this]; exact ⟨h, hn⟩
  · cases neg with
    | true => exact absurd hz.symm WithBot.coe_ne_bot
    | false => exact absurd (WithBot.coe_injective hz).symm WithTop.coe_ne_top

theorem isF64_top : IsF64 ((⊤ : WithTop ℤ) : WithBot (WithTop ℤ)) := fun _ h => absurd (WithBot.coe_injective h).symm WithTop.coe_ne_top

theorem isF64_bot : IsF64 ⊥ := fun _ h => absurd h.symm WithBot.coe_ne_bot

theorem isF64_decimal (neg : Bool) (m : ℕ) (e : ℤ) : IsF64 (decimalF64 neg m e) :=
  isF64_signed (has53Bits_roundRat _ (by positivity)) neg

theorem isF64_parse {s : String} {v : F64Value} (h : parseF64Value s = some (some v)) : IsF64 v := by
  unfold parseF64Value at h
  dsimp only at h
  split at h
  · cases h; exact isF64_decimal _ _ _
  · split at h
    · cases h
    · split at h
      · cases h
        cases (parseSign s.toList).1 with
        | true => exact isF64_bot
        | false => exact isF64_top
      · cases h

end Phlite
