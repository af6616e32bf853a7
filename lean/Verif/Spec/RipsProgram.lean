/-
Specification: exact values of `f64` numbers, the length filter of the Rips program, decimal numerals.
-/
import Mathlib.Data.Rat.Defs
import Mathlib.Data.Nat.Digits.Defs
import Verif.Model.RipsProgram

namespace Phlite

/-- The exact value of the finite `f64` number `z * 2^-1074`. -/
def F64Value.real (z : ℤ) : ℚ := z / 2 ^ 1074

/-- `b` is the finite number `x`. -/
def NotNan.HasValue (b : NotNan) (x : ℚ) : Prop := ∃ z : ℤ, b.1 = F64Value.fin z ∧ F64Value.real z = x

/-- The interval from `b` to `e` has length at least 0.01 + 2^-60, where 0.01 stands for the nearest `f64`, i.e. for 5764607523034235 * 2^-59; or it is infinite. -/
def IsLong (b e : NotNan) : Prop :=
  (∃ x y, b.HasValue x ∧ e.HasValue y ∧ (5764607523034235 : ℚ) / 2 ^ 59 + 1 / 2 ^ 60 ≤ y - x) ∨
  (e.1 = ((⊤ : WithTop ℤ) : WithBot (WithTop ℤ)) ∧ b.1 ≠ ((⊤ : WithTop ℤ) : WithBot (WithTop ℤ))) ∨ (b.1 = ⊥ ∧ e.1 ≠ ⊥)

/-- The text `s` is a decimal numeral for `k`, with any number of leading zeros and possibly with a plus sign. -/
def IsNumeral (s : String) (k : ℕ) : Prop :=
  ∃ ds : List ℕ, ds ≠ [] ∧ (∀ d ∈ ds, d < 10) ∧ (s.toList = ds.map Nat.digitChar ∨ s.toList = '+' :: ds.map Nat.digitChar) ∧ k = Nat.ofDigits 10 ds.reverse

end Phlite
