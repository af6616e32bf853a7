/-
Specification: the shortest decimal number for an `f64`, and decimal notation without an exponent.
-/
import Verif.Spec.RipsText

namespace Phlite

/-- `x` is a shortest decimal number that is read as `v`, whose value is `y`: no decimal number that is read as `v` has fewer significant digits, and none with as many digits is nearer to `y`. -/
def IsShortest (v : NotNan) (y x : ℚ) : Prop :=
  ∃ (c e : ℤ), x = c * 10 ^ e ∧ IsRounded x v ∧ ∀ c' e' : ℤ, IsRounded (c' * 10 ^ e') v →
    (∀ j : ℕ, |c'| < 10 ^ j → |c| < 10 ^ j) ∧ ((∀ j : ℕ, |c| < 10 ^ j → |c'| < 10 ^ j) → distQ y x ≤ distQ y (c' * 10 ^ e'))

/-- The text `s` is the number `x` in decimal notation without an exponent: a minus sign if it is negative, digits without superfluous zeros in front and, if the number is not
a whole number, a point and digits without superfluous zeros at the end. -/
def IsPlainText (s : String) (x : ℚ) : Prop :=
  ∃ before is after fs, IsDigits before is ∧ IsDigits after fs ∧ is ≠ [] ∧ (is = [0] ∨ is.head? ≠ some 0) ∧ fs.getLast? ≠ some 0 ∧
    s.toList = (if x < 0 then ['-'] else []) ++ before ++ (if fs = [] then [] else '.' :: after) ∧
    |x| = ((Nat.ofDigits 10 (is ++ fs).reverse : ℕ) : ℚ) * 10 ^ (-(fs.length : ℤ))

end Phlite
