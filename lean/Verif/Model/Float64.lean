/-
Model of the addition of non-negative `f64` numbers (IEEE 754 binary64, round to nearest, ties to even), with which the shortest path lengths are computed
(phlite_grpph/src/lib.rs:39; the weights are `f64`). A finite number is given as a multiple of 2^-1074, the least positive number; `1.0` is 2^1074.
Weights are not negative in the theorems about shortest paths, and `NaN` behaves like `∞` (see Verif/Model/Dijkstra.lean), so neither is modelled. Zero has no sign here:
`-0.0 == 0.0` and neither sum nor comparison tells them apart in this code.
-/
import Mathlib.Order.WithBot
import Mathlib.Data.Nat.Log

namespace Phlite

/-- Rounding of a natural number to 53 significant bits: to the nearest, ties to the even mantissa; no bound on the exponent. -/
def roundNat (n : ℕ) : ℕ :=
  if n < 2 ^ 53 then n
  else
    let e := Nat.log2 n - 52
    let q := n / 2 ^ e
    let r := n % 2 ^ e
    (if 2 ^ e < 2 * r ∨ (2 * r = 2 ^ e ∧ q % 2 = 1) then q + 1 else q) * 2 ^ e

/-- `n` has at most 53 significant bits. -/
def Has53Bits (n : ℕ) : Prop := ∃ m e, m < 2 ^ 53 ∧ n = m * 2 ^ e

/-- 2^1024, in multiples of 2^-1074. -/
@[irreducible] def overflowF64 : ℕ := 2 ^ 2098

/-- Rounding to binary64, in multiples of 2^-1074: numbers that are at least 2^1024 after rounding overflow to infinity. -/
@[irreducible] def roundF64 (n : ℕ) : WithTop ℕ := if roundNat n < overflowF64 then WithTop.some (roundNat n) else ⊤

/-- The sum of two non-negative `f64` numbers. -/
def addF64 : WithTop ℕ → WithTop ℕ → WithTop ℕ
  | some x, some y => roundF64 (x + y)
  | _, _ => ⊤

/-- The non-negative `f64` numbers and `∞`, in multiples of 2^-1074. -/
def F64 : Type := { v : WithTop ℕ // ∀ n : ℕ, v = WithTop.some n → Has53Bits n ∧ n < overflowF64 }

end Phlite
