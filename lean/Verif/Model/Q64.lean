/-
Model of `Q` in phlite/src/fields.rs with 64-bit integers. `none` = an integer operation overflows (a panic in a debug build,
a wrapped and hence unspecified value in a release build).
-/
import Verif.Model.Fields

namespace Phlite.Q64

/-- `x` fits in `isize`, i.e. `-2^63 ≤ x < 2^63` (64-bit platform). -/
def inI (x : Int) : Bool := -9223372036854775808 ≤ x && x < 9223372036854775808
/-- `x` fits in `usize`, i.e. `x < 2^64` (64-bit platform). -/
def inU (x : Nat) : Bool := x < 18446744073709551616

/-- Checked `isize` result. -/
def ckI (x : Int) : Option Int := if inI x then some x else none
/-- Checked `usize` result. -/
def ckU (x : Nat) : Option Nat := if inU x then some x else none
/-- `x as isize` for an `usize`, `none` if it wraps. -/
def castI (x : Nat) : Option Int := ckI (x : Int)

/-- `Q::reduce`, phlite/src/fields.rs:258-261: `unsigned_abs` cannot overflow; `gcd as isize` may wrap; division by a
zero gcd panics; the quotient of an in-range dividend by a positive divisor is in range. -/
def reduce (q : Q) : Option Q := do
  let g := Nat.gcd q.num.natAbs q.den
  let gi ← castI g
  if g = 0 then none else some ⟨q.num.tdiv gi, q.den / g⟩

/-- `Add for Q`, phlite/src/fields.rs:264-277 with every intermediate checked. `lcm` of num-integer is computed as
`a * (b / gcd)`, whose only intermediate is the result itself. A zero denominator panics. Outer option: overflow. -/
def add (a b : Q) : Option (Option Q) := do
  let lcd ← ckU (Nat.lcm a.den b.den)
  if a.den = 0 ∨ b.den = 0 then none
  let fa ← castI (lcd / a.den)
  let x ← ckI (fa * a.num)
  let fb ← castI (lcd / b.den)
  let y ← ckI (fb * b.num)
  let numerator ← ckI (x + y)
  if numerator = 0 then some none else (reduce ⟨numerator, lcd⟩).map some

/-- `Mul for Q`, phlite/src/fields.rs:281-287. -/
def mul (a b : Q) : Option Q := do
  let n ← ckI (a.num * b.num)
  let d ← ckU (a.den * b.den)
  reduce ⟨n, d⟩

/-- `Q::one`, phlite/src/fields.rs:290-292. -/
def one : Q := ⟨1, 1⟩

/-- `Q::additive_inverse`, phlite/src/fields.rs:294-296: overflows for `isize::MIN`. -/
def neg (a : Q) : Option Q := do
  let n ← ckI (-a.num)
  some ⟨n, a.den⟩

/-- `Q::mult_inverse`, phlite/src/fields.rs:299-304: `self.1 as isize` may wrap. -/
def inv (a : Q) : Option Q := do
  let d ← castI a.den
  let n ← ckI (a.num.sign * d)
  some ⟨n, a.num.natAbs⟩

end Phlite.Q64
