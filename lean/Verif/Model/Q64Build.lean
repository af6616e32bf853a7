/-
`Q` of phlite/src/fields.rs with 64-bit integers, as compiled: in a debug build (`overflow-checks = true`) an arithmetic overflow panics, in a release build it
wraps; casts with `as` wrap in both; division by zero and `isize::MIN / -1` panic in both. `none` = panic.
-/
import Verif.Model.Q64

namespace Phlite.Q64

/-- The two build profiles. -/
inductive Build
  | debug
  | release
  deriving DecidableEq

/-- Two's complement wrapping to `isize` (64 bits). -/
def wrapI (x : Int) : Int := (x + 9223372036854775808) % 18446744073709551616 - 9223372036854775808
/-- Wrapping to `usize` (64 bits). -/
def wrapU (x : Nat) : Nat := x % 18446744073709551616

/-- The `isize` result of an arithmetic operation with mathematical result `x`. -/
def Build.isize : Build → Int → Option Int
  | .debug, x => ckI x
  | .release, x => some (wrapI x)
/-- The `usize` result of an arithmetic operation with mathematical result `x`. -/
def Build.usize : Build → Nat → Option Nat
  | .debug, x => ckU x
  | .release, x => some (wrapU x)

/-- `x as isize` for an `usize`: wraps in every build. -/
def asIsize (x : Nat) : Int := wrapI x

/-- `a / b` on `isize`: panics for `b = 0` and for `isize::MIN / -1` in every build. -/
def divI (a b : Int) : Option Int := if b = 0 then none else if a = -9223372036854775808 ∧ b = -1 then none else some (a.tdiv b)
/-- `a / b` on `usize`: panics for `b = 0`. -/
def divU (a b : Nat) : Option Nat := if b = 0 then none else some (a / b)

namespace Build

/-- `Q::reduce`, phlite/src/fields.rs:258-261. `unsigned_abs` and num-integer's `gcd` are exact. -/
def reduce (q : Q) : Option Q :=
  let g := Nat.gcd q.num.natAbs q.den
  (divI q.num (asIsize g)).bind fun n => (divU q.den g).map fun d => ⟨n, d⟩

/-- num-integer's `lcm`: `0` if both are `0`, otherwise `a * (b / gcd)`. -/
def lcm (B : Build) (a b : Nat) : Option Nat := if a = 0 ∧ b = 0 then some 0 else B.usize (a * (b / Nat.gcd a b))

/-- `Add for Q`, phlite/src/fields.rs:264-277. Outer option: panic. -/
def add (B : Build) (a b : Q) : Option (Option Q) :=
  (lcm B a.den b.den).bind fun l =>
  (divU l a.den).bind fun fa => (B.isize (asIsize fa * a.num)).bind fun x =>
  (divU l b.den).bind fun fb => (B.isize (asIsize fb * b.num)).bind fun y =>
  (B.isize (x + y)).bind fun n =>
    if n = 0 then some none else (reduce ⟨n, l⟩).map some

/-- `Mul for Q`, phlite/src/fields.rs:281-287. -/
def mul (B : Build) (a b : Q) : Option Q :=
  (B.isize (a.num * b.num)).bind fun n => (B.usize (a.den * b.den)).bind fun d => reduce ⟨n, d⟩

/-- `Q::additive_inverse`, phlite/src/fields.rs:294-296. -/
def neg (B : Build) (a : Q) : Option Q := (B.isize (-a.num)).map fun n => ⟨n, a.den⟩

/-- `Q::mult_inverse`, phlite/src/fields.rs:299-304: `sign * (self.1 as isize)`. -/
def inv (B : Build) (a : Q) : Option Q := (B.isize (a.num.sign * asIsize a.den)).map fun n => ⟨n, a.num.natAbs⟩

end Build
end Phlite.Q64
