/-
Model of phlite/src/fields.rs.
Panics are modelled by an outer `Option` (`none` = panic / undefined behaviour).
-/
namespace Phlite

/-- Models the traits `NonZeroCoefficient` and `Invertible`, phlite/src/fields.rs:19-36.
`add` is `Add<Self, Output = Option<Self>>`, `neg` is `additive_inverse`, `inv` is `mult_inverse`.
Simplification: both traits in one class (every provided coefficient type implements both). -/
class NonZeroCoeff (CF : Type) where
  add : CF → CF → Option CF
  mul : CF → CF → CF
  one : CF
  neg : CF → CF
  inv : CF → CF

namespace NonZeroCoeff
/-- `Add<Option<Self>>`, phlite/src/fields.rs:69-82 (macro `impl_add_options`) and 127-136. -/
def addOpt {CF : Type} [NonZeroCoeff CF] (a : CF) : Option CF → Option CF
  | none => some a
  | some b => add a b
end NonZeroCoeff

/-! ### Z2 -/

/-- `pub struct Z2;` phlite/src/fields.rs:40. -/
inductive Z2 where
  | one
deriving DecidableEq

/-- phlite/src/fields.rs:42-63 and 86-94: `Add`, `Mul`, `Invertible`, `NonZeroCoefficient` for `Z2`. -/
instance : NonZeroCoeff Z2 where
  add _ _ := none
  mul _ _ := Z2.one
  one := Z2.one
  neg a := a
  inv a := a

/-! ### ZP: arithmetic on `NonZeroU8` with its panics -/

/-- The largest `u8`. -/
def u8Max : Nat := 255

/-- `Add<ZP<P>> for ZP<P>`, phlite/src/fields.rs:113-125. The raw bytes are naturals; the outer `none` is
the panic of `checked_add(..).expect(..)` (or of `rem_euclid(0)`), the inner option is the Rust result. -/
def zpAdd (P a b : Nat) : Option (Option Nat) :=
  if a + b > u8Max then none
  else if P = 0 then none
  else
    let result := (a + b) % P
    some (if result = 0 then none else some result)

/-- `Mul<ZP<P>> for ZP<P>`, phlite/src/fields.rs:138-151. Two panics: u8 overflow and a zero product. -/
def zpMul (P a b : Nat) : Option Nat :=
  if a * b > u8Max then none
  else if P = 0 then none
  else
    let product := (a * b) % P
    if product = 0 then none else some product

/-- `ZP::one`, phlite/src/fields.rs:154-156. -/
def zpOne : Nat := 1

/-- `ZP::additive_inverse`, phlite/src/fields.rs:158-160. `P - self` underflows (panic) if `P < self`;
`new_unchecked(0)` is undefined behaviour; both are `none`. -/
def zpNeg (P a : Nat) : Option Nat :=
  if P < a then none
  else if P - a = 0 then none
  else some (P - a)

/-- `Invertible for Z3`, phlite/src/fields.rs:174-183. -/
def z3Inv : Nat → Option Nat
  | 1 => some 1
  | 2 => some 2
  | _ => none

/-- `Invertible for Z5`, phlite/src/fields.rs:185-196. -/
def z5Inv : Nat → Option Nat
  | 1 => some 1
  | 2 => some 3
  | 3 => some 2
  | 4 => some 4
  | _ => none

/-- `Invertible for Z7`, phlite/src/fields.rs:198-211. -/
def z7Inv : Nat → Option Nat
  | 1 => some 1
  | 2 => some 4
  | 3 => some 5
  | 4 => some 2
  | 5 => some 3
  | 6 => some 6
  | _ => none

/-- `Invertible for Z11`, phlite/src/fields.rs:213-230. -/
def z11Inv : Nat → Option Nat
  | 1 => some 1
  | 2 => some 6
  | 3 => some 4
  | 4 => some 3
  | 5 => some 9
  | 6 => some 2
  | 7 => some 8
  | 8 => some 7
  | 9 => some 5
  | 10 => some 10
  | _ => none

/-- `Invertible for Z13`, phlite/src/fields.rs:232-251. -/
def z13Inv : Nat → Option Nat
  | 1 => some 1
  | 2 => some 7
  | 3 => some 9
  | 4 => some 10
  | 5 => some 8
  | 6 => some 11
  | 7 => some 2
  | 8 => some 5
  | 9 => some 3
  | 10 => some 4
  | 11 => some 6
  | 12 => some 12
  | _ => none

/-- `mult_inverse` for the type aliases `Z3, Z5, Z7, Z11, Z13` (phlite/src/fields.rs:163-172); other `ZP<P>` do
not implement `Invertible`. -/
def zpInv (P : Nat) : Nat → Option Nat :=
  match P with
  | 3 => z3Inv
  | 5 => z5Inv
  | 7 => z7Inv
  | 11 => z11Inv
  | 13 => z13Inv
  | _ => fun _ => none

/-! ### Q -/

/-- `pub struct Q(isize, usize)`, phlite/src/fields.rs:255. Unbounded integers here; see `Phlite.Q64` for the
version with 64-bit overflow. -/
structure Q where
  num : Int
  den : Nat
deriving DecidableEq, Repr

namespace Q
/-- `Q::reduce`, phlite/src/fields.rs:258-261. Rust's `/` on `isize` truncates: `Int.tdiv`. -/
def reduce (q : Q) : Q :=
  let g := Nat.gcd q.num.natAbs q.den
  ⟨q.num.tdiv (g : Int), q.den / g⟩

/-- `Add for Q`, phlite/src/fields.rs:264-277. -/
def add (a b : Q) : Option Q :=
  let lcd := Nat.lcm a.den b.den
  let numerator := ((lcd / a.den : Nat) : Int) * a.num + ((lcd / b.den : Nat) : Int) * b.num
  if numerator = 0 then none else some (reduce ⟨numerator, lcd⟩)

/-- `Mul for Q`, phlite/src/fields.rs:281-287. -/
def mul (a b : Q) : Q := reduce ⟨a.num * b.num, a.den * b.den⟩

/-- `Q::one`, phlite/src/fields.rs:290-292. -/
def one : Q := ⟨1, 1⟩

/-- `Q::additive_inverse`, phlite/src/fields.rs:294-296. -/
def neg (a : Q) : Q := ⟨-a.num, a.den⟩

/-- `Q::mult_inverse`, phlite/src/fields.rs:299-304. -/
def inv (a : Q) : Q :=
  let sign := a.num.sign
  ⟨sign * (a.den : Int), a.num.natAbs⟩
end Q

end Phlite
