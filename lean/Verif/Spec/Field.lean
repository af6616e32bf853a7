/-
Specification: what it means for a coefficient type to be "the non-zero elements of a field".
-/
import Verif.Model.Fields
import Mathlib.Algebra.Field.Defs

namespace Phlite

/-- `CF` (with the operations of the traits `NonZeroCoefficient`/`Invertible`) is exactly the set of non-zero elements of
the field `K`: `val` is a bijection onto `K \ {0}` that turns each operation into the field operation, and `add` returns
`None` exactly for a zero sum. -/
class LawfulCoeff (CF K : Type) [NonZeroCoeff CF] [Field K] where
  val : CF → K
  val_inj : ∀ a b, val a = val b → a = b
  val_ne_zero : ∀ a, val a ≠ 0
  val_surj : ∀ k : K, k ≠ 0 → ∃ a, val a = k
  val_one : val NonZeroCoeff.one = 1
  val_mul : ∀ a b, val (NonZeroCoeff.mul a b) = val a * val b
  val_neg : ∀ a, val (NonZeroCoeff.neg a) = -val a
  val_inv : ∀ a, val (NonZeroCoeff.inv a) = (val a)⁻¹
  val_add : ∀ a b, (NonZeroCoeff.add a b).elim 0 val = val a + val b

/-- The field value of an optional coefficient (`None` is zero). -/
def optVal {CF : Type} (K : Type) [NonZeroCoeff CF] [Field K] [LawfulCoeff CF K] (c : Option CF) : K :=
  c.elim 0 (LawfulCoeff.val (K := K))

end Phlite
