/-
Specification: matchings between barcodes, as in the definition of the bottleneck distance.
-/
import Verif.Spec.Intervals
import Mathlib.Algebra.Order.Group.Unbundled.Abs
import Mathlib.Algebra.Order.Field.Basic

namespace Phlite

section
variable {F : Type} [Field F] [LinearOrder F]

/-- Two intervals are `δ`-close: both are infinite or both are finite, and their end points differ by at most `δ`. -/
def BarsClose (δ : F) (a b : F × WithTop F) : Prop :=
  |a.1 - b.1| ≤ δ ∧ ((a.2 = ⊤ ∧ b.2 = ⊤) ∨ ∃ u v : F, a.2 = u ∧ b.2 = v ∧ |u - v| ≤ δ)

/-- A finite interval of length at most `2 * δ`, i.e. within `δ` of an empty one. -/
def BarShort (δ : F) (a : F × WithTop F) : Prop := ∃ u : F, a.2 = u ∧ u - a.1 ≤ 2 * δ

/-- The bottleneck distance of `A` and `B` is at most `δ`: there is a partial matching of the intervals (`pairs`) in which matched intervals are
`δ`-close, and the unmatched ones (`A'`, `B'`) have length at most `2 * δ`. -/
def BottleneckLE (δ : F) (A B : Multiset (F × WithTop F)) : Prop :=
  ∃ (pairs : Multiset ((F × WithTop F) × (F × WithTop F))) (A' B' : Multiset (F × WithTop F)),
    A = pairs.map Prod.fst + A' ∧ B = pairs.map Prod.snd + B' ∧
    (∀ x ∈ pairs, BarsClose δ x.1 x.2) ∧ (∀ a ∈ A', BarShort δ a) ∧ ∀ b ∈ B', BarShort δ b

end
end Phlite
