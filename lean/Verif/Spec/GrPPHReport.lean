/-
Specification: the barcode of grounded persistent path homology, and the intervals reported by `grpph`.
-/
import Verif.Spec.GrPPH
import Verif.Spec.Intervals

namespace Phlite

section
variable {F : Type} [LinearOrder F] [Zero F]

/-- `bars` is the barcode in degree 0 (for `p = 0`) or 1 (otherwise) of the grounded persistent path homology of the digraph with edges `E` and arrows
appearing at `time`: the intervals are not empty and are born at or after time 0, and for all `0 ≤ s ≤ t` as many contain `s` and `t` as the rank of the map
from the homology at time `s` to that at time `t`. -/
structure IsGroundedBarcode (K : Type) [Field K] (E : Set (ℕ × ℕ)) (n : ℕ) (time : ℕ → ℕ → Option F) (p : ℕ) (bars : Multiset (F × WithTop F)) : Prop where
  nonneg : ∀ b ∈ bars, 0 ≤ b.1
  nonempty : ∀ b ∈ bars, (b.1 : WithTop F) < b.2
  count : ∀ s t (_ : 0 ≤ s) (h : s ≤ t), aliveBars bars s t = if p = 0 then groundedBetti0 K E n time h else groundedBetti1 K E n time h

/-- The intervals of a list of births of essential classes and a list of pairs of birth and death. -/
def reportIntervals (essential : List F) (pairings : List (F × F)) : Multiset (F × WithTop F) :=
  ((essential.map fun x => (x, ⊤)) ++ pairings.map fun b => (b.1, (b.2 : WithTop F)) : List (F × WithTop F))

/-- The parts of the intervals from time 0 on: end points before 0 are moved to 0, and intervals that become empty are dropped. -/
def clampIntervals (bars : Multiset (F × WithTop F)) : Multiset (F × WithTop F) :=
  (bars.map fun b => (max b.1 0, max b.2 ((0 : F) : WithTop F))).filter fun b => (b.1 : WithTop F) < b.2

end
end Phlite
