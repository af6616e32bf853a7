/-
Specification: barcodes as multisets of intervals.
-/
import Mathlib.Order.WithBot
import Mathlib.Data.Multiset.Count
import Mathlib.Data.Multiset.Filter
import Verif.Model.Reduction

namespace Phlite

section
variable {F : Type} [LinearOrder F]

/-- The number of half-open intervals `[b, d)` of `bars` (`d = ⊤` for an infinite interval) that contain both `s` and `t`, for `s ≤ t`. -/
def aliveBars (bars : Multiset (F × WithTop F)) (s t : F) : ℕ := bars.countP fun b => b.1 ≤ s ∧ (t : WithTop F) < b.2

/-- `bars` is a barcode of the family of persistent Betti numbers `β s t` (`s ≤ t`): its intervals are not empty, and for all `s ≤ t` there are
`β s t` that contain `s` and `t`. -/
def IsBarcode (β : ∀ s t : F, s ≤ t → ℕ) (bars : Multiset (F × WithTop F)) : Prop :=
  (∀ b ∈ bars, (b.1 : WithTop F) < b.2) ∧ ∀ s t (h : s ≤ t), aliveBars bars s t = β s t h

variable {T : Type} [DecidableEq T]

/-- The intervals of degree `p` of a diagram: `[f x, ⊤)` for an essential cell `x`, `[f x, f y)` for a pairing of `x` and `y`, unless empty. -/
def diagramBars (deg : T → ℤ) (f : T → F) (dgm : Diagram T) (p : ℤ) : Multiset (F × WithTop F) :=
  ((dgm.essential.filter fun x => deg x = p).val.map fun x => (f x, ⊤)) +
    (dgm.pairings.filter fun x => deg x.1 = p ∧ f x.1 < f x.2).val.map fun x => (f x.1, (f x.2 : WithTop F))

/-- The same for a diagram of the reversed coboundary matrix, where indices are reversed cells, and pairs are (death cell, birth cell). -/
def diagramBarsRev (deg : T → ℤ) (f : T → F) (dgm : Diagram Tᵒᵈ) (p : ℤ) : Multiset (F × WithTop F) :=
  ((dgm.essential.filter fun x => deg (OrderDual.ofDual x) = p).val.map fun x => (f (OrderDual.ofDual x), ⊤)) +
    (dgm.pairings.filter fun x => deg (OrderDual.ofDual x.2) = p ∧ f (OrderDual.ofDual x.2) < f (OrderDual.ofDual x.1)).val.map
      fun x => (f (OrderDual.ofDual x.2), (f (OrderDual.ofDual x.1) : WithTop F))

end
end Phlite
