/-
Specification: reading persistent Betti numbers off a diagram.
-/
import Verif.Model.Reduction
import Verif.Spec.Reduction

namespace Phlite

section
variable {T F : Type} [LinearOrder F] [DecidableEq T]

/-- The cells of degree `d` among `all`. -/
def cellsOf (deg : T → ℤ) (all : List T) : ℤ → List T := fun d => all.filter fun x => deg x = d

open Classical in
/-- The number of bars of degree `p` of the diagram that are born at or before `s` and still alive at `t`: essential cells of degree `p`
that appear by `s`, and pairs of a birth cell of degree `p` that appears by `s` and a death cell that appears after `t`. -/
noncomputable def barsAlive (deg : T → ℤ) (f : T → F) (dgm : Diagram T) (p : ℤ) (s t : F) : ℕ :=
  (dgm.essential.filter fun x => deg x = p ∧ f x ≤ s).card +
    (dgm.pairings.filter fun x => deg x.1 = p ∧ f x.1 ≤ s ∧ t < f x.2).card

/-- The same for a diagram of the reversed coboundary matrix, where indices are reversed cells, and pairs are (death cell, birth cell). -/
noncomputable def barsAliveRev (deg : T → ℤ) (f : T → F) (dgm : Diagram Tᵒᵈ) (p : ℤ) (s t : F) : ℕ :=
  open Classical in
  (dgm.essential.filter fun x => deg (OrderDual.ofDual x) = p ∧ f (OrderDual.ofDual x) ≤ s).card +
    (dgm.pairings.filter fun x => deg (OrderDual.ofDual x.2) = p ∧ f (OrderDual.ofDual x.2) ≤ s ∧ t < f (OrderDual.ofDual x.1)).card

end
end Phlite
