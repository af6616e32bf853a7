/-
Specification: the elements of a basis, in order.
-/
import Verif.Model.Matrices

namespace Phlite

/-- The elements of a basis: `element(0), ..., element(size - 1)`, if none of these panics. -/
def Basis.elems {E : Type} (B : Basis E) : Option (List E) := mapOpt B.element (List.range B.size)

end Phlite
