/-
Specification: the distance matrices that the script phlite_rips/circle_distance_matrix.py prints.
-/
import Mathlib.Order.Lattice
import Mathlib.Data.Int.Init
import Mathlib.Data.Nat.Notation

namespace Phlite

/-- `dist(i, j)`, phlite_rips/circle_distance_matrix.py:5-6: the number of steps between `i` and `j` on a circle with `n` points. (`%` of Python rounds towards minus
infinity, like `%` on integers here for a positive divisor.) -/
def circleDist (n i j : ℕ) : ℕ := (min (((j : ℤ) - i) % n) (((i : ℤ) - j) % n)).toNat

/-- The text that the script prints for the number `n`, as records of entries, phlite_rips/circle_distance_matrix.py:11-14. -/
def circleRecords (n : ℕ) : List (List String) := (List.range n).map fun i => (List.range n).map fun j => toString (circleDist n i j)

/-- The text itself: a line for each record, with commas between the entries. -/
def circleText (n : ℕ) : String := String.join ((circleRecords n).map fun row => ",".intercalate row ++ "\n")

end Phlite
