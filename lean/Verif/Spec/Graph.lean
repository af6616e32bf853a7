/-
Specification: connected components of a relation on the vertices `0, ..., n - 1`.
-/
import Mathlib.Combinatorics.SimpleGraph.Connectivity.Connected
import Mathlib.SetTheory.Cardinal.Finite

namespace Phlite

/-- The number of connected components of the graph on the vertices `0, ..., n - 1` with an edge between `a` and `b` if `R a b` or `R b a`. -/
noncomputable def componentCount (n : ℕ) (R : ℕ → ℕ → Prop) : ℕ :=
  Nat.card (SimpleGraph.fromRel fun a b : Fin n => R a b).ConnectedComponent

end Phlite
