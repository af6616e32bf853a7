/-
Specification: minimum spanning trees of the complete weighted graph on the points `0, ..., n - 1`.
-/
import Verif.Spec.Graph
import Mathlib.Data.Finset.Card
import Mathlib.Order.Defs.LinearOrder

namespace Phlite

/-- `E` is the set of edges of a spanning tree on the vertices `0, ..., n - 1`: `n - 1` edges `(a, b)`, `a < b < n`, that connect all vertices. -/
structure IsSpanningTree (n : ℕ) (E : Finset (ℕ × ℕ)) : Prop where
  edges : ∀ e ∈ E, e.1 < e.2 ∧ e.2 < n
  card : E.card + 1 = n
  connected : componentCount n (fun a b => (a, b) ∈ E) = 1

/-- `E` is a minimum spanning tree for the edge weights `d`: no exchange of an edge of `E` for another one that leads to a spanning tree again lowers the weight.
For weights that can be added this says that no spanning tree has a smaller total weight (`minimum_iff_sum`). -/
structure IsMinimumSpanningTree {F : Type} [LE F] (n : ℕ) (d : ℕ → ℕ → F) (E : Finset (ℕ × ℕ)) : Prop extends IsSpanningTree n E where
  minimal : ∀ e ∈ E, ∀ f, IsSpanningTree n (insert f (E.erase e)) → d e.1 e.2 ≤ d f.1 f.2

end Phlite
