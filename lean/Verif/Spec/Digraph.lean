/-
Specification: walks and shortest path lengths in weighted digraphs.

`add` is the addition of lengths. It need not be associative: for floating point numbers the length of a walk is computed from its start to its end.
-/
import Mathlib.Order.Bounds.Basic
import Mathlib.Order.Lattice
import Mathlib.Data.Option.Basic

namespace Phlite

section
variable {F : Type} [LinearOrder F] [Zero F]

/-- What is assumed of the addition of lengths (it holds in ordered additive monoids, and for floating point numbers without NaN). -/
structure IsLengthAddition (add : F → F → F) : Prop where
  zero_add : ∀ w, add 0 w = w
  mono : ∀ x y w, x ≤ y → add x w ≤ add y w
  le_add_right : ∀ x w, 0 ≤ w → x ≤ add x w
  le_add_left : ∀ x w, 0 ≤ x → w ≤ add x w

/-- There is a walk from `i` to `j` of length `x` along edges `(source, target, weight)` of finite weight. -/
inductive IsWalk [OrderTop F] (add : F → F → F) (edges : List (ℕ × ℕ × F)) (i : ℕ) : ℕ → F → Prop
  | nil : IsWalk add edges i i 0
  | snoc {k j : ℕ} {x w : F} : IsWalk add edges i k x → (k, j, w) ∈ edges → w < ⊤ → IsWalk add edges i j (add x w)

/-- There is a walk from `i` to `j` of length `x` along `k` edges of finite weight. -/
inductive IsWalkOf [OrderTop F] (add : F → F → F) (edges : List (ℕ × ℕ × F)) (i : ℕ) : ℕ → ℕ → F → Prop
  | nil : IsWalkOf add edges i 0 i 0
  | snoc {m k j : ℕ} {x w : F} : IsWalkOf add edges i m k x → (k, j, w) ∈ edges → w < ⊤ → IsWalkOf add edges i (m + 1) j (add x w)

/-- `sp i j` is the length of a shortest walk from `i` to `j`, and `none` if there is no walk. -/
structure IsShortestPaths [OrderTop F] (add : F → F → F) (edges : List (ℕ × ℕ × F)) (sp : ℕ → ℕ → Option F) : Prop where
  least : ∀ i j x, sp i j = some x → IsLeast {y | IsWalk add edges i j y} x
  reach : ∀ i j x, IsWalk add edges i j x → ∃ y, sp i j = some y

/-- `adj l u` lists the edges of `l` that leave `u`, in any order. -/
def IsAdjacency (adj : List (ℕ × ℕ × F) → ℕ → List (ℕ × ℕ × F)) : Prop := ∀ l u, (adj l u).Perm (l.filter fun e => e.1 = u)

end
end Phlite
