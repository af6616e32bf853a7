/-
Specification: a digraph that is glued from two digraphs.
-/
import Verif.Spec.Digraph

namespace Phlite

section
variable {W : Type}

/-- The digraph with `n` vertices and the list `edges` of weighted edges consists of two digraphs, with `nA` and `nB` vertices, in which the vertices have been renamed by `iA` and
`iB`: every vertex and every edge comes from one of the two, and the two have at most one vertex in common. (A loop at the common vertex comes from only one of them.) The order
and the multiplicity of edges do not matter. -/
structure IsGluing (n nA nB : ℕ) (iA iB : ℕ → ℕ) (edges edgesA edgesB : List (ℕ × ℕ × W)) : Prop where
  injA : ∀ a < nA, ∀ a' < nA, iA a = iA a' → a = a'
  injB : ∀ b < nB, ∀ b' < nB, iB b = iB b' → b = b'
  vertices : ∀ v, v < n ↔ (∃ a < nA, iA a = v) ∨ ∃ b < nB, iB b = v
  edge : ∀ x y w, (x, y, w) ∈ edges ↔ (∃ a a', (a, a', w) ∈ edgesA ∧ iA a = x ∧ iA a' = y) ∨ ∃ b b', (b, b', w) ∈ edgesB ∧ iB b = x ∧ iB b' = y
  common : ∀ a < nA, ∀ b < nB, ∀ a' < nA, ∀ b' < nB, iA a = iB b → iA a' = iB b' → a = a'
  loops : ∀ a b w w', iA a = iB b → (a, a, w) ∈ edgesA → (b, b, w') ∈ edgesB → False

open Classical in
/-- The number of common vertices, 0 or 1. -/
noncomputable def commonVertices (nA nB : ℕ) (iA iB : ℕ → ℕ) : ℕ := if ∃ a < nA, ∃ b < nB, iA a = iB b then 1 else 0

end
end Phlite
