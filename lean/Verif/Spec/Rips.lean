/-
Specification: simplicial chains and the Vietoris-Rips filtration, in terms of finite sets of points. Independent of the model.
-/
import Mathlib.Algebra.BigOperators.Group.Finset.Basic
import Verif.Spec.Persistence
import Mathlib.Data.Finset.Sort
import Mathlib.Algebra.BigOperators.Finsupp.Basic

namespace Phlite

/-- The number of vertices of `σ` before `v`. -/
def posIn (σ : Finset ℕ) (v : ℕ) : ℕ := (σ.filter (· < v)).card

section
variable (K : Type) [Field K]

/-- The simplicial boundary of `σ`: the alternating sum of its facets (zero if `σ` is a vertex). -/
noncomputable def simplexBoundary (σ : Finset ℕ) : Finset ℕ →₀ K :=
  if σ.card ≤ 1 then 0 else ∑ v ∈ σ, Finsupp.single (σ.erase v) ((-1) ^ posIn σ v)

/-- The simplicial coboundary of `σ` in the full simplex on the points `0, ..., n - 1`. -/
noncomputable def simplexCoboundary (n : ℕ) (σ : Finset ℕ) : Finset ℕ →₀ K :=
  ∑ v ∈ Finset.range n \ σ, Finsupp.single (insert v σ) ((-1) ^ posIn σ v)
end

/-- `σ` is a simplex on `n` points. -/
def IsSimplex (n : ℕ) (σ : Finset ℕ) : Prop := σ.Nonempty ∧ σ ⊆ Finset.range n

/-- The index of a simplex as the documentation of the library describes it: the digit of the vertex `v` in base `n + 1` is `v + 1`, smaller vertices at lower places. -/
def simplexIndex (n : ℕ) (σ : Finset ℕ) : ℕ := ∑ v ∈ σ, (n + 1) ^ posIn σ v * (v + 1)

section
variable {F : Type} [LinearOrder F] [Zero F]

/-- `distances` is the square matrix of the symmetric, non-negative function `d` with zero diagonal. -/
structure IsDistanceMatrix (distances : List (List F)) (d : ℕ → ℕ → F) : Prop where
  entry : ∀ i < distances.length, ∀ j < distances.length, (distances[i]?.bind fun row => row[j]?) = some (d i j)
  symm : ∀ i < distances.length, ∀ j < distances.length, d i j = d j i
  diag : ∀ i < distances.length, d i i = 0
  nonneg : ∀ i < distances.length, ∀ j < distances.length, 0 ≤ d i j

/-- Above the diagonal `distances` has the values of the symmetric, non-negative function `d`, on the diagonal zeros, and below the diagonal entries that are not greater than
their counterparts above. -/
structure IsUpperMatrix (distances : List (List F)) (d : ℕ → ℕ → F) : Prop where
  above : ∀ i j, i < j → j < distances.length → (distances[i]?.bind fun row => row[j]?) = some (d i j)
  diag : ∀ i < distances.length, (distances[i]?.bind fun row => row[i]?) = some 0
  below : ∀ i j, i < j → j < distances.length → ∃ x, (distances[j]?.bind fun row => row[i]?) = some x ∧ x ≤ d i j
  symm : ∀ i < distances.length, ∀ j < distances.length, d i j = d j i
  zero : ∀ i < distances.length, d i i = 0
  nonneg : ∀ i < distances.length, ∀ j < distances.length, 0 ≤ d i j

/-- The `p`-simplices of the Vietoris-Rips complex on `n` points at scale `s`: all distances between vertices are at most `s`. -/
def vietorisRips (n : ℕ) (d : ℕ → ℕ → F) (p : ℕ) (s : F) : Set (Finset ℕ) :=
  {σ | σ ⊆ Finset.range n ∧ σ.card = p + 1 ∧ ∀ a ∈ σ, ∀ b ∈ σ, d a b ≤ s}

theorem vietorisRips_mono (n : ℕ) (d : ℕ → ℕ → F) (p : ℕ) {s t : F} (h : s ≤ t) : vietorisRips n d p s ⊆ vietorisRips n d p t :=
  fun _ hσ => ⟨hσ.1, hσ.2.1, fun a ha b hb => (hσ.2.2 a ha b hb).trans h⟩

end
end Phlite
