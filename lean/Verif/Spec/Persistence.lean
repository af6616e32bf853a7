/-
Specification of persistence pairs and persistent Betti numbers, independent of any reduction algorithm.

A matrix is given by its columns `M : C → (R →₀ K)`.  Rows are compared by an injective `key : R → L` into a linear order.
-/
import Mathlib.LinearAlgebra.Dimension.Finrank
import Mathlib.LinearAlgebra.FiniteDimensional.Lemmas
import Mathlib.LinearAlgebra.Finsupp.LinearCombination
import Mathlib.LinearAlgebra.Finsupp.Supported
import Mathlib.LinearAlgebra.Quotient.Basic
import Mathlib.Data.Finsupp.Basic

namespace Phlite
open Finsupp

section
variable {K C R L : Type} [Field K] [LinearOrder L]

open Classical in
/-- The rank of the submatrix of `M` with the rows in `U` and the columns in `Q`. -/
noncomputable def minorRank (M : C → (R →₀ K)) (U : Set R) (Q : Set C) : ℕ :=
  Module.finrank K (Submodule.span K ((fun c => (M c).filter (· ∈ U)) '' Q))

/-- The inclusion-exclusion of the ranks of the four lower-left minors at row `r` and column `c`, where `Q` is the set of columns
before `c`, equals one:
`rk(≥ r, ≤ c) - rk(> r, ≤ c) - rk(≥ r, < c) + rk(> r, < c) = 1`. -/
def PairRank (key : R → L) (M : C → (R →₀ K)) (Q : Set C) (r : R) (c : C) : Prop :=
  minorRank M {x | key r ≤ key x} (insert c Q) + minorRank M {x | key r < key x} Q =
    minorRank M {x | key r ≤ key x} Q + minorRank M {x | key r < key x} (insert c Q) + 1

/-- `(r, c)` is a persistence pair of the matrix `M` with columns `cols` in this order. -/
def IsPersistencePair (key : R → L) (cols : List C) (M : C → (R →₀ K)) (r : R) (c : C) : Prop :=
  ∃ pre post, cols = pre ++ c :: post ∧ PairRank key M {x | x ∈ pre} r c

/-- The column `c` is in the span of the columns before it. -/
def IsDependent (cols : List C) (M : C → (R →₀ K)) (c : C) : Prop :=
  ∃ pre post, cols = pre ++ c :: post ∧ M c ∈ Submodule.span K (M '' {x | x ∈ pre})

end

/-! ### Persistent homology of a filtered based chain complex -/
section
variable {K V : Type} [Field K] [AddCommGroup V] [Module K V]

/-- The quotient of the cycles `Z` by the boundaries `B`. -/
abbrev QuotBy (Z B : Submodule K V) : Type := Z ⧸ B.comap Z.subtype

/-- The map on quotients induced by inclusions `Z ≤ Z'`, `B ≤ B'`. -/
def quotByMap {Z Z' B B' : Submodule K V} (hZ : Z ≤ Z') (hB : B ≤ B') : QuotBy Z B →ₗ[K] QuotBy Z' B' :=
  Submodule.mapQ _ _ (Submodule.inclusion hZ) fun _ hv => hB hv
end

section
variable {K T : Type} [Field K]

/-- Boundary map with columns `M`. -/
noncomputable def bdry (M : T → (T →₀ K)) : (T →₀ K) →ₗ[K] (T →₀ K) := Finsupp.linearCombination K M

/-- Cycles among the cells `X`. -/
noncomputable def cyclesOn (M : T → (T →₀ K)) (X : Set T) : Submodule K (T →₀ K) :=
  Finsupp.supported K K X ⊓ LinearMap.ker (bdry M)

/-- Boundaries of chains on the cells `Y`. -/
noncomputable def boundariesOn (M : T → (T →₀ K)) (Y : Set T) : Submodule K (T →₀ K) :=
  (Finsupp.supported K K Y).map (bdry M)

theorem cyclesOn_mono (M : T → (T →₀ K)) {X X' : Set T} (h : X ⊆ X') : cyclesOn M X ≤ cyclesOn M X' :=
  inf_le_inf_right _ (Finsupp.supported_mono h)

theorem boundariesOn_mono (M : T → (T →₀ K)) {X X' : Set T} (h : X ⊆ X') : boundariesOn M X ≤ boundariesOn M X' :=
  Submodule.map_mono (Finsupp.supported_mono h)

/-- Persistent Betti number: the rank of the map `H(X, Y) → H(X', Y')` induced by inclusion on homology, where `X` (`X'`) are the
cells of the small (large) complex in the given degree and `Y` (`Y'`) those one degree higher, and
`H(X, Y)` = cycles on `X` modulo boundaries of chains on `Y`. -/
noncomputable def persistentBetti (M : T → (T →₀ K)) {X X' Y Y' : Set T} (hX : X ⊆ X') (hY : Y ⊆ Y') : ℕ :=
  Module.finrank K (LinearMap.range (quotByMap (cyclesOn_mono M hX) (boundariesOn_mono M hY)))

end
end Phlite
