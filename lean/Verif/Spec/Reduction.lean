/-
Specification vocabulary for matrices and reduction: what it means to read a column, and the inputs the algorithms are meant for.
-/
import Verif.Model.Matrices
import Verif.Spec.Basis
import Verif.Spec.Column
import Verif.Spec.Persistence

set_option linter.unusedSectionVars false

namespace Phlite
open Finsupp (single linearCombination linearCombination_single)

section
variable {CF Col Row : Type} [NonZeroCoeff CF]

/-- `v` is the vector of column `c` of `M` (and the request does not panic). -/
def HasCol (K : Type) [Field K] [LawfulCoeff CF K] (M : Oracle CF Col Row) (c : Col) (v : Row →₀ K) : Prop :=
  ∃ l, M.column c = some l ∧ lcOf K l = v

end

section
variable {CF T F K : Type} [NonZeroCoeff CF] [Field K] [LawfulCoeff CF K]

/-- Column `c` of `D` can be read, is the vector `M c`, and is enriched with the filtration `f`. -/
def ReadsCol (K : Type) [Field K] [LawfulCoeff CF K] (D : FOracle CF T T F) (f : T → F) (M : T → (T →₀ K)) (c : T) : Prop :=
  ∃ l, D.column c = some l ∧ D.colF c = some (l.map fun t => ⟨f t.2, t.2, t.1⟩) ∧
    (∀ t ∈ l, D.filt t.2 = some (f t.2)) ∧ lcOf K l = M c

/-- The same matrix, but requesting a column that is not listed panics. -/
def FOracle.restrict [DecidableEq T] (D : FOracle CF T T F) (els : List T) : FOracle CF T T F where
  column c := if c ∈ els then D.column c else none
  filt := D.filt
  colF c := if c ∈ els then D.colF c else none

/-- Listed cells that occur as rows of the column of a cell occur strictly before that cell in the list. -/
def RowsBefore (els : List T) (M : T → (T →₀ K)) : Prop :=
  ∀ pre c post, els = pre ++ c :: post → ∀ r ∈ els, M c r ≠ 0 → r ∈ pre

/-- A finite filtered matrix: the column basis `B` lists `els` without repetition, and every basis column of `D` can be read, is the
vector `M c`, and its rows have filtration values `f`. Nothing is assumed about other columns (requesting them may panic). -/
structure FiniteMatrix (K : Type) [Field K] [LawfulCoeff CF K] (D : FOracle CF T T F) (B : Basis T) (f : T → F)
    (M : T → (T →₀ K)) (els : List T) : Prop where
  basis : B.elems = some els
  nodup : els.Nodup
  reads : ∀ c ∈ els, ReadsCol K D f M c

variable [LinearOrder F] [LinearOrder T]

/-- The situation in which the clearing algorithm is meant to be used: `D` is a chain complex whose differential shifts the degree
by `ε`, `els d` lists the basis in dimension `d`, and the dimensions are processed in the order of the differential. Nothing is
assumed about columns outside the listed dimensions (requesting them may panic). -/
structure SplitComplex (K : Type) [Field K] [LawfulCoeff CF K] (D : FOracle CF T T F) (B : SplitBasis T) (f : T → F)
    (M : T → (T →₀ K)) (deg : T → ℤ) (ε : ℤ) (dims : List ℕ) (els : ℕ → List T) : Prop where
  /-- The basis in each listed dimension. -/
  basis : ∀ d ∈ dims, ∃ Bd, B.inDim d = some Bd ∧ Bd.elems = some (els d)
  deg_els : ∀ d ∈ dims, ∀ c ∈ els d, deg c = d
  /-- Bases are sorted by filtration value, then index. -/
  sorted : ∀ d ∈ dims, (els d).Pairwise fun a b => rowKey f a < rowKey f b
  /-- The columns of basis elements can be read. -/
  good : ∀ d ∈ dims, ∀ c ∈ els d, ReadsCol K D f M c
  /-- Rows live in the next degree, and belong to the basis of that degree if it is listed. -/
  rows : ∀ d ∈ dims, ∀ c ∈ els d, ∀ l, D.column c = some l → ∀ t ∈ l,
    deg t.2 = d + ε ∧ ∀ d' ∈ dims, (d' : ℤ) = d + ε → t.2 ∈ els d'
  nodup : dims.Nodup
  /-- The target dimension is not processed before the source dimension. -/
  order : ∀ (p : List ℕ) (d : ℕ) (q : List ℕ), dims = p ++ d :: q → ∀ d' ∈ p, (d' : ℤ) ≠ d + ε
  shift : ε ≠ 0
  /-- `D² = 0` between listed dimensions. -/
  sq : ∀ d ∈ dims, ∀ d' ∈ dims, (d' : ℤ) = d + ε → ∀ c ∈ els d, linearCombination K M (M c) = 0

/-- A chain complex split by dimension, together with any list of dimensions: as `SplitComplex`, but nothing is said about the order or
the repetition of the listed dimensions. -/
structure GradedComplex (K : Type) [Field K] [LawfulCoeff CF K] (D : FOracle CF T T F) (B : SplitBasis T) (f : T → F)
    (M : T → (T →₀ K)) (deg : T → ℤ) (ε : ℤ) (dims : List ℕ) (els : ℕ → List T) : Prop where
  basis : ∀ d ∈ dims, ∃ Bd, B.inDim d = some Bd ∧ Bd.elems = some (els d)
  deg_els : ∀ d ∈ dims, ∀ c ∈ els d, deg c = d
  sorted : ∀ d ∈ dims, (els d).Pairwise fun a b => rowKey f a < rowKey f b
  good : ∀ d ∈ dims, ∀ c ∈ els d, ReadsCol K D f M c
  rows : ∀ d ∈ dims, ∀ c ∈ els d, ∀ l, D.column c = some l → ∀ t ∈ l,
    deg t.2 = d + ε ∧ ∀ d' ∈ dims, (d' : ℤ) = d + ε → t.2 ∈ els d'
  shift : ε ≠ 0
  sq : ∀ d ∈ dims, ∀ d' ∈ dims, (d' : ℤ) = d + ε → ∀ c ∈ els d, linearCombination K M (M c) = 0

/-- A matrix split by dimension, together with any list of dimensions. It need not be a chain complex, the bases need not be sorted, and they may
overlap: the basis of each listed dimension lists `els d` without repetition, the columns of its elements can be read, and their rows are not in
the basis of the same dimension. -/
structure DimensionedMatrix (K : Type) [Field K] [LawfulCoeff CF K] (D : FOracle CF T T F) (B : SplitBasis T) (f : T → F)
    (M : T → (T →₀ K)) (dims : List ℕ) (els : ℕ → List T) : Prop where
  basis : ∀ d ∈ dims, ∃ Bd, B.inDim d = some Bd ∧ Bd.elems = some (els d)
  nodup : ∀ d ∈ dims, (els d).Nodup
  good : ∀ d ∈ dims, ∀ c ∈ els d, ReadsCol K D f M c
  rows : ∀ d ∈ dims, ∀ c ∈ els d, ∀ r ∈ els d, M c r = 0

/-- The cells that occur in a diagram with pairings `P` and essential cells `E`. -/
def diagramCells (P : Set (T × T)) (E : Set T) : Set T := {c | c ∈ E ∨ ∃ p ∈ P, p.1 = c ∨ p.2 = c}

open Classical in
/-- What clearing computes for one dimension with basis `cells`: the persistence pairs, and the dependent columns, of the matrix whose columns are
the cells that do not occur in the diagram so far. -/
noncomputable def clearingStep (f : T → F) (M : T → (T →₀ K)) (dgm : Set (T × T) × Set T) (cells : List T) : Set (T × T) × Set T :=
  let cols := cells.filter fun c => c ∉ diagramCells dgm.1 dgm.2
  (dgm.1 ∪ {p | IsPersistencePair (rowKey f) cols M p.1 p.2}, dgm.2 ∪ {c | IsDependent cols M c})

/-- Dimension `a` is listed before the first occurrence of `b`: `a` occurs in some initial part of the list in which `b` does not. -/
def ListedBefore (dims : List ℕ) (a b : ℤ) : Prop := ∃ p, p <+: dims ∧ a ∈ p.map (fun d : ℕ => (d : ℤ)) ∧ b ∉ p.map (fun d : ℕ => (d : ℤ))

/-- The matrix with columns `N` after relabelling cells to reversed cells. -/
noncomputable def dualCols (N : T → (T →₀ K)) : Tᵒᵈ → (Tᵒᵈ →₀ K) := fun c => (N (OrderDual.ofDual c)).equivMapDomain OrderDual.toDual

/-- The reversed filtration. -/
def dualFilt (f : T → F) : Tᵒᵈ → Fᵒᵈ := fun c => OrderDual.toDual (f (OrderDual.ofDual c))

/-- A filtered chain complex with finitely many cells in each degree (sorted by filtration value, then index), given by its boundary
columns `M`, together with its coboundary columns `N`: the transpose. -/
structure CellComplex (K : Type) [Field K] (f : T → F) (deg : T → ℤ) (cells : ℤ → List T) (M N : T → (T →₀ K)) : Prop where
  deg_cells : ∀ d, ∀ c ∈ cells d, deg c = d
  sorted : ∀ d, (cells d).Pairwise fun a b => rowKey f a < rowKey f b
  rowsM : ∀ d, ∀ c ∈ cells d, ∀ r, M c r ≠ 0 → r ∈ cells (d - 1)
  rowsN : ∀ d, ∀ c ∈ cells d, ∀ r, N c r ≠ 0 → r ∈ cells (d + 1)
  transpose : ∀ d, ∀ σ ∈ cells d, ∀ τ ∈ cells (d + 1), N σ τ = M τ σ
  sq : ∀ d, ∀ c ∈ cells d, linearCombination K M (M c) = 0

/-- The cells of degree `d` present at filtration value `s`. -/
def sublevel (f : T → F) (cells : ℤ → List T) (d : ℤ) (s : F) : Set T := {x | x ∈ cells d ∧ f x ≤ s}

theorem sublevel_mono (f : T → F) (cells : ℤ → List T) (d : ℤ) {s t : F} (h : s ≤ t) : sublevel f cells d s ⊆ sublevel f cells d t :=
  fun _ hx => ⟨hx.1, hx.2.trans h⟩

end
end Phlite
