/-
Specification of columns: formal linear combinations of row indices, ordered by (filtration value, index).
-/
import Verif.Spec.Field
import Mathlib.Data.Finsupp.Basic
import Mathlib.Data.Finsupp.Defs
import Mathlib.Algebra.BigOperators.Finsupp.Basic
import Mathlib.Data.Prod.Lex

namespace Phlite
open Finsupp

/-- The vector represented by a list of (coefficient, row index) terms: repeated rows add up. -/
noncomputable def lcOf {CF : Type} (K : Type) {Row : Type} [NonZeroCoeff CF] [Field K] [LawfulCoeff CF K]
    (l : List (CF × Row)) : Row →₀ K :=
  (l.map fun t => single t.2 (LawfulCoeff.val t.1)).sum

/-- The order in which rows are compared: by filtration value, ties broken by the index. -/
def rowKey {F Row : Type} (f : Row → F) (r : Row) : F ×ₗ Row := toLex (f r, r)

/-- `r` is the pivot row of `v`: the largest row (filtration value, then index) with a non-zero coefficient. -/
def IsPivot {F Row K : Type} [LinearOrder F] [LinearOrder Row] [Zero K] (f : Row → F) (v : Row →₀ K) (r : Row) : Prop :=
  v r ≠ 0 ∧ ∀ r', v r' ≠ 0 → rowKey f r' ≤ rowKey f r

/-- A list is the strictly descending list of non-zero coefficients of `v`. -/
def IsSparseList {CF K Row : Type} [NonZeroCoeff CF] [Field K] [LawfulCoeff CF K] [LinearOrder Row] (v : Row →₀ K) (l : List (CF × Row)) : Prop :=
  l.Pairwise (fun s t => t.2 < s.2) ∧ ∀ t : CF × Row, t ∈ l ↔ v t.2 ≠ 0 ∧ LawfulCoeff.val t.1 = v t.2

end Phlite
