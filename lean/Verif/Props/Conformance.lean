/-
Conformance: the unit tests of the repository, run in the model. These are tests of the model, not proofs; the properties are in the other files. Square roots of
2 in the distance matrices are replaced by 2 (only the order of the distances matters).
-/
import Verif.Model.Reduction
import Verif.Model.Rips
import Verif.Proofs.ListHeap
import Mathlib.Data.Finset.Card
import Mathlib.Data.Prod.Lex

set_option linter.unusedSectionVars false

namespace Phlite
namespace Conformance
open OrderDual (toDual ofDual)

/-- `SimpleZ2Matrix::new_all_one`. -/
def z2 (cols : List (List ℕ)) : Oracle Z2 ℕ ℕ := vecVecAllOne cols

/-- phlite/src/fields.rs:315-344: test_add_mod_2, test_prod_mod_2, test_add_mod_3, test_prod_mod_3. -/
example : NonZeroCoeff.add Z2.one Z2.one = none ∧ NonZeroCoeff.addOpt Z2.one none = some Z2.one ∧ NonZeroCoeff.mul Z2.one Z2.one = Z2.one ∧
    zpAdd 3 zpOne zpOne = some (some 2) ∧ zpAdd 3 zpOne 2 = some none ∧ zpMul 3 2 1 = some 2 ∧ zpMul 3 1 2 = some 2 ∧ zpMul 3 2 2 = some 1 ∧
    zpMul 3 1 1 = some 1 := by decide

/-- phlite/src/matrices/tests.rs:17-50, test_matrix_product. -/
example : letI := listHeap
    mapOpt ((product (z2 [[], [], [], [0, 1], [1, 2], [0, 2], [3, 4, 5]]) (z2 [[0], [1], [2], [3], [4], [3, 4, 5], [6]])).eqOnCol
      (z2 [[], [], [], [0, 1], [1, 2], [], [3, 4, 5]])) (List.range 7) = some (List.replicate 7 true) := by decide +kernel

/-- The matrix of test_matrix_bhcol_interface, phlite/src/matrices/tests.rs:52-67, and its opposite filtration. -/
def bhMatrix : FOracle Z2 ℕ ℕ ℕ := (z2 [[], [], [], [0, 1], [1, 2], [0, 2], [3, 4, 5]]).withFunc fun idx => some (idx * 10)
def oppMatrix : FOracle Z2 ℕ ℕ ℤ := bhMatrix.toOracle.withFunc fun idx => (bhMatrix.filt idx).map fun x => -(x : ℤ)

/-- Add columns, then pop `k` pivots. -/
def pops {F : Type} [LinearOrder F] [StdHeap] (M : FOracle Z2 ℕ ℕ F) (cols : List ℕ) (k : ℕ) : Option (List (Option (Z2 × ℕ × F))) :=
  (flatMapOpt M.colF cols).map fun es =>
    ((fun p : List (Option (Z2 × ℕ × F)) × BHCol F ℕ Z2 => (p.1 ++ [(BHCol.popPivot p.2).1.map Entry.toTuple], (BHCol.popPivot p.2).2))^[k]
      ([], BHCol.addEntries BHCol.empty es)).1

set_option synthInstance.maxSize 2000 in
set_option synthInstance.maxHeartbeats 200000 in
/-- test_matrix_bhcol_interface, phlite/src/matrices/tests.rs:69-111. -/
example : letI := listHeap
    pops bhMatrix [5, 4] 3 = some [some (Z2.one, 1, 10), some (Z2.one, 0, 0), none] ∧
    pops oppMatrix [5, 4] 3 = some [some (Z2.one, 0, 0), some (Z2.one, 1, -10), none] ∧
    pops bhMatrix [5, 4, 3] 1 = some [none] ∧
    ((flatMapOpt bhMatrix.colF [6, 6]).bind fun es => (BHCol.toSortedVec (BHCol.addEntries BHCol.empty es)).map List.length) = some 0 := by
  refine ⟨?_, ?_, ?_, ?_⟩ <;> decide +kernel

/-- test_consolidate, phlite/src/matrices/tests.rs:113-128. -/
example : letI := listHeap
    let mat := z2 [[0], [0, 1]]
    let mat4 := product (product mat mat) (product mat mat)
    (mat4.column 1).map List.length = some 5 ∧ (mat4.consolidate.column 1).map List.length = some 1 := by decide +kernel

/-- test_projection, phlite/src/matrices/tests.rs:130-150. -/
example : letI := listHeap
    mapOpt ((product (z2 [[], [], [], [], [4], [], [], [], [], [], [], [], []]) (z2 [[4, 3, 12], [5, 9, 4], [0, 1, 0], [1, 2, 4, 4]])).eqOnCol
      (z2 [[4], [4], [], []])) (List.range 4) = some [true, true, true, true] := by decide +kernel

/-- test_basis_reverse, phlite/src/matrices/tests.rs:152-200. -/
example : mapOpt (vecBasis [0, 1, 3]).element [0, 1, 2] = some [0, 1, 3] ∧
    mapOpt (vecBasis [0, 1, 3]).reverse.element [0, 1, 2] = some [toDual 3, toDual 1, toDual 0] ∧
    mapOpt (vecBasis [0, 1, 3]).reverse.unreverse.element [0, 1, 2] = some [0, 1, 3] := by decide +kernel

/-- test_inefficient_reduction, phlite/src/reduction/mod.rs:31-57. -/
example : letI := listHeap
    let d := z2 [[], [], [], [0, 1], [1, 2], [0, 2], [3, 4, 5], [3, 4, 5]]
    ((standardAlgo d.withTrivial (standardBasis 8) (fun i => i + 1)).bind fun v =>
      mapOpt ((product d (mapVecMatrix v)).eqOnCol (z2 [[], [], [], [0, 1], [1, 2], [], [3, 4, 5], []])) (List.range 8)) =
      some (List.replicate 8 true) := by decide +kernel

/-- The distance matrix of the Rips tests, phlite_rips/src/cohomology.rs:233-244 and phlite_rips/src/homology.rs:136-147. -/
def square : List (List ℕ) := [[0, 1, 2, 1], [1, 0, 1, 2], [2, 1, 0, 1], [1, 2, 1, 0]]

/-- test_rips_index, phlite_rips/src/lib.rs:233-245. -/
example : (fromIndices 20 [5, 12, 7]).bind (toVec 20) = some [5, 12, 7] ∧ (fromIndices 20 [5, 12, 0]).bind (toVec 20) = some [5, 12, 0] := by decide +kernel

/-- test_coboundary, phlite_rips/src/cohomology.rs:197-231. -/
example : mapOpt (fun s => (fromIndices 4 s).bind fun i => ((ripsCoboundary Z2 square).column i).map List.length) [[1, 2, 3], [0, 3], [1]] = some [1, 2, 3] := by
  decide +kernel

/-- test_rips_total_coboundary, phlite_rips/src/cohomology.rs:246-278. -/
example : letI := listHeap
    ((buildRipsCoboundaryMatrix Z2 square 2).bind fun M => (standardAlgoWithDiagram M.1.reverse.ref M.2.toBasis.reverse (fun i => i + 1) false).map fun r =>
      (r.2.pairings.card, r.2.essential.card)) = some (7, 1) := by decide +kernel

/-- test_clearing, phlite_rips/src/cohomology.rs:280-313. -/
example : letI := listHeap
    ((buildRipsCoboundaryMatrix Z2 square 1).bind fun M => (buildWithDiagram M.1.reverse.ref M.2.reverse 100 [0, 1]).map fun r =>
      (r.2.pairings.card, r.2.essential.card)) = some (6, 1) := by decide +kernel

/-- test_rips_total_boundary, phlite_rips/src/homology.rs:149-180. -/
example : letI := listHeap
    ((buildRipsBoundaryMatrix Z2 square 2).bind fun M => (standardAlgoWithDiagram M.1.ref M.2.toBasis (fun i => i + 1) false).map fun r =>
      (r.2.pairings.card, r.2.essential.card)) = some (6, 2) := by decide +kernel

end Conformance
end Phlite
