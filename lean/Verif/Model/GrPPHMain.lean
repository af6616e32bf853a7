/-
The example program phlite_grpph/src/bin/main.rs and the two end-to-end tests in phlite_grpph/src/coboundary.rs.
-/
import Verif.Model.GrPPH
import Mathlib.Data.Finset.Card

namespace Phlite

section
variable {F : Type} [LinearOrder F] [Zero F] [OrderTop F]

/-- The loop over `diagram.pairings`, phlite_grpph/src/bin/main.rs:67-76, phlite_grpph/src/coboundary.rs:638-647 and 686-695: counts the pairs whose
filtration values differ. Reading a filtration value may panic. Printing is not modelled. -/
def countPairings (filt : PathHomCell → Option F) (prs : List (PathHomCellᵒᵈ × PathHomCellᵒᵈ)) : Option Nat :=
  prs.foldlM (fun count p => (filt (OrderDual.ofDual p.2)).bind fun birth_f => (filt (OrderDual.ofDual p.1)).bind fun death_f =>
    if death_f = birth_f then some count else some (count + 1)) 0

/-- The loop over `diagram.essential`, phlite_grpph/src/bin/main.rs:62-65, phlite_grpph/src/coboundary.rs:633-636 and 681-684. -/
def printEssential (filt : PathHomCell → Option F) (ess : List PathHomCellᵒᵈ) : Option Unit :=
  ess.foldlM (fun _ idx => (filt (OrderDual.ofDual idx)).map fun _ => ()) ()

variable [StdHeap] (CF : Type) [NonZeroCoeff CF]

/-- The programs up to the assertions: the number of non-trivial pairs and of essential cells. `enumE`, `enumP`: the iteration orders of the hash sets. -/
def grpphDemo (enumE : Finset PathHomCellᵒᵈ → List PathHomCellᵒᵈ)
    (enumP : Finset (PathHomCellᵒᵈ × PathHomCellᵒᵈ) → List (PathHomCellᵒᵈ × PathHomCellᵒᵈ))
    (et : EdgeTime F) (edge_set : List (Nat × Nat)) (n : Nat) (fuel : Nat) : Option (Nat × Nat) :=
  (grpphRun CF et edge_set n fuel).bind fun r =>
    (printEssential r.1.filt (enumE r.2.essential)).bind fun _ =>
    (countPairings r.1.filt (enumP r.2.pairings)).map fun count => (count, r.2.essential.card)

/-- `assert_eq!(count, n * (n - 1) - n + 1); assert_eq!(diagram.essential.len(), 1)`, phlite_grpph/src/bin/main.rs:79-83 and
phlite_grpph/src/coboundary.rs:698-701, in `usize`, where subtraction panics below 0. -/
def completeAsserts (n : Nat) (r : Nat × Nat) : Option Unit :=
  if n < 1 then none else if n * (n - 1) < n then none else if r.1 = n * (n - 1) - n + 1 ∧ r.2 = 1 then some () else none

/-- `assert_eq!(count, 1); assert_eq!(diagram.essential.len(), 1)`, phlite_grpph/src/coboundary.rs:650-653. -/
def cycleAsserts (r : Nat × Nat) : Option Unit := if r.1 = 1 ∧ r.2 = 1 then some () else none

/-- The edges of the example program with their weight `w = 1.0`, phlite_grpph/src/bin/main.rs:17-22, and those of the test. -/
def completeEdges (n : Nat) (w : F) : List (Nat × Nat × F) :=
  (((List.range n).flatMap fun i => (List.range n).map fun j => (i, j)).filter fun e => e.1 ≠ e.2).map fun e => (e.1, e.2, w)

/-- The edge set of the example program, phlite_grpph/src/bin/main.rs:46-49, in one of the possible iteration orders. -/
def mainEdgeSet (n : Nat) : List (Nat × Nat) :=
  (((List.range n).flatMap fun i => (List.range n).map fun j => (asU16 i, asU16 j)).filter fun e => e.1 ≠ e.2).dedup

/-- `main`, phlite_grpph/src/bin/main.rs:12-84, with the number of vertices (there 100) as a parameter. `sp` is the result of Dijkstra's algorithm for
`completeEdges n 1.0`; `edge_set` is the iteration order of the hash set of lines 44-47. -/
def grpphMain (enumE : Finset PathHomCellᵒᵈ → List PathHomCellᵒᵈ)
    (enumP : Finset (PathHomCellᵒᵈ × PathHomCellᵒᵈ) → List (PathHomCellᵒᵈ × PathHomCellᵒᵈ))
    (n : Nat) (sp : Nat → Nat → Option F) (edge_set : List (Nat × Nat)) (fuel : Nat) : Option Unit :=
  (grpphDemo CF enumE enumP (vecEdgeTime (buildFiltration n sp)) edge_set (asU16 n) fuel).bind (completeAsserts n)

/-- `filtration.insert` into an empty `FxHashMap`, in order. -/
def mapOfInserts {K V : Type} [DecidableEq K] (l : List (K × V)) : K → Option V := l.foldl (fun m x => mapInsert m x.1 x.2) fun _ => none

/-- The edge set of `test_grpph_complete`, phlite_grpph/src/coboundary.rs:661-667, in one of the possible iteration orders. -/
def completeEdgeSet (n : Nat) : List (Nat × Nat) := (List.range n).flatMap fun i => ((List.range n).filter fun j => i ≠ j).map fun j => (i, j)

/-- The filtration of `test_grpph_complete`, phlite_grpph/src/coboundary.rs:660-669 (there `w = 1.0`). -/
def completeMap (n : Nat) (w : F) : Nat × Nat → Option F :=
  mapOfInserts (((List.range n).flatMap fun i => ((List.range n).filter fun j => i ≠ j).map fun j => ((i, j), w)))

/-- `test_grpph_complete`, phlite_grpph/src/coboundary.rs:656-702, with the number of vertices (there 30) as a parameter. -/
def testComplete (enumE : Finset PathHomCellᵒᵈ → List PathHomCellᵒᵈ)
    (enumP : Finset (PathHomCellᵒᵈ × PathHomCellᵒᵈ) → List (PathHomCellᵒᵈ × PathHomCellᵒᵈ)) (n : Nat) (w : F) (edge_set : List (Nat × Nat)) (fuel : Nat) :
    Option Unit :=
  (grpphDemo CF enumE enumP (mapEdgeTime (completeMap n w)) edge_set n fuel).bind (completeAsserts n)

/-- The filtration of `test_grpph_cycle`, phlite_grpph/src/coboundary.rs:617-622; there `len j = j as f64`. -/
def cycleMap (n : Nat) (len : Nat → F) : Nat × Nat → Option F :=
  mapOfInserts ((List.range n).flatMap fun i => (List.range' 1 (n - 1)).map fun j => ((i, (i + j) % n), len j))

/-- The edge set of `test_grpph_cycle`, phlite_grpph/src/coboundary.rs:616-619, in one of the possible iteration orders. Sums are in `u16` in the program; there is
no overflow for `n ≤ 32768`. -/
def cycleEdgeSet (n : Nat) : List (Nat × Nat) := (List.range n).map fun i => (i, (i + 1) % n)

/-- `test_grpph_cycle`, phlite_grpph/src/coboundary.rs:612-654, with the number of vertices (there 30) as a parameter. -/
def testCycle (enumE : Finset PathHomCellᵒᵈ → List PathHomCellᵒᵈ)
    (enumP : Finset (PathHomCellᵒᵈ × PathHomCellᵒᵈ) → List (PathHomCellᵒᵈ × PathHomCellᵒᵈ)) (n : Nat) (len : Nat → F) (edge_set : List (Nat × Nat)) (fuel : Nat) :
    Option Unit :=
  (grpphDemo CF enumE enumP (mapEdgeTime (cycleMap n len)) edge_set n fuel).bind cycleAsserts

end
end Phlite
