/-
What the example program phlite_grpph/src/bin/main.rs prints.
-/
import Verif.Model.Dijkstra
import Verif.Model.GrPPHMain
import Verif.Model.RipsText

namespace Phlite

/-- The derived `Debug` of `PathHom2Cell`, phlite_grpph/src/coboundary.rs:35-40. -/
def debug2Cell : PathHom2Cell → String
  | .doubleEdge a b => "DoubleEdge(" ++ toString a ++ ", " ++ toString b ++ ")"
  | .directedTriangle a b c => "DirectedTriangle(" ++ toString a ++ ", " ++ toString b ++ ", " ++ toString c ++ ")"
  | .longSquare a b c d => "LongSquare(" ++ toString a ++ ", " ++ toString b ++ ", " ++ toString c ++ ", " ++ toString d ++ ")"

/-- The derived `Debug` of `PathHomCell`, phlite_grpph/src/coboundary.rs:16-21. -/
def debugCell : PathHomCell → String
  | .node s => "Node(" ++ toString s ++ ")"
  | .edge s t => "Edge(" ++ toString s ++ ", " ++ toString t ++ ")"
  | .twoCell c => "TwoCell(" ++ debug2Cell c ++ ")"

/-- `{idx:?}` for a `Reverse<PathHomCell>`. -/
def debugRevCell (idx : PathHomCellᵒᵈ) : String := "Reverse(" ++ debugCell (OrderDual.ofDual idx) ++ ")"

section
variable {F : Type}

/-- `println!(" birth={idx:?}, f=({f_val}, ∞)")`, phlite_grpph/src/bin/main.rs:64. `fmt` is `Display` of `f64`. -/
def grpphEssentialLine (fmt : F → String) (x : PathHomCellᵒᵈ × F) : String :=
  " birth=" ++ debugRevCell x.1 ++ ", f=(" ++ fmt x.2 ++ ", ∞)\n"

/-- `println!(" pair={idx_tup:?}, f=({birth_f}, {death_f})")`, phlite_grpph/src/bin/main.rs:75. -/
def grpphPairingLine (fmt : F → String) (x : (PathHomCellᵒᵈ × PathHomCellᵒᵈ) × F × F) : String :=
  " pair=(" ++ debugRevCell x.1.1 ++ ", " ++ debugRevCell x.1.2 ++ "), f=(" ++ fmt x.2.1 ++ ", " ++ fmt x.2.2 ++ ")\n"

variable [LinearOrder F] [Zero F] [OrderTop F] [StdHeap] (CF : Type) [NonZeroCoeff CF]

/-- The last part of `main`, phlite_grpph/src/bin/main.rs:58-83: the report and the assertions. The loops are those of `printEssential` and `countPairings`. -/
def grpphPrintReport (fmt : F → String) (enumE : Finset PathHomCellᵒᵈ → List PathHomCellᵒᵈ)
    (enumP : Finset (PathHomCellᵒᵈ × PathHomCellᵒᵈ) → List (PathHomCellᵒᵈ × PathHomCellᵒᵈ)) (n : Nat) (filt : PathHomCell → Option F)
    (diagram : Diagram PathHomCellᵒᵈ) : Printing :=
  (Printing.line "Essential:\n").andThen <|
  (Printing.loop (fun idx => (filt (OrderDual.ofDual idx)).map fun f_val => some (idx, f_val)) (grpphEssentialLine fmt) (enumE diagram.essential)).andThen <|
  (Printing.line "\nPairings:\n").andThen <|
  (Printing.loop (fun tup => (filt (OrderDual.ofDual tup.2)).bind fun birth_f => (filt (OrderDual.ofDual tup.1)).map fun death_f =>
    if death_f = birth_f then none else some ((tup.2, tup.1), birth_f, death_f)) (grpphPairingLine fmt) (enumP diagram.pairings)).andThen <|
  Printing.compute (countPairings filt (enumP diagram.pairings)) fun count =>
  (Printing.line (toString count ++ "\n")).andThen <|
  Printing.compute (completeAsserts n (count, diagram.essential.card)) fun _ => Printing.line ""

/-- `main`, phlite_grpph/src/bin/main.rs:12-84: what it prints, with the parameters of `grpphMainEdges`. -/
def grpphMainStdout (fmt : F → String) (add : F → F → F) (one : F) (adj : List (Nat × Nat × F) → Nat → List (Nat × Nat × F))
    (order : List (Nat × Nat) → List (Nat × Nat)) (enumE : Finset PathHomCellᵒᵈ → List PathHomCellᵒᵈ)
    (enumP : Finset (PathHomCellᵒᵈ × PathHomCellᵒᵈ) → List (PathHomCellᵒᵈ × PathHomCellᵒᵈ)) (n : Nat) (fuelD fuel : Nat) : Printing :=
  (Printing.line "Built graph\n").andThen <|
  Printing.compute (mapOpt (fun i => dijkstra add (adj (completeEdges n one)) i fuelD) (List.range n)) fun tables =>
  (Printing.line "Computed filtration\n").andThen <|
  Printing.compute (buildGrpphCoboundary CF (vecEdgeTime (buildFiltration n (tableLookup tables))) (order (mainEdgeSet n)) (asU16 n)) fun d =>
  (Printing.line "Built coboundary matrix\n").andThen <|
  Printing.compute (buildWithDiagram d.1.ref.reverse.ref d.2.reverse fuel [0, 1]) fun r =>
  grpphPrintReport fmt enumE enumP n d.1.filt r.2

end
end Phlite
