/-
Model of phlite_grpph/src/{coboundary,boundary,lib}.rs (grounded persistent path homology).

Vertices (`u16`) are natural numbers; the only arithmetic on them is the truncation in `lib.rs`, modelled by `asU16`. `NotNan<f64>` is an
arbitrary linear order `F` with a zero and a top (`f64::INFINITY`): the code only compares times and takes maxima. `none` is a panic.
Hash sets are lists without repetitions, in their iteration order (which is arbitrary); hash maps are functions to `Option`.
Iterators are the lists they yield (see `Verif.Model.Matrices`).
-/
import Verif.Model.Rips
import Verif.Model.Reduction
import Mathlib.Data.List.Lex
import Mathlib.Order.BoundedOrder.Basic

namespace Phlite

/-! ### Cells -/

/-- `PathHom2Cell`, phlite_grpph/src/coboundary.rs:35-40. -/
inductive PathHom2Cell
  | doubleEdge (a b : Nat)
  | directedTriangle (a b c : Nat)
  | longSquare (a b c d : Nat)
deriving DecidableEq, Repr

/-- `PathHomCell`, phlite_grpph/src/coboundary.rs:16-21. -/
inductive PathHomCell
  | node (s : Nat)
  | edge (s t : Nat)
  | twoCell (c : PathHom2Cell)
deriving DecidableEq, Repr

/-- Variant number, then fields: the derived `Ord` compares these lexicographically. -/
def PathHom2Cell.key : PathHom2Cell → List Nat
  | .doubleEdge a b => [0, a, b]
  | .directedTriangle a b c => [1, a, b, c]
  | .longSquare a b c d => [2, a, b, c, d]

/-- Variant number, then fields: the derived `Ord` compares these lexicographically. -/
def PathHomCell.key : PathHomCell → List Nat
  | .node s => [0, s]
  | .edge s t => [1, s, t]
  | .twoCell c => 2 :: c.key

theorem PathHom2Cell.key_injective : Function.Injective PathHom2Cell.key := by
  intro x y h; cases x <;> cases y <;> simp_all [key]

theorem PathHomCell.key_injective : Function.Injective PathHomCell.key := by
  intro x y h
  cases x <;> cases y <;> simp_all [key]
  exact PathHom2Cell.key_injective h

/-- The derived `Ord` of `PathHomCell`, phlite_grpph/src/coboundary.rs:16 and 35. -/
instance : LinearOrder PathHomCell := LinearOrder.lift' PathHomCell.key PathHomCell.key_injective

/-- `PathHomCell::dimension`, phlite_grpph/src/coboundary.rs:23-31. -/
def PathHomCell.dimension : PathHomCell → Nat
  | .node _ => 0
  | .edge _ _ => 1
  | .twoCell _ => 2

/-! ### Digraph filtrations -/

/-- `iter.filter_map(f)` where `f` may panic. -/
def filterMapOpt {α β : Type} (f : α → Option (Option β)) : List α → Option (List β)
  | [] => some []
  | a :: l => (f a).bind fun b => (filterMapOpt f l).map fun r => match b with
    | none => r
    | some b => b :: r

/-- `DigraphFiltration::edge_time`, phlite_grpph/src/coboundary.rs:47-49 (and 66-73, by reference): the outer option is for panics. -/
abbrev EdgeTime (F : Type) := Nat → Nat → Option (Option F)

/-- `impl DigraphFiltration for VecDigraphFiltration`, phlite_grpph/src/coboundary.rs:54-58: panics out of range. -/
def vecEdgeTime {F : Type} (filtration : List (List (Option F))) : EdgeTime F :=
  fun s t => (filtration[s]?).bind fun row => row[t]?

/-- `impl DigraphFiltration for MapDigraphFiltration`, phlite_grpph/src/coboundary.rs:60-64. -/
def mapEdgeTime {F : Type} (filtration : Nat × Nat → Option F) : EdgeTime F := fun s t => some (filtration (s, t))

/-- `PrimaryBridgeMap`, phlite_grpph/src/coboundary.rs:42. -/
abbrev BridgeMap := Nat × Nat → Option Nat

section
variable {F : Type} [LinearOrder F]

/-- `two_path_time`, phlite_grpph/src/coboundary.rs:75-87. -/
def twoPathTime (et : EdgeTime F) (a b c : Nat) : Option (Option F) :=
  (et a b).bind fun
    | none => some none
    | some ab_time => (et b c).bind fun
      | none => some none
      | some bc_time => some (some (max ab_time bc_time))

/-- `two_path_to_two_cell_in_filtration`, phlite_grpph/src/coboundary.rs:91-146 (`bridge_map.get(..).unwrap()` panics). -/
def twoPathToTwoCell (bm : BridgeMap) (et : EdgeTime F) (a b c : Nat) : Option (Option (PathHom2Cell × F) × Bool) :=
  (twoPathTime et a b c).bind fun
    | none => some (none, false)
    | some abc_time =>
      if a = c then some (some (.doubleEdge a b, abc_time), false)
      else (et a c).bind fun
        | some ac_time =>
          if abc_time ≥ ac_time then some (some (.directedTriangle a b c, abc_time), false)
          else (bm (a, c)).map fun primary_bridge =>
            if b = primary_bridge then (some (.directedTriangle a b c, ac_time), true)
            else (some (.longSquare a primary_bridge b c, abc_time), false)
        | none => (bm (a, c)).map fun primary_bridge =>
            if b = primary_bridge then (none, true)
            else (some (.longSquare a primary_bridge b c, abc_time), false)

/-- `produce_long_squares_with_primary_bridge`, phlite_grpph/src/coboundary.rs:151-176. -/
def longSquaresWithPrimaryBridge [OrderTop F] (et : EdgeTime F) (n_vertices a b c : Nat) : Option (List (PathHom2Cell × F)) :=
  (et a c).bind fun o =>
    let ac_time := o.getD ⊤
    filterMapOpt (fun i => (twoPathTime et a i c).map fun
        | none => none
        | some aic_time => if aic_time ≥ ac_time then none else some (.longSquare a b i c, aic_time))
      ((((List.range n_vertices).filter (· ≠ a)).filter (· ≠ b)).filter (· ≠ c))

variable (CF : Type) [NonZeroCoeff CF]

/-- `two_path_to_all_two_cells_in_filtration`, phlite_grpph/src/coboundary.rs:180-199. -/
def twoPathToAllTwoCells [OrderTop F] (bm : BridgeMap) (et : EdgeTime F) (n_vertices a b c : Nat) : Option (List (CF × PathHom2Cell × F)) :=
  (twoPathToTwoCell bm et a b c).bind fun p =>
    (if p.2 then longSquaresWithPrimaryBridge et n_vertices a b c else some []).map fun squares =>
      (p.1.toList.map fun x => (NonZeroCoeff.one, x.1, x.2)) ++ squares.map fun x => (NonZeroCoeff.neg NonZeroCoeff.one, x.1, x.2)

/-- `produce_triangle_base_coboundary`, phlite_grpph/src/coboundary.rs:202-242. -/
def triangleBaseCoboundary (bm : BridgeMap) (et : EdgeTime F) (n_vertices s t : Nat) : Option (Option (List (CF × PathHom2Cell × F))) :=
  (et s t).bind fun
    | none => some none
    | some st_time =>
      let bridge_collapse_col := (bm (s, t)).toList.map fun pb =>
        (NonZeroCoeff.neg (NonZeroCoeff.one : CF), PathHom2Cell.directedTriangle s pb t, st_time)
      (filterMapOpt (fun b => (twoPathTime et s b t).map fun
          | none => none
          | some sbt_time => if sbt_time < st_time then none
            else some (NonZeroCoeff.neg (NonZeroCoeff.one : CF), PathHom2Cell.directedTriangle s b t, sbt_time))
        (((List.range n_vertices).filter (s ≠ ·)).filter (t ≠ ·))).map fun conventional_triangles =>
        some (bridge_collapse_col ++ conventional_triangles)

/-- `produce_edge_total_coboundary`, phlite_grpph/src/coboundary.rs:244-266. -/
def edgeTotalCoboundary [OrderTop F] (bm : BridgeMap) (et : EdgeTime F) (n_vertices s t : Nat) : Option (List (CF × PathHom2Cell × F)) :=
  (flatMapOpt (fun i => twoPathToAllTwoCells CF bm et n_vertices i s t) ((List.range n_vertices).filter (· ≠ s))).bind fun part_1 =>
  (triangleBaseCoboundary CF bm et n_vertices s t).bind fun part_2 =>
  (flatMapOpt (fun i => twoPathToAllTwoCells CF bm et n_vertices s t i) ((List.range n_vertices).filter (· ≠ t))).map fun part_3 =>
    part_1 ++ part_2.getD [] ++ part_3

/-- `produce_node_total_coboundary`, phlite_grpph/src/coboundary.rs:269-303. -/
def nodeTotalCoboundary [Zero F] (et : EdgeTime F) (edge_set : List (Nat × Nat)) (n_vertices s : Nat) : Option (List (CF × PathHomCell × F)) :=
  (filterMapOpt (fun j =>
      if (s, j) ∈ edge_set then some (some (NonZeroCoeff.neg (NonZeroCoeff.one : CF), PathHomCell.edge s j, 0))
      else (et s j).map fun o => o.map fun time => (NonZeroCoeff.neg (NonZeroCoeff.one : CF), PathHomCell.edge s j, time))
    (List.range n_vertices)).bind fun outgoing =>
  (filterMapOpt (fun j =>
      if (j, s) ∈ edge_set then some (some ((NonZeroCoeff.one : CF), PathHomCell.edge j s, 0))
      else (et j s).map fun o => o.map fun time => ((NonZeroCoeff.one : CF), PathHomCell.edge j s, time))
    (List.range n_vertices)).map fun incoming => outgoing ++ incoming

/-- `Iterator::min` on pairs (time, vertex). -/
def minPair : List (F × Nat) → Option (F × Nat)
  | [] => none
  | a :: l => some (l.foldl (fun x y => if toLex y < toLex x then y else x) a)

/-- The body of the loops of `build_primary_bridge_map` for the pair `(s, t)`, phlite_grpph/src/coboundary.rs:328-341. -/
def bridgeStep (et : EdgeTime F) (n_vertices : Nat) (map : BridgeMap) (st : Nat × Nat) : Option BridgeMap :=
  (filterMapOpt (fun i => (twoPathTime et st.1 i st.2).map fun o => o.map fun time => (time, i)) (List.range n_vertices)).bind fun l =>
    match minPair l with
    | none => some map
    | some (time, bridge_vertex) => (et st.1 st.2).map fun
      | some st_time => if time ≥ st_time then map else mapInsert map st bridge_vertex
      | none => mapInsert map st bridge_vertex

/-- `build_primary_bridge_map`, phlite_grpph/src/coboundary.rs:321-345. -/
def buildPrimaryBridgeMap (et : EdgeTime F) (n_vertices : Nat) : Option BridgeMap :=
  ((List.range n_vertices).flatMap fun s => (List.range n_vertices).map fun t => (s, t)).foldlM (bridgeStep et n_vertices) fun _ => none

variable [Zero F]

/-- The order of `(NotNan<f64>, PathHomCell)` tuples. -/
def cellTupleLe (a b : F × PathHomCell) : Prop := toLex a ≤ toLex b

instance : DecidableRel (cellTupleLe (F := F)) := fun a b => inferInstanceAs (Decidable (toLex a ≤ toLex b))

/-- `build_basis`, phlite_grpph/src/coboundary.rs:347-382: the bases in degrees 0 and 1. `sort_unstable` yields the sorted permutation. -/
def buildGrpphBasis (et : EdgeTime F) (edge_set : List (Nat × Nat)) (n_vertices : Nat) : Option (List (List (F × PathHomCell))) :=
  let degree_0 := (List.range n_vertices).map fun i => ((0 : F), PathHomCell.node i)
  let degree_1 := edge_set.map fun e => ((0 : F), PathHomCell.edge e.1 e.2)
  (filterMapOpt (fun e : Nat × Nat =>
      if e ∈ edge_set then some none
      else (et e.1 e.2).map fun o => o.map fun time => (time, PathHomCell.edge e.1 e.2))
    ((List.range n_vertices).flatMap fun i => (List.range n_vertices).map fun j => (i, j))).map fun rest =>
    [degree_0.insertionSort cellTupleLe, (degree_1 ++ rest).insertionSort cellTupleLe]

/-- `filtration_value` of `GrPPHCoboundary`, phlite_grpph/src/coboundary.rs:504-533, and (the same code) of `GrPPHBoundary`,
phlite_grpph/src/boundary.rs:92-121. -/
def grpphFiltrationValue (et : EdgeTime F) (edge_set : List (Nat × Nat)) : PathHomCell → Option F
  | .node _ => some 0
  | .edge s t => if (s, t) ∈ edge_set then some 0 else (et s t).bind id
  | .twoCell (.doubleEdge a b) => (twoPathTime et a b a).bind id
  | .twoCell (.directedTriangle a b c) =>
    ((twoPathTime et a b c).bind id).bind fun abc_time => ((et a c).bind id).map fun ac_time => max abc_time ac_time
  | .twoCell (.longSquare a b c d) =>
    ((twoPathTime et a b d).bind id).bind fun abd_time => ((twoPathTime et a c d).bind id).map fun acd_time => max abd_time acd_time

/-- `GrPPHCoboundary` (phlite_grpph/src/coboundary.rs:311-318): `column` (443-473), `filtration_value` (504-533) and the override of
`column_with_filtration` (535-565). -/
def grpphCoboundary [OrderTop F] (et : EdgeTime F) (bm : BridgeMap) (edge_set : List (Nat × Nat)) (n_vertices : Nat) :
    FOracle CF PathHomCell PathHomCell F where
  column
    | .node s => (nodeTotalCoboundary CF et edge_set n_vertices s).map fun l => l.map fun x => (x.1, x.2.1)
    | .edge s t => (edgeTotalCoboundary CF bm et n_vertices s t).map fun l => l.map fun x => (x.1, PathHomCell.twoCell x.2.1)
    | .twoCell _ => none
  filt := grpphFiltrationValue et edge_set
  colF
    | .node s => (nodeTotalCoboundary CF et edge_set n_vertices s).map fun l => l.map fun x => ⟨x.2.2, x.2.1, x.1⟩
    | .edge s t => (edgeTotalCoboundary CF bm et n_vertices s t).map fun l => l.map fun x => ⟨x.2.2, PathHomCell.twoCell x.2.1, x.1⟩
    | .twoCell _ => none

/-- `GrPPHCoboundary::build`, phlite_grpph/src/coboundary.rs:422-441: a `MatrixWithBasis`, whose basis is a `PathHomMultiBasis`
(396-420, the same code as `MultiDimRipsBasisWithFilt`). -/
def buildGrpphCoboundary [OrderTop F] (et : EdgeTime F) (edge_set : List (Nat × Nat)) (n_vertices : Nat) :
    Option (FOracle CF PathHomCell PathHomCell F × SplitBasis PathHomCell) :=
  (buildPrimaryBridgeMap et n_vertices).bind fun bm => (buildGrpphBasis et edge_set n_vertices).map fun basis =>
    ((grpphCoboundary CF et bm edge_set n_vertices).withBasis, multiDimBasis basis)

/-- `GrPPHBoundary::column`, phlite_grpph/src/boundary.rs:49-82. -/
def grpphBoundaryColumn : PathHomCell → List (CF × PathHomCell)
  | .node _ => []
  | .edge s t => [(NonZeroCoeff.one, .node t), (NonZeroCoeff.neg NonZeroCoeff.one, .node s)]
  | .twoCell (.doubleEdge a b) => [(NonZeroCoeff.one, .edge a b), (NonZeroCoeff.one, .edge b a)]
  | .twoCell (.directedTriangle a b c) =>
    [(NonZeroCoeff.one, .edge b c), (NonZeroCoeff.neg NonZeroCoeff.one, .edge a c), (NonZeroCoeff.one, .edge a b)]
  | .twoCell (.longSquare a b c d) =>
    [(NonZeroCoeff.one, .edge c d), (NonZeroCoeff.one, .edge a c), (NonZeroCoeff.neg NonZeroCoeff.one, .edge b d),
      (NonZeroCoeff.neg NonZeroCoeff.one, .edge a b)]

/-- `GrPPHBoundary`, phlite_grpph/src/boundary.rs:16-122 (default `column_with_filtration`). -/
def grpphBoundary (et : EdgeTime F) (edge_set : List (Nat × Nat)) : FOracle CF PathHomCell PathHomCell F :=
  Oracle.withFilt ⟨fun c => some (grpphBoundaryColumn CF c)⟩ (grpphFiltrationValue et edge_set)

/-- `GrPPHBoundary::build`, phlite_grpph/src/boundary.rs:22-37, with a `PathHomSingleBasis` (phlite_grpph/src/coboundary.rs:305-306, 384-394). -/
def buildGrpphBoundary (et : EdgeTime F) (edge_set : List (Nat × Nat)) (basis : List (F × PathHomCell)) :
    FOracle CF PathHomCell PathHomCell F × Basis PathHomCell :=
  ((grpphBoundary CF et edge_set).withBasis, singleDimBasis basis)

end

/-! ### The Python entry points -/

/-- `x as u16`. -/
def asU16 (x : Nat) : Nat := x % 65536

/-- `build_edge_set`, phlite_grpph/src/lib.rs:57-62 (`W` is the type of weights). The iteration order of the hash set is arbitrary; this is
one of the possible orders. -/
def buildEdgeSet {W : Type} (edges : List (Nat × Nat × W)) : List (Nat × Nat) := (edges.map fun e => (asU16 e.1, asU16 e.2.1)).dedup

/-- `build_filtration`, phlite_grpph/src/lib.rs:23-55. `sp i j` is the result of petgraph's `dijkstra` for the source `i` at the target `j`
(the search itself is modelled in `Verif.Model.Dijkstra`). -/
def buildFiltration {F : Type} (n_vertices : Nat) (sp : Nat → Nat → Option F) : List (List (Option F)) :=
  (List.range n_vertices).map fun i => (List.range n_vertices).map fun j => if i = j then none else sp i j

/-- `bars[d].push(x)`: panics if `d` is out of range. -/
def pushBar {α : Type} (bars : List (List α)) (d : Nat) (x : α) : Option (List (List α)) :=
  if d < bars.length then some (bars.modify d (· ++ [x])) else none

section
variable {F : Type} [LinearOrder F] [Zero F] [OrderTop F]

/-- The loop over `diagram.essential`, phlite_grpph/src/lib.rs:87-94 and 136-143. -/
def reportEssential (filt : PathHomCell → Option F) (ess : List PathHomCellᵒᵈ) : Option (List (List F)) :=
  ess.foldlM (fun essential idx => (filt (OrderDual.ofDual idx)).bind fun f_val =>
    pushBar essential (OrderDual.ofDual idx).dimension f_val) [[], []]

/-- The loop over `diagram.pairings`, phlite_grpph/src/lib.rs:96-106 and 145-159. -/
def reportPairings (filt : PathHomCell → Option F) (prs : List (PathHomCellᵒᵈ × PathHomCellᵒᵈ)) : Option (List (List (F × F))) :=
  prs.foldlM (fun pairings p =>
    (filt (OrderDual.ofDual p.2)).bind fun birth_f => (filt (OrderDual.ofDual p.1)).bind fun death_f =>
      if death_f = birth_f then some pairings else pushBar pairings (OrderDual.ofDual p.2).dimension (birth_f, death_f)) [[], []]

variable [StdHeap] (CF : Type) [NonZeroCoeff CF]

/-- `GrPPHCoboundary::build(..)`, `(&d).reverse()`, `build_with_diagram(&d_rev, 0..=1)`, the common part of phlite_grpph/src/lib.rs:72-83 and 121-132,
phlite_grpph/src/bin/main.rs:51-56 and the tests in phlite_grpph/src/coboundary.rs:624-627 and 671-674, for any filtration. -/
def grpphRun (et : EdgeTime F) (edge_set : List (Nat × Nat)) (n_vertices : Nat) (fuel : Nat) :
    Option (FOracle CF PathHomCell PathHomCell F × Diagram PathHomCellᵒᵈ) :=
  (buildGrpphCoboundary CF et edge_set n_vertices).bind fun d =>
    (buildWithDiagram d.1.ref.reverse.ref d.2.reverse fuel [0, 1]).map fun r => (d.1, r.2)

/-- The common part of `grpph` and `grpph_with_involution`, phlite_grpph/src/lib.rs:72-83 and 121-132: the coboundary matrix and the
diagram of its reverse. The library uses `CF = Z2`. -/
def grpphDiagram (n_vertices : Nat) (sp : Nat → Nat → Option F) (edge_set : List (Nat × Nat)) (fuel : Nat) :
    Option (FOracle CF PathHomCell PathHomCell F × Diagram PathHomCellᵒᵈ) :=
  grpphRun CF (vecEdgeTime (buildFiltration n_vertices sp)) edge_set (asU16 n_vertices) fuel

/-- `grpph`, phlite_grpph/src/lib.rs:69-110. `enumE`, `enumP`: the iteration orders of the hash sets. -/
def grpph (enumE : Finset PathHomCellᵒᵈ → List PathHomCellᵒᵈ)
    (enumP : Finset (PathHomCellᵒᵈ × PathHomCellᵒᵈ) → List (PathHomCellᵒᵈ × PathHomCellᵒᵈ))
    (n_vertices : Nat) (sp : Nat → Nat → Option F) (edge_set : List (Nat × Nat)) (fuel : Nat) :
    Option (List (List F) × List (List (F × F))) :=
  (grpphDiagram CF n_vertices sp edge_set fuel).bind fun r =>
    (reportEssential r.1.filt (enumE r.2.essential)).bind fun essential =>
    (reportPairings r.1.filt (enumP r.2.pairings)).map fun pairings => (essential, pairings)

/-- The involution basis, phlite_grpph/src/lib.rs:145-164: the death cells of the degree-1 births, sorted. -/
def involutionBasis (filt : PathHomCell → Option F) (prs : List (PathHomCellᵒᵈ × PathHomCellᵒᵈ)) : Option (List (F × PathHomCell)) :=
  (filterMapOpt (fun p : PathHomCellᵒᵈ × PathHomCellᵒᵈ => (filt (OrderDual.ofDual p.2)).bind fun _birth_f =>
    (filt (OrderDual.ofDual p.1)).map fun death_f =>
      if (OrderDual.ofDual p.2).dimension = 1 then some (death_f, OrderDual.ofDual p.1) else none) prs).map
    fun l => l.insertionSort cellTupleLe

/-- Reading off the representatives, phlite_grpph/src/lib.rs:171-197: `r` is `product(&d_boundary, &v_boundary)`, `prs` the pairings of the
boundary diagram in iteration order. An entry that is not an edge is unreachable code (a panic). -/
def readReps (filt : PathHomCell → Option F) (r : FOracle CF PathHomCell PathHomCell F) (prs : List (PathHomCell × PathHomCell)) :
    Option (List (List (Nat × Nat))) :=
  filterMapOpt (fun p : PathHomCell × PathHomCell => (filt p.1).bind fun birth_f => (filt p.2).bind fun death_f =>
    if death_f = birth_f then some none
    else (r.buildBhcol p.2).bind fun rep => (BHCol.toSortedVec rep).bind fun es =>
      (mapOpt (fun e : Entry F PathHomCell CF => match e.row with
        | .edge a b => some (a, b)
        | _ => none) es).map some) prs

/-- The second part of `grpph_with_involution`, phlite_grpph/src/lib.rs:162-200: the boundary matrix restricted to the involution basis is
reduced, and the representatives are read off. `fuel i` bounds the reduction loop of column `i`. -/
def involutionReps (enumB : Finset (PathHomCell × PathHomCell) → List (PathHomCell × PathHomCell)) (et : EdgeTime F)
    (edge_set : List (Nat × Nat)) (filt : PathHomCell → Option F) (basis : List (F × PathHomCell)) (fuel : Nat → Nat) :
    Option (List (List (Nat × Nat))) :=
  let d := buildGrpphBoundary CF et edge_set basis
  (standardAlgoWithDiagram d.1.ref d.2 fuel false).bind fun r =>
    readReps CF filt (productF d.1.ref (mapVecMatrix r.1)) (enumB r.2.pairings)

/-- `grpph_with_involution`, phlite_grpph/src/lib.rs:114-201. -/
def grpphWithInvolution (enumE : Finset PathHomCellᵒᵈ → List PathHomCellᵒᵈ)
    (enumP : Finset (PathHomCellᵒᵈ × PathHomCellᵒᵈ) → List (PathHomCellᵒᵈ × PathHomCellᵒᵈ))
    (enumB : Finset (PathHomCell × PathHomCell) → List (PathHomCell × PathHomCell))
    (n_vertices : Nat) (sp : Nat → Nat → Option F) (edge_set : List (Nat × Nat)) (fuel : Nat) (fuelB : Nat → Nat) :
    Option (List (List F) × List (List (F × F)) × List (List (Nat × Nat))) :=
  (grpphDiagram CF n_vertices sp edge_set fuel).bind fun r =>
    (reportEssential r.1.filt (enumE r.2.essential)).bind fun essential =>
    (reportPairings r.1.filt (enumP r.2.pairings)).bind fun pairings =>
    (involutionBasis r.1.filt (enumP r.2.pairings)).bind fun basis =>
    (involutionReps CF enumB (vecEdgeTime (buildFiltration n_vertices sp)) edge_set r.1.filt basis fuelB).map fun reps =>
      (essential, pairings, reps)

end
end Phlite
