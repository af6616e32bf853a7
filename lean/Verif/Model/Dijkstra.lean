/-
Model of `build_filtration` in phlite_grpph/src/lib.rs including the shortest path computation, and of the entry points from the list of edges on.

petgraph is an external crate whose source is not in the repository: `dijkstra` is modelled after its published documentation and source (petgraph 0.6,
`algo::dijkstra` without a goal): a binary heap of `MinScored(score, node)`, which are compared by their score only; a hash map of scores; and a set of
visited nodes. `out u` lists the edges that leave `u`, in the order of petgraph's adjacency lists, which is left open. `add` is the addition of `f64`.
A weight `NaN` is not smaller than `f64::INFINITY`, and weights are not used elsewhere, so it behaves like an infinite weight.
-/
import Verif.Model.GrPPHMain

namespace Phlite

section
variable {F : Type} [LinearOrder F] [Zero F] [OrderTop F]

/-- The edges that are put into the graph, phlite_grpph/src/lib.rs:31-34: those of finite weight. -/
def finiteEdges (edges : List (Nat × Nat × F)) : List (Nat × Nat × F) := edges.filter fun e => e.2.2 < ⊤

variable [StdHeap]

/-- The local variables of `dijkstra`: `visited`, `scores`, `visit_next`. An entry of the heap has the reversed score as its key and the node as its payload. -/
structure DijState (F : Type) [LinearOrder F] [StdHeap] where
  visited : Nat → Bool
  scores : Nat → Option F
  heap : StdHeap.H Fᵒᵈ Unit Nat

/-- `MinScored(score, node)`: reversed order of the scores, the node is not compared. -/
def minScored (score : F) (node : Nat) : Entry Fᵒᵈ Unit Nat := ⟨OrderDual.toDual score, (), node⟩

/-- The body of the loop over `graph.edges(node)` in petgraph's `dijkstra`, called at phlite_grpph/src/lib.rs:39. -/
def relax (add : F → F → F) (node_score : F) (s : DijState F) (e : Nat × Nat × F) : DijState F :=
  if s.visited e.2.1 then s
  else
    let next_score := add node_score e.2.2
    let s' : DijState F := { s with scores := mapInsert s.scores e.2.1 next_score, heap := StdHeap.push s.heap (minScored next_score e.2.1) }
    match s.scores e.2.1 with
    | some old => if next_score < old then s' else s
    | none => s'

/-- The main loop of petgraph's `dijkstra`, called at phlite_grpph/src/lib.rs:39; the fuel bounds the number of entries popped. -/
def dijLoop (add : F → F → F) (out : Nat → List (Nat × Nat × F)) : Nat → DijState F → Option (Nat → Option F)
  | 0, _ => none
  | fuel + 1, s =>
    match StdHeap.pop s.heap with
    | none => some s.scores
    | some (e, h) =>
      if s.visited e.coeff then dijLoop add out fuel { s with heap := h }
      else
        let s' := (out e.coeff).foldl (relax add (OrderDual.ofDual e.filt)) { s with heap := h }
        dijLoop add out fuel { s' with visited := fun v => if v = e.coeff then true else s'.visited v }

/-- `dijkstra(&g, start, None, |e| *e.weight())`, phlite_grpph/src/lib.rs:39. -/
def dijkstra (add : F → F → F) (out : Nat → List (Nat × Nat × F)) (start : Nat) (fuel : Nat) : Option (Nat → Option F) :=
  dijLoop add out fuel ⟨fun _ => false, mapInsert (fun _ => none) start 0, StdHeap.push StdHeap.empty (minScored 0 start)⟩

/-- `build_filtration(n_vertices, edges)`, phlite_grpph/src/lib.rs:23-55, up to the table of lengths that is read at lines 46-48: the graph has the edges of finite
weight (line 34); one run of Dijkstra's algorithm for each source `0, ..., n_vertices - 1` (lines 38-39). `adj l u` lists the edges of the graph
built from `l` that leave `u`, in petgraph's order. -/
def dijkstraTables (add : F → F → F) (adj : List (Nat × Nat × F) → Nat → List (Nat × Nat × F)) (n_vertices : Nat) (edges : List (Nat × Nat × F)) (fuel : Nat) :
    Option (List (Nat → Option F)) :=
  mapOpt (fun i => dijkstra add (adj (finiteEdges edges)) i fuel) (List.range n_vertices)

/-- `sp_lengths.get(&NodeIndex::from(j))` for the source `i`, phlite_grpph/src/lib.rs:46-49. -/
def tableLookup (tables : List (Nat → Option F)) (i j : Nat) : Option F := (tables[i]?).bind fun scores => scores j

variable (CF : Type) [NonZeroCoeff CF]

/-- `grpph(n_vertices, edges)`, phlite_grpph/src/lib.rs:69-110, from its arguments on; `order` puts the hash set of `build_edge_set` into its iteration order. -/
def grpphEdges (add : F → F → F) (adj : List (Nat × Nat × F) → Nat → List (Nat × Nat × F)) (order : List (Nat × Nat) → List (Nat × Nat))
    (enumE : Finset PathHomCellᵒᵈ → List PathHomCellᵒᵈ)
    (enumP : Finset (PathHomCellᵒᵈ × PathHomCellᵒᵈ) → List (PathHomCellᵒᵈ × PathHomCellᵒᵈ))
    (n_vertices : Nat) (edges : List (Nat × Nat × F)) (fuelD fuel : Nat) : Option (List (List F) × List (List (F × F))) :=
  (dijkstraTables add adj n_vertices edges fuelD).bind fun tables =>
    grpph CF enumE enumP n_vertices (tableLookup tables) (order (buildEdgeSet edges)) fuel

/-- `grpph_with_involution(n_vertices, edges)`, phlite_grpph/src/lib.rs:114-201, from its arguments on. -/
def grpphWithInvolutionEdges (add : F → F → F) (adj : List (Nat × Nat × F) → Nat → List (Nat × Nat × F)) (order : List (Nat × Nat) → List (Nat × Nat))
    (enumE : Finset PathHomCellᵒᵈ → List PathHomCellᵒᵈ)
    (enumP : Finset (PathHomCellᵒᵈ × PathHomCellᵒᵈ) → List (PathHomCellᵒᵈ × PathHomCellᵒᵈ))
    (enumB : Finset (PathHomCell × PathHomCell) → List (PathHomCell × PathHomCell))
    (n_vertices : Nat) (edges : List (Nat × Nat × F)) (fuelD fuel : Nat) (fuelB : Nat → Nat) :
    Option (List (List F) × List (List (F × F)) × List (List (Nat × Nat))) :=
  (dijkstraTables add adj n_vertices edges fuelD).bind fun tables =>
    grpphWithInvolution CF enumE enumP enumB n_vertices (tableLookup tables) (order (buildEdgeSet edges)) fuel fuelB

/-- `main` of the example program, phlite_grpph/src/bin/main.rs:12-84, including the shortest paths (lines 24-42). `one` is `1.0`. -/
def grpphMainEdges (add : F → F → F) (one : F) (adj : List (Nat × Nat × F) → Nat → List (Nat × Nat × F)) (order : List (Nat × Nat) → List (Nat × Nat))
    (enumE : Finset PathHomCellᵒᵈ → List PathHomCellᵒᵈ)
    (enumP : Finset (PathHomCellᵒᵈ × PathHomCellᵒᵈ) → List (PathHomCellᵒᵈ × PathHomCellᵒᵈ))
    (n : Nat) (fuelD fuel : Nat) : Option Unit :=
  (mapOpt (fun i => dijkstra add (adj (completeEdges n one)) i fuelD) (List.range n)).bind fun tables =>
    grpphMain CF enumE enumP n (tableLookup tables) (order (mainEdgeSet n)) fuel

end
end Phlite
