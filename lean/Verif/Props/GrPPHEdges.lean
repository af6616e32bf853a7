/-
C61: `grpph` and `grpph_with_involution` from the list of edges on, including the shortest paths.
-/
import Verif.Proofs.Dijkstra
import Verif.Props.GrPPHMain
import Verif.Props.GrPPHInvariance
import Verif.Props.GrPPHGraphs
import Verif.Props.GrPPHShape

set_option linter.unusedSectionVars false
set_option linter.unusedSimpArgs false

namespace Phlite
open OrderDual (toDual ofDual)

section
variable {F : Type} [LinearOrder F] [Zero F] [OrderTop F] [StdHeap] {n : ℕ}
variable {add : F → F → F} {edges : List (ℕ × ℕ × F)} {adj : List (ℕ × ℕ × F) → ℕ → List (ℕ × ℕ × F)} {order : List (ℕ × ℕ) → List (ℕ × ℕ)}
  {sp : ℕ → ℕ → Option F}

/-- C61: for every weighted digraph with non-negative weights, every order of the adjacency lists and every heap that pops a least score first (whatever it does with
ties), the search from `start` stops after at most `edges.length + 1` pops, and the score it returns for a vertex is the least length of a walk
to it along edges of finite weight; vertices without a score are those to which there is no such walk. -/
theorem C61_dijkstra (hadd : IsLengthAddition add) (hadj : IsAdjacency adj) (hw : ∀ e ∈ edges, 0 ≤ e.2.2) (start : ℕ) :
    ∃ scores, (∀ fuel ≥ edges.length + 2, dijkstra add (adj (finiteEdges edges)) start fuel = some scores) ∧
      (∀ j x, scores j = some x → IsLeast {y | IsWalk add edges start j y} x) ∧ (∀ j, scores j = none → ∀ x, ¬ IsWalk add edges start j x) := by
  obtain ⟨scores, h1, h2, h3⟩ := dijkstra_spec hadd (hadj.adjOf (edges := edges)) hw start le_rfl
  refine ⟨scores, fun fuel hf => ?_, h2, fun j hj x hx => ?_⟩
  · obtain ⟨scores', h1', h2', h3'⟩ := dijkstra_spec hadd (hadj.adjOf (edges := edges)) hw start hf
    rw [h1', IsShortestPaths.eq h2 h3 h2' h3']
  · obtain ⟨y, hy⟩ := h3 j x hx
    rw [hj] at hy; cases hy

variable {CF : Type} [NonZeroCoeff CF]

/-- C61: the runs from the list of edges are the runs from the table of shortest path lengths, about which the other theorems speak. -/
theorem C61_runs (hadd : IsLengthAddition add) (hadj : IsAdjacency adj) (hw : ∀ e ∈ edges, 0 ≤ e.2.2) (hsp : IsShortestPaths add edges sp) {fuelD : ℕ}
    (hf : edges.length + 2 ≤ fuelD) (enumE : Finset PathHomCellᵒᵈ → List PathHomCellᵒᵈ)
    (enumP : Finset (PathHomCellᵒᵈ × PathHomCellᵒᵈ) → List (PathHomCellᵒᵈ × PathHomCellᵒᵈ))
    (enumB : Finset (PathHomCell × PathHomCell) → List (PathHomCell × PathHomCell)) (fuel : ℕ) (fuelB : ℕ → ℕ) :
    grpphEdges CF add adj order enumE enumP n edges fuelD fuel = grpph CF enumE enumP n sp (order (buildEdgeSet edges)) fuel ∧
    grpphWithInvolutionEdges CF add adj order enumE enumP enumB n edges fuelD fuel fuelB =
      grpphWithInvolution CF enumE enumP enumB n sp (order (buildEdgeSet edges)) fuel fuelB := by
  constructor
  · unfold grpphEdges
    rw [tables_spec hadd hadj hw hsp n hf, Option.bind_some]
    unfold grpph grpphDiagram
    rw [buildFiltration_tables]
  · unfold grpphWithInvolutionEdges
    rw [tables_spec hadd hadj hw hsp n hf, Option.bind_some]
    unfold grpphWithInvolution grpphDiagram
    rw [buildFiltration_tables]

/-- C61: `grpph(n, edges)` from its arguments to its result: for every weighted digraph on `0, ..., n - 1` with non-negative weights it returns the
barcodes in degrees 0 and 1 of grounded persistent path homology, where the edge `i → j` of the filtration appears at the length of a shortest walk from `i` to `j`. -/
theorem C61_barcode (K : Type) [Field K] [LawfulCoeff CF K] (hn : n < 65536) (hadd : IsLengthAddition add) (hadj : IsAdjacency adj) (horder : ∀ l, (order l).Perm l)
    (hedges : ∀ e ∈ edges, e.1 < n ∧ e.2.1 < n) (hw : ∀ e ∈ edges, 0 ≤ e.2.2) :
    ∃ dist : ℕ → ℕ → Option F, IsShortestPaths add edges dist ∧
    ∃ enough, ∀ fuel ≥ enough, ∀ fuelD ≥ edges.length + 2, ∀ enumE enumP, Enumerates enumE → Enumerates enumP →
      ∃ e0 e1 p0 p1, grpphEdges CF add adj order enumE enumP n edges fuelD fuel = some ([e0, e1], [p0, p1]) ∧
        IsGroundedBarcode K {e : ℕ × ℕ | ∃ w, (e.1, e.2, w) ∈ edges} n (fun i j => if i = j then none else dist i j) 0 (reportIntervals e0 p0) ∧
        IsGroundedBarcode K {e : ℕ × ℕ | ∃ w, (e.1, e.2, w) ∈ edges} n (fun i j => if i = j then none else dist i j) 1 (reportIntervals e1 p1) := by
  obtain ⟨sp, hsp⟩ := exists_shortestPaths hadd hw
  refine ⟨sp, hsp, ?_⟩
  obtain ⟨enough, h⟩ := C55_barcode K (inferInstanceAs StdHeap) (CF := CF) hn hedges (horder (buildEdgeSet edges)) (sp := sp)
    (fun i j x hx => ((hsp.least i j x hx).1).nonneg hadd hw) hsp.topClosed
  refine ⟨enough, fun fuel hf fuelD hfD enumE enumP hE hP => ?_⟩
  rw [(C61_runs (CF := CF) (n := n) (order := order) hadd hadj hw hsp hfD enumE enumP (fun _ => []) fuel fun _ => 0).1]
  exact h fuel hf enumE enumP hE hP

/-- C61: `grpph_with_involution(n, edges)` from its arguments to its result: it returns what `grpph` returns, together with one list of edges per
finite interval of degree 1 which is the support of a representative cycle. -/
theorem C61_involution (K : Type) [Field K] [LawfulCoeff CF K] (hn : n < 65536) (hadd : IsLengthAddition add) (hadj : IsAdjacency adj) (horder : ∀ l, (order l).Perm l)
    (hedges : ∀ e ∈ edges, e.1 < n ∧ e.2.1 < n) (hw : ∀ e ∈ edges, 0 ≤ e.2.2) :
    ∃ dist : ℕ → ℕ → Option F, IsShortestPaths add edges dist ∧
    ∃ enough, ∀ fuel ≥ enough, ∀ fuelB : ℕ → ℕ, (∀ i, i + 1 ≤ fuelB i) → ∀ fuelD ≥ edges.length + 2,
      ∀ enumE enumP enumB, Enumerates enumE → Enumerates enumP → Enumerates enumB →
      ∃ ess p0 p1 reps, grpphEdges CF add adj order enumE enumP n edges fuelD fuel = some (ess, [p0, p1]) ∧
        grpphWithInvolutionEdges CF add adj order enumE enumP enumB n edges fuelD fuel fuelB = some (ess, [p0, p1], reps) ∧
        ∃ (bar : ℕ → F × F) (z : ℕ → (ℕ × ℕ →₀ K)), ((List.range reps.length).map bar).Perm p1 ∧
          RepresentsBars K {e : ℕ × ℕ | ∃ w, (e.1, e.2, w) ∈ edges} n (fun i j => if i = j then none else dist i j) reps.length bar z ∧
          ∀ i rep, reps[i]? = some rep → rep.Nodup ∧ (∀ e, e ∈ rep ↔ z i e ≠ 0) ∧
            ∃ e ∈ rep.head?, EdgeAppears {e : ℕ × ℕ | ∃ w, (e.1, e.2, w) ∈ edges} n (fun i j => if i = j then none else dist i j) e (bar i).1 := by
  obtain ⟨sp, hsp⟩ := exists_shortestPaths hadd hw
  refine ⟨sp, hsp, ?_⟩
  obtain ⟨enough, h⟩ := C38_involution (CF := CF) (K := K) hn hedges (horder (buildEdgeSet edges)) (sp := sp)
    hsp.topClosed
  refine ⟨enough, fun fuel hf fuelB hfB fuelD hfD enumE enumP enumB hE hP hB => ?_⟩
  obtain ⟨r1, r2⟩ := C61_runs (CF := CF) (n := n) (order := order) hadd hadj hw hsp hfD enumE enumP enumB fuel fuelB
  rw [r1, r2]
  exact h fuel hf fuelB hfB enumE enumP enumB hE hP hB

/-- C61: the example program, including its shortest paths, runs to its end for every number of vertices from 2 to 65535. -/
theorem C61_main (K : Type) [Field K] [LawfulCoeff CF K] (hn : n < 65536) (hn2 : 2 ≤ n) (hadd : IsLengthAddition add) {one : F} (h0 : 0 < one) (h1 : one < ⊤)
    (hadj : IsAdjacency adj) (horder : ∀ l, (order l).Perm l) :
    ∃ enough, ∀ fuel ≥ enough, ∀ fuelD ≥ n * n + 2, ∀ enumE enumP, Enumerates enumE → Enumerates enumP →
      grpphMainEdges CF add one adj order enumE enumP n fuelD fuel = some () := by
  have hw : ∀ e ∈ completeEdges n one, 0 ≤ e.2.2 := by
    rintro ⟨a, b, x⟩ he
    rw [(mem_completeEdges.1 he).2.2.2]; exact h0.le
  have hfinite : finiteEdges (completeEdges n one) = completeEdges n one := by
    refine List.filter_eq_self.2 ?_
    rintro ⟨a, b, x⟩ he
    simp [(mem_completeEdges.1 he).2.2.2, h1]
  have hlen : (completeEdges n one).length ≤ n * n := by
    unfold completeEdges
    rw [List.length_map]
    refine (List.length_filter_le _ _).trans ?_
    rw [List.length_flatMap]
    simp
  obtain ⟨sp, hsp⟩ := exists_shortestPaths hadd hw
  obtain ⟨enough, h⟩ := C59_main (CF := CF) K hn hn2 hadd h0 h1 hsp (horder (mainEdgeSet n))
  refine ⟨enough, fun fuel hf fuelD hfD enumE enumP hE hP => ?_⟩
  unfold grpphMainEdges
  have ht := tables_spec hadd hadj hw hsp n (fuel := fuelD) (by omega)
  unfold dijkstraTables at ht
  rw [hfinite] at ht
  rw [ht, Option.bind_some]
  have := h fuel hf enumE enumP hE hP
  unfold grpphMain at this ⊢
  rw [buildFiltration_tables]
  exact this

end

section
variable {F : Type} [LinearOrder F] [Zero F] [OrderTop F] {n : ℕ} {add : F → F → F} {CF : Type} [NonZeroCoeff CF]

/-- C61: the order and the multiplicity of the edges in the argument, the order of the adjacency lists, the order of the hash sets and the tie-breaking of
the heaps do not change the numbers that are returned in each degree, up to their order. -/
theorem C61_same_edges (K : Type) [Field K] [LawfulCoeff CF K] (hn : n < 65536) (hadd : IsLengthAddition add) {adj adj' : List (ℕ × ℕ × F) → ℕ → List (ℕ × ℕ × F)}
    {order order' : List (ℕ × ℕ) → List (ℕ × ℕ)} {edges edges' : List (ℕ × ℕ × F)} (H H' : StdHeap) (hadj : IsAdjacency adj) (hadj' : IsAdjacency adj')
    (horder : ∀ l, (order l).Perm l) (horder' : ∀ l, (order' l).Perm l) (hsame : ∀ e, e ∈ edges' ↔ e ∈ edges)
    (hedges : ∀ e ∈ edges, e.1 < n ∧ e.2.1 < n) (hw : ∀ e ∈ edges, 0 ≤ e.2.2) :
    ∃ enough, ∀ fuel ≥ enough, ∀ fuel' ≥ enough, ∀ fuelD ≥ enough, ∀ fuelD' ≥ enough, ∀ enumE enumP enumE' enumP', Enumerates enumE → Enumerates enumP →
      Enumerates enumE' → Enumerates enumP' →
      ∃ e0 e1 p0 p1 e0' e1' p0' p1', (letI := H; grpphEdges CF add adj order enumE enumP n edges fuelD fuel) = some ([e0, e1], [p0, p1]) ∧
        (letI := H'; grpphEdges CF add adj' order' enumE' enumP' n edges' fuelD' fuel') = some ([e0', e1'], [p0', p1']) ∧
        e0.Perm e0' ∧ e1.Perm e1' ∧ p0.Perm p0' ∧ p1.Perm p1' := by
  obtain ⟨sp, hsp⟩ := exists_shortestPaths hadd hw
  have hw' : ∀ e ∈ edges', 0 ≤ e.2.2 := fun e he => hw e ((hsame e).1 he)
  obtain ⟨sp', hsp'⟩ := exists_shortestPaths hadd hw'
  obtain ⟨enough, h⟩ := C55_digraph K H H' (CF := CF) (CF' := CF) hn hedges (horder (buildEdgeSet edges)) (horder' (buildEdgeSet edges')) (Equiv.refl ℕ)
    (fun _ => Iff.rfl) (fun a b w => hsame (a, b, w)) hsp hsp'
    fun i j x hx => ((hsp.least i j x hx).1).nonneg hadd hw
  refine ⟨max enough (max (edges.length + 2) (edges'.length + 2)), fun fuel hf fuel' hf' fuelD hfD fuelD' hfD' enumE enumP enumE' enumP' hE hP hE' hP' => ?_⟩
  rw [(@C61_runs F _ _ _ H n add edges adj order sp CF _ hadd hadj hw hsp fuelD
    (((le_max_left _ _).trans (le_max_right _ _)).trans hfD) enumE enumP (fun _ => []) fuel fun _ => 0).1]
  rw [(@C61_runs F _ _ _ H' n add edges' adj' order' sp' CF _ hadd hadj' hw' hsp' fuelD'
    (((le_max_right _ _).trans (le_max_right _ _)).trans hfD') enumE' enumP' (fun _ => []) fuel' fun _ => 0).1]
  exact h fuel ((le_max_left _ _).trans hf) fuel' ((le_max_left _ _).trans hf') enumE enumP enumE' enumP' hE hP hE' hP'

end

namespace GraphExample

/-- The adjacency lists in the order of petgraph: the newest edge first. -/
def newestFirst (l : List (ℕ × ℕ × WithTop ℕ)) (u : ℕ) : List (ℕ × ℕ × WithTop ℕ) := (l.filter fun e => e.1 = u).reverse

theorem newestFirst_adj : IsAdjacency newestFirst := fun _ _ => List.reverse_perm _

/-- The hypotheses of C61 hold of the input of phlite_grpph/examples/infinite_weights.py. -/
example : IsLengthAddition (fun x y : WithTop ℕ => x + y) ∧ IsAdjacency newestFirst ∧ (∀ l : List (ℕ × ℕ), (l.reverse).Perm l) ∧
    (∀ e ∈ edges, e.1 < 6 ∧ e.2.1 < 6) ∧ ∀ e ∈ edges, 0 ≤ e.2.2 :=
  ⟨natTop_add, newestFirst_adj, fun _ => List.reverse_perm _, by decide, by decide⟩

/-- A graph in which the first score found for a vertex is improved twice: `0 → 3` has length 9, 5 and then 3. -/
def detour : List (ℕ × ℕ × WithTop ℕ) := [(0, 3, 9), (0, 1, 1), (1, 3, 4), (1, 2, 1), (2, 3, 1), (3, 0, 2), (4, 0, 1), (2, 4, ⊤)]

example : (letI := listHeap; (dijkstra (fun x y => x + y) (newestFirst (finiteEdges detour)) 0 10).map fun s => (List.range 5).map s) =
    some [some 0, some 1, some 2, some 3, none] := by decide +kernel

/-- It is not enough to pop `edges.length` times: the entry of the start is popped, too, and then the empty heap. -/
example : (letI := listHeap; (dijkstra (fun x y => x + y) (newestFirst [(0, 1, 1)]) 0 2).isSome) = false ∧
    (letI := listHeap; (dijkstra (fun x y => x + y) (newestFirst [(0, 1, 1)]) 0 3).isSome) = true := by decide +kernel

set_option synthInstance.maxSize 2000 in
set_option synthInstance.maxHeartbeats 200000 in
/-- The run from the list of edges on. -/
example : (letI := listHeap; grpphWithInvolutionEdges Z2 (fun x y => x + y) newestFirst (fun l => l) GrPPHExample.enumE GrPPHExample.enumP GrPPHExample.enumB 6 edges 7 100
      (fun i => i + 1)) =
    some ([[0, 0, 0], []], [[], [(0, 10), (0, 1)]], [[(1, 0), (0, 1)], [(4, 3), (3, 4)]]) := by
  decide +kernel

end GraphExample
end Phlite
