/-
C46-C50 from the list of edges on: Dijkstra's algorithm is part of the program.
-/
import Verif.Props.GrPPHEdges

set_option linter.unusedSectionVars false
set_option linter.unusedSimpArgs false

namespace Phlite
open OrderDual (toDual ofDual)

section
variable {F : Type} [LinearOrder F] [Zero F] [OrderTop F] [StdHeap] {n : ℕ}
variable {add : F → F → F} {edges : List (ℕ × ℕ × F)} {adj : List (ℕ × ℕ × F) → ℕ → List (ℕ × ℕ × F)} {order : List (ℕ × ℕ) → List (ℕ × ℕ)}
variable {CF : Type} [NonZeroCoeff CF]

/-- C46 from the list of edges. -/
theorem C46_edges (K : Type) [Field K] [LawfulCoeff CF K] (hn : n < 65536) (hadd : IsLengthAddition add) (hadj : IsAdjacency adj) (horder : ∀ l, (order l).Perm l)
    (hedges : ∀ e ∈ edges, e.1 < n ∧ e.2.1 < n) (hw : ∀ e ∈ edges, 0 ≤ e.2.2) :
    ∃ enough, ∀ fuel ≥ enough, ∀ fuelD ≥ edges.length + 2, ∀ enumE enumP, Enumerates enumE → Enumerates enumP →
      ∃ e1 p1, grpphEdges CF add adj order enumE enumP n edges fuelD fuel =
        some ([List.replicate (componentCount n fun a b => ∃ w, (a, b, w) ∈ edges) 0, e1], [[], p1]) := by
  obtain ⟨sp, hsp⟩ := exists_shortestPaths hadd hw
  obtain ⟨enough, h⟩ := C46_degree_zero (CF := CF) K hn hadd hedges hw hsp (horder (buildEdgeSet edges))
  refine ⟨enough, fun fuel hf fuelD hfD enumE enumP hE hP => ?_⟩
  rw [(C61_runs (CF := CF) (n := n) (order := order) hadd hadj hw hsp hfD enumE enumP (fun _ => []) fuel fun _ => 0).1]
  exact h fuel hf enumE enumP hE hP

/-- C47 from the list of edges. -/
theorem C47_edges (K : Type) [Field K] [LawfulCoeff CF K] (hn : n < 65536) (hadd : IsLengthAddition add) (hadj : IsAdjacency adj) (horder : ∀ l, (order l).Perm l)
    (hedges : ∀ e ∈ edges, e.1 < n ∧ e.2.1 < n) (hw : ∀ e ∈ edges, 0 ≤ e.2.2) :
    ∃ enough, ∀ fuel ≥ enough, ∀ fuelD ≥ edges.length + 2, ∀ enumE enumP, Enumerates enumE → Enumerates enumP →
      ∃ e0 e1 p0 p1, grpphEdges CF add adj order enumE enumP n edges fuelD fuel = some ([e0, e1], [p0, p1]) ∧
        (∀ x ∈ e1, x = 0) ∧ (∀ b ∈ p1, b.1 = 0 ∧ 0 < b.2) ∧
        ((∀ e ∈ edges, 0 < e.2.2) →
          e1.length + p1.length + n = {e : ℕ × ℕ | ∃ w, (e.1, e.2, w) ∈ edges}.ncard + componentCount n fun a b => ∃ w, (a, b, w) ∈ edges) ∧
        ((∀ e ∈ edges, e.1 ≠ e.2.1 ∧ ∃ x, IsWalk add edges e.1 e.2.1 x) → (∃ r < n, ∀ v < n, ∃ x, IsWalk add edges r v x) → e1 = []) := by
  obtain ⟨sp, hsp⟩ := exists_shortestPaths hadd hw
  obtain ⟨enough, h⟩ := C47_degree_one (CF := CF) K hn hadd hedges hw hsp (horder (buildEdgeSet edges))
  refine ⟨enough, fun fuel hf fuelD hfD enumE enumP hE hP => ?_⟩
  rw [(C61_runs (CF := CF) (n := n) (order := order) hadd hadj hw hsp hfD enumE enumP (fun _ => []) fuel fun _ => 0).1]
  exact h fuel hf enumE enumP hE hP

/-- C48 from the list of edges. -/
theorem C48_edges (K : Type) [Field K] [LawfulCoeff CF K] (hn : n < 65536) (hn1 : 1 ≤ n) (hadd : IsLengthAddition add) (hadj : IsAdjacency adj) (horder : ∀ l, (order l).Perm l)
    {w : F} (hw : 0 < w) (hw' : w < ⊤) (hedges : ∀ a b x, (a, b, x) ∈ edges → x = w) (hcomplete : ∀ a b, (a, b, w) ∈ edges ↔ a < n ∧ b < n ∧ a ≠ b) :
    ∃ enough, ∀ fuel ≥ enough, ∀ fuelD ≥ edges.length + 2, ∀ enumE enumP, Enumerates enumE → Enumerates enumP →
      grpphEdges CF add adj order enumE enumP n edges fuelD fuel = some ([[0], []], [[], List.replicate (n * (n - 1) + 1 - n) (0, w)]) := by
  have hw0 : ∀ e ∈ edges, 0 ≤ e.2.2 := fun e he => by rw [hedges e.1 e.2.1 e.2.2 he]; exact hw.le
  obtain ⟨sp, hsp⟩ := exists_shortestPaths hadd hw0
  obtain ⟨enough, h⟩ := C48_complete (CF := CF) K hn hn1 hadd hw hw' hedges hcomplete hsp (horder (buildEdgeSet edges))
  refine ⟨enough, fun fuel hf fuelD hfD enumE enumP hE hP => ?_⟩
  rw [(C61_runs (CF := CF) (n := n) (order := order) hadd hadj hw0 hsp hfD enumE enumP (fun _ => []) fuel fun _ => 0).1]
  exact h fuel hf enumE enumP hE hP

/-- C49 from the list of edges. -/
theorem C49_edges (K : Type) [Field K] [LawfulCoeff CF K] {N : ℕ} {w : F} (hn : N < 65536) (hN : 2 ≤ N) (hadd : IsLengthAddition add) (hadj : IsAdjacency adj)
    (horder : ∀ l, (order l).Perm l) (hw : 0 < w) (hw' : w < ⊤) :
    ∃ enough, ∀ fuel ≥ enough, ∀ fuelB : ℕ → ℕ, (∀ i, i + 1 ≤ fuelB i) → ∀ fuelD ≥ N + 2, ∀ enumE enumP enumB, Enumerates enumE → Enumerates enumP → Enumerates enumB →
      grpphEdges CF add adj order enumE enumP N (cycleEdges N w) fuelD fuel = some ([[0], []], [[], [(0, cycleLength add w ((N + 1) / 2))]]) ∧
      ∃ rep, grpphWithInvolutionEdges CF add adj order enumE enumP enumB N (cycleEdges N w) fuelD fuel fuelB =
          some ([[0], []], [[], [(0, cycleLength add w ((N + 1) / 2))]], [rep]) ∧
        rep.Perm ((List.range N).map fun i => (i, (i + 1) % N)) := by
  have hw0 : ∀ e ∈ cycleEdges N w, 0 ≤ e.2.2 := fun e he => by
    obtain ⟨i, _, rfl⟩ := List.mem_map.1 (show e ∈ (List.range N).map _ from he)
    exact hw.le
  have hl : (cycleEdges N w).length = N := by simp [cycleEdges]
  obtain ⟨sp, hsp⟩ := exists_shortestPaths hadd hw0
  obtain ⟨enough, h⟩ := C49_cycle (CF := CF) K hn hN hadd hw hw' hsp (horder (buildEdgeSet (cycleEdges N w)))
  refine ⟨enough, fun fuel hf fuelB hfB fuelD hfD enumE enumP enumB hE hP hB => ?_⟩
  obtain ⟨r1, r2⟩ := C61_runs (CF := CF) (n := N) (order := order) hadd hadj hw0 hsp (fuelD := fuelD) (by rw [hl]; exact hfD) enumE enumP enumB fuel fuelB
  rw [r1, r2]
  exact h fuel hf fuelB hfB enumE enumP enumB hE hP hB

/-- C50 from the list of edges. -/
theorem C50_edges (hn : n < 65536) (hadd : IsLengthAddition add) (hadj : IsAdjacency adj) (horder : ∀ l, (order l).Perm l) (hedges : ∀ e ∈ edges, e.1 < n ∧ e.2.1 < n)
    (hpos : ∀ e ∈ edges, 0 < e.2.2) :
    ∃ enough, ∀ fuel ≥ enough, ∀ fuelB : ℕ → ℕ, (∀ i, i + 1 ≤ fuelB i) → ∀ fuelD ≥ edges.length + 2, ∀ enumE enumP enumB, Enumerates enumE → Enumerates enumP → Enumerates enumB →
      ∃ ess p0 p1 reps, grpphWithInvolutionEdges Z2 add adj order enumE enumP enumB n edges fuelD fuel fuelB = some (ess, [p0, p1], reps) ∧ reps.length = p1.length ∧
        ∀ rep ∈ reps, rep ≠ [] ∧ rep.Nodup ∧ (∀ e ∈ rep, ∃ w, (e.1, e.2, w) ∈ edges) ∧
          ∀ v, Even ((rep.countP fun e => e.1 = v) + rep.countP fun e => e.2 = v) := by
  have hw0 : ∀ e ∈ edges, 0 ≤ e.2.2 := fun e he => (hpos e he).le
  obtain ⟨sp, hsp⟩ := exists_shortestPaths hadd hw0
  obtain ⟨enough, h⟩ := C50_closed_representatives hn hadd hedges hpos hsp (horder (buildEdgeSet edges))
  refine ⟨enough, fun fuel hf fuelB hfB fuelD hfD enumE enumP enumB hE hP hB => ?_⟩
  rw [(C61_runs (CF := Z2) (n := n) (order := order) hadd hadj hw0 hsp hfD enumE enumP enumB fuel fuelB).2]
  exact h fuel hf fuelB hfB enumE enumP enumB hE hP hB

end

namespace GraphExample

/-- The hypotheses hold of the input of phlite_grpph/examples/infinite_weights.py (those of C50 too: the weights are positive). -/
example : (∀ e ∈ edges, e.1 < 6 ∧ e.2.1 < 6) ∧ (∀ e ∈ edges, 0 < e.2.2) := by decide

/-- Non-negative weights are needed: with a negative weight Dijkstra's algorithm returns 2 for the vertex 1, to which there is a walk of length 1. -/
def negative : List (ℕ × ℕ × WithTop ℤ) := [(0, 1, 2), (0, 2, 3), (2, 1, ((-2 : ℤ) : WithTop ℤ))]

example : (letI := listHeap; (dijkstra (fun x y => x + y) (fun u => (finiteEdges negative).filter fun e => e.1 = u) 0 10).map fun s => (List.range 3).map s) =
    some [some 0, some 2, some 3] ∧ (3 : WithTop ℤ) + ((-2 : ℤ) : WithTop ℤ) = 1 := by decide +kernel

end GraphExample
end Phlite
