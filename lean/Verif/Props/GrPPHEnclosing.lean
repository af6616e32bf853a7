/-
C95: `grpph` beyond the radius of a vertex that reaches all others.
-/
import Verif.Theory.EnclosingDigraph
import Verif.Props.GrPPHEdgesShape
import Verif.Props.GrPPHReverse

set_option linter.unusedSectionVars false
set_option linter.unusedSimpArgs false

namespace Phlite

section
variable {F : Type} [LinearOrder F] [Zero F] [OrderTop F] {n : ℕ} {add : F → F → F} {CF : Type} [NonZeroCoeff CF] [StdHeap]
variable {adj : List (ℕ × ℕ × F) → ℕ → List (ℕ × ℕ × F)} {order : List (ℕ × ℕ) → List (ℕ × ℕ)} {edges : List (ℕ × ℕ × F)}

/-- C95: if some vertex reaches all others by walks of length at most `r`, or all others reach it, then the intervals of degree 1 that end after `r` are those of single edges:
`[0, dist)` for each edge from whose start to whose end the distance is greater than `r`, `[0, ∞)` for each loop and each edge for which there is no walk of finite edges. -/
theorem C95_beyond (K : Type) [Field K] [LawfulCoeff CF K] (hn : n < 65536) (hadd : IsLengthAddition add) (hadj : IsAdjacency adj) (horder : ∀ l, (order l).Perm l)
    (hedges : ∀ e ∈ edges, e.1 < n ∧ e.2.1 < n) (hw : ∀ e ∈ edges, 0 ≤ e.2.2) {v : ℕ} (hv : v < n) {r : F}
    (hreach : (∀ u < n, ∃ x ≤ r, IsWalk add edges v u x) ∨ ∀ u < n, ∃ x ≤ r, IsWalk add edges u v x) :
    ∃ dist : ℕ → ℕ → Option F, IsShortestPaths add edges dist ∧
    ∃ enough, ∀ fuel ≥ enough, ∀ fuelD ≥ edges.length + 2, ∀ enumE enumP, Enumerates enumE → Enumerates enumP →
      ∃ e0 e1 p0 p1, grpphEdges CF add adj order enumE enumP n edges fuelD fuel = some ([e0, e1], [p0, p1]) ∧
        (reportIntervals e1 p1).filter (fun b => (r : WithTop F) < b.2) =
          ((edges.map fun e => (e.1, e.2.1)).toFinset.filter fun e => (r : WithTop F) < edgeEnd dist e).val.map fun e => ((0 : F), edgeEnd dist e) := by
  classical
  obtain ⟨dist, hd, enough, h⟩ := C61_barcode (CF := CF) (order := order) K hn hadd hadj horder hedges hw
  refine ⟨dist, hd, enough, fun fuel hf fuelD hfD enumE enumP hE hP => ?_⟩
  obtain ⟨e0, e1, p0, p1, h1, -, h2⟩ := h fuel hf fuelD hfD enumE enumP hE hP
  refine ⟨e0, e1, p0, p1, h1, ?_⟩
  convert IsGroundedBarcode.beyond hadd hedges hw hd hv hreach h2

/-- C95: so if moreover there are no loops and the start of each edge reaches its end by a walk of length at most `r`, all intervals of degree 1 are finite and end at `r` or before. -/
theorem C95_bound (K : Type) [Field K] [LawfulCoeff CF K] (hn : n < 65536) (hadd : IsLengthAddition add) (hadj : IsAdjacency adj) (horder : ∀ l, (order l).Perm l)
    (hedges : ∀ e ∈ edges, e.1 < n ∧ e.2.1 < n) (hw : ∀ e ∈ edges, 0 ≤ e.2.2) {v : ℕ} (hv : v < n) {r : F}
    (hreach : (∀ u < n, ∃ x ≤ r, IsWalk add edges v u x) ∨ ∀ u < n, ∃ x ≤ r, IsWalk add edges u v x)
    (hshort : ∀ e ∈ edges, e.1 ≠ e.2.1 ∧ ∃ x ≤ r, IsWalk add edges e.1 e.2.1 x) :
    ∃ enough, ∀ fuel ≥ enough, ∀ fuelD ≥ edges.length + 2, ∀ enumE enumP, Enumerates enumE → Enumerates enumP →
      ∃ e0 p0 p1, grpphEdges CF add adj order enumE enumP n edges fuelD fuel = some ([e0, []], [p0, p1]) ∧ ∀ b ∈ p1, b.2 ≤ r := by
  obtain ⟨dist, hd, enough, h⟩ := C95_beyond (CF := CF) (order := order) K hn hadd hadj horder hedges hw hv hreach
  refine ⟨enough, fun fuel hf fuelD hfD enumE enumP hE hP => ?_⟩
  obtain ⟨e0, e1, p0, p1, h1, h2⟩ := h fuel hf fuelD hfD enumE enumP hE hP
  have hnone : (edges.map fun e => (e.1, e.2.1)).toFinset.filter (fun e => (r : WithTop F) < edgeEnd dist e) = ∅ := by
    rw [Finset.filter_eq_empty_iff]
    intro e he
    obtain ⟨e, he', rfl⟩ := List.mem_map.1 (List.mem_toFinset.1 he)
    obtain ⟨hne, x, hx, hwalk⟩ := hshort e he'
    obtain ⟨y, hy⟩ := hd.reach _ _ x hwalk
    rw [not_lt]
    show (if e.1 = e.2.1 then ⊤ else _) ≤ _
    rw [if_neg hne, hy]
    exact WithTop.coe_le_coe.2 (((hd.least _ _ y hy).2 hwalk).trans hx)
  rw [hnone, Finset.empty_val, Multiset.map_zero, Multiset.filter_eq_nil] at h2
  have he1 : e1 = [] := by
    cases e1 with
    | nil => rfl
    | cons x l => exact absurd (WithTop.coe_lt_top r) (h2 (x, ⊤) (by simp [reportIntervals]))
  subst he1
  refine ⟨e0, p0, p1, h1, fun b hb => ?_⟩
  have := h2 (b.1, (b.2 : WithTop F)) (by simp only [reportIntervals, Multiset.mem_coe, List.mem_append, List.mem_map]; exact .inr ⟨b, hb, rfl⟩)
  exact WithTop.coe_le_coe.1 (not_lt.1 this)

end

namespace BeyondExample
open GraphExample

/-- Vertex 0 reaches all others within 4; there are a longer edge, a longer cycle of length 2, a loop, and an edge of infinite weight. -/
def rooted : List (ℕ × ℕ × WithTop ℕ) := [(0, 1, 1), (1, 2, 3), (0, 2, 2), (2, 1, 9), (1, 1, 1), (2, 0, ⊤)]

/-- The hypotheses of C95. -/
example : (∀ e ∈ rooted, e.1 < 3 ∧ e.2.1 < 3) ∧ (∀ e ∈ rooted, 0 ≤ e.2.2) ∧ ∀ u < 3, ∃ x ≤ (4 : WithTop ℕ), IsWalk (fun x y => x + y) rooted 0 u x := by
  refine ⟨by decide, by decide, fun u hu => ?_⟩
  have hstep : ∀ (j : ℕ) (w : WithTop ℕ), (0, j, w) ∈ rooted → w < ⊤ → IsWalk (fun x y => x + y) rooted 0 j (0 + w) := fun j w h h' => .snoc (add := fun x y => x + y) .nil h h'
  interval_cases u
  · exact ⟨0, by decide, .nil⟩
  · exact ⟨0 + 1, by decide, hstep 1 1 (by decide) (by decide)⟩
  · exact ⟨0 + 2, by decide, hstep 2 2 (by decide) (by decide)⟩

set_option synthInstance.maxSize 2000 in
set_option synthInstance.maxHeartbeats 200000 in
/-- The run in the model: the bars of the loop, of the edge `2 → 0` and of the edge `2 → 1` are those that C95 says. -/
example : (letI := listHeap; grpphEdges Z2 (fun x y => x + y) newestFirst id GrPPHExample.enumE GrPPHExample.enumP 3 rooted 100 100) =
    some ([[0], [0, 0]], [[], [(0, 3), (0, 9)]]) := by
  decide +kernel

end BeyondExample
end Phlite
