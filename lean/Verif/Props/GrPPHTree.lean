/-
C98: `grpph` of digraphs whose edges run along a tree.
-/
import Verif.Theory.TreeDigraph
import Verif.Props.GrPPHEdgesShape
import Verif.Props.GrPPHReverse

set_option linter.unusedSectionVars false
set_option linter.unusedSimpArgs false

namespace Phlite

section
variable {F : Type} [LinearOrder F] [Zero F] [OrderTop F] {n : ℕ} {add : F → F → F} {CF : Type} [NonZeroCoeff CF] [StdHeap]
variable {adj : List (ℕ × ℕ × F) → ℕ → List (ℕ × ℕ × F)} {order : List (ℕ × ℕ) → List (ℕ × ℕ)} {edges : List (ℕ × ℕ × F)} {parent : ℕ → ℕ}

open Classical in
/-- C98: if all edges run along a tree (or a forest), from a vertex to its parent or back, then there is one interval of degree 1 for each vertex with an edge to its parent and an edge back:
it starts at 0 and ends at the larger one of the two distances, and is left out if both are 0. -/
theorem C98_tree (K : Type) [Field K] [LawfulCoeff CF K] (hn : n < 65536) (hadd : IsLengthAddition add) (hadj : IsAdjacency adj) (horder : ∀ l, (order l).Perm l)
    (hedges : ∀ e ∈ edges, e.1 < n ∧ e.2.1 < n) (hw : ∀ e ∈ edges, 0 ≤ e.2.2)
    (htree : ∀ e ∈ edges, (e.2.1 < e.1 ∧ parent e.1 = e.2.1) ∨ (e.1 < e.2.1 ∧ parent e.2.1 = e.1)) :
    ∃ dist : ℕ → ℕ → Option F, IsShortestPaths add edges dist ∧
    ∃ enough, ∀ fuel ≥ enough, ∀ fuelD ≥ edges.length + 2, ∀ enumE enumP, Enumerates enumE → Enumerates enumP →
      ∃ e0 e1 p0 p1, grpphEdges CF add adj order enumE enumP n edges fuelD fuel = some ([e0, e1], [p0, p1]) ∧
        reportIntervals e1 p1 =
          ((((Finset.range n).filter fun i => parent i < i ∧ (∃ w, (i, parent i, w) ∈ edges) ∧ ∃ w, (parent i, i, w) ∈ edges).val.map
            fun i => ((0 : F), max (edgeEnd dist (i, parent i)) (edgeEnd dist (parent i, i)))).filter fun b => ((0 : F) : WithTop F) < b.2) := by
  obtain ⟨dist, hd, enough, h⟩ := C61_barcode (CF := CF) (order := order) K hn hadd hadj horder hedges hw
  refine ⟨dist, hd, enough, fun fuel hf fuelD hfD enumE enumP hE hP => ?_⟩
  obtain ⟨e0, e1, p0, p1, h1, -, h2⟩ := h fuel hf fuelD hfD enumE enumP hE hP
  exact ⟨e0, e1, p0, p1, h1, IsGroundedBarcode.along hadd hedges hw hd (fun e ⟨w, he⟩ => htree _ he) h2⟩

open Classical in
/-- C98: in terms of the weights (when all edges from one vertex to another have the same weight): the interval of a vertex ends at the larger one of the weights of the two edges. -/
theorem C98_weights (K : Type) [Field K] [LawfulCoeff CF K] (hn : n < 65536) (hadd : IsLengthAddition add) (hadj : IsAdjacency adj) (horder : ∀ l, (order l).Perm l)
    (hedges : ∀ e ∈ edges, e.1 < n ∧ e.2.1 < n) (hw : ∀ e ∈ edges, 0 ≤ e.2.2)
    (htree : ∀ e ∈ edges, (e.2.1 < e.1 ∧ parent e.1 = e.2.1) ∨ (e.1 < e.2.1 ∧ parent e.2.1 = e.1)) {weight : ℕ → ℕ → F} (hweight : ∀ i j w, (i, j, w) ∈ edges → w = weight i j) :
    ∃ enough, ∀ fuel ≥ enough, ∀ fuelD ≥ edges.length + 2, ∀ enumE enumP, Enumerates enumE → Enumerates enumP →
      ∃ e0 e1 p0 p1, grpphEdges CF add adj order enumE enumP n edges fuelD fuel = some ([e0, e1], [p0, p1]) ∧
        reportIntervals e1 p1 =
          ((((Finset.range n).filter fun i => parent i < i ∧ (i, parent i, weight i (parent i)) ∈ edges ∧ (parent i, i, weight (parent i) i) ∈ edges).val.map
            fun i => ((0 : F), if weight i (parent i) = ⊤ ∨ weight (parent i) i = ⊤ then ⊤ else ((max (weight i (parent i)) (weight (parent i) i) : F) : WithTop F))).filter
              fun b => ((0 : F) : WithTop F) < b.2) := by
  obtain ⟨dist, hd, enough, h⟩ := C98_tree (CF := CF) (order := order) K hn hadd hadj horder hedges hw htree
  refine ⟨enough, fun fuel hf fuelD hfD enumE enumP hE hP => ?_⟩
  obtain ⟨e0, e1, p0, p1, h1, h2⟩ := h fuel hf fuelD hfD enumE enumP hE hP
  refine ⟨e0, e1, p0, p1, h1, h2.trans ?_⟩
  have hfilter : (Finset.range n).filter (fun i => parent i < i ∧ (∃ w, (i, parent i, w) ∈ edges) ∧ ∃ w, (parent i, i, w) ∈ edges) =
      (Finset.range n).filter (fun i => parent i < i ∧ (i, parent i, weight i (parent i)) ∈ edges ∧ (parent i, i, weight (parent i) i) ∈ edges) := by
    refine Finset.filter_congr fun i _ => ⟨?_, fun ⟨g1, g2, g3⟩ => ⟨g1, ⟨_, g2⟩, ⟨_, g3⟩⟩⟩
    rintro ⟨g1, ⟨w, g2⟩, w', g3⟩
    exact ⟨g1, hweight _ _ _ g2 ▸ g2, hweight _ _ _ g3 ▸ g3⟩
  rw [hfilter]
  refine congrArg (Multiset.filter _) (Multiset.map_congr rfl fun i hi => ?_)
  obtain ⟨-, -, g2, g3⟩ := Finset.mem_filter.1 (Finset.mem_def.2 hi)
  have ht : RunsAlong parent (edgeSet edges) := fun e ⟨w, he⟩ => htree _ he
  rw [edgeEnd_along hadd hw hd ht g2 (fun w' h' => hweight _ _ _ h'), edgeEnd_along hadd hw hd ht g3 (fun w' h' => hweight _ _ _ h')]
  by_cases a : weight i (parent i) = ⊤
  · rw [if_pos a, if_pos (Or.inl a), max_eq_left le_top]
  · by_cases b : weight (parent i) i = ⊤
    · rw [if_pos b, if_pos (Or.inr b), max_eq_right le_top]
    · rw [if_neg a, if_neg b, if_neg (not_or.2 ⟨a, b⟩), WithTop.coe_max]

/-- C98: in particular there is no interval of degree 1 if no edge has an edge back. -/
theorem C98_oneWay (K : Type) [Field K] [LawfulCoeff CF K] (hn : n < 65536) (hadd : IsLengthAddition add) (hadj : IsAdjacency adj) (horder : ∀ l, (order l).Perm l)
    (hedges : ∀ e ∈ edges, e.1 < n ∧ e.2.1 < n) (hw : ∀ e ∈ edges, 0 ≤ e.2.2)
    (htree : ∀ e ∈ edges, (e.2.1 < e.1 ∧ parent e.1 = e.2.1) ∨ (e.1 < e.2.1 ∧ parent e.2.1 = e.1))
    (hone : ∀ i j w w', (i, j, w) ∈ edges → (j, i, w') ∉ edges) :
    ∃ enough, ∀ fuel ≥ enough, ∀ fuelD ≥ edges.length + 2, ∀ enumE enumP, Enumerates enumE → Enumerates enumP →
      ∃ e0 p0, grpphEdges CF add adj order enumE enumP n edges fuelD fuel = some ([e0, []], [p0, []]) := by
  classical
  obtain ⟨dist, hd, enough, h⟩ := C98_tree (CF := CF) (order := order) K hn hadd hadj horder hedges hw htree
  refine ⟨enough, fun fuel hf fuelD hfD enumE enumP hE hP => ?_⟩
  obtain ⟨e0, e1, p0, p1, h1, h2⟩ := h fuel hf fuelD hfD enumE enumP hE hP
  have hnone : (Finset.range n).filter (fun i => parent i < i ∧ (∃ w, (i, parent i, w) ∈ edges) ∧ ∃ w, (parent i, i, w) ∈ edges) = ∅ := by
    rw [Finset.filter_eq_empty_iff]
    rintro i - ⟨-, ⟨w, g1⟩, w', g2⟩
    exact hone _ _ _ _ g1 g2
  rw [hnone, Finset.empty_val, Multiset.map_zero, Multiset.filter_zero] at h2
  have h3 := congrArg Multiset.card h2
  simp only [reportIntervals, Multiset.coe_card, List.length_append, List.length_map, Multiset.card_zero] at h3
  obtain rfl : e1 = [] := List.length_eq_zero_iff.1 (by omega)
  obtain rfl : p1 = [] := List.length_eq_zero_iff.1 (by omega)
  exact ⟨e0, p0, h1⟩

end

namespace TreeExample
open GraphExample

/-- A tree with root 0: the edges 0–1 and 1–3 in both directions, 1–2 one way only, and 3–4 in both directions with an infinite weight. -/
def tree : List (ℕ × ℕ × WithTop ℕ) := [(0, 1, 1), (1, 0, 3), (2, 1, 2), (1, 3, 4), (3, 1, 2), (3, 4, 1), (4, 3, ⊤)]

/-- The parents: 0, 1, 1 and 3 of 1, 2, 3 and 4. -/
def parents : ℕ → ℕ := fun i => if i ≤ 1 then 0 else if i ≤ 3 then 1 else 3

/-- The hypotheses of C98. -/
example : (∀ e ∈ tree, e.1 < 5 ∧ e.2.1 < 5) ∧ (∀ e ∈ tree, 0 ≤ e.2.2) ∧
    ∀ e ∈ tree, (e.2.1 < e.1 ∧ parents e.1 = e.2.1) ∨ (e.1 < e.2.1 ∧ parents e.2.1 = e.1) := by
  refine ⟨by decide, by decide, by decide⟩

set_option synthInstance.maxSize 2000 in
set_option synthInstance.maxHeartbeats 200000 in
/-- The run in the model: the bars of the pairs 0–1, 1–3 and 3–4 end at 3, at 4 and never. -/
example : (letI := listHeap; grpphEdges Z2 (fun x y => x + y) newestFirst id GrPPHExample.enumE GrPPHExample.enumP 5 tree 100 100) =
    some ([[0], [0]], [[], [(0, 4), (0, 3)]]) := by
  decide +kernel

end TreeExample
end Phlite
