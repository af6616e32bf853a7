/-
C62: inputs of `grpph` that are out of range.
-/
import Verif.Proofs.ClearingPanics
import Verif.Props.GrPPHEdges

set_option linter.unusedSectionVars false
set_option linter.unusedSimpArgs false

namespace Phlite
open OrderDual (toDual ofDual)

theorem mem_filterMapOpt {α β : Type} {f : α → Option (Option β)} {l : List α} {r : List β} (h : filterMapOpt f l = some r) {y : β} (hy : y ∈ r) :
    ∃ a ∈ l, f a = some (some y) := by
  induction l generalizing r with
  | nil => cases h; simp at hy
  | cons a l ih =>
    simp only [filterMapOpt] at h
    obtain ⟨b, h1, h2⟩ := Option.bind_eq_some_iff.1 h
    obtain ⟨r', h3, rfl⟩ := Option.map_eq_some_iff.1 h2
    cases b with
    | none =>
      obtain ⟨a', h4, h5⟩ := ih h3 hy
      exact ⟨a', by simp [h4], h5⟩
    | some b =>
      rcases List.mem_cons.1 hy with rfl | hy
      · exact ⟨a, by simp, h1⟩
      · obtain ⟨a', h4, h5⟩ := ih h3 hy
        exact ⟨a', by simp [h4], h5⟩

section
variable {F : Type} [LinearOrder F] [Zero F] [OrderTop F] {CF : Type} [NonZeroCoeff CF] {et : EdgeTime F} {E : List (ℕ × ℕ)} {n : ℕ} {bm : BridgeMap}

theorem node_rows {s : ℕ} (hs : s < n) {l : List (CF × PathHomCell)} (h : (grpphCoboundary CF et bm E n).column (.node s) = some l) :
    ∀ t ∈ l, ∃ a b, a < n ∧ b < n ∧ t.2 = .edge a b := by
  obtain ⟨l', h1, rfl⟩ := Option.map_eq_some_iff.1 h
  unfold nodeTotalCoboundary at h1
  obtain ⟨out, h2, h3⟩ := Option.bind_eq_some_iff.1 h1
  obtain ⟨inc, h4, rfl⟩ := Option.map_eq_some_iff.1 h3
  intro t ht
  obtain ⟨x, hx, rfl⟩ := List.mem_map.1 ht
  rcases List.mem_append.1 hx with hx | hx
  · obtain ⟨j, hj, h5⟩ := mem_filterMapOpt h2 hx
    refine ⟨s, j, hs, List.mem_range.1 hj, ?_⟩
    split at h5
    · cases h5; rfl
    · obtain ⟨o, _, h6⟩ := Option.map_eq_some_iff.1 h5
      obtain ⟨v, _, rfl⟩ := Option.map_eq_some_iff.1 h6
      rfl
  · obtain ⟨j, hj, h5⟩ := mem_filterMapOpt h4 hx
    refine ⟨j, s, List.mem_range.1 hj, hs, ?_⟩
    split at h5
    · cases h5; rfl
    · obtain ⟨o, _, h6⟩ := Option.map_eq_some_iff.1 h5
      obtain ⟨v, _, rfl⟩ := Option.map_eq_some_iff.1 h6
      rfl

theorem edge_rows {a b : ℕ} {l : List (CF × PathHomCell)} (h : (grpphCoboundary CF et bm E n).column (.edge a b) = some l) :
    ∀ t ∈ l, ∃ c, t.2 = .twoCell c := by
  obtain ⟨l', h1, rfl⟩ := Option.map_eq_some_iff.1 h
  intro t ht
  obtain ⟨x, hx, rfl⟩ := List.mem_map.1 ht
  exact ⟨_, rfl⟩

/-- Reading the column of an edge reads its time. -/
theorem edge_column_time {a b : ℕ} (h : ((grpphCoboundary CF et bm E n).column (.edge a b)).isSome) : (et a b).isSome := by
  obtain ⟨l, hl⟩ := Option.isSome_iff_exists.1 h
  obtain ⟨l', h1, _⟩ := Option.map_eq_some_iff.1 hl
  unfold edgeTotalCoboundary at h1
  obtain ⟨_, _, h2⟩ := Option.bind_eq_some_iff.1 h1
  obtain ⟨p, h3, _⟩ := Option.bind_eq_some_iff.1 h2
  unfold triangleBaseCoboundary at h3
  obtain ⟨o, h4, _⟩ := Option.bind_eq_some_iff.1 h3
  rw [h4]; rfl

variable [StdHeap]

/-- A run that returns has read the time of every edge in the edge set, unless both its ends are vertices. -/
theorem grpphRun_read {fuel : ℕ} {r : FOracle CF PathHomCell PathHomCell F × Diagram PathHomCellᵒᵈ} (h : grpphRun CF et E n fuel = some r) :
    ∀ e ∈ E, (e.1 < n ∧ e.2 < n) ∨ (et e.1 e.2).isSome := by
  unfold grpphRun at h
  obtain ⟨d, h1, h2⟩ := Option.bind_eq_some_iff.1 h
  obtain ⟨q, h3, _⟩ := Option.map_eq_some_iff.1 h2
  unfold buildGrpphCoboundary at h1
  obtain ⟨bm, _, h4⟩ := Option.bind_eq_some_iff.1 h1
  obtain ⟨basis, h5, rfl⟩ := Option.map_eq_some_iff.1 h4
  unfold buildGrpphBasis at h5
  obtain ⟨rest, h6, rfl⟩ := Option.map_eq_some_iff.1 h5
  unfold buildWithDiagram at h3
  obtain ⟨s2, h7, _⟩ := Option.map_eq_some_iff.1 h3
  simp only [clrAll] at h7
  obtain ⟨s1, h8, h9⟩ := Option.bind_eq_some_iff.1 h7
  obtain ⟨s2', h10, _⟩ := Option.bind_eq_some_iff.1 h9
  set D := ((grpphCoboundary CF et bm E n).withBasis).ref.reverse with hD
  have hcol : ∀ c, D.column c = ((grpphCoboundary CF et bm E n).column (ofDual c)).map fun l => l.map fun t => (t.1, toDual t.2) := fun c => rfl
  set deg0 := ((List.range n).map fun i => ((0 : F), PathHomCell.node i)).insertionSort cellTupleLe with hd0
  set deg1 := ((E.map fun e => ((0 : F), PathHomCell.edge e.1 e.2)) ++ rest).insertionSort cellTupleLe with hd1
  have mem0 : ∀ x ∈ deg0, ∃ s < n, x.2 = .node s := by
    intro x hx
    rw [hd0, (List.perm_insertionSort _ _).mem_iff] at hx
    obtain ⟨s, hs, rfl⟩ := List.mem_map.1 hx
    exact ⟨s, List.mem_range.1 hs, rfl⟩
  have mem1 : ∀ x ∈ deg1, ∃ a b, x.2 = .edge a b := by
    intro x hx
    rw [hd1, (List.perm_insertionSort _ _).mem_iff] at hx
    rcases List.mem_append.1 hx with hx | hx
    · obtain ⟨e, _, rfl⟩ := List.mem_map.1 hx
      exact ⟨_, _, rfl⟩
    · obtain ⟨e, _, h⟩ := mem_filterMapOpt h6 hx
      split at h
      · cases h
      · obtain ⟨o, _, h'⟩ := Option.map_eq_some_iff.1 h
        obtain ⟨v, _, rfl⟩ := Option.map_eq_some_iff.1 h'
        exact ⟨_, _, rfl⟩
  have elem : ∀ (l : List (F × PathHomCell)) i b, (singleDimBasis l).reverse.element i = some b → ∃ x ∈ l, x.2 = ofDual b := by
    intro l i b hb
    unfold Basis.reverse singleDimBasis at hb
    dsimp only at hb
    split at hb
    · obtain ⟨c, h1, rfl⟩ := Option.map_eq_some_iff.1 hb
      obtain ⟨x, h2, rfl⟩ := Option.map_eq_some_iff.1 h1
      exact ⟨x, List.mem_of_getElem? h2, rfl⟩
    · cases hb
  -- dimension 0
  have r0 := clrDimension_read (D := D) (A := fun c => ∃ s < n, ofDual c = .node s) (P := fun c => ∃ a b, a < n ∧ b < n ∧ ofDual c = .edge a b)
    (by
      rintro c ⟨s, hs, hc⟩ l hl t ht
      rw [hcol, hc] at hl
      obtain ⟨l', h1, rfl⟩ := Option.map_eq_some_iff.1 hl
      obtain ⟨t', ht', rfl⟩ := List.mem_map.1 ht
      exact node_rows hs h1 t' ht')
    (by
      rintro c ⟨s, _, hc⟩ ⟨a, b, _, _, hc'⟩
      rw [hc] at hc'; cases hc')
    (B := (multiDimBasis [deg0, deg1]).reverse) (d := 0) (Bd := (singleDimBasis deg0).reverse) rfl
    (by
      intro i b hb
      obtain ⟨x, hx, e⟩ := elem _ _ _ hb
      obtain ⟨s, hs, e'⟩ := mem0 x hx
      exact ⟨s, hs, e ▸ e'⟩) h8
  -- dimension 1
  have r1 := clrDimension_read (D := D) (A := fun c => ∃ a b, ofDual c = .edge a b) (P := fun c => ∃ τ, ofDual c = .twoCell τ)
    (by
      rintro c ⟨a, b, hc⟩ l hl t ht
      rw [hcol, hc] at hl
      obtain ⟨l', h1, rfl⟩ := Option.map_eq_some_iff.1 hl
      obtain ⟨t', ht', rfl⟩ := List.mem_map.1 ht
      exact edge_rows h1 t' ht')
    (by
      rintro c ⟨a, b, hc⟩ ⟨τ, hc'⟩
      rw [hc] at hc'; cases hc')
    (B := (multiDimBasis [deg0, deg1]).reverse) (d := 1) (Bd := (singleDimBasis deg1).reverse) rfl
    (by
      intro i b hb
      obtain ⟨x, hx, e⟩ := elem _ _ _ hb
      obtain ⟨a, b', e'⟩ := mem1 x hx
      exact ⟨a, b', e ▸ e'⟩) h10
  rintro ⟨a, b⟩ he
  have hm : ((0 : F), PathHomCell.edge a b) ∈ deg1 := by
    rw [hd1, (List.perm_insertionSort _ _).mem_iff]
    exact List.mem_append_left _ (List.mem_map.2 ⟨(a, b), he, rfl⟩)
  obtain ⟨i, hi, hget⟩ := List.getElem_of_mem hm
  have hel : (singleDimBasis deg1).reverse.element (deg1.length - 1 - i) = some (toDual (PathHomCell.edge a b)) := by
    unfold Basis.reverse singleDimBasis
    dsimp only
    rw [if_pos (by omega), show deg1.length - 1 - (deg1.length - 1 - i) = i by omega, List.getElem?_eq_getElem hi, hget]
    rfl
  rcases r1.1 _ (show deg1.length - 1 - i < deg1.length by omega) _ hel with h | h
  · rcases r0.2 _ h with h' | ⟨s, _, h'⟩ | ⟨a', b', ha, hb, h'⟩
    · cases h'
    · cases h'
    · cases h'
      exact Or.inl ⟨ha, hb⟩
  · right
    rw [hcol, Option.isSome_map] at h
    exact edge_column_time h

theorem vecEdgeTime_range {sp : ℕ → ℕ → Option F} {a b : ℕ} (h : (vecEdgeTime (buildFiltration n sp) a b).isSome) : a < n ∧ b < n := by
  unfold vecEdgeTime buildFiltration at h
  by_contra hc
  by_cases ha : a < n
  · have hb : ¬ b < n := fun hb => hc ⟨ha, hb⟩
    rw [List.getElem?_map, List.getElem?_range ha, Option.map_some, Option.bind_some, List.getElem?_map,
      List.getElem?_eq_none (by rw [List.length_range]; omega)] at h
    cases h
  · rw [List.getElem?_map, List.getElem?_eq_none (by rw [List.length_range]; omega)] at h
    cases h

theorem grpphDiagram_range {sp : ℕ → ℕ → Option F} {fuel : ℕ} {r : FOracle CF PathHomCell PathHomCell F × Diagram PathHomCellᵒᵈ}
    (h : grpphDiagram CF n sp E fuel = some r) : ∀ e ∈ E, e.1 < n ∧ e.2 < n := by
  intro e he
  have hle : asU16 n ≤ n := Nat.mod_le _ _
  rcases grpphRun_read h e he with ⟨h1, h2⟩ | h1
  · exact ⟨h1.trans_le hle, h2.trans_le hle⟩
  · exact vecEdgeTime_range h1

end

section
variable {F : Type} [LinearOrder F] [Zero F] [OrderTop F] [StdHeap] {CF : Type} [NonZeroCoeff CF] {n : ℕ}
variable {add : F → F → F} {edges : List (ℕ × ℕ × F)} {adj : List (ℕ × ℕ × F) → ℕ → List (ℕ × ℕ × F)} {order : List (ℕ × ℕ) → List (ℕ × ℕ)}

/-- C62: no result for a digraph whose edges leave the range of the vertices. If an edge has an end (below 65536) that is not smaller than `n`, then `grpph(n, edges)` and
`grpph_with_involution(n, edges)` panic (or do not stop); whatever the weights, whatever the orders of the hash sets and the heaps. -/
theorem C62_endpoints (horder : ∀ l, (order l).Perm l) {a b : ℕ} {w : F} (he : (a, b, w) ∈ edges) (ha : a < 65536) (hb : b < 65536) (hbad : n ≤ a ∨ n ≤ b)
    (enumE : Finset PathHomCellᵒᵈ → List PathHomCellᵒᵈ) (enumP : Finset (PathHomCellᵒᵈ × PathHomCellᵒᵈ) → List (PathHomCellᵒᵈ × PathHomCellᵒᵈ))
    (enumB : Finset (PathHomCell × PathHomCell) → List (PathHomCell × PathHomCell)) (fuelD fuel : ℕ) (fuelB : ℕ → ℕ) :
    grpphEdges CF add adj order enumE enumP n edges fuelD fuel = none ∧
    grpphWithInvolutionEdges CF add adj order enumE enumP enumB n edges fuelD fuel fuelB = none := by
  have hm : (a, b) ∈ order (buildEdgeSet edges) := by
    rw [(horder _).mem_iff, C41_truncation]
    exact ⟨a, b, w, he, (Nat.mod_eq_of_lt ha).symm, (Nat.mod_eq_of_lt hb).symm⟩
  have hd : ∀ sp : ℕ → ℕ → Option F, grpphDiagram CF n sp (order (buildEdgeSet edges)) fuel = none := by
    intro sp
    by_contra hc
    obtain ⟨r, hr⟩ := Option.ne_none_iff_exists'.1 hc
    have := grpphDiagram_range hr _ hm
    dsimp only at this
    omega
  constructor
  · refine Option.bind_eq_none_iff.2 fun t _ => ?_
    unfold grpph
    rw [hd]; rfl
  · refine Option.bind_eq_none_iff.2 fun t _ => ?_
    unfold grpphWithInvolution
    rw [hd]; rfl

/-- C62: the same for the functions from the table of shortest path lengths on: what they return is for an edge set within the range of the vertices. -/
theorem C62_returns_in_range {sp : ℕ → ℕ → Option F} {E : List (ℕ × ℕ)} {enumE : Finset PathHomCellᵒᵈ → List PathHomCellᵒᵈ}
    {enumP : Finset (PathHomCellᵒᵈ × PathHomCellᵒᵈ) → List (PathHomCellᵒᵈ × PathHomCellᵒᵈ)} {fuel : ℕ} (h : grpph CF enumE enumP n sp E fuel ≠ none) :
    ∀ e ∈ E, e.1 < n ∧ e.2 < n := by
  obtain ⟨r, hr⟩ := Option.ne_none_iff_exists'.1 h
  obtain ⟨d, hd, _⟩ := Option.bind_eq_some_iff.1 hr
  exact grpphDiagram_range hd

/-- C62: the number of vertices is truncated to 16 bits without a check: a graph without edges on a positive multiple of 65536 vertices has no bars at all, although every vertex is a component. -/
theorem C62_vertex_count_truncated (k : ℕ) (hadj : IsAdjacency adj) (hadd : IsLengthAddition add) {fuelD fuel : ℕ} (hf : 2 ≤ fuelD)
    {enumE : Finset PathHomCellᵒᵈ → List PathHomCellᵒᵈ} {enumP : Finset (PathHomCellᵒᵈ × PathHomCellᵒᵈ) → List (PathHomCellᵒᵈ × PathHomCellᵒᵈ)}
    (hE : Enumerates enumE) (hP : Enumerates enumP) (horder : ∀ l, (order l).Perm l) :
    grpphEdges CF add adj order enumE enumP (65536 * k) [] fuelD fuel = some ([[], []], [[], []]) := by
  obtain ⟨sp, hsp⟩ := exists_shortestPaths (edges := []) hadd (fun _ h => by simp at h)
  rw [(C61_runs (CF := CF) (order := order) hadd hadj (fun _ h => by simp at h) hsp (by simpa using hf) enumE enumP (fun _ => []) fuel fun _ => 0).1]
  have ho : order (buildEdgeSet ([] : List (ℕ × ℕ × F))) = [] := (horder _).eq_nil
  have h16 : asU16 (65536 * k) = 0 := Nat.mul_mod_right _ _
  unfold grpph grpphDiagram
  rw [ho, h16]
  have he : enumE ∅ = [] := by
    exact List.eq_nil_iff_forall_not_mem.2 fun x hx => by simpa using ((hE ∅).2 x).1 hx
  have hp : enumP ∅ = [] := by
    exact List.eq_nil_iff_forall_not_mem.2 fun x hx => by simpa using ((hP ∅).2 x).1 hx
  simp [grpphRun, buildGrpphCoboundary, buildPrimaryBridgeMap, buildGrpphBasis, filterMapOpt, buildWithDiagram, clrAll, clrDimension, SplitBasis.reverse, multiDimBasis,
    singleDimBasis, Basis.reverse, clrLoop, Diagram.empty, reportEssential, reportPairings, he, hp]

end

namespace GraphExample

set_option synthInstance.maxSize 2000 in
/-- The vertex 2 is out of range for two vertices; with three vertices there is a result. -/
example : (letI := listHeap; grpphEdges Z2 (fun x y => x + y) newestFirst (fun l => l) GrPPHExample.enumE GrPPHExample.enumP 2 [(0, 1, 1), (1, 2, (1 : WithTop ℕ))] 4 100) = none ∧
    (letI := listHeap; grpphEdges Z2 (fun x y => x + y) newestFirst (fun l => l) GrPPHExample.enumE GrPPHExample.enumP 3 [(0, 1, 1), (1, 2, (1 : WithTop ℕ))] 4 100) =
      some ([[0], []], [[], []]) := by
  refine ⟨?_, ?_⟩ <;> decide +kernel

/-- The hypotheses of C62_endpoints hold of it. -/
example : (∀ l : List (ℕ × ℕ), (id l).Perm l) ∧ (1, 2, 1) ∈ [(0, 1, 1), (1, 2, (1 : WithTop ℕ))] ∧ 1 < 65536 ∧ 2 < 65536 ∧ (2 ≤ 1 ∨ 2 ≤ 2) :=
  ⟨fun _ => List.Perm.refl _, by decide, by decide, by decide, by decide⟩

end GraphExample
end Phlite
