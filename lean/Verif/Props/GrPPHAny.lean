/-
C77: `grpph` and `grpph_with_involution` on weights of any sign.
-/
import Verif.Proofs.DijkstraAny
import Verif.Props.GrPPHEdges

set_option linter.unusedSectionVars false
set_option linter.unusedSimpArgs false

namespace Phlite
open OrderDual (toDual ofDual)

section
variable {F : Type} [LinearOrder F] [Zero F]

theorem clampIntervals_nonneg (bars : Multiset (F × WithTop F)) : ∀ b ∈ clampIntervals bars, 0 ≤ b.1 := by
  intro b hb
  obtain ⟨c, _, rfl⟩ := Multiset.mem_map.1 (Multiset.mem_filter.1 hb).1
  exact le_max_right _ _

theorem clampIntervals_nonempty (bars : Multiset (F × WithTop F)) : ∀ b ∈ clampIntervals bars, (b.1 : WithTop F) < b.2 :=
  fun _ hb => (Multiset.mem_filter.1 hb).2

theorem aliveBars_clamp (bars : Multiset (F × WithTop F)) {s t : F} (hs : 0 ≤ s) (hst : s ≤ t) : aliveBars (clampIntervals bars) s t = aliveBars bars s t := by
  unfold aliveBars clampIntervals
  rw [Multiset.countP_filter, Multiset.countP_map, ← Multiset.countP_eq_card_filter]
  refine Multiset.countP_congr rfl fun b _ => ?_
  have h1 : max b.1 0 ≤ s ↔ b.1 ≤ s := by simp [hs]
  have h2 : (t : WithTop F) < max b.2 ((0 : F) : WithTop F) ↔ (t : WithTop F) < b.2 := by
    rw [lt_max_iff]
    refine or_iff_left ?_
    rw [WithTop.coe_lt_coe, not_lt]
    exact hs.trans hst
  rw [h1, h2]
  refine propext ⟨?_, ?_⟩
  · exact fun h => h.1
  · rintro ⟨h3, h4⟩
    refine ⟨⟨h3, h4⟩, ?_⟩
    refine lt_of_le_of_lt ?_ (h2.2 h4)
    exact WithTop.coe_le_coe.2 ((h1.2 h3).trans hst)

/-- Intervals that begin at or after 0 and are not empty are unchanged. -/
theorem clampIntervals_eq {bars : Multiset (F × WithTop F)} (h0 : ∀ b ∈ bars, 0 ≤ b.1) (h : ∀ b ∈ bars, (b.1 : WithTop F) < b.2) : clampIntervals bars = bars := by
  unfold clampIntervals
  have : bars.map (fun b => (max b.1 0, max b.2 ((0 : F) : WithTop F))) = bars := by
    conv_rhs => rw [← Multiset.map_id bars]
    refine Multiset.map_congr rfl fun b hb => ?_
    have h1 : ((0 : F) : WithTop F) ≤ b.2 := (WithTop.coe_le_coe.2 (h0 b hb)).trans (h b hb).le
    rw [max_eq_left (h0 b hb), max_eq_left h1]; rfl
  rw [this]
  exact Multiset.filter_eq_self.2 h

end

section
variable {F : Type} [LinearOrder F] [Zero F] [OrderTop F] [StdHeap] {n : ℕ}
variable {add : F → F → F} {edges : List (ℕ × ℕ × F)} {adj : List (ℕ × ℕ × F) → ℕ → List (ℕ × ℕ × F)} {order : List (ℕ × ℕ) → List (ℕ × ℕ)}
  {sp : ℕ → ℕ → Option F} {CF : Type} [NonZeroCoeff CF]

theorem grpph_counts (K : Type) [Field K] [LawfulCoeff CF K] {W : Type} {edges : List (ℕ × ℕ × W)} {E : List (ℕ × ℕ)} (hn : n < 65536)
    (hedges : ∀ e ∈ edges, e.1 < n ∧ e.2.1 < n) (hperm : E.Perm (buildEdgeSet edges)) (hsp : TopClosed n sp) :
    ∃ enough, ∀ fuel ≥ enough, ∀ enumE enumP, Enumerates enumE → Enumerates enumP →
      ∃ e0 e1 p0 p1, grpph CF enumE enumP n sp E fuel = some ([e0, e1], [p0, p1]) ∧
        (∀ x ∈ e0, x = 0) ∧ (∀ b ∈ p0, b.1 = 0) ∧ (∀ b ∈ p0 ++ p1, b.1 ≠ b.2) ∧
        ∀ (s t : F) (_ : 0 ≤ s) (hst : s ≤ t),
          groundedBetti0 K {e : ℕ × ℕ | ∃ w, (e.1, e.2, w) ∈ edges} n (fun i j => if i = j then none else sp i j) hst =
            (e0.countP fun x => x ≤ s) + p0.countP (fun b => b.1 ≤ s ∧ t < b.2) ∧
          groundedBetti1 K {e : ℕ × ℕ | ∃ w, (e.1, e.2, w) ∈ edges} n (fun i j => if i = j then none else sp i j) hst =
            (e1.countP fun x => x ≤ s) + p1.countP (fun b => b.1 ≤ s ∧ t < b.2) := by
  obtain ⟨hE, hEn, hset⟩ := edge_set_perm hn hedges hperm
  obtain ⟨D, dgm, ⟨enough, hrun⟩, _, _, hrep⟩ := grpph_reports (CF := CF) (K := K) hn hsp hE hEn
  refine ⟨enough, fun fuel hf enumE enumP hEe hEp => ?_⟩
  obtain ⟨e0, e1, h1, h2, ⟨q1, q2, q3⟩, _, h5⟩ := hrep _ _ (hEe dgm.essential) (hEp dgm.pairings)
  refine ⟨e0, e1, _, _, ?_, q1, q2, q3, ?_⟩
  · unfold grpph
    rw [hrun fuel hf, Option.bind_some, h1, Option.bind_some, h2, Option.map_some]
  · rw [← hset]; exact h5

/-- C77: if the table of lengths is finite, of any sign, `grpph(n, edges)` still terminates without panicking, and from time 0 on its bars are those of grounded
persistent path homology: moving their end points to 0 if they are negative, and dropping what becomes empty, yields the barcodes in degrees 0 and 1. -/
theorem C77_table (K : Type) [Field K] [LawfulCoeff CF K] {W : Type} {edges : List (ℕ × ℕ × W)} {E : List (ℕ × ℕ)} (hn : n < 65536)
    (hedges : ∀ e ∈ edges, e.1 < n ∧ e.2.1 < n) (hperm : E.Perm (buildEdgeSet edges)) (hsp : TopClosed n sp) :
    ∃ enough, ∀ fuel ≥ enough, ∀ enumE enumP, Enumerates enumE → Enumerates enumP →
      ∃ e0 e1 p0 p1, grpph CF enumE enumP n sp E fuel = some ([e0, e1], [p0, p1]) ∧ (∀ b ∈ p0 ++ p1, b.1 ≠ b.2) ∧
        IsGroundedBarcode K {e : ℕ × ℕ | ∃ w, (e.1, e.2, w) ∈ edges} n (fun i j => if i = j then none else sp i j) 0 (clampIntervals (reportIntervals e0 p0)) ∧
        IsGroundedBarcode K {e : ℕ × ℕ | ∃ w, (e.1, e.2, w) ∈ edges} n (fun i j => if i = j then none else sp i j) 1 (clampIntervals (reportIntervals e1 p1)) := by
  obtain ⟨enough, h⟩ := grpph_counts (CF := CF) K hn hedges hperm hsp
  refine ⟨enough, fun fuel hf enumE enumP hE hP => ?_⟩
  obtain ⟨e0, e1, p0, p1, h1, _, _, h3, h4⟩ := h fuel hf enumE enumP hE hP
  refine ⟨e0, e1, p0, p1, h1, h3, ⟨clampIntervals_nonneg _, clampIntervals_nonempty _, ?_⟩, ⟨clampIntervals_nonneg _, clampIntervals_nonempty _, ?_⟩⟩
  · intro s t hs hst
    rw [aliveBars_clamp _ hs hst, aliveBars_report, if_pos rfl]
    exact (h4 s t hs hst).1.symm
  · intro s t hs hst
    rw [aliveBars_clamp _ hs hst, aliveBars_report, if_neg (by decide)]
    exact (h4 s t hs hst).2.symm

/-- C77: Dijkstra's algorithm on weights of any sign (and any addition of lengths): the search from a vertex stops after at most `edges.length + 1` pops, a vertex
has a score if and only if there is a walk to it along edges of finite weight, and then its score is the length of such a walk, with at most `n` edges. (It need not
be the least length.) -/
theorem C77_dijkstra (hadj : IsAdjacency adj) (hedges : ∀ e ∈ edges, e.1 < n ∧ e.2.1 < n) {start : ℕ} (hstart : start < n) :
    ∃ scores, (∀ fuel ≥ edges.length + 2, dijkstra add (adj (finiteEdges edges)) start fuel = some scores) ∧
      (∀ j x, scores j = some x → ∃ k ≤ n, IsWalkOf add edges start k j x) ∧ (∀ j, scores j = none → ∀ x, ¬ IsWalk add edges start j x) := by
  obtain ⟨scores, h1, h2, h3⟩ := dijkstra_any (add := add) hedges hstart (hadj.adjOf (edges := edges))
  refine ⟨scores, h1, h2, fun j hj x hx => ?_⟩
  obtain ⟨y, hy⟩ := h3 j x hx
  rw [hj] at hy; cases hy

/-- `dist` assigns to each pair of vertices the length of some walk with at most `n` edges, if there is a walk. -/
def IsWalkTable (add : F → F → F) (edges : List (ℕ × ℕ × F)) (n : ℕ) (dist : ℕ → ℕ → Option F) : Prop :=
  (∀ i j x, dist i j = some x → i < n ∧ ∃ k ≤ n, IsWalkOf add edges i k j x) ∧ ∀ i < n, ∀ j x, IsWalk add edges i j x → ∃ y, dist i j = some y

theorem IsWalkTable.topClosed {dist : ℕ → ℕ → Option F} (h : IsWalkTable add edges n dist) : TopClosed n dist := by
  intro a ha b _ c _ _ x y hx hy _
  obtain ⟨_, k, _, hk⟩ := h.1 a b x hx
  obtain ⟨_, m, _, hm⟩ := h.1 b c y hy
  obtain ⟨z, hz⟩ := hk.isWalk.trans hm.isWalk
  exact h.2 a ha c z hz

/-- The tables on any weights. -/
theorem tables_any (hadj : IsAdjacency adj) (hedges : ∀ e ∈ edges, e.1 < n ∧ e.2.1 < n) :
    ∃ dist, IsWalkTable add edges n dist ∧ ∀ fuel ≥ edges.length + 2, dijkstraTables add adj n edges fuel = some ((List.range n).map dist) := by
  have h : ∀ i : ℕ, ∃ scores : ℕ → Option F, (i < n → (∀ fuel ≥ edges.length + 2, dijkstra add (adj (finiteEdges edges)) i fuel = some scores) ∧
      ∀ j x, IsWalk add edges i j x → ∃ y, scores j = some y) ∧ ∀ j x, scores j = some x → i < n ∧ ∃ k ≤ n, IsWalkOf add edges i k j x := by
    intro i
    by_cases hi : i < n
    · obtain ⟨scores, h1, h2, h3⟩ := dijkstra_any (add := add) hedges hi (hadj.adjOf (edges := edges))
      exact ⟨scores, fun _ => ⟨h1, h3⟩, fun j x hx => ⟨hi, h2 j x hx⟩⟩
    · exact ⟨fun _ => none, fun h => absurd h hi, fun j x hx => by cases hx⟩
  choose dist h1 h2 using h
  refine ⟨dist, ⟨h2, fun i hi => (h1 i hi).2⟩, fun fuel hf => ?_⟩
  exact mapOpt_of_forall fun i hi => (h1 i (List.mem_range.1 hi)).1 fuel hf

theorem runs_any {dist : ℕ → ℕ → Option F} {fuelD : ℕ} (h : dijkstraTables add adj n edges fuelD = some ((List.range n).map dist))
    (enumE : Finset PathHomCellᵒᵈ → List PathHomCellᵒᵈ)
    (enumP : Finset (PathHomCellᵒᵈ × PathHomCellᵒᵈ) → List (PathHomCellᵒᵈ × PathHomCellᵒᵈ))
    (enumB : Finset (PathHomCell × PathHomCell) → List (PathHomCell × PathHomCell)) (fuel : ℕ) (fuelB : ℕ → ℕ) :
    grpphEdges CF add adj order enumE enumP n edges fuelD fuel = grpph CF enumE enumP n dist (order (buildEdgeSet edges)) fuel ∧
    grpphWithInvolutionEdges CF add adj order enumE enumP enumB n edges fuelD fuel fuelB =
      grpphWithInvolution CF enumE enumP enumB n dist (order (buildEdgeSet edges)) fuel fuelB := by
  constructor
  · unfold grpphEdges
    rw [h, Option.bind_some]
    unfold grpph grpphDiagram
    rw [buildFiltration_tables]
  · unfold grpphWithInvolutionEdges
    rw [h, Option.bind_some]
    unfold grpphWithInvolution grpphDiagram
    rw [buildFiltration_tables]

theorem components_any (hedges : ∀ e ∈ edges, e.1 < n ∧ e.2.1 < n) {dist : ℕ → ℕ → Option F} (hd : IsWalkTable add edges n dist) (t : F) :
    (componentCount n fun a b => (a, b) ∈ groundedEdges (edgeSet edges) n (spTime dist) t) = componentCount n fun a b => ∃ w, (a, b, w) ∈ edges := by
  refine (componentCount_congr (fun a b _ _ h => Or.inl h) ?_).symm
  intro a b ha hb h
  rcases h with h | ⟨_, _, x, hx, _⟩
  · exact Relation.EqvGen.rel _ _ ⟨ha, hb, h⟩
  · simp only [spTime] at hx
    split at hx
    · cases hx
    · obtain ⟨_, k, _, hk⟩ := hd.1 a b x hx
      exact hk.isWalk.connected hedges

/-- C77: `grpph(n, edges)` from its arguments on, for weights of any sign: it terminates without panicking if the lengths of the walks with at most `n` edges
do not overflow. There is a table `dist` of lengths of walks (not necessarily shortest ones), such that from time 0 on the bars are those of the grounded persistent path
homology in which the arrow `i → j` appears at time `dist i j`. In degree 0 there is one essential bar, born at 0, for each weakly connected component; all other
bars in degree 0 are born at 0 and die at a negative time. -/
theorem C77_edges (K : Type) [Field K] [LawfulCoeff CF K] (hn : n < 65536) (hadj : IsAdjacency adj) (horder : ∀ l, (order l).Perm l)
    (hedges : ∀ e ∈ edges, e.1 < n ∧ e.2.1 < n) :
    ∃ dist : ℕ → ℕ → Option F, IsWalkTable add edges n dist ∧
    ∃ enough, ∀ fuel ≥ enough, ∀ fuelD ≥ edges.length + 2, ∀ enumE enumP, Enumerates enumE → Enumerates enumP →
      ∃ e1 p0 p1, grpphEdges CF add adj order enumE enumP n edges fuelD fuel =
          some ([List.replicate (componentCount n fun a b => ∃ w, (a, b, w) ∈ edges) 0, e1], [p0, p1]) ∧
        (∀ b ∈ p0, b.1 = 0 ∧ b.2 < 0) ∧ (∀ b ∈ p1, b.1 ≠ b.2) ∧
        IsGroundedBarcode K {e : ℕ × ℕ | ∃ w, (e.1, e.2, w) ∈ edges} n (fun i j => if i = j then none else dist i j) 1 (clampIntervals (reportIntervals e1 p1)) := by
  obtain ⟨dist, hd, hrun⟩ := tables_any (add := add) hadj hedges
  refine ⟨dist, hd, ?_⟩
  obtain ⟨enough, h⟩ := grpph_counts (CF := CF) K hn hedges (horder (buildEdgeSet edges)) hd.topClosed
  refine ⟨enough, fun fuel hf fuelD hfD enumE enumP hE hP => ?_⟩
  rw [(runs_any (CF := CF) (order := order) (hrun fuelD hfD) enumE enumP (fun _ => []) fuel fun _ => 0).1]
  obtain ⟨e0, e1, p0, p1, h1, q0, q1, q2, h4⟩ := h fuel hf enumE enumP hE hP
  set c := componentCount n fun a b => ∃ w, (a, b, w) ∈ edges with hc
  -- the counts in degree 0
  have hcount : ∀ t, 0 ≤ t → e0.length + p0.countP (fun b => t < b.2) = c := by
    intro t ht
    have h5 := (h4 0 t le_rfl ht).1
    have h6 := (groundedBetti0_eq (K := K) (E := edgeSet edges) (time := spTime dist) (fun e he => hedges _ he.choose_spec) ht).trans (components_any hedges hd t)
    rw [hc, ← h6]
    refine Eq.trans ?_ h5.symm
    congr 1
    · exact (List.countP_eq_length.2 fun x hx => by simp [q0 x hx]).symm
    · exact List.countP_congr fun b hb => by simp [q1 b hb]
  obtain ⟨T, hT0, hT⟩ : ∃ T : F, 0 ≤ T ∧ ∀ b ∈ p0, b.2 ≤ T := by
    clear hcount h1 q1 q2 h4
    induction p0 with
    | nil => exact ⟨0, le_rfl, by simp⟩
    | cons b l ih =>
      obtain ⟨T, h1, h2⟩ := ih
      refine ⟨max T b.2, h1.trans (le_max_left _ _), ?_⟩
      intro b' hb'
      rcases List.mem_cons.1 hb' with rfl | hb'
      · exact le_max_right _ _
      · exact (h2 b' hb').trans (le_max_left _ _)
  have hlen : e0.length = c := by
    have := hcount T hT0
    rwa [List.countP_eq_zero.2 fun b hb => by simpa using hT b hb, add_zero] at this
  have he0 : e0 = List.replicate c 0 := List.eq_replicate_iff.2 ⟨hlen, q0⟩
  refine ⟨e1, p0, p1, by rw [h1, he0], ?_, fun b hb => q2 b (List.mem_append_right _ hb), clampIntervals_nonneg _, clampIntervals_nonempty _, ?_⟩
  · intro b hb
    refine ⟨q1 b hb, ?_⟩
    have h0 := hcount 0 le_rfl
    have h0' : p0.countP (fun b => 0 < b.2) = 0 := by omega
    have := List.countP_eq_zero.1 h0' b hb
    have hle : b.2 ≤ 0 := by simpa using this
    refine lt_of_le_of_ne hle fun e => q2 b (List.mem_append_left _ hb) ?_
    rw [q1 b hb, e]
  · intro s t hs hst
    rw [aliveBars_clamp _ hs hst, aliveBars_report, if_neg (by decide)]
    exact (h4 s t hs hst).2.symm

/-- C77: `grpph_with_involution(n, edges)` for weights of any sign: it terminates without panicking as well, returns the bars of `grpph`, and its lists of edges
are still the supports of chains that represent the finite bars of degree 1 (for the same table of lengths). -/
theorem C77_involution (K : Type) [Field K] [LawfulCoeff CF K] (hn : n < 65536) (hadj : IsAdjacency adj) (horder : ∀ l, (order l).Perm l)
    (hedges : ∀ e ∈ edges, e.1 < n ∧ e.2.1 < n) :
    ∃ dist : ℕ → ℕ → Option F, IsWalkTable add edges n dist ∧
    ∃ enough, ∀ fuel ≥ enough, ∀ fuelB : ℕ → ℕ, (∀ i, i + 1 ≤ fuelB i) → ∀ fuelD ≥ edges.length + 2,
      ∀ enumE enumP enumB, Enumerates enumE → Enumerates enumP → Enumerates enumB →
      ∃ ess p0 p1 reps, grpphEdges CF add adj order enumE enumP n edges fuelD fuel = some (ess, [p0, p1]) ∧
        grpphWithInvolutionEdges CF add adj order enumE enumP enumB n edges fuelD fuel fuelB = some (ess, [p0, p1], reps) ∧
        ∃ (bar : ℕ → F × F) (z : ℕ → (ℕ × ℕ →₀ K)), ((List.range reps.length).map bar).Perm p1 ∧
          RepresentsBars K {e : ℕ × ℕ | ∃ w, (e.1, e.2, w) ∈ edges} n (fun i j => if i = j then none else dist i j) reps.length bar z ∧
          ∀ i rep, reps[i]? = some rep → rep.Nodup ∧ (∀ e, e ∈ rep ↔ z i e ≠ 0) ∧
            ∃ e ∈ rep.head?, EdgeAppears {e : ℕ × ℕ | ∃ w, (e.1, e.2, w) ∈ edges} n (fun i j => if i = j then none else dist i j) e (bar i).1 := by
  obtain ⟨dist, hd, hrun⟩ := tables_any (add := add) hadj hedges
  refine ⟨dist, hd, ?_⟩
  obtain ⟨enough, h⟩ := C38_involution (CF := CF) (K := K) hn hedges (horder (buildEdgeSet edges)) hd.topClosed
  refine ⟨enough, fun fuel hf fuelB hfB fuelD hfD enumE enumP enumB hE hP hB => ?_⟩
  obtain ⟨r1, r2⟩ := runs_any (CF := CF) (order := order) (hrun fuelD hfD) enumE enumP enumB fuel fuelB
  rw [r1, r2]
  exact h fuel hf fuelB hfB enumE enumP enumB hE hP hB

end

/-! ### A concrete case -/
namespace GrPPHExample

/-- A cycle of total length 0 with a negative edge. -/
def negEdges : List (ℕ × ℕ × WithTop ℤ) := [(0, 1, 1), (1, 2, ((-2 : ℤ) : WithTop ℤ)), (2, 0, 1)]

/-- The hypotheses of C77_dijkstra, C77_edges and C77_involution hold of every digraph with integral or infinite weights. -/
theorem intTop_walk {edges : List (ℕ × ℕ × WithTop ℤ)} {i k j : ℕ} {x : WithTop ℤ} (h : IsWalkOf (fun x y => x + y) edges i k j x) : x < ⊤ := by
  induction h with
  | nil => exact WithTop.coe_lt_top 0
  | snoc _ _ hw ih => exact WithTop.add_lt_top.2 ⟨ih, hw⟩

example : (∀ e ∈ negEdges, e.1 < 3 ∧ e.2.1 < 3) ∧ IsAdjacency (fun (l : List (ℕ × ℕ × WithTop ℤ)) u => l.filter fun e => e.1 = u) ∧
    (∀ i < 3, ∀ j, ∀ k ≤ 3, ∀ x, IsWalkOf (fun x y => x + y) negEdges i k j x → x < ⊤) :=
  ⟨by decide, fun _ _ => List.Perm.refl _, fun _ _ _ _ _ _ h => intTop_walk h⟩

set_option synthInstance.maxSize 2000 in
set_option synthInstance.maxHeartbeats 200000 in
/-- The run: the arrows `0 → 2`, `1 → 0` appear at time -1, before the vertices, so two bars of degree 0 are reported with a death before their birth; and the
cycle `0 → 1 → 0` is filled before the edge `0 → 1` appears. From time 0 on there remain one component and two cycles that are filled at time 1. -/
example : (letI := listHeap; grpphWithInvolutionEdges Z2 (fun x y => x + y) (fun l u => l.filter fun e => e.1 = u) id enumE enumP enumB 3 negEdges 20 200 (fun i => i + 1)) =
    some ([[0], []], [[(0, ((-1 : ℤ) : WithTop ℤ)), (0, ((-1 : ℤ) : WithTop ℤ))], [(0, ((-1 : ℤ) : WithTop ℤ)), (0, 1), (0, 1)]],
      [[(0, 1), (1, 0)], [(1, 2), (1, 0), (0, 2)], [(2, 0), (0, 2)]]) := by
  decide +kernel

end GrPPHExample
end Phlite
