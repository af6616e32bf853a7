/-
C94: how many column additions the programs need.
-/
import Verif.Props.RipsReport
import Verif.Props.GrPPHEdges
import Verif.Props.RipsTree

set_option linter.unusedSectionVars false
set_option linter.unusedSimpArgs false

namespace Phlite
open OrderDual (toDual ofDual)

section
variable {F CF : Type} [LinearOrder F] [Zero F] [OrderTop F] [NonZeroCoeff CF] [StdHeap]

/-- A sorted list without repetitions of pairs below `n`. -/
theorem edges_length {n : ℕ} {l : List PathHomCell} (hl : l.Nodup) (h : ∀ c ∈ l, ∃ e : ℕ × ℕ, c = .edge e.1 e.2 ∧ e.1 < n ∧ e.2 < n) : l.length ≤ n * n := by
  classical
  rw [← List.toFinset_card_of_nodup hl]
  have hsub : l.toFinset ⊆ (Finset.range n ×ˢ Finset.range n).image fun e => PathHomCell.edge e.1 e.2 := by
    intro c hc
    obtain ⟨e, rfl, h1, h2⟩ := h c (List.mem_toFinset.1 hc)
    exact Finset.mem_image.2 ⟨e, Finset.mem_product.2 ⟨Finset.mem_range.2 h1, Finset.mem_range.2 h2⟩, rfl⟩
  refine (Finset.card_le_card hsub).trans (Finset.card_image_le.trans ?_)
  rw [Finset.card_product, Finset.card_range]

theorem nodes_length {n : ℕ} {l : List PathHomCell} (hl : l.Nodup) (h : ∀ c ∈ l, ∃ s < n, c = .node s) : l.length ≤ n := by
  classical
  rw [← List.toFinset_card_of_nodup hl]
  have hsub : l.toFinset ⊆ (Finset.range n).image fun s => PathHomCell.node s := by
    intro c hc
    obtain ⟨e, h1, rfl⟩ := h c (List.mem_toFinset.1 hc)
    exact Finset.mem_image.2 ⟨e, Finset.mem_range.2 h1, rfl⟩
  refine (Finset.card_le_card hsub).trans (Finset.card_image_le.trans ?_)
  rw [Finset.card_range]

theorem grpphRun_fuel {K : Type} [Field K] [LawfulCoeff CF K] {et : EdgeTime F} {n : ℕ} {time : ℕ → ℕ → Option F} {E : List (ℕ × ℕ)}
    (h : IsDigraphFiltration et n time) (hE : E.Nodup) (hEn : ∀ e ∈ E, e.1 < n ∧ e.2 < n) :
    ∃ r, ∀ fuel > n * n, grpphRun CF et E n fuel = some r := by
  obtain ⟨bm, hb1, hb2⟩ := buildPrimaryBridgeMap_spec h
  obtain ⟨basis, hbas⟩ : ∃ basis, buildGrpphBasis et E n = some basis := ⟨_, buildGrpphBasis_spec h E⟩
  have hS := grpphSplit (K := K) (CF := CF) h hE hEn hb2 hbas
  obtain ⟨rc, dgm, hrun⟩ := C20_clearing_terminates hS.reverse
  refine ⟨((grpphCoboundary CF et bm E n).withBasis, dgm), fun fuel hf => ?_⟩
  have := (hrun fuel fun k hk => by
    rw [List.length_map, List.length_reverse]
    have hk := List.mem_range.1 hk
    interval_cases k
    · have := nodes_length (grpphCells_nodup (et := et) (time := time) (n := n) hE 0) fun c hc => mem_cells0.1 hc
      have h2 : n ≤ n * n := Nat.le_mul_self n
      exact lt_of_le_of_lt (this.trans h2) hf
    · refine lt_of_le_of_lt (edges_length (grpphCells_nodup (et := et) (time := time) (n := n) hE 1) fun c hc => ?_) hf
      obtain ⟨e, he, h1⟩ := mem_cells1.1 hc
      exact ⟨e, he, h1.elim (hEn e) fun h2 => ⟨h2.1, h2.2.1⟩⟩).1
  unfold grpphRun buildGrpphCoboundary
  rw [hb1, Option.bind_some, hbas, Option.map_some, Option.bind_some]
  have e2 : (grpphCoboundary CF et bm E n).withBasis.ref.reverse.ref =
      (grpphCoboundary CF et bm E n).ref.reverse := by
    rw [reverse_ref]; rfl
  show (buildWithDiagram (grpphCoboundary CF et bm E n).withBasis.ref.reverse.ref _ fuel (List.range 2)).map _ = _
  rw [e2, this, Option.map_some]

end

section
variable {F : Type} [LinearOrder F] [Zero F] {distances : List (List F)} {d : ℕ → ℕ → F}

/-- The runs of clearing by the Rips program end when no column is added to more often than there are simplices of its dimension. -/
theorem rips_clearing_fuel [StdHeap] {CF K : Type} [Field K] [NonZeroCoeff CF] [LawfulCoeff CF K] (hD : IsDistanceMatrix distances d) {max_dim : ℕ}
    (h1 : 1 ≤ max_dim ∨ distances.length ≤ 1) {D : FOracle CF RipsIndex RipsIndex F} {B : SplitBasis RipsIndex}
    (hb : buildRipsCoboundaryMatrix CF distances max_dim = some (D, B)) :
    ∃ r, ∀ fuel, (∀ k ≤ max_dim, distances.length.choose (k + 1) < fuel) → buildWithDiagram D.reverse.ref B.reverse fuel (List.range (max_dim + 1)) = some r := by
  have hbs := buildRipsBases_spec hD.entry h1
  have hS := ripsSplitCob (CF := CF) (K := K) hD hbs h1
  unfold buildRipsCoboundaryMatrix at hb
  rw [hbs] at hb
  obtain ⟨rfl, rfl⟩ := Prod.mk.inj (Option.some.inj hb)
  obtain ⟨rc, dgm, hrun⟩ := C20_clearing_terminates hS.reverse
  refine ⟨(rc, dgm), fun fuel hf => ?_⟩
  rw [reverse_ref]
  refine (hrun fuel fun k hk => ?_).1
  rw [List.length_map, List.length_reverse]
  show ((dimBasis distances.length d k).map Prod.snd).length < fuel
  rw [List.length_map, dimBasis_length]
  exact hf k (by have := List.mem_range.1 hk; omega)

/-- C94: the Rips program ends, with the report of C52, when the inner loop of the reduction is left after at most as many rounds per column as there are simplices of its
dimension (and one more): no column is added to more often. -/
theorem C94_rips [StdHeap] (CF K : Type) [Field K] [NonZeroCoeff CF] [LawfulCoeff CF K] (hD : IsDistanceMatrix distances d) (arg : Option ℕ)
    (h1 : 1 ≤ arg.getD 1 ∨ distances.length ≤ 1)
    {long : F → F → Bool} (hlong : ∀ b e, long b e = true → b < e) {enumE : Finset RipsIndexᵒᵈ → List RipsIndexᵒᵈ} (hE : Enumerates enumE)
    {enumP : Finset (RipsIndexᵒᵈ × RipsIndexᵒᵈ) → List (RipsIndexᵒᵈ × RipsIndexᵒᵈ)} (hP : Enumerates enumP) :
    ∃ report, ∀ fuel, (∀ k ≤ arg.getD 1, distances.length.choose (k + 1) < fuel) → ripsMain CF long enumE enumP distances arg fuel = some report := by
  obtain ⟨report, ⟨enough, hrun⟩, -⟩ := C52_rips_report CF K hD arg h1 hlong hE hP
  refine ⟨report, fun fuel hf => ?_⟩
  rw [← hrun (max enough fuel) (le_max_left _ _)]
  obtain ⟨D, B, hb, -⟩ := C33_rips_cohomology (CF := CF) (K := K) hD h1
  obtain ⟨r, hr⟩ := rips_clearing_fuel (K := K) hD h1 hb
  have e1 := hr fuel hf
  have e2 := hr (max enough fuel) fun k hk => (hf k hk).trans_le (le_max_right _ _)
  unfold ripsMain
  show (buildRipsCoboundaryMatrix CF distances (arg.getD 1)).bind _ = (buildRipsCoboundaryMatrix CF distances (arg.getD 1)).bind _
  rw [hb, Option.bind_some, Option.bind_some]
  congr 1
  funext sizes
  show (buildWithDiagram D.reverse.ref B.reverse fuel (List.range (arg.getD 1 + 1))).bind _ = (buildWithDiagram D.reverse.ref B.reverse _ (List.range (arg.getD 1 + 1))).bind _
  rw [e1, e2]

end

section
variable {F : Type} [LinearOrder F] [Zero F] [OrderTop F] {n : ℕ} {add : F → F → F} {CF : Type} [NonZeroCoeff CF] [StdHeap]
variable {adj : List (ℕ × ℕ × F) → ℕ → List (ℕ × ℕ × F)} {order : List (ℕ × ℕ) → List (ℕ × ℕ)} {edges : List (ℕ × ℕ × F)}

/-- C94: `grpph` and `grpph_with_involution` end with the results of C61 when Dijkstra's loop is left after at most as many rounds as there are edges (and two more), and the inner
loop of the reduction after at most `n * n` rounds (and one more) per column. -/
theorem C94_grpph (K : Type) [Field K] [LawfulCoeff CF K] (hn : n < 65536) (hadd : IsLengthAddition add) (hadj : IsAdjacency adj) (horder : ∀ l, (order l).Perm l)
    (hedges : ∀ e ∈ edges, e.1 < n ∧ e.2.1 < n) (hw : ∀ e ∈ edges, 0 ≤ e.2.2) :
    ∀ enumE enumP enumB, Enumerates enumE → Enumerates enumP → Enumerates enumB → ∃ result, ∀ fuelB : ℕ → ℕ, (∀ i, i + 1 ≤ fuelB i) → ∃ reps,
      ∀ fuel > n * n, ∀ fuelD ≥ edges.length + 2, grpphEdges CF add adj order enumE enumP n edges fuelD fuel = some result ∧
        grpphWithInvolutionEdges CF add adj order enumE enumP enumB n edges fuelD fuel fuelB = some (result.1, result.2, reps) := by
  intro enumE enumP enumB hE hP hB
  obtain ⟨sp, hsp⟩ := exists_shortestPaths hadd hw
  obtain ⟨hEn, hEe, -⟩ := edge_set_perm hn hedges (horder (buildEdgeSet edges))
  obtain ⟨r, hr⟩ := grpphRun_fuel (K := K) (CF := CF) (C41_filtration n sp hsp.topClosed) hEn hEe
  obtain ⟨enough, h⟩ := C38_involution (CF := CF) (K := K) hn hedges (horder (buildEdgeSet edges)) (sp := sp) hsp.topClosed
  have e : asU16 n = n := Nat.mod_eq_of_lt hn
  have hd : ∀ fuel > n * n, grpphDiagram CF n sp (order (buildEdgeSet edges)) fuel = some r := fun fuel hf => by
    unfold grpphDiagram
    rw [e]; exact hr fuel hf
  have big : max enough (n * n + 1) > n * n := by omega
  obtain ⟨ess, p0, p1, -, r1, -⟩ := h (max enough (n * n + 1)) (le_max_left _ _) (fun i => i + 1) (fun i => le_rfl) enumE enumP enumB hE hP hB
  refine ⟨(ess, [p0, p1]), fun fuelB hfB => ?_⟩
  obtain ⟨ess', p0', p1', reps, r1', r2', -⟩ := h (max enough (n * n + 1)) (le_max_left _ _) fuelB hfB enumE enumP enumB hE hP hB
  rw [r1] at r1'
  obtain ⟨rfl, e1⟩ := Prod.mk.inj (Option.some.inj r1')
  rw [← e1] at r2'
  refine ⟨reps, fun fuel hf fuelD hfD => ?_⟩
  obtain ⟨c1, c2⟩ := C61_runs (CF := CF) (n := n) (order := order) hadd hadj hw hsp hfD enumE enumP enumB fuel fuelB
  rw [c1, c2]
  unfold grpph at r1 ⊢
  unfold grpphWithInvolution at r2' ⊢
  rw [hd _ big] at r1 r2'
  rw [hd fuel hf]
  exact ⟨r1, r2'⟩

end
namespace BoundsExample

/-- The hypotheses of C94, and runs with exactly as many rounds as it says: 6 edges on 4 points, and 36 pairs of 6 vertices. -/
example : (∀ k ≤ (none : Option ℕ).getD 1, (4 : ℕ).choose (k + 1) < 7) ∧
    (letI := listHeap; ((ripsMain Z2 (fun b e => decide (b + 1 < e)) RipsExample.enumE RipsExample.enumP [[0, 1, 3, 1], [1, 0, 1, 3], [3, 1, 0, 1], [1, 3, 1, 0]] none 7).map fun r =>
      (r.sizes, r.essential.length, r.pairings.length)) = some ([(0, 4), (1, 6)], 1, 1)) ∧
    (letI := listHeap; grpphEdges Z2 (fun x y => x + y) GraphExample.newestFirst (fun l => l) GrPPHExample.enumE GrPPHExample.enumP 6 GraphExample.edges 7 37 =
      some ([[0, 0, 0], []], [[], [(0, 10), (0, 1)]])) := by
  refine ⟨?_, ?_, ?_⟩
  · decide
  all_goals decide +kernel

end BoundsExample
end Phlite
