/-
C91: `grpph` of the opposite digraph, and of digraphs with the same distances.
-/
import Verif.Theory.Reversal
import Verif.Props.GrPPHEdges
import Verif.Props.GrPPHEdgesShape

set_option linter.unusedSectionVars false

namespace Phlite
open OrderDual (ofDual toDual)

section
variable {F : Type} [LinearOrder F] [Zero F] [OrderTop F] {n : ℕ} {add : F → F → F}

/-- Two runs return the same numbers if a barcode of the first is one of the second. -/
theorem runs_perm (K : Type) [Field K] (H H' : StdHeap) {CF CF' : Type} [NonZeroCoeff CF] [LawfulCoeff CF K] [NonZeroCoeff CF'] [LawfulCoeff CF' K]
    (hn : n < 65536) (hadd : IsLengthAddition add) {adj adj' : List (ℕ × ℕ × F) → ℕ → List (ℕ × ℕ × F)} {order order' : List (ℕ × ℕ) → List (ℕ × ℕ)}
    {edges edges' : List (ℕ × ℕ × F)} (hadj : IsAdjacency adj) (hadj' : IsAdjacency adj') (horder : ∀ l, (order l).Perm l) (horder' : ∀ l, (order' l).Perm l)
    (hedges : ∀ e ∈ edges, e.1 < n ∧ e.2.1 < n) (hw : ∀ e ∈ edges, 0 ≤ e.2.2) (hedges' : ∀ e ∈ edges', e.1 < n ∧ e.2.1 < n) (hw' : ∀ e ∈ edges', 0 ≤ e.2.2)
    (hbar : ∀ sp sp' : ℕ → ℕ → Option F, IsShortestPaths add edges sp → IsShortestPaths add edges' sp' → ∀ p bars,
      IsGroundedBarcode K {e : ℕ × ℕ | ∃ w, (e.1, e.2, w) ∈ edges} n (fun i j => if i = j then none else sp i j) p bars →
      IsGroundedBarcode K {e : ℕ × ℕ | ∃ w, (e.1, e.2, w) ∈ edges'} n (fun i j => if i = j then none else sp' i j) p bars) :
    ∃ enough, ∀ fuel ≥ enough, ∀ fuel' ≥ enough, ∀ fuelD ≥ edges.length + 2, ∀ fuelD' ≥ edges'.length + 2, ∀ enumE enumP enumE' enumP',
      Enumerates enumE → Enumerates enumP → Enumerates enumE' → Enumerates enumP' →
      ∃ e0 e1 p0 p1 e0' e1' p0' p1', (letI := H; grpphEdges CF add adj order enumE enumP n edges fuelD fuel) = some ([e0, e1], [p0, p1]) ∧
        (letI := H'; grpphEdges CF' add adj' order' enumE' enumP' n edges' fuelD' fuel') = some ([e0', e1'], [p0', p1']) ∧
        e0.Perm e0' ∧ e1.Perm e1' ∧ p0.Perm p0' ∧ p1.Perm p1' := by
  obtain ⟨sp, hsp, n1, r1⟩ := @C61_barcode F _ _ _ H n add edges adj order CF _ K _ _ hn hadd hadj horder hedges hw
  obtain ⟨sp', hsp', n2, r2⟩ := @C61_barcode F _ _ _ H' n add edges' adj' order' CF' _ K _ _ hn hadd hadj' horder' hedges' hw'
  refine ⟨max n1 n2, fun fuel hf fuel' hf' fuelD hfD fuelD' hfD' enumE enumP enumE' enumP' hE hP hE' hP' => ?_⟩
  obtain ⟨e0, e1, p0, p1, a1, a2, a3⟩ := r1 fuel ((le_max_left _ _).trans hf) fuelD hfD enumE enumP hE hP
  obtain ⟨e0', e1', p0', p1', b1, b2, b3⟩ := r2 fuel' ((le_max_right _ _).trans hf') fuelD' hfD' enumE' enumP' hE' hP'
  have q0 := report_perm ((hbar sp sp' hsp hsp' 0 _ a2).unique b2)
  have q1 := report_perm ((hbar sp sp' hsp hsp' 1 _ a3).unique b3)
  exact ⟨e0, e1, p0, p1, e0', e1', p0', p1', a1, b1, q0.1, q1.1, q0.2, q1.2⟩

/-- C91: if every edge is turned around, `grpph` returns the same numbers, up to their order. The addition of lengths has to be exact (associative and commutative); the
edges may be listed in any order and with any repetitions. -/
theorem C91_opposite (K : Type) [Field K] (H H' : StdHeap) {CF CF' : Type} [NonZeroCoeff CF] [LawfulCoeff CF K] [NonZeroCoeff CF'] [LawfulCoeff CF' K]
    (hn : n < 65536) (hadd : IsLengthAddition add) (hassoc : ∀ x y z, add (add x y) z = add x (add y z)) (hcomm : ∀ x y, add x y = add y x)
    {adj adj' : List (ℕ × ℕ × F) → ℕ → List (ℕ × ℕ × F)} {order order' : List (ℕ × ℕ) → List (ℕ × ℕ)}
    {edges edges' : List (ℕ × ℕ × F)} (hadj : IsAdjacency adj) (hadj' : IsAdjacency adj') (horder : ∀ l, (order l).Perm l) (horder' : ∀ l, (order' l).Perm l)
    (hedges : ∀ e ∈ edges, e.1 < n ∧ e.2.1 < n) (hw : ∀ e ∈ edges, 0 ≤ e.2.2) (hopp : ∀ a b w, (b, a, w) ∈ edges' ↔ (a, b, w) ∈ edges) :
    ∃ enough, ∀ fuel ≥ enough, ∀ fuel' ≥ enough, ∀ fuelD ≥ edges.length + 2, ∀ fuelD' ≥ edges'.length + 2, ∀ enumE enumP enumE' enumP',
      Enumerates enumE → Enumerates enumP → Enumerates enumE' → Enumerates enumP' →
      ∃ e0 e1 p0 p1 e0' e1' p0' p1', (letI := H; grpphEdges CF add adj order enumE enumP n edges fuelD fuel) = some ([e0, e1], [p0, p1]) ∧
        (letI := H'; grpphEdges CF' add adj' order' enumE' enumP' n edges' fuelD' fuel') = some ([e0', e1'], [p0', p1']) ∧
        e0.Perm e0' ∧ e1.Perm e1' ∧ p0.Perm p0' ∧ p1.Perm p1' := by
  refine runs_perm K H H' hn hadd hadj hadj' horder horder' hedges hw (fun e he => (hedges _ ((hopp e.2.1 e.1 e.2.2).1 he)).symm)
    (fun e he => hw (e.2.1, e.1, e.2.2) ((hopp e.2.1 e.1 e.2.2).1 he)) fun sp sp' hsp hsp' p bars h => ?_
  refine h.opposite (fun e he => he.elim fun w he => hedges (e.1, e.2, w) he) (fun a b => exists_congr fun w => hopp a b w) fun a _ b _ => ?_
  simp only [eq_comm (a := b) (b := a)]
  congr 1
  exact hsp.eq_of_walks hsp' (fun x hx => ⟨x, le_rfl, hx.opposite hadd.zero_add hassoc hcomm fun a b w he => (hopp a b w).2 he⟩)
    fun x hx => ⟨x, le_rfl, hx.opposite hadd.zero_add hassoc hcomm fun a b w he => (hopp b a w).1 he⟩

/-- C91: `grpph` only depends on which pairs are joined and on the distances. If two digraphs join the same pairs, and each edge of either has in the other a walk from its start
to its end that is not longer, `grpph` returns the same numbers for both, up to their order. -/
theorem C91_distances (K : Type) [Field K] (H H' : StdHeap) {CF CF' : Type} [NonZeroCoeff CF] [LawfulCoeff CF K] [NonZeroCoeff CF'] [LawfulCoeff CF' K]
    (hn : n < 65536) (hadd : IsLengthAddition add) (hassoc : ∀ x y z, add (add x y) z = add x (add y z)) (h0 : ∀ w, add w 0 = w)
    (hmono : ∀ x y w, x ≤ y → add w x ≤ add w y)
    {adj adj' : List (ℕ × ℕ × F) → ℕ → List (ℕ × ℕ × F)} {order order' : List (ℕ × ℕ) → List (ℕ × ℕ)}
    {edges edges' : List (ℕ × ℕ × F)} (hadj : IsAdjacency adj) (hadj' : IsAdjacency adj') (horder : ∀ l, (order l).Perm l) (horder' : ∀ l, (order' l).Perm l)
    (hedges : ∀ e ∈ edges, e.1 < n ∧ e.2.1 < n) (hw : ∀ e ∈ edges, 0 ≤ e.2.2) (hw' : ∀ e ∈ edges', 0 ≤ e.2.2)
    (hpairs : ∀ a b, (∃ w, (a, b, w) ∈ edges') ↔ ∃ w, (a, b, w) ∈ edges)
    (h1 : ∀ a b w, (a, b, w) ∈ edges → w < ⊤ → ∃ y ≤ w, IsWalk add edges' a b y) (h2 : ∀ a b w, (a, b, w) ∈ edges' → w < ⊤ → ∃ y ≤ w, IsWalk add edges a b y) :
    ∃ enough, ∀ fuel ≥ enough, ∀ fuel' ≥ enough, ∀ fuelD ≥ edges.length + 2, ∀ fuelD' ≥ edges'.length + 2, ∀ enumE enumP enumE' enumP',
      Enumerates enumE → Enumerates enumP → Enumerates enumE' → Enumerates enumP' →
      ∃ e0 e1 p0 p1 e0' e1' p0' p1', (letI := H; grpphEdges CF add adj order enumE enumP n edges fuelD fuel) = some ([e0, e1], [p0, p1]) ∧
        (letI := H'; grpphEdges CF' add adj' order' enumE' enumP' n edges' fuelD' fuel') = some ([e0', e1'], [p0', p1']) ∧
        e0.Perm e0' ∧ e1.Perm e1' ∧ p0.Perm p0' ∧ p1.Perm p1' := by
  refine runs_perm K H H' hn hadd hadj hadj' horder horder' hedges hw (fun e he => ?_) hw' fun sp sp' hsp hsp' p bars h => ?_
  · obtain ⟨w', he'⟩ := (hpairs e.1 e.2.1).1 ⟨e.2.2, he⟩
    exact hedges (e.1, e.2.1, w') he'
  refine h.congr (fun e he => he.elim fun w he => hedges (e.1, e.2, w) he) hpairs fun a _ b _ => ?_
  congr 1
  exact hsp.eq_of_walks hsp' (fun x hx => hx.shortcut hadd h0 hassoc hmono h1) fun x hx => hx.shortcut hadd h0 hassoc hmono h2

/-- C91: a detour. An edge that is at least as long as a walk along other edges may be given any weight that is still at least as long as this walk: `grpph` returns the same
numbers, up to their order. -/
theorem C91_detour (K : Type) [Field K] (H H' : StdHeap) {CF CF' : Type} [NonZeroCoeff CF] [LawfulCoeff CF K] [NonZeroCoeff CF'] [LawfulCoeff CF' K]
    (hn : n < 65536) (hadd : IsLengthAddition add) (hassoc : ∀ x y z, add (add x y) z = add x (add y z)) (h0 : ∀ w, add w 0 = w)
    (hmono : ∀ x y w, x ≤ y → add w x ≤ add w y)
    {adj adj' : List (ℕ × ℕ × F) → ℕ → List (ℕ × ℕ × F)} {order order' : List (ℕ × ℕ) → List (ℕ × ℕ)}
    {edges : List (ℕ × ℕ × F)} (hadj : IsAdjacency adj) (hadj' : IsAdjacency adj') (horder : ∀ l, (order l).Perm l) (horder' : ∀ l, (order' l).Perm l)
    {a b : ℕ} {w w' : F} (hedges : ∀ e ∈ (a, b, w) :: edges, e.1 < n ∧ e.2.1 < n) (hw : ∀ e ∈ (a, b, w) :: edges, 0 ≤ e.2.2)
    {x : F} (hx : IsWalk add edges a b x) (hxw : x ≤ w) (hxw' : x ≤ w') :
    ∃ enough, ∀ fuel ≥ enough, ∀ fuel' ≥ enough, ∀ fuelD ≥ edges.length + 3, ∀ fuelD' ≥ edges.length + 3, ∀ enumE enumP enumE' enumP',
      Enumerates enumE → Enumerates enumP → Enumerates enumE' → Enumerates enumP' →
      ∃ e0 e1 p0 p1 e0' e1' p0' p1', (letI := H; grpphEdges CF add adj order enumE enumP n ((a, b, w) :: edges) fuelD fuel) = some ([e0, e1], [p0, p1]) ∧
        (letI := H'; grpphEdges CF' add adj' order' enumE' enumP' n ((a, b, w') :: edges) fuelD' fuel') = some ([e0', e1'], [p0', p1']) ∧
        e0.Perm e0' ∧ e1.Perm e1' ∧ p0.Perm p0' ∧ p1.Perm p1' := by
  have hwe : ∀ e ∈ edges, 0 ≤ e.2.2 := fun e he => hw e (List.mem_cons_of_mem _ he)
  have h0x : 0 ≤ x := hx.nonneg hadd hwe
  have more : ∀ v : F, ∀ {i j : ℕ} {y : F}, IsWalk add edges i j y → IsWalk add ((a, b, v) :: edges) i j y :=
    fun v _ _ _ hy => hy.rename (π := id) fun _ _ _ he => List.mem_cons_of_mem _ he
  have key : ∀ u v : F, x ≤ u → ∀ a' b' w'', (a', b', w'') ∈ (a, b, u) :: edges → w'' < ⊤ → ∃ y ≤ w'', IsWalk add ((a, b, v) :: edges) a' b' y := by
    intro u v hxu a' b' w'' he ht
    rcases List.mem_cons.1 he with e | he
    · obtain ⟨rfl, e'⟩ := Prod.mk.inj e
      obtain ⟨rfl, rfl⟩ := Prod.mk.inj e'
      exact ⟨x, hxu, more v hx⟩
    · refine ⟨w'', le_rfl, ?_⟩
      have := IsWalk.snoc (add := add) (edges := (a, b, v) :: edges) (IsWalk.nil (i := a')) (List.mem_cons_of_mem _ he) ht
      rwa [hadd.zero_add] at this
  refine C91_distances K H H' hn hadd hassoc h0 hmono hadj hadj' horder horder' hedges hw ?_ ?_ (key w w' hxw) (key w' w hxw')
  · intro e he
    rcases List.mem_cons.1 he with rfl | he
    · exact h0x.trans hxw'
    · exact hwe e he
  · intro c d
    constructor
    · rintro ⟨v, he⟩
      rcases List.mem_cons.1 he with e | he
      · obtain ⟨rfl, e'⟩ := Prod.mk.inj e
        obtain ⟨rfl, rfl⟩ := Prod.mk.inj e'
        exact ⟨w, List.mem_cons_self⟩
      · exact ⟨v, List.mem_cons_of_mem _ he⟩
    · rintro ⟨v, he⟩
      rcases List.mem_cons.1 he with e | he
      · obtain ⟨rfl, e'⟩ := Prod.mk.inj e
        obtain ⟨rfl, rfl⟩ := Prod.mk.inj e'
        exact ⟨w', List.mem_cons_self⟩
      · exact ⟨v, List.mem_cons_of_mem _ he⟩

end

namespace OppositeExample
open GraphExample

/-- A digraph in which the edge 0 → 2 is longer than the way around, and the opposite one in another order. -/
def around : List (ℕ × ℕ × WithTop ℕ) := [(0, 2, 9), (0, 1, 1), (1, 2, 2), (2, 3, 4), (3, 0, 5)]
def aroundOpposite : List (ℕ × ℕ × WithTop ℕ) := [(1, 0, 1), (0, 3, 5), (3, 2, 4), (2, 1, 2), (2, 0, 9)]

/-- The hypotheses of C91. -/
example : (∀ e ∈ around, e.1 < 4 ∧ e.2.1 < 4) ∧ (∀ e ∈ around, 0 ≤ e.2.2) ∧ IsLengthAddition (fun x y : WithTop ℕ => x + y) ∧
    (∀ a b w, (b, a, w) ∈ aroundOpposite ↔ (a, b, w) ∈ around) ∧ IsWalk (fun x y : WithTop ℕ => x + y) [(0, 1, 1), (1, 2, 2), (2, 3, 4), (3, 0, 5)] 0 2 3 ∧
    (∀ x y z : WithTop ℕ, x + y + z = x + (y + z)) ∧ (∀ x y : WithTop ℕ, x + y = y + x) ∧ (∀ x y w : WithTop ℕ, x ≤ y → w + x ≤ w + y) := by
  refine ⟨by decide, by decide, natTop_add, fun a b w => ?_, ?_, add_assoc, add_comm, fun x y w h => add_le_add_right h w⟩
  · simp only [around, aroundOpposite, List.mem_cons, List.not_mem_nil, or_false, Prod.mk.injEq]
    constructor <;> (rintro (⟨rfl, rfl, rfl⟩ | ⟨rfl, rfl, rfl⟩ | ⟨rfl, rfl, rfl⟩ | ⟨rfl, rfl, rfl⟩ | ⟨rfl, rfl, rfl⟩) <;> simp)
  · exact IsWalk.snoc (add := fun x y : WithTop ℕ => x + y) (k := 1) (x := 1) (w := 2) (.snoc (add := fun x y : WithTop ℕ => x + y) (k := 0) (x := 0) (w := 1) .nil (by simp) (by decide)) (by simp) (by decide)

set_option synthInstance.maxSize 2000 in
set_option synthInstance.maxHeartbeats 200000 in
/-- The runs in the model. -/
example : (letI := listHeap; grpphEdges Z2 (fun x y => x + y) newestFirst id GrPPHExample.enumE GrPPHExample.enumP 4 around 100 100) = some ([[0], []], [[], [(0, 6), (0, 3)]]) ∧
    (letI := listHeap; grpphEdges Z2 (fun x y => x + y) newestFirst id GrPPHExample.enumE GrPPHExample.enumP 4 aroundOpposite 100 100) = some ([[0], []], [[], [(0, 6), (0, 3)]]) := by
  decide +kernel

end OppositeExample
end Phlite
