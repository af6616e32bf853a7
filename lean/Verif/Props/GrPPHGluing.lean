/-
C90: `grpph` of a digraph that consists of two digraphs with at most one vertex in common.
-/
import Verif.Theory.Gluing
import Verif.Props.GrPPHEdgesShape

set_option linter.unusedSectionVars false

namespace Phlite
open OrderDual (ofDual toDual)
open Finsupp (single linearCombination supported)

section
variable {W : Type} {n nA nB : ℕ} {iA iB : ℕ → ℕ} {edges edgesA edgesB : List (ℕ × ℕ × W)}

theorem IsGluing.symm (h : IsGluing n nA nB iA iB edges edgesA edgesB) : IsGluing n nB nA iB iA edges edgesB edgesA where
  injA := h.injB
  injB := h.injA
  vertices v := (h.vertices v).trans or_comm
  edge x y w := (h.edge x y w).trans or_comm
  common b hb a ha b' hb' a' ha' e e' := by
    obtain rfl := h.common a ha b hb a' ha' b' hb' e.symm e'.symm
    exact h.injB b hb b' hb' (e.trans e'.symm)
  loops b a w w' e hb ha := h.loops a b w' w e.symm ha hb

open Classical in
/-- The vertex of the first digraph to which the second one is collapsed. -/
noncomputable def collapsePoint (nA nB : ℕ) (iA iB : ℕ → ℕ) : ℕ := if h : ∃ a < nA, ∃ b < nB, iA a = iB b then h.choose else 0

open Classical in
/-- The retraction to the first digraph. -/
noncomputable def retractTo (nA nB : ℕ) (iA iB : ℕ → ℕ) (x : ℕ) : ℕ := if h : ∃ a < nA, iA a = x then h.choose else collapsePoint nA nB iA iB

theorem IsGluing.retract_back (h : IsGluing n nA nB iA iB edges edgesA edgesB) {a : ℕ} (ha : a < nA) : retractTo nA nB iA iB (iA a) = a := by
  have hex : ∃ a' < nA, iA a' = iA a := ⟨a, ha, rfl⟩
  unfold retractTo
  rw [dif_pos hex]
  exact h.injA _ hex.choose_spec.1 _ ha hex.choose_spec.2

theorem IsGluing.retract_away (h : IsGluing n nA nB iA iB edges edgesA edgesB) {b : ℕ} (hb : b < nB) : retractTo nA nB iA iB (iB b) = collapsePoint nA nB iA iB := by
  unfold retractTo
  split
  · rename_i hex
    have hex' : ∃ a < nA, ∃ b < nB, iA a = iB b := ⟨_, hex.choose_spec.1, b, hb, hex.choose_spec.2⟩
    unfold collapsePoint
    rw [dif_pos hex']
    obtain ⟨b', hb', e⟩ := hex'.choose_spec.2
    exact h.common _ hex.choose_spec.1 b hb _ hex'.choose_spec.1 b' hb' hex.choose_spec.2 e
  · rfl

theorem collapsePoint_lt (h : 0 < nA) : collapsePoint nA nB iA iB < nA := by
  unfold collapsePoint
  split
  · rename_i hex; exact hex.choose_spec.1
  · exact h

theorem retractTo_lt (h : 0 < nA) (x : ℕ) : retractTo nA nB iA iB x < nA := by
  unfold retractTo
  split
  · rename_i hex; exact hex.choose_spec.1
  · exact collapsePoint_lt h

theorem IsGluing.retract_lt (_ : IsGluing n nA nB iA iB edges edgesA edgesB) {x y : ℕ} (hne : retractTo nA nB iA iB x ≠ retractTo nA nB iA iB y) : 0 < nA := by
  by_contra h0
  refine hne ?_
  have hno : ∀ x, ¬ ∃ a < nA, iA a = x := fun x ⟨a, ha, _⟩ => h0 (by omega)
  unfold retractTo
  rw [dif_neg (hno x), dif_neg (hno y)]

theorem IsGluing.range (h : IsGluing n nA nB iA iB edges edgesA edgesB) (hA : ∀ e ∈ edgesA, e.1 < nA ∧ e.2.1 < nA) (hB : ∀ e ∈ edgesB, e.1 < nB ∧ e.2.1 < nB) :
    ∀ e ∈ edges, e.1 < n ∧ e.2.1 < n := by
  rintro ⟨x, y, w⟩ he
  rcases (h.edge x y w).1 he with ⟨a, a', ha, rfl, rfl⟩ | ⟨b, b', hb, rfl, rfl⟩
  · exact ⟨(h.vertices _).2 (.inl ⟨a, (hA _ ha).1, rfl⟩), (h.vertices _).2 (.inl ⟨a', (hA _ ha).2, rfl⟩)⟩
  · exact ⟨(h.vertices _).2 (.inr ⟨b, (hB _ hb).1, rfl⟩), (h.vertices _).2 (.inr ⟨b', (hB _ hb).2, rfl⟩)⟩

theorem IsGluing.side (h : IsGluing n nA nB iA iB edges edgesA edgesB) (hA : ∀ e ∈ edgesA, e.1 < nA ∧ e.2.1 < nA) (hB : ∀ e ∈ edgesB, e.1 < nB ∧ e.2.1 < nB) :
    GluingSide (edgeSet edgesA) (edgeSet edgesB) iA iB (retractTo nA nB iA iB) where
  back := fun a b ⟨w, hw⟩ => ⟨h.retract_back (hA _ hw).1, h.retract_back (hA _ hw).2⟩
  away := fun a b ⟨w, hw⟩ => by rw [h.retract_away (hB _ hw).1, h.retract_away (hB _ hw).2]
  disj := by
    rintro ⟨a, a'⟩ ⟨w, hw⟩ ⟨b, b'⟩ ⟨w', hw'⟩ e
    obtain ⟨e1, e2⟩ := Prod.mk.inj e
    have ra := hA _ hw
    have rb := hB _ hw'
    obtain rfl := h.common a ra.1 b rb.1 a' ra.2 b' rb.2 e1 e2
    obtain rfl := h.injB b rb.1 b' rb.2 (e1.symm.trans e2)
    exact h.loops _ _ _ _ e1 hw hw'

theorem IsGluing.edgeSet_eq (h : IsGluing n nA nB iA iB edges edgesA edgesB) :
    edgeSet edges = Prod.map iA iA '' edgeSet edgesA ∪ Prod.map iB iB '' edgeSet edgesB := by
  ext ⟨x, y⟩
  constructor
  · rintro ⟨w, hw⟩
    rcases (h.edge x y w).1 hw with ⟨a, a', ha, rfl, rfl⟩ | ⟨b, b', hb, rfl, rfl⟩
    · exact .inl ⟨(a, a'), ⟨w, ha⟩, rfl⟩
    · exact .inr ⟨(b, b'), ⟨w, hb⟩, rfl⟩
  · rintro (⟨⟨a, a'⟩, ⟨w, ha⟩, e⟩ | ⟨⟨b, b'⟩, ⟨w, hb⟩, e⟩)
    · obtain ⟨rfl, rfl⟩ := Prod.mk.inj e
      exact ⟨w, (h.edge _ _ w).2 (.inl ⟨a, a', ha, rfl, rfl⟩)⟩
    · obtain ⟨rfl, rfl⟩ := Prod.mk.inj e
      exact ⟨w, (h.edge _ _ w).2 (.inr ⟨b, b', hb, rfl, rfl⟩)⟩

theorem IsGluing.card (h : IsGluing n nA nB iA iB edges edgesA edgesB) : n + commonVertices nA nB iA iB = nA + nB := by
  classical
  have h1 : Finset.range n = (Finset.range nA).image iA ∪ (Finset.range nB).image iB := by
    ext v
    rw [Finset.mem_range, h.vertices, Finset.mem_union, Finset.mem_image, Finset.mem_image]
    simp only [Finset.mem_range]
  have hA : ((Finset.range nA).image iA).card = nA := by
    rw [Finset.card_image_of_injOn, Finset.card_range]
    exact fun a ha a' ha' e => h.injA a (Finset.mem_range.1 ha) a' (Finset.mem_range.1 ha') e
  have hB : ((Finset.range nB).image iB).card = nB := by
    rw [Finset.card_image_of_injOn, Finset.card_range]
    exact fun a ha a' ha' e => h.injB a (Finset.mem_range.1 ha) a' (Finset.mem_range.1 ha') e
  have h2 := Finset.card_union_add_card_inter ((Finset.range nA).image iA) ((Finset.range nB).image iB)
  rw [← h1, hA, hB, Finset.card_range] at h2
  rw [← h2]
  congr 1
  unfold commonVertices
  split
  · rename_i hex
    obtain ⟨a, ha, b, hb, e⟩ := hex
    symm
    rw [Finset.card_eq_one]
    refine ⟨iA a, Finset.ext fun v => ?_⟩
    rw [Finset.mem_inter, Finset.mem_image, Finset.mem_image, Finset.mem_singleton]
    constructor
    · rintro ⟨⟨a', ha', rfl⟩, b', hb', e'⟩
      rw [h.common a ha b hb a' (Finset.mem_range.1 ha') b' (Finset.mem_range.1 hb') e e'.symm]
    · rintro rfl
      exact ⟨⟨a, Finset.mem_range.2 ha, rfl⟩, b, Finset.mem_range.2 hb, e.symm⟩
  · rename_i hno
    symm
    rw [Finset.card_eq_zero, Finset.eq_empty_iff_forall_notMem]
    intro v hv
    rw [Finset.mem_inter, Finset.mem_image, Finset.mem_image] at hv
    obtain ⟨⟨a, ha, rfl⟩, b, hb, e⟩ := hv
    exact hno ⟨a, Finset.mem_range.1 ha, b, Finset.mem_range.1 hb, e.symm⟩

theorem IsGluing.ncard (h : IsGluing n nA nB iA iB edges edgesA edgesB) (hA : ∀ e ∈ edgesA, e.1 < nA ∧ e.2.1 < nA) (hB : ∀ e ∈ edgesB, e.1 < nB ∧ e.2.1 < nB) :
    (edgeSet edges).ncard = (edgeSet edgesA).ncard + (edgeSet edgesB).ncard := by
  have hs := h.side hA hB
  have hs' := h.symm.side hB hA
  have fin : ∀ {m : ℕ} {l : List (ℕ × ℕ × W)}, (∀ e ∈ l, e.1 < m ∧ e.2.1 < m) → (edgeSet l).Finite := by
    intro m l hl
    refine ((Set.finite_lt_nat m).prod (Set.finite_lt_nat m)).subset ?_
    rintro e ⟨w, hw⟩
    exact hl _ hw
  have hd : Disjoint (Prod.map iA iA '' edgeSet edgesA) (Prod.map iB iB '' edgeSet edgesB) := by
    rw [Set.disjoint_left]
    rintro _ ⟨e, he, rfl⟩ ⟨e', he', e2⟩
    exact hs.disj e he e' he' e2.symm
  rw [h.edgeSet_eq, Set.ncard_union_eq hd ((fin hA).image _) ((fin hB).image _), hs.injOn.ncard_image, hs'.injOn.ncard_image]

theorem IsGluing.components (h : IsGluing n nA nB iA iB edges edgesA edgesB) (hA : ∀ e ∈ edgesA, e.1 < nA ∧ e.2.1 < nA) (hB : ∀ e ∈ edgesB, e.1 < nB ∧ e.2.1 < nB) :
    (componentCount n fun a b => ∃ w, (a, b, w) ∈ edges) + commonVertices nA nB iA iB =
      (componentCount nA fun a b => ∃ w, (a, b, w) ∈ edgesA) + componentCount nB fun a b => ∃ w, (a, b, w) ∈ edgesB := by
  have hs := h.side hA hB
  have hs' := h.symm.side hB hA
  have fin : ∀ {m : ℕ} {l : List (ℕ × ℕ × W)}, (∀ e ∈ l, e.1 < m ∧ e.2.1 < m) → FiniteDimensional ℚ (edgeCycles ℚ (edgeSet l)) := by
    intro m l hl
    refine edgeCycles_fd (((Set.finite_lt_nat m).prod (Set.finite_lt_nat m)).subset ?_)
    rintro e ⟨w, hw⟩
    exact hl _ hw
  have := fin hA
  have := fin hB
  have c := circuit_rank (K := ℚ) (n := n) (E := edgeSet edges) fun e ⟨w, hw⟩ => h.range hA hB _ hw
  have cA := circuit_rank (K := ℚ) (n := nA) (E := edgeSet edgesA) fun e ⟨w, hw⟩ => hA _ hw
  have cB := circuit_rank (K := ℚ) (n := nB) (E := edgeSet edgesB) fun e ⟨w, hw⟩ => hB _ hw
  have d := edgeCycles_gluing (K := ℚ) hs hs'
  have d' := hs.finrank_add hs' (P := edgeCycles ℚ (edgeSet edgesA)) (Q := edgeCycles ℚ (edgeSet edgesB)) inf_le_left inf_le_left
  rw [← d, ← h.edgeSet_eq] at d'
  have e1 := h.card
  have e2 := h.ncard hA hB
  have e3 : Module.finrank ℚ (edgeCycles ℚ (edgeSet edges)) + n = (edgeSet edges).ncard + componentCount n fun a b => ∃ w, (a, b, w) ∈ edges := c
  have e4 : Module.finrank ℚ (edgeCycles ℚ (edgeSet edgesA)) + nA = (edgeSet edgesA).ncard + componentCount nA fun a b => ∃ w, (a, b, w) ∈ edgesA := cA
  have e5 : Module.finrank ℚ (edgeCycles ℚ (edgeSet edgesB)) + nB = (edgeSet edgesB).ncard + componentCount nB fun a b => ∃ w, (a, b, w) ∈ edgesB := cB
  omega

end

section
variable {F : Type} [LinearOrder F] [Zero F] [OrderTop F] {n nA nB : ℕ} {iA iB : ℕ → ℕ} {edges edgesA edgesB : List (ℕ × ℕ × F)} {add : F → F → F}
  {sp spA spB : ℕ → ℕ → Option F}

theorem IsGluing.weights (h : IsGluing n nA nB iA iB edges edgesA edgesB) (hw : ∀ e ∈ edges, 0 ≤ e.2.2) : ∀ e ∈ edgesA, 0 ≤ e.2.2 :=
  fun ⟨a, a', w⟩ he => hw (iA a, iA a', w) ((h.edge _ _ w).2 (.inl ⟨a, a', he, rfl, rfl⟩))

/-- The image of a walk under the retraction is not longer. -/
theorem IsGluing.walk (h : IsGluing n nA nB iA iB edges edgesA edgesB) (hA : ∀ e ∈ edgesA, e.1 < nA ∧ e.2.1 < nA) (hB : ∀ e ∈ edgesB, e.1 < nB ∧ e.2.1 < nB)
    (hadd : IsLengthAddition add) (hw : ∀ e ∈ edges, 0 ≤ e.2.2) {x y : ℕ} {l : F} (hl : IsWalk add edges x y l) :
    ∃ l' ≤ l, IsWalk add edgesA (retractTo nA nB iA iB x) (retractTo nA nB iA iB y) l' := by
  induction hl with
  | nil => exact ⟨0, le_rfl, .nil⟩
  | @snoc k j l w _ he ht ih =>
    obtain ⟨l', h1, h2⟩ := ih
    rcases (h.edge k j w).1 he with ⟨a, a', ha, rfl, rfl⟩ | ⟨b, b', hb, rfl, rfl⟩
    · rw [h.retract_back (hA _ ha).1] at h2
      rw [h.retract_back (hA _ ha).2]
      exact ⟨add l' w, hadd.mono _ _ _ h1, h2.snoc ha ht⟩
    · rw [h.retract_away (hB _ hb).1] at h2
      rw [h.retract_away (hB _ hb).2]
      exact ⟨l', h1.trans (hadd.le_add_right _ _ (hw _ he)), h2⟩

theorem spTime_walk {edges : List (ℕ × ℕ × F)} {sp : ℕ → ℕ → Option F} (hsp : IsShortestPaths add edges sp) {a b : ℕ} {t : F} (h : (a, b) ∈ arrows n (spTime sp) t) :
    a ≠ b ∧ ∃ x ≤ t, IsWalk add edges a b x := by
  obtain ⟨_, _, x, hx, hxt⟩ := h
  simp only [spTime] at hx
  split at hx
  · cases hx
  · rename_i hab
    exact ⟨hab, x, hxt, (hsp.least a b x hx).1⟩

variable {K : Type} [Field K]

theorem IsGluing.up (h : IsGluing n nA nB iA iB edges edgesA edgesB)
    (hsp : IsShortestPaths add edges sp) (hspA : IsShortestPaths add edgesA spA) {t : F} {z : ℕ × ℕ →₀ K} (hz : z ∈ groundedB1 K nA (spTime spA) t) :
    placeEdges K iA z ∈ groundedB1 K n (spTime sp) t := by
  have e : placeEdges K iA z = collapseMap iA z := by
    refine eq_on_supported ?_ (groundedB1_supported hz)
    rintro ⟨a, b⟩ hab
    rw [placeEdges_single, collapseMap_single, if_neg]
    exact fun e => (spTime_walk hspA hab).1 (h.injA a hab.1 b hab.2.1 e)
  rw [e]
  refine groundedB1_collapseMap iA ?_ hz
  intro a b hab
  obtain ⟨hne, x, hx, hwk⟩ := spTime_walk hspA hab
  have hwk' : IsWalk add edges (iA a) (iA b) x := hwk.rename fun a b w hm => (h.edge _ _ w).2 (.inl ⟨a, b, hm, rfl, rfl⟩)
  exact .inr (hwk'.arrow hsp ((h.vertices _).2 (.inl ⟨a, hab.1, rfl⟩)) ((h.vertices _).2 (.inl ⟨b, hab.2.1, rfl⟩))
    (fun e => hne (h.injA a hab.1 b hab.2.1 e)) hx)

theorem IsGluing.down (h : IsGluing n nA nB iA iB edges edgesA edgesB) (hA : ∀ e ∈ edgesA, e.1 < nA ∧ e.2.1 < nA) (hB : ∀ e ∈ edgesB, e.1 < nB ∧ e.2.1 < nB)
    (hadd : IsLengthAddition add) (hw : ∀ e ∈ edges, 0 ≤ e.2.2)
    (hsp : IsShortestPaths add edges sp) (hspA : IsShortestPaths add edgesA spA) {t : F} {z : ℕ × ℕ →₀ K} (hz : z ∈ groundedB1 K n (spTime sp) t) :
    collapseMap (retractTo nA nB iA iB) z ∈ groundedB1 K nA (spTime spA) t := by
  refine groundedB1_collapseMap _ ?_ hz
  intro a b hab
  obtain ⟨hne, x, hx, hwk⟩ := spTime_walk hsp hab
  by_cases e : retractTo nA nB iA iB a = retractTo nA nB iA iB b
  · exact .inl e
  · obtain ⟨l, h1, h2⟩ := h.walk hA hB hadd hw hwk
    exact .inr (h2.arrow hspA (retractTo_lt (h.retract_lt e) a) (retractTo_lt (h.retract_lt e) b) e (h1.trans hx))

/-- Grounded Betti numbers in degree 1 add up. -/
theorem IsGluing.betti (h : IsGluing n nA nB iA iB edges edgesA edgesB) (hA : ∀ e ∈ edgesA, e.1 < nA ∧ e.2.1 < nA) (hB : ∀ e ∈ edgesB, e.1 < nB ∧ e.2.1 < nB)
    (hadd : IsLengthAddition add) (hw : ∀ e ∈ edges, 0 ≤ e.2.2) (hsp : IsShortestPaths add edges sp) (hspA : IsShortestPaths add edgesA spA)
    (hspB : IsShortestPaths add edgesB spB) {s t : F} (hst : s ≤ t) :
    groundedBetti1 K (edgeSet edges) n (spTime sp) hst = groundedBetti1 K (edgeSet edgesA) nA (spTime spA) hst + groundedBetti1 K (edgeSet edgesB) nB (spTime spB) hst := by
  have hs := h.side hA hB
  have hs' := h.symm.side hB hA
  have fin : ∀ {m : ℕ} {l : List (ℕ × ℕ × F)}, (∀ e ∈ l, e.1 < m ∧ e.2.1 < m) → FiniteDimensional K (edgeCycles K (edgeSet l)) := by
    intro m l hl
    refine edgeCycles_fd (((Set.finite_lt_nat m).prod (Set.finite_lt_nat m)).subset ?_)
    rintro e ⟨w, hw⟩
    exact hl _ hw
  have fA := fin hA
  have fB := fin hB
  have r := groundedBetti1_edgeCycles (K := K) hadd (h.range hA hB) hw hsp hst
  have rA := groundedBetti1_edgeCycles (K := K) hadd hA (h.weights hw) hspA hst
  have rB := groundedBetti1_edgeCycles (K := K) hadd hB (h.symm.weights hw) hspB hst
  have d := edgeCycles_gluing (K := K) hs hs'
  have d' := hs.finrank_add hs' (P := edgeCycles K (edgeSet edgesA)) (Q := edgeCycles K (edgeSet edgesB)) inf_le_left inf_le_left
  rw [← d, ← h.edgeSet_eq] at d'
  have g := edgeCycles_inf_gluing (K := K) hs hs' (B := groundedB1 K n (spTime sp) t) (BA := groundedB1 K nA (spTime spA) t) (BB := groundedB1 K nB (spTime spB) t)
    (fun z hz => h.up hsp hspA hz) (fun z hz => h.symm.up hsp hspB hz) (fun z hz => h.down hA hB hadd hw hsp hspA hz) (fun z hz => h.symm.down hB hA hadd hw hsp hspB hz)
    (fun z hz v => by
      by_contra hv
      exact (spTime_walk hsp (mem_supported_nonzero (groundedB1_supported hz) hv)).1 rfl)
  have i1 : FiniteDimensional K ↥(edgeCycles K (edgeSet edgesA) ⊓ groundedB1 K nA (spTime spA) t) := Submodule.finiteDimensional_of_le (inf_le_left : _ ≤ edgeCycles K (edgeSet edgesA))
  have i2 : FiniteDimensional K ↥(edgeCycles K (edgeSet edgesB) ⊓ groundedB1 K nB (spTime spB) t) := Submodule.finiteDimensional_of_le (inf_le_left : _ ≤ edgeCycles K (edgeSet edgesB))
  have g' := hs.finrank_add hs' (P := edgeCycles K (edgeSet edgesA) ⊓ groundedB1 K nA (spTime spA) t) (Q := edgeCycles K (edgeSet edgesB) ⊓ groundedB1 K nB (spTime spB) t)
    (inf_le_left.trans inf_le_left) (inf_le_left.trans inf_le_left)
  rw [← g, ← h.edgeSet_eq] at g'
  omega

end

section
variable {F : Type} [LinearOrder F] [Zero F] [OrderTop F] [StdHeap] {n nA nB : ℕ} {iA iB : ℕ → ℕ} {edges edgesA edgesB : List (ℕ × ℕ × F)} {add : F → F → F}
  {adj : List (ℕ × ℕ × F) → ℕ → List (ℕ × ℕ × F)} {order : List (ℕ × ℕ) → List (ℕ × ℕ)} {CF : Type} [NonZeroCoeff CF]

theorem reportIntervals_append (e e' : List F) (p p' : List (F × F)) : reportIntervals (e ++ e') (p ++ p') = reportIntervals e p + reportIntervals e' p' := by
  unfold reportIntervals
  simp only [← Multiset.coe_add, List.map_append]
  abel

/-- C90: `grpph` of a digraph that consists of two digraphs with at most one vertex in common (side by side, or a one-point union), in terms of the runs on the two: in degree 1 the
intervals of the whole are those of the two parts, although shortest paths run from one part to the other; in degree 0 there is one essential interval for each component, so
as many as for the two parts together, minus one if they have a vertex in common. -/
theorem C90_glued (K : Type) [Field K] [LawfulCoeff CF K] (hn : n < 65536) (hadd : IsLengthAddition add) (hadj : IsAdjacency adj) (horder : ∀ l, (order l).Perm l)
    (h : IsGluing n nA nB iA iB edges edgesA edgesB) (hA : ∀ e ∈ edgesA, e.1 < nA ∧ e.2.1 < nA) (hB : ∀ e ∈ edgesB, e.1 < nB ∧ e.2.1 < nB)
    (hw : ∀ e ∈ edges, 0 ≤ e.2.2) :
    ∃ enough, ∀ fuel ≥ enough, ∀ enumE enumP, Enumerates enumE → Enumerates enumP →
      ∃ (c cA cB : ℕ) (e1 e1A e1B : List F) (p1 p1A p1B : List (F × F)),
        grpphEdges CF add adj order enumE enumP n edges fuel fuel = some ([List.replicate c 0, e1], [[], p1]) ∧
        grpphEdges CF add adj order enumE enumP nA edgesA fuel fuel = some ([List.replicate cA 0, e1A], [[], p1A]) ∧
        grpphEdges CF add adj order enumE enumP nB edgesB fuel fuel = some ([List.replicate cB 0, e1B], [[], p1B]) ∧
        c + commonVertices nA nB iA iB = cA + cB ∧ e1.Perm (e1A ++ e1B) ∧ p1.Perm (p1A ++ p1B) := by
  have hedges := h.range hA hB
  have hcard := h.card
  have hwA := h.weights hw
  have hwB := h.symm.weights hw
  have hle : commonVertices nA nB iA iB ≤ nA ∧ commonVertices nA nB iA iB ≤ nB := by
    unfold commonVertices
    split
    · rename_i hex
      obtain ⟨a, ha, b, hb, _⟩ := hex
      omega
    · omega
  have hnA : nA < 65536 := by omega
  have hnB : nB < 65536 := by omega
  obtain ⟨sp, hsp, n1, r1⟩ := C61_barcode (CF := CF) (order := order) K hn hadd hadj horder hedges hw
  obtain ⟨spA, hspA, n2, r2⟩ := C61_barcode (CF := CF) (order := order) K hnA hadd hadj horder hA hwA
  obtain ⟨spB, hspB, n3, r3⟩ := C61_barcode (CF := CF) (order := order) K hnB hadd hadj horder hB hwB
  obtain ⟨m1, q1⟩ := C46_edges (CF := CF) (order := order) K hn hadd hadj horder hedges hw
  obtain ⟨m2, q2⟩ := C46_edges (CF := CF) (order := order) K hnA hadd hadj horder hA hwA
  obtain ⟨m3, q3⟩ := C46_edges (CF := CF) (order := order) K hnB hadd hadj horder hB hwB
  refine ⟨n1 + n2 + n3 + m1 + m2 + m3 + (edges.length + 2) + (edgesA.length + 2) + (edgesB.length + 2), fun fuel hf enumE enumP hE hP => ?_⟩
  obtain ⟨e0, e1, p0, p1, a1, -, a2⟩ := r1 fuel (by omega) fuel (by omega) enumE enumP hE hP
  obtain ⟨e0A, e1A, p0A, p1A, b1, -, b2⟩ := r2 fuel (by omega) fuel (by omega) enumE enumP hE hP
  obtain ⟨e0B, e1B, p0B, p1B, c1, -, c2⟩ := r3 fuel (by omega) fuel (by omega) enumE enumP hE hP
  obtain ⟨_, _, a3⟩ := q1 fuel (by omega) fuel (by omega) enumE enumP hE hP
  obtain ⟨_, _, b3⟩ := q2 fuel (by omega) fuel (by omega) enumE enumP hE hP
  obtain ⟨_, _, c3⟩ := q3 fuel (by omega) fuel (by omega) enumE enumP hE hP
  rw [a1] at a3
  rw [b1] at b3
  rw [c1] at c3
  simp only [Option.some.injEq, Prod.mk.injEq, List.cons.injEq, and_true] at a3 b3 c3
  obtain ⟨⟨rfl, rfl⟩, rfl, rfl⟩ := a3
  obtain ⟨⟨rfl, rfl⟩, rfl, rfl⟩ := b3
  obtain ⟨⟨rfl, rfl⟩, rfl, rfl⟩ := c3
  have hsum : IsGroundedBarcode K {e : ℕ × ℕ | ∃ w, (e.1, e.2, w) ∈ edges} n (fun i j => if i = j then none else sp i j) 1 (reportIntervals (e1A ++ e1B) (p1A ++ p1B)) := by
    rw [reportIntervals_append]
    refine ⟨fun b hb => ?_, fun b hb => ?_, fun s t hs hst => ?_⟩
    · exact (Multiset.mem_add.1 hb).elim (b2.nonneg b) (c2.nonneg b)
    · exact (Multiset.mem_add.1 hb).elim (b2.nonempty b) (c2.nonempty b)
    · unfold aliveBars
      rw [Multiset.countP_add]
      have hb := b2.count s t hs hst
      have hc := c2.count s t hs hst
      unfold aliveBars at hb hc
      rw [hb, hc, if_neg one_ne_zero, if_neg one_ne_zero, if_neg one_ne_zero]
      exact (h.betti hA hB hadd hw hsp hspA hspB hst).symm
  have hp := report_perm (a2.unique hsum)
  exact ⟨_, _, _, _, _, _, _, _, _, a1, b1, c1, h.components hA hB, hp.1, hp.2⟩

end

/-! ### Concrete cases -/

namespace GraphExample

/-- A triangle, and a cycle of length 2 at its last vertex. -/
def triangle : List (ℕ × ℕ × WithTop ℕ) := [(0, 1, 1), (1, 2, 2), (0, 2, 4)]
def handle : List (ℕ × ℕ × WithTop ℕ) := [(0, 1, 1), (1, 0, 5)]
def glued : List (ℕ × ℕ × WithTop ℕ) := [(2, 3, 1), (0, 1, 1), (3, 2, 5), (0, 2, 4), (1, 2, 2)]

theorem glued_isGluing : IsGluing 4 3 2 id (· + 2) glued triangle handle where
  injA _ _ _ _ e := e
  injB _ _ _ _ e := Nat.add_right_cancel e
  vertices v := by
    constructor
    · intro hv
      by_cases h : v < 3
      · exact .inl ⟨v, h, rfl⟩
      · exact .inr ⟨1, by omega, by show 1 + 2 = v; omega⟩
    · rintro (⟨a, ha, rfl⟩ | ⟨b, hb, rfl⟩)
      · exact Nat.lt_succ_of_lt ha
      · show b + 2 < 4; omega
  edge x y w := by
    simp only [glued, triangle, handle, List.mem_cons, List.not_mem_nil, or_false, Prod.mk.injEq, id]
    constructor
    · rintro (⟨rfl, rfl, rfl⟩ | ⟨rfl, rfl, rfl⟩ | ⟨rfl, rfl, rfl⟩ | ⟨rfl, rfl, rfl⟩ | ⟨rfl, rfl, rfl⟩)
      · exact .inr ⟨0, 1, by simp⟩
      · exact .inl ⟨0, 1, by simp⟩
      · exact .inr ⟨1, 0, by simp⟩
      · exact .inl ⟨0, 2, by simp⟩
      · exact .inl ⟨1, 2, by simp⟩
    · rintro (⟨a, a', h, rfl, rfl⟩ | ⟨b, b', h, rfl, rfl⟩)
      · rcases h with ⟨rfl, rfl, rfl⟩ | ⟨rfl, rfl, rfl⟩ | ⟨rfl, rfl, rfl⟩ <;> simp
      · rcases h with ⟨rfl, rfl, rfl⟩ | ⟨rfl, rfl, rfl⟩ <;> simp
  common a _ b _ a' _ b' _ e e' := by simp only [id] at e e'; omega
  loops a b w w' _ h _ := by
    simp only [triangle, List.mem_cons, List.not_mem_nil, or_false, Prod.mk.injEq] at h
    rcases h with ⟨h1, h2, _⟩ | ⟨h1, h2, _⟩ | ⟨h1, h2, _⟩ <;> omega

/-- The remaining hypotheses of C90. -/
example : (∀ e ∈ triangle, e.1 < 3 ∧ e.2.1 < 3) ∧ (∀ e ∈ handle, e.1 < 2 ∧ e.2.1 < 2) ∧ (∀ e ∈ glued, 0 ≤ e.2.2) ∧ IsLengthAddition (fun x y : WithTop ℕ => x + y) ∧
    IsAdjacency newestFirst ∧ Enumerates GrPPHExample.enumE ∧ Enumerates GrPPHExample.enumP :=
  ⟨by decide, by decide, by decide, natTop_add, newestFirst_adj, enumBy_enumerates _ _, enumBy_enumerates _ _⟩

set_option synthInstance.maxSize 2000 in
set_option synthInstance.maxHeartbeats 200000 in
/-- The three runs in the model. -/
example : (letI := listHeap; grpphEdges Z2 (fun x y => x + y) newestFirst id GrPPHExample.enumE GrPPHExample.enumP 4 glued 100 100) = some ([[0], []], [[], [(0, 3), (0, 5)]]) ∧
    (letI := listHeap; grpphEdges Z2 (fun x y => x + y) newestFirst id GrPPHExample.enumE GrPPHExample.enumP 3 triangle 100 100) = some ([[0], []], [[], [(0, 3)]]) ∧
    (letI := listHeap; grpphEdges Z2 (fun x y => x + y) newestFirst id GrPPHExample.enumE GrPPHExample.enumP 2 handle 100 100) = some ([[0], []], [[], [(0, 5)]]) := by
  decide +kernel

end GraphExample
end Phlite
