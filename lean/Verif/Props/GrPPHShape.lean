/-
Property theorems C46 and C47: what `grpph` reports for weighted digraphs, in terms of the digraph.
-/
import Verif.Theory.Digraph
import Verif.Theory.ShortestPaths
import Verif.Props.GrPPHEnd

set_option linter.unusedSectionVars false
set_option linter.unusedSimpArgs false

namespace Phlite
open Finsupp (single linearCombination linearCombination_single supported)

/-! ### Reading bars off their counts -/
section
variable {F : Type} [LinearOrder F] [Zero F]

theorem countP_lt {α : Type} {p q : α → Bool} {l : List α} (h : ∀ a ∈ l, p a = true → q a = true) {a : α} (ha : a ∈ l) (hp : p a = false) (hq : q a = true) :
    l.countP p < l.countP q := by
  induction l with
  | nil => cases ha
  | cons x l ih =>
    have hx := h x List.mem_cons_self
    have hl : l.countP p ≤ l.countP q := List.countP_mono_left fun a ha => h a (List.mem_cons_of_mem _ ha)
    rw [List.countP_cons, List.countP_cons]
    rcases List.mem_cons.1 ha with rfl | ha
    · rw [hp, hq]; simp; omega
    · have := ih (fun a ha => h a (List.mem_cons_of_mem _ ha)) ha
      cases h1 : p x
      · simp; omega
      · rw [hx h1]; simp; omega

/-- If every class comes from time 0, all bars are born at 0. -/
theorem births_zero {e : List F} {p : List (F × F)} (he : ∀ x ∈ e, 0 ≤ x) (hp : ∀ b ∈ p, 0 ≤ b.1 ∧ b.1 < b.2)
    (h : ∀ t : F, 0 ≤ t → (e.countP fun x => x ≤ t) + p.countP (fun b => b.1 ≤ t ∧ t < b.2) =
      (e.countP fun x => x ≤ 0) + p.countP (fun b => b.1 ≤ 0 ∧ t < b.2)) :
    (∀ x ∈ e, x = 0) ∧ ∀ b ∈ p, b.1 = 0 := by
  have m1 : ∀ t : F, 0 ≤ t → (e.countP fun x => x ≤ 0) ≤ e.countP fun x => x ≤ t := fun t ht =>
    List.countP_mono_left fun x _ hx => by simp only [decide_eq_true_eq] at hx ⊢; exact hx.trans ht
  have m2 : ∀ t : F, 0 ≤ t → p.countP (fun b => b.1 ≤ 0 ∧ t < b.2) ≤ p.countP fun b => b.1 ≤ t ∧ t < b.2 := fun t ht =>
    List.countP_mono_left fun x _ hx => by simp only [decide_eq_true_eq] at hx ⊢; exact ⟨hx.1.trans ht, hx.2⟩
  constructor
  · intro x hx
    by_contra hne
    have hpos : 0 < x := lt_of_le_of_ne (he x hx) fun h => hne h.symm
    have := countP_lt (p := fun y => decide (y ≤ 0)) (q := fun y => decide (y ≤ x)) (l := e) (fun y _ hy => by
      simp only [decide_eq_true_eq] at hy ⊢; exact hy.trans hpos.le) hx (by simpa using hpos) (by simp)
    have h1 := h x hpos.le
    have h2 := m2 x hpos.le
    omega
  · intro b hb
    by_contra hne
    have hpos : 0 < b.1 := lt_of_le_of_ne (hp b hb).1 fun h => hne h.symm
    have := countP_lt (p := fun y : F × F => decide (y.1 ≤ 0 ∧ b.1 < y.2)) (q := fun y : F × F => decide (y.1 ≤ b.1 ∧ b.1 < y.2)) (l := p) (fun y _ hy => by
      simp only [decide_eq_true_eq] at hy ⊢; exact ⟨hy.1.trans hpos.le, hy.2⟩) hb (by simpa using fun h => absurd h (not_le.2 hpos)) (by simpa using (hp b hb).2)
    have h1 := h b.1 hpos.le
    have h2 := m1 b.1 hpos.le
    omega

/-- If moreover the count is constant, there are no finite bars. -/
theorem bars_const {e : List F} {p : List (F × F)} (he : ∀ x ∈ e, 0 ≤ x) (hp : ∀ b ∈ p, 0 ≤ b.1 ∧ b.1 < b.2) {c : ℕ}
    (h : ∀ s t : F, 0 ≤ s → s ≤ t → (e.countP fun x => x ≤ s) + p.countP (fun b => b.1 ≤ s ∧ t < b.2) = c) :
    e = List.replicate c 0 ∧ p = [] := by
  obtain ⟨h1, h2⟩ := births_zero he hp fun t ht => (h t t ht le_rfl).trans (h 0 t le_rfl ht).symm
  have hp0 : p = [] := by
    rw [List.eq_nil_iff_forall_not_mem]
    intro b hb
    have hb0 := h2 b hb
    have hpos := (hp b hb).2
    rw [hb0] at hpos
    have := countP_lt (p := fun y : F × F => decide (y.1 ≤ 0 ∧ b.2 < y.2)) (q := fun y : F × F => decide (y.1 ≤ 0 ∧ 0 < y.2)) (l := p) (fun y _ hy => by
      simp only [decide_eq_true_eq] at hy ⊢; exact ⟨hy.1, hpos.trans hy.2⟩) hb (by simp) (by simpa [hb0] using hpos)
    have q1 := h 0 0 le_rfl le_rfl
    have q2 := h 0 b.2 le_rfl hpos.le
    omega
  refine ⟨List.eq_replicate_iff.2 ⟨?_, h1⟩, hp0⟩
  have := h 0 0 le_rfl le_rfl
  rw [hp0, List.countP_nil, add_zero, List.countP_eq_length.2 fun x hx => by simp [h1 x hx]] at this
  exact this

end

section
variable {F : Type} [LinearOrder F] [Zero F] [OrderTop F] [StdHeap]
variable {add : F → F → F} {n : ℕ} {edges : List (ℕ × ℕ × F)} {sp : ℕ → ℕ → Option F} {E : List (ℕ × ℕ)}
variable {CF : Type} [NonZeroCoeff CF]

/-- The bars reported in degree 1, by their counts. -/
theorem grpph_bars (K : Type) [Field K] [LawfulCoeff CF K] (hn : n < 65536) (hadd : IsLengthAddition add) (hedges : ∀ e ∈ edges, e.1 < n ∧ e.2.1 < n)
    (hw : ∀ e ∈ edges, 0 ≤ e.2.2)
    (hsp : IsShortestPaths add edges sp) (hperm : E.Perm (buildEdgeSet edges)) :
    ∃ enough, ∀ fuel ≥ enough, ∀ enumE enumP, Enumerates enumE → Enumerates enumP →
      ∃ e1 p1, grpph CF enumE enumP n sp E fuel =
          some ([List.replicate (componentCount n fun a b => ∃ w, (a, b, w) ∈ edges) 0, e1], [[], p1]) ∧
        (∀ x ∈ e1, x = 0) ∧ (∀ b ∈ p1, b.1 = 0 ∧ 0 < b.2) ∧
        ∀ t (ht : 0 ≤ t), groundedBetti1 K (edgeSet edges) n (spTime sp) ht = e1.length + p1.countP (fun b => t < b.2) := by
  obtain ⟨enough, h⟩ := C43_grpph (CF := CF) (K := K) hn hedges hperm
    (fun i j x hx => ((hsp.least i j x hx).1).nonneg hadd hw : ∀ i j x, sp i j = some x → 0 ≤ x) hsp.topClosed
  refine ⟨enough, fun fuel hf enumE enumP hE hP => ?_⟩
  obtain ⟨e0, e1, p0, p1, h1, h2, h3, h4⟩ := h fuel hf enumE enumP hE hP
  obtain ⟨rfl, rfl⟩ := bars_const (e := e0) (p := p0) (c := componentCount n fun a b => ∃ w, (a, b, w) ∈ edges)
    (fun x hx => h2 x (List.mem_append_left _ hx)) (fun b hb => h3 b (List.mem_append_left _ hb)) fun s t hs hst => by
      rw [← (h4 s t hs hst).1]
      exact (groundedBetti0_eq (K := K) (E := edgeSet edges) (time := spTime sp) (fun e he => hedges _ he.choose_spec) hst).trans
        (components_const hedges hsp t)
  have hb : ∀ s t (_ : 0 ≤ s) (hst : s ≤ t), groundedBetti1 K (edgeSet edges) n (spTime sp) hst =
      (e1.countP fun x => x ≤ s) + p1.countP (fun b => b.1 ≤ s ∧ t < b.2) := fun s t hs hst => (h4 s t hs hst).2
  obtain ⟨q1, q2⟩ := births_zero (e := e1) (p := p1) (fun x hx => h2 x (List.mem_append_right _ hx))
    (fun b hb => h3 b (List.mem_append_right _ hb)) fun t ht => by
      rw [← hb t t ht le_rfl, ← hb 0 t le_rfl ht]
      exact groundedBetti1_const hadd hedges hw hsp ht le_rfl
  have q3 : ∀ b ∈ p1, b.1 = 0 ∧ 0 < b.2 := fun b hb => ⟨q2 b hb, by
    have := (h3 b (List.mem_append_right _ hb)).2
    rwa [q2 b hb] at this⟩
  refine ⟨e1, p1, h1, q1, q3, fun t ht => ?_⟩
  rw [hb 0 t le_rfl ht, List.countP_eq_length.2 fun x hx => by simp [q1 x hx]]
  congr 1
  exact List.countP_congr fun b hb => by simp [(q3 b hb).1]

/-- With positive weights, the homology at time 0 is that of the graph. -/
theorem betti_circuit (K : Type) [Field K] (hadd : IsLengthAddition add) (hedges : ∀ e ∈ edges, e.1 < n ∧ e.2.1 < n) (hpos : ∀ e ∈ edges, 0 < e.2.2)
    (hsp : IsShortestPaths add edges sp) :
    groundedBetti1 K (edgeSet edges) n (spTime sp) (le_refl (0 : F)) + n =
      (edgeSet edges).ncard + componentCount n fun a b => ∃ w, (a, b, w) ∈ edges := by
  have harr := arrows_zero hadd hpos hsp (n := n)
  have hG : groundedEdges (edgeSet edges) n (spTime sp) (0 : F) = edgeSet edges := by rw [groundedEdges, harr, Set.union_empty]
  have c2 := circuit_rank (K := K) (n := n) (E := edgeSet edges) fun e he => hedges _ he.choose_spec
  have c3 : groundedBetti1 K (edgeSet edges) n (spTime sp) (le_refl (0 : F)) =
      Module.finrank K ↥(supported K K (edgeSet edges) ⊓ LinearMap.ker (linearCombination K (arrowBoundary K))) := by
    unfold groundedBetti1
    rw [range_quotByMap_same _ _ le_sup_left, groundedB1_bot harr]
    unfold groundedZ1 QuotBy
    rw [hG, Submodule.comap_bot, Submodule.ker_subtype]
    exact (Submodule.quotEquivOfEqBot _ rfl).finrank_eq
  rw [c3]
  exact c2

/-- If a vertex reaches all others, all cycles are boundaries in the end. -/
theorem cycles_rooted (K : Type) [Field K] (hadd : IsLengthAddition add) (hedges : ∀ e ∈ edges, e.1 < n ∧ e.2.1 < n) (hsp : IsShortestPaths add edges sp)
    (hfe : ∀ e ∈ edges, e.1 ≠ e.2.1 ∧ ∃ x, IsWalk add edges e.1 e.2.1 x) {r : ℕ} (hr : r < n) (hreach : ∀ v < n, ∃ x, IsWalk add edges r v x) {t : F}
    (ht : ∀ i < n, ∀ j < n, ∀ x, sp i j = some x → x ≤ t) : groundedZ1 K (edgeSet edges) n (spTime sp) t ≤ groundedB1 K n (spTime sp) t := by
  have harr : ∀ i < n, ∀ j < n, i ≠ j → (∃ x, IsWalk add edges i j x) → (i, j) ∈ arrows n (spTime sp) t := by
    rintro i hi j hj hij ⟨x, hx⟩
    obtain ⟨y, hy⟩ := hsp.reach i j x hx
    exact (hsp.least i j y hy).1.arrow hsp hi hj hij (ht i hi j hj y hy)
  refine rooted_cycles (r := r) (fun a => if_pos rfl) (fun v hv hvr => harr r hr v hv (fun h => hvr h.symm) (hreach v hv)) ?_
  rintro ⟨a, b⟩ ⟨w, hw⟩
  exact harr a (hedges _ hw).1 b (hedges _ hw).2 (hfe _ hw).1 (hfe _ hw).2

/-- C46: with a table of shortest path lengths, `grpph(n, edges)` reports in degree 0 one essential bar born at 0 for each weakly connected
component of the digraph (edges of infinite weight included), and no finite bars. -/
theorem C46_degree_zero (K : Type) [Field K] [LawfulCoeff CF K] (hn : n < 65536) (hadd : IsLengthAddition add)
    (hedges : ∀ e ∈ edges, e.1 < n ∧ e.2.1 < n) (hw : ∀ e ∈ edges, 0 ≤ e.2.2)
    (hsp : IsShortestPaths add edges sp) (hperm : E.Perm (buildEdgeSet edges)) :
    ∃ enough, ∀ fuel ≥ enough, ∀ enumE enumP, Enumerates enumE → Enumerates enumP →
      ∃ e1 p1, grpph CF enumE enumP n sp E fuel =
        some ([List.replicate (componentCount n fun a b => ∃ w, (a, b, w) ∈ edges) 0, e1], [[], p1]) := by
  obtain ⟨enough, h⟩ := grpph_bars (CF := CF) K hn hadd hedges hw hsp hperm
  refine ⟨enough, fun fuel hf enumE enumP hE hP => ?_⟩
  obtain ⟨e1, p1, h1, _⟩ := h fuel hf enumE enumP hE hP
  exact ⟨e1, p1, h1⟩

/-- C47: in degree 1 all bars of `grpph(n, edges)` are born at 0; if weights are positive their number is the circuit rank of the
digraph (number of distinct edges - vertices + weakly connected components); and if there are no self-loops, some vertex can reach every vertex, and the
target of each edge can be reached from its source, all along edges of finite weight, then all bars are finite. -/
theorem C47_degree_one (K : Type) [Field K] [LawfulCoeff CF K] (hn : n < 65536) (hadd : IsLengthAddition add)
    (hedges : ∀ e ∈ edges, e.1 < n ∧ e.2.1 < n) (hw : ∀ e ∈ edges, 0 ≤ e.2.2)
    (hsp : IsShortestPaths add edges sp) (hperm : E.Perm (buildEdgeSet edges)) :
    ∃ enough, ∀ fuel ≥ enough, ∀ enumE enumP, Enumerates enumE → Enumerates enumP →
      ∃ e0 e1 p0 p1, grpph CF enumE enumP n sp E fuel = some ([e0, e1], [p0, p1]) ∧
        (∀ x ∈ e1, x = 0) ∧ (∀ b ∈ p1, b.1 = 0 ∧ 0 < b.2) ∧
        ((∀ e ∈ edges, 0 < e.2.2) →
          e1.length + p1.length + n = {e : ℕ × ℕ | ∃ w, (e.1, e.2, w) ∈ edges}.ncard + componentCount n fun a b => ∃ w, (a, b, w) ∈ edges) ∧
        ((∀ e ∈ edges, e.1 ≠ e.2.1 ∧ ∃ x, IsWalk add edges e.1 e.2.1 x) → (∃ r < n, ∀ v < n, ∃ x, IsWalk add edges r v x) → e1 = []) := by
  classical
  obtain ⟨enough, h⟩ := grpph_bars (CF := CF) K hn hadd hedges hw hsp hperm
  refine ⟨enough, fun fuel hf enumE enumP hE hP => ?_⟩
  obtain ⟨e1, p1, h1, q1, q3, hb⟩ := h fuel hf enumE enumP hE hP
  refine ⟨_, e1, _, p1, h1, q1, q3, ?_, ?_⟩
  · intro hpos
    have c1 := hb 0 le_rfl
    rw [List.countP_eq_length.2 fun b hb => by simp [(q3 b hb).2]] at c1
    rw [← c1]
    exact betti_circuit K hadd hedges hpos hsp
  · intro hfe ⟨r, hr, hreach⟩
    -- a time at which all arrows are there
    obtain ⟨t, ht⟩ : ∃ t : F, ∀ i < n, ∀ j < n, ∀ x, sp i j = some x → x ≤ t := by
      obtain ⟨t, ht⟩ := Finset.exists_le (((Finset.range n) ×ˢ (Finset.range n)).image fun p => (sp p.1 p.2).getD 0)
      refine ⟨t, fun i hi j hj x hx => ht _ (Finset.mem_image.2 ⟨(i, j), by simp [hi, hj], by simp [hx]⟩)⟩
    have h0t : (0 : F) ≤ t := by
      obtain ⟨y, hy⟩ := hsp.reach r r 0 IsWalk.nil
      exact ((hsp.least r r y hy).1.nonneg hadd hw).trans (ht r hr r hr y hy)
    have hz := cycles_rooted K hadd hedges hsp hfe hr hreach ht
    have c1 := hb t h0t
    have c2 : groundedBetti1 K (edgeSet edges) n (spTime sp) h0t = 0 := finrank_range_eq_zero _ _ hz
    rw [c2] at c1
    exact List.length_eq_zero_iff.1 (by omega)

end
end Phlite
