/-
Property theorems C55 and C56: the report of `grpph` does not depend on the order of the edges, the names of the vertices or iteration orders, follows
monotone changes of scale, and is stable.
-/
import Verif.Theory.GrPPHInvariance
import Verif.Theory.ShortestPaths
import Verif.Props.GrPPHGraphs

set_option linter.unusedSectionVars false
set_option linter.unusedSimpArgs false

namespace Phlite

section
variable {F : Type} [LinearOrder F]

theorem aliveBars_report [Zero F] (e : List F) (p : List (F × F)) (s t : F) :
    aliveBars (reportIntervals e p) s t = (e.countP fun x => x ≤ s) + p.countP fun b => b.1 ≤ s ∧ t < b.2 := by
  unfold aliveBars reportIntervals
  rw [Multiset.coe_countP, List.countP_append, List.countP_map, List.countP_map]
  congr 1
  · exact List.countP_congr fun x _ => by simp
  · exact List.countP_congr fun x _ => by simp

/-- The intervals determine the lists up to their order. -/
theorem report_perm [Zero F] {e e' : List F} {p p' : List (F × F)} (h : reportIntervals e p = reportIntervals e' p') : e.Perm e' ∧ p.Perm p' := by
  have key : ∀ (e : List F) (p : List (F × F)), ((reportIntervals e p).filter fun b => b.2 = ⊤).map Prod.fst = (e : Multiset F) ∧
      (((reportIntervals e p).filter fun b => ¬ b.2 = ⊤).map fun b => (b.1, b.2.untopD 0)) = (p : Multiset (F × F)) := by
    intro e p
    have t1 : ∀ b ∈ e.map fun x : F => (x, (⊤ : WithTop F)), b.2 = ⊤ := by
      intro b hb
      obtain ⟨x, _, rfl⟩ := List.mem_map.1 hb
      rfl
    have t2 : ∀ b ∈ p.map fun b : F × F => (b.1, (b.2 : WithTop F)), ¬ b.2 = ⊤ := by
      intro b hb
      obtain ⟨x, _, rfl⟩ := List.mem_map.1 hb
      exact WithTop.coe_ne_top
    unfold reportIntervals
    constructor
    · rw [Multiset.filter_coe, Multiset.map_coe, List.filter_append, List.filter_eq_self.2 (by simpa using t1), List.filter_eq_nil_iff.2 (by simpa using t2),
        List.append_nil, List.map_map]
      congr 1
      exact List.map_id _
    · rw [Multiset.filter_coe, Multiset.map_coe, List.filter_append, List.filter_eq_nil_iff.2 (by simpa using t1), List.filter_eq_self.2 (by simpa using t2),
        List.nil_append, List.map_map]
      congr 1
      exact List.map_id _
  constructor
  · rw [← Multiset.coe_eq_coe, ← (key e p).1, ← (key e' p').1, h]
  · rw [← Multiset.coe_eq_coe, ← (key e p).2, ← (key e' p').2, h]

end

section
variable {F : Type} [LinearOrder F] [Zero F] [OrderTop F] {n : ℕ}

/-- C55: the lists returned by `grpph(n, edges)` in degrees 0 and 1 are the barcodes of grounded persistent path homology. -/
theorem C55_barcode (K : Type) [Field K] (H : StdHeap) {CF : Type} [NonZeroCoeff CF] [LawfulCoeff CF K] {W : Type} {edges : List (ℕ × ℕ × W)}
    {E : List (ℕ × ℕ)} (hn : n < 65536) (hedges : ∀ e ∈ edges, e.1 < n ∧ e.2.1 < n) (hperm : E.Perm (buildEdgeSet edges))
    {sp : ℕ → ℕ → Option F} (hsp : ∀ i j x, sp i j = some x → 0 ≤ x) (htop : TopClosed n sp) :
    ∃ enough, ∀ fuel ≥ enough, ∀ enumE enumP, Enumerates enumE → Enumerates enumP →
      ∃ e0 e1 p0 p1, grpph CF enumE enumP n sp E fuel = some ([e0, e1], [p0, p1]) ∧
        IsGroundedBarcode K {e : ℕ × ℕ | ∃ w, (e.1, e.2, w) ∈ edges} n (fun i j => if i = j then none else sp i j) 0 (reportIntervals e0 p0) ∧
        IsGroundedBarcode K {e : ℕ × ℕ | ∃ w, (e.1, e.2, w) ∈ edges} n (fun i j => if i = j then none else sp i j) 1 (reportIntervals e1 p1) := by
  obtain ⟨enough, h⟩ := C43_grpph (CF := CF) (K := K) hn hedges hperm hsp htop
  refine ⟨enough, fun fuel hf enumE enumP hE hP => ?_⟩
  obtain ⟨e0, e1, p0, p1, h1, h2, h3, h4⟩ := h fuel hf enumE enumP hE hP
  refine ⟨e0, e1, p0, p1, h1, ⟨?_, ?_, ?_⟩, ⟨?_, ?_, ?_⟩⟩
  · intro b hb
    rcases List.mem_append.1 (Multiset.mem_coe.1 hb) with hb | hb <;> obtain ⟨x, hx, rfl⟩ := List.mem_map.1 hb
    · exact h2 x (List.mem_append_left _ hx)
    · exact (h3 x (List.mem_append_left _ hx)).1
  · intro b hb
    rcases List.mem_append.1 (Multiset.mem_coe.1 hb) with hb | hb <;> obtain ⟨x, hx, rfl⟩ := List.mem_map.1 hb
    · exact WithTop.coe_lt_top _
    · exact WithTop.coe_lt_coe.2 (h3 x (List.mem_append_left _ hx)).2
  · intro s t hs hst
    rw [aliveBars_report, if_pos rfl]
    exact (h4 s t hs hst).1.symm
  · intro b hb
    rcases List.mem_append.1 (Multiset.mem_coe.1 hb) with hb | hb <;> obtain ⟨x, hx, rfl⟩ := List.mem_map.1 hb
    · exact h2 x (List.mem_append_right _ hx)
    · exact (h3 x (List.mem_append_right _ hx)).1
  · intro b hb
    rcases List.mem_append.1 (Multiset.mem_coe.1 hb) with hb | hb <;> obtain ⟨x, hx, rfl⟩ := List.mem_map.1 hb
    · exact WithTop.coe_lt_top _
    · exact WithTop.coe_lt_coe.2 (h3 x (List.mem_append_right _ hx)).2
  · intro s t hs hst
    rw [aliveBars_report, if_neg (by decide)]
    exact (h4 s t hs hst).2.symm

/-- C55: the names of the vertices are immaterial. If the second edge list is obtained from the first by renaming the vertices by a permutation `π` of
`0, ..., n - 1`, in any order and with any repetitions, and so are the shortest path lengths, then the two runs return the same numbers in each degree, up to
their order; whatever the iteration orders of the hash sets, the tie-breaking of the heaps and the coefficient types for the field `K`. -/
theorem C55_relabel (K : Type) [Field K] (H H' : StdHeap) {CF CF' : Type} [NonZeroCoeff CF] [LawfulCoeff CF K] [NonZeroCoeff CF'] [LawfulCoeff CF' K]
    {W : Type} {edges edges' : List (ℕ × ℕ × W)} {E E' : List (ℕ × ℕ)} (hn : n < 65536) (hedges : ∀ e ∈ edges, e.1 < n ∧ e.2.1 < n)
    (hperm : E.Perm (buildEdgeSet edges)) (hperm' : E'.Perm (buildEdgeSet edges')) (π : Equiv.Perm ℕ) (hπ : ∀ v, v < n ↔ π v < n)
    (hren : ∀ a b, (∃ w, (π a, π b, w) ∈ edges') ↔ ∃ w, (a, b, w) ∈ edges)
    {sp sp' : ℕ → ℕ → Option F} (hsp : ∀ i j x, sp i j = some x → 0 ≤ x) (htop : TopClosed n sp) (hsp' : ∀ i j x, sp' i j = some x → 0 ≤ x)
    (hspr : ∀ i < n, ∀ j < n, sp' (π i) (π j) = sp i j) :
    ∃ enough, ∀ fuel ≥ enough, ∀ fuel' ≥ enough, ∀ enumE enumP enumE' enumP', Enumerates enumE → Enumerates enumP → Enumerates enumE' → Enumerates enumP' →
      ∃ e0 e1 p0 p1 e0' e1' p0' p1', (letI := H; grpph CF enumE enumP n sp E fuel) = some ([e0, e1], [p0, p1]) ∧
        (letI := H'; grpph CF' enumE' enumP' n sp' E' fuel') = some ([e0', e1'], [p0', p1']) ∧
        e0.Perm e0' ∧ e1.Perm e1' ∧ p0.Perm p0' ∧ p1.Perm p1' := by
  have hedges' : ∀ e ∈ edges', e.1 < n ∧ e.2.1 < n := by
    rintro ⟨a, b, w⟩ he
    obtain ⟨w', hw⟩ := (hren (π.symm a) (π.symm b)).1 ⟨w, by simpa using he⟩
    have := hedges _ hw
    exact ⟨by simpa using (hπ _).1 this.1, by simpa using (hπ _).1 this.2⟩
  have htop' : TopClosed n sp' := by
    intro a ha b hb c hc hac x y hx hy hxy
    have hs : ∀ v, v < n → π.symm v < n := fun v hv => (hπ _).2 (by simpa using hv)
    have e : ∀ i < n, ∀ j < n, sp' i j = sp (π.symm i) (π.symm j) := fun i hi j hj => by
      have := hspr (π.symm i) (hs i hi) (π.symm j) (hs j hj)
      simpa using this
    rw [e a ha b hb] at hx
    rw [e b hb c hc] at hy
    rw [e a ha c hc]
    exact htop _ (hs a ha) _ (hs b hb) _ (hs c hc) (fun h => hac (π.symm.injective h)) x y hx hy hxy
  obtain ⟨n1, r1⟩ := C55_barcode K H (CF := CF) hn hedges hperm hsp htop
  obtain ⟨n2, r2⟩ := C55_barcode K H' (CF := CF') hn hedges' hperm' hsp' htop'
  refine ⟨max n1 n2, fun fuel hf fuel' hf' enumE enumP enumE' enumP' hE hP hE' hP' => ?_⟩
  obtain ⟨e0, e1, p0, p1, a1, a2, a3⟩ := r1 fuel ((le_max_left _ _).trans hf) enumE enumP hE hP
  obtain ⟨e0', e1', p0', p1', b1, b2, b3⟩ := r2 fuel' ((le_max_right _ _).trans hf') enumE' enumP' hE' hP'
  have hE0 : ∀ e ∈ {e : ℕ × ℕ | ∃ w, (e.1, e.2, w) ∈ edges}, e.1 < n ∧ e.2 < n := fun e ⟨w, hw⟩ => hedges _ hw
  have ht : ∀ a < n, ∀ b < n, (if π a = π b then none else sp' (π a) (π b)) = if a = b then none else sp a b := by
    intro a ha b hb
    simp only [π.injective.eq_iff, hspr a ha b hb]
  have q0 := report_perm (a2.permute π hπ hE0 hren ht |>.unique b2)
  have q1 := report_perm (a3.permute π hπ hE0 hren ht |>.unique b3)
  exact ⟨e0, e1, p0, p1, e0', e1', p0', p1', a1, b1, q0.1, q1.1, q0.2, q1.2⟩

/-! ### Weighted digraphs -/

theorem IsWalk.rename {add : F → F → F} {edges edges' : List (ℕ × ℕ × F)} {π : ℕ → ℕ} (h : ∀ a b w, (a, b, w) ∈ edges → (π a, π b, w) ∈ edges') {i j : ℕ}
    {x : F} (hw : IsWalk add edges i j x) : IsWalk add edges' (π i) (π j) x := by
  induction hw with
  | nil => exact .nil
  | snoc _ he ht ih => exact .snoc ih (h _ _ _ he) ht

/-- C55 for weighted digraphs: if the second edge list is the first one with the vertices renamed (and the edges in any order, with any repetitions),
then `grpph` returns the same numbers up to their order. -/
theorem C55_digraph (K : Type) [Field K] (H H' : StdHeap) {CF CF' : Type} [NonZeroCoeff CF] [LawfulCoeff CF K] [NonZeroCoeff CF'] [LawfulCoeff CF' K]
    {add : F → F → F} {edges edges' : List (ℕ × ℕ × F)} {E E' : List (ℕ × ℕ)} (hn : n < 65536) (hedges : ∀ e ∈ edges, e.1 < n ∧ e.2.1 < n)
    (hperm : E.Perm (buildEdgeSet edges)) (hperm' : E'.Perm (buildEdgeSet edges')) (π : Equiv.Perm ℕ) (hπ : ∀ v, v < n ↔ π v < n)
    (hren : ∀ a b w, (π a, π b, w) ∈ edges' ↔ (a, b, w) ∈ edges)
    {sp sp' : ℕ → ℕ → Option F} (hsp : IsShortestPaths add edges sp) (hsp' : IsShortestPaths add edges' sp') (h0 : ∀ i j x, sp i j = some x → 0 ≤ x) :
    ∃ enough, ∀ fuel ≥ enough, ∀ fuel' ≥ enough, ∀ enumE enumP enumE' enumP', Enumerates enumE → Enumerates enumP → Enumerates enumE' → Enumerates enumP' →
      ∃ e0 e1 p0 p1 e0' e1' p0' p1', (letI := H; grpph CF enumE enumP n sp E fuel) = some ([e0, e1], [p0, p1]) ∧
        (letI := H'; grpph CF' enumE' enumP' n sp' E' fuel') = some ([e0', e1'], [p0', p1']) ∧
        e0.Perm e0' ∧ e1.Perm e1' ∧ p0.Perm p0' ∧ p1.Perm p1' := by
  have hw : ∀ i j x, IsWalk add edges' (π i) (π j) x ↔ IsWalk add edges i j x := by
    intro i j x
    constructor
    · intro h
      have := h.rename (π := π.symm) (edges' := edges) fun a b w hm => (hren _ _ _).1 (by simpa using hm)
      simpa using this
    · exact fun h => h.rename fun a b w hm => (hren _ _ _).2 hm
  have hspr : ∀ i j, sp' (π i) (π j) = sp i j := by
    intro i j
    cases h : sp i j with
    | some x =>
      have hx := hsp.least i j x h
      obtain ⟨y, hy⟩ := hsp'.reach (π i) (π j) x ((hw i j x).2 hx.1)
      have hy' := hsp'.least _ _ _ hy
      rw [hy]
      congr 1
      exact le_antisymm (hy'.2 ((hw i j x).2 hx.1)) (hx.2 ((hw i j y).1 hy'.1))
    | none =>
      cases h' : sp' (π i) (π j) with
      | none => rfl
      | some y =>
        obtain ⟨x, hx⟩ := hsp.reach i j y ((hw i j y).1 (hsp'.least _ _ _ h').1)
        rw [h] at hx; cases hx
  refine C55_relabel K H H' hn hedges hperm hperm' π hπ (fun a b => exists_congr fun w => hren a b w) h0 hsp.topClosed ?_ fun i _ j _ => hspr i j
  intro i j x hx
  refine h0 (π.symm i) (π.symm j) x ?_
  rw [← hspr]
  simpa using hx

/-! ### C56 -/

open Classical in
/-- C56: transforming all shortest path lengths by a monotone function with `φ 0 = 0` (a change of units, rounding, ...) transforms the end points of
the intervals by that function; intervals that become empty disappear. -/
theorem C56_rescale {G : Type} [LinearOrder G] [Zero G] [OrderTop G] (K : Type) [Field K] (H H' : StdHeap) {CF CF' : Type} [NonZeroCoeff CF] [LawfulCoeff CF K]
    [NonZeroCoeff CF'] [LawfulCoeff CF' K] {W : Type} {edges : List (ℕ × ℕ × W)} {E E' : List (ℕ × ℕ)} (hn : n < 65536)
    (hedges : ∀ e ∈ edges, e.1 < n ∧ e.2.1 < n) (hperm : E.Perm (buildEdgeSet edges)) (hperm' : E'.Perm (buildEdgeSet edges))
    {sp : ℕ → ℕ → Option F} (hsp : ∀ i j x, sp i j = some x → 0 ≤ x) (htop : TopClosed n sp) {φ : F → G} (hφ : Monotone φ) (h0 : φ 0 = 0) (hφ' : ∀ x < ⊤, φ x < ⊤) :
    ∃ enough, ∀ fuel ≥ enough, ∀ fuel' ≥ enough, ∀ enumE enumP enumE' enumP', Enumerates enumE → Enumerates enumP → Enumerates enumE' → Enumerates enumP' →
      ∃ e0 e1 p0 p1 e0' e1' p0' p1', (letI := H; grpph CF enumE enumP n sp E fuel) = some ([e0, e1], [p0, p1]) ∧
        (letI := H'; grpph CF' enumE' enumP' n (fun i j => (sp i j).map φ) E' fuel') = some ([e0', e1'], [p0', p1']) ∧
        e0'.Perm (e0.map φ) ∧ e1'.Perm (e1.map φ) ∧
        p0'.Perm ((p0.map fun b => (φ b.1, φ b.2)).filter fun b => b.1 < b.2) ∧ p1'.Perm ((p1.map fun b => (φ b.1, φ b.2)).filter fun b => b.1 < b.2) := by
  have hsp' : ∀ i j x, (sp i j).map φ = some x → 0 ≤ x := by
    intro i j x hx
    obtain ⟨y, hy, rfl⟩ := Option.map_eq_some_iff.1 hx
    rw [← h0]; exact hφ (hsp i j y hy)
  have htop' : TopClosed n fun i j => (sp i j).map φ := by
    intro a ha b hb c hc hac x y hx hy hxy
    obtain ⟨x, hx', rfl⟩ := Option.map_eq_some_iff.1 hx
    obtain ⟨y, hy', rfl⟩ := Option.map_eq_some_iff.1 hy
    have ht : ∀ z, φ z = ⊤ → z = ⊤ := fun z hz => by
      by_contra h
      exact (hφ' z (lt_top_iff_ne_top.2 h)).ne hz
    obtain ⟨z, hz⟩ := htop a ha b hb c hc hac x y hx' hy' (hxy.imp (ht _) (ht _))
    exact ⟨φ z, by simp only [hz, Option.map_some]⟩
  obtain ⟨n1, r1⟩ := C55_barcode K H (CF := CF) hn hedges hperm hsp htop
  obtain ⟨n2, r2⟩ := C55_barcode K H' (CF := CF') hn hedges hperm' (sp := fun i j => (sp i j).map φ) hsp' htop'
  refine ⟨max n1 n2, fun fuel hf fuel' hf' enumE enumP enumE' enumP' hE hP hE' hP' => ?_⟩
  obtain ⟨e0, e1, p0, p1, a1, a2, a3⟩ := r1 fuel ((le_max_left _ _).trans hf) enumE enumP hE hP
  obtain ⟨e0', e1', p0', p1', b1, b2, b3⟩ := r2 fuel' ((le_max_right _ _).trans hf') enumE' enumP' hE' hP'
  have hE0 : ∀ e ∈ {e : ℕ × ℕ | ∃ w, (e.1, e.2, w) ∈ edges}, e.1 < n ∧ e.2 < n := fun e ⟨w, hw⟩ => hedges _ hw
  have ht : ∀ a < n, ∀ b < n, (if a = b then none else (sp a b).map φ) = (if a = b then none else sp a b).map φ := by
    intro a ha b hb
    split <;> rfl
  have hrep : ∀ (e : List F) (p : List (F × F)), ((reportIntervals e p).map (mapInterval φ)).filter (fun b : G × WithTop G => (b.1 : WithTop G) < b.2) =
      reportIntervals (e.map φ) ((p.map fun b => (φ b.1, φ b.2)).filter fun b => b.1 < b.2) := by
    intro e p
    unfold reportIntervals
    rw [Multiset.map_coe, Multiset.filter_coe, List.map_append, List.filter_append, List.map_map, List.map_map]
    congr 2
    · rw [List.filter_eq_self.2]
      · rw [List.map_map]; rfl
      · intro b hb
        obtain ⟨x, _, rfl⟩ := List.mem_map.1 hb
        simp [mapInterval]
    · rw [List.filter_map, List.filter_map, List.map_map]
      congr 1
      refine List.filter_congr fun b _ => ?_
      simp [mapInterval]
  have q0 := report_perm ((b2.unique (a2.rescale hφ h0 hE0 ht)).trans (hrep e0 p0))
  have q1 := report_perm ((b3.unique (a3.rescale hφ h0 hE0 ht)).trans (hrep e1 p1))
  exact ⟨e0, e1, p0, p1, e0', e1', p0', p1', a1, b1, q0.1, q1.1, q0.2, q1.2⟩

/-- C56: stability. Let `δ` be a bound for the change of lengths (adding `ε`, multiplying by a factor, ...): monotone with `x ≤ δ x`. If two tables of shortest
path lengths on the same digraph have finite entries in the same places, each at most `δ` of the other, then in both degrees every bar of the second run that
contains `[s, δ t]` is matched by one of the first that contains `[δ s, t]`, in number. -/
theorem C56_stability (K : Type) [Field K] (H H' : StdHeap) {CF CF' : Type} [NonZeroCoeff CF] [LawfulCoeff CF K] [NonZeroCoeff CF'] [LawfulCoeff CF' K]
    {W W' : Type} {edges : List (ℕ × ℕ × W)} {edges' : List (ℕ × ℕ × W')} {E E' : List (ℕ × ℕ)} (hn : n < 65536)
    (hedges : ∀ e ∈ edges, e.1 < n ∧ e.2.1 < n) (hsame : ∀ a b, (∃ w, (a, b, w) ∈ edges') ↔ ∃ w, (a, b, w) ∈ edges)
    (hperm : E.Perm (buildEdgeSet edges)) (hperm' : E'.Perm (buildEdgeSet edges'))
    {sp sp' : ℕ → ℕ → Option F} (hsp : ∀ i j x, sp i j = some x → 0 ≤ x) (hsp' : ∀ i j x, sp' i j = some x → 0 ≤ x) (htop : TopClosed n sp) (htop' : TopClosed n sp')
    {δ : F → F} (hδ : Monotone δ) (hδ' : ∀ x, x ≤ δ x)
    (h1 : ∀ i < n, ∀ j < n, ∀ x, sp i j = some x → ∃ y, sp' i j = some y ∧ y ≤ δ x)
    (h2 : ∀ i < n, ∀ j < n, ∀ x, sp' i j = some x → ∃ y, sp i j = some y ∧ y ≤ δ x) :
    ∃ enough, ∀ fuel ≥ enough, ∀ fuel' ≥ enough, ∀ enumE enumP enumE' enumP', Enumerates enumE → Enumerates enumP → Enumerates enumE' → Enumerates enumP' →
      ∃ e0 e1 p0 p1 e0' e1' p0' p1', (letI := H; grpph CF enumE enumP n sp E fuel) = some ([e0, e1], [p0, p1]) ∧
        (letI := H'; grpph CF' enumE' enumP' n sp' E' fuel') = some ([e0', e1'], [p0', p1']) ∧
        ∀ s t, δ s ≤ t → aliveBars (reportIntervals e0' p0') s (δ t) ≤ aliveBars (reportIntervals e0 p0) (δ s) t ∧
          aliveBars (reportIntervals e1' p1') s (δ t) ≤ aliveBars (reportIntervals e1 p1) (δ s) t := by
  have hset : {e : ℕ × ℕ | ∃ w, (e.1, e.2, w) ∈ edges'} = {e : ℕ × ℕ | ∃ w, (e.1, e.2, w) ∈ edges} := by
    ext e; exact hsame e.1 e.2
  have hedges' : ∀ e ∈ edges', e.1 < n ∧ e.2.1 < n := by
    rintro ⟨a, b, w⟩ he
    obtain ⟨w', hw⟩ := (hsame a b).1 ⟨w, he⟩
    exact hedges _ hw
  obtain ⟨n1, r1⟩ := C55_barcode K H (CF := CF) hn hedges hperm hsp htop
  obtain ⟨n2, r2⟩ := C55_barcode K H' (CF := CF') hn hedges' hperm' hsp' htop'
  rw [hset] at r2
  refine ⟨max n1 n2, fun fuel hf fuel' hf' enumE enumP enumE' enumP' hE hP hE' hP' => ?_⟩
  obtain ⟨e0, e1, p0, p1, a1, a2, a3⟩ := r1 fuel ((le_max_left _ _).trans hf) enumE enumP hE hP
  obtain ⟨e0', e1', p0', p1', b1, b2, b3⟩ := r2 fuel' ((le_max_right _ _).trans hf') enumE' enumP' hE' hP'
  refine ⟨e0, e1, p0, p1, e0', e1', p0', p1', a1, b1, fun s t hst => ?_⟩
  have hE0 : ∀ e ∈ {e : ℕ × ℕ | ∃ w, (e.1, e.2, w) ∈ edges}, e.1 < n ∧ e.2 < n := fun e ⟨w, hw⟩ => hedges _ hw
  have k1 : ∀ i < n, ∀ j < n, ∀ x, (if i = j then none else sp' i j) = some x → x ≤ s → ∃ y, (if i = j then none else sp i j) = some y ∧ y ≤ δ s := by
    intro i hi j hj x hx hxs
    split at hx
    · cases hx
    · rename_i hij
      obtain ⟨y, hy, hyx⟩ := h2 i hi j hj x hx
      exact ⟨y, by rw [if_neg hij]; exact hy, hyx.trans (hδ hxs)⟩
  have k2 : ∀ i < n, ∀ j < n, ∀ x, (if i = j then none else sp i j) = some x → x ≤ t → ∃ y, (if i = j then none else sp' i j) = some y ∧ y ≤ δ t := by
    intro i hi j hj x hx hxs
    split at hx
    · cases hx
    · rename_i hij
      obtain ⟨y, hy, hyx⟩ := h1 i hi j hj x hx
      exact ⟨y, by rw [if_neg hij]; exact hy, hyx.trans (hδ hxs)⟩
  exact ⟨a2.stable hE0 b2 (hδ' s) hst (hδ' t) k1 k2, a3.stable hE0 b3 (hδ' s) hst (hδ' t) k1 k2⟩

theorem IsWalk.stretch {add : F → F → F} {edges edges' : List (ℕ × ℕ × F)} {δ : F → F} (hadd : ∀ x y v w, x ≤ y → v ≤ w → add x v ≤ add y w)
    (h0 : 0 ≤ δ 0) (hδ : ∀ x w, add (δ x) (δ w) ≤ δ (add x w)) (h : ∀ a b w, (a, b, w) ∈ edges → w < ⊤ → ∃ w' ≤ δ w, w' < ⊤ ∧ (a, b, w') ∈ edges') {i j : ℕ}
    {x : F} (hw : IsWalk add edges i j x) : ∃ y ≤ δ x, IsWalk add edges' i j y := by
  induction hw with
  | nil => exact ⟨0, h0, .nil⟩
  | snoc _ he ht ih =>
    obtain ⟨y, hy, hy'⟩ := ih
    obtain ⟨w', h1, h2, h3⟩ := h _ _ _ he ht
    exact ⟨_, (hadd _ _ _ _ hy h1).trans (hδ _ _), .snoc hy' h3 h2⟩

/-- C56 for weights: if the edges have finite weights in the same places, each at most `δ` of the other, where `δ` is monotone with `x ≤ δ x` and
superadditive (multiplying by a factor `≥ 1`), then the bars of the two runs are interleaved by `δ`. -/
theorem C56_weights (K : Type) [Field K] (H H' : StdHeap) {CF CF' : Type} [NonZeroCoeff CF] [LawfulCoeff CF K] [NonZeroCoeff CF'] [LawfulCoeff CF' K]
    {add : F → F → F} {edges edges' : List (ℕ × ℕ × F)} {E E' : List (ℕ × ℕ)} (hn : n < 65536)
    (hedges : ∀ e ∈ edges, e.1 < n ∧ e.2.1 < n) (hsame : ∀ a b, (∃ w, (a, b, w) ∈ edges') ↔ ∃ w, (a, b, w) ∈ edges)
    (hperm : E.Perm (buildEdgeSet edges)) (hperm' : E'.Perm (buildEdgeSet edges'))
    {sp sp' : ℕ → ℕ → Option F} (hsp : IsShortestPaths add edges sp) (hsp' : IsShortestPaths add edges' sp')
    (h0 : ∀ i j x, sp i j = some x → 0 ≤ x) (h0' : ∀ i j x, sp' i j = some x → 0 ≤ x)
    (hadd : ∀ x y v w, x ≤ y → v ≤ w → add x v ≤ add y w)
    {δ : F → F} (hδ : Monotone δ) (hδ' : ∀ x, x ≤ δ x) (hδa : ∀ x w, add (δ x) (δ w) ≤ δ (add x w))
    (h1 : ∀ a b w, (a, b, w) ∈ edges → w < ⊤ → ∃ w' ≤ δ w, w' < ⊤ ∧ (a, b, w') ∈ edges')
    (h2 : ∀ a b w, (a, b, w) ∈ edges' → w < ⊤ → ∃ w' ≤ δ w, w' < ⊤ ∧ (a, b, w') ∈ edges) :
    ∃ enough, ∀ fuel ≥ enough, ∀ fuel' ≥ enough, ∀ enumE enumP enumE' enumP', Enumerates enumE → Enumerates enumP → Enumerates enumE' → Enumerates enumP' →
      ∃ e0 e1 p0 p1 e0' e1' p0' p1', (letI := H; grpph CF enumE enumP n sp E fuel) = some ([e0, e1], [p0, p1]) ∧
        (letI := H'; grpph CF' enumE' enumP' n sp' E' fuel') = some ([e0', e1'], [p0', p1']) ∧
        ∀ s t, δ s ≤ t → aliveBars (reportIntervals e0' p0') s (δ t) ≤ aliveBars (reportIntervals e0 p0) (δ s) t ∧
          aliveBars (reportIntervals e1' p1') s (δ t) ≤ aliveBars (reportIntervals e1 p1) (δ s) t := by
  have key : ∀ {es es' : List (ℕ × ℕ × F)} {q q' : ℕ → ℕ → Option F}, IsShortestPaths add es q → IsShortestPaths add es' q' →
      (∀ a b w, (a, b, w) ∈ es → w < ⊤ → ∃ w' ≤ δ w, w' < ⊤ ∧ (a, b, w') ∈ es') → ∀ i j x, q i j = some x → ∃ y, q' i j = some y ∧ y ≤ δ x := by
    intro es es' q q' hq hq' h i j x hx
    obtain ⟨y, hy, hy'⟩ := (hq.least i j x hx).1.stretch hadd (hδ' 0) hδa h
    obtain ⟨z, hz⟩ := hq'.reach i j y hy'
    exact ⟨z, hz, ((hq'.least i j z hz).2 hy').trans hy⟩
  exact C56_stability K H H' hn hedges hsame hperm hperm' h0 h0' hsp.topClosed hsp'.topClosed hδ hδ' (fun i _ j _ x hx => key hsp hsp' h1 i j x hx)
    fun i _ j _ x hx => key hsp' hsp h2 i j x hx

end

namespace GraphExample

/-- The edges of the example with the vertices 0 and 5 exchanged, in another order, and one edge twice. -/
def edges' : List (ℕ × ℕ × WithTop ℕ) := ((edges.map fun e => (Equiv.swap 0 5 e.1, Equiv.swap 0 5 e.2.1, e.2.2)).reverse) ++
  (edges.map fun e => (Equiv.swap 0 5 e.1, Equiv.swap 0 5 e.2.1, e.2.2)).take 1

/-- The hypotheses of C55_digraph hold. -/
example : (∀ v, v < 6 ↔ Equiv.swap 0 5 v < 6) ∧ (∀ a b w, (Equiv.swap 0 5 a, Equiv.swap 0 5 b, w) ∈ edges' ↔ (a, b, w) ∈ edges) ∧
    ∃ sp', IsShortestPaths (fun x y => x + y) edges' sp' := by
  refine ⟨?_, ?_, (natTop_shortestPaths _).imp fun _ h => h.1⟩
  · intro v
    rw [Equiv.swap_apply_def]
    split
    · omega
    split <;> omega
  · intro a b w
    have : ∀ x : ℕ × ℕ × WithTop ℕ, x ∈ edges' ↔ ∃ e ∈ edges, (Equiv.swap 0 5 e.1, Equiv.swap 0 5 e.2.1, e.2.2) = x := by
      intro x
      unfold edges'
      rw [List.mem_append, List.mem_reverse, List.mem_map]
      constructor
      · rintro (h | h)
        · exact h
        · exact List.mem_map.1 (List.mem_of_mem_take h)
      · exact Or.inl
    rw [this]
    constructor
    · rintro ⟨⟨c, d, v⟩, he, h⟩
      simp only [Prod.mk.injEq, (Equiv.injective _).eq_iff] at h
      obtain ⟨rfl, rfl, rfl⟩ := h
      exact he
    · exact fun h => ⟨_, h, rfl⟩

/-- Its shortest path lengths. -/
def sp' (i j : ℕ) : Option (WithTop ℕ) := sp (Equiv.swap 0 5 i) (Equiv.swap 0 5 j)

set_option synthInstance.maxSize 2000 in
set_option synthInstance.maxHeartbeats 200000 in
/-- The run with the vertices renamed returns the same bars. -/
example : (letI := listHeap; grpph Z2 GrPPHExample.enumE GrPPHExample.enumP 6 sp' (buildEdgeSet edges') 100) =
    some ([[0, 0, 0], []], [[], [(0, 10), (0, 1)]]) := by
  decide +kernel

/-- The hypotheses of C56_weights hold if each weight is at most doubled (`δ x = 2 x`). -/
example : ∃ (edges₂ : List (ℕ × ℕ × WithTop ℕ)) (δ : WithTop ℕ → WithTop ℕ), edges₂ ≠ edges ∧ Monotone δ ∧ (∀ x, x ≤ δ x) ∧
    (∀ x w, δ x + δ w ≤ δ (x + w)) ∧
    (∀ a b w, (a, b, w) ∈ edges → w < ⊤ → ∃ w' ≤ δ w, w' < ⊤ ∧ (a, b, w') ∈ edges₂) ∧
    (∀ a b w, (a, b, w) ∈ edges₂ → w < ⊤ → ∃ w' ≤ δ w, w' < ⊤ ∧ (a, b, w') ∈ edges) := by
  refine ⟨edges.map fun e => (e.1, e.2.1, e.2.2 + e.2.2), fun x => x + x, by decide, fun x y h => add_le_add h h, fun x => le_add_of_nonneg_right bot_le,
    fun x w => (add_add_add_comm x x w w).le, ?_, ?_⟩
  · intro a b w he hw
    exact ⟨w + w, le_rfl, WithTop.add_lt_top.2 ⟨hw, hw⟩, List.mem_map.2 ⟨_, he, rfl⟩⟩
  · intro a b w he hw
    obtain ⟨⟨c, d, v⟩, hm, h⟩ := List.mem_map.1 he
    simp only [Prod.mk.injEq] at h
    obtain ⟨rfl, rfl, rfl⟩ := h
    refine ⟨v, ?_, (WithTop.add_lt_top.1 hw).1, hm⟩
    calc v ≤ v + v := le_add_of_nonneg_right bot_le
      _ ≤ _ := le_add_of_nonneg_right bot_le

end GraphExample
end Phlite
