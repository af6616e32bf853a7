/-
C66: the report of `grpph` is stable in the bottleneck distance.
-/
import Verif.Theory.GrPPHBottleneck
import Verif.Props.GrPPHEdges
import Mathlib.Algebra.Order.Ring.Rat
import Mathlib.Algebra.Field.Rat

set_option linter.unusedSectionVars false
set_option linter.unusedSimpArgs false

namespace Phlite

theorem haveBarcodes (K : Type) [Field K] (H : StdHeap) (CF : Type) [NonZeroCoeff CF] [LawfulCoeff CF K] {W : Type} {edges : List (ℕ × ℕ × W)} {n : ℕ}
    (hn : n < 65536) (hedges : ∀ e ∈ edges, e.1 < n ∧ e.2.1 < n) :
    HaveBarcodes K {e : ℕ × ℕ | ∃ w, (e.1, e.2, w) ∈ edges} n 0 ∧ HaveBarcodes K {e : ℕ × ℕ | ∃ w, (e.1, e.2, w) ∈ edges} n 1 := by
  have key : ∀ (G : Type) [LinearOrder G] [Zero G] [OrderTop G] (time : ℕ → ℕ → Option G), (∀ a < n, ∀ b < n, ∀ x, time a b = some x → 0 ≤ x ∧ x < ⊤) →
      (∀ a < n, time a a = none) → (∃ bars, IsGroundedBarcode K {e : ℕ × ℕ | ∃ w, (e.1, e.2, w) ∈ edges} n time 0 bars) ∧
      ∃ bars, IsGroundedBarcode K {e : ℕ × ℕ | ∃ w, (e.1, e.2, w) ∈ edges} n time 1 bars := by
    intro G _ _ _ time h1 h2
    obtain ⟨enough, h⟩ := C55_barcode K H (CF := CF) hn hedges (E := buildEdgeSet edges) (List.Perm.refl _)
      (sp := fun i j => if i < n ∧ j < n then time i j else none) (by
        intro i j x hx
        split at hx
        · rename_i hij
          exact (h1 i hij.1 j hij.2 x hx).1
        · cases hx) (TopClosed.of_finite fun i hi j hj x hx => by
        rw [if_pos ⟨hi, hj⟩] at hx
        exact (h1 i hi j hj x hx).2)
    obtain ⟨e0, e1, p0, p1, -, b0, b1⟩ := h enough le_rfl Finset.toList Finset.toList
      (fun S => ⟨S.nodup_toList, fun _ => Finset.mem_toList⟩) (fun S => ⟨S.nodup_toList, fun _ => Finset.mem_toList⟩)
    have ht : ∀ a < n, ∀ b < n, time ((Equiv.refl ℕ) a) ((Equiv.refl ℕ) b) = if a = b then none else if a < n ∧ b < n then time a b else none := by
      intro a ha b hb
      simp only [Equiv.refl_apply]
      split
      · rename_i e; subst e; exact h2 a ha
      · rw [if_pos ⟨ha, hb⟩]
    have hE0 : ∀ e ∈ {e : ℕ × ℕ | ∃ w, (e.1, e.2, w) ∈ edges}, e.1 < n ∧ e.2 < n := fun e ⟨w, hw⟩ => hedges _ hw
    exact ⟨⟨_, b0.permute (Equiv.refl ℕ) (fun _ => Iff.rfl) hE0 (fun _ _ => Iff.rfl) ht⟩,
      ⟨_, b1.permute (Equiv.refl ℕ) (fun _ => Iff.rfl) hE0 (fun _ _ => Iff.rfl) ht⟩⟩
  exact ⟨fun G _ _ _ time h1 h2 => (key G time h1 h2).1, fun G _ _ _ time h1 h2 => (key G time h1 h2).2⟩

section
variable {F : Type} [Field F] [LinearOrder F] [IsStrictOrderedRing F]

/-- A report whose intervals are those of a barcode in `F` is a list of elements of `F`. -/
theorem report_finite {A : Multiset (F × WithTop F)} (hA : ∀ b ∈ A, (b.1 : WithTop F) < b.2) {e : List (WithTop F)} {p : List (WithTop F × WithTop F)}
    (h : reportIntervals e p = A.map (mapInterval (WithTop.some : F → WithTop F))) :
    ∃ (e' : List F) (p' : List (F × F)), e = e'.map WithTop.some ∧ p = p'.map (fun b => (WithTop.some b.1, WithTop.some b.2)) ∧ reportIntervals e' p' = A := by
  have hmem : ∀ b ∈ reportIntervals e p, ∃ x : F, b.1 = WithTop.some x ∧ (b.2 = ⊤ ∨ ∃ y : F, b.2 = WithTop.some (WithTop.some y)) := by
    intro b hb
    rw [h] at hb
    obtain ⟨⟨x, y⟩, _, rfl⟩ := Multiset.mem_map.1 hb
    refine ⟨x, rfl, ?_⟩
    cases y with
    | top => exact Or.inl rfl
    | coe y => exact Or.inr ⟨y, rfl⟩
  have he : e = (e.map fun x => x.untopD 0).map WithTop.some := by
    rw [List.map_map]
    refine (List.map_id e).symm.trans (List.map_congr_left fun x hx => ?_)
    obtain ⟨y, hy, _⟩ := hmem (x, ⊤) (Multiset.mem_coe.2 (List.mem_append_left _ (List.mem_map.2 ⟨x, hx, rfl⟩)))
    dsimp only at hy
    rw [hy]; rfl
  have hp : p = (p.map fun b => (b.1.untopD 0, b.2.untopD 0)).map (fun b : F × F => (WithTop.some b.1, WithTop.some b.2)) := by
    rw [List.map_map]
    refine (List.map_id p).symm.trans (List.map_congr_left fun x hx => ?_)
    obtain ⟨y, hy, hz⟩ := hmem (x.1, WithTop.some x.2) (Multiset.mem_coe.2 (List.mem_append_right _ (List.mem_map.2 ⟨x, hx, rfl⟩)))
    obtain ⟨x1, x2⟩ := x
    dsimp only at hy hz
    rcases hz with hz | ⟨z, hz⟩
    · exact absurd hz WithTop.coe_ne_top
    · have := WithTop.coe_injective hz
      rw [hy, this]; rfl
  refine ⟨_, _, he, hp, ?_⟩
  have hinj : Function.Injective (mapInterval (WithTop.some : F → WithTop F)) := by
    rintro ⟨a, b⟩ ⟨c, d⟩ hab
    obtain ⟨h1, h2⟩ := Prod.mk.inj hab
    exact Prod.ext (WithTop.coe_injective h1) (WithTop.map_injective WithTop.coe_injective h2)
  apply Multiset.map_injective hinj
  rw [← h]
  conv_rhs => rw [he, hp]
  unfold reportIntervals
  rw [Multiset.map_coe, List.map_append]
  simp only [List.map_map]
  rfl

open Classical in
/-- C66: stability of the report of `grpph`. If two tables of shortest path lengths on the same digraph have finite entries in the same places, and these
differ by at most `δ`, then in both degrees there is a partial matching of the intervals of the two runs in which the end points of matched intervals
differ by at most `δ`, and unmatched intervals have length at most `2 * δ`. (All reported values are finite.) -/
theorem C66_bottleneck (K : Type) [Field K] (H H' : StdHeap) {CF CF' : Type} [NonZeroCoeff CF] [LawfulCoeff CF K] [NonZeroCoeff CF'] [LawfulCoeff CF' K]
    {W W' : Type} {edges : List (ℕ × ℕ × W)} {edges' : List (ℕ × ℕ × W')} {E E' : List (ℕ × ℕ)} {n : ℕ} (hn : n < 65536)
    (hedges : ∀ e ∈ edges, e.1 < n ∧ e.2.1 < n) (hsame : ∀ a b, (∃ w, (a, b, w) ∈ edges') ↔ ∃ w, (a, b, w) ∈ edges)
    (hperm : E.Perm (buildEdgeSet edges)) (hperm' : E'.Perm (buildEdgeSet edges'))
    {sp sp' : ℕ → ℕ → Option F} (hsp : ∀ i j x, sp i j = some x → 0 ≤ x) (hsp' : ∀ i j x, sp' i j = some x → 0 ≤ x) {δ : F} (hδ : 0 ≤ δ)
    (h1 : ∀ i < n, ∀ j < n, ∀ x, sp i j = some x → ∃ y, sp' i j = some y ∧ |x - y| ≤ δ)
    (h2 : ∀ i < n, ∀ j < n, ∀ y, sp' i j = some y → ∃ x, sp i j = some x) :
    ∃ enough, ∀ fuel ≥ enough, ∀ fuel' ≥ enough, ∀ enumE enumP enumE' enumP', Enumerates enumE → Enumerates enumP → Enumerates enumE' → Enumerates enumP' →
      ∃ (e0 e1 e0' e1' : List F) (p0 p1 p0' p1' : List (F × F)),
        (letI := H; grpph CF enumE enumP n (fun i j => (sp i j).map WithTop.some) E fuel) = some ([e0.map WithTop.some, e1.map WithTop.some],
          [p0.map fun b => (WithTop.some b.1, WithTop.some b.2), p1.map fun b => (WithTop.some b.1, WithTop.some b.2)]) ∧
        (letI := H'; grpph CF' enumE' enumP' n (fun i j => (sp' i j).map WithTop.some) E' fuel') = some ([e0'.map WithTop.some, e1'.map WithTop.some],
          [p0'.map fun b => (WithTop.some b.1, WithTop.some b.2), p1'.map fun b => (WithTop.some b.1, WithTop.some b.2)]) ∧
        BottleneckLE δ (reportIntervals e0 p0) (reportIntervals e0' p0') ∧ BottleneckLE δ (reportIntervals e1 p1) (reportIntervals e1' p1') := by
  have hset : {e : ℕ × ℕ | ∃ w, (e.1, e.2, w) ∈ edges'} = {e : ℕ × ℕ | ∃ w, (e.1, e.2, w) ∈ edges} := by
    ext e; exact hsame e.1 e.2
  have hedges' : ∀ e ∈ edges', e.1 < n ∧ e.2.1 < n := by
    rintro ⟨a, b, w⟩ he
    obtain ⟨w', hw⟩ := (hsame a b).1 ⟨w, he⟩
    exact hedges _ hw
  have hsome : ∀ (q : ℕ → ℕ → Option F), (∀ i j x, q i j = some x → 0 ≤ x) →
      ∀ i j x, (q i j).map WithTop.some = some x → 0 ≤ x ∧ x < ⊤ := by
    intro q hq i j x hx
    obtain ⟨y, hy, rfl⟩ := Option.map_eq_some_iff.1 hx
    exact ⟨WithTop.coe_nonneg.2 (hq i j y hy), WithTop.coe_lt_top _⟩
  obtain ⟨n1, r1⟩ := C55_barcode K H (CF := CF) hn hedges hperm (fun i j x hx => (hsome sp hsp i j x hx).1) (TopClosed.of_finite fun i _ j _ x hx => (hsome sp hsp i j x hx).2)
  obtain ⟨n2, r2⟩ := C55_barcode K H' (CF := CF') hn hedges' hperm' (fun i j x hx => (hsome sp' hsp' i j x hx).1) (TopClosed.of_finite fun i _ j _ x hx => (hsome sp' hsp' i j x hx).2)
  rw [hset] at r2
  refine ⟨max n1 n2, fun fuel hf fuel' hf' enumE enumP enumE' enumP' hE hP hE' hP' => ?_⟩
  obtain ⟨e0, e1, p0, p1, a1, a2, a3⟩ := r1 fuel ((le_max_left _ _).trans hf) enumE enumP hE hP
  obtain ⟨e0', e1', p0', p1', b1, b2, b3⟩ := r2 fuel' ((le_max_right _ _).trans hf') enumE' enumP' hE' hP'
  have hE0 : ∀ e ∈ {e : ℕ × ℕ | ∃ w, (e.1, e.2, w) ∈ edges}, e.1 < n ∧ e.2 < n := fun e ⟨w, hw⟩ => hedges _ hw
  obtain ⟨x0, x1⟩ := haveBarcodes K H CF hn hedges
  let S : ℕ → ℕ → Prop := fun a b => a ≠ b ∧ a < n ∧ b < n ∧ (sp a b).isSome
  have hS : ∀ a, ¬ S a a := fun a h => h.1 rfl
  let f : ℕ × ℕ → F := fun e => (sp e.1 e.2).getD 0
  let g : ℕ × ℕ → F := fun e => (sp' e.1 e.2).getD 0
  have hf0 : ∀ e ∈ finiteArrows n S, 0 ≤ f e := by
    intro e _
    simp only [f]
    cases h : sp e.1 e.2 with
    | none => exact le_rfl
    | some x => exact hsp _ _ _ h
  have hg0 : ∀ e ∈ finiteArrows n S, 0 ≤ g e := by
    intro e _
    simp only [g]
    cases h : sp' e.1 e.2 with
    | none => exact le_rfl
    | some x => exact hsp' _ _ _ h
  have hfg : ∀ e ∈ finiteArrows n S, |f e - g e| ≤ δ := by
    intro e he
    obtain ⟨⟨hi, hj⟩, -, -, -, hs⟩ := mem_finiteArrows.1 he
    obtain ⟨x, hx⟩ := Option.isSome_iff_exists.1 hs
    obtain ⟨y, hy, hxy⟩ := h1 _ hi _ hj x hx
    simp only [f, g, hx, hy, Option.getD_some]
    exact hxy
  have tf : ∀ a < n, ∀ b < n, (if a = b then none else (sp a b).map WithTop.some) = (arrowTime S f a b).map WithTop.some := by
    intro a ha b hb
    unfold arrowTime
    by_cases hab : a = b
    · rw [if_pos hab, if_neg (fun h : S a b => h.1 hab)]; rfl
    · rw [if_neg hab]
      cases h : sp a b with
      | none => rw [if_neg (fun hs : S a b => by have := hs.2.2.2; rw [h] at this; cases this)]
      | some x => rw [if_pos (show S a b from ⟨hab, ha, hb, by rw [h]; rfl⟩)]; simp only [f, h, Option.getD_some]
  have tg : ∀ a < n, ∀ b < n, (if a = b then none else (sp' a b).map WithTop.some) = (arrowTime S g a b).map WithTop.some := by
    intro a ha b hb
    unfold arrowTime
    by_cases hab : a = b
    · rw [if_pos hab, if_neg (fun h : S a b => h.1 hab)]; rfl
    · rw [if_neg hab]
      cases h : sp' a b with
      | none =>
        rw [if_neg (fun hs : S a b => by
          obtain ⟨x, hx⟩ := Option.isSome_iff_exists.1 hs.2.2.2
          obtain ⟨y, hy, _⟩ := h1 a ha b hb x hx
          rw [h] at hy; cases hy)]
      | some y =>
        obtain ⟨x, hx⟩ := h2 a ha b hb y h
        rw [if_pos (show S a b from ⟨hab, ha, hb, by rw [hx]; rfl⟩)]; simp only [g, h, Option.getD_some]
  have hmono : Monotone (WithTop.some : F → WithTop F) := fun a b h => WithTop.coe_le_coe.2 h
  have hnoinv : ∀ h : ℕ × ℕ → F, inversions h h (finiteArrows n S ×ˢ finiteArrows n S) = ∅ := by
    intro h
    rw [inversions, Finset.filter_eq_empty_iff]
    rintro x - ⟨q1, q2⟩
    exact lt_irrefl _ (q1.trans q2)
  have bar : ∀ {p : ℕ}, HaveBarcodes K {e : ℕ × ℕ | ∃ w, (e.1, e.2, w) ∈ edges} n p → ∀ (h : ℕ × ℕ → F), (∀ e ∈ finiteArrows n S, 0 ≤ h e) →
      ∀ (q : ℕ → ℕ → Option F), (∀ a < n, ∀ b < n, (if a = b then none else (q a b).map WithTop.some) = (arrowTime S h a b).map WithTop.some) →
      ∀ (e : List (WithTop F)) (l : List (WithTop F × WithTop F)),
        IsGroundedBarcode K {e : ℕ × ℕ | ∃ w, (e.1, e.2, w) ∈ edges} n (fun i j => if i = j then none else (q i j).map WithTop.some) p (reportIntervals e l) →
      ∃ (e' : List F) (l' : List (F × F)), e = e'.map WithTop.some ∧ l = l'.map (fun b => (WithTop.some b.1, WithTop.some b.2)) ∧
        IsGroundedBarcode K {e : ℕ × ℕ | ∃ w, (e.1, e.2, w) ∈ edges} n (arrowTime S h) p (reportIntervals e' l') := by
    intro p hex h h0 q hq e l hb
    obtain ⟨A, _, hA, _, _⟩ := grounded_step hex hE0 hS (le_refl (0 : F)) h0 h0 (hnoinv h) (by simp)
    have hA' := hA.rescale hmono rfl hE0 (time' := fun i j => if i = j then none else (q i j).map WithTop.some) hq
    have hu := hb.unique hA'
    rw [Multiset.filter_eq_self.2] at hu
    · obtain ⟨e', l', q1, q2, q3⟩ := report_finite hA.nonempty hu
      exact ⟨e', l', q1, q2, by rw [q3]; exact hA⟩
    · intro b hb
      obtain ⟨c, hc, rfl⟩ := Multiset.mem_map.1 hb
      have := hA.nonempty c hc
      obtain ⟨x, y⟩ := c
      cases y with
      | top => exact WithTop.coe_lt_top _
      | coe y => exact WithTop.coe_lt_coe.2 (by simpa [mapInterval] using this)
  obtain ⟨e0F, p0F, rfl, rfl, c0⟩ := bar x0 f hf0 sp tf e0 p0 a2
  obtain ⟨e1F, p1F, rfl, rfl, c1⟩ := bar x1 f hf0 sp tf e1 p1 a3
  obtain ⟨e0F', p0F', rfl, rfl, d0⟩ := bar x0 g hg0 sp' tg e0' p0' b2
  obtain ⟨e1F', p1F', rfl, rfl, d1⟩ := bar x1 g hg0 sp' tg e1' p1' b3
  exact ⟨e0F, e1F, e0F', e1F', p0F, p1F, p0F', p1F', a1, b1, grounded_bottleneck x0 hE0 hS hδ hf0 hg0 hfg c0 d0, grounded_bottleneck x1 hE0 hS hδ hf0 hg0 hfg c1 d1⟩

/-- The addition of `WithTop F`. -/
theorem withTop_add : IsLengthAddition (fun x y : WithTop F => x + y) :=
  ⟨fun w => zero_add w, fun _ _ w h => add_le_add_left h w, fun _ _ h => le_add_of_nonneg_right h, fun _ _ h => le_add_of_nonneg_left h⟩

theorem withTop_walk {edges : List (ℕ × ℕ × WithTop F)} {i j : ℕ} {x : WithTop F} (h : IsWalk (fun x y : WithTop F => x + y) edges i j x) : x < ⊤ := by
  induction h with
  | nil => exact WithTop.coe_lt_top _
  | snoc _ _ hw ih => exact WithTop.add_lt_top.2 ⟨ih, hw⟩

/-- A path along edges whose weights change by at most `δ` changes by at most `δ` per edge. -/
theorem stretch_path {edges edges' : List (ℕ × ℕ × WithTop F)} {δ : F}
    (h : ∀ a b (w : F), (a, b, (w : WithTop F)) ∈ edges → ∃ w' : F, (a, b, (w' : WithTop F)) ∈ edges' ∧ w' ≤ w + δ) {j : ℕ} (l : List (ℕ × ℕ × WithTop F)) :
    ∀ {i : ℕ} (x y c : WithTop F), y ≤ x + c → EdgePath edges i l j →
      ∃ l', EdgePath edges' i l' j ∧ pathLength (fun x y => x + y) y l' ≤ pathLength (fun x y => x + y) x l + (c + ((l.length • δ : F) : WithTop F)) := by
  induction l with
  | nil =>
    intro i x y c hy hp
    exact ⟨[], hp, by simpa [pathLength] using hy⟩
  | cons e l ih =>
    intro i x y c hy hp
    obtain ⟨a, b, w⟩ := e
    obtain ⟨rfl, q2, q3, q4⟩ := hp
    dsimp only at q2 q3 q4
    lift w to F using q3.ne
    obtain ⟨w', hw', hle⟩ := h a b w q2
    obtain ⟨l', r1, r2⟩ := ih (x + w) (y + w') (c + δ) (by
      calc y + (w' : WithTop F) ≤ (x + c) + ((w + δ : F) : WithTop F) := add_le_add hy (WithTop.coe_le_coe.2 hle)
        _ = x + w + (c + δ) := by rw [WithTop.coe_add]; abel) q4
    refine ⟨(a, b, w') :: l', ⟨rfl, hw', WithTop.coe_lt_top _, r1⟩, ?_⟩
    show pathLength _ (y + w') l' ≤ pathLength _ (x + w) l + _
    refine r2.trans (le_of_eq ?_)
    rw [List.length_cons, succ_nsmul, WithTop.coe_add]
    abel

/-- C66 from the list of edges: if the two digraphs have edges in the same places, and the finite weights differ by at most `δ` and are non-negative, then the
intervals that `grpph` reports for them are matched up to `(n - 1) * δ` (a shortest path has at most `n - 1` edges). -/
theorem C66_weights (K : Type) [Field K] (H H' : StdHeap) {CF CF' : Type} [NonZeroCoeff CF] [LawfulCoeff CF K] [NonZeroCoeff CF'] [LawfulCoeff CF' K]
    {edges edges' : List (ℕ × ℕ × WithTop F)} {adj adj' : List (ℕ × ℕ × WithTop F) → ℕ → List (ℕ × ℕ × WithTop F)} {order order' : List (ℕ × ℕ) → List (ℕ × ℕ)} {n : ℕ}
    (hn : n < 65536) (hadj : IsAdjacency adj) (hadj' : IsAdjacency adj') (horder : ∀ l, (order l).Perm l) (horder' : ∀ l, (order' l).Perm l)
    (hedges : ∀ e ∈ edges, e.1 < n ∧ e.2.1 < n) (hw : ∀ e ∈ edges, 0 ≤ e.2.2) (hw' : ∀ e ∈ edges', 0 ≤ e.2.2)
    (hsame : ∀ a b, (∃ w, (a, b, w) ∈ edges') ↔ ∃ w, (a, b, w) ∈ edges) {δ : F} (hδ : 0 ≤ δ)
    (h1 : ∀ a b (w : F), (a, b, (w : WithTop F)) ∈ edges → ∃ w' : F, (a, b, (w' : WithTop F)) ∈ edges' ∧ w' ≤ w + δ)
    (h2 : ∀ a b (w : F), (a, b, (w : WithTop F)) ∈ edges' → ∃ w' : F, (a, b, (w' : WithTop F)) ∈ edges ∧ w' ≤ w + δ) :
    ∃ enough, ∀ fuel ≥ enough, ∀ fuel' ≥ enough, ∀ fuelD ≥ edges.length + 2, ∀ fuelD' ≥ edges'.length + 2,
      ∀ enumE enumP enumE' enumP', Enumerates enumE → Enumerates enumP → Enumerates enumE' → Enumerates enumP' →
      ∃ (e0 e1 e0' e1' : List F) (p0 p1 p0' p1' : List (F × F)),
        (letI := H; grpphEdges CF (fun x y => x + y) adj order enumE enumP n edges fuelD fuel) = some ([e0.map WithTop.some, e1.map WithTop.some],
          [p0.map fun b => (WithTop.some b.1, WithTop.some b.2), p1.map fun b => (WithTop.some b.1, WithTop.some b.2)]) ∧
        (letI := H'; grpphEdges CF' (fun x y => x + y) adj' order' enumE' enumP' n edges' fuelD' fuel') = some ([e0'.map WithTop.some, e1'.map WithTop.some],
          [p0'.map fun b => (WithTop.some b.1, WithTop.some b.2), p1'.map fun b => (WithTop.some b.1, WithTop.some b.2)]) ∧
        BottleneckLE ((n - 1 : ℕ) * δ) (reportIntervals e0 p0) (reportIntervals e0' p0') ∧
        BottleneckLE ((n - 1 : ℕ) * δ) (reportIntervals e1 p1) (reportIntervals e1' p1') := by
  have hedges' : ∀ e ∈ edges', e.1 < n ∧ e.2.1 < n := by
    rintro ⟨a, b, w⟩ he
    obtain ⟨w', hm⟩ := (hsame a b).1 ⟨w, he⟩
    exact hedges (a, b, w') hm
  obtain ⟨sp, hsp⟩ := exists_shortestPaths withTop_add hw
  obtain ⟨sp', hsp'⟩ := exists_shortestPaths withTop_add hw'
  have key : ∀ {es es' : List (ℕ × ℕ × WithTop F)} {q q' : ℕ → ℕ → Option (WithTop F)}, IsShortestPaths (fun x y => x + y) es q →
      IsShortestPaths (fun x y => x + y) es' q' → (∀ e ∈ es, e.1 < n ∧ e.2.1 < n) → (∀ e ∈ es, 0 ≤ e.2.2) →
      (∀ a b (w : F), (a, b, (w : WithTop F)) ∈ es → ∃ w' : F, (a, b, (w' : WithTop F)) ∈ es' ∧ w' ≤ w + δ) →
      ∀ i < n, ∀ j x, q i j = some x → ∃ y, q' i j = some y ∧ y ≤ x + (((n - 1 : ℕ) * δ : F) : WithTop F) := by
    intro es es' q q' hq hq' hes hws hst i hi j x hx
    obtain ⟨l, hl, hlx⟩ := isWalk_iff.1 (hq.least i j x hx).1
    obtain ⟨m, m1, m2, m3⟩ := exists_simple withTop_add hws l hl
    have hlen : m.length ≤ n - 1 := by
      have : (i :: m.map fun e => e.2.1).length ≤ (List.range n).length := (m3.subperm fun v hv => by
        rw [List.mem_range]
        rcases List.mem_cons.1 hv with rfl | hv
        · exact hi
        · obtain ⟨e, he, rfl⟩ := List.mem_map.1 hv
          exact (hes e (edgePath_mem m1 e he)).2).length_le
      rw [List.length_cons, List.length_map, List.length_range] at this
      omega
    obtain ⟨l', r1, r2⟩ := stretch_path hst m 0 0 0 (by simp) m1
    obtain ⟨y, hy⟩ := hq'.reach i j _ (isWalk_iff.2 ⟨l', r1, rfl⟩)
    refine ⟨y, hy, ((hq'.least i j y hy).2 (isWalk_iff.2 ⟨l', r1, rfl⟩)).trans (r2.trans ?_)⟩
    refine add_le_add (m2.trans hlx.le) ?_
    rw [zero_add]
    refine WithTop.coe_le_coe.2 ?_
    rw [nsmul_eq_mul]
    exact mul_le_mul_of_nonneg_right (Nat.cast_le.2 hlen) hδ
  have fin : ∀ {es : List (ℕ × ℕ × WithTop F)} {q : ℕ → ℕ → Option (WithTop F)}, IsShortestPaths (fun x y => x + y) es q →
      (fun i j => ((q i j).map fun x => x.untopD 0).map WithTop.some) = q := by
    intro es q hq
    funext i j
    cases h : q i j with
    | none => rfl
    | some x =>
      have := withTop_walk (hq.least i j x h).1
      lift x to F using this.ne
      rfl
  have non : ∀ {es : List (ℕ × ℕ × WithTop F)} {q : ℕ → ℕ → Option (WithTop F)}, IsShortestPaths (fun x y => x + y) es q → (∀ e ∈ es, 0 ≤ e.2.2) →
      ∀ i j x, (q i j).map (fun x => x.untopD 0) = some x → 0 ≤ x := by
    intro es q hq hws i j x hx
    obtain ⟨y, hy, rfl⟩ := Option.map_eq_some_iff.1 hx
    have h0 := (hq.least i j y hy).1.nonneg withTop_add hws
    have := withTop_walk (hq.least i j y hy).1
    lift y to F using this.ne
    exact WithTop.coe_nonneg.1 h0
  have k1 := key hsp hsp' hedges hw h1
  have k2 := key hsp' hsp hedges' hw' h2
  obtain ⟨enough, h⟩ := C66_bottleneck K H H' (CF := CF) (CF' := CF') hn hedges hsame (horder (buildEdgeSet edges)) (horder' (buildEdgeSet edges'))
    (sp := fun i j => (sp i j).map fun x => x.untopD 0) (sp' := fun i j => (sp' i j).map fun x => x.untopD 0) (non hsp hw) (non hsp' hw')
    (δ := ((n - 1 : ℕ) : F) * δ) (mul_nonneg (Nat.cast_nonneg _) hδ) (by
      intro i hi j hj x hx
      obtain ⟨y, hy, rfl⟩ := Option.map_eq_some_iff.1 hx
      obtain ⟨z, hz, hzy⟩ := k1 i hi j y hy
      obtain ⟨y', hy', hyz⟩ := k2 i hi j z hz
      rw [hy] at hy'
      obtain rfl := Option.some.inj hy'
      have t1 := withTop_walk (hsp.least i j y hy).1
      have t2 := withTop_walk (hsp'.least i j z hz).1
      lift y to F using t1.ne
      lift z to F using t2.ne
      rw [← WithTop.coe_add, WithTop.coe_le_coe] at hzy hyz
      refine ⟨z, by rw [hz]; rfl, ?_⟩
      show |y - z| ≤ _
      rw [abs_le]
      constructor <;> linarith) (by
      intro i hi j hj y hy
      obtain ⟨z, hz, rfl⟩ := Option.map_eq_some_iff.1 hy
      obtain ⟨x, hx, _⟩ := k2 i hi j z hz
      exact ⟨x.untopD 0, by rw [hx]; rfl⟩)
  refine ⟨enough, fun fuel hf fuel' hf' fuelD hD fuelD' hD' enumE enumP enumE' enumP' hE hP hE' hP' => ?_⟩
  rw [(@C61_runs _ _ _ _ H n _ edges adj order sp CF _ withTop_add hadj hw hsp fuelD hD enumE enumP (fun _ => []) fuel fun _ => 0).1,
    (@C61_runs _ _ _ _ H' n _ edges' adj' order' sp' CF' _ withTop_add hadj' hw' hsp' fuelD' hD' enumE' enumP' (fun _ => []) fuel' fun _ => 0).1]
  have := h fuel hf fuel' hf' enumE enumP enumE' enumP' hE hP hE' hP'
  rwa [fin hsp, fin hsp'] at this

end

namespace BottleneckExample

/-- A directed square with a chord, and a detour of infinite weight. -/
def edges : List (ℕ × ℕ × WithTop ℚ) := [(0, 1, (1 : ℚ)), (1, 2, (1 : ℚ)), (2, 3, (2 : ℚ)), (3, 0, (1 : ℚ)), (1, 3, (5 / 2 : ℚ)), (3, 1, ⊤)]

/-- The same digraph with two weights changed: now the chord is a shortest path. -/
def edges' : List (ℕ × ℕ × WithTop ℚ) := [(0, 1, (1 : ℚ)), (1, 2, (5 / 4 : ℚ)), (2, 3, (2 : ℚ)), (3, 0, (3 / 4 : ℚ)), (1, 3, (5 / 2 : ℚ)), (3, 1, ⊤)]

/-- The hypotheses of C66_weights hold with `δ = 1 / 4`. -/
example : (∀ e ∈ edges, e.1 < 4 ∧ e.2.1 < 4) ∧ (∀ e ∈ edges, 0 ≤ e.2.2) ∧ (∀ e ∈ edges', 0 ≤ e.2.2) ∧
    (∀ a b, (∃ w, (a, b, w) ∈ edges') ↔ ∃ w, (a, b, w) ∈ edges) ∧
    (∀ a b (w : ℚ), (a, b, (w : WithTop ℚ)) ∈ edges → ∃ w' : ℚ, (a, b, (w' : WithTop ℚ)) ∈ edges' ∧ w' ≤ w + 1 / 4) ∧
    (∀ a b (w : ℚ), (a, b, (w : WithTop ℚ)) ∈ edges' → ∃ w' : ℚ, (a, b, (w' : WithTop ℚ)) ∈ edges ∧ w' ≤ w + 1 / 4) := by
  refine ⟨by decide +kernel, by decide +kernel, by decide +kernel, ?_, ?_, ?_⟩
  · intro a b
    have h : edges'.map (fun e => (e.1, e.2.1)) = edges.map fun e => (e.1, e.2.1) := by decide +kernel
    have h' : ∀ es : List (ℕ × ℕ × WithTop ℚ), (∃ w, (a, b, w) ∈ es) ↔ (a, b) ∈ es.map fun e => (e.1, e.2.1) := by
      intro es
      rw [List.mem_map]
      constructor
      · rintro ⟨w, hw⟩; exact ⟨_, hw, rfl⟩
      · rintro ⟨⟨c, d, w⟩, hw, e⟩
        obtain ⟨rfl, rfl⟩ := Prod.mk.inj e
        exact ⟨w, hw⟩
    rw [h', h', h]
  · intro a b w h
    have key : ∀ e ∈ edges, e.2.2 ≠ ⊤ → ∃ e' ∈ edges', e'.1 = e.1 ∧ e'.2.1 = e.2.1 ∧ e'.2.2 ≠ ⊤ ∧ e'.2.2 ≤ e.2.2 + ((1 / 4 : ℚ) : WithTop ℚ) := by decide +kernel
    obtain ⟨⟨a', b', w'⟩, h1, h2, h3, h4, h5⟩ := key _ h WithTop.coe_ne_top
    dsimp only at h2 h3 h4 h5
    subst h2 h3
    lift w' to ℚ using h4
    exact ⟨w', h1, by rwa [← WithTop.coe_add, WithTop.coe_le_coe] at h5⟩
  · intro a b w h
    have key : ∀ e ∈ edges', e.2.2 ≠ ⊤ → ∃ e' ∈ edges, e'.1 = e.1 ∧ e'.2.1 = e.2.1 ∧ e'.2.2 ≠ ⊤ ∧ e'.2.2 ≤ e.2.2 + ((1 / 4 : ℚ) : WithTop ℚ) := by decide +kernel
    obtain ⟨⟨a', b', w'⟩, h1, h2, h3, h4, h5⟩ := key _ h WithTop.coe_ne_top
    dsimp only at h2 h3 h4 h5
    subst h2 h3
    lift w' to ℚ using h4
    exact ⟨w', h1, by rwa [← WithTop.coe_add, WithTop.coe_le_coe] at h5⟩

/-- Adjacency lists in the order of the list of edges. -/
def inOrder (l : List (ℕ × ℕ × WithTop ℚ)) (u : ℕ) : List (ℕ × ℕ × WithTop ℚ) := l.filter fun e => e.1 = u

set_option synthInstance.maxSize 2000 in
set_option synthInstance.maxHeartbeats 200000 in
/-- The two runs: one death moves by 1/4 (the bound of the theorem is 3/4). -/
example : (letI := listHeap; grpphEdges Z2 (fun x y => x + y) inOrder id GrPPHExample.enumE GrPPHExample.enumP 4 edges 10 100) =
      some ([[0], []], [[], [(0, WithTop.some (2 : ℚ)), (0, WithTop.some (5 / 2 : ℚ)), (0, WithTop.some (5 / 2 : ℚ))]]) ∧
    (letI := listHeap; grpphEdges Z2 (fun x y => x + y) inOrder id GrPPHExample.enumE GrPPHExample.enumP 4 edges' 10 100) =
      some ([[0], []], [[], [(0, WithTop.some (7 / 4 : ℚ)), (0, WithTop.some (5 / 2 : ℚ)), (0, WithTop.some (5 / 2 : ℚ))]]) := by
  decide +kernel

end BottleneckExample
end Phlite
