/-
Property theorems C59: the reduction for any digraph filtration (vector or hash map), and the assertions of the example program and the end-to-end tests for
every number of vertices.
-/
import Verif.Props.GrPPHGraphs
import Verif.Props.GrPPHInvariance
import Verif.Model.GrPPHMain

set_option linter.unusedSectionVars false
set_option linter.unusedSimpArgs false

namespace Phlite
open OrderDual (toDual ofDual)

section
variable {F : Type} [LinearOrder F] [Zero F] [OrderTop F] {n : ℕ}

/-! ### The loops -/

theorem pushBar_two {α : Type} {a b : List α} {d : ℕ} {x : α} {r : List (List α)} (h : pushBar [a, b] d x = some r) :
    ∃ a' b', r = [a', b'] ∧ a'.length + b'.length = a.length + b.length + 1 := by
  unfold pushBar at h
  split at h
  · rename_i hd
    cases h
    have : d = 0 ∨ d = 1 := by simp at hd; omega
    rcases this with rfl | rfl
    · exact ⟨a ++ [x], b, rfl, by simp; omega⟩
    · exact ⟨a, b ++ [x], rfl, by simp; omega⟩
  · cases h

theorem reportEssential_count {filt : PathHomCell → Option F} (l : List PathHomCellᵒᵈ) : ∀ {a b e0 e1 : List F},
    l.foldlM (fun essential idx => (filt (ofDual idx)).bind fun f_val => pushBar essential (ofDual idx).dimension f_val) [a, b] = some [e0, e1] →
    printEssential filt l = some () ∧ e0.length + e1.length = a.length + b.length + l.length := by
  induction l with
  | nil =>
    intro a b e0 e1 h
    simp only [List.foldlM_nil, pure, Option.some.injEq, List.cons.injEq, and_true] at h
    obtain ⟨rfl, rfl⟩ := h
    exact ⟨rfl, by simp⟩
  | cons x l ih =>
    intro a b e0 e1 h
    rw [List.foldlM_cons] at h
    obtain ⟨r, h1, h2⟩ := Option.bind_eq_some_iff.1 h
    obtain ⟨v, h3, h4⟩ := Option.bind_eq_some_iff.1 h1
    obtain ⟨a', b', rfl, hl⟩ := pushBar_two h4
    obtain ⟨q1, q2⟩ := ih h2
    refine ⟨?_, by rw [List.length_cons]; omega⟩
    unfold printEssential at q1 ⊢
    rw [List.foldlM_cons, h3]
    exact q1

theorem reportPairings_count {filt : PathHomCell → Option F} (l : List (PathHomCellᵒᵈ × PathHomCellᵒᵈ)) : ∀ {a b p0 p1 : List (F × F)} (c : ℕ),
    l.foldlM (fun pairings p => (filt (ofDual p.2)).bind fun birth_f => (filt (ofDual p.1)).bind fun death_f =>
      if death_f = birth_f then some pairings else pushBar pairings (ofDual p.2).dimension (birth_f, death_f)) [a, b] = some [p0, p1] →
    ∃ c', l.foldlM (fun count p => (filt (ofDual p.2)).bind fun birth_f => (filt (ofDual p.1)).bind fun death_f =>
      if death_f = birth_f then some count else some (count + 1)) c = some c' ∧ p0.length + p1.length + c = a.length + b.length + c' := by
  induction l with
  | nil =>
    intro a b p0 p1 c h
    simp only [List.foldlM_nil, pure, Option.some.injEq, List.cons.injEq, and_true] at h
    obtain ⟨rfl, rfl⟩ := h
    exact ⟨c, rfl, rfl⟩
  | cons x l ih =>
    intro a b p0 p1 c h
    rw [List.foldlM_cons] at h
    obtain ⟨r, h1, h2⟩ := Option.bind_eq_some_iff.1 h
    obtain ⟨v, h3, h4⟩ := Option.bind_eq_some_iff.1 h1
    obtain ⟨u, h5, h6⟩ := Option.bind_eq_some_iff.1 h4
    by_cases hvu : u = v
    · rw [if_pos hvu] at h6
      cases h6
      obtain ⟨c', q1, q2⟩ := ih c h2
      refine ⟨c', ?_, q2⟩
      rw [List.foldlM_cons, h3, Option.bind_some, h5, Option.bind_some, if_pos hvu]
      exact q1
    · rw [if_neg hvu] at h6
      obtain ⟨a', b', rfl, hl⟩ := pushBar_two h6
      obtain ⟨c', q1, q2⟩ := ih (c + 1) h2
      refine ⟨c', ?_, by omega⟩
      rw [List.foldlM_cons, h3, Option.bind_some, h5, Option.bind_some, if_neg hvu]
      exact q1

/-- The number of finite and of infinite intervals. -/
def finiteBars (bars : Multiset (F × WithTop F)) : ℕ := bars.countP fun b => b.2 ≠ ⊤

/-- The number of infinite intervals. -/
def infiniteBars (bars : Multiset (F × WithTop F)) : ℕ := bars.countP fun b => b.2 = ⊤

theorem finiteBars_report (e : List F) (p : List (F × F)) : finiteBars (reportIntervals e p) = p.length := by
  unfold finiteBars reportIntervals
  rw [Multiset.coe_countP, List.countP_append, List.countP_map, List.countP_map]
  simp [Function.comp_def]

theorem infiniteBars_report (e : List F) (p : List (F × F)) : infiniteBars (reportIntervals e p) = e.length := by
  unfold infiniteBars reportIntervals
  rw [Multiset.coe_countP, List.countP_append, List.countP_map, List.countP_map]
  simp [Function.comp_def]

variable [StdHeap] {CF : Type} [NonZeroCoeff CF]

/-- C59: for any digraph filtration (a vector or a hash map, anything for which `edge_time` does not panic on the vertices, without self-loops and with finite
non-negative times) and any edge set on these vertices, building the coboundary and reducing its reverse in degrees 0 and 1 terminates without panicking,
and the number of pairs with different filtration values and the number of essential cells of the diagram are the numbers of finite and of infinite intervals
in the barcodes of grounded persistent path homology in degrees 0 and 1. -/
theorem C59_filtration (K : Type) [Field K] [LawfulCoeff CF K] {et : EdgeTime F} {time : ℕ → ℕ → Option F} {E : List (ℕ × ℕ)}
    (h : IsDigraphFiltration et n time) (h0 : ∀ a < n, ∀ b < n, ∀ x, time a b = some x → 0 ≤ x) (hE : E.Nodup) (hEn : ∀ e ∈ E, e.1 < n ∧ e.2 < n) :
    ∃ enough, ∀ fuel ≥ enough, ∀ enumE enumP, Enumerates enumE → Enumerates enumP →
      ∃ bars0 bars1, IsGroundedBarcode K {e | e ∈ E} n time 0 bars0 ∧ IsGroundedBarcode K {e | e ∈ E} n time 1 bars1 ∧
        grpphDemo CF enumE enumP et E n fuel = some (finiteBars bars0 + finiteBars bars1, infiniteBars bars0 + infiniteBars bars1) := by
  obtain ⟨D, dgm, ⟨enough, hrun⟩, hfilt, hP, hrep⟩ := grpphRun_reports (CF := CF) (K := K) h hE hEn
  refine ⟨enough, fun fuel hf enumE enumP hEe hEp => ?_⟩
  obtain ⟨e0, e1, h1, h2, _, h34, h5⟩ := hrep _ _ (hEe dgm.essential) (hEp dgm.pairings)
  obtain ⟨h3, h4⟩ := h34 h0
  set p0 := barsIn (grpphF et E) (enumP dgm.pairings) 0
  set p1 := barsIn (grpphF et E) (enumP dgm.pairings) 1
  refine ⟨reportIntervals e0 p0, reportIntervals e1 p1, ⟨?_, ?_, ?_⟩, ⟨?_, ?_, ?_⟩, ?_⟩
  · intro b hb
    rcases List.mem_append.1 (Multiset.mem_coe.1 hb) with hb | hb <;> obtain ⟨x, hx, rfl⟩ := List.mem_map.1 hb
    · exact h3 x (List.mem_append_left _ hx)
    · exact (h4 x (List.mem_append_left _ hx)).1
  · intro b hb
    rcases List.mem_append.1 (Multiset.mem_coe.1 hb) with hb | hb <;> obtain ⟨x, hx, rfl⟩ := List.mem_map.1 hb
    · exact WithTop.coe_lt_top _
    · exact WithTop.coe_lt_coe.2 (h4 x (List.mem_append_left _ hx)).2
  · intro s t hs hst
    rw [aliveBars_report, if_pos rfl]
    exact (h5 s t hs hst).1.symm
  · intro b hb
    rcases List.mem_append.1 (Multiset.mem_coe.1 hb) with hb | hb <;> obtain ⟨x, hx, rfl⟩ := List.mem_map.1 hb
    · exact h3 x (List.mem_append_right _ hx)
    · exact (h4 x (List.mem_append_right _ hx)).1
  · intro b hb
    rcases List.mem_append.1 (Multiset.mem_coe.1 hb) with hb | hb <;> obtain ⟨x, hx, rfl⟩ := List.mem_map.1 hb
    · exact WithTop.coe_lt_top _
    · exact WithTop.coe_lt_coe.2 (h4 x (List.mem_append_right _ hx)).2
  · intro s t hs hst
    rw [aliveBars_report, if_neg (by decide)]
    exact (h5 s t hs hst).2.symm
  · rw [finiteBars_report, finiteBars_report, infiniteBars_report, infiniteBars_report]
    obtain ⟨q1, q2⟩ := reportEssential_count _ h1
    obtain ⟨c, q3, q4⟩ := reportPairings_count _ 0 h2
    have hcard : (enumE dgm.essential).length = dgm.essential.card := by
      classical
      rw [← List.toFinset_card_of_nodup (hEe dgm.essential).1]
      congr 1
      ext x
      rw [List.mem_toFinset, (hEe dgm.essential).2]
    unfold grpphDemo
    rw [hrun fuel hf, Option.bind_some, q1, Option.bind_some]
    have : countPairings D.filt (enumP dgm.pairings) = some c := q3
    rw [this, Option.map_some]
    simp only [List.length_nil] at q2 q4
    rw [← hcard]
    congr 2 <;> omega

/-- The result for filtrations and edge sets for which the barcodes are known. -/
theorem grpphDemo_of_barcode (K : Type) [Field K] [LawfulCoeff CF K] {et : EdgeTime F} {time time' : ℕ → ℕ → Option F} {E : List (ℕ × ℕ)} {E' : Set (ℕ × ℕ)}
    (h : IsDigraphFiltration et n time) (hn0 : ∀ a < n, ∀ b < n, ∀ x, time a b = some x → 0 ≤ x) (hE : E.Nodup) (hEn : ∀ e ∈ E, e.1 < n ∧ e.2 < n) (hE' : ∀ e, e ∈ E ↔ e ∈ E')
    (ht : ∀ a < n, ∀ b < n, time a b = time' a b) {bars0 bars1 : Multiset (F × WithTop F)} (h0 : IsGroundedBarcode K E' n time' 0 bars0)
    (h1 : IsGroundedBarcode K E' n time' 1 bars1) :
    ∃ enough, ∀ fuel ≥ enough, ∀ enumE enumP, Enumerates enumE → Enumerates enumP →
      grpphDemo CF enumE enumP et E n fuel = some (finiteBars bars0 + finiteBars bars1, infiniteBars bars0 + infiniteBars bars1) := by
  obtain ⟨enough, hrun⟩ := C59_filtration (CF := CF) K h hn0 hE hEn
  refine ⟨enough, fun fuel hf enumE enumP hEe hEp => ?_⟩
  obtain ⟨b0, b1, q0, q1, hr⟩ := hrun fuel hf enumE enumP hEe hEp
  have key : ∀ {p : ℕ} {b b' : Multiset (F × WithTop F)}, IsGroundedBarcode K {e | e ∈ E} n time p b → IsGroundedBarcode K E' n time' p b' → b = b' := by
    intro p b b' hb hb'
    exact (hb.permute (Equiv.refl ℕ) (fun _ => Iff.rfl) hEn (fun a b => (hE' (a, b)).symm) fun a ha b hb => (ht a ha b hb).symm).unique hb'
  rw [hr, key q0 h0, key q1 h1]

/-! ### Complete digraphs -/

/-- An addition of lengths. -/
theorem maxAddition : IsLengthAddition (F := F) fun x w => if x ≤ 0 then w else max x w where
  zero_add w := by simp
  mono x y w h := by
    by_cases h1 : y ≤ 0
    · rw [if_pos h1, if_pos (h.trans h1)]
    · rw [if_neg h1]
      split
      · exact le_max_right _ _
      · exact max_le_max h le_rfl
  le_add_right x w h := by
    split
    · rename_i h1; exact h1.trans h
    · exact le_max_left _ _
  le_add_left x w h := by
    split
    · exact le_rfl
    · exact le_max_right _ _

theorem mem_completeEdges {a b : ℕ} {x w : F} : (a, b, x) ∈ completeEdges n w ↔ a < n ∧ b < n ∧ a ≠ b ∧ x = w := by
  unfold completeEdges
  simp only [List.mem_map, List.mem_filter, List.mem_flatMap, List.mem_range, Prod.mk.injEq, decide_eq_true_eq]
  constructor
  · rintro ⟨e, ⟨⟨i, hi, j, hj, rfl⟩, h1⟩, rfl, rfl, rfl⟩
    exact ⟨hi, hj, h1, rfl⟩
  · rintro ⟨h1, h2, h3, rfl⟩
    exact ⟨(a, b), ⟨⟨a, h1, b, h2, rfl⟩, h3⟩, rfl, rfl, rfl⟩

/-- The barcodes of the complete digraph. -/
theorem complete_barcode (K : Type) [Field K] [LawfulCoeff CF K] (hn : n < 65536) (hn1 : 1 ≤ n) {w : F} (hw : 0 < w) (hw' : w < ⊤) :
    IsGroundedBarcode K {e | e.1 < n ∧ e.2 < n ∧ e.1 ≠ e.2} n (fun i j => if i = j then none else some w) 0 (reportIntervals [0] []) ∧
    IsGroundedBarcode K {e | e.1 < n ∧ e.2 < n ∧ e.1 ≠ e.2} n (fun i j => if i = j then none else some w) 1
      (reportIntervals [] (List.replicate (n * (n - 1) + 1 - n) (0, w))) := by
  have hed : ∀ e ∈ completeEdges n w, e.1 < n ∧ e.2.1 < n := by
    rintro ⟨a, b, x⟩ he
    have := mem_completeEdges.1 he
    exact ⟨this.1, this.2.1⟩
  have hw0 : ∀ e ∈ completeEdges n w, 0 ≤ e.2.2 := by
    rintro ⟨a, b, x⟩ he
    rw [(mem_completeEdges.1 he).2.2.2]; exact hw.le
  obtain ⟨sp, hsp⟩ := exists_shortestPaths maxAddition hw0
  have hwalk : ∀ i j x, IsWalk (fun x w => if x ≤ 0 then w else max x w) (completeEdges n w) i j x → x = 0 ∨ x = w := by
    intro i j x h
    induction h with
    | nil => exact Or.inl rfl
    | snoc _ he _ ih =>
      right
      rw [(mem_completeEdges.1 he).2.2.2]
      rcases ih with ih | ih <;> rw [ih]
      · simp
      · simp
  have hsp0 : ∀ i j x, sp i j = some x → 0 ≤ x ∧ x < ⊤ := by
    intro i j x hx
    rcases hwalk i j x (hsp.least i j x hx).1 with h | h <;> rw [h]
    · exact ⟨le_rfl, hw.trans hw'⟩
    · exact ⟨hw.le, hw'⟩
  have hval : ∀ a < n, ∀ b < n, (if a = b then none else sp a b) = if a = b then none else some w := by
    intro a ha b hb
    split
    · rfl
    · rename_i hab
      have hm : (a, b, w) ∈ completeEdges n w := mem_completeEdges.2 ⟨ha, hb, hab, rfl⟩
      obtain ⟨y, hy⟩ := hsp.reach a b _ (.snoc .nil hm hw')
      rcases hwalk a b y (hsp.least a b y hy).1 with h | h
      · have h1 := (hsp.least a b y hy).1
        exfalso
        cases h1 with
        | nil => exact hab rfl
        | snoc h2 he _ =>
          rw [(mem_completeEdges.1 he).2.2.2] at h
          rcases hwalk _ _ _ h2 with h3 | h3 <;> rw [h3] at h <;> simp at h <;> exact absurd h hw.ne'
      · rw [hy, h]
  have hperm : (buildEdgeSet (completeEdges n w)).Perm (buildEdgeSet (completeEdges n w)) := List.Perm.refl _
  have hc : ∀ a b, (a, b, w) ∈ completeEdges n w ↔ a < n ∧ b < n ∧ a ≠ b := fun a b => by rw [mem_completeEdges]; simp
  obtain ⟨n1, r1⟩ := C48_complete (CF := CF) K hn hn1 maxAddition hw hw' (fun a b x h => (mem_completeEdges.1 h).2.2.2) hc hsp hperm
  obtain ⟨n2, r2⟩ := C55_barcode K inferInstance (CF := CF) hn hed hperm (fun i j x hx => (hsp0 i j x hx).1) hsp.topClosed
  have en : Enumerates fun S : Finset PathHomCellᵒᵈ => S.toList := fun S => ⟨S.nodup_toList, fun x => S.mem_toList⟩
  have en' : Enumerates fun S : Finset (PathHomCellᵒᵈ × PathHomCellᵒᵈ) => S.toList := fun S => ⟨S.nodup_toList, fun x => S.mem_toList⟩
  obtain ⟨e0, e1, p0, p1, a1, a2, a3⟩ := r2 (max n1 n2) (le_max_right _ _) _ _ en en'
  rw [r1 (max n1 n2) (le_max_left _ _) _ _ en en'] at a1
  simp only [Option.some.injEq, Prod.mk.injEq, List.cons.injEq, and_true] at a1
  obtain ⟨⟨rfl, rfl⟩, rfl, rfl⟩ := a1
  have hs : ∀ a b, (Equiv.refl ℕ a, Equiv.refl ℕ b) ∈ {e : ℕ × ℕ | e.1 < n ∧ e.2 < n ∧ e.1 ≠ e.2} ↔
      (a, b) ∈ {e : ℕ × ℕ | ∃ x, (e.1, e.2, x) ∈ completeEdges n w} := by
    intro a b
    constructor
    · rintro ⟨h1, h2, h3⟩; exact ⟨w, (hc _ _).2 ⟨h1, h2, h3⟩⟩
    · rintro ⟨x, hx⟩
      have := mem_completeEdges.1 hx
      exact ⟨this.1, this.2.1, this.2.2.1⟩
  have hE0 : ∀ e ∈ {e : ℕ × ℕ | ∃ x, (e.1, e.2, x) ∈ completeEdges n w}, e.1 < n ∧ e.2 < n := fun e ⟨x, hx⟩ => hed _ hx
  exact ⟨a2.permute (Equiv.refl ℕ) (fun _ => Iff.rfl) hE0 hs fun a ha b hb => (hval a ha b hb).symm,
    a3.permute (Equiv.refl ℕ) (fun _ => Iff.rfl) hE0 hs fun a ha b hb => (hval a ha b hb).symm⟩

theorem complete_run (K : Type) [Field K] [LawfulCoeff CF K] (hn : n < 65536) (hn2 : 2 ≤ n) {w : F} (hw : 0 < w) (hw' : w < ⊤) {et : EdgeTime F}
    (h : IsDigraphFiltration et n fun i j => if i = j then none else some w) {E : List (ℕ × ℕ)} (hE : E.Nodup)
    (hm : ∀ e, e ∈ E ↔ e.1 < n ∧ e.2 < n ∧ e.1 ≠ e.2) :
    ∃ enough, ∀ fuel ≥ enough, ∀ enumE enumP, Enumerates enumE → Enumerates enumP →
      (grpphDemo CF enumE enumP et E n fuel).bind (completeAsserts n) = some () := by
  obtain ⟨b0, b1⟩ := complete_barcode (CF := CF) K hn (by omega : 1 ≤ n) hw hw'
  obtain ⟨enough, hr⟩ := grpphDemo_of_barcode (CF := CF) K h (fun a _ b _ x hx => by
    split at hx
    · cases hx
    · cases hx; exact hw.le) hE (fun e he => ⟨((hm e).1 he).1, ((hm e).1 he).2.1⟩) hm (fun _ _ _ _ => rfl) b0 b1
  refine ⟨enough, fun fuel hf enumE enumP hEe hEp => ?_⟩
  rw [hr fuel hf enumE enumP hEe hEp, Option.bind_some]
  simp only [finiteBars_report, infiniteBars_report, List.length_nil, List.length_replicate, List.length_cons, zero_add, add_zero]
  have h1 : n ≤ n * (n - 1) := Nat.le_mul_of_pos_right n (by omega)
  unfold completeAsserts
  rw [if_neg (by omega), if_neg (by omega), if_pos ⟨by omega, rfl⟩]

theorem mem_mainEdgeSet (hn : n < 65536) (e : ℕ × ℕ) : e ∈ mainEdgeSet n ↔ e.1 < n ∧ e.2 < n ∧ e.1 ≠ e.2 := by
  unfold mainEdgeSet
  have : ∀ i < n, asU16 i = i := fun i hi => Nat.mod_eq_of_lt (by omega)
  simp only [List.mem_dedup, List.mem_filter, List.mem_flatMap, List.mem_map, List.mem_range, decide_eq_true_eq]
  constructor
  · rintro ⟨⟨i, hi, j, hj, rfl⟩, hij⟩
    rw [this i hi, this j hj] at *
    exact ⟨hi, hj, hij⟩
  · rintro ⟨h1, h2, h3⟩
    exact ⟨⟨e.1, h1, e.2, h2, by rw [this _ h1, this _ h2]⟩, h3⟩

/-- The filtration of the example program: every arrow appears at time `w`. -/
theorem complete_filtration {add : F → F → F} (hadd : IsLengthAddition add) {w : F} (hw : 0 < w)
    (hw' : w < ⊤) {sp : ℕ → ℕ → Option F} (hsp : IsShortestPaths add (completeEdges n w) sp) :
    IsDigraphFiltration (vecEdgeTime (buildFiltration n sp)) n fun i j => if i = j then none else some w := by
  have hw0 : ∀ e ∈ completeEdges n w, 0 ≤ e.2.2 := by
    rintro ⟨a, b, x⟩ he
    rw [(mem_completeEdges.1 he).2.2.2]; exact hw.le
  have hval : ∀ a < n, ∀ b < n, (if a = b then none else sp a b) = if a = b then none else some w := by
    intro a ha b hb
    split
    · rfl
    · rename_i hab
      have h0 : IsWalk add (completeEdges n w) a b (add 0 w) := .snoc .nil (mem_completeEdges.2 ⟨ha, hb, hab, rfl⟩) hw'
      rw [hadd.zero_add] at h0
      obtain ⟨y, hy⟩ := hsp.reach a b _ h0
      rw [hy]
      congr 1
      refine le_antisymm ((hsp.least a b y hy).2 h0) ?_
      have h1 := (hsp.least a b y hy).1
      cases h1 with
      | nil => exact absurd rfl hab
      | snoc h2 he _ =>
        rw [(mem_completeEdges.1 he).2.2.2]
        exact hadd.le_add_left _ _ (h2.nonneg hadd hw0)
  refine ⟨?_, fun a _ => if_pos rfl, ?_⟩
  · intro a ha b hb
    rw [← hval a ha b hb]
    simp [vecEdgeTime, buildFiltration, List.getElem?_map, List.getElem?_range, ha, hb]
  · refine TopClosed.of_finite fun a _ b _ x hx => ?_
    split at hx
    · cases hx
    · cases hx; exact hw'

/-- C59: the example program terminates and its assertions hold, for every number of vertices `2 ≤ n < 65536`, every weight and every iteration
order. (`sp` is the result of the shortest path computation.) -/
theorem C59_main (K : Type) [Field K] [LawfulCoeff CF K] (hn : n < 65536) (hn2 : 2 ≤ n) {add : F → F → F} (hadd : IsLengthAddition add) {w : F} (hw : 0 < w)
    (hw' : w < ⊤) {sp : ℕ → ℕ → Option F} (hsp : IsShortestPaths add (completeEdges n w) sp) {E : List (ℕ × ℕ)} (hperm : E.Perm (mainEdgeSet n)) :
    ∃ enough, ∀ fuel ≥ enough, ∀ enumE enumP, Enumerates enumE → Enumerates enumP → grpphMain CF enumE enumP n sp E fuel = some () := by
  have e : asU16 n = n := Nat.mod_eq_of_lt hn
  have h := complete_filtration hadd hw hw' hsp (n := n)
  obtain ⟨enough, hr⟩ := complete_run (CF := CF) K hn hn2 hw hw' h (hperm.nodup_iff.2 (List.nodup_dedup _))
    (fun e => (hperm.mem_iff).trans (mem_mainEdgeSet hn e))
  refine ⟨enough, fun fuel hf enumE enumP hEe hEp => ?_⟩
  unfold grpphMain
  rw [e]
  exact hr fuel hf enumE enumP hEe hEp

theorem mapOfInserts_snoc {A V : Type} [DecidableEq A] (l : List (A × V)) (x : A × V) : mapOfInserts (l ++ [x]) = mapInsert (mapOfInserts l) x.1 x.2 := by
  unfold mapOfInserts
  rw [List.foldl_append]; rfl

/-- A map whose entries are consistent. -/
theorem mapOfInserts_eq {A V : Type} [DecidableEq A] {l : List (A × V)} {g : A → V} (h : ∀ x ∈ l, x.2 = g x.1) (k : A) :
    mapOfInserts l k = if k ∈ l.map Prod.fst then some (g k) else none := by
  induction l using List.reverseRecOn with
  | nil => rfl
  | append_singleton l x ih =>
    rw [mapOfInserts_snoc]
    unfold mapInsert
    rw [ih fun x hx => h x (List.mem_append_left _ hx)]
    by_cases hk : k = x.1
    · rw [if_pos hk, if_pos (by simp [hk]), h x (by simp), hk]
    · rw [if_neg hk]
      simp only [List.map_append, List.map_cons, List.map_nil, List.mem_append, List.mem_singleton, hk, or_false]

theorem completeMap_eq (w : F) (i j : ℕ) : completeMap n w (i, j) = if i < n ∧ j < n ∧ i ≠ j then some w else none := by
  unfold completeMap
  rw [mapOfInserts_eq (g := fun _ => w) (by
    intro x hx
    simp only [List.mem_flatMap, List.mem_map] at hx
    obtain ⟨_, _, _, _, rfl⟩ := hx
    rfl)]
  have hmem : (i, j) ∈ (((List.range n).flatMap fun i => ((List.range n).filter fun j => i ≠ j).map fun j => ((i, j), w))).map Prod.fst ↔ i < n ∧ j < n ∧ i ≠ j := by
    simp only [List.mem_map, List.mem_flatMap, List.mem_range, List.mem_filter, decide_eq_true_eq]
    constructor
    · rintro ⟨x, ⟨a, ha, b, ⟨hb, hab⟩, rfl⟩, e⟩
      obtain ⟨rfl, rfl⟩ := Prod.mk.inj e
      exact ⟨ha, hb, hab⟩
    · rintro ⟨h1, h2, h3⟩
      exact ⟨_, ⟨i, h1, j, ⟨h2, h3⟩, rfl⟩, rfl⟩
  by_cases h : i < n ∧ j < n ∧ i ≠ j
  · rw [if_pos (hmem.2 h), if_pos h]
  · rw [if_neg (fun h' => h (hmem.1 h')), if_neg h]

/-- C59: `test_grpph_complete` passes, for every number of vertices `2 ≤ n < 65536`, every weight and every iteration order. -/
theorem C59_test_complete (K : Type) [Field K] [LawfulCoeff CF K] (hn : n < 65536) (hn2 : 2 ≤ n) {w : F} (hw : 0 < w) (hw' : w < ⊤) {E : List (ℕ × ℕ)}
    (hperm : E.Perm (completeEdgeSet n)) :
    ∃ enough, ∀ fuel ≥ enough, ∀ enumE enumP, Enumerates enumE → Enumerates enumP → testComplete CF enumE enumP n w E fuel = some () := by
  have h : IsDigraphFiltration (mapEdgeTime (completeMap n w)) n fun i j => if i = j then none else some w := by
    refine ⟨?_, fun a _ => if_pos rfl, ?_⟩
    · intro a ha b hb
      unfold mapEdgeTime
      rw [completeMap_eq]
      by_cases hab : a = b <;> simp [ha, hb, hab]
    · refine TopClosed.of_finite fun a _ b _ x hx => ?_
      split at hx
      · cases hx
      · cases hx; exact hw'
  have hnd : (completeEdgeSet n).Nodup := by
    unfold completeEdgeSet
    refine List.nodup_flatMap.2 ⟨fun i _ => (List.nodup_range.filter _).map fun a b e => (Prod.mk.inj e).2, ?_⟩
    refine List.nodup_range.imp ?_
    intro a b hab x hx hy
    simp only [List.mem_map] at hx hy
    obtain ⟨_, _, rfl⟩ := hx
    obtain ⟨_, _, e⟩ := hy
    exact hab (Prod.mk.inj e).1.symm
  have hmem : ∀ e, e ∈ completeEdgeSet n ↔ e.1 < n ∧ e.2 < n ∧ e.1 ≠ e.2 := by
    rintro ⟨a, b⟩
    unfold completeEdgeSet
    simp only [List.mem_flatMap, List.mem_map, List.mem_filter, List.mem_range, decide_eq_true_eq]
    constructor
    · rintro ⟨i, hi, j, ⟨hj, hij⟩, e⟩
      obtain ⟨rfl, rfl⟩ := Prod.mk.inj e
      exact ⟨hi, hj, hij⟩
    · rintro ⟨h1, h2, h3⟩
      exact ⟨a, h1, b, ⟨h2, h3⟩, rfl⟩
  exact complete_run (CF := CF) K hn hn2 hw hw' h (hperm.nodup_iff.2 hnd) (fun e => hperm.mem_iff.trans (hmem e))

/-- C59: the assertions of the example program and the test panic for one vertex, whatever the diagram: `n * (n - 1) - n` underflows. -/
theorem C59_one_vertex (enumE : Finset PathHomCellᵒᵈ → List PathHomCellᵒᵈ)
    (enumP : Finset (PathHomCellᵒᵈ × PathHomCellᵒᵈ) → List (PathHomCellᵒᵈ × PathHomCellᵒᵈ)) (sp : ℕ → ℕ → Option F) (E : List (ℕ × ℕ)) (w : F) (fuel : ℕ) :
    grpphMain CF enumE enumP 1 sp E fuel = none ∧ testComplete CF enumE enumP 1 w E fuel = none := by
  have h : ∀ r, completeAsserts 1 r = none := fun r => rfl
  constructor
  · unfold grpphMain
    exact Option.bind_eq_none_iff.2 fun r _ => h r
  · unfold testComplete
    exact Option.bind_eq_none_iff.2 fun r _ => h r

/-- **C59, the assertions of the programs.** After any filtration has been run, the assertions of `test_grpph_cycle` pass exactly if the two barcodes have one finite
and one infinite bar in total, and those of the example program and of `test_grpph_complete` exactly if there are at least two vertices, one infinite bar and
`n (n - 2) + 1` finite bars. -/
theorem C59_asserts (K : Type) [Field K] [LawfulCoeff CF K] {et : EdgeTime F} {time : ℕ → ℕ → Option F} {E : List (ℕ × ℕ)}
    (h : IsDigraphFiltration et n time) (h0 : ∀ a < n, ∀ b < n, ∀ x, time a b = some x → 0 ≤ x) (hE : E.Nodup) (hEn : ∀ e ∈ E, e.1 < n ∧ e.2 < n) :
    ∃ enough, ∀ fuel ≥ enough, ∀ enumE enumP, Enumerates enumE → Enumerates enumP →
      ∃ bars0 bars1, IsGroundedBarcode K {e | e ∈ E} n time 0 bars0 ∧ IsGroundedBarcode K {e | e ∈ E} n time 1 bars1 ∧
        ((grpphDemo CF enumE enumP et E n fuel).bind cycleAsserts = some () ↔
          finiteBars bars0 + finiteBars bars1 = 1 ∧ infiniteBars bars0 + infiniteBars bars1 = 1) ∧
        ∀ N, (grpphDemo CF enumE enumP et E n fuel).bind (completeAsserts N) = some () ↔
          2 ≤ N ∧ finiteBars bars0 + finiteBars bars1 = N * (N - 2) + 1 ∧ infiniteBars bars0 + infiniteBars bars1 = 1 := by
  obtain ⟨enough, hrun⟩ := C59_filtration (CF := CF) K h h0 hE hEn
  refine ⟨enough, fun fuel hf enumE enumP h1 h2 => ?_⟩
  obtain ⟨b0, b1, g0, g1, e⟩ := hrun fuel hf enumE enumP h1 h2
  refine ⟨b0, b1, g0, g1, ?_, fun N => ?_⟩
  · rw [e, Option.bind_some]
    unfold cycleAsserts
    split <;> simp_all
  · rw [e, Option.bind_some]
    unfold completeAsserts
    have hN : 2 ≤ N → N * (N - 1) - N = N * (N - 2) ∧ ¬ N * (N - 1) < N := by
      intro h
      obtain ⟨k, rfl⟩ := Nat.exists_eq_add_of_le h
      have e1 : 2 + k - 1 = k + 1 := by omega
      have e2 : 2 + k - 2 = k := by omega
      rw [e1, e2, Nat.mul_succ]
      exact ⟨by omega, by omega⟩
    have hN1 : ¬ 2 ≤ N → N < 1 ∨ N * (N - 1) < N := by
      intro h
      rcases Nat.lt_or_ge N 1 with h1 | h1
      · exact Or.inl h1
      · obtain rfl : N = 1 := by omega
        exact Or.inr (by norm_num)
    by_cases h2 : 2 ≤ N
    · obtain ⟨e1, e2⟩ := hN h2
      rw [if_neg (by omega), if_neg e2, e1]
      split <;> simp_all
    · rcases hN1 h2 with h3 | h3
      · rw [if_pos h3]; simp [h2]
      · have : ¬ N < 1 := fun h => by
          obtain rfl : N = 0 := by omega
          simp at h3
        rw [if_neg this, if_pos h3]; simp [h2]

/-! ### Directed cycles -/

theorem cycleMap_eq {N : ℕ} {len : ℕ → F} {i j : ℕ} (hi : i < N) (hj : j < N) :
    cycleMap N len (i, j) = if i = j then none else some (len (cycleDist N i j)) := by
  unfold cycleMap
  rw [mapOfInserts_eq (g := fun e => len (cycleDist N e.1 e.2)) (by
    intro x hx
    simp only [List.mem_flatMap, List.mem_map, List.mem_range, List.mem_range'_1] at hx
    obtain ⟨i, hi, j, hj, rfl⟩ := hx
    have h1 : (i + j) % N < N := Nat.mod_lt _ (by omega)
    show len j = len (cycleDist N i ((i + j) % N))
    congr 1
    have h2 := cycleDist_le hi h1 rfl
    unfold cycleDist at h2 ⊢
    by_cases h3 : i + j < N
    · rw [Nat.mod_eq_of_lt h3]; rw [if_pos (by omega)]; omega
    · have h4 : (i + j) % N = i + j - N := by rw [Nat.mod_eq_sub_mod (by omega), Nat.mod_eq_of_lt (by omega)]
      rw [h4, if_neg (by omega)]; omega)]
  have hmem : (i, j) ∈ ((List.range N).flatMap fun i => (List.range' 1 (N - 1)).map fun j => ((i, (i + j) % N), len j)).map Prod.fst ↔ i ≠ j := by
    simp only [List.mem_map, List.mem_flatMap, List.mem_range, List.mem_range'_1]
    constructor
    · rintro ⟨x, ⟨a, ha, b, hb, rfl⟩, e⟩
      obtain ⟨rfl, rfl⟩ := Prod.mk.inj e
      intro h
      by_cases h3 : a + b < N
      · rw [Nat.mod_eq_of_lt h3] at h; omega
      · have h4 : (a + b) % N = a + b - N := by rw [Nat.mod_eq_sub_mod (by omega), Nat.mod_eq_of_lt (by omega)]
        omega
    · intro h
      refine ⟨_, ⟨i, hi, cycleDist N i j, ?_, rfl⟩, by rw [cycleDist_add hi hj]⟩
      have h1 := cycleDist_lt hi hj
      have : cycleDist N i j ≠ 0 := by
        intro h0
        have h2 := cycleDist_add hi hj
        rw [h0, add_zero, Nat.mod_eq_of_lt hi] at h2
        exact h h2
      omega
  by_cases hij : i = j
  · rw [if_neg (by rw [hmem]; simpa using hij), if_pos hij]
  · rw [if_pos (hmem.2 hij), if_neg hij]

/-- C59: `test_grpph_cycle` passes, for every number of vertices `2 ≤ n ≤ 32768`, if the length `len j` is a sum of `j` equal positive weights, and every iteration
order. -/
theorem C59_test_cycle (K : Type) [Field K] [LawfulCoeff CF K] {N : ℕ} (hn : N ≤ 32768) (hN : 2 ≤ N) {add : F → F → F} (hadd : IsLengthAddition add) {w : F}
    (hw : 0 < w) {len : ℕ → F} (hlen : ∀ j < N, len j = cycleLength add w j) (hfin : ∀ j < N, len j < ⊤) {E : List (ℕ × ℕ)} (hperm : E.Perm (cycleEdgeSet N)) :
    ∃ enough, ∀ fuel ≥ enough, ∀ enumE enumP, Enumerates enumE → Enumerates enumP → testCycle CF enumE enumP N len E fuel = some () := by
  have hw1 : cycleLength add w 1 = w := by rw [cycleLength_succ]; exact hadd.zero_add w
  have hw' : w < ⊤ := by
    have := hfin 1 (by omega)
    rwa [hlen 1 (by omega), hw1] at this
  have hl0 : len 0 = 0 := hlen 0 (by omega)
  obtain ⟨hed, hpos, _, _⟩ := cycle_setup (add := add) hadd hw hw' hN
  have hw0 : ∀ e ∈ cycleEdges N w, 0 ≤ e.2.2 := fun e he => (hpos e he).le
  obtain ⟨sp, hsp⟩ := exists_shortestPaths hadd hw0
  have hval : ∀ a < N, ∀ b < N, cycleMap N len (a, b) = if a = b then none else sp a b := by
    intro a ha b hb
    rw [cycleMap_eq ha hb, cycle_sp hadd hw.le hw' hsp ha hb, hlen _ (cycleDist_lt ha hb)]
  have hsp0 : ∀ i j x, sp i j = some x → 0 ≤ x ∧ x < ⊤ := by
    intro i j x hx
    refine ⟨(hsp.least i j x hx).1.nonneg hadd hw0, ?_⟩
    by_cases hi : i < N
    · have hj := (hsp.least i j x hx).1.lt_n hed hi
      rw [cycle_sp hadd hw.le hw' hsp hi hj, ← hlen _ (cycleDist_lt hi hj)] at hx
      cases hx
      exact hfin _ (cycleDist_lt hi hj)
    · have : ∀ {j x}, IsWalk add (cycleEdges N w) i j x → j = i ∧ x = 0 := by
        intro j x h
        induction h with
        | nil => exact ⟨rfl, rfl⟩
        | snoc _ he _ ih =>
          exfalso
          have := (mem_cycleEdges.1 he).1
          rw [ih.1] at this
          exact hi this
      rw [(this (hsp.least i j x hx).1).2]
      exact hw.trans hw'
  have h : IsDigraphFiltration (mapEdgeTime (cycleMap N len)) N fun i j => cycleMap N len (i, j) := by
    refine ⟨fun a _ b _ => rfl, fun a ha => by rw [hval a ha a ha, if_pos rfl], ?_⟩
    · refine TopClosed.of_finite fun a ha b hb x hx => ?_
      rw [hval a ha b hb] at hx
      split at hx
      · cases hx
      · exact (hsp0 _ _ _ hx).2
  have hnd : E.Nodup := hperm.nodup_iff.2 (List.nodup_range.map fun a b e => (Prod.mk.inj e).1)
  have hmem : ∀ e, e ∈ E ↔ e ∈ {e : ℕ × ℕ | ∃ x, (e.1, e.2, x) ∈ cycleEdges N w} := by
    rintro ⟨a, b⟩
    rw [hperm.mem_iff]
    unfold cycleEdgeSet
    rw [List.mem_map]
    constructor
    · rintro ⟨i, hi, e⟩
      obtain ⟨rfl, rfl⟩ := Prod.mk.inj e
      exact ⟨w, mem_cycleEdges.2 ⟨List.mem_range.1 hi, rfl, rfl⟩⟩
    · rintro ⟨x, hx⟩
      obtain ⟨h1, h2, _⟩ := mem_cycleEdges.1 hx
      simp only at h1 h2
      exact ⟨a, List.mem_range.2 h1, by rw [h2]⟩
  have hp : (buildEdgeSet (cycleEdges N w)).Perm (buildEdgeSet (cycleEdges N w)) := List.Perm.refl _
  obtain ⟨n1, r1⟩ := C49_cycle (CF := CF) K (by omega) hN hadd hw hw' hsp hp
  obtain ⟨n2, r2⟩ := C55_barcode K inferInstance (CF := CF) (by omega) hed hp (fun i j x hx => (hsp0 i j x hx).1) hsp.topClosed
  have en : Enumerates fun S : Finset PathHomCellᵒᵈ => S.toList := fun S => ⟨S.nodup_toList, fun x => S.mem_toList⟩
  have en' : Enumerates fun S : Finset (PathHomCellᵒᵈ × PathHomCellᵒᵈ) => S.toList := fun S => ⟨S.nodup_toList, fun x => S.mem_toList⟩
  have en'' : Enumerates fun S : Finset (PathHomCell × PathHomCell) => S.toList := fun S => ⟨S.nodup_toList, fun x => S.mem_toList⟩
  obtain ⟨e0, e1, p0, p1, a1, a2, a3⟩ := r2 (max n1 n2) (le_max_right _ _) _ _ en en'
  rw [(r1 (max n1 n2) (le_max_left _ _) (fun i => i + 1) (fun _ => le_rfl) _ _ _ en en' en'').1] at a1
  simp only [Option.some.injEq, Prod.mk.injEq, List.cons.injEq, and_true] at a1
  obtain ⟨⟨rfl, rfl⟩, rfl, rfl⟩ := a1
  obtain ⟨enough, hr⟩ := grpphDemo_of_barcode (CF := CF) K h (fun a ha b hb x hx => by
    rw [hval a ha b hb] at hx
    split at hx
    · cases hx
    · exact (hsp0 _ _ _ hx).1) hnd
    (fun e he => by obtain ⟨x, hx⟩ := (hmem e).1 he; exact hed _ hx) hmem hval a2 a3
  refine ⟨enough, fun fuel hf enumE enumP hEe hEp => ?_⟩
  unfold testCycle
  rw [hr fuel hf enumE enumP hEe hEp, Option.bind_some]
  simp only [finiteBars_report, infiniteBars_report, List.length_nil, List.length_cons]
  rfl

end

/-! ### Concrete cases -/

namespace GrPPHExample

/-- The hypotheses of C59 on the filtrations: 1 is positive and finite, and addition of extended natural numbers is an addition of lengths. -/
example : (0 : WithTop ℕ) < 1 ∧ (1 : WithTop ℕ) < ⊤ ∧ IsLengthAddition (fun x y : WithTop ℕ => x + y) := ⟨by decide, by decide, natTop_add⟩

set_option synthInstance.maxSize 2000 in
set_option synthInstance.maxHeartbeats 200000 in
/-- The tests run with 4 vertices in the model. -/
example : (letI := listHeap; testComplete Z2 enumE enumP 4 (1 : WithTop ℕ) (completeEdgeSet 4) 100) = some () ∧
    (letI := listHeap; testCycle Z2 enumE enumP 4 (fun j => (j : WithTop ℕ)) (cycleEdgeSet 4) 100) = some () ∧
    (letI := listHeap; grpphMain Z2 enumE enumP 4 (fun i j => if i = j then some 0 else some (1 : WithTop ℕ)) (mainEdgeSet 4) 100) = some () := by
  decide +kernel

end GrPPHExample
end Phlite
