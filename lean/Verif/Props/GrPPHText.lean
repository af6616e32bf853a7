/-
Property theorem C89: what the example program of phlite_grpph prints.
-/
import Verif.Model.GrPPHText
import Verif.Spec.GrPPHText
import Verif.Props.GrPPHEdges
import Verif.Proofs.GrPPHComplete
import Verif.Props.RipsText
import Verif.Props.Display

set_option linter.unusedSectionVars false
set_option linter.unusedSimpArgs false

namespace Phlite
open OrderDual (toDual ofDual)

section
variable {F : Type} [LinearOrder F] [Zero F] [OrderTop F] {n : ℕ}

/-! ### The loops -/

theorem filterMapOpt_some {α β : Type} {f : α → Option (Option β)} {g : α → Option β} {l : List α} (h : ∀ a ∈ l, f a = some (g a)) :
    filterMapOpt f l = some (l.filterMap g) := by
  induction l with
  | nil => rfl
  | cons a l ih =>
    unfold filterMapOpt
    rw [h a (by simp), ih fun a ha => h a (by simp [ha])]
    cases hg : g a with
    | none => simp [hg]
    | some b => simp [hg]

theorem countPairings_eq {filt : PathHomCell → Option F} {f : PathHomCell → F} {l : List (PathHomCellᵒᵈ × PathHomCellᵒᵈ)}
    (hl : ∀ x ∈ l, filt (ofDual x.2) = some (f (ofDual x.2)) ∧ filt (ofDual x.1) = some (f (ofDual x.1))) :
    countPairings filt l = some (l.filter fun x => f (ofDual x.1) ≠ f (ofDual x.2)).length := by
  have key : ∀ (l : List (PathHomCellᵒᵈ × PathHomCellᵒᵈ)) (c : ℕ), (∀ x ∈ l, filt (ofDual x.2) = some (f (ofDual x.2)) ∧ filt (ofDual x.1) = some (f (ofDual x.1))) →
      l.foldlM (fun count p => (filt (OrderDual.ofDual p.2)).bind fun birth_f => (filt (OrderDual.ofDual p.1)).bind fun death_f =>
        if death_f = birth_f then some count else some (count + 1)) c = some (c + (l.filter fun x => f (ofDual x.1) ≠ f (ofDual x.2)).length) := by
    intro l
    induction l with
    | nil => intro c _; rfl
    | cons x l ih =>
      intro c hl
      obtain ⟨h1, h2⟩ := hl x (by simp)
      rw [List.foldlM_cons, h1, h2]
      simp only [Option.bind_some]
      by_cases hx : f (ofDual x.1) = f (ofDual x.2)
      · rw [if_pos hx]
        have := ih c fun y hy => hl y (by simp [hy])
        rw [List.filter_cons_of_neg (by simp [hx])]
        exact this
      · rw [if_neg hx]
        have := ih (c + 1) fun y hy => hl y (by simp [hy])
        rw [List.filter_cons_of_pos (by simp [hx]), List.length_cons]
        have e : c + ((l.filter fun x => f (ofDual x.1) ≠ f (ofDual x.2)).length + 1) = c + 1 + (l.filter fun x => f (ofDual x.1) ≠ f (ofDual x.2)).length := by omega
        rw [e]
        exact this
  have := key l 0 hl
  rw [zero_add] at this
  exact this

variable [StdHeap] {CF : Type} [NonZeroCoeff CF]

/-- What the last part of the program prints, if the filtration values of all cells in the diagram can be read. -/
theorem grpphPrintReport_eq {fmt : F → String} {enumE : Finset PathHomCellᵒᵈ → List PathHomCellᵒᵈ}
    {enumP : Finset (PathHomCellᵒᵈ × PathHomCellᵒᵈ) → List (PathHomCellᵒᵈ × PathHomCellᵒᵈ)} {filt : PathHomCell → Option F} {f : PathHomCell → F} {dgm : Diagram PathHomCellᵒᵈ}
    (hE : ∀ x ∈ enumE dgm.essential, filt (ofDual x) = some (f (ofDual x)))
    (hP : ∀ x ∈ enumP dgm.pairings, filt (ofDual x.2) = some (f (ofDual x.2)) ∧ filt (ofDual x.1) = some (f (ofDual x.1)))
    (ha : completeAsserts n (((enumP dgm.pairings).filter fun x => f (ofDual x.1) ≠ f (ofDual x.2)).length, dgm.essential.card) = some ()) :
    grpphPrintReport fmt enumE enumP n filt dgm =
      ("Essential:\n" ++ String.join ((enumE dgm.essential).map fun x => grpphEssentialLine fmt (x, f (ofDual x))) ++ "\nPairings:\n" ++
        String.join (((enumP dgm.pairings).filter fun x => f (ofDual x.1) ≠ f (ofDual x.2)).map fun x =>
          grpphPairingLine fmt ((x.2, x.1), f (ofDual x.2), f (ofDual x.1))) ++
        toString ((enumP dgm.pairings).filter fun x => f (ofDual x.1) ≠ f (ofDual x.2)).length ++ "\n", true) := by
  unfold grpphPrintReport
  rw [countPairings_eq hP]
  rw [loop_some (grpphEssentialLine fmt) (filterMapOpt_some (g := fun idx => some (idx, f (ofDual idx))) fun x hx => by rw [hE x hx]; rfl)]
  rw [loop_some (grpphPairingLine fmt) (filterMapOpt_some (g := fun tup => if f (ofDual tup.1) = f (ofDual tup.2) then none else
    some ((tup.2, tup.1), f (ofDual tup.2), f (ofDual tup.1))) fun x hx => by rw [(hP x hx).1, (hP x hx).2]; rfl)]
  simp only [Printing.compute, Printing.line, Printing.andThen, if_true, ha, String.append_empty]
  congr 1
  have e1 : List.filterMap (fun idx => some (idx, f (ofDual idx))) (enumE dgm.essential) = (enumE dgm.essential).map fun x => (x, f (ofDual x)) := by
    rw [← List.filterMap_eq_map]; rfl
  have e2 : ∀ l : List (PathHomCellᵒᵈ × PathHomCellᵒᵈ), List.filterMap (fun tup => if f (ofDual tup.1) = f (ofDual tup.2) then none else
      some ((tup.2, tup.1), f (ofDual tup.2), f (ofDual tup.1))) l =
      (l.filter fun x => f (ofDual x.1) ≠ f (ofDual x.2)).map fun x => ((x.2, x.1), f (ofDual x.2), f (ofDual x.1)) := by
    intro l
    induction l with
    | nil => rfl
    | cons x l ih =>
      by_cases hx : f (ofDual x.1) = f (ofDual x.2)
      · rw [List.filterMap_cons_none (by simp [hx]), List.filter_cons_of_neg (by simp [hx]), ih]
      · rw [List.filterMap_cons_some (b := ((x.2, x.1), f (ofDual x.2), f (ofDual x.1))) (by rw [if_neg hx]), List.filter_cons_of_pos (by simp [hx]), ih, List.map_cons]
  rw [e1, e2]
  simp only [List.map_map, Function.comp_def, String.append_assoc]

/-! ### The run -/

/-- The cells of a pair. -/
def pairCells (x : (ℕ × ℕ) × PathHom2Cell) : PathHomCellᵒᵈ × PathHomCellᵒᵈ := (toDual (.twoCell x.2), toDual (.edge x.1.1 x.1.2))

theorem pairCells_injective : Function.Injective pairCells := by
  rintro ⟨⟨a, b⟩, c⟩ ⟨⟨a', b'⟩, c'⟩ h
  have h1 := (Prod.mk.inj h).1
  have h2 := (Prod.mk.inj h).2
  rw [OrderDual.toDual_inj] at h1 h2
  cases h1; cases h2; rfl

theorem mem_completePairs {x : (ℕ × ℕ) × PathHom2Cell} : x ∈ completePairs n ↔
    (∃ a b, a < b ∧ b < n ∧ x = ((b, a), .doubleEdge a b)) ∨ ∃ a b, 0 < a ∧ a < b ∧ b < n ∧ x = ((a, b), .directedTriangle 0 a b) := by
  unfold completePairs
  simp only [List.mem_append, List.mem_flatMap, List.mem_range, List.mem_map, List.mem_filter, decide_eq_true_eq]
  constructor
  · rintro (⟨b, hb, a, ha, rfl⟩ | ⟨b, hb, a, ⟨ha, h0⟩, rfl⟩)
    · exact Or.inl ⟨a, b, ha, hb, rfl⟩
    · exact Or.inr ⟨a, b, h0, ha, hb, rfl⟩
  · rintro (⟨a, b, ha, hb, rfl⟩ | ⟨a, b, h0, ha, hb, rfl⟩)
    · exact Or.inl ⟨b, hb, a, ha, rfl⟩
    · exact Or.inr ⟨b, hb, a, ⟨ha, h0⟩, rfl⟩

theorem completePairs_nodup (n : ℕ) : (completePairs n).Nodup := by
  unfold completePairs
  refine List.nodup_append'.2 ⟨?_, ?_, ?_⟩
  · refine List.nodup_flatMap.2 ⟨fun b _ => List.nodup_range.map fun a a' h => by simpa using h, ?_⟩
    refine List.nodup_range.imp fun {b b'} hb x hx hx' => ?_
    obtain ⟨a, -, rfl⟩ := List.mem_map.1 hx
    obtain ⟨a', -, h⟩ := List.mem_map.1 hx'
    simp only [Prod.mk.injEq] at h
    exact hb h.1.1.symm
  · refine List.nodup_flatMap.2 ⟨fun b _ => (List.nodup_range.filter _).map fun a a' h => by simpa using h, ?_⟩
    refine List.nodup_range.imp fun {b b'} hb x hx hx' => ?_
    obtain ⟨a, -, rfl⟩ := List.mem_map.1 hx
    obtain ⟨a', -, h⟩ := List.mem_map.1 hx'
    simp only [Prod.mk.injEq] at h
    exact hb h.1.2.symm
  · intro x hx hx'
    obtain ⟨b, -, hx⟩ := List.mem_flatMap.1 hx
    obtain ⟨b', -, hx'⟩ := List.mem_flatMap.1 hx'
    obtain ⟨a, -, rfl⟩ := List.mem_map.1 hx
    obtain ⟨a', -, h⟩ := List.mem_map.1 hx'
    cases (Prod.mk.inj h).2

theorem completePairs_length (n : ℕ) : (completePairs n).length = (n - 1) ^ 2 := by
  have h1 : ∀ b, (((List.range b).filter fun a => 0 < a)).length = b - 1 := by
    intro b
    cases b with
    | zero => rfl
    | succ b =>
      rw [List.range_succ_eq_map, List.filter_cons_of_neg (by simp), List.filter_map, List.length_map]
      rw [List.filter_eq_self.2 (by simp)]
      simp
  unfold completePairs
  simp only [List.length_append, List.length_flatMap, List.length_map, List.length_range, h1]
  induction n with
  | zero => rfl
  | succ n ih =>
    rw [List.range_succ]
    simp only [List.map_append, List.sum_append, List.map_cons, List.map_nil, List.sum_cons, List.sum_nil, add_zero, Nat.add_sub_cancel]
    cases n with
    | zero => rfl
    | succ n =>
      simp only [Nat.add_sub_cancel] at ih ⊢
      nlinarith [ih]

/-- The diagram for the complete digraph: one essential cell, which is a vertex; and the pairs with different times are of an arrow, at time 0, and a 2-cell, at time `w`. -/
theorem complete_pairs (K : Type) [Field K] [LawfulCoeff CF K] (hn : n < 65536) (hn2 : 2 ≤ n) {w : F} (hw0 : 0 < w) (hw' : w < ⊤) {et : EdgeTime F}
    (h : IsDigraphFiltration et n fun i j => if i = j then none else some w) {E : List (ℕ × ℕ)} (hE : E.Nodup)
    (hm : ∀ e, e ∈ E ↔ e.1 < n ∧ e.2 < n ∧ e.1 ≠ e.2) :
    ∃ D dgm, (∃ enough, ∀ fuel ≥ enough, grpphRun CF et E n fuel = some (D, dgm)) ∧ ∃ f : PathHomCell → F,
      (∀ x ∈ dgm.essential, D.filt (ofDual x) = some (f (ofDual x))) ∧
      (∀ x ∈ dgm.pairings, D.filt (ofDual x.2) = some (f (ofDual x.2)) ∧ D.filt (ofDual x.1) = some (f (ofDual x.1))) ∧
      (∀ le : List PathHomCellᵒᵈ, le.Nodup → (∀ x, x ∈ le ↔ x ∈ dgm.essential) → le = [toDual (.node 0)] ∧ f (.node 0) = 0) ∧
      ∀ lp : List (PathHomCellᵒᵈ × PathHomCellᵒᵈ), lp.Nodup → (∀ x, x ∈ lp ↔ x ∈ dgm.pairings) →
        (lp.filter fun x => f (ofDual x.1) ≠ f (ofDual x.2)).Perm ((completePairs n).map pairCells) ∧
          ∀ x ∈ completePairs n, f (.edge x.1.1 x.1.2) = 0 ∧ f (.twoCell x.2) = w := by
  obtain ⟨D, dgm, ⟨N1, hrun⟩, hfilt, hP, hrep⟩ := grpphRun_reports (CF := CF) (K := K) h hE fun e he => ⟨((hm e).1 he).1, ((hm e).1 he).2.1⟩
  obtain ⟨D', dgm', ⟨N2, hrun'⟩, -, -, hEss, -⟩ := grpphRun_spec (CF := CF) (K := K) h hE fun e he => ⟨((hm e).1 he).1, ((hm e).1 he).2.1⟩
  have hsame := (hrun (max N1 N2) (le_max_left _ _)).symm.trans (hrun' (max N1 N2) (le_max_right _ _))
  simp only [Option.some.injEq, Prod.mk.injEq] at hsame
  obtain ⟨rfl, rfl⟩ := hsame
  have hEn : ∀ e ∈ E, e.1 < n ∧ e.2 < n := fun e he => ⟨((hm e).1 he).1, ((hm e).1 he).2.1⟩
  have hX := grpphCellComplex (K := K) h hE hEn CF
  have h0 : ∀ a < n, ∀ b < n, ∀ x, (if a = b then none else some w) = some x → 0 ≤ x := by
    intro a _ b _ x hx
    split at hx
    · cases hx
    · cases hx; exact hw0.le
  have hset : {e : ℕ × ℕ | e ∈ E} = {e | e.1 < n ∧ e.2 < n ∧ e.1 ≠ e.2} := Set.ext hm
  obtain ⟨B0, B1⟩ := complete_barcode (CF := CF) K hn (by omega : 1 ≤ n) hw0 hw'
  have hess : ∀ x ∈ dgm.essential, ∃ d < 2, ofDual x ∈ grpphCells et n (fun i j => if i = j then none else some w) E (d : ℕ) := fun x hx => (hEss (ofDual x) hx).1
  have hpair : ∀ x ∈ dgm.pairings, ∃ d : ℕ, d < 2 ∧ ofDual x.2 ∈ grpphCells et n (fun i j => if i = j then none else some w) E d ∧
      ofDual x.1 ∈ grpphCells et n (fun i j => if i = j then none else some w) E (d + 1) ∧
      IsPersistencePair (rowKey (grpphF et E)) (grpphCells et n (fun i j => if i = j then none else some w) E (d + 1)) (grpphM K) (ofDual x.2) (ofDual x.1) := by
    intro x hx
    obtain ⟨d, hd, hp⟩ := (hP (ofDual x.2) (ofDual x.1)).1 hx
    obtain ⟨h1, h2⟩ := hX.pair_mem hp
    rw [add_sub_cancel_right] at h2
    exact ⟨d, List.mem_range.1 hd, h2, h1, hp⟩
  have key : ∀ le lp, (le.Nodup ∧ ∀ x, x ∈ le ↔ x ∈ dgm.essential) → (lp.Nodup ∧ ∀ x, x ∈ lp ↔ x ∈ dgm.pairings) →
      ∃ e0, reportEssential D.filt le = some [e0, []] ∧ e0.length = 1 ∧ barsIn (grpphF et E) lp 0 = [] ∧
        barsIn (grpphF et E) lp 1 = List.replicate (n * (n - 1) + 1 - n) (0, w) := by
    intro le lp hle hlp
    obtain ⟨e0, e1, h1, h2, _, h34, h5⟩ := hrep le lp hle hlp
    obtain ⟨h3, h4⟩ := h34 h0
    have b0 : IsGroundedBarcode K {e | e ∈ E} n (fun i j => if i = j then none else some w) 0 (reportIntervals e0 (barsIn (grpphF et E) lp 0)) := by
      refine ⟨?_, ?_, ?_⟩
      · intro b hb
        rcases List.mem_append.1 (Multiset.mem_coe.1 hb) with hb | hb <;> obtain ⟨x, hx, rfl⟩ := List.mem_map.1 hb
        · exact h3 x (List.mem_append_left _ hx)
        · exact (h4 x (List.mem_append_left _ hx)).1
      · intro b hb
        rcases List.mem_append.1 (Multiset.mem_coe.1 hb) with hb | hb <;> obtain ⟨x, hx, rfl⟩ := List.mem_map.1 hb
        · exact WithTop.coe_lt_top _
        · exact WithTop.coe_lt_coe.2 (h4 x (List.mem_append_left _ hx)).2
      · intro s t hs hst
        rw [aliveBars_report, if_pos rfl]
        exact (h5 s t hs hst).1.symm
    have b1 : IsGroundedBarcode K {e | e ∈ E} n (fun i j => if i = j then none else some w) 1 (reportIntervals e1 (barsIn (grpphF et E) lp 1)) := by
      refine ⟨?_, ?_, ?_⟩
      · intro b hb
        rcases List.mem_append.1 (Multiset.mem_coe.1 hb) with hb | hb <;> obtain ⟨x, hx, rfl⟩ := List.mem_map.1 hb
        · exact h3 x (List.mem_append_right _ hx)
        · exact (h4 x (List.mem_append_right _ hx)).1
      · intro b hb
        rcases List.mem_append.1 (Multiset.mem_coe.1 hb) with hb | hb <;> obtain ⟨x, hx, rfl⟩ := List.mem_map.1 hb
        · exact WithTop.coe_lt_top _
        · exact WithTop.coe_lt_coe.2 (h4 x (List.mem_append_right _ hx)).2
      · intro s t hs hst
        rw [aliveBars_report, if_neg (by decide)]
        exact (h5 s t hs hst).2.symm
    rw [hset] at b0 b1
    have u0 := b0.unique B0
    have u1 := b1.unique B1
    have f0 := congrArg finiteBars u0
    have i0 := congrArg infiniteBars u0
    have f1 := congrArg finiteBars u1
    have i1 := congrArg infiniteBars u1
    simp only [finiteBars_report, infiniteBars_report, List.length_nil, List.length_replicate, List.length_cons, zero_add] at f0 i0 f1 i1
    have he1 : e1 = [] := List.length_eq_zero_iff.1 i1
    subst he1
    refine ⟨e0, h1, i0, List.length_eq_zero_iff.1 f0, List.eq_replicate_iff.2 ⟨f1, fun b hb => ?_⟩⟩
    have hb' : (b.1, (b.2 : WithTop F)) ∈ reportIntervals [] (barsIn (grpphF et E) lp 1) := by
      unfold reportIntervals
      exact Multiset.mem_coe.2 (List.mem_append_right _ (List.mem_map.2 ⟨b, hb, rfl⟩))
    rw [u1] at hb'
    rcases List.mem_append.1 (Multiset.mem_coe.1 hb') with hb' | hb'
    · cases hb'
    · obtain ⟨c, hc, he⟩ := List.mem_map.1 hb'
      rw [List.eq_of_mem_replicate hc] at he
      have e1 := (Prod.mk.inj he).1
      have e2 := WithTop.coe_inj.1 (Prod.mk.inj he).2
      exact Prod.ext e1.symm e2.symm
  refine ⟨D, dgm, ⟨N1, hrun⟩, grpphF et E, ?_, ?_, ?_, ?_⟩
  · intro x hx
    obtain ⟨d, _, hc⟩ := hess x hx
    rw [hfilt]; exact grpphF_spec h hc
  · intro x hx
    obtain ⟨d, _, h1, h2, _⟩ := hpair x hx
    rw [hfilt]; exact ⟨grpphF_spec h h1, grpphF_spec h h2⟩
  · intro le hle hle'
    obtain ⟨e0, h1, h2, -⟩ := key le dgm.pairings.toList ⟨hle, hle'⟩ ⟨Finset.nodup_toList _, fun x => Finset.mem_toList⟩
    obtain ⟨-, hlen⟩ := reportEssential_count (a := []) (b := []) le h1
    simp only [List.length_nil, h2] at hlen
    obtain ⟨x, rfl⟩ := List.length_eq_one_iff.1 (by omega : le.length = 1)
    obtain ⟨d, hd, hc⟩ := hess x ((hle' x).1 (by simp))
    have hd' : d = 0 ∨ d = 1 := by omega
    rcases hd' with rfl | rfl
    · obtain ⟨k, hk, e⟩ := mem_cells0.1 hc
      refine ⟨?_, rfl⟩
      by_cases hk0 : k = 0
      · rw [← hk0, ← e]; rfl
      · exfalso
        refine (hEss (ofDual x) ((hle' x).1 (by simp))).2 (.edge 0 k) ?_
        rw [e]
        exact (hP _ _).2 ⟨0, by simp, complete_vertex h hE hm (by omega) hk⟩
    · exfalso
      obtain ⟨e, hxe, _⟩ := mem_cells1.1 hc
      have hv : D.filt (ofDual x) = some (grpphF et E (ofDual x)) := by rw [hfilt]; exact grpphF_spec h hc
      have hr : reportEssential D.filt [x] = some [[], [grpphF et E (ofDual x)]] := by
        unfold reportEssential
        rw [List.foldlM_cons, hv, hxe]; rfl
      rw [hr] at h1
      simp at h1
  · intro lp hlp hlp'
    obtain ⟨-, -, -, q0, q1⟩ := key dgm.essential.toList lp ⟨Finset.nodup_toList _, fun x => Finset.mem_toList⟩ ⟨hlp, hlp'⟩
    set L := lp.filter fun x => grpphF et E (ofDual x.1) ≠ grpphF et E (ofDual x.2) with hL
    have hmem : ∀ x ∈ L, x ∈ dgm.pairings ∧ grpphF et E (ofDual x.1) ≠ grpphF et E (ofDual x.2) := by
      intro x hx
      obtain ⟨h1, h2⟩ := List.mem_filter.1 hx
      exact ⟨(hlp' x).1 h1, by simpa using h2⟩
    have hkind : ∀ x ∈ L, ∃ a b τ t, x = (toDual (.twoCell τ), toDual (.edge a b)) ∧ (a, b) ∈ E ∧ TwoCellAt n (fun i j => if i = j then none else some w) τ t ∧
        IsPersistencePair (rowKey (grpphF et E)) (grpphCells et n (fun i j => if i = j then none else some w) E 2) (grpphM K) (.edge a b) (.twoCell τ) := by
      intro x hx
      obtain ⟨hx1, hx2⟩ := hmem x hx
      obtain ⟨d, hd, c1, c2, c3⟩ := hpair x hx1
      have hd' : d = 0 ∨ d = 1 := by omega
      rcases hd' with rfl | rfl
      · exfalso
        obtain ⟨k, -, e⟩ := mem_cells0.1 c1
        have : (grpphF et E (ofDual x.2), grpphF et E (ofDual x.1)) ∈ barsIn (grpphF et E) lp 0 := by
          unfold barsIn
          refine List.mem_map.2 ⟨x, List.mem_filter.2 ⟨(hlp' x).2 hx1, ?_⟩, rfl⟩
          rw [decide_eq_true_eq]
          exact ⟨hx2, by rw [e]; rfl⟩
        rw [q0] at this
        cases this
      · obtain ⟨e, he, hee⟩ := mem_cells1.1 c1
        obtain ⟨τ, t, hτ, hc⟩ := mem_cells2.1 c2
        have heE : e ∈ E := by
          rcases hee with h1 | ⟨h1, h2, h3⟩
          · exact h1
          · refine (hm e).2 ⟨h1, h2, fun h4 => ?_⟩
            simp [h4] at h3
        refine ⟨e.1, e.2, τ, t, ?_, heE, hτ, ?_⟩
        · rw [← he, ← hc]; rfl
        · rw [← he, ← hc]; exact c3
    have hlen : L.length = n * (n - 1) + 1 - n := by
      have : (barsIn (grpphF et E) lp 1).length = L.length := by
        unfold barsIn
        rw [List.length_map, hL]
        congr 1
        refine List.filter_congr fun x hx => ?_
        rw [decide_eq_decide]
        refine ⟨fun h => h.1, fun h => ⟨h, ?_⟩⟩
        obtain ⟨a, b, τ, t, e, -⟩ := hkind x (List.mem_filter.2 ⟨hx, by simpa using h⟩)
        rw [e]; rfl
      rw [← this, q1, List.length_replicate]
    have hw : ∀ x ∈ completePairs n, (IsPersistencePair (rowKey (grpphF et E)) (grpphCells et n (fun i j => if i = j then none else some w) E 2) (grpphM K)
        (.edge x.1.1 x.1.2) (.twoCell x.2)) ∧ grpphF et E (.edge x.1.1 x.1.2) = 0 ∧ grpphF et E (.twoCell x.2) = w := by
      intro x hx
      rcases mem_completePairs.1 hx with ⟨a, b, ha, hb, rfl⟩ | ⟨a, b, h0, ha, hb, rfl⟩
      · exact ⟨complete_double h hE hm ha hb, complete_edge hm hb (ha.trans hb) ha.ne', (complete_cell h (complete_double_mem (by omega) hb ha.ne)).1⟩
      · exact ⟨complete_triangle h hE hm h0 ha hb, complete_edge hm (ha.trans hb) hb ha.ne,
          (complete_cell h (complete_triangle_mem (by omega) (by omega) hb h0.ne ha.ne (by omega))).1⟩
    refine ⟨List.Perm.symm (List.Subperm.perm_of_length_le (List.Nodup.subperm ((completePairs_nodup n).map pairCells_injective) ?_) ?_), fun x hx => (hw x hx).2⟩
    · intro y hy
      obtain ⟨x, hx, rfl⟩ := List.mem_map.1 hy
      obtain ⟨p, v1, v2⟩ := hw x hx
      refine List.mem_filter.2 ⟨(hlp' _).2 ((hP _ _).2 ⟨1, by simp, p⟩), ?_⟩
      rw [decide_eq_true_eq]
      show grpphF et E (.twoCell x.2) ≠ grpphF et E (.edge x.1.1 x.1.2)
      rw [v1, v2]
      exact hw0.ne'
    · rw [hlen, List.length_map, completePairs_length]
      obtain ⟨m, rfl⟩ : ∃ m, n = m + 1 := ⟨n - 1, by omega⟩
      simp only [Nat.add_sub_cancel]
      rw [Nat.add_mul, one_mul, pow_two]; omega

theorem perm_map {α β : Type} {f : α → β} {l : List β} {m : List α} (h : l.Perm (m.map f)) : ∃ m' : List α, m'.Perm m ∧ l = m'.map f := by
  induction m generalizing l with
  | nil => exact ⟨[], .nil, by simpa using h⟩
  | cons a m ih =>
    obtain ⟨l1, l2, rfl⟩ := List.append_of_mem (h.mem_iff.2 (by simp : f a ∈ (a :: m).map f))
    have h' : (l1 ++ l2).Perm (m.map f) := (List.perm_cons (f a)).1 (List.perm_middle.symm.trans h)
    obtain ⟨m', h1, h2⟩ := ih h'
    obtain ⟨m1, m2, rfl, rfl, rfl⟩ := List.append_eq_map_iff.1 h2
    exact ⟨m1 ++ a :: m2, List.perm_middle.trans (h1.cons a), by simp⟩

theorem twoCellName_eq (c : PathHom2Cell) : debug2Cell c = twoCellName c := by
  cases c <;> rfl

theorem grpphRun_parts {et : EdgeTime F} {E : List (ℕ × ℕ)} {fuel : ℕ} {D : FOracle CF PathHomCell PathHomCell F} {dgm : Diagram PathHomCellᵒᵈ}
    (h : grpphRun CF et E n fuel = some (D, dgm)) : ∃ d r, buildGrpphCoboundary CF et E n = some d ∧
      buildWithDiagram d.1.ref.reverse.ref d.2.reverse fuel [0, 1] = some r ∧ d.1 = D ∧ r.2 = dgm := by
  obtain ⟨d, h1, h2⟩ := Option.bind_eq_some_iff.1 h
  obtain ⟨r, h3, h4⟩ := Option.map_eq_some_iff.1 h2
  exact ⟨d, r, h1, h3, (Prod.mk.inj h4).1, (Prod.mk.inj h4).2⟩

/-- C89: what the example program prints, including its shortest paths, for every number of vertices from 2 to 65535, every addition of lengths, every order of the hash
sets and of the adjacency lists, and every heap: the vertex 0 is the essential cell, and the pairs are those of `completePairs n`, in some order; then the assertions hold. -/
theorem C89_text (K : Type) [Field K] [LawfulCoeff CF K] (hn : n < 65536) (hn2 : 2 ≤ n) {add : F → F → F} (hadd : IsLengthAddition add) {one : F} (h0 : 0 < one) (h1 : one < ⊤)
    {adj : List (ℕ × ℕ × F) → ℕ → List (ℕ × ℕ × F)} {order : List (ℕ × ℕ) → List (ℕ × ℕ)} (hadj : IsAdjacency adj) (horder : ∀ l, (order l).Perm l) (fmt : F → String) :
    ∃ enough, ∀ fuel ≥ enough, ∀ fuelD ≥ n * n + 2, ∀ enumE enumP, Enumerates enumE → Enumerates enumP →
      ∃ pairs, pairs.Perm (completePairs n) ∧
        grpphMainStdout CF fmt add one adj order enumE enumP n fuelD fuel = (completeText (fmt 0) (fmt one) n pairs, true) := by
  have hw : ∀ e ∈ completeEdges n one, 0 ≤ e.2.2 := by
    rintro ⟨a, b, x⟩ he
    rw [(mem_completeEdges.1 he).2.2.2]; exact h0.le
  have hfinite : finiteEdges (completeEdges n one) = completeEdges n one := by
    refine List.filter_eq_self.2 ?_
    rintro ⟨a, b, x⟩ he
    simp [(mem_completeEdges.1 he).2.2.2, h1]
  have hlen : (completeEdges n one).length ≤ n * n := by
    unfold completeEdges
    rw [List.length_map]
    refine (List.length_filter_le _ _).trans ?_
    rw [List.length_flatMap]
    simp
  obtain ⟨sp, hsp⟩ := exists_shortestPaths hadd hw
  have e : asU16 n = n := Nat.mod_eq_of_lt hn
  have hF := complete_filtration hadd h0 h1 hsp (n := n)
  have hp := horder (mainEdgeSet n)
  obtain ⟨D, dgm, ⟨N, hrun⟩, f, f1, f2, f3, f4⟩ := complete_pairs (CF := CF) K hn hn2 h0 h1 hF (hp.nodup_iff.2 (List.nodup_dedup _))
    (fun e => (hp.mem_iff).trans (mem_mainEdgeSet hn e))
  refine ⟨N, fun fuel hf fuelD hfD enumE enumP hE hP => ?_⟩
  have ht := tables_spec hadd hadj hw hsp n (fuel := fuelD) (by omega)
  unfold dijkstraTables at ht
  rw [hfinite] at ht
  obtain ⟨d, r, r1, r2, rfl, rfl⟩ := grpphRun_parts (hrun fuel hf)
  obtain ⟨g1, g2⟩ := f3 _ (hE r.2.essential).1 (hE r.2.essential).2
  obtain ⟨g3, g4⟩ := f4 _ (hP r.2.pairings).1 (hP r.2.pairings).2
  obtain ⟨pairs, p1, p2⟩ : ∃ pairs : List ((ℕ × ℕ) × PathHom2Cell), pairs.Perm (completePairs n) ∧ ((enumP r.2.pairings).filter fun x => f (ofDual x.1) ≠ f (ofDual x.2)) = pairs.map pairCells := perm_map g3
  refine ⟨pairs, p1, ?_⟩
  have hplen : pairs.length = (n - 1) ^ 2 := p1.length_eq.trans (completePairs_length n)
  have hcard : r.2.essential.card = 1 := by
    have : (enumE r.2.essential).toFinset = r.2.essential := by
      ext x; rw [List.mem_toFinset]; exact (hE r.2.essential).2 x
    rw [← this, List.toFinset_card_of_nodup (hE r.2.essential).1, g1]; rfl
  unfold grpphMainStdout
  rw [ht, e]
  simp only [Printing.compute, Printing.line, Printing.andThen, if_true]
  rw [buildFiltration_tables, r1]
  simp only [if_true]
  rw [r2]
  simp only [if_true]
  rw [grpphPrintReport_eq (f := f) (fun x hx => f1 x (((hE _).2 x).1 hx)) (fun x hx => f2 x (((hP _).2 x).1 hx))]
  · rw [p2, g1]
    unfold completeText
    have hl : ∀ x ∈ pairs, grpphPairingLine fmt (((pairCells x).2, (pairCells x).1), f (ofDual (pairCells x).2), f (ofDual (pairCells x).1)) =
        " pair=(Reverse(Edge(" ++ toString x.1.1 ++ ", " ++ toString x.1.2 ++ ")), Reverse(TwoCell(" ++ twoCellName x.2 ++ "))), f=(" ++ fmt 0 ++ ", " ++ fmt one ++ ")\n" := by
      intro x hx
      obtain ⟨v1, v2⟩ := g4 x (p1.mem_iff.1 hx)
      rw [← twoCellName_eq]
      show " pair=(" ++ debugRevCell (toDual (.edge x.1.1 x.1.2)) ++ ", " ++ debugRevCell (toDual (.twoCell x.2)) ++ "), f=(" ++ fmt (f (.edge x.1.1 x.1.2)) ++ ", " ++
        fmt (f (.twoCell x.2)) ++ ")\n" = _
      rw [v1, v2]
      have e1 : " pair=(Reverse(Edge(" = " pair=(" ++ ("Reverse(" ++ "Edge(") := by decide
      have e2 : ")), Reverse(TwoCell(" = ")" ++ (")" ++ (", " ++ ("Reverse(" ++ "TwoCell("))) := by decide
      have e3 : "))), f=(" = ")" ++ (")" ++ "), f=(") := by decide
      rw [e1, e2, e3]
      unfold debugRevCell debugCell
      simp only [String.append_assoc, OrderDual.ofDual_toDual]
    rw [List.map_map, List.map_congr_left (f := _ ∘ pairCells) hl]
    simp only [List.length_map, hplen, List.map_cons, List.map_nil, String.join_cons, String.join_nil, String.append_empty, OrderDual.ofDual_toDual, g2, grpphEssentialLine]
    refine Prod.ext ?_ rfl
    have e1 : "Built graph\nComputed filtration\nBuilt coboundary matrix\nEssential:\n birth=Reverse(Node(0)), f=(" =
      "Built graph\n" ++ ("Computed filtration\n" ++ ("Built coboundary matrix\n" ++ ("Essential:\n" ++ (" birth=" ++ (debugRevCell (toDual (.node 0)) ++ ", f=("))))) := by decide
    have e2 : ", ∞)\n\nPairings:\n" = ", ∞)\n" ++ "\nPairings:\n" := by decide
    rw [e1, e2]
    simp only [String.append_assoc]
  · rw [p2, List.length_map, hplen, hcard]
    unfold completeAsserts
    have h2 : n ≤ n * (n - 1) := Nat.le_mul_of_pos_right n (by omega)
    have key : (n - 1) ^ 2 = n * (n - 1) - n + 1 := by
      obtain ⟨m, hm'⟩ : ∃ m, n = m + 2 := ⟨n - 2, by omega⟩
      rw [show n * (n - 1) = (m + 1) ^ 2 + (m + 1) by rw [hm', show m + 2 - 1 = m + 1 by omega]; ring, hm', show m + 2 - 1 = m + 1 by omega]
      have : 0 < (m + 1) ^ 2 := by positivity
      omega
    rw [if_neg (by omega), if_neg (by omega), if_pos ⟨by first | exact key | omega, rfl⟩]

end

/-! ### Concrete cases -/

namespace GrPPHExample
open GraphExample

/-- The hypotheses are met: extended natural numbers with their addition and 1, and adjacency lists with the newest edge first. -/
example : (0 : WithTop ℕ) < 1 ∧ (1 : WithTop ℕ) < ⊤ ∧ IsLengthAddition (fun x y : WithTop ℕ => x + y) ∧ IsAdjacency newestFirst ∧
    Enumerates enumE ∧ Enumerates enumP := ⟨by decide, by decide, natTop_add, newestFirst_adj, enumBy_enumerates _ _, enumBy_enumerates _ _⟩

/-- The text of the specification for 3 vertices. -/
example : completeText "0" "1" 3 (completePairs 3) =
    "Built graph\nComputed filtration\nBuilt coboundary matrix\nEssential:\n birth=Reverse(Node(0)), f=(0, ∞)\n\nPairings:\n" ++
    " pair=(Reverse(Edge(1, 0)), Reverse(TwoCell(DoubleEdge(0, 1)))), f=(0, 1)\n" ++
    " pair=(Reverse(Edge(2, 0)), Reverse(TwoCell(DoubleEdge(0, 2)))), f=(0, 1)\n" ++
    " pair=(Reverse(Edge(2, 1)), Reverse(TwoCell(DoubleEdge(1, 2)))), f=(0, 1)\n" ++
    " pair=(Reverse(Edge(1, 2)), Reverse(TwoCell(DirectedTriangle(0, 1, 2)))), f=(0, 1)\n4\n" := by decide +kernel

set_option synthInstance.maxSize 2000 in
set_option synthInstance.maxHeartbeats 200000 in
/-- The program run with 3 vertices in the model prints a text of this form, with the pairs in the reverse of the order above. -/
example : (letI := listHeap; grpphMainStdout Z2 (fun x : WithTop ℕ => if x = 0 then "0" else "1") (fun x y => x + y) 1 newestFirst id enumE enumP 3 11 100) =
    (completeText "0" "1" 3 (completePairs 3).reverse, true) := by decide +kernel

end GrPPHExample
end Phlite
