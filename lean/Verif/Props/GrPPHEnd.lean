/-
Property theorems C38, C42, C43: the entry points `grpph` and `grpph_with_involution` compute grounded persistent path homology.
-/
import Verif.Proofs.Involution
import Verif.Proofs.ListHeap

set_option linter.unusedSectionVars false
set_option linter.unusedSimpArgs false

namespace Phlite
open Finsupp (single linearCombination linearCombination_single supported)
open OrderDual (toDual ofDual)

/-! ### C42 -/
section
variable {F : Type} [LinearOrder F] [Zero F] [OrderTop F]
variable {et : EdgeTime F} {n : ℕ} {time : ℕ → ℕ → Option F} {E : List (ℕ × ℕ)} {bm : BridgeMap}
variable (K : Type) {CF : Type} [Field K] [NonZeroCoeff CF] [LawfulCoeff CF K]

/-- C42: the 2-cells that occur in the coboundary columns of the arrows, up to filtration value `t`, form a basis of the ∂-invariant 2-chains of
the digraph at time `t`: their chains are linearly independent and span. -/
theorem C42_two_cells_basis (h : IsDigraphFiltration et n time) (hbm : buildPrimaryBridgeMap et n = some bm) (t : F) :
    LinearIndepOn K (cellChain K) {τ | ∃ u ≤ t, (grpphCoboundary CF et bm E n).filt (.twoCell τ) = some u ∧
      ∃ a < n, ∃ b < n, ∃ l, (grpphCoboundary CF et bm E n).column (.edge a b) = some l ∧ PathHomCell.twoCell τ ∈ l.map Prod.snd} ∧
    Submodule.span K (cellChain K '' {τ | ∃ u ≤ t, (grpphCoboundary CF et bm E n).filt (.twoCell τ) = some u ∧
      ∃ a < n, ∃ b < n, ∃ l, (grpphCoboundary CF et bm E n).column (.edge a b) = some l ∧ PathHomCell.twoCell τ ∈ l.map Prod.snd}) =
      omega2 K n time t := by
  have key : {τ | ∃ u ≤ t, (grpphCoboundary CF et bm E n).filt (.twoCell τ) = some u ∧
      ∃ a < n, ∃ b < n, ∃ l, (grpphCoboundary CF et bm E n).column (.edge a b) = some l ∧ PathHomCell.twoCell τ ∈ l.map Prod.snd} =
      twoCellsAt n time t := by
    ext τ
    constructor
    · rintro ⟨u, hu, hf, a, ha, b, hb, l, hl, hm⟩
      obtain ⟨l', h1, _, h3, _⟩ := C34_edge_column (CF := CF) (K := K) (E := E) h hbm ha hb
      rw [hl] at h1; cases h1
      obtain ⟨τ', x, e, hx, _⟩ := (h3 _).1 hm
      injection e with e
      subst e
      have := hx.filt h E
      have hf' : grpphFiltrationValue et E (.twoCell τ) = some u := hf
      rw [this] at hf'
      cases hf'
      exact ⟨_, hu, hx⟩
    · rintro ⟨u, hu, hτ⟩
      refine ⟨u, hu, hτ.filt h E, ?_⟩
      have hne : ∃ x, x ∈ grpphBoundaryColumn CF (.twoCell τ) := by
        cases τ <;> exact ⟨_, List.mem_cons_self⟩
      obtain ⟨x, hx⟩ := hne
      obtain ⟨e, he, h1, h2, _⟩ := twoCell_edges h E hτ x hx
      obtain ⟨l, a1, _, a3, _⟩ := C34_edge_column (CF := CF) (K := K) (E := E) h hbm h1 h2
      exact ⟨e.1, h1, e.2, h2, l, a1, (a3 _).2 ⟨τ, u, rfl, hτ, _, rfl, List.mem_map.2 ⟨x, hx, he⟩⟩⟩
  rw [key]
  refine ⟨(cellChain_independent K n time).mono ?_, (omega2_eq_span K n time t).symm⟩
  rintro τ ⟨u, _, hτ⟩
  exact ⟨u, hτ⟩

end

/-! ### C43 -/
section
variable {F : Type} [LinearOrder F] [Zero F] [OrderTop F] [StdHeap]
variable {n : ℕ} {E : List (ℕ × ℕ)} {K CF : Type} [Field K] [NonZeroCoeff CF] [LawfulCoeff CF K]

theorem grpphF_nonneg {et : EdgeTime F} {time : ℕ → ℕ → Option F} (h : IsDigraphFiltration et n time)
    (h0 : ∀ a < n, ∀ b < n, ∀ x, time a b = some x → 0 ≤ x) {d : ℤ} (hd : d < 2) {c : PathHomCell}
    (hc : c ∈ grpphCells et n time E d) : 0 ≤ grpphF et E c := by
  by_cases e0 : d = 0
  · subst e0
    obtain ⟨s, hs, rfl⟩ := mem_cells0.1 hc; exact le_rfl
  by_cases e1 : d = 1
  · subst e1
    obtain ⟨e, rfl, he⟩ := mem_cells1.1 hc
    by_cases hE : e ∈ E
    · rw [grpphF_edge_mem et hE]
    · obtain ⟨h1, h2, h3⟩ := he.resolve_left hE
      obtain ⟨x, hx⟩ := Option.isSome_iff_exists.1 h3
      rw [grpphF_edge_time h hE h1 h2 hx]
      exact h0 _ h1 _ h2 x hx
  rw [cells_other e0 e1 (by omega)] at hc; simp at hc

theorem grpph_pair_le {et : EdgeTime F} {time : ℕ → ℕ → Option F} (h : IsDigraphFiltration et n time)
    (h0 : ∀ a < n, ∀ b < n, ∀ x, time a b = some x → 0 ≤ x) (hE : E.Nodup) (hEn : ∀ e ∈ E, e.1 < n ∧ e.2 < n) (CF : Type) [NonZeroCoeff CF] [LawfulCoeff CF K] {d : ℕ} (hd : d < 2) {σ τ : PathHomCell}
    (hp : IsPersistencePair (rowKey (grpphF et E)) (grpphCells et n time E (d + 1)) (grpphM K) σ τ) : grpphF et E σ ≤ grpphF et E τ := by
  have hX := grpphCellComplex (K := K) h hE hEn CF
  obtain ⟨_, _, x, hx, _, hne, p, q, hpq, hor⟩ := pair_deg (deg := grpphDeg) (ε := -1) (rowKey_injective _) (grpphCells_nodup hE _)
    (fun c hc r hr => by
      have := deg_of_mem (hX.rowsM _ c hc r hr)
      rw [this, deg_of_mem hc]; ring) hp
  have h1 : grpphF et E σ ≤ grpphF et E x := by
    have hcell : (∃ a b, x = .edge a b ∧ a < n ∧ b < n ∧ ((a, b) ∈ E ∨ ∃ y, time a b = some y)) ∨ ∃ τ y, x = .twoCell τ ∧ TwoCellAt n time τ y := by
      interval_cases d
      · obtain ⟨e, rfl, he⟩ := mem_cells1.1 hx
        left
        by_cases hE : e ∈ E
        · exact ⟨_, _, rfl, (hEn e hE).1, (hEn e hE).2, Or.inl hE⟩
        · obtain ⟨h1, h2, h3⟩ := he.resolve_left hE
          exact ⟨_, _, rfl, h1, h2, Or.inr (Option.isSome_iff_exists.1 h3)⟩
      · obtain ⟨τ, t, hτ, rfl⟩ := mem_cells2.1 hx
        exact Or.inr ⟨τ, t, rfl, hτ⟩
    obtain ⟨l, fc, e1, e2, e3⟩ := C36_monotone (CF := CF) (E := E) h h0 x hcell
    rw [← grpphBoundary_lcOf (CF := CF)] at hne
    obtain ⟨y, hy, rfl⟩ := lcOf_support hne
    have e1' : some (grpphBoundaryColumn CF x) = some l := e1
    cases e1'
    obtain ⟨fr, hfr, hfr'⟩ := e3 y hy
    have e2' : grpphFiltrationValue et E x = some fc := e2
    have e3' : grpphFiltrationValue et E y.2 = some fr := hfr'
    unfold grpphF
    rw [e2', e3']
    exact hfr
  refine h1.trans ?_
  rcases hor with rfl | hxp
  · exact le_rfl
  · have hs := grpphCells_sorted h hE (d + 1)
    rw [hpq] at hs
    have := (List.pairwise_append.1 hs).2.2 x hxp τ (by simp)
    exact (Prod.Lex.lt_iff.1 this).elim (fun h => h.le) fun h => h.1.le

theorem node_of_dim {c : PathHomCell} (h : c.dimension = 0) : ∃ s, c = .node s := by
  cases c with
  | node s => exact ⟨s, rfl⟩
  | edge a b => cases h
  | twoCell τ => cases h

/-- What is reported, in terms of cells, for any filtration. -/
theorem grpphRun_reports {et : EdgeTime F} {time : ℕ → ℕ → Option F} (h : IsDigraphFiltration et n time) (hE : E.Nodup) (hEn : ∀ e ∈ E, e.1 < n ∧ e.2 < n) :
    ∃ D dgm, (∃ enough, ∀ fuel ≥ enough, grpphRun CF et E n fuel = some (D, dgm)) ∧
      D.filt = grpphFiltrationValue et E ∧
      (∀ σ τ, (toDual τ, toDual σ) ∈ dgm.pairings ↔ (∃ d ∈ List.range 2,
        IsPersistencePair (rowKey (grpphF et E))
          (grpphCells et n time E (d + 1)) (grpphM K) σ τ)) ∧
      ∀ le lp, (le.Nodup ∧ ∀ x, x ∈ le ↔ x ∈ dgm.essential) → (lp.Nodup ∧ ∀ x, x ∈ lp ↔ x ∈ dgm.pairings) →
        ∃ e0 e1, reportEssential D.filt le = some [e0, e1] ∧
          reportPairings D.filt lp = some [barsIn (grpphF et E) lp 0,
            barsIn (grpphF et E) lp 1] ∧
          ((∀ x ∈ e0, x = 0) ∧ (∀ b ∈ barsIn (grpphF et E) lp 0, b.1 = 0) ∧ ∀ b ∈ barsIn (grpphF et E) lp 0 ++ barsIn (grpphF et E) lp 1, b.1 ≠ b.2) ∧
          ((∀ a < n, ∀ b < n, ∀ x, time a b = some x → 0 ≤ x) → (∀ x ∈ e0 ++ e1, 0 ≤ x) ∧
            ∀ b ∈ barsIn (grpphF et E) lp 0 ++ barsIn (grpphF et E) lp 1, 0 ≤ b.1 ∧ b.1 < b.2) ∧
          ∀ (s t : F) (_ : 0 ≤ s) (hst : s ≤ t),
            groundedBetti0 K {e | e ∈ E} n time hst =
              (e0.countP fun x => x ≤ s) + (barsIn (grpphF et E) lp 0).countP (fun b => b.1 ≤ s ∧ t < b.2) ∧
            groundedBetti1 K {e | e ∈ E} n time hst =
              (e1.countP fun x => x ≤ s) + (barsIn (grpphF et E) lp 1).countP (fun b => b.1 ≤ s ∧ t < b.2) := by
  obtain ⟨D, dgm, hrun, hfilt, hP, hEss, hB⟩ := grpphRun_spec (CF := CF) (K := K) h hE hEn
  have hX := grpphCellComplex (K := K) h hE hEn CF
  refine ⟨D, dgm, hrun, hfilt, hP, ?_⟩
  intro le lp ⟨hle, hle'⟩ ⟨hlp, hlp'⟩
  have hessc : ∀ x ∈ le, ∃ d < 2, ofDual x ∈ grpphCells et n time E (d : ℕ) := fun x hx => (hEss (ofDual x) ((hle' x).1 hx)).1
  have hpair : ∀ x ∈ lp, ∃ d : ℕ, d < 2 ∧ ofDual x.2 ∈ grpphCells et n time E d ∧ ofDual x.1 ∈ grpphCells et n time E (d + 1) ∧
      IsPersistencePair (rowKey (grpphF et E)) (grpphCells et n time E (d + 1)) (grpphM K) (ofDual x.2) (ofDual x.1) := by
    intro x hx
    obtain ⟨d, hd, hp⟩ := (hP (ofDual x.2) (ofDual x.1)).1 ((hlp' x).1 hx)
    obtain ⟨h1, h2⟩ := hX.pair_mem hp
    rw [add_sub_cancel_right] at h2
    exact ⟨d, List.mem_range.1 hd, h2, h1, hp⟩
  have hdim : ∀ {c : PathHomCell} {d : ℕ}, c ∈ grpphCells et n time E d → c.dimension = d := by
    intro c d hc
    have := deg_of_mem hc
    unfold grpphDeg at this
    exact_mod_cast this
  have r1 := reportEssential_spec (filt := grpphFiltrationValue et E) (f := grpphF et E) le (by
    intro x hx
    obtain ⟨d, hd, hc⟩ := hessc x hx
    exact ⟨grpphF_spec h hc, by rw [hdim hc]; exact hd⟩)
  have r2 := reportPairings_spec (filt := grpphFiltrationValue et E) (f := grpphF et E) lp (by
    intro x hx
    obtain ⟨d, hd, h1, h2, _⟩ := hpair x hx
    exact ⟨grpphF_spec h h1, grpphF_spec h h2, by rw [hdim h1]; exact hd⟩)
  have hbar : ∀ b ∈ barsIn (grpphF et E) lp 0 ++ barsIn (grpphF et E) lp 1,
      ∃ x ∈ lp, grpphF et E (ofDual x.1) ≠ grpphF et E (ofDual x.2) ∧ (grpphF et E (ofDual x.2), grpphF et E (ofDual x.1)) = b := by
    intro b hb
    unfold barsIn at hb
    rcases List.mem_append.1 hb with hx | hx <;>
    · obtain ⟨c, hc, rfl⟩ := List.mem_map.1 hx
      obtain ⟨h1, h2⟩ := List.mem_filter.1 hc
      simp only [ne_eq, decide_eq_true_eq] at h2
      exact ⟨c, h1, h2.1, rfl⟩
  refine ⟨_, _, by rw [hfilt]; exact r1, by rw [hfilt]; exact r2, ⟨?_, ?_, ?_⟩, fun h0 => ⟨?_, ?_⟩, ?_⟩
  · intro x hx
    obtain ⟨c, hc, rfl⟩ := List.mem_map.1 hx
    obtain ⟨s, hs⟩ := node_of_dim (by simpa using (List.mem_filter.1 hc).2)
    rw [hs]; rfl
  · intro b hb
    obtain ⟨c, hc, rfl⟩ := List.mem_map.1 hb
    have := (List.mem_filter.1 hc).2
    simp only [ne_eq, decide_eq_true_eq] at this
    obtain ⟨s, hs⟩ := node_of_dim this.2
    dsimp only
    rw [hs]; rfl
  · intro b hb
    obtain ⟨x, _, hne, rfl⟩ := hbar b hb
    exact fun e => hne e.symm
  · intro x hx
    have : ∃ c ∈ le, grpphF et E (ofDual c) = x := by
      rcases List.mem_append.1 hx with hx | hx <;>
      · obtain ⟨c, hc, rfl⟩ := List.mem_map.1 hx
        exact ⟨c, (List.mem_filter.1 hc).1, rfl⟩
    obtain ⟨c, hc, rfl⟩ := this
    obtain ⟨d, hd, hc'⟩ := hessc c hc
    exact grpphF_nonneg h h0 (by omega) hc'
  · intro b hb
    obtain ⟨x, hx, hne, rfl⟩ := hbar b hb
    obtain ⟨d, hd, h1, h2, hp⟩ := hpair x hx
    exact ⟨grpphF_nonneg h h0 (by omega) h1, lt_of_le_of_ne (grpph_pair_le h h0 hE hEn CF hd hp) (Ne.symm hne)⟩
  · intro s t hs hst
    refine ⟨?_, ?_⟩
    · rw [← betti0_grounded K h hs hst, ← report_count hle hle' hlp hlp' 0 hst]
      exact hB 0 (by omega) s t hst
    · rw [← betti1_grounded K h hEn hs hst, ← report_count hle hle' hlp hlp' 1 hst]
      exact hB 1 (by omega) s t hst

/-- What `grpph` reports, in terms of cells. -/
theorem grpph_reports (hn : n < 65536) {sp : ℕ → ℕ → Option F} (hsp : TopClosed n sp)
    (hE : E.Nodup) (hEn : ∀ e ∈ E, e.1 < n ∧ e.2 < n) :
    ∃ D dgm, (∃ enough, ∀ fuel ≥ enough, grpphDiagram CF n sp E fuel = some (D, dgm)) ∧
      D.filt = grpphFiltrationValue (vecEdgeTime (buildFiltration n sp)) E ∧
      (∀ σ τ, (toDual τ, toDual σ) ∈ dgm.pairings ↔ (∃ d ∈ List.range 2,
        IsPersistencePair (rowKey (grpphF (vecEdgeTime (buildFiltration n sp)) E))
          (grpphCells (vecEdgeTime (buildFiltration n sp)) n (fun i j => if i = j then none else sp i j) E (d + 1)) (grpphM K) σ τ)) ∧
      ∀ le lp, (le.Nodup ∧ ∀ x, x ∈ le ↔ x ∈ dgm.essential) → (lp.Nodup ∧ ∀ x, x ∈ lp ↔ x ∈ dgm.pairings) →
        ∃ e0 e1, reportEssential D.filt le = some [e0, e1] ∧
          reportPairings D.filt lp = some [barsIn (grpphF (vecEdgeTime (buildFiltration n sp)) E) lp 0,
            barsIn (grpphF (vecEdgeTime (buildFiltration n sp)) E) lp 1] ∧
          ((∀ x ∈ e0, x = 0) ∧ (∀ b ∈ barsIn (grpphF (vecEdgeTime (buildFiltration n sp)) E) lp 0, b.1 = 0) ∧
            ∀ b ∈ barsIn (grpphF (vecEdgeTime (buildFiltration n sp)) E) lp 0 ++ barsIn (grpphF (vecEdgeTime (buildFiltration n sp)) E) lp 1, b.1 ≠ b.2) ∧
          ((∀ i j x, sp i j = some x → 0 ≤ x) → (∀ x ∈ e0 ++ e1, 0 ≤ x) ∧
            ∀ b ∈ barsIn (grpphF (vecEdgeTime (buildFiltration n sp)) E) lp 0 ++ barsIn (grpphF (vecEdgeTime (buildFiltration n sp)) E) lp 1, 0 ≤ b.1 ∧ b.1 < b.2) ∧
          ∀ (s t : F) (_ : 0 ≤ s) (hst : s ≤ t),
            groundedBetti0 K {e | e ∈ E} n (fun i j => if i = j then none else sp i j) hst =
              (e0.countP fun x => x ≤ s) + (barsIn (grpphF (vecEdgeTime (buildFiltration n sp)) E) lp 0).countP (fun b => b.1 ≤ s ∧ t < b.2) ∧
            groundedBetti1 K {e | e ∈ E} n (fun i j => if i = j then none else sp i j) hst =
              (e1.countP fun x => x ≤ s) + (barsIn (grpphF (vecEdgeTime (buildFiltration n sp)) E) lp 1).countP (fun b => b.1 ≤ s ∧ t < b.2) := by
  have e : asU16 n = n := Nat.mod_eq_of_lt hn
  unfold grpphDiagram
  rw [e]
  obtain ⟨D, dgm, h1, h2, h3, h4⟩ := grpphRun_reports (CF := CF) (K := K) (C41_filtration n sp hsp) hE hEn
  refine ⟨D, dgm, h1, h2, h3, fun le lp hle hlp => ?_⟩
  obtain ⟨e0, e1, a1, a2, a3, a4, a5⟩ := h4 le lp hle hlp
  refine ⟨e0, e1, a1, a2, a3, fun hsp0 => a4 fun a _ b _ x hx => ?_, a5⟩
  split at hx
  · cases hx
  · exact hsp0 a b x hx

/-- `enum` lists every finite set without repetitions, in some order (the iteration order of a hash set). -/
def Enumerates {α : Type} (enum : Finset α → List α) : Prop := ∀ S, (enum S).Nodup ∧ ∀ x, x ∈ enum S ↔ x ∈ S

theorem edge_set_perm {W : Type} {edges : List (ℕ × ℕ × W)} (hn : n < 65536) (hedges : ∀ e ∈ edges, e.1 < n ∧ e.2.1 < n)
    (hperm : E.Perm (buildEdgeSet edges)) :
    E.Nodup ∧ (∀ e ∈ E, e.1 < n ∧ e.2 < n) ∧ {e | e ∈ E} = {e : ℕ × ℕ | ∃ w, (e.1, e.2, w) ∈ edges} := by
  obtain ⟨h1, h2⟩ := C41_edge_set edges fun e he => ⟨(hedges e he).1.trans hn, (hedges e he).2.trans hn⟩
  have hm : ∀ e : ℕ × ℕ, e ∈ E ↔ ∃ w, (e.1, e.2, w) ∈ edges := fun e => hperm.mem_iff.trans (h2 e.1 e.2)
  refine ⟨hperm.nodup_iff.2 h1, ?_, ?_⟩
  · intro e he
    obtain ⟨w, hw⟩ := (hm e).1 he
    exact hedges _ hw
  · ext e; exact hm e

/-- C43: `grpph(n, edges)` computes grounded persistent path homology. If `n < 65536`, all endpoints are below `n`, and the shortest path
lengths are non-negative, it terminates without panicking, for every iteration order of the hash sets; all births are non-negative, finite
bars have positive length, and for all `0 ≤ s ≤ t` and both degrees the number of bars born by `s` and alive after `t` is the rank of the map from
the homology at time `s` to the homology at time `t`. -/
theorem C43_grpph {W : Type} {edges : List (ℕ × ℕ × W)} (hn : n < 65536) (hedges : ∀ e ∈ edges, e.1 < n ∧ e.2.1 < n)
    (hperm : E.Perm (buildEdgeSet edges)) {sp : ℕ → ℕ → Option F} (hsp : ∀ i j x, sp i j = some x → 0 ≤ x) (htop : TopClosed n sp) :
    ∃ enough, ∀ fuel ≥ enough, ∀ enumE enumP, Enumerates enumE → Enumerates enumP →
      ∃ e0 e1 p0 p1, grpph CF enumE enumP n sp E fuel = some ([e0, e1], [p0, p1]) ∧
        (∀ x ∈ e0 ++ e1, 0 ≤ x) ∧ (∀ b ∈ p0 ++ p1, 0 ≤ b.1 ∧ b.1 < b.2) ∧
        ∀ (s t : F) (_ : 0 ≤ s) (hst : s ≤ t),
          groundedBetti0 K {e : ℕ × ℕ | ∃ w, (e.1, e.2, w) ∈ edges} n (fun i j => if i = j then none else sp i j) hst =
            (e0.countP fun x => x ≤ s) + p0.countP (fun b => b.1 ≤ s ∧ t < b.2) ∧
          groundedBetti1 K {e : ℕ × ℕ | ∃ w, (e.1, e.2, w) ∈ edges} n (fun i j => if i = j then none else sp i j) hst =
            (e1.countP fun x => x ≤ s) + p1.countP (fun b => b.1 ≤ s ∧ t < b.2) := by
  obtain ⟨hE, hEn, hset⟩ := edge_set_perm hn hedges hperm
  obtain ⟨D, dgm, ⟨enough, hrun⟩, _, _, hrep⟩ := grpph_reports (CF := CF) (K := K) hn htop hE hEn
  refine ⟨enough, fun fuel hf enumE enumP hEe hEp => ?_⟩
  obtain ⟨e0, e1, h1, h2, _, h34, h5⟩ := hrep _ _ (hEe dgm.essential) (hEp dgm.pairings)
  refine ⟨e0, e1, _, _, ?_, (h34 hsp).1, (h34 hsp).2, ?_⟩
  · unfold grpph
    rw [hrun fuel hf, Option.bind_some, h1, Option.bind_some, h2, Option.map_some]
  · rw [← hset]; exact h5

/-! ### C38 -/

/-- C38: the cells. Reducing the boundary matrix restricted to the death cells of degree 1 that the cohomology run has found, in any iteration order of its pairs, terminates without
panicking, pairs exactly the same cells as the cohomology run in degree 1, and leaves no death cell unpaired. -/
theorem C38_same_pairs (K : Type) [Field K] [LawfulCoeff CF K] {W : Type} {edges : List (ℕ × ℕ × W)} (hn : n < 65536) (hedges : ∀ e ∈ edges, e.1 < n ∧ e.2.1 < n)
    (hperm : E.Perm (buildEdgeSet edges)) {sp : ℕ → ℕ → Option F} (hsp : TopClosed n sp) :
    ∃ D dgm, (∃ enough, ∀ fuel ≥ enough, grpphDiagram CF n sp E fuel = some (D, dgm)) ∧
      ∀ enumP, Enumerates enumP → ∃ basis, involutionBasis D.filt (enumP dgm.pairings) = some basis ∧
        (∀ τ, τ ∈ basis.map Prod.snd ↔ ∃ σ, (toDual τ, toDual σ) ∈ dgm.pairings ∧ σ.dimension = 1) ∧
        ∃ v dgmB, (∀ fuelB : ℕ → ℕ, (∀ i, i + 1 ≤ fuelB i) →
            standardAlgoWithDiagram (buildGrpphBoundary CF (vecEdgeTime (buildFiltration n sp)) E basis).1.ref
              (buildGrpphBoundary CF (vecEdgeTime (buildFiltration n sp)) E basis).2 fuelB false = some (v, dgmB)) ∧
          ∀ σ τ, (σ, τ) ∈ dgmB.pairings ↔ (toDual τ, toDual σ) ∈ dgm.pairings ∧ σ.dimension = 1 := by
  classical
  obtain ⟨hE, hEn, hset⟩ := edge_set_perm hn hedges hperm
  obtain ⟨D, dgm, hrun, hfilt, hP, -⟩ := grpph_reports (CF := CF) (K := K) hn hsp hE hEn
  have h := C41_filtration n sp hsp
  have hX := grpphCellComplex (K := K) h hE hEn CF
  have key : ∀ σ τ, IsPersistencePair (rowKey (grpphF (vecEdgeTime (buildFiltration n sp)) E))
      (grpphCells (vecEdgeTime (buildFiltration n sp)) n (fun i j => if i = j then none else sp i j) E 2) (grpphM K) σ τ ↔
      (toDual τ, toDual σ) ∈ dgm.pairings ∧ σ.dimension = 1 := by
    intro σ τ
    rw [hP σ τ]
    constructor
    · intro q
      obtain ⟨_, c1⟩ := hX.pair_mem q
      have := deg_of_mem c1
      unfold grpphDeg at this
      exact ⟨⟨1, by simp, q⟩, by omega⟩
    · rintro ⟨⟨d, hd, q⟩, q2⟩
      obtain ⟨_, c1⟩ := hX.pair_mem q
      rw [add_sub_cancel_right] at c1
      have := deg_of_mem c1
      unfold grpphDeg at this
      have hd1 : d = 1 := by omega
      subst hd1
      exact q
  refine ⟨D, dgm, hrun, fun enumP hEp => ?_⟩
  obtain ⟨basis, hb1, hb2⟩ := involutionBasis_spec h hE hEn (hEp dgm.pairings).1 (fun σ τ => ((hEp dgm.pairings).2 _).trans (hP σ τ)) CF
  have hF := grpphFinite (K := K) (CF := CF) h hE hEn hb2
  obtain ⟨v, dgmB, hrunB⟩ := C16_standard_terminates hF false
  have hrunB' := fun (fuelB : ℕ → ℕ) (hf : ∀ i, i + 1 ≤ fuelB i) => (hrunB fuelB fun i _ => hf i).2.2.1
  refine ⟨basis, by rw [hfilt]; exact hb1, fun τ => ?_, v, dgmB, hrunB', fun σ τ => ?_⟩
  · rw [hb2, mem_deathsOf]
    exact exists_congr fun σ => key σ τ
  · rw [C18_pairings hF (hrunB' (fun i => i + 1) fun _ => le_rfl), pairs_restrict (rowKey_injective _) (grpphCells_nodup hE 2)]
    exact key σ τ

/-- C38: `grpph_with_involution(n, edges)` terminates without panicking on the same inputs (and even if path
lengths are negative), and returns the bars of `grpph` and one
representative for each finite bar in degree 1 (in some order): the representatives list, without repetitions and starting with an edge that
appears at the birth, the edges of chains that represent the bars. -/
theorem C38_involution {W : Type} {edges : List (ℕ × ℕ × W)} (hn : n < 65536) (hedges : ∀ e ∈ edges, e.1 < n ∧ e.2.1 < n)
    (hperm : E.Perm (buildEdgeSet edges)) {sp : ℕ → ℕ → Option F} (hsp : TopClosed n sp) :
    ∃ enough, ∀ fuel ≥ enough, ∀ fuelB : ℕ → ℕ, (∀ i, i + 1 ≤ fuelB i) → ∀ enumE enumP enumB, Enumerates enumE → Enumerates enumP → Enumerates enumB →
      ∃ ess p0 p1 reps, grpph CF enumE enumP n sp E fuel = some (ess, [p0, p1]) ∧
        grpphWithInvolution CF enumE enumP enumB n sp E fuel fuelB = some (ess, [p0, p1], reps) ∧
        ∃ (bar : ℕ → F × F) (z : ℕ → (ℕ × ℕ →₀ K)), ((List.range reps.length).map bar).Perm p1 ∧
          RepresentsBars K {e : ℕ × ℕ | ∃ w, (e.1, e.2, w) ∈ edges} n (fun i j => if i = j then none else sp i j) reps.length bar z ∧
          ∀ i rep, reps[i]? = some rep → rep.Nodup ∧ (∀ e, e ∈ rep ↔ z i e ≠ 0) ∧
            ∃ e ∈ rep.head?, EdgeAppears {e : ℕ × ℕ | ∃ w, (e.1, e.2, w) ∈ edges} n (fun i j => if i = j then none else sp i j) e (bar i).1 := by
  classical
  obtain ⟨hE, hEn, hset⟩ := edge_set_perm hn hedges hperm
  obtain ⟨D, dgm, ⟨enough, hrun⟩, hfilt, hP, hrep⟩ := grpph_reports (CF := CF) (K := K) hn hsp hE hEn
  rw [← hset]
  have h := C41_filtration n sp hsp
  have hX := grpphCellComplex (K := K) h hE hEn CF
  refine ⟨enough, fun fuel hf fuelB hfB enumE enumP enumB hEe hEp hEb => ?_⟩
  obtain ⟨e0, e1, h1, h2, _⟩ := hrep _ _ (hEe dgm.essential) (hEp dgm.pairings)
  set et := vecEdgeTime (buildFiltration n sp) with het
  set time : ℕ → ℕ → Option F := fun i j => if i = j then none else sp i j with htime
  set f := grpphF et E with hf'
  set cells := grpphCells et n time E with hcells
  set lp := enumP dgm.pairings with hlp
  have hsorted := grpphCells_sorted h hE 2
  -- the pairs of degree 1
  have hlpP : ∀ σ τ, (toDual τ, toDual σ) ∈ lp ↔ ∃ d ∈ List.range 2, IsPersistencePair (rowKey f) (cells (d + 1)) (grpphM K) σ τ :=
    fun σ τ => ((hEp dgm.pairings).2 _).trans (hP σ τ)
  obtain ⟨basis, hb1, hb2⟩ := involutionBasis_spec h hE hEn (hEp dgm.pairings).1 hlpP CF
  obtain ⟨V, rep, S, hV, hS, hreps, hinv⟩ := involutionReps_spec (CF := CF) h hE hEn hb2
  have hinv := hinv fuelB (fun i _ => hfB i) enumB (hEb S).2
  set L := (enumB S).filter fun p => f p.2 ≠ f p.1 with hL
  have hLS : ∀ p ∈ L, IsPersistencePair (rowKey f) (cells 2) (grpphM K) p.1 p.2 ∧ f p.2 ≠ f p.1 := by
    intro p hp
    obtain ⟨q1, q2⟩ := List.mem_filter.1 hp
    exact ⟨(hS p.1 p.2).1 (((hEb S).2 _).1 q1), by simpa using q2⟩
  have hLnd : L.Nodup := (hEb S).1.filter _
  refine ⟨[e0, e1], barsIn f lp 0, barsIn f lp 1, L.map fun p => rep p.2, ?_, ?_, ?_⟩
  · unfold grpph
    rw [hrun fuel hf, Option.bind_some, h1, Option.bind_some, h2, Option.map_some]
  · unfold grpphWithInvolution
    rw [hrun fuel hf, Option.bind_some, h1, Option.bind_some, h2, Option.bind_some, hfilt, hb1, Option.bind_some, hinv, Option.map_some]
  set R : PathHomCell → (PathHomCell →₀ K) := fun τ => linearCombination K (grpphM K) (V τ) with hR
  -- chains of edges
  have hz : ∀ τ ∈ deathsOf (rowKey f) (cells 2) (grpphM K), ∃ z : ℕ × ℕ →₀ K, edgeMap K z = R τ := by
    intro τ hτ
    have hm := reduced_boundary hsorted hV hτ
    have : Submodule.span K (grpphM K '' {x | x ∈ cells 2 ∧ f x ≤ f τ}) = (groundedB1 K n time (f τ)).map (edgeMap K) := by
      rw [← boundaries1 K h (E := E), boundariesOn_eq_span]; rfl
    rw [this] at hm
    obtain ⟨z, _, hz⟩ := hm
    exact ⟨z, hz⟩
  choose! z hz using hz
  have hedge : ∀ (y : ℕ × ℕ →₀ K) (e : ℕ × ℕ), edgeMap K y (.edge e.1 e.2) = y e := by
    intro y e
    exact Finsupp.mapDomain_apply (fun a b hab => by
      simp only [PathHomCell.edge.injEq] at hab
      exact Prod.ext hab.1 hab.2) y e
  have hB1 : ∀ t, Submodule.span K (grpphM K '' {x | x ∈ cells 2 ∧ f x ≤ t}) = (groundedB1 K n time t).map (edgeMap K) := by
    intro t
    rw [← boundaries1 K h (E := E), boundariesOn_eq_span]; rfl
  -- indexing
  set P : ℕ → PathHomCell × PathHomCell := fun i => L.getD i (.node 0, .node 0) with hPdef
  have hPi : ∀ i < L.length, P i ∈ L := by
    intro i hi
    rw [hPdef]
    simp only [List.getD_eq_getElem?_getD, List.getElem?_eq_getElem hi, Option.getD_some]
    exact List.getElem_mem _
  have hPinj : ∀ i < L.length, ∀ j < L.length, (P i).2 = (P j).2 → i = j := by
    intro i hi j hj e
    have q1 := (hLS _ (hPi i hi)).1
    have q2 := (hLS _ (hPi j hj)).1
    rw [← e] at q2
    have e1 := (pair_unique (rowKey_injective f) (sorted_nodup hsorted) (grpphM K)).1 _ _ _ q1 q2
    have e2 : P i = P j := Prod.ext e1 e
    rw [hPdef] at e2
    simp only [List.getD_eq_getElem?_getD, List.getElem?_eq_getElem hi, List.getElem?_eq_getElem hj, Option.getD_some] at e2
    exact (List.Nodup.getElem_inj_iff hLnd).1 e2
  have hPd : ∀ i < L.length, (P i).2 ∈ deathsOf (rowKey f) (cells 2) (grpphM K) := fun i hi => mem_deathsOf.2 ⟨_, (hLS _ (hPi i hi)).1⟩
  have hmap : (List.range L.length).map (fun i => (f (P i).1, f (P i).2)) = L.map fun p => (f p.1, f p.2) := by
    refine List.ext_getElem (by simp) fun i hi hi' => ?_
    have hi2 : i < L.length := by simpa using hi
    simp only [List.getElem_map, List.getElem_range, hPdef, List.getD_eq_getElem?_getD, List.getElem?_eq_getElem hi2, Option.getD_some]
  -- combinations
  have hcomb : ∀ a : ℕ → K, edgeMap K (∑ i ∈ Finset.range L.length, a i • z (P i).2) =
      linearCombination K R (∑ i ∈ Finset.range L.length, single (P i).2 (a i)) := by
    intro a
    rw [map_sum, map_sum]
    refine Finset.sum_congr rfl fun i hi => ?_
    rw [map_smul, hz _ (hPd i (Finset.mem_range.1 hi)), linearCombination_single]
  have hcoef : ∀ (a : ℕ → K) (i : ℕ), i < L.length → (∑ i ∈ Finset.range L.length, single (P i).2 (a i)) (P i).2 = a i := by
    intro a i hi
    rw [Finsupp.finsetSum_apply, Finset.sum_eq_single i]
    · simp
    · intro j hj hji
      rw [Finsupp.single_apply, if_neg]
      intro e
      exact hji (hPinj j (Finset.mem_range.1 hj) i hi e)
    · intro hi'; exact absurd (Finset.mem_range.2 hi) hi'
  have hsupp : ∀ (a : ℕ → K) (t : F), (∀ i < L.length, a i ≠ 0 → t < f (P i).2) →
      ∀ τ, (∑ i ∈ Finset.range L.length, single (P i).2 (a i)) τ ≠ 0 → τ ∈ deathsOf (rowKey f) (cells 2) (grpphM K) ∧ t < f τ := by
    intro a t ha τ hτ
    rw [Finsupp.finsetSum_apply] at hτ
    obtain ⟨i, hi, hne⟩ := Finset.exists_ne_zero_of_sum_ne_zero hτ
    rw [Finset.mem_range] at hi
    rw [Finsupp.single_apply] at hne
    split at hne
    · rename_i e
      rw [← e]
      exact ⟨hPd i hi, ha i hi hne⟩
    · exact absurd rfl hne
  refine ⟨fun i => (f (P i).1, f (P i).2), fun i => z (P i).2, ?_, ?_, ?_⟩
  · rw [List.length_map, hmap]
    -- both lists enumerate the pairs of degree 1 with different values
    have hperm : (L.map fun p => (toDual p.2, toDual p.1)).Perm
        (lp.filter fun x => f (ofDual x.1) ≠ f (ofDual x.2) ∧ (ofDual x.2).dimension = 1) := by
      rw [List.perm_ext_iff_of_nodup (hLnd.map (fun a b e => by
        simp only [Prod.mk.injEq, OrderDual.toDual_inj] at e
        exact Prod.ext e.2 e.1)) ((hEp dgm.pairings).1.filter _)]
      intro x
      rw [List.mem_map, List.mem_filter]
      simp only [ne_eq, decide_eq_true_eq]
      constructor
      · rintro ⟨p, hp, rfl⟩
        obtain ⟨q1, q2⟩ := hLS p hp
        obtain ⟨_, c1⟩ := hX.pair_mem q1
        have := deg_of_mem c1
        unfold grpphDeg at this
        exact ⟨(hlpP p.1 p.2).2 ⟨1, by simp, q1⟩, q2, by simp only [OrderDual.ofDual_toDual]; omega⟩
      · rintro ⟨hx, q1, q2⟩
        obtain ⟨d, hd, q⟩ := (hlpP (ofDual x.2) (ofDual x.1)).1 hx
        obtain ⟨_, c1⟩ := hX.pair_mem q
        rw [add_sub_cancel_right] at c1
        have := deg_of_mem c1
        unfold grpphDeg at this
        have hd1 : d = 1 := by omega
        subst hd1
        refine ⟨(ofDual x.2, ofDual x.1), List.mem_filter.2 ⟨((hEb S).2 _).2 ((hS _ _).2 q), by simpa using q1⟩, rfl⟩
    have := hperm.map fun x => (f (ofDual x.2), f (ofDual x.1))
    rw [List.map_map] at this
    exact this
  · rw [List.length_map]
    refine ⟨?_, ?_, ?_, ?_⟩
    · intro i hi
      -- supported on edges before the birth, and a cycle
      obtain ⟨q, _⟩ := hLS _ (hPi i hi)
      have hlead := reduced_lead hsorted hV q
      have hσ := (hX.pair_mem q).2
      have hcyc : R (P i).2 ∈ cyclesOn (grpphM K) (sublevel f cells 1 (f (P i).1)) := by
        refine ⟨?_, ?_⟩
        · rw [SetLike.mem_coe, Finsupp.mem_supported]
          intro r hr
          rw [Finset.mem_coe, Finsupp.mem_support_iff] at hr
          obtain ⟨x, x1, x2⟩ := lc_support hr
          have hx : x ∈ cells 2 := (List.mem_filter.1 (hV.mem_of_ne (hPd i hi) x1)).1
          refine ⟨by have := hX.rowsM 2 x hx r x2; exact this, ?_⟩
          have := hlead.2 r hr
          exact (Prod.Lex.le_iff.1 this).elim (fun h => h.le) fun h => h.1.le
        · show linearCombination K (grpphM K) (R (P i).2) = 0
          rw [hR]
          simp only
          rw [lc_lc, Finsupp.linearCombination_apply, Finsupp.sum]
          exact Finset.sum_eq_zero fun x _ => by rw [grpphM_sq, smul_zero]
      rw [← hz _ (hPd i hi)] at hcyc
      obtain ⟨y, hy, e⟩ := cycles1_le K h _ hcyc
      rw [← edgeMap_injective K e]
      exact hy
    · intro i hi
      have hm := reduced_boundary hsorted hV (hPd i hi)
      rw [hB1] at hm
      obtain ⟨y, hy, e⟩ := hm
      have e' : edgeMap K y = edgeMap K (z (P i).2) := e.trans (hz _ (hPd i hi)).symm
      rw [← edgeMap_injective K e']
      exact hy
    · intro t a ha hm i hi
      by_contra hne
      have hw : linearCombination K R (∑ i ∈ Finset.range L.length, single (P i).2 (a i)) ∈
          Submodule.span K (grpphM K '' {x | x ∈ cells 2 ∧ f x ≤ t}) := by
        rw [hB1, ← hcomb]
        exact ⟨_, hm, rfl⟩
      obtain ⟨r, _, hr⟩ := reduced_independent hsorted hV (hsupp a t ha) hw (zero_add _).symm (τ := (P i).2) (by rw [hcoef a i hi]; exact hne)
        (hLS _ (hPi i hi)).1
      exact hr rfl
    · intro s t a hs ha hm i hi hne
      obtain ⟨y, hy, w, hw, e⟩ := Submodule.mem_sup.1 hm
      have hw' : edgeMap K w ∈ Submodule.span K (grpphM K '' {x | x ∈ cells 2 ∧ f x ≤ t}) := by
        rw [hB1]; exact ⟨w, hw, rfl⟩
      obtain ⟨r, h1, hr⟩ := reduced_independent hsorted hV (hsupp a t ha) hw' (y := edgeMap K y) (by rw [← map_add, e]; exact (hcomb a).symm)
        (τ := (P i).2) (by rw [hcoef a i hi]; exact hne) (hLS _ (hPi i hi)).1
      refine h1.trans ?_
      have hmem : edgeMap K y ∈ supported K K (sublevel f cells 1 s) := by
        rw [sublevel1 h hs, edgeMap_supported]
        exact ⟨y, hy.1, rfl⟩
      exact ((Finsupp.mem_supported K _).1 hmem (Finsupp.mem_support_iff.2 hr)).2
  · intro i r hr
    rw [List.getElem?_map] at hr
    obtain ⟨p, hp, rfl⟩ := Option.map_eq_some_iff.1 hr
    obtain ⟨hi, hp'⟩ := List.getElem?_eq_some_iff.1 hp
    have hPp : P i = p := by rw [hPdef]; simp only [List.getD_eq_getElem?_getD, hp, Option.getD_some]
    obtain ⟨q, _⟩ := hLS _ (hPi i hi)
    rw [hPp] at q
    have hd := hPd i hi
    rw [hPp] at hd
    obtain ⟨r1, r2, e, he, heq⟩ := hreps p.1 p.2 ((hS _ _).2 q)
    simp only [hPp]
    refine ⟨r1, ?_, e, he, ?_⟩
    · intro e
      rw [r2, ← hedge, hz _ hd]
    · have hσ := (hX.pair_mem q).2
      rw [← heq] at hσ ⊢
      obtain ⟨e', he', hedge'⟩ := mem_cells1.1 hσ
      simp only [PathHomCell.edge.injEq] at he'
      have : e' = e := Prod.ext he'.1.symm he'.2.symm
      subst this
      by_cases hE' : e' ∈ E
      · exact Or.inl ⟨hE', grpphF_edge_mem et hE'⟩
      · obtain ⟨q1, q2, q3⟩ := hedge'.resolve_left hE'
        obtain ⟨x, hx⟩ := Option.isSome_iff_exists.1 q3
        refine Or.inr ⟨hE', q1, q2, ?_⟩
        show time e'.1 e'.2 = some (grpphF et E (.edge e'.1 e'.2))
        rw [grpphF_edge_time h hE' q1 q2 hx]
        exact hx

end
/-! ### Concrete case -/

/-- An enumeration of finite sets: sorted by an injective key. -/
def enumBy {α β : Type} [LinearOrder β] (key : α → β) (hk : Function.Injective key) (S : Finset α) : List α :=
  Quot.liftOn S.1 (fun l => l.insertionSort fun a b => key a ≤ key b) fun l l' h => by
    have : Std.Total (fun a b : α => key a ≤ key b) := ⟨fun a b => le_total (key a) (key b)⟩
    have : IsTrans α (fun a b : α => key a ≤ key b) := ⟨fun _ _ _ => le_trans⟩
    have : Std.Antisymm (fun a b : α => key a ≤ key b) := ⟨fun a b h1 h2 => hk (le_antisymm h1 h2)⟩
    exact List.Perm.eq_of_pairwise (fun a b _ _ h1 h2 => hk (le_antisymm h1 h2)) (List.pairwise_insertionSort _ l) (List.pairwise_insertionSort _ l')
      ((List.perm_insertionSort _ l).trans (h.trans (List.perm_insertionSort _ l').symm))

theorem enumBy_enumerates {α β : Type} [LinearOrder β] (key : α → β) (hk : Function.Injective key) : Enumerates (enumBy key hk) := by
  rintro ⟨⟨l⟩, hl⟩
  refine ⟨(List.perm_insertionSort _ l).nodup_iff.2 hl, fun x => ?_⟩
  exact (List.perm_insertionSort _ l).mem_iff

namespace GrPPHExample

def inputEdges : List (ℕ × ℕ × ℕ) := [(0, 1, 1), (1, 3, 1), (0, 2, 2), (1, 0, 4)]

def enumE : Finset PathHomCellᵒᵈ → List PathHomCellᵒᵈ := enumBy (fun x => OrderDual.ofDual x) fun _ _ h => h
def enumP : Finset (PathHomCellᵒᵈ × PathHomCellᵒᵈ) → List (PathHomCellᵒᵈ × PathHomCellᵒᵈ) := enumBy toLex toLex.injective
def enumB : Finset (PathHomCell × PathHomCell) → List (PathHomCell × PathHomCell) := enumBy toLex toLex.injective

/-- The hypotheses of C38 and C43 hold for this input. -/
example : (∀ e ∈ inputEdges, e.1 < 5 ∧ e.2.1 < 5) ∧ E.Perm (buildEdgeSet inputEdges) ∧ (∀ i j x, sp i j = some x → 0 ≤ x ∧ x < ⊤) ∧
    Enumerates enumE ∧ Enumerates enumP ∧ Enumerates enumB :=
  ⟨by decide, List.Perm.refl _, sp_ok, enumBy_enumerates _ _, enumBy_enumerates _ _, enumBy_enumerates _ _⟩

set_option synthInstance.maxSize 2000 in
set_option synthInstance.maxHeartbeats 200000 in
/-- The run: one essential component, the node 4 is joined at time 1, and the cycle `0 → 1 → 0` is filled at time 4; its representative. -/
example : (letI := listHeap; grpphWithInvolution Z2 enumE enumP enumB 5 sp E 100 (fun i => i + 1)) =
    some ([[0], []], [[(0, 1)], [(0, 4)]], [[(1, 0), (0, 1)]]) := by
  decide +kernel

end GrPPHExample

end Phlite
