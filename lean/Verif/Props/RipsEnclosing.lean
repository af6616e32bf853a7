/-
C92: no interval of a Rips barcode outlives the enclosing radius, and distances above it do not matter.
-/
import Verif.Theory.Enclosing
import Verif.Props.RipsTree
import Verif.Props.RipsReport
import Verif.Props.RipsInvariance

set_option linter.unusedSectionVars false
set_option linter.unusedSimpArgs false

namespace Phlite
open OrderDual (toDual ofDual)

section
variable {K F : Type} [Field K] [LinearOrder F] [Zero F] {n : ℕ} {d d' : ℕ → ℕ → F}

/-- At scales from the enclosing radius on the graph is connected. -/
theorem components_cone {q : ℕ} (hq : q < n) {t : F} (ht : ∀ i < n, d q i ≤ t) : componentCount n (fun a b => d a b ≤ t) = 1 := by
  rw [componentCount_congr (R := fun a b => d a b ≤ t) (R' := fun _ _ => True) (fun _ _ _ _ _ => trivial) fun a b ha hb _ =>
    .trans _ _ _ (.symm _ _ (.rel _ _ ⟨hq, ha, ht a ha⟩)) (.rel _ _ ⟨hq, hb, ht b hb⟩)]
  exact componentCount_complete (by omega) fun _ _ _ _ _ => trivial

/-- The intervals of a Vietoris-Rips barcode end at the enclosing radius, except for one in degree 0. -/
theorem IsRipsBarcode.enclosing (hdiag : ∀ i < n, d i i = 0) (hsymm : ∀ i < n, ∀ j < n, d i j = d j i) {q : ℕ} (hq : q < n) {r : F} (hr : ∀ i < n, d q i ≤ r) {p : ℕ}
    {bars : Multiset (F × WithTop F)} (h : IsRipsBarcode K n d p bars) :
    ∃ rest, (∀ b ∈ rest, b.2 ≤ (r : WithTop F)) ∧ bars = if p = 0 then (0, ⊤) ::ₘ rest else rest := by
  have h0r : 0 ≤ r := by rw [← hdiag q hq]; exact hr q hq
  by_cases hp : p = 0
  · subst hp
    obtain ⟨E, hE⟩ := (C87_exists n d).2 (by omega)
    have hb := (C87_barcode K hE hdiag hsymm bars).1 h
    set rest := (E.filter fun e => 0 < d e.1 e.2).val.map fun e => ((0 : F), (d e.1 e.2 : WithTop F)) with hrest
    refine ⟨rest, fun b hbm => ?_, by rw [if_pos rfl]; exact hb⟩
    by_contra hlt
    rw [not_le] at hlt
    have hc := h.2 0 r h0r
    dsimp only at hc
    rw [rips_components hdiag hsymm le_rfl h0r, components_cone hq hr, hb, aliveBars_cons, if_pos ⟨le_rfl, WithTop.coe_lt_top r⟩] at hc
    have : 0 < aliveBars rest 0 r := by
      refine aliveBars_pos.2 ⟨b, hbm, ?_, hlt⟩
      obtain ⟨e, _, rfl⟩ := Multiset.mem_map.1 hbm
      exact le_rfl
    omega
  · refine ⟨bars, fun b hbm => ?_, by rw [if_neg hp]⟩
    by_contra hlt
    rw [not_le] at hlt
    have ht : ∀ i < n, d q i ≤ max b.1 r ∧ d i q ≤ max b.1 r := fun i hi => by
      rw [hsymm i hi q hq]
      exact ⟨(hr i hi).trans (le_max_right _ _), (hr i hi).trans (le_max_right _ _)⟩
    have hc := (h.2 b.1 (max b.1 r) (le_max_left _ _)).trans (betti_cone (Nat.one_le_iff_ne_zero.2 hp) hq (le_max_left _ _) ht)
    have : 0 < aliveBars bars b.1 (max b.1 r) := by
      refine aliveBars_pos.2 ⟨b, hbm, le_rfl, ?_⟩
      rcases max_choice b.1 r with e | e <;> rw [e]
      · exact h.1 b hbm
      · exact hlt
    omega

/-- Distances above the enclosing radius do not matter. -/
theorem IsRipsBarcode.threshold (hdiag : ∀ i < n, d i i = 0) (hsymm : ∀ i < n, ∀ j < n, d i j = d j i) (hsymm' : ∀ i < n, ∀ j < n, d' i j = d' j i)
    {q : ℕ} (hq : q < n) {r : F} (hr : ∀ i < n, d q i ≤ r)
    (hsame : ∀ i < n, ∀ j < n, d i j ≤ r → d' i j = d i j) (hfar : ∀ i < n, ∀ j < n, r < d i j → r < d' i j)
    {p : ℕ} {bars : Multiset (F × WithTop F)} (h : IsRipsBarcode K n d p bars) : IsRipsBarcode K n d' p bars := by
  have h0r : 0 ≤ r := by rw [← hdiag q hq]; exact hr q hq
  have hdiag' : ∀ i < n, d' i i = 0 := fun i hi => by rw [hsame i hi i hi (by rw [hdiag i hi]; exact h0r), hdiag i hi]
  have hr' : ∀ i < n, d' q i ≤ r := fun i hi => by rw [hsame q hq i hi (hr i hi)]; exact hr i hi
  have hle : ∀ u ≤ r, ∀ i < n, ∀ j < n, d i j ≤ u ↔ d' i j ≤ u := by
    intro u hu i hi j hj
    constructor
    · intro h1; rw [hsame i hi j hj (h1.trans hu)]; exact h1
    · intro h1
      by_cases h2 : d i j ≤ r
      · rwa [hsame i hi j hj h2] at h1
      · exact absurd (h1.trans hu) (not_le.2 (hfar i hi j hj (not_le.1 h2)))
  have hcomplex : ∀ p, ∀ u ≤ r, vietorisRips n d p u = vietorisRips n d' p u := by
    intro p u hu
    ext σ
    refine and_congr_right fun h1 => and_congr_right fun _ => ?_
    exact forall₂_congr fun a ha => forall₂_congr fun b hb => hle u hu a (Finset.mem_range.1 (h1 ha)) b (Finset.mem_range.1 (h1 hb))
  refine ⟨h.1, fun s t hst => (h.2 s t hst).trans ?_⟩
  by_cases htr : t ≤ r
  · exact betti_congr (hcomplex p s (hst.trans htr)) (hcomplex p t htr) (hcomplex _ s (hst.trans htr)) (hcomplex _ t htr) _ _ _ _
  have hrt : r ≤ t := (not_le.1 htr).le
  by_cases hp : p = 0
  · subst hp
    by_cases hs : 0 ≤ s
    · have e1 := rips_components (K := K) hdiag hsymm hs hst
      have e2 := rips_components (K := K) hdiag' hsymm' hs hst
      rw [components_cone hq fun i hi => (hr i hi).trans hrt] at e1
      rw [components_cone hq fun i hi => (hr' i hi).trans hrt] at e2
      exact e1.trans e2.symm
    · have hempty : ∀ {d : ℕ → ℕ → F}, (∀ i < n, d i i = 0) → vietorisRips n d 0 s = ∅ := by
        intro d hd
        rw [Set.eq_empty_iff_forall_notMem]
        rintro σ ⟨h1, h2, h3⟩
        obtain ⟨a, ha⟩ := Finset.card_pos.1 (by omega : 0 < σ.card)
        have := h3 a ha a ha
        rw [hd a (Finset.mem_range.1 (h1 ha))] at this
        exact hs this
      exact (betti_empty _ _ (hempty hdiag)).trans (betti_empty _ _ (hempty hdiag')).symm
  · exact (betti_cone (by omega) hq hst fun i hi => ⟨(hr i hi).trans hrt, by rw [hsymm i hi q hq]; exact (hr i hi).trans hrt⟩).trans
      (betti_cone (by omega) hq hst fun i hi => ⟨(hr' i hi).trans hrt, by rw [hsymm' i hi q hq]; exact (hr' i hi).trans hrt⟩).symm

end

section
variable {F : Type} [LinearOrder F] [Zero F] {distances distances' : List (List F)} {d d' : ℕ → ℕ → F}

/-- C92: if some point is at distance at most `r` from all points, no interval that the Rips program prints ends after `r`, and the only infinite one is that of the
connected component of all points. -/
theorem C92_report [StdHeap] (CF K : Type) [Field K] [NonZeroCoeff CF] [LawfulCoeff CF K] (hD : IsDistanceMatrix distances d) (arg : Option ℕ)
    (h1 : 1 ≤ arg.getD 1 ∨ distances.length ≤ 1)
    {long : F → F → Bool} (hlong : ∀ b e, long b e = true → b < e) {enumE : Finset RipsIndexᵒᵈ → List RipsIndexᵒᵈ} (hE : Enumerates enumE)
    {enumP : Finset (RipsIndexᵒᵈ × RipsIndexᵒᵈ) → List (RipsIndexᵒᵈ × RipsIndexᵒᵈ)} (hP : Enumerates enumP)
    {q : ℕ} (hq : q < distances.length) {r : F} (hr : ∀ i < distances.length, d q i ≤ r) :
    ∃ report, (∃ enough, ∀ fuel ≥ enough, ripsMain CF long enumE enumP distances arg fuel = some report) ∧
      ∀ p ≤ arg.getD 1, ∃ rest, (∀ b ∈ rest, b.1 < r ∧ b.2 ≤ (r : WithTop F)) ∧ report.intervals p = if p = 0 then (0, ⊤) ::ₘ rest else rest := by
  classical
  obtain ⟨report, hrun, -, hint, -⟩ := C52_rips_report CF K hD arg h1 hlong hE hP
  refine ⟨report, hrun, fun p hp => ?_⟩
  obtain ⟨bars, hb, hi⟩ := hint p hp
  have hbar := (hb bars).2 rfl
  obtain ⟨rest, hrest, e⟩ := hbar.enclosing hD.diag hD.symm hq hr
  have hne : ∀ b ∈ rest, b.1 < r := fun b hbm => by
    have hlt := hbar.1 b (by rw [e]; split; exacts [Multiset.mem_cons_of_mem hbm, hbm])
    exact WithTop.coe_lt_coe.1 (hlt.trans_le (hrest b hbm))
  refine ⟨rest.filter fun b => ∀ e : F, b.2 = (e : WithTop F) → long b.1 e = true, fun b hbm => ?_, ?_⟩
  · have hbm := Multiset.mem_of_mem_filter hbm
    exact ⟨hne b hbm, hrest b hbm⟩
  · rw [hi, e]
    split
    · rw [Multiset.filter_cons_of_pos]
      intro x hx
      exact absurd hx (WithTop.coe_ne_top (a := x)).symm
    · rfl

/-- C92: distances above the enclosing radius do not matter. If some point is at distance at most `r` from all points, and the second matrix has the entries of the first one where
these are at most `r` and any entries above `r` elsewhere, runs on both give the same intervals in each dimension. -/
theorem C92_threshold (K : Type) [Field K] (H H' : StdHeap) {CF CF' : Type} [NonZeroCoeff CF] [LawfulCoeff CF K] [NonZeroCoeff CF'] [LawfulCoeff CF' K]
    (hD : IsDistanceMatrix distances d) (hD' : IsDistanceMatrix distances' d') (hlen : distances'.length = distances.length)
    {q : ℕ} (hq : q < distances.length) {r : F} (hr : ∀ i < distances.length, d q i ≤ r)
    (hsame : ∀ i < distances.length, ∀ j < distances.length, d i j ≤ r → d' i j = d i j)
    (hfar : ∀ i < distances.length, ∀ j < distances.length, r < d i j → r < d' i j) {max_dim max_dim' : ℕ}
    (h1 : 1 ≤ max_dim ∨ distances.length ≤ 1) (h1' : 1 ≤ max_dim' ∨ distances'.length ≤ 1) {p : ℕ} (hp : p ≤ max_dim) (hp' : p ≤ max_dim')
    {fuel fuel' : ℕ} {bars bars' : Multiset (F × WithTop F)} (h : ripsIntervals H CF distances max_dim fuel p = some bars)
    (h' : ripsIntervals H' CF' distances' max_dim' fuel' p = some bars') : bars' = bars := by
  have a := (C53_intervals K H hD h1 hp).2 fuel bars h
  have a' := (C53_intervals K H' hD' h1' hp').2 fuel' bars' h'
  rw [hlen] at a'
  refine IsBarcode.unique a' (a.threshold hD.diag hD.symm (fun i hi j hj => hD'.symm i (by omega) j (by omega)) hq hr hsame hfar)

end

namespace EnclosingExample

/-- Four points in a square and its centre, at distances 2, 3 and 4; the centre is at distance 2 from all points. -/
def centred : List (List ℕ) := [[0, 1, 4, 2, 2], [1, 0, 1, 4, 2], [4, 1, 0, 1, 2], [2, 4, 1, 0, 2], [2, 2, 2, 2, 0]]
/-- The diagonals have become longer. -/
def stretched : List (List ℕ) := [[0, 1, 9, 2, 2], [1, 0, 1, 7, 2], [9, 1, 0, 1, 2], [2, 7, 1, 0, 2], [2, 2, 2, 2, 0]]
def entry (m : List (List ℕ)) (i j : ℕ) : ℕ := (m.getD i []).getD j 0

/-- The hypotheses of C92. -/
example : IsDistanceMatrix centred (entry centred) ∧ IsDistanceMatrix stretched (entry stretched) ∧ (∀ i < centred.length, entry centred 4 i ≤ 2) ∧
    (∀ i < centred.length, ∀ j < centred.length, entry centred i j ≤ 2 → entry stretched i j = entry centred i j) ∧
    ∀ i < centred.length, ∀ j < centred.length, 2 < entry centred i j → 2 < entry stretched i j :=
  ⟨⟨by decide, by decide, by decide, by decide⟩, ⟨by decide, by decide, by decide, by decide⟩, by decide, by decide, by decide⟩

end EnclosingExample
end Phlite
