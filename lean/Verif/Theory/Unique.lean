/-
A barcode is determined by the persistent Betti numbers.
-/
import Verif.Spec.Intervals
import Verif.Spec.Barcode
import Mathlib.Data.Finset.Max
import Mathlib.Data.Multiset.AddSub
import Mathlib.Tactic.Push

set_option linter.unusedSectionVars false
set_option linter.unusedSimpArgs false

namespace Phlite

section
variable {F : Type} [LinearOrder F]

theorem aliveBars_pos {bars : Multiset (F × WithTop F)} {s t : F} : 0 < aliveBars bars s t ↔ ∃ b ∈ bars, b.1 ≤ s ∧ (t : WithTop F) < b.2 := by
  unfold aliveBars
  rw [Multiset.countP_pos]

theorem aliveBars_zero (s t : F) : aliveBars (0 : Multiset (F × WithTop F)) s t = 0 := by simp [aliveBars]

theorem aliveBars_add (A B : Multiset (F × WithTop F)) (s t : F) : aliveBars (A + B) s t = aliveBars A s t + aliveBars B s t := by
  unfold aliveBars
  rw [Multiset.countP_add]

theorem aliveBars_cons (a : F × WithTop F) (A : Multiset (F × WithTop F)) (s t : F) :
    aliveBars (a ::ₘ A) s t = aliveBars A s t + if a.1 ≤ s ∧ (t : WithTop F) < a.2 then 1 else 0 := by
  unfold aliveBars
  rw [Multiset.countP_cons]

/-- There is a greatest value below `d` among `b` and the deaths of finitely many bars. -/
theorem exists_before {b : F} {d : WithTop F} (hbd : (b : WithTop F) < d) (A : Multiset (F × WithTop F)) :
    ∃ t : F, b ≤ t ∧ (t : WithTop F) < d ∧ ∀ x ∈ A, (t : WithTop F) < x.2 → d ≤ x.2 := by
  classical
  induction A using Multiset.induction_on with
  | empty => exact ⟨b, le_rfl, hbd, by simp⟩
  | cons a A ih =>
    obtain ⟨t, h1, h2, h3⟩ := ih
    by_cases h : (t : WithTop F) < a.2 ∧ a.2 < d
    · obtain ⟨u, hu⟩ : ∃ u : F, a.2 = u := by
        have : a.2 ≠ ⊤ := fun e => by
          have := h.2; rw [e] at this; exact absurd le_top (not_le.2 this)
        exact ⟨a.2.untop this, (WithTop.coe_untop _ this).symm⟩
      rw [hu] at h
      have htu : t < u := WithTop.coe_lt_coe.1 h.1
      refine ⟨u, h1.trans htu.le, h.2, ?_⟩
      intro x hx hux
      rcases Multiset.mem_cons.1 hx with rfl | hx
      · rw [hu] at hux; exact absurd hux (lt_irrefl _)
      · exact h3 x hx (h.1.trans hux)
    · refine ⟨t, h1, h2, ?_⟩
      intro x hx htx
      rcases Multiset.mem_cons.1 hx with rfl | hx
      · by_contra hd
        exact h ⟨htx, not_le.1 hd⟩
      · exact h3 x hx htx

/-- A barcode is determined by its numbers of intervals containing two values. -/
theorem barcode_unique {A B : Multiset (F × WithTop F)} (hA : ∀ b ∈ A, (b.1 : WithTop F) < b.2) (hB : ∀ b ∈ B, (b.1 : WithTop F) < b.2)
    (h : ∀ s t, s ≤ t → aliveBars A s t = aliveBars B s t) : A = B := by
  classical
  induction hn : A.card generalizing A B with
  | zero =>
    rw [Multiset.card_eq_zero] at hn
    subst hn
    by_contra hne
    obtain ⟨b, hb⟩ := Multiset.exists_mem_of_ne_zero (fun e => hne e.symm)
    have h1 := h b.1 b.1 le_rfl
    have h2 := aliveBars_pos.2 ⟨b, hb, le_rfl, hB b hb⟩
    rw [← h1, aliveBars_zero] at h2
    exact absurd h2 (lt_irrefl _)
  | succ n ih =>
    -- the longest among the first bars
    have hne : A.toFinset.Nonempty := by
      rw [Multiset.toFinset_nonempty]
      rintro rfl
      simp at hn
    obtain ⟨a0, ha0, hmin⟩ := Finset.exists_min_image A.toFinset (fun x => x.1) hne
    obtain ⟨a, ha, hmax⟩ := Finset.exists_max_image (A.toFinset.filter fun x => x.1 = a0.1) (fun x => x.2) ⟨a0, by simp [Multiset.mem_toFinset.1 ha0]⟩
    rw [Finset.mem_filter, Multiset.mem_toFinset] at ha
    obtain ⟨haA, hab⟩ := ha
    have hmin' : ∀ x ∈ A, a.1 ≤ x.1 := fun x hx => by rw [hab]; exact hmin x (Multiset.mem_toFinset.2 hx)
    have hmax' : ∀ x ∈ A, x.1 ≤ a.1 → x.2 ≤ a.2 := fun x hx hle =>
      hmax x (by rw [Finset.mem_filter, Multiset.mem_toFinset]; exact ⟨hx, (le_antisymm hle (hmin' x hx)).trans hab⟩)
    obtain ⟨t, h1, h2, h3⟩ := exists_before (hA a haA) B
    have hpos : 0 < aliveBars B a.1 t := by
      rw [← h _ _ h1]
      exact aliveBars_pos.2 ⟨a, haA, le_rfl, h2⟩
    obtain ⟨b, hb, hb1, hb2⟩ := aliveBars_pos.1 hpos
    have hd := h3 b hb hb2
    have e1 : b.1 = a.1 := by
      apply le_antisymm hb1
      have hp : 0 < aliveBars B b.1 b.1 := aliveBars_pos.2 ⟨b, hb, le_rfl, hB b hb⟩
      rw [← h _ _ le_rfl] at hp
      obtain ⟨x, hx, hx1, _⟩ := aliveBars_pos.1 hp
      exact (hmin' x hx).trans hx1
    have e2 : b.2 = a.2 := by
      apply le_antisymm _ hd
      by_contra hlt
      rw [not_le] at hlt
      obtain ⟨u, hu⟩ : ∃ u : F, a.2 = u := by
        have : a.2 ≠ ⊤ := fun e => by rw [e] at hlt; exact absurd le_top (not_le.2 hlt)
        exact ⟨a.2.untop this, (WithTop.coe_untop _ this).symm⟩
      have hau : a.1 ≤ u := by
        have := hA a haA; rw [hu] at this; exact (WithTop.coe_lt_coe.1 this).le
      have hp : 0 < aliveBars B a.1 u := aliveBars_pos.2 ⟨b, hb, hb1, by rw [← hu]; exact hlt⟩
      rw [← h _ _ hau] at hp
      obtain ⟨x, hx, hx1, hx2⟩ := aliveBars_pos.1 hp
      have := hmax' x hx hx1
      rw [hu] at this
      exact absurd this (not_le.2 hx2)
    have hba : a ∈ B := by
      have : b = a := Prod.ext e1 e2
      rwa [← this]
    obtain ⟨A', rfl⟩ := Multiset.exists_cons_of_mem haA
    obtain ⟨B', rfl⟩ := Multiset.exists_cons_of_mem hba
    rw [ih (A := A') (B := B') (fun x hx => hA x (Multiset.mem_cons_of_mem hx)) (fun x hx => hB x (Multiset.mem_cons_of_mem hx)) ?_ ?_]
    · intro s t hst
      have := h s t hst
      rw [aliveBars_cons, aliveBars_cons] at this
      omega
    · simpa using hn

theorem IsBarcode.unique {β : ∀ s t : F, s ≤ t → ℕ} {A B : Multiset (F × WithTop F)} (hA : IsBarcode β A) (hB : IsBarcode β B) : A = B :=
  barcode_unique hA.1 hB.1 fun s t h => (hA.2 s t h).trans (hB.2 s t h).symm

variable {T : Type} [DecidableEq T]

theorem countP_map_val {α β : Type} (S : Finset α) (g : α → β) (q : β → Prop) [DecidablePred q] :
    (S.val.map g).countP q = (S.filter fun x => q (g x)).card := by
  rw [Multiset.countP_map]; rfl

theorem aliveBars_diagramBars (deg : T → ℤ) (f : T → F) (dgm : Diagram T) (p : ℤ) {s t : F} (hst : s ≤ t) :
    aliveBars (diagramBars deg f dgm p) s t = barsAlive deg f dgm p s t := by
  unfold diagramBars barsAlive
  rw [aliveBars_add]
  congr 1
  · unfold aliveBars
    rw [countP_map_val, Finset.filter_filter]
    congr 1
    ext x
    simp [WithTop.coe_lt_top]
  · unfold aliveBars
    rw [countP_map_val, Finset.filter_filter]
    congr 1
    ext x
    simp only [Finset.mem_filter, WithTop.coe_lt_coe]
    constructor
    · rintro ⟨h0, ⟨h1, _⟩, h2, h3⟩; exact ⟨h0, h1, h2, h3⟩
    · rintro ⟨h0, h1, h2, h3⟩; exact ⟨h0, ⟨h1, (h2.trans hst).trans_lt h3⟩, h2, h3⟩

theorem diagramBars_nonempty (deg : T → ℤ) (f : T → F) (dgm : Diagram T) (p : ℤ) : ∀ b ∈ diagramBars deg f dgm p, (b.1 : WithTop F) < b.2 := by
  intro b hb
  unfold diagramBars at hb
  rcases Multiset.mem_add.1 hb with hb | hb
  · obtain ⟨x, _, rfl⟩ := Multiset.mem_map.1 hb
    exact WithTop.coe_lt_top _
  · obtain ⟨x, hx, rfl⟩ := Multiset.mem_map.1 hb
    exact WithTop.coe_lt_coe.2 (Finset.mem_filter.1 hx).2.2

theorem aliveBars_diagramBarsRev (deg : T → ℤ) (f : T → F) (dgm : Diagram Tᵒᵈ) (p : ℤ) {s t : F} (hst : s ≤ t) :
    aliveBars (diagramBarsRev deg f dgm p) s t = barsAliveRev deg f dgm p s t := by
  unfold diagramBarsRev barsAliveRev
  rw [aliveBars_add]
  congr 1
  · unfold aliveBars
    rw [countP_map_val, Finset.filter_filter]
    congr 1
    ext x
    simp [WithTop.coe_lt_top]
  · unfold aliveBars
    rw [countP_map_val, Finset.filter_filter]
    congr 1
    ext x
    simp only [Finset.mem_filter, WithTop.coe_lt_coe]
    constructor
    · rintro ⟨h0, ⟨h1, _⟩, h2, h3⟩; exact ⟨h0, h1, h2, h3⟩
    · rintro ⟨h0, h1, h2, h3⟩; exact ⟨h0, ⟨h1, (h2.trans hst).trans_lt h3⟩, h2, h3⟩

theorem diagramBarsRev_nonempty (deg : T → ℤ) (f : T → F) (dgm : Diagram Tᵒᵈ) (p : ℤ) :
    ∀ b ∈ diagramBarsRev deg f dgm p, (b.1 : WithTop F) < b.2 := by
  intro b hb
  unfold diagramBarsRev at hb
  rcases Multiset.mem_add.1 hb with hb | hb
  · obtain ⟨x, _, rfl⟩ := Multiset.mem_map.1 hb
    exact WithTop.coe_lt_top _
  · obtain ⟨x, hx, rfl⟩ := Multiset.mem_map.1 hb
    exact WithTop.coe_lt_coe.2 (Finset.mem_filter.1 hx).2.2

end
end Phlite
