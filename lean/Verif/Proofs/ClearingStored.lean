/-
The columns that clearing stores only involve cells whose boundary columns it has requested.
-/
import Verif.Props.ClearingSkips

set_option linter.unusedSectionVars false
set_option linter.unusedSimpArgs false

namespace Phlite

section
variable [StdHeap] {CF T F K : Type} [NonZeroCoeff CF] [Field K] [LawfulCoeff CF K] [LinearOrder F] [LinearOrder T]
variable {A P : T → Prop} {D : FOracle CF T T F} {rc0 : T → Option (RedCol CF T)}

theorem clrColumn_stored (hrow : ∀ b, A b → ∀ l, D.column b = some l → ∀ t ∈ l, P t.2) (hrowF : ∀ b, A b → ∀ es, D.colF b = some es → ∀ e ∈ es, P e.row)
    {pre : List T} {p p' : CrmState CF T × (T → Option (T × CF))} (h : ReadInv A P rc0 (fun b => (D.colF b).isSome) pre p) {b : T} (hb : A b) {fuel : ℕ}
    (hrun : clrColumn D fuel p b = some p') {j : T} {vec : List (CF × T)} (hj : p'.1.rc j = some (.reduced vec)) :
    p.1.rc j = some (.reduced vec) ∨ ∀ t ∈ vec, A t.2 := by
  unfold clrColumn at hrun
  split at hrun
  · cases hrun; exact Or.inl hj
  · obtain ⟨r0, h1, hrun'⟩ := Option.bind_eq_some_iff.1 hrun
    clear hrun
    obtain ⟨⟨r, vi⟩, h2, hrun⟩ := Option.bind_eq_some_iff.1 hrun'
    clear hrun'
    obtain ⟨es, h3, rfl⟩ := Option.map_eq_some_iff.1 h1
    have hr0 : RowsIn P (BHCol.empty.addEntries es : BHCol F T CF) := RowsIn.empty.addEntries (hrowF b hb es h3)
    obtain ⟨_, hvi⟩ := clrReduce_rows (D := D) (fun b hb l hl => hrow b hb l hl) h.low fuel hr0 RowsIn.empty h2
    unfold clrSave at hrun
    dsimp only at hrun
    obtain ⟨vs, h6, h7⟩ := Option.map_eq_some_iff.1 hrun
    have hvs := hvi.toSortedVec h6
    have hnew : ∀ t ∈ vs.map fun e => (e.coeff, e.row), A t.2 := by
      intro t ht
      obtain ⟨e, he, rfl⟩ := List.mem_map.1 ht
      exact hvs e he
    subst h7
    cases hpk : BHCol.peekPivot r with
    | none =>
      rw [hpk] at hj
      dsimp only [mapInsert] at hj
      split at hj
      · cases hj; exact Or.inr hnew
      · exact Or.inl hj
    | some e =>
      rw [hpk] at hj
      dsimp only [mapInsert] at hj
      split at hj
      · cases hj; exact Or.inr hnew
      · split at hj
        · cases hj
        · exact Or.inl hj

theorem clrLoop_stored (hrow : ∀ b, A b → ∀ l, D.column b = some l → ∀ t ∈ l, P t.2) (hrowF : ∀ b, A b → ∀ es, D.colF b = some es → ∀ e ∈ es, P e.row)
    (hAP : ∀ c, A c → ¬ P c) {B : Basis T} {fuel : ℕ} (is : List ℕ) (hB : ∀ i ∈ is, ∀ b, B.element i = some b → rc0 b = none → A b) :
    ∀ {pre : List T} {p p' : CrmState CF T × (T → Option (T × CF))}, ReadInv A P rc0 (fun b => (D.colF b).isSome) pre p → (∀ c, (rc0 c).isSome → (p.1.rc c).isSome) →
      clrLoop D B fuel is p = some p' → ∀ j vec, p'.1.rc j = some (.reduced vec) → p.1.rc j = some (.reduced vec) ∨ ∀ t ∈ vec, A t.2 := by
  induction is with
  | nil => intro pre p p' _ _ h j vec hj; cases h; exact Or.inl hj
  | cons i is ih =>
    intro pre p p' hinv hkeys h j vec hj
    simp only [clrLoop] at h
    obtain ⟨b, h1, hh⟩ := Option.bind_eq_some_iff.1 h
    clear h
    obtain ⟨q, h2, h⟩ := Option.bind_eq_some_iff.1 hh
    have hb : p.1.rc b = none → A b := fun hn => hB i (by simp) b h1 (by
      by_contra hc
      have := hkeys b (Option.isSome_iff_ne_none.2 hc)
      rw [hn] at this; cases this)
    have hb' : ∀ c, (rc0 c).isSome → (q.1.rc c).isSome := fun c hc => (clrColumn_keys h2).1 c (hkeys c hc)
    by_cases hn : p.1.rc b = none
    · rcases ih (fun i hi => hB i (by simp [hi])) (clrColumn_read hrow hrowF hAP hinv (hb hn) h2) hb' h j vec hj with h3 | h3
      · exact clrColumn_stored hrow hrowF hinv (hb hn) h2 h3
      · exact Or.inr h3
    · have : q = p := by
        unfold clrColumn at h2
        rw [if_pos (Option.isSome_iff_ne_none.2 hn)] at h2
        exact (Option.some.inj h2).symm
      subst this
      exact ih (fun i hi => hB i (by simp [hi])) hinv hb' h j vec hj

variable {B : SplitBasis T} {f : T → F} {M : T → (T →₀ K)} {deg : T → ℤ} {ε : ℤ} {dims : List ℕ} {els : ℕ → List T}

/-- The stored columns of clearing only involve cells that are not births. -/
theorem clrAll_stored (hC : SplitComplex K D B f M deg ε dims els) {fuel : ℕ} {s' : CrmState CF T} (dn q : List ℕ) (hdims : dims = dn ++ q) : ∀ {s : CrmState CF T},
    clrAll D B fuel dn ⟨Diagram.empty, fun _ => none⟩ = some s → clrAll D B fuel q s = some s' →
    (∀ j vec, s.rc j = some (.reduced vec) → ∀ t ∈ vec, t.2 ∈ dims.flatMap els ∧ ∀ i, (t.2, i) ∉ s'.diagram.pairings) →
    ∀ j vec, s'.rc j = some (.reduced vec) → ∀ t ∈ vec, t.2 ∈ dims.flatMap els ∧ ∀ i, (t.2, i) ∉ s'.diagram.pairings := by
  induction q generalizing dn with
  | nil => intro s _ h hs; cases h; exact hs
  | cons d q ih =>
    intro s h h' hs
    have hdd : d ∈ dims := by rw [hdims]; simp
    have hcl := fun c (hc : c ∈ els d) => cleared_iff_birth hC hdims h h' hc
    simp only [clrAll] at h'
    obtain ⟨s1, h1, h2⟩ := Option.bind_eq_some_iff.1 h'
    have h3 : clrAll D B fuel (dn ++ [d]) ⟨Diagram.empty, fun _ => none⟩ = some s1 := by
      rw [clrAll_append, h, Option.bind_some]
      simp only [clrAll, h1, Option.bind_some]
    refine ih (dn ++ [d]) (by rw [hdims]; simp) h3 h2 fun j vec hj => ?_
    obtain ⟨Bd, hB1, hB2⟩ := hC.basis d hdd
    obtain ⟨hlen, hel⟩ := elems_spec hB2
    unfold clrDimension at h1
    rw [hB1, Option.bind_some] at h1
    obtain ⟨p', h5, rfl⟩ := Option.map_eq_some_iff.1 h1
    have key := clrLoop_stored (D := D) (A := fun c => c ∈ els d ∧ s.rc c = none) (P := fun c => deg c = d + ε) (rc0 := s.rc) (B := Bd) (fuel := fuel)
      (fun b hb l hl t ht => (hC.rows d hdd b hb.1 l hl t ht).1) (fun b hb es hes => hC.rowsF hdd hb.1 hes)
      (fun c hc hd' => by
        have := hC.deg_els d hdd c hc.1
        have := hC.shift
        omega) (List.range Bd.size) (fun i hi b hb hn => ⟨by
          rw [hel i (List.mem_range.1 hi)] at hb
          exact List.mem_of_getElem? hb, hn⟩) (pre := []) (p := (s, fun _ => none))
      ⟨fun _ _ _ h => (by cases h), fun c hc => Or.inl hc, by simp⟩ (fun c hc => hc) h5 j vec hj
    rcases key with key | key
    · exact hs j vec key
    · intro t ht
      obtain ⟨h6, h7⟩ := key t ht
      refine ⟨List.mem_flatMap.2 ⟨d, hdd, h6⟩, fun i hi => ?_⟩
      have := (hcl _ h6).2 ⟨i, hi⟩
      rw [h7] at this; cases this

end
end Phlite
