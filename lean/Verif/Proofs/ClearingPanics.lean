/-
What a run of the clearing algorithm that returns has read, without assumptions on the matrix beyond the dimension of its rows.
-/
import Verif.Proofs.ClearingReads

set_option linter.unusedSectionVars false
set_option linter.unusedSimpArgs false

namespace Phlite
open OrderDual (toDual ofDual)

section
variable [StdHeap] {CF T F : Type} [NonZeroCoeff CF] [LinearOrder F] [LinearOrder T]

/-- All rows of a column satisfy `P`. -/
def RowsIn (P : T → Prop) (h : BHCol F T CF) : Prop := ∀ x ∈ StdHeap.bag h, P x.row

theorem RowsIn.of_le {P : T → Prop} {h h' : BHCol F T CF} (hp : RowsIn P h) (hle : StdHeap.bag h' ≤ StdHeap.bag h) : RowsIn P h' :=
  fun x hx => hp x (Multiset.mem_of_le hle hx)

theorem RowsIn.pop {P : T → Prop} {h h' : BHCol F T CF} {e : Entry F T CF} (hp : RowsIn P h) (he : StdHeap.pop h = some (e, h')) : P e.row ∧ RowsIn P h' := by
  have hb := StdHeap.pop_bag _ _ _ he
  exact ⟨hp e (by rw [hb]; exact Multiset.mem_cons_self _ _), fun x hx => hp x (by rw [hb]; exact Multiset.mem_cons_of_mem hx)⟩

theorem RowsIn.addEntry {P : T → Prop} {h : BHCol F T CF} (hp : RowsIn P h) {e : Entry F T CF} (he : P e.row) : RowsIn P (h.addEntry e) := by
  intro x hx
  rw [BHCol.addEntry, StdHeap.bag_push, Multiset.mem_cons] at hx
  rcases hx with rfl | hx
  · exact he
  · exact hp x hx

theorem RowsIn.addEntries {P : T → Prop} {h : BHCol F T CF} (hp : RowsIn P h) {es : List (Entry F T CF)} (he : ∀ e ∈ es, P e.row) : RowsIn P (h.addEntries es) := by
  intro x hx
  rw [BHCol.bag_addEntries, Multiset.mem_add] at hx
  rcases hx with hx | hx
  · exact he x (Multiset.mem_coe.1 hx)
  · exact hp x hx

theorem RowsIn.empty {P : T → Prop} : RowsIn P (BHCol.empty : BHCol F T CF) := by
  intro x hx
  rw [BHCol.bag_empty'] at hx
  exact absurd hx (Multiset.notMem_zero _)

theorem RowsIn.popLoop {P : T → Prop} (h : BHCol F T CF) (wi : T) (ws : Option CF) (wf : F) (hp : RowsIn P h) (hwi : P wi) :
    (∀ e ∈ (BHCol.popLoop h wi ws wf).1, P e.row) ∧ RowsIn P (BHCol.popLoop h wi ws wf).2 := by
  fun_induction BHCol.popLoop h wi ws wf with
  | case1 h wi ws wf hn =>
    refine ⟨fun e he => ?_, hp⟩
    cases ws with
    | none => cases he
    | some c => cases he; exact hwi
  | case2 h wi wf next h' hn _ hne c =>
    refine ⟨fun e he => ?_, hp⟩
    cases he; exact hwi
  | case3 h wi wf next h' hn _ hne ih => exact ih (hp.pop hn).2 (hp.pop hn).1
  | case4 h wi ws wf next h' hn _ hne ih => exact ih (hp.pop hn).2 hwi

theorem RowsIn.popPivot {P : T → Prop} {h : BHCol F T CF} (hp : RowsIn P h) :
    (∀ e ∈ (BHCol.popPivot h).1, P e.row) ∧ RowsIn P (BHCol.popPivot h).2 := by
  unfold BHCol.popPivot
  split
  · exact ⟨fun e he => (by cases he), hp⟩
  · rename_i first h' hn
    exact RowsIn.popLoop _ _ _ _ (hp.pop hn).2 (hp.pop hn).1

theorem RowsIn.clonePivot {P : T → Prop} {h : BHCol F T CF} (hp : RowsIn P h) :
    (∀ e ∈ (BHCol.clonePivot h).1, P e.row) ∧ RowsIn P (BHCol.clonePivot h).2 := by
  have := hp.popPivot
  unfold BHCol.clonePivot
  split
  · rename_i e h' hn
    rw [hn] at this
    exact ⟨fun x hx => by cases hx; exact this.1 _ rfl, this.2.addEntry (this.1 _ rfl)⟩
  · rename_i h' hn
    rw [hn] at this
    exact ⟨fun x hx => (by cases hx), this.2⟩

theorem RowsIn.drain {P : T → Prop} (n : ℕ) : ∀ {h h' : BHCol F T CF} {es : List (Entry F T CF)}, RowsIn P h → BHCol.drainFuel n h = some (es, h') →
    ∀ e ∈ es, P e.row := by
  induction n with
  | zero => intro h h' es _ he; cases he
  | succ n ih =>
    intro h h' es hp he
    unfold BHCol.drainFuel at he
    have hpp := hp.popPivot
    split at he
    · cases he; simp
    · rename_i e h1 hn
      rw [hn] at hpp
      obtain ⟨⟨es', h2⟩, h3, h4⟩ := Option.map_eq_some_iff.1 he
      cases h4
      intro x hx
      rcases List.mem_cons.1 hx with rfl | hx
      · exact hpp.1 _ rfl
      · exact ih hpp.2 h3 x hx

theorem RowsIn.toSortedVec {P : T → Prop} {h : BHCol F T CF} {es : List (Entry F T CF)} (hp : RowsIn P h) (he : BHCol.toSortedVec h = some es) :
    ∀ e ∈ es, P e.row := by
  obtain ⟨⟨es', h'⟩, h1, rfl⟩ := Option.map_eq_some_iff.1 he
  exact hp.drain _ h1

/-! ### Columns -/

theorem mem_flatMapOpt {α β : Type} {f : α → Option (List β)} {l : List α} {r : List β} (h : flatMapOpt f l = some r) {y : β} (hy : y ∈ r) :
    ∃ a ∈ l, ∃ s, f a = some s ∧ y ∈ s := by
  induction l generalizing r with
  | nil => cases h; simp at hy
  | cons a l ih =>
    simp only [flatMapOpt] at h
    obtain ⟨s, h1, h2⟩ := Option.bind_eq_some_iff.1 h
    obtain ⟨r', h3, rfl⟩ := Option.map_eq_some_iff.1 h2
    rcases List.mem_append.1 hy with hy | hy
    · exact ⟨a, by simp, s, h1, hy⟩
    · obtain ⟨a', h4, h5⟩ := ih h3 hy
      exact ⟨a', by simp [h4], h5⟩

theorem mem_mapOpt {α β : Type} {f : α → Option β} {l : List α} {r : List β} (h : mapOpt f l = some r) {y : β} (hy : y ∈ r) : ∃ a ∈ l, f a = some y := by
  have := mapOpt_eq_some.1 h
  induction this with
  | nil => simp at hy
  | cons h1 h2 ih =>
    rcases List.mem_cons.1 hy with rfl | hy
    · exact ⟨_, by simp, h1⟩
    · obtain ⟨a, h3, h4⟩ := ih (mapOpt_eq_some.2 h2) hy
      exact ⟨a, by simp [h3], h4⟩

theorem mem_defaultColF {M : Oracle CF T T} {filt : T → Option F} {c : T} {es : List (Entry F T CF)} (h : defaultColF M filt c = some es) :
    ∃ l, M.column c = some l ∧ ∀ e ∈ es, ∃ t ∈ l, t.2 = e.row := by
  unfold defaultColF at h
  obtain ⟨l, h1, h2⟩ := Option.bind_eq_some_iff.1 h
  refine ⟨l, h1, fun e he => ?_⟩
  obtain ⟨t, ht, h3⟩ := mem_mapOpt h2 he
  obtain ⟨x, _, rfl⟩ := Option.map_eq_some_iff.1 h3
  exact ⟨t, ht, rfl⟩

/-! ### The loop over the columns of one dimension -/

/-- The invariant: `A` are the cells of the current dimension, the rows of their columns satisfy `P`. -/
structure ReadInv (A P : T → Prop) (rc0 : T → Option (RedCol CF T)) (read : T → Prop) (pre : List T) (p : CrmState CF T × (T → Option (T × CF))) : Prop where
  low : ∀ r j jc, p.2 r = some (j, jc) → A j ∧ ∃ vec, p.1.rc j = some (.reduced vec) ∧ ∀ t ∈ vec, A t.2
  keys : ∀ c, (p.1.rc c).isSome → (rc0 c).isSome ∨ c ∈ pre ∨ P c
  done : ∀ b ∈ pre, (rc0 b).isSome ∨ read b

variable {A P : T → Prop} {D : FOracle CF T T F} {rc0 : T → Option (RedCol CF T)}

theorem crm_rows {rc : T → Option (RedCol CF T)} {depth : ℕ} {j : T} {vec : List (CF × T)} (hj : A j) (h : rc j = some (.reduced vec)) (hv : ∀ t ∈ vec, A t.2)
    {l : List (CF × T)} (hl : (crmMatrix D.toOracle rc depth).column j = some l) : ∀ t ∈ l, A t.2 := by
  cases depth with
  | zero => cases hl
  | succ n =>
    simp only [crmMatrix, crmColumn, h, Option.bind_some, Option.some.injEq] at hl
    subst hl
    intro t ht
    rcases List.mem_append.1 ht with ht | ht
    · exact hv t ht
    · rw [List.mem_singleton] at ht; subst ht; exact hj

theorem clrReduce_rows {rc : T → Option (RedCol CF T)} {depth : ℕ} {low : T → Option (T × CF)}
    (hrow : ∀ b, A b → ∀ l, D.column b = some l → ∀ t ∈ l, P t.2)
    (hlow : ∀ r j jc, low r = some (j, jc) → A j ∧ ∃ vec, rc j = some (.reduced vec) ∧ ∀ t ∈ vec, A t.2) :
    ∀ (fuel : ℕ) {r r' : BHCol F T CF} {vi vi' : BHCol Unit T CF}, RowsIn P r → RowsIn A vi → clrReduce D rc depth low fuel r vi = some (r', vi') →
      RowsIn P r' ∧ RowsIn A vi' := by
  intro fuel
  induction fuel with
  | zero => intro r r' vi vi' _ _ h; cases h
  | succ fuel ih =>
    intro r r' vi vi' hr hvi h
    unfold clrReduce at h
    have hc := hr.clonePivot
    split at h
    · rename_i r1 hn
      rw [hn] at hc
      cases h
      exact ⟨hc.2, hvi⟩
    · rename_i e r1 hn
      rw [hn] at hc
      split at h
      · cases h; exact ⟨hc.2, hvi⟩
      · rename_i j jc hj
        obtain ⟨hA, vec, h1, h2⟩ := hlow _ _ _ hj
        dsimp only at h
        obtain ⟨re, h3, h⟩ := Option.bind_eq_some_iff.1 h
        obtain ⟨ve, h4, h⟩ := Option.bind_eq_some_iff.1 h
        refine ih (hc.2.addEntries ?_) (hvi.addEntries ?_) h
        · intro x hx
          obtain ⟨y, hy, rfl⟩ := List.mem_map.1 hx
          obtain ⟨l, h5, h6⟩ := Option.bind_eq_some_iff.1 h3
          obtain ⟨t, ht, s, h7, h8⟩ := mem_flatMapOpt h6 hy
          obtain ⟨s', h9, rfl⟩ := Option.map_eq_some_iff.1 h7
          obtain ⟨z, hz, rfl⟩ := List.mem_map.1 h8
          obtain ⟨l', h10, h11⟩ := mem_defaultColF h9
          obtain ⟨u, hu, h12⟩ := h11 z hz
          show P z.row
          rw [← h12]
          exact hrow _ (crm_rows hA h1 h2 h5 t ht) l' h10 u hu
        · intro x hx
          obtain ⟨y, hy, rfl⟩ := List.mem_map.1 hx
          obtain ⟨l, h5, h6⟩ := mem_defaultColF (M := crmMatrix D.toOracle rc depth) (filt := fun _ => some ()) h4
          obtain ⟨t, ht, h7⟩ := h6 y hy
          show A y.row
          rw [← h7]
          exact crm_rows hA h1 h2 h5 t ht

theorem clrColumn_read (hrow : ∀ b, A b → ∀ l, D.column b = some l → ∀ t ∈ l, P t.2) (hrowF : ∀ b, A b → ∀ es, D.colF b = some es → ∀ e ∈ es, P e.row)
    (hAP : ∀ c, A c → ¬ P c) {pre : List T}
    {p p' : CrmState CF T × (T → Option (T × CF))} (h : ReadInv A P rc0 (fun b => (D.colF b).isSome) pre p) {b : T} (hb : A b) {fuel : ℕ}
    (hrun : clrColumn D fuel p b = some p') : ReadInv A P rc0 (fun b => (D.colF b).isSome) (b :: pre) p' := by
  unfold clrColumn at hrun
  split at hrun
  · rename_i hrc
    cases hrun
    refine ⟨h.low, fun c hc => ?_, fun c hc => ?_⟩
    · rcases h.keys c hc with h1 | h1 | h1
      · exact Or.inl h1
      · exact Or.inr (Or.inl (List.mem_cons_of_mem _ h1))
      · exact Or.inr (Or.inr h1)
    · rcases List.mem_cons.1 hc with rfl | hc
      · rcases h.keys c hrc with h1 | h1 | h1
        · exact Or.inl h1
        · exact h.done c h1
        · exact absurd h1 (hAP c hb)
      · exact h.done c hc
  · obtain ⟨r0, h1, hrun'⟩ := Option.bind_eq_some_iff.1 hrun
    clear hrun
    obtain ⟨⟨r, vi⟩, h2, hrun⟩ := Option.bind_eq_some_iff.1 hrun'
    clear hrun'
    obtain ⟨es, h3, rfl⟩ := Option.map_eq_some_iff.1 h1
    have hr0 : RowsIn P (BHCol.empty.addEntries es : BHCol F T CF) := RowsIn.empty.addEntries (hrowF b hb es h3)
    obtain ⟨hr, hvi⟩ := clrReduce_rows (D := D) (fun b hb l hl => hrow b hb l hl) h.low fuel hr0 RowsIn.empty h2
    have hread : (D.colF b).isSome := by rw [h3]; rfl
    unfold clrSave at hrun
    dsimp only at hrun
    obtain ⟨vs, h6, h7⟩ := Option.map_eq_some_iff.1 hrun
    have hvs := hvi.toSortedVec h6
    have hnew : ∀ t ∈ vs.map fun e => (e.coeff, e.row), A t.2 := by
      intro t ht
      obtain ⟨e, he, rfl⟩ := List.mem_map.1 ht
      exact hvs e he
    subst h7
    have hdone : ∀ c ∈ b :: pre, (rc0 c).isSome ∨ (D.colF c).isSome := by
      intro c hc
      rcases List.mem_cons.1 hc with rfl | hc
      · exact Or.inr hread
      · exact h.done c hc
    cases hpk : BHCol.peekPivot r with
    | none =>
      refine ⟨fun x j jc hj => ?_, fun c hc => ?_, hdone⟩
      · obtain ⟨hA, vec, h8, h9⟩ := h.low x j jc hj
        refine ⟨hA, ?_⟩
        dsimp only [mapInsert]
        split
        · exact ⟨_, rfl, hnew⟩
        · exact ⟨vec, h8, h9⟩
      · dsimp only [mapInsert] at hc
        split at hc
        · rename_i hcb; exact Or.inr (Or.inl (by simp [hcb]))
        · rcases h.keys c hc with h1 | h1 | h1
          · exact Or.inl h1
          · exact Or.inr (Or.inl (List.mem_cons_of_mem _ h1))
          · exact Or.inr (Or.inr h1)
    | some e =>
      have hPe : P e.row := by
        unfold BHCol.peekPivot at hpk
        rw [StdHeap.peek_pop] at hpk
        obtain ⟨⟨e', r'⟩, h8, rfl⟩ := Option.map_eq_some_iff.1 hpk
        exact (hr.pop h8).1
      have hlow' : ∀ j, A j → j ≠ e.row := fun j hj hje => hAP j hj (hje ▸ hPe)
      refine ⟨fun x j jc hj => ?_, fun c hc => ?_, hdone⟩
      · dsimp only [mapInsert] at hj ⊢
        split at hj
        · cases hj
          exact ⟨hb, _, if_pos rfl, hnew⟩
        · obtain ⟨hA, vec, h8, h9⟩ := h.low x j jc hj
          refine ⟨hA, ?_⟩
          split
          · exact ⟨_, rfl, hnew⟩
          · exact ⟨vec, by rw [if_neg (hlow' j hA)]; exact h8, h9⟩
      · dsimp only [mapInsert] at hc
        split at hc
        · rename_i hcb; exact Or.inr (Or.inl (by simp [hcb]))
        · split at hc
          · rename_i hce; exact Or.inr (Or.inr (hce ▸ hPe))
          · rcases h.keys c hc with h1 | h1 | h1
            · exact Or.inl h1
            · exact Or.inr (Or.inl (List.mem_cons_of_mem _ h1))
            · exact Or.inr (Or.inr h1)

theorem clrLoop_read (hrow : ∀ b, A b → ∀ l, D.column b = some l → ∀ t ∈ l, P t.2) (hrowF : ∀ b, A b → ∀ es, D.colF b = some es → ∀ e ∈ es, P e.row)
    (hAP : ∀ c, A c → ¬ P c) {B : Basis T}
    (hB : ∀ i b, B.element i = some b → A b) {fuel : ℕ} (is : List ℕ) :
    ∀ {pre : List T} {p p' : CrmState CF T × (T → Option (T × CF))}, ReadInv A P rc0 (fun b => (D.colF b).isSome) pre p →
      clrLoop D B fuel is p = some p' →
      ∃ pre', ReadInv A P rc0 (fun b => (D.colF b).isSome) pre' p' ∧ (∀ b ∈ pre, b ∈ pre') ∧ (∀ b ∈ pre', b ∈ pre ∨ ∃ i, B.element i = some b) ∧
        ∀ i ∈ is, ∀ b, B.element i = some b → b ∈ pre' := by
  induction is with
  | nil => intro pre p p' h hrun; cases hrun; exact ⟨pre, h, fun _ h => h, fun _ h => Or.inl h, by simp⟩
  | cons i is ih =>
    intro pre p p' h hrun
    simp only [clrLoop] at hrun
    obtain ⟨b, h1, hrun⟩ := Option.bind_eq_some_iff.1 hrun
    obtain ⟨q, h2, hrun⟩ := Option.bind_eq_some_iff.1 hrun
    obtain ⟨pre', h3, h4, h5, h6⟩ := ih (clrColumn_read hrow hrowF hAP h (hB i b h1) h2) hrun
    refine ⟨pre', h3, fun c hc => h4 c (List.mem_cons_of_mem _ hc), fun c hc => ?_, fun i' hi' c hc => ?_⟩
    · rcases h5 c hc with h7 | h7
      · rcases List.mem_cons.1 h7 with rfl | h7
        · exact Or.inr ⟨i, h1⟩
        · exact Or.inl h7
      · exact Or.inr h7
    · rcases List.mem_cons.1 hi' with rfl | hi'
      · rw [h1] at hc; cases hc
        exact h4 _ (by simp)
      · exact h6 i' hi' c hc

theorem clrDimension_readF (hrow : ∀ b, A b → ∀ l, D.column b = some l → ∀ t ∈ l, P t.2) (hrowF : ∀ b, A b → ∀ es, D.colF b = some es → ∀ e ∈ es, P e.row)
    (hAP : ∀ c, A c → ¬ P c) {B : SplitBasis T} {Bd : Basis T} {d : ℕ}
    (hd : B.inDim d = some Bd) (hB : ∀ i b, Bd.element i = some b → A b) {fuel : ℕ} {s s' : CrmState CF T} (hrun : clrDimension D B fuel s d = some s') :
    (∀ i < Bd.size, ∀ b, Bd.element i = some b → (s.rc b).isSome ∨ (D.colF b).isSome) ∧
      ∀ c, (s'.rc c).isSome → (s.rc c).isSome ∨ A c ∨ P c := by
  unfold clrDimension at hrun
  rw [hd, Option.bind_some] at hrun
  obtain ⟨p', h1, rfl⟩ := Option.map_eq_some_iff.1 hrun
  obtain ⟨pre', h2, _, h3, h4⟩ := clrLoop_read (rc0 := s.rc) hrow hrowF hAP hB _ (pre := []) ⟨fun _ _ _ h => (by cases h), fun c hc => Or.inl hc, by simp⟩ h1
  refine ⟨fun i hi b hb => h2.done b (h4 i (List.mem_range.2 hi) b hb), fun c hc => ?_⟩
  rcases h2.keys c hc with h5 | h5 | h5
  · exact Or.inl h5
  · rcases h3 c h5 with h6 | ⟨i, h6⟩
    · simp at h6
    · exact Or.inr (Or.inl (hB i c h6))
  · exact Or.inr (Or.inr h5)

/-- A run that returns has read the columns of all basis elements of the dimension, except for those cleared before; the columns it stores are those of basis elements,
and those of rows. -/
theorem clrDimension_read (hrow : ∀ b, A b → ∀ l, D.column b = some l → ∀ t ∈ l, P t.2) (hAP : ∀ c, A c → ¬ P c) {B : SplitBasis T} {Bd : Basis T} {d : ℕ}
    (hd : B.inDim d = some Bd) (hB : ∀ i b, Bd.element i = some b → A b) {fuel : ℕ} {s s' : CrmState CF T} (hrun : clrDimension D.ref B fuel s d = some s') :
    (∀ i < Bd.size, ∀ b, Bd.element i = some b → (s.rc b).isSome ∨ (D.column b).isSome) ∧
      ∀ c, (s'.rc c).isSome → (s.rc c).isSome ∨ A c ∨ P c := by
  have hcol : ∀ b es, D.ref.colF b = some es → ∃ l, D.column b = some l ∧ ∀ e ∈ es, ∃ t ∈ l, t.2 = e.row := fun b es h => mem_defaultColF h
  obtain ⟨h1, h2⟩ := clrDimension_readF (D := D.ref) (fun b hb l hl => hrow b hb l hl) (fun b hb es hes e he => by
    obtain ⟨l, hl, h⟩ := hcol b es hes
    obtain ⟨t, ht, h6⟩ := h e he
    rw [← h6]; exact hrow b hb l hl t ht) hAP hd hB hrun
  refine ⟨fun i hi b hb => (h1 i hi b hb).imp_right fun h => ?_, h2⟩
  obtain ⟨es, hes⟩ := Option.isSome_iff_exists.1 h
  obtain ⟨l, hl, _⟩ := hcol b es hes
  rw [hl]; rfl

end
end Phlite
