/-
C64: which columns the clearing algorithm requests.
-/
import Verif.Proofs.ClearingPanics

set_option linter.unusedSectionVars false
set_option linter.unusedSimpArgs false

namespace Phlite
open Finsupp (single linearCombination linearCombination_single)

section
variable [StdHeap] {CF T F K : Type} [NonZeroCoeff CF] [Field K] [LawfulCoeff CF K] [LinearOrder F] [LinearOrder T]

/-! ### Runs on two matrices that agree on the columns that are read -/

variable {A P : T → Prop} {D D' : FOracle CF T T F}

theorem crmColumn_reduced (D D' : Oracle CF T T) {rc : T → Option (RedCol CF T)} {j : T} {vec : List (CF × T)} (h : rc j = some (.reduced vec)) (n : ℕ) :
    crmColumn D rc n j = crmColumn D' rc n j := by
  cases n with
  | zero => rfl
  | succ n => simp only [crmColumn, h, Option.bind_some]

theorem clrReduce_congr {rc : T → Option (RedCol CF T)} {depth : ℕ} {low : T → Option (T × CF)} (hcol : ∀ c, A c → D.column c = D'.column c) (hfilt : D.filt = D'.filt)
    (hlow : ∀ r j jc, low r = some (j, jc) → A j ∧ ∃ vec, rc j = some (.reduced vec) ∧ ∀ t ∈ vec, A t.2) :
    ∀ (fuel : ℕ) (r : BHCol F T CF) (vi : BHCol Unit T CF), clrReduce D rc depth low fuel r vi = clrReduce D' rc depth low fuel r vi := by
  intro fuel
  induction fuel with
  | zero => intro r vi; rfl
  | succ fuel ih =>
    intro r vi
    unfold clrReduce
    split
    · rfl
    · split
      · rfl
      · rename_i e r1 _ j jc hj
        obtain ⟨hA, vec, h1, h2⟩ := hlow _ _ _ hj
        dsimp only
        have e1 : crmColumn D.toOracle rc depth j = crmColumn D'.toOracle rc depth j := crmColumn_reduced _ _ h1 _
        have e2 : (crmMatrix D.toOracle rc depth).withTrivial.colF j = (crmMatrix D'.toOracle rc depth).withTrivial.colF j := by
          show defaultColF (crmMatrix D.toOracle rc depth) (fun _ => some ()) j = defaultColF (crmMatrix D'.toOracle rc depth) (fun _ => some ()) j
          simp only [defaultColF, crmMatrix, e1]
        have e3 : (productF D.ref (crmMatrix D.toOracle rc depth).withTrivial.toOracle).colF j =
            (productF D'.ref (crmMatrix D'.toOracle rc depth).withTrivial.toOracle).colF j := by
          show (crmColumn D.toOracle rc depth j).bind _ = (crmColumn D'.toOracle rc depth j).bind _
          rw [← e1]
          refine Option.bind_congr fun l hl => flatMapOpt_congr fun t ht => ?_
          have hAt := crm_rows (D := D) hA h1 h2 hl t ht
          have : D.ref.colF t.2 = D'.ref.colF t.2 := by
            show defaultColF D.toOracle D.filt t.2 = defaultColF D'.toOracle D'.filt t.2
            simp only [defaultColF, hcol _ hAt, hfilt]
          rw [this]
        rw [e2, e3]
        refine Option.bind_congr fun re _ => Option.bind_congr fun ve _ => ih _ _

theorem clrColumn_congr {p : CrmState CF T × (T → Option (T × CF))} (hcol : ∀ c, A c → D.column c = D'.column c) (hcolF : ∀ c, A c → D.colF c = D'.colF c)
    (hfilt : D.filt = D'.filt) (hlow : ∀ r j jc, p.2 r = some (j, jc) → A j ∧ ∃ vec, p.1.rc j = some (.reduced vec) ∧ ∀ t ∈ vec, A t.2) {b : T}
    (hb : p.1.rc b = none → A b) (fuel : ℕ) : clrColumn D fuel p b = clrColumn D' fuel p b := by
  unfold clrColumn
  split
  · rfl
  · rename_i h
    have hA : A b := hb (by simpa using h)
    unfold FOracle.buildBhcol
    rw [hcolF b hA]
    refine Option.bind_congr fun r0 _ => ?_
    rw [clrReduce_congr hcol hfilt hlow]

/-- Stored columns are never forgotten. -/
theorem clrColumn_keys {p p' : CrmState CF T × (T → Option (T × CF))} {b : T} {fuel : ℕ} (h : clrColumn D fuel p b = some p') :
    (∀ c, (p.1.rc c).isSome → (p'.1.rc c).isSome) ∧ (∀ x ∈ p.1.diagram.pairings, x ∈ p'.1.diagram.pairings) ∧
      ∀ x ∈ p'.1.diagram.pairings, x ∈ p.1.diagram.pairings ∨ x.2 = b := by
  unfold clrColumn at h
  split at h
  · cases h; exact ⟨fun _ h => h, fun _ h => h, fun _ h => Or.inl h⟩
  · obtain ⟨r0, _, h1⟩ := Option.bind_eq_some_iff.1 h
    obtain ⟨q, _, h2⟩ := Option.bind_eq_some_iff.1 h1
    unfold clrSave at h2
    dsimp only at h2
    obtain ⟨vs, _, rfl⟩ := Option.map_eq_some_iff.1 h2
    cases BHCol.peekPivot q.1 with
    | none =>
      refine ⟨fun c hc => ?_, fun _ h => h, fun _ h => Or.inl h⟩
      dsimp only [mapInsert]
      split
      · rfl
      · exact hc
    | some e =>
      refine ⟨fun c hc => ?_, fun x hx => Finset.mem_insert_of_mem hx, fun x hx => ?_⟩
      · dsimp only [mapInsert]
        split
        · rfl
        · split
          · rfl
          · exact hc
      · rcases Finset.mem_insert.1 hx with rfl | hx
        · exact Or.inr rfl
        · exact Or.inl hx

theorem clrLoop_keys {B : Basis T} {fuel : ℕ} (is : List ℕ) : ∀ {p p' : CrmState CF T × (T → Option (T × CF))}, clrLoop D B fuel is p = some p' →
    (∀ x ∈ p.1.diagram.pairings, x ∈ p'.1.diagram.pairings) ∧ ∀ x ∈ p'.1.diagram.pairings, x ∈ p.1.diagram.pairings ∨ ∃ i ∈ is, B.element i = some x.2 := by
  induction is with
  | nil => intro p p' h; cases h; exact ⟨fun _ h => h, fun _ h => Or.inl h⟩
  | cons i is ih =>
    intro p p' h
    simp only [clrLoop] at h
    obtain ⟨b, h1, h⟩ := Option.bind_eq_some_iff.1 h
    obtain ⟨q, h2, h⟩ := Option.bind_eq_some_iff.1 h
    obtain ⟨k1, k2⟩ := ih h
    obtain ⟨_, k3, k4⟩ := clrColumn_keys h2
    refine ⟨fun x hx => k1 x (k3 x hx), fun x hx => ?_⟩
    rcases k2 x hx with hx | ⟨i', hi', hx⟩
    · rcases k4 x hx with hx | hx
      · exact Or.inl hx
      · exact Or.inr ⟨i, by simp, hx ▸ h1⟩
    · exact Or.inr ⟨i', by simp [hi'], hx⟩

theorem clrLoop_congr (hrow : ∀ b, A b → ∀ l, D.column b = some l → ∀ t ∈ l, P t.2) (hrowF : ∀ b, A b → ∀ es, D.colF b = some es → ∀ e ∈ es, P e.row)
    (hAP : ∀ c, A c → ¬ P c) (hcol : ∀ c, A c → D.column c = D'.column c) (hcolF : ∀ c, A c → D.colF c = D'.colF c) (hfilt : D.filt = D'.filt)
    {rc0 : T → Option (RedCol CF T)} {B : Basis T} (hB : ∀ i b, B.element i = some b → rc0 b = none → A b) {fuel : ℕ} (is : List ℕ) :
    ∀ {pre : List T} {p p' : CrmState CF T × (T → Option (T × CF))}, ReadInv A P rc0 (fun b => (D.colF b).isSome) pre p → (∀ c, (rc0 c).isSome → (p.1.rc c).isSome) →
      clrLoop D B fuel is p = some p' → clrLoop D' B fuel is p = some p' := by
  induction is with
  | nil => intro pre p p' _ _ h; exact h
  | cons i is ih =>
    intro pre p p' hinv hkeys h
    simp only [clrLoop] at h ⊢
    obtain ⟨b, h1, hh⟩ := Option.bind_eq_some_iff.1 h
    clear h
    obtain ⟨q, h2, h⟩ := Option.bind_eq_some_iff.1 hh
    clear hh
    have hb : p.1.rc b = none → A b := fun hn => hB i b h1 (by
      by_contra hc
      have := hkeys b (Option.isSome_iff_ne_none.2 hc)
      rw [hn] at this; cases this)
    have hb' : ∀ c, (rc0 c).isSome → (q.1.rc c).isSome := fun c hc => (clrColumn_keys h2).1 c (hkeys c hc)
    rw [h1, Option.bind_some, ← clrColumn_congr hcol hcolF hfilt hinv.low hb, h2, Option.bind_some]
    by_cases hn : p.1.rc b = none
    · exact ih (clrColumn_read hrow hrowF hAP hinv (hb hn) h2) hb' h
    · have : q = p := by
        unfold clrColumn at h2
        rw [if_pos (Option.isSome_iff_ne_none.2 hn)] at h2
        exact (Option.some.inj h2).symm
      subst this
      exact ih hinv hb' h

/-! ### Chain complexes -/

variable {B : SplitBasis T} {f : T → F} {M : T → (T →₀ K)} {deg : T → ℤ} {ε : ℤ} {dims : List ℕ} {els : ℕ → List T}

theorem SplitComplex.take {p q : List ℕ} (h : SplitComplex K D B f M deg ε (p ++ q) els) : SplitComplex K D B f M deg ε p els where
  basis d' hd := h.basis d' (List.mem_append_left _ hd)
  deg_els d' hd := h.deg_els d' (List.mem_append_left _ hd)
  sorted d' hd := h.sorted d' (List.mem_append_left _ hd)
  good d' hd := h.good d' (List.mem_append_left _ hd)
  rows d' hd c hc l hl t ht := ⟨(h.rows d' (List.mem_append_left _ hd) c hc l hl t ht).1,
    fun e he => (h.rows d' (List.mem_append_left _ hd) c hc l hl t ht).2 e (List.mem_append_left _ he)⟩
  nodup := (List.nodup_append.1 h.nodup).1
  order p' d' q' e := h.order p' d' (q' ++ q) (by rw [e]; simp)
  shift := h.shift
  sq d' hd e he := h.sq d' (List.mem_append_left _ hd) e (List.mem_append_left _ he)

theorem SplitComplex.rowsF (hC : SplitComplex K D B f M deg ε dims els) {d : ℕ} (hd : d ∈ dims) {c : T} (hc : c ∈ els d) {es : List (Entry F T CF)}
    (h : D.colF c = some es) : ∀ e ∈ es, deg e.row = d + ε := by
  obtain ⟨l, h1, h2, _, _⟩ := hC.good d hd c hc
  rw [h2] at h; cases h
  intro e he
  obtain ⟨t, ht, rfl⟩ := List.mem_map.1 he
  exact (hC.rows d hd c hc l h1 t ht).1

theorem clrAll_keys (hC : SplitComplex K D B f M deg ε dims els) {fuel : ℕ} (q : List ℕ) (hq : ∀ d ∈ q, d ∈ dims) : ∀ {s s' : CrmState CF T},
    clrAll D B fuel q s = some s' →
    (∀ x ∈ s.diagram.pairings, x ∈ s'.diagram.pairings) ∧ ∀ x ∈ s'.diagram.pairings, x ∈ s.diagram.pairings ∨ x.2 ∈ q.flatMap els := by
  induction q with
  | nil => intro s s' h; cases h; exact ⟨fun _ h => h, fun _ h => Or.inl h⟩
  | cons d q ih =>
    intro s s' h
    simp only [clrAll] at h
    obtain ⟨s1, h1, h2⟩ := Option.bind_eq_some_iff.1 h
    obtain ⟨k1, k2⟩ := ih (fun d hd => hq d (by simp [hd])) h2
    unfold clrDimension at h1
    obtain ⟨Bd, hB1, h3⟩ := Option.bind_eq_some_iff.1 h1
    obtain ⟨p', h4, rfl⟩ := Option.map_eq_some_iff.1 h3
    obtain ⟨k3, k4⟩ := clrLoop_keys _ h4
    obtain ⟨Bd', hB2, hB3⟩ := hC.basis d (hq d (by simp))
    rw [hB1] at hB2; cases hB2
    obtain ⟨hlen, hel⟩ := elems_spec hB3
    refine ⟨fun x hx => k1 x (k3 x hx), fun x hx => ?_⟩
    rw [List.flatMap_cons, List.mem_append]
    rcases k2 x hx with hx | hx
    · rcases k4 x hx with hx | ⟨i, hi, hx⟩
      · exact Or.inl hx
      · refine Or.inr (Or.inl ?_)
        rw [List.mem_range] at hi
        rw [hel i hi] at hx
        exact List.mem_of_getElem? hx
    · exact Or.inr (Or.inr hx)

/-- In the middle of a run on a chain complex: which cells of the next dimension have been cleared. -/
theorem cleared_iff_birth (hC : SplitComplex K D B f M deg ε dims els) {dn q : List ℕ} {d : ℕ} (hdims : dims = dn ++ d :: q) {fuel : ℕ} {s s' : CrmState CF T}
    (h : clrAll D B fuel dn ⟨Diagram.empty, fun _ => none⟩ = some s) (h' : clrAll D B fuel (d :: q) s = some s') {c : T} (hc : c ∈ els d) :
    (s.rc c).isSome ↔ ∃ j, (c, j) ∈ s'.diagram.pairings := by
  have hC' : SplitComplex K D B f M deg ε dn els := SplitComplex.take (q := d :: q) (hdims ▸ hC)
  obtain ⟨t, ht1, ht2, hinv⟩ := clearing_unique hC' (fuel := fuel) (rc := s.rc) (dgm := s.diagram) (by
    unfold buildWithDiagram; rw [h]; rfl)
  have : t = s := by cases s; cases t; simp only at ht1 ht2; rw [ht1, ht2]
  subst this
  obtain ⟨k1, k2⟩ := clrAll_keys hC (d :: q) (fun e he => by rw [hdims]; exact List.mem_append_right _ he) h'
  have hdd : d ∈ dims := by rw [hdims]; simp
  have hnd : (dn ++ d :: q).Nodup := hdims ▸ hC.nodup
  have hcd := hC.deg_els d hdd c hc
  constructor
  · intro hs
    obtain ⟨y, hy⟩ := Option.isSome_iff_exists.1 hs
    cases y with
    | cleared j =>
      obtain ⟨h1, h2⟩ := (hinv.cleared c j).1 hy
      exact ⟨j, k1 _ ((hinv.pairs c j).2 ⟨h1, h2⟩)⟩
    | reduced l =>
      exfalso
      obtain ⟨d', hd', hc'⟩ := List.mem_flatMap.1 ((hinv.reduced c).1 ⟨l, hy⟩).1
      have := hC.deg_els d' (by rw [hdims]; simp [hd']) c hc'
      have e : d' = d := by omega
      subst e
      exact (List.nodup_append.1 hnd).2.2 _ hd' _ (by simp) rfl
  · rintro ⟨j, hj⟩
    rcases k2 _ hj with h1 | h1
    · obtain ⟨h2, h3⟩ := (hinv.pairs c j).1 h1
      rw [(hinv.cleared c j).2 ⟨h2, h3⟩]; rfl
    · exfalso
      obtain ⟨dj, hdj, hjd⟩ := List.mem_flatMap.1 h1
      have hdj' : dj ∈ dims := by rw [hdims]; exact List.mem_append_right _ hdj
      -- the row of the pair has degree `dj + ε`
      have hall : buildWithDiagram D B fuel dims = some (s'.rc, s'.diagram) := by
        unfold buildWithDiagram
        rw [hdims, clrAll_append, h, Option.bind_some, h']; rfl
      obtain ⟨u, hu1, hu2, huinv⟩ := clearing_unique hC hall
      rw [← hu2] at hj
      obtain ⟨h4, h5⟩ := (huinv.pairs c j).1 hj
      obtain ⟨y, y1, y2⟩ := lc_support h5.1
      have hyd : y ∈ els dj := by
        obtain ⟨dy, hdy, hyd⟩ := List.mem_flatMap.1 (huinv.dec.mem_of_ne h4 y1)
        have e1 := hC.deg_els dy hdy y hyd
        have e2 := huinv.degW j h4 y y1
        have e3 := hC.deg_els dj hdj' j hjd
        have : dy = dj := by omega
        exact this ▸ hyd
      have e4 := (hC.row_of_ne hdj' hyd y2).1
      rw [hcd] at e4
      rcases List.mem_cons.1 hdj with rfl | hdq
      · have := hC.shift; omega
      · obtain ⟨q1, q2, rfl⟩ := List.append_of_mem hdq
        exact hC.order (dn ++ d :: q1) dj q2 (by rw [hdims]; simp) d (by simp) (by omega)

/-- The run on a matrix that panics on some columns: it returns what the run on the whole matrix returns if it does not panic on cells that are not births. -/
theorem clrAll_skip (hC : SplitComplex K D B f M deg ε dims els) {fuel : ℕ} {els' : List T} {s' : CrmState CF T}
    (hels : ∀ c ∈ dims.flatMap els, (∀ j, (c, j) ∉ s'.diagram.pairings) → c ∈ els') (dn q : List ℕ) (hdims : dims = dn ++ q) : ∀ {s : CrmState CF T},
    clrAll D B fuel dn ⟨Diagram.empty, fun _ => none⟩ = some s → clrAll D B fuel q s = some s' → clrAll (D.restrict els') B fuel q s = some s' := by
  induction q generalizing dn with
  | nil => intro s _ h; exact h
  | cons d q ih =>
    intro s h h'
    have hdd : d ∈ dims := by rw [hdims]; simp
    have hcl := fun c (hc : c ∈ els d) => cleared_iff_birth hC hdims h h' hc
    simp only [clrAll] at h' ⊢
    obtain ⟨s1, h1, h2⟩ := Option.bind_eq_some_iff.1 h'
    have h3 : clrAll D B fuel (dn ++ [d]) ⟨Diagram.empty, fun _ => none⟩ = some s1 := by
      rw [clrAll_append, h, Option.bind_some]
      simp only [clrAll, h1, Option.bind_some]
    have h4 := ih (dn ++ [d]) (by rw [hdims]; simp) h3 h2
    suffices hs : clrDimension (D.restrict els') B fuel s d = some s1 by rw [hs, Option.bind_some]; exact h4
    obtain ⟨Bd, hB1, hB2⟩ := hC.basis d hdd
    obtain ⟨hlen, hel⟩ := elems_spec hB2
    unfold clrDimension at h1 ⊢
    rw [hB1, Option.bind_some] at h1 ⊢
    obtain ⟨p', h5, h6⟩ := Option.map_eq_some_iff.1 h1
    have hin : ∀ i b, Bd.element i = some b → i ∈ List.range Bd.size → b ∈ els d := by
      intro i b hb hi
      rw [hel i (List.mem_range.1 hi)] at hb
      exact List.mem_of_getElem? hb
    have hrest : ∀ c, (c ∈ els d ∧ s.rc c = none) → c ∈ els' := by
      rintro c ⟨hc, hn⟩
      refine hels c (List.mem_flatMap.2 ⟨d, hdd, hc⟩) fun j hj => ?_
      have := (hcl c hc).2 ⟨j, hj⟩
      rw [hn] at this; cases this
    -- only basis positions in range are used: replace the basis by one that panics elsewhere
    have key := clrLoop_congr (D := D) (D' := D.restrict els') (A := fun c => c ∈ els d ∧ s.rc c = none) (P := fun c => deg c = d + ε) (rc0 := s.rc)
      (B := ⟨Bd.size, fun i => if i ∈ List.range Bd.size then Bd.element i else none⟩)
      (fun b hb l hl t ht => (hC.rows d hdd b hb.1 l hl t ht).1) (fun b hb es hes => hC.rowsF hdd hb.1 hes)
      (fun c hc hd' => by
        have := hC.deg_els d hdd c hc.1
        have := hC.shift
        omega)
      (fun c hc => by simp only [FOracle.restrict, if_pos (hrest c hc)]) (fun c hc => by simp only [FOracle.restrict, if_pos (hrest c hc)]) rfl
      (fun i b hb hn => by
        dsimp only at hb
        split at hb
        · rename_i hi; exact ⟨hin i b hb hi, hn⟩
        · cases hb)
      (List.range Bd.size) (fuel := fuel) (pre := []) (p := (s, fun _ => none)) (p' := p')
      ⟨fun _ _ _ h => (by cases h), fun c hc => Or.inl hc, by simp⟩ (fun c hc => hc)
    have hBd : ∀ (E : FOracle CF T T F) (is : List ℕ) p, (∀ i ∈ is, i ∈ List.range Bd.size) →
        clrLoop E ⟨Bd.size, fun i => if i ∈ List.range Bd.size then Bd.element i else none⟩ fuel is p = clrLoop E Bd fuel is p := by
      intro E is
      induction is with
      | nil => intro p _; rfl
      | cons i is ihh =>
        intro p hi
        simp only [clrLoop, if_pos (hi i (by simp))]
        refine Option.bind_congr fun b _ => Option.bind_congr fun p'' _ => ihh p'' fun j hj => hi j (by simp [hj])
    rw [hBd D _ _ fun _ h => h, hBd (D.restrict els') _ _ fun _ h => h] at key
    rw [key h5, Option.map_some, h6]

/-- A run that returns requested the columns of all cells that are not births. -/
theorem clrAll_needs (hC : SplitComplex K D B f M deg ε dims els) {fuel : ℕ} {els' : List T} {s' : CrmState CF T}
    (h : clrAll (D.restrict els') B fuel dims ⟨Diagram.empty, fun _ => none⟩ = some s') {c : T} (hc : c ∈ dims.flatMap els) (hn : ∀ j, (c, j) ∉ s'.diagram.pairings) :
    c ∈ els' := by
  obtain ⟨d, hd, hcd⟩ := List.mem_flatMap.1 hc
  obtain ⟨dn, q, hdims⟩ := List.append_of_mem hd
  have hle := restrict_le D els'
  rw [hdims, clrAll_append] at h
  obtain ⟨s, h1, h2⟩ := Option.bind_eq_some_iff.1 h
  have h1' := clrAll_mono hle (le_refl fuel) h1
  have h2' := clrAll_mono hle (le_refl fuel) h2
  have hcl := cleared_iff_birth hC hdims h1' h2' hcd
  simp only [clrAll] at h2
  obtain ⟨s1, h3, _⟩ := Option.bind_eq_some_iff.1 h2
  obtain ⟨Bd, hB1, hB2⟩ := hC.basis d hd
  obtain ⟨hlen, hel⟩ := elems_spec hB2
  unfold clrDimension at h3
  rw [hB1, Option.bind_some] at h3
  obtain ⟨p', h4, _⟩ := Option.map_eq_some_iff.1 h3
  by_contra hce
  -- the column loop gets stuck at `c`
  have : ∀ (is : List ℕ) (p : CrmState CF T × (T → Option (T × CF))) (pre : List T), ReadInv (fun c => c ∈ els d) (fun c => deg c = d + ε) s.rc
      (fun b => ((D.restrict els').colF b).isSome) pre p → (∀ i ∈ is, i < Bd.size) → clrLoop (D.restrict els') Bd fuel is p = some p' →
      ∀ i ∈ is, ∀ b, Bd.element i = some b → (s.rc b).isSome ∨ ((D.restrict els').colF b).isSome := by
    intro is
    induction is with
    | nil => intro p pre _ _ _ i hi; simp at hi
    | cons i is ih =>
      intro p pre hinv his hrun j hj b hb
      simp only [clrLoop] at hrun
      obtain ⟨b', g1, hrun⟩ := Option.bind_eq_some_iff.1 hrun
      obtain ⟨p1, g2, hrun⟩ := Option.bind_eq_some_iff.1 hrun
      have hb' : b' ∈ els d := by
        rw [hel i (his i (by simp))] at g1
        exact List.mem_of_getElem? g1
      have hinv1 := clrColumn_read (D := D.restrict els') (A := fun c => c ∈ els d) (P := fun c => deg c = d + ε) (rc0 := s.rc)
        (fun b hb l hl t ht => by
          have hl' := hle.col b l hl
          exact (hC.rows d hd b hb l hl' t ht).1)
        (fun b hb es hes => hC.rowsF hd hb (hle.colF b es hes))
        (fun c hc hd' => by
          have := hC.deg_els d hd c hc
          have := hC.shift
          omega) hinv hb' g2
      rcases List.mem_cons.1 hj with rfl | hj
      · rw [g1] at hb; cases hb
        exact hinv1.done _ (by simp)
      · exact ih p1 _ hinv1 (fun i hi => his i (by simp [hi])) hrun j hj b hb
  obtain ⟨i, hi, rfl⟩ := List.mem_iff_getElem.1 hcd
  have hi' : i < Bd.size := by omega
  rcases this _ _ [] ⟨fun _ _ _ h => (by cases h), fun c hc => Or.inl hc, by simp⟩ (fun i hi => List.mem_range.1 hi) h4 i (List.mem_range.2 hi') ((els d)[i])
    (by rw [hel i hi', List.getElem?_eq_getElem hi]) with h5 | h5
  · obtain ⟨j, hj⟩ := hcl.1 h5
    exact hn j hj
  · simp only [FOracle.restrict, if_neg hce] at h5
    cases h5

/-- C64: the columns that clearing requests are exactly those of the cells of the listed dimensions that are not births of pairs: the run is
the same on every matrix that panics outside a list `els'` of cells containing these, and panics on (or never returns for) every other. The stored
column of a birth is only the name of the cell with which it is paired. -/
theorem C64_columns_requested (hC : SplitComplex K D B f M deg ε dims els) :
    ∃ rc dgm, (∀ c j, rc c = some (.cleared j) ↔ (c, j) ∈ dgm.pairings) ∧ ∀ fuel, (∀ d ∈ dims, (els d).length < fuel) →
      buildWithDiagram D B fuel dims = some (rc, dgm) ∧
      ∀ els' : List T, ((∀ c ∈ dims.flatMap els, (∀ j, (c, j) ∉ dgm.pairings) → c ∈ els') → buildWithDiagram (D.restrict els') B fuel dims = some (rc, dgm)) ∧
        (¬ (∀ c ∈ dims.flatMap els, (∀ j, (c, j) ∉ dgm.pairings) → c ∈ els') → buildWithDiagram (D.restrict els') B fuel dims = none) := by
  obtain ⟨s, hinv, h⟩ := clearing_run hC
  refine ⟨s.rc, s.diagram, fun c j => by rw [hinv.cleared, hinv.pairs], fun fuel hf => ⟨(h fuel hf).2, fun els' => ⟨fun hels => ?_, fun hels => ?_⟩⟩⟩
  · have h1 := (h fuel hf).2
    unfold buildWithDiagram at h1 ⊢
    obtain ⟨s', h2, h3⟩ := Option.map_eq_some_iff.1 h1
    obtain ⟨h4, h5⟩ := Prod.mk.inj h3
    rw [clrAll_skip hC (s' := s') (by rw [h5]; exact hels) [] dims rfl rfl h2]
    exact congrArg some h3
  · by_contra hcon
    obtain ⟨x, hx⟩ := Option.ne_none_iff_exists'.1 hcon
    have hx' := buildWithDiagram_mono (restrict_le D els') (le_refl fuel) hx
    rw [(h fuel hf).2] at hx'
    cases hx'
    unfold buildWithDiagram at hx
    obtain ⟨s', h2, h3⟩ := Option.map_eq_some_iff.1 hx
    obtain ⟨h4, h5⟩ := Prod.mk.inj h3
    exact hels fun c hc hn => clrAll_needs hC h2 hc (by rw [h5]; exact hn)

end
/-! ### The filled triangle: the columns of the births 1, 2 and 5 are not requested, all others are -/
namespace Example

example : letI := listHeap
    ((buildWithDiagram (D.restrict [6, 3, 4, 0]) B 4 [2, 1, 0]).map Prod.snd = some ⟨{0}, {(1, 3), (2, 4), (5, 6)}⟩) ∧
    ∀ c ∈ [6, 3, 4, 0], (buildWithDiagram (D.restrict ([6, 3, 4, 0].erase c ++ [1, 2, 5])) B 4 [2, 1, 0]).isNone := by decide +kernel

end Example
end Phlite
