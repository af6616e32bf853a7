/-
The columns of the GrPPH coboundary in terms of 2-cells.
-/
import Verif.Spec.GrPPH
import Verif.Spec.Column
import Verif.Proofs.Matrices
import Verif.Proofs.RipsBases
import Verif.Props.Matrices
import Verif.Props.Homology

set_option linter.unusedSectionVars false
set_option linter.unusedSimpArgs false

namespace Phlite
open Finsupp (single linearCombination linearCombination_single)

/-! ### Lists -/

theorem filterMapOpt_eq {α β : Type} (f : α → Option (Option β)) (g : α → Option β) (l : List α) (h : ∀ a ∈ l, f a = some (g a)) :
    filterMapOpt f l = some (l.filterMap g) := by
  induction l with
  | nil => rfl
  | cons a l ih =>
    rw [filterMapOpt, h a (by simp), Option.bind_some, ih fun b hb => h b (by simp [hb]), List.filterMap_cons]
    cases g a <;> rfl

theorem flatMapOpt_eq {α β : Type} (f : α → Option (List β)) (g : α → List β) (l : List α) (h : ∀ a ∈ l, f a = some (g a)) :
    flatMapOpt f l = some (l.flatMap g) := by
  induction l with
  | nil => rfl
  | cons a l ih =>
    rw [flatMapOpt, h a (by simp), Option.bind_some, ih fun b hb => h b (by simp [hb])]; rfl

theorem flatMapOpt_exists {α β : Type} (f : α → Option (List β)) (P : α → List β → Prop) (l : List α) (h : ∀ a ∈ l, ∃ r, f a = some r ∧ P a r) :
    ∃ g : α → List β, flatMapOpt f l = some (l.flatMap g) ∧ ∀ a ∈ l, P a (g a) := by
  classical
  refine ⟨fun a => if ha : a ∈ l then (h a ha).choose else [], ?_, ?_⟩
  · refine flatMapOpt_eq _ _ _ fun a ha => ?_
    rw [dif_pos ha]
    exact (h a ha).choose_spec.1
  · intro a ha
    simp only
    rw [dif_pos ha]
    exact (h a ha).choose_spec.2

section
variable {CF K Row : Type} [NonZeroCoeff CF] [Field K] [LawfulCoeff CF K] [DecidableEq Row]

/-- A list of distinct rows with the same coefficient. -/
theorem lcOf_const (k : CF) (l : List Row) (hl : l.Nodup) (r : Row) :
    lcOf K (l.map fun x => (k, x)) r = if r ∈ l then LawfulCoeff.val k else 0 := by
  induction l with
  | nil => simp
  | cons x l ih =>
    rw [List.nodup_cons] at hl
    rw [List.map_cons, lcOf_cons, Finsupp.add_apply, ih hl.2, Finsupp.single_apply]
    by_cases hx : x = r
    · subst hx; simp [hl.1]
    · have : r ≠ x := fun e => hx e.symm
      simp [hx, this]
end

section
variable {F : Type} [LinearOrder F] {n : ℕ} {time : ℕ → ℕ → Option F}

/-! ### Paths and bridges -/

/-- The time of a 2-path. -/
def ptime (time : ℕ → ℕ → Option F) (a b c : ℕ) : Option F :=
  match time a b, time b c with
  | some x, some y => some (max x y)
  | _, _ => none

theorem ptime_iff {a b c : ℕ} (ha : a < n) (hb : b < n) (hc : c < n) (m : F) : ptime time a b c = some m ↔ IsTwoPath n time a b c m := by
  unfold ptime IsTwoPath
  cases h1 : time a b <;> cases h2 : time b c <;> simp [ha, hb, hc, eq_comm]

theorem IsTwoPath.unique {a b c : ℕ} {m m' : F} (h : IsTwoPath n time a b c m) (h' : IsTwoPath n time a b c m') : m = m' := by
  have e := (ptime_iff (time := time) h.1 h.2.1 h.2.2.1 m).2 h
  have e' := (ptime_iff (time := time) h.1 h.2.1 h.2.2.1 m').2 h'
  exact Option.some.inj (e.symm.trans e')

theorem IsPrimaryBridge.unique {a c b b' : ℕ} (h : IsPrimaryBridge n time a c b) (h' : IsPrimaryBridge n time a c b') : b = b' := by
  obtain ⟨m, h1, _, h3⟩ := h
  obtain ⟨m', h1', _, h3'⟩ := h'
  rcases h3 b' m' h1' with e | ⟨e, e2⟩ <;> rcases h3' b m h1 with e' | ⟨e', e2'⟩
  · exact absurd (e.trans e') (lt_irrefl _)
  · exact absurd e (e' ▸ lt_irrefl _)
  · exact absurd e' (e ▸ lt_irrefl _)
  · omega

theorem minPair_mem {l : List (F × ℕ)} {p : F × ℕ} (h : minPair l = some p) : p ∈ l ∧ ∀ q ∈ l, toLex p ≤ toLex q := by
  cases l with
  | nil => cases h
  | cons a l =>
    replace h := Option.some.inj h
    subst h
    induction l generalizing a with
    | nil => simp
    | cons b l ih =>
      rw [List.foldl_cons]
      by_cases hlt : toLex b < toLex a
      · rw [if_pos hlt]
        obtain ⟨h1, h2⟩ := ih b
        refine ⟨List.mem_cons_of_mem _ h1, ?_⟩
        intro q hq
        rcases List.mem_cons.1 hq with rfl | hq
        · exact (h2 b (by simp)).trans hlt.le
        · exact h2 q hq
      · rw [if_neg hlt]
        obtain ⟨h1, h2⟩ := ih a
        refine ⟨?_, ?_⟩
        · rcases List.mem_cons.1 h1 with e | h1
          · rw [e]; simp
          · simp [h1]
        · intro q hq
          rcases List.mem_cons.1 hq with rfl | hq
          · exact h2 _ (by simp)
          · rcases List.mem_cons.1 hq with rfl | hq
            · exact (h2 a (by simp)).trans (not_lt.1 hlt)
            · exact h2 q (by simp [hq])

/-- All 2-paths from `s` to `t` with their times. -/
def pathList (n : ℕ) (time : ℕ → ℕ → Option F) (s t : ℕ) : List (F × ℕ) := (List.range n).filterMap fun i => (ptime time s i t).map fun m => (m, i)

theorem mem_pathList {s t : ℕ} (hs : s < n) (ht : t < n) {m : F} {i : ℕ} : (m, i) ∈ pathList n time s t ↔ IsTwoPath n time s i t m := by
  unfold pathList
  rw [List.mem_filterMap]
  constructor
  · rintro ⟨j, hj, e⟩
    obtain ⟨m', h1, h2⟩ := Option.map_eq_some_iff.1 e
    obtain ⟨rfl, rfl⟩ := Prod.mk.inj h2
    exact (ptime_iff hs (List.mem_range.1 hj) ht _).1 h1
  · intro h
    refine ⟨i, List.mem_range.2 h.2.1, ?_⟩
    rw [(ptime_iff hs h.2.1 ht m).2 h]; rfl

/-- The primary bridge as computed. -/
def bridgeOf (n : ℕ) (time : ℕ → ℕ → Option F) (st : ℕ × ℕ) : Option ℕ :=
  match minPair (pathList n time st.1 st.2) with
  | none => none
  | some p => match time st.1 st.2 with
    | some u => if p.1 ≥ u then none else some p.2
    | none => some p.2

theorem bridgeOf_iff {s t b : ℕ} (hs : s < n) (ht : t < n) : bridgeOf n time (s, t) = some b ↔ IsPrimaryBridge n time s t b := by
  have lex : ∀ p q : F × ℕ, toLex p ≤ toLex q ↔ p.1 < q.1 ∨ (p.1 = q.1 ∧ p.2 ≤ q.2) := fun p q => Prod.Lex.toLex_le_toLex
  unfold bridgeOf
  cases hm : minPair (pathList n time s t) with
  | none =>
    simp only [false_iff, reduceCtorEq]
    rintro ⟨m, h1, _⟩
    have := (mem_pathList hs ht).2 h1
    cases hl : pathList n time s t with
    | nil => rw [hl] at this; cases this
    | cons a l => rw [hl] at hm; cases hm
  | some p =>
    obtain ⟨h1, h2⟩ := minPair_mem hm
    have h1' := (mem_pathList hs ht).1 (show (p.1, p.2) ∈ _ from h1)
    have key : ((∀ u, time s t = some u → p.1 < u) ∧ p.2 = b) ↔ IsPrimaryBridge n time s t b := by
      constructor
      · rintro ⟨h3, rfl⟩
        refine ⟨p.1, h1', h3, ?_⟩
        intro b' m' hb'
        exact (lex p (m', b')).1 (h2 _ ((mem_pathList hs ht).2 hb'))
      · rintro ⟨m, h3, h4, h5⟩
        have a1 := (lex p (m, b)).1 (h2 _ ((mem_pathList hs ht).2 h3))
        have a2 := h5 _ _ h1'
        have e : m = p.1 ∧ p.2 = b := by
          rcases a1 with a1 | ⟨a1, a1'⟩ <;> rcases a2 with a2 | ⟨a2, a2'⟩
          · exact absurd (a1.trans a2) (lt_irrefl _)
          · exact absurd a1 (a2 ▸ lt_irrefl _)
          · exact absurd a2 (a1 ▸ lt_irrefl _)
          · exact ⟨a2, le_antisymm a1' a2'⟩
        rw [← e.1]; exact ⟨h4, e.2⟩
    rw [← key]
    simp only
    cases hu : time s t with
    | none => simp
    | some u =>
      simp only [Option.some.injEq, forall_eq']
      by_cases hpu : p.1 ≥ u
      · rw [if_pos hpu]; simp [not_lt.2 hpu]
      · rw [if_neg hpu]; simp [not_le.1 hpu]

/-- There is a primary bridge if some path appears before the arrow. -/
theorem exists_bridge {a b c : ℕ} {m : F} (h : IsTwoPath n time a b c m) (hlt : ∀ u, time a c = some u → m < u) :
    ∃ pb, IsPrimaryBridge n time a c pb := by
  have hl := (mem_pathList h.1 h.2.2.1).2 h
  obtain ⟨p, hp⟩ : ∃ p, minPair (pathList n time a c) = some p := by
    cases hl' : pathList n time a c with
    | nil => rw [hl'] at hl; cases hl
    | cons x l => exact ⟨_, rfl⟩
  refine ⟨p.2, (bridgeOf_iff h.1 h.2.2.1).1 ?_⟩
  unfold bridgeOf
  simp only [hp]
  cases hu : time a c with
  | none => rfl
  | some u =>
    have h1 := hlt u hu
    have h2 := (minPair_mem hp).2 _ hl
    rw [Prod.Lex.toLex_le_toLex] at h2
    have h3 : p.1 ≤ m := by
      rcases h2 with h2 | h2
      · exact h2.le
      · exact h2.1.le
    simp only
    rw [if_neg (not_le.2 (lt_of_le_of_lt h3 h1))]

variable [Zero F] [OrderTop F] {et : EdgeTime F}

theorem twoPathTime_eq (h : IsDigraphFiltration et n time) {a b c : ℕ} (ha : a < n) (hb : b < n) (hc : c < n) :
    twoPathTime et a b c = some (ptime time a b c) := by
  unfold twoPathTime ptime
  rw [h.entry a ha b hb, h.entry b hb c hc]
  cases time a b <;> cases time b c <;> rfl

theorem foldlM_insert {g : ℕ × ℕ → Option ℕ} {step : BridgeMap → ℕ × ℕ → Option BridgeMap} (l : List (ℕ × ℕ)) (hl : l.Nodup)
    (hstep : ∀ st ∈ l, ∀ map : BridgeMap, map st = none → step map st = some fun x => if x = st then g st else map x)
    (map : BridgeMap) (hmap : ∀ x ∈ l, map x = none) :
    l.foldlM step map = some fun x => if x ∈ l then g x else map x := by
  induction l generalizing map with
  | nil => simp
  | cons a l ih =>
    rw [List.nodup_cons] at hl
    rw [List.foldlM_cons, hstep a (by simp) map (hmap a (by simp))]
    show l.foldlM step _ = _
    rw [ih hl.2 (fun st hst => hstep st (by simp [hst]))]
    · congr 1
      funext x
      by_cases hx : x ∈ l
      · simp [hx]
      · by_cases hxa : x = a
        · subst hxa; simp [hx]
        · simp [hx, hxa]
    · intro x hx
      have : x ≠ a := fun e => hl.1 (e ▸ hx)
      rw [if_neg this, hmap x (by simp [hx])]

/-- All pairs below `n`. -/
def pairList (n : ℕ) : List (ℕ × ℕ) := (List.range n).flatMap fun s => (List.range n).map fun t => (s, t)

theorem mem_pairList {x : ℕ × ℕ} : x ∈ pairList n ↔ x.1 < n ∧ x.2 < n := by
  obtain ⟨s, t⟩ := x
  simp [pairList]

theorem pairList_nodup (n : ℕ) : (pairList n).Nodup := by
  unfold pairList
  rw [List.nodup_flatMap]
  refine ⟨fun s _ => List.nodup_range.map fun a b e => (Prod.mk.inj e).2, ?_⟩
  refine List.Pairwise.imp ?_ (List.nodup_range (n := n))
  intro a b hne x hx hy
  obtain ⟨t, _, rfl⟩ := List.mem_map.1 hx
  obtain ⟨t', _, e⟩ := List.mem_map.1 hy
  exact hne (Prod.mk.inj e).1.symm

theorem bridgeStep_eq (h : IsDigraphFiltration et n time) {st : ℕ × ℕ} (hs : st.1 < n) (ht : st.2 < n) (map : BridgeMap) (hmap : map st = none) :
    bridgeStep et n map st = some fun x => if x = st then bridgeOf n time st else map x := by
  have e : filterMapOpt (fun i => (twoPathTime et st.1 i st.2).map fun o => o.map fun time => (time, i)) (List.range n) =
      some (pathList n time st.1 st.2) := by
    refine filterMapOpt_eq _ _ _ fun i hi => ?_
    rw [twoPathTime_eq h hs (List.mem_range.1 hi) ht]; rfl
  unfold bridgeStep bridgeOf
  rw [e, Option.bind_some]
  have hsame : (fun x => if x = st then none else map x) = map := by
    funext x
    by_cases hx : x = st
    · rw [if_pos hx, hx, hmap]
    · rw [if_neg hx]
  cases minPair (pathList n time st.1 st.2) with
  | none => simp only; rw [hsame]
  | some p =>
    obtain ⟨m, b⟩ := p
    simp only
    rw [h.entry _ hs _ ht]
    cases time st.1 st.2 with
    | none => rfl
    | some u =>
      simp only [Option.map_some]
      by_cases hu : m ≥ u
      · rw [if_pos hu, if_pos hu, hsame]
      · rw [if_neg hu, if_neg hu]; rfl

/-- `build_primary_bridge_map` does not panic and finds the primary bridges. -/
theorem buildPrimaryBridgeMap_spec (h : IsDigraphFiltration et n time) :
    ∃ bm, buildPrimaryBridgeMap et n = some bm ∧ ∀ a c b, bm (a, c) = some b ↔ IsPrimaryBridge n time a c b := by
  refine ⟨_, foldlM_insert (g := bridgeOf n time) (pairList n) (pairList_nodup n) ?_ _ (fun _ _ => rfl), ?_⟩
  · intro st hst map hmap
    obtain ⟨h1, h2⟩ := mem_pairList.1 hst
    exact bridgeStep_eq h h1 h2 map hmap
  · intro a c b
    by_cases hx : (a, c) ∈ pairList n
    · obtain ⟨h1, h2⟩ := mem_pairList.1 hx
      rw [if_pos hx, bridgeOf_iff h1 h2]
    · rw [if_neg hx]
      simp only [false_iff, reduceCtorEq]
      rintro ⟨m, h1, _⟩
      exact hx (mem_pairList.2 ⟨h1.1, h1.2.2.1⟩)

/-! ### 2-cells -/

theorem IsTwoPath.ne (h : IsDigraphFiltration et n time) {a b c : ℕ} {m : F} (hp : IsTwoPath n time a b c m) : a ≠ b ∧ b ≠ c := by
  obtain ⟨h1, h2, h3, x, y, hx, hy, _⟩ := hp
  refine ⟨?_, ?_⟩
  · rintro rfl; rw [h.noLoop a h1] at hx; cases hx
  · rintro rfl; rw [h.noLoop b h2] at hy; cases hy

theorem TwoCellAt.filt (h : IsDigraphFiltration et n time) (E : List (ℕ × ℕ)) {τ : PathHom2Cell} {t : F} (hτ : TwoCellAt n time τ t) :
    grpphFiltrationValue et E (.twoCell τ) = some t := by
  have tp : ∀ {a b c m}, IsTwoPath n time a b c m → twoPathTime et a b c = some (some m) := by
    intro a b c m hp
    rw [twoPathTime_eq h hp.1 hp.2.1 hp.2.2.1, (ptime_iff hp.1 hp.2.1 hp.2.2.1 m).2 hp]
  cases τ with
  | doubleEdge a b =>
    show (twoPathTime et a b a).bind id = _
    rw [tp hτ]; rfl
  | directedTriangle a b c =>
    obtain ⟨_, m, u, h1, h2, _, rfl⟩ := hτ
    show ((twoPathTime et a b c).bind id).bind _ = _
    rw [tp h1, h.entry a h1.1 c h1.2.2.1, h2]; rfl
  | longSquare a b c d =>
    obtain ⟨_, ⟨m, h1, h2, h3⟩, _, h4, _⟩ := hτ
    show ((twoPathTime et a b d).bind id).bind _ = _
    rw [tp h1, tp h4]
    have : m ≤ t := by
      rcases h3 c t h4 with e | ⟨e, _⟩
      · exact e.le
      · exact e.le
    show some (max m t) = _
    rw [max_eq_right this]

theorem TwoCellAt.unique (h : IsDigraphFiltration et n time) {τ : PathHom2Cell} {t t' : F} (hτ : TwoCellAt n time τ t) (hτ' : TwoCellAt n time τ t') : t = t' :=
  Option.some.inj ((hτ.filt h []).symm.trans (hτ'.filt h []))

/-- The paths of a 2-cell. -/
theorem TwoCellAt.path {τ : PathHom2Cell} {t : F} (hτ : TwoCellAt n time τ t) (K : Type) [Field K] {a b c : ℕ}
    (hne : cellChain K τ (a, b, c) ≠ 0) : ∃ m ≤ t, IsTwoPath n time a b c m := by
  cases τ with
  | doubleEdge a' b' =>
    rw [cellChain, Finsupp.single_apply] at hne
    have e : (a', b', a') = (a, b, c) := by by_contra e; rw [if_neg e] at hne; exact hne rfl
    simp only [Prod.mk.injEq] at e
    obtain ⟨rfl, rfl, rfl⟩ := e
    exact ⟨t, le_rfl, hτ⟩
  | directedTriangle a' b' c' =>
    rw [cellChain, Finsupp.single_apply] at hne
    have e : (a', b', c') = (a, b, c) := by by_contra e; rw [if_neg e] at hne; exact hne rfl
    simp only [Prod.mk.injEq] at e
    obtain ⟨rfl, rfl, rfl⟩ := e
    obtain ⟨_, m, u, h1, _, _, rfl⟩ := hτ
    exact ⟨m, le_max_left _ _, h1⟩
  | longSquare a' b' c' d' =>
    rw [cellChain, Finsupp.sub_apply, Finsupp.single_apply, Finsupp.single_apply] at hne
    obtain ⟨_, ⟨m, h1, h2, h3⟩, _, h4, _⟩ := hτ
    by_cases e : (a', c', d') = (a, b, c)
    · simp only [Prod.mk.injEq] at e
      obtain ⟨rfl, rfl, rfl⟩ := e
      exact ⟨t, le_rfl, h4⟩
    · rw [if_neg e] at hne
      have e : (a', b', d') = (a, b, c) := by by_contra e; rw [if_neg e] at hne; exact hne (sub_zero 0)
      simp only [Prod.mk.injEq] at e
      obtain ⟨rfl, rfl, rfl⟩ := e
      refine ⟨m, ?_, h1⟩
      rcases h3 c' t h4 with e | ⟨e, _⟩
      · exact e.le
      · exact e.le

variable {CF K : Type} [NonZeroCoeff CF] [Field K] [LawfulCoeff CF K] {bm : BridgeMap}

/-- The list of long squares of a primary bridge. -/
def squares (n : ℕ) (time : ℕ → ℕ → Option F) (a b c : ℕ) : List (PathHom2Cell × F) :=
  ((((List.range n).filter (· ≠ a)).filter (· ≠ b)).filter (· ≠ c)).filterMap fun i =>
    match ptime time a i c with
    | none => none
    | some m => if m ≥ (time a c).getD ⊤ then none else some (.longSquare a b i c, m)

theorem longSquares_eq (h : IsDigraphFiltration et n time) {a b c : ℕ} (ha : a < n) (hc : c < n) :
    longSquaresWithPrimaryBridge et n a b c = some (squares n time a b c) := by
  unfold longSquaresWithPrimaryBridge
  rw [h.entry a ha c hc, Option.bind_some]
  refine filterMapOpt_eq _ _ _ fun i hi => ?_
  simp only [List.mem_filter, List.mem_range] at hi
  rw [twoPathTime_eq h ha hi.1.1.1 hc]
  cases ptime time a i c <;> rfl

theorem mem_squares (h : IsDigraphFiltration et n time) {a b c : ℕ} (hac : a ≠ c) (hb : IsPrimaryBridge n time a c b) {τ : PathHom2Cell} {t : F} :
    (τ, t) ∈ squares n time a b c ↔ ∃ i, τ = .longSquare a b i c ∧ TwoCellAt n time τ t := by
  have hb' := hb
  obtain ⟨m0, hp0, hlt0, _⟩ := hb'
  have top : ∀ {i m}, IsTwoPath n time a i c m → (¬ m ≥ (time a c).getD ⊤ ↔ ∀ u, time a c = some u → m < u) := by
    intro i m hp
    cases hu : time a c with
    | none =>
      simp only [Option.getD_none, ge_iff_le, top_le_iff, reduceCtorEq, false_imp_iff, implies_true, iff_true]
      obtain ⟨h1, h2, h3, x, y, hx, hy, rfl⟩ := hp
      intro e
      obtain ⟨z, hz⟩ := h.top_closed _ h1 _ h2 _ h3 hac x y hx hy (by rcases max_choice x y with e' | e' <;> rw [e'] at e <;> [exact Or.inl e; exact Or.inr e])
      rw [hu] at hz; cases hz
    | some u => simp
  unfold squares
  rw [List.mem_filterMap]
  constructor
  · rintro ⟨i, hi, e⟩
    simp only [List.mem_filter, List.mem_range, ne_eq, decide_not, Bool.not_eq_eq_eq_not, Bool.not_true, decide_eq_false_iff_not] at hi
    obtain ⟨⟨⟨i1, i2⟩, i3⟩, i4⟩ := hi
    cases hm : ptime time a i c with
    | none => rw [hm] at e; cases e
    | some m =>
      rw [hm] at e
      have hp := (ptime_iff hp0.1 i1 hp0.2.2.1 m).1 hm
      simp only at e
      split at e
      · cases e
      · rename_i hlt
        obtain ⟨rfl, rfl⟩ := Prod.mk.inj (Option.some.inj e)
        exact ⟨i, rfl, hac, hb, i3, hp, (top hp).1 hlt⟩
  · rintro ⟨i, rfl, h1, h2, h3, h4, h5⟩
    have hne := h4.ne h
    refine ⟨i, ?_, ?_⟩
    · simp only [List.mem_filter, List.mem_range, ne_eq, decide_not, Bool.not_eq_eq_eq_not, Bool.not_true, decide_eq_false_iff_not]
      exact ⟨⟨⟨h4.2.1, fun e => hne.1 e.symm⟩, h3⟩, hne.2⟩
    · rw [(ptime_iff hp0.1 h4.2.1 hp0.2.2.1 t).2 h4]
      simp only
      rw [if_neg ((top h4).2 h5)]

theorem filterMap_nodup {α β γ : Type} (g : α → Option β) (k : β → γ) {l : List α} (hl : l.Nodup)
    (hg : ∀ a ∈ l, ∀ a' ∈ l, ∀ b b', g a = some b → g a' = some b' → k b = k b' → a = a') : ((l.filterMap g).map k).Nodup := by
  induction l with
  | nil => simp
  | cons x l ih =>
    rw [List.nodup_cons] at hl
    have ih := ih hl.2 fun a ha a' ha' => hg a (by simp [ha]) a' (by simp [ha'])
    rw [List.filterMap_cons]
    cases hx : g x with
    | none => exact ih
    | some b =>
      simp only [List.map_cons, List.nodup_cons]
      refine ⟨?_, ih⟩
      intro hm
      obtain ⟨b', hb', e⟩ := List.mem_map.1 hm
      obtain ⟨a', ha', e'⟩ := List.mem_filterMap.1 hb'
      have := hg x (by simp) a' (by simp [ha']) b b' hx e' e.symm
      exact hl.1 (this ▸ ha')

theorem squares_nodup (n : ℕ) (time : ℕ → ℕ → Option F) (a b c : ℕ) : ((squares n time a b c).map Prod.fst).Nodup := by
  refine filterMap_nodup _ _ (((List.nodup_range.filter _).filter _).filter _) ?_
  intro i _ j _ x y hx hy e
  have key : ∀ {i : ℕ} {x : PathHom2Cell × F}, (match ptime time a i c with
    | none => none
    | some m => if m ≥ (time a c).getD ⊤ then none else some (PathHom2Cell.longSquare a b i c, m)) = some x → x.1 = .longSquare a b i c := by
    intro i x hx
    cases hm : ptime time a i c with
    | none => rw [hm] at hx; cases hx
    | some m =>
      rw [hm] at hx
      simp only at hx
      split at hx
      · cases hx
      · rw [← Option.some.inj hx]
  rw [key hx, key hy] at e
  injection e

/-- `two_path_to_all_two_cells_in_filtration` does not panic, and lists the 2-cells that contain the path, with the coefficient of the path. -/
theorem twoPathToAll_spec (h : IsDigraphFiltration et n time) (hbm : ∀ a c b, bm (a, c) = some b ↔ IsPrimaryBridge n time a c b)
    {a b c : ℕ} (ha : a < n) (hb : b < n) (hc : c < n) :
    ∃ l, twoPathToAllTwoCells CF bm et n a b c = some l ∧ (∀ x ∈ l, TwoCellAt n time x.2.1 x.2.2) ∧
      (∀ x ∈ l, cellChain K x.2.1 (a, b, c) ≠ 0) ∧ (l.map fun x => x.2.1).Nodup ∧
      ∀ τ t, TwoCellAt n time τ t → lcOf K (l.map fun x => (x.1, x.2.1)) τ = cellChain K τ (a, b, c) := by
  classical
  unfold twoPathToAllTwoCells twoPathToTwoCell
  rw [twoPathTime_eq h ha hb hc, Option.bind_some]
  cases hm : ptime time a b c with
  | none =>
    refine ⟨[], rfl, by simp, by simp, by simp, ?_⟩
    intro τ t hτ
    rw [List.map_nil, lcOf_nil, Finsupp.coe_zero, Pi.zero_apply]
    by_contra hne
    obtain ⟨m, _, hp⟩ := hτ.path K (Ne.symm hne)
    rw [(ptime_iff ha hb hc m).2 hp] at hm; cases hm
  | some m =>
    have hp := (ptime_iff ha hb hc m).1 hm
    simp only
    by_cases hac : a = c
    · subst hac
      rw [if_pos rfl]
      refine ⟨[(NonZeroCoeff.one, .doubleEdge a b, m)], rfl, ?_, by simp [cellChain], by simp, ?_⟩
      · intro x hx
        rw [List.mem_singleton] at hx
        subst hx
        exact hp
      intro τ t hτ
      rw [List.map_cons, List.map_nil, lcOf_cons, lcOf_nil, add_zero, LawfulCoeff.val_one, Finsupp.single_apply]
      cases τ with
      | doubleEdge a' b' =>
        rw [cellChain, Finsupp.single_apply]
        refine if_congr ?_ rfl rfl
        simp only [PathHom2Cell.doubleEdge.injEq, Prod.mk.injEq]
        constructor
        · rintro ⟨rfl, rfl⟩; exact ⟨rfl, rfl, rfl⟩
        · rintro ⟨rfl, rfl, _⟩; exact ⟨rfl, rfl⟩
      | directedTriangle a' b' c' =>
        rw [if_neg (by simp), cellChain, Finsupp.single_apply, if_neg]
        intro e
        simp only [Prod.mk.injEq] at e
        exact hτ.1 (e.1.trans e.2.2.symm)
      | longSquare a' b' c' d' =>
        rw [if_neg (by simp), cellChain, Finsupp.sub_apply, Finsupp.single_apply, Finsupp.single_apply, if_neg, if_neg, sub_zero]
        · intro e
          simp only [Prod.mk.injEq] at e
          exact hτ.1 (e.1.trans e.2.2.symm)
        · intro e
          simp only [Prod.mk.injEq] at e
          exact hτ.1 (e.1.trans e.2.2.symm)
    rw [if_neg hac, h.entry a ha c hc, Option.bind_some]
    -- the path is a non-primary bridge
    have hLS : ∀ pb, IsPrimaryBridge n time a c pb → b ≠ pb → (∀ u, time a c = some u → m < u) → ∃ l : List (CF × PathHom2Cell × F),
        l = [(NonZeroCoeff.one, .longSquare a pb b c, m)] ∧ (∀ x ∈ l, TwoCellAt n time x.2.1 x.2.2) ∧
        (∀ x ∈ l, cellChain K x.2.1 (a, b, c) ≠ 0) ∧ (l.map fun x => x.2.1).Nodup ∧
      ∀ τ t, TwoCellAt n time τ t → lcOf K (l.map fun x => (x.1, x.2.1)) τ = cellChain K τ (a, b, c) := by
      intro pb hpb hbpb hlt
      refine ⟨_, rfl, ?_, ?_, by simp, ?_⟩
      · intro x hx
        rw [List.mem_singleton] at hx
        subst hx
        exact ⟨hac, hpb, hbpb, hp, hlt⟩
      · intro x hx
        rw [List.mem_singleton] at hx
        subst hx
        have : ¬ pb = b := fun e => hbpb e.symm
        simp [cellChain, Finsupp.single_apply, this]
      intro τ t hτ
      rw [List.map_cons, List.map_nil, lcOf_cons, lcOf_nil, add_zero, LawfulCoeff.val_one, Finsupp.single_apply]
      cases τ with
      | doubleEdge a' b' =>
        rw [if_neg (by simp), cellChain, Finsupp.single_apply, if_neg]
        intro e
        simp only [Prod.mk.injEq] at e
        exact hac (e.1.symm.trans e.2.2)
      | directedTriangle a' b' c' =>
        rw [if_neg (by simp), cellChain, Finsupp.single_apply, if_neg]
        intro e
        simp only [Prod.mk.injEq] at e
        obtain ⟨rfl, rfl, rfl⟩ := e
        obtain ⟨_, m', u, h1, h2, h3, _⟩ := hτ
        rw [h1.unique hp] at h3
        rcases h3 with h3 | h3
        · exact absurd (hlt u h2) (not_lt.2 h3)
        · exact hbpb (h3.unique hpb)
      | longSquare a' b' c' d' =>
        rw [cellChain, Finsupp.sub_apply, Finsupp.single_apply, Finsupp.single_apply]
        obtain ⟨t1, t2, t3, t4, t5⟩ := hτ
        have e2 : ¬ (a', b', d') = (a, b, c) := by
          intro e
          simp only [Prod.mk.injEq] at e
          obtain ⟨rfl, rfl, rfl⟩ := e
          exact hbpb (t2.unique hpb)
        rw [if_neg e2, sub_zero]
        refine if_congr ?_ rfl rfl
        simp only [PathHom2Cell.longSquare.injEq, Prod.mk.injEq]
        constructor
        · rintro ⟨rfl, rfl, rfl, rfl⟩; exact ⟨rfl, rfl, rfl⟩
        · rintro ⟨rfl, rfl, rfl⟩; exact ⟨rfl, hpb.unique t2, rfl, rfl⟩
    -- the primary bridge: the squares
    have hSq : IsPrimaryBridge n time a c b → ∀ τ t, TwoCellAt n time τ t →
        lcOf K ((squares n time a b c).map fun x => ((NonZeroCoeff.neg NonZeroCoeff.one : CF), x.1)) τ =
          match τ with
          | .longSquare a' b' c' d' => cellChain K (.longSquare a' b' c' d') (a, b, c)
          | _ => 0 := by
      intro hpb τ t hτ
      have e : (squares n time a b c).map (fun x => ((NonZeroCoeff.neg NonZeroCoeff.one : CF), x.1)) =
          ((squares n time a b c).map Prod.fst).map fun x => (NonZeroCoeff.neg NonZeroCoeff.one, x) := by rw [List.map_map]; rfl
      rw [e, lcOf_const _ _ (squares_nodup _ _ _ _ _), LawfulCoeff.val_neg, LawfulCoeff.val_one]
      have hmem : τ ∈ (squares n time a b c).map Prod.fst ↔ ∃ i, τ = .longSquare a b i c := by
        rw [List.mem_map]
        constructor
        · rintro ⟨⟨x, y⟩, hx, rfl⟩
          obtain ⟨i, e, _⟩ := (mem_squares h hac hpb).1 hx
          exact ⟨i, e⟩
        · rintro ⟨i, e⟩
          exact ⟨(τ, t), (mem_squares h hac hpb).2 ⟨i, e, hτ⟩, rfl⟩
      rw [if_congr hmem rfl rfl]
      cases τ with
      | doubleEdge a' b' => simp
      | directedTriangle a' b' c' => simp
      | longSquare a' b' c' d' =>
        simp only [PathHom2Cell.longSquare.injEq]
        rw [cellChain, Finsupp.sub_apply, Finsupp.single_apply, Finsupp.single_apply]
        obtain ⟨t1, t2, t3, t4, t5⟩ := hτ
        by_cases e : a' = a ∧ d' = c
        · obtain ⟨rfl, rfl⟩ := e
          have := t2.unique hpb
          subst this
          rw [if_pos ⟨c', rfl, rfl, rfl, rfl⟩, if_neg, if_pos rfl, zero_sub]
          intro e
          simp only [Prod.mk.injEq] at e
          exact t3 e.2.1
        · rw [if_neg, if_neg, if_neg, sub_zero]
          · intro e'; simp only [Prod.mk.injEq] at e'; exact e ⟨e'.1, e'.2.2⟩
          · intro e'; simp only [Prod.mk.injEq] at e'; exact e ⟨e'.1, e'.2.2⟩
          · rintro ⟨i, e1, _, _, e2⟩; exact e ⟨e1, e2⟩
    have hSq' : IsPrimaryBridge n time a c b → ∀ x ∈ squares n time a b c, TwoCellAt n time x.1 x.2 ∧ cellChain K x.1 (a, b, c) ≠ 0 ∧
        ∃ i, x.1 = .longSquare a b i c := by
      intro hpb x hx
      obtain ⟨i, e, hx'⟩ := (mem_squares h hac hpb).1 (show (x.1, x.2) ∈ _ from hx)
      refine ⟨hx', ?_, i, e⟩
      rw [e] at hx' ⊢
      have h3 := hx'.2.2.1
      simp [cellChain, Finsupp.single_apply, h3]
    -- the triangle
    have hTri : ∀ τ t, TwoCellAt n time τ t → single (PathHom2Cell.directedTriangle a b c) (1 : K) τ =
        match τ with
        | .longSquare a' b' c' d' => 0
        | τ => cellChain K τ (a, b, c) := by
      intro τ t hτ
      rw [Finsupp.single_apply]
      cases τ with
      | doubleEdge a' b' =>
        simp only
        rw [if_neg (by simp), cellChain, Finsupp.single_apply, if_neg]
        intro e
        simp only [Prod.mk.injEq] at e
        exact hac (e.1.symm.trans e.2.2)
      | directedTriangle a' b' c' =>
        simp only
        rw [cellChain, Finsupp.single_apply]
        refine if_congr ?_ rfl rfl
        simp only [PathHom2Cell.directedTriangle.injEq, Prod.mk.injEq]
        constructor
        · rintro ⟨rfl, rfl, rfl⟩; exact ⟨rfl, rfl, rfl⟩
        · rintro ⟨rfl, rfl, rfl⟩; exact ⟨rfl, rfl, rfl⟩
      | longSquare a' b' c' d' => simp
    cases hu : time a c with
    | some u =>
      simp only
      by_cases hmu : m ≥ u
      · rw [if_pos hmu]
        refine ⟨[(NonZeroCoeff.one, .directedTriangle a b c, m)], rfl, ?_, by simp [cellChain], by simp, ?_⟩
        · intro x hx
          rw [List.mem_singleton] at hx
          subst hx
          exact ⟨hac, m, u, hp, hu, Or.inl hmu, (max_eq_left hmu).symm⟩
        intro τ t hτ
        rw [List.map_cons, List.map_nil, lcOf_cons, lcOf_nil, add_zero, LawfulCoeff.val_one, hTri τ t hτ]
        cases τ with
        | doubleEdge a' b' => rfl
        | directedTriangle a' b' c' => rfl
        | longSquare a' b' c' d' =>
          simp only
          by_contra hne
          obtain ⟨t1, ⟨m0, hm0, hm1, _⟩, t3, t4, t5⟩ := hτ
          rw [cellChain, Finsupp.sub_apply, Finsupp.single_apply, Finsupp.single_apply, if_neg, if_neg, sub_zero] at hne
          · exact hne rfl
          · intro e
            simp only [Prod.mk.injEq] at e
            obtain ⟨rfl, rfl, rfl⟩ := e
            exact absurd (hm1 u hu) (not_lt.2 ((hm0.unique hp) ▸ hmu))
          · intro e
            simp only [Prod.mk.injEq] at e
            obtain ⟨rfl, rfl, rfl⟩ := e
            exact absurd (t5 u hu) (not_lt.2 ((t4.unique hp) ▸ hmu))
      · rw [if_neg hmu]
        have hlt : ∀ u', time a c = some u' → m < u' := by
          intro u' hu'
          rw [hu] at hu'
          rw [← Option.some.inj hu']
          exact not_le.1 hmu
        obtain ⟨pb, hpb⟩ := exists_bridge hp hlt
        rw [(hbm a c pb).2 hpb]
        simp only [Option.map_some, Option.bind_some]
        by_cases hb' : b = pb
        · rw [if_pos hb']
          subst hb'
          rw [if_pos rfl, longSquares_eq h ha hc]
          refine ⟨_, rfl, ?_, ?_, ?_, ?_⟩
          · intro x hx
            rcases List.mem_append.1 hx with hx | hx
            · simp only [Option.toList_some, List.map_cons, List.map_nil, List.mem_singleton] at hx
              subst hx
              exact ⟨hac, m, u, hp, hu, Or.inr hpb, (max_eq_right (not_le.1 hmu).le).symm⟩
            · obtain ⟨y, hy, rfl⟩ := List.mem_map.1 hx
              exact (hSq' hpb y hy).1
          · intro x hx
            rcases List.mem_append.1 hx with hx | hx
            · simp only [Option.toList_some, List.map_cons, List.map_nil, List.mem_singleton] at hx
              subst hx
              simp [cellChain]
            · obtain ⟨y, hy, rfl⟩ := List.mem_map.1 hx
              exact (hSq' hpb y hy).2.1
          · rw [List.map_append, List.map_map, List.map_map]
            simp only [Option.toList_some, List.map_cons, List.map_nil, List.singleton_append, List.nodup_cons]
            refine ⟨?_, squares_nodup _ _ _ _ _⟩
            intro hx
            obtain ⟨y, hy, e⟩ := List.mem_map.1 hx
            obtain ⟨i, e'⟩ := (hSq' hpb y hy).2.2
            have : y.1 = .directedTriangle a b c := e
            rw [e'] at this; cases this
          · intro τ t hτ
            rw [List.map_append, lcOf_append, Finsupp.add_apply]
            simp only [Option.toList_some, List.map_cons, List.map_nil, List.map_map, Function.comp_def]
            rw [lcOf_cons, lcOf_nil, add_zero, LawfulCoeff.val_one, hTri τ t hτ, hSq hpb τ t hτ]
            cases τ <;> simp
        · rw [if_neg hb']
          obtain ⟨l, rfl, hh⟩ := hLS pb hpb hb' hlt
          exact ⟨_, rfl, hh⟩
    | none =>
      simp only
      have hlt : ∀ u', time a c = some u' → m < u' := by
        intro u' hu'
        rw [hu] at hu'; cases hu'
      obtain ⟨pb, hpb⟩ := exists_bridge hp hlt
      rw [(hbm a c pb).2 hpb]
      simp only [Option.map_some, Option.bind_some]
      by_cases hb' : b = pb
      · rw [if_pos hb']
        subst hb'
        rw [if_pos rfl, longSquares_eq h ha hc]
        refine ⟨_, rfl, ?_, ?_, ?_, ?_⟩
        · intro x hx
          simp only [Option.toList_none, List.map_nil, List.nil_append] at hx
          obtain ⟨y, hy, rfl⟩ := List.mem_map.1 hx
          exact (hSq' hpb y hy).1
        · intro x hx
          simp only [Option.toList_none, List.map_nil, List.nil_append] at hx
          obtain ⟨y, hy, rfl⟩ := List.mem_map.1 hx
          exact (hSq' hpb y hy).2.1
        · simp only [Option.toList_none, List.map_nil, List.nil_append, List.map_map]
          exact squares_nodup _ _ _ _ _
        · intro τ t hτ
          simp only [Option.toList_none, List.map_nil, List.nil_append, List.map_map, Function.comp_def]
          rw [hSq hpb τ t hτ]
          cases τ with
          | doubleEdge a' b' =>
            simp only
            rw [cellChain, Finsupp.single_apply, if_neg]
            intro e
            simp only [Prod.mk.injEq] at e
            exact hac (e.1.symm.trans e.2.2)
          | directedTriangle a' b' c' =>
            simp only
            rw [cellChain, Finsupp.single_apply, if_neg]
            intro e
            simp only [Prod.mk.injEq] at e
            obtain ⟨rfl, rfl, rfl⟩ := e
            obtain ⟨_, m', u, _, h2, _⟩ := hτ
            rw [hu] at h2; cases h2
          | longSquare a' b' c' d' => rfl
      · rw [if_neg hb']
        obtain ⟨l, rfl, hh⟩ := hLS pb hpb hb' hlt
        exact ⟨_, rfl, hh⟩

end
end Phlite
