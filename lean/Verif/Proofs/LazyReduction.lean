/-
The reductions over lazy iterators compute what the eager model computes.
-/
import Verif.Proofs.Lazy
import Verif.Props.ClearingSkips

set_option linter.unusedSectionVars false
set_option linter.unusedSimpArgs false

namespace Phlite
namespace Lazy

section
variable [StdHeap] {σ CF T F K : Type} [NonZeroCoeff CF] [LinearOrder F] [LinearOrder T]

/-- The lazy matrix `L` presents the columns of `D` for cells in `A`; `I X` is the invariant of the shared state between two uses when (at least) the columns in `X` have
been requested. -/
structure Matches (L : Matrix σ CF T F) (D : FOracle CF T T F) (A : T → Prop) (I : (T → Prop) → σ → Prop) : Prop where
  anti : ∀ X X' s, (∀ x, X x → X' x) → I X' s → I X s
  filt : L.filt = D.filt
  column : ∀ c, A c → ∀ X, Serves L.column c (D.column c) (I X) (I fun x => X x ∨ x = c)
  colF : ∀ c, A c → ∀ X, Serves L.colF c (D.colF c) (I X) (I fun x => X x ∨ x = c)

variable {L : Matrix σ CF T F} {D : FOracle CF T T F} {A : T → Prop} {I : (T → Prop) → σ → Prop}

theorem Matches.weaken (h : Matches L D A I) {X : T → Prop} {c : T} (s : σ) : I (fun x => X x ∨ x = c) s → I X s := h.anti _ _ s fun _ hx => Or.inl hx

theorem Matches.column' (h : Matches L D A I) {c : T} (hc : A c) (X : T → Prop) : Serves L.column c (D.column c) (I X) (I X) := (h.column c hc X).imp (fun _ h => h) h.weaken

theorem Matches.default (h : Matches L D A I) {c : T} (hc : A c) (X : T → Prop) :
    Serves (defaultCols L.column L.filt) c (D.ref.colF c) (I X) (I fun x => X x ∨ x = c) := by
  have := (h.column c hc X).mapItems fun t => (L.filt t.2).map fun v => Entry.ofTuple (t.1, t.2, v)
  rw [h.filt] at this
  unfold defaultCols
  rw [h.filt]
  exact this

theorem Matches.ref (h : Matches L D A I) : Matches L.ref D.ref A I where
  anti := h.anti
  filt := h.filt
  column := h.column
  colF _ hc X := h.default hc X

theorem Matches.buildBhcol (h : Matches L D A I) {c : T} (hc : A c) (X : T → Prop) : Computes (L.buildBhcol c) (D.buildBhcol c) (I X) (I fun x => X x ∨ x = c) :=
  (h.colF c hc X).collect.map _

theorem Matches.cached (D : FOracle CF T T F) {Y A : T → Prop} (hA : ∀ c, A c → Y c) : Matches (cached D) D.ref A (Idle D.toOracle Y) where
  anti X X' s hX h := ⟨h.cached, h.log, h.nodup, h.idle, fun c hc => h.lower c (hX c hc), h.upper⟩
  filt := rfl
  column c hc X := cached_serves (hA c hc)
  colF c hc X := (cached_serves (M := D.toOracle) (X := X) (hA c hc)).mapItems _

/-- A row of a column that can be listed without touching the shared state. -/
theorem robust_product (h : Matches L D A I) {R : Cols σ T (CF × T)} {j : T} {v : Option (List (CF × T))} (X : T → Prop)
    (hR : ∀ s, I X s → (R.request j s = none → v = none) ∧ ∀ it s', R.request j s = some (it, s') → I X s' ∧ Robust R (I X) (fun t => A t.2) it v) :
    Serves (productRef L R).colF j (v.bind <| flatMapOpt fun t => (D.ref.colF t.2).map fun lc => lc.map fun e =>
      { coeff := NonZeroCoeff.mul e.coeff t.1, row := e.row, filt := e.filt }) (I X) (I X) ∧
    Serves (productRef L R).column j (v.bind <| flatMapOpt fun t => (D.column t.2).map fun lc => lc.map fun u => (NonZeroCoeff.mul u.1 t.1, u.2)) (I X) (I X) :=
  ⟨flatMap_serves (scale := scaleEntry) (fun t ht => (h.default ht X).imp (fun _ h => h) h.weaken) hR,
    flatMap_serves (scale := scaleTuple) (fun t ht => h.column' ht X) hR⟩

theorem ofFun_right {v : T → Option (List (CF × T))} {j : T} {H : σ → Prop} (hv : ∀ l, v j = some l → ∀ t ∈ l, A t.2) (s : σ) (hs : H s) :
    ((Cols.ofFun v).request j s = none → v j = none) ∧
      ∀ it s', (Cols.ofFun v).request j s = some (it, s') → H s' ∧ Robust (Cols.ofFun (σ := σ) v) H (fun t => A t.2) it (v j) := by
  have e : (Cols.ofFun v).request j s = (v j).map fun l => (l, s) := rfl
  refine ⟨fun h => Option.map_eq_none_iff.1 (e.symm.trans h), fun it s' h => ?_⟩
  obtain ⟨l, h1, h2⟩ := Option.map_eq_some_iff.1 (e.symm.trans h)
  rw [h1]
  cases h2
  exact ⟨hs, ofFun_robust v H _ (hv _ h1)⟩

/-! ### Standard algorithm -/

theorem stdReduce_computes (h : Matches L D A I) {v : T → Option (List (CF × T))} {low : T → Option (T × CF)}
    (hv : ∀ b l, v b = some l → ∀ t ∈ l, A t.2) (X : T → Prop) (fuel : ℕ) : ∀ (r : BHCol F T CF) (vi : BHCol Unit T CF),
      Computes (stdReduce L v low fuel r vi) (Phlite.stdReduce D v low fuel r vi) (I X) (I X) := by
  induction fuel with
  | zero => intro r vi; exact Computes.lift none _
  | succ fuel ih =>
    intro r vi
    unfold Lazy.stdReduce Phlite.stdReduce
    rcases BHCol.popPivot r with ⟨_ | e, r1⟩
    · exact Computes.ret _ _
    · dsimp only
      rcases low e.row with _ | ⟨j, jc⟩
      · exact Computes.ret _ _
      · dsimp only
        refine Computes.bind (J := I X) ?_ fun re _ => Computes.bind (J := I X) ?_ fun ve _ => ih _ _
        · exact (robust_product h X fun s hs => ofFun_right (fun l hl => hv j l hl) s hs).1.collect
        · exact ((ofFun_serves v j (I X)).mapItems _).collect

theorem stdReduce_rows {v : T → Option (List (CF × T))} {low : T → Option (T × CF)} (hv : ∀ b l, v b = some l → ∀ t ∈ l, A t.2) :
    ∀ (fuel : ℕ) {r r' : BHCol F T CF} {vi vi' : BHCol Unit T CF}, RowsIn A vi → Phlite.stdReduce D v low fuel r vi = some (r', vi') → RowsIn A vi' := by
  intro fuel
  induction fuel with
  | zero => intro r r' vi vi' _ h; cases h
  | succ fuel ih =>
    intro r r' vi vi' hvi h
    unfold Phlite.stdReduce at h
    split at h
    · cases h; exact hvi
    · split at h
      · cases h; exact hvi
      · dsimp only at h
        obtain ⟨re, h3, h⟩ := Option.bind_eq_some_iff.1 h
        obtain ⟨ve, h4, h⟩ := Option.bind_eq_some_iff.1 h
        refine ih (hvi.addEntries ?_) h
        intro x hx
        obtain ⟨y, hy, rfl⟩ := List.mem_map.1 hx
        obtain ⟨l, h5, h6⟩ := mem_defaultColF (M := mapVecMatrix v) (filt := fun _ => some ()) h4
        obtain ⟨t, ht, h7⟩ := h6 y hy
        show A y.row
        rw [← h7]
        exact hv _ l h5 t ht

theorem stdColumn_computes (h : Matches L D A I) {s : StdState CF T} (hv : ∀ b l, s.v b = some l → ∀ t ∈ l, A t.2) (X : T → Prop) {b : T} (hb : A b) (fuel : ℕ) :
    Computes (stdColumn L fuel s b) (Phlite.stdColumn D fuel s b) (I X) (I fun x => X x ∨ x = b) ∧
      ∀ s', Phlite.stdColumn D fuel s b = some s' → ∀ b l, s'.v b = some l → ∀ t ∈ l, A t.2 := by
  refine ⟨?_, fun s' hs' => ?_⟩
  · unfold Lazy.stdColumn Phlite.stdColumn
    dsimp only
    exact (h.buildBhcol hb X).bind fun r0 _ => (stdReduce_computes h hv _ fuel _ _).bind fun p _ => Computes.lift _ _
  unfold Phlite.stdColumn at hs'
  dsimp only at hs'
  obtain ⟨r0, h1, hs'⟩ := Option.bind_eq_some_iff.1 hs'
  obtain ⟨p, h2, hs'⟩ := Option.bind_eq_some_iff.1 hs'
  obtain ⟨vs, h3, rfl⟩ := Option.map_eq_some_iff.1 hs'
  have h4 : RowsIn A p.2 := stdReduce_rows hv fuel (r' := p.1) (vi' := p.2) (RowsIn.addEntry RowsIn.empty hb) h2
  intro c l hl t ht
  dsimp only [mapInsert] at hl
  split at hl
  · cases hl
    obtain ⟨e, he, rfl⟩ := List.mem_map.1 ht
    exact h4.toSortedVec h3 e he
  · exact hv c l hl t ht

theorem stdLoop_computes (h : Matches L D A I) {B : Basis T} {fuel : ℕ → ℕ} (is : List ℕ) (hB : ∀ i ∈ is, ∀ b, B.element i = some b → A b) :
    ∀ {s : StdState CF T} (_ : ∀ b l, s.v b = some l → ∀ t ∈ l, A t.2) (X : T → Prop),
      Computes (stdLoop L B fuel is s) (Phlite.stdLoop D B fuel is s) (I X) (I fun x => X x ∨ ∃ i ∈ is, B.element i = some x) ∧
        ∀ s', Phlite.stdLoop D B fuel is s = some s' → ∀ b l, s'.v b = some l → ∀ t ∈ l, A t.2 := by
  induction is with
  | nil =>
    intro s hv X
    exact ⟨(Computes.ret _ _).imp (fun _ h => h) fun s => h.anti _ _ s (by simp), fun s' hs' => by cases hs'; exact hv⟩
  | cons i is ih =>
    intro s hv X
    constructor
    · refine (Computes.lift (B.element i) (I X)).bind fun b hb => ?_
      obtain ⟨h1, h2⟩ := stdColumn_computes h hv X (hB i (by simp) b hb) (fuel i)
      refine h1.bind fun s' hs' => ?_
      refine ((ih (fun i hi => hB i (by simp [hi])) (h2 s' hs') _).1).imp (fun _ h => h) fun st => h.anti _ _ st ?_
      rintro x (hx | ⟨i', hi', hx⟩)
      · exact Or.inl (Or.inl hx)
      · rcases List.mem_cons.1 hi' with rfl | hi'
        · rw [hb] at hx; cases hx; exact Or.inl (Or.inr rfl)
        · exact Or.inr ⟨i', hi', hx⟩
    · intro s' hs'
      simp only [Phlite.stdLoop] at hs'
      obtain ⟨b, hb, hs'⟩ := Option.bind_eq_some_iff.1 hs'
      obtain ⟨s1, h1, hs'⟩ := Option.bind_eq_some_iff.1 hs'
      obtain ⟨_, h2⟩ := stdColumn_computes h hv X (hB i (by simp) b hb) (fuel i)
      exact (ih (fun i hi => hB i (by simp [hi])) (h2 s1 h1) X).2 s' hs'

theorem standardAlgo_computes (h : Matches L D A I) {B : Basis T} {fuel : ℕ → ℕ} (hB : ∀ i < B.size, ∀ b, B.element i = some b → A b) (X : T → Prop) :
    Computes (standardAlgo L B fuel) (Phlite.standardAlgo D B fuel) (I X) (I fun x => X x ∨ ∃ i < B.size, B.element i = some x) ∧
      ∀ v, Phlite.standardAlgo D B fuel = some v → ∀ b l, v b = some l → ∀ t ∈ l, A t.2 := by
  obtain ⟨h1, h2⟩ := stdLoop_computes h (B := B) (fuel := fuel) (List.range B.size) (fun i hi => hB i (List.mem_range.1 hi))
    (s := ⟨fun _ => none, fun _ => none⟩) (by simp) X
  refine ⟨(h1.map _).imp (fun _ h => h) fun s => h.anti _ _ s ?_, fun v hv => ?_⟩
  · rintro x (hx | ⟨i, hi, hx⟩)
    · exact Or.inl hx
    · exact Or.inr ⟨i, List.mem_range.2 hi, hx⟩
  · obtain ⟨s, hs, rfl⟩ := Option.map_eq_some_iff.1 hv
    exact h2 s hs

theorem readLoop_computes (h : Matches L D A I) {B : Basis T} {v : T → Option (List (CF × T))} (hv : ∀ b l, v b = some l → ∀ t ∈ l, A t.2) (X : T → Prop) (is : List ℕ) :
    ∀ d : Diagram T, Computes (readLoop (productRef L (Cols.ofFun v)) B is d) (Phlite.readLoop (productF D.ref (mapVecMatrix v)) B is d) (I X) (I X) := by
  induction is with
  | nil => intro d; exact Computes.ret _ _
  | cons i is ih =>
    intro d
    refine (Computes.lift (B.element i) (I X)).bind fun b hb => ?_
    refine Computes.bind (J := I X) ?_ fun r _ => ih _
    exact (robust_product h X fun s hs => ofFun_right (fun l hl => hv b l hl) s hs).1.collect.map _

theorem readOffDiagram_computes (h : Matches L D A I) {B : Basis T} {v : T → Option (List (CF × T))} (hv : ∀ b l, v b = some l → ∀ t ∈ l, A t.2) (rev : Bool) (X : T → Prop) :
    Computes (readOffDiagram L B v rev) (Phlite.readOffDiagram D B v rev) (I X) (I X) := readLoop_computes h hv X _ _

theorem standardAlgoWithDiagram_computes (h : Matches L D A I) {B : Basis T} {fuel : ℕ → ℕ} {rev : Bool} (hB : ∀ i < B.size, ∀ b, B.element i = some b → A b) (X : T → Prop) :
    Computes (standardAlgoWithDiagram L B fuel rev) (Phlite.standardAlgoWithDiagram D B fuel rev) (I X) (I fun x => X x ∨ ∃ i < B.size, B.element i = some x) := by
  obtain ⟨h1, h2⟩ := standardAlgo_computes h.ref (fuel := fuel) hB X
  exact h1.bind fun v hv => (readOffDiagram_computes h.ref (h2 v hv) rev _).map _

/-! ### Clearing algorithm -/

theorem crm_right {rc : T → Option (RedCol CF T)} {j : T} {vec : List (CF × T)} (hj : A j) (hrc : rc j = some (.reduced vec)) (hvec : ∀ t ∈ vec, A t.2) (H : σ → Prop) (n : ℕ)
    (Dc : Cols σ T (CF × T)) (Do : Oracle CF T T) (s : σ) (hs : H s) :
    ((crmCols Dc rc n).request j s = none → crmColumn Do rc n j = none) ∧
      ∀ it s', (crmCols Dc rc n).request j s = some (it, s') → H s' ∧ Robust (crmCols Dc rc n) H (fun t => A t.2) it (crmColumn Do rc n j) := by
  cases n with
  | zero => exact ⟨fun _ => rfl, fun it s' h => by cases h⟩
  | succ n =>
    have e : (crmCols Dc rc (n + 1)).request j s = some (.inr (vec ++ [(NonZeroCoeff.one, j)]), s) := by
      show (rc j).bind _ = _; rw [hrc]; rfl
    have e2 : crmColumn Do rc (n + 1) j = some (vec ++ [(NonZeroCoeff.one, j)]) := by simp only [crmColumn, hrc, Option.bind_some]
    refine ⟨fun h => (by rw [e] at h; cases h), fun it s' h => ?_⟩
    rw [e] at h
    cases h
    rw [e2]
    refine ⟨hs, ?_⟩
    have : ∀ l : List (CF × T), (∀ t ∈ l, A t.2) → Robust (crmCols Dc rc (n + 1)) H (fun t => A t.2) (.inr l) (some l) := by
      intro l
      induction l with
      | nil => intro _; exact .done fun s hs => ⟨_, _, rfl, hs⟩
      | cons a l ih => intro hl; exact .item (v := some l) (hl a (by simp)) (fun s hs => ⟨_, rfl, hs⟩) (ih fun t ht => hl t (by simp [ht]))
    refine this _ fun t ht => ?_
    rcases List.mem_append.1 ht with ht | ht
    · exact hvec t ht
    · rw [List.mem_singleton.1 ht]; exact hj

theorem Robust.serves {R : Cols σ T (CF × T)} {H : σ → Prop} {B : CF × T → Prop} {j : T} {v : Option (List (CF × T))}
    (h : ∀ s, H s → (R.request j s = none → v = none) ∧ ∀ it s', R.request j s = some (it, s') → H s' ∧ Robust R H B it v) : Serves R j v H H :=
  fun s hs => ⟨(h s hs).1, fun it s' hr => ((h s hs).2 it s' hr).2.behaves ((h s hs).2 it s' hr).1⟩

theorem clrReduce_computes (h : Matches L D A I) {rc : T → Option (RedCol CF T)} {depth : ℕ} {low : T → Option (T × CF)}
    (hlow : ∀ r j jc, low r = some (j, jc) → A j ∧ ∃ vec, rc j = some (.reduced vec) ∧ ∀ t ∈ vec, A t.2) (X : T → Prop) (fuel : ℕ) :
    ∀ (r : BHCol F T CF) (vi : BHCol Unit T CF), Computes (clrReduce L rc depth low fuel r vi) (Phlite.clrReduce D rc depth low fuel r vi) (I X) (I X) := by
  induction fuel with
  | zero => intro r vi; exact Computes.lift none _
  | succ fuel ih =>
    intro r vi
    unfold Lazy.clrReduce Phlite.clrReduce
    rcases BHCol.clonePivot r with ⟨_ | e, r1⟩
    · exact Computes.ret _ _
    · dsimp only
      rcases hj : low e.row with _ | ⟨j, jc⟩
      · exact Computes.ret _ _
      · obtain ⟨hA, vec, h1, h2⟩ := hlow _ _ _ hj
        dsimp only
        refine Computes.bind (J := I X) ?_ fun re _ => Computes.bind (J := I X) ?_ fun ve _ => ih _ _
        · exact (robust_product h X fun s hs => crm_right hA h1 h2 _ depth L.column D.toOracle s hs).1.collect
        · exact ((Robust.serves fun s hs => crm_right hA h1 h2 (I X) depth L.column D.toOracle s hs).mapItems _).collect

theorem clrColumn_computes (h : Matches L D A I) {p : CrmState CF T × (T → Option (T × CF))}
    (hlow : ∀ r j jc, p.2 r = some (j, jc) → A j ∧ ∃ vec, p.1.rc j = some (.reduced vec) ∧ ∀ t ∈ vec, A t.2) {b : T} (hb : p.1.rc b = none → A b) (X : T → Prop) (fuel : ℕ) :
    Computes (clrColumn L fuel p b) (Phlite.clrColumn D fuel p b) (I X) (I fun x => X x ∨ (x = b ∧ p.1.rc b = none)) := by
  unfold Lazy.clrColumn Phlite.clrColumn
  split
  · rename_i hs
    refine (Computes.ret _ _).imp (fun _ h => h) fun s => h.anti _ _ s ?_
    rintro x (hx | ⟨_, hx⟩)
    · exact hx
    · rw [hx] at hs; cases hs
  · rename_i hs
    have hn : p.1.rc b = none := by simpa using hs
    refine Computes.imp (I := I X) (J := I fun x => X x ∨ x = b) ?_ (fun _ h => h) fun s => h.anti _ _ s ?_
    · exact (h.buildBhcol (hb hn) X).bind fun r0 _ => (clrReduce_computes h hlow _ fuel _ _).bind fun q _ => Computes.lift _ _
    · rintro x (hx | ⟨hx, _⟩)
      · exact Or.inl hx
      · exact Or.inr hx

theorem Matches.congr (h : Matches L D A I) {D' : FOracle CF T T F} (hf : D.filt = D'.filt) (hc : ∀ c, A c → D.column c = D'.column c)
    (hcF : ∀ c, A c → D.colF c = D'.colF c) : Matches L D' A I where
  anti := h.anti
  filt := h.filt.trans hf
  column c hA X := hc c hA ▸ h.column c hA X
  colF c hA X := hcF c hA ▸ h.colF c hA X

theorem clrLoop_computes (h : Matches L D A I) {P : T → Prop} (hrow : ∀ b, A b → ∀ l, D.column b = some l → ∀ t ∈ l, P t.2)
    (hrowF : ∀ b, A b → ∀ es, D.colF b = some es → ∀ e ∈ es, P e.row) (hAP : ∀ c, A c → ¬ P c)
    {rc0 : T → Option (RedCol CF T)} {B : Basis T} {fuel : ℕ} (is : List ℕ) (hB : ∀ i ∈ is, ∀ b, B.element i = some b → rc0 b = none → A b) :
    ∀ {pre : List T} {p : CrmState CF T × (T → Option (T × CF))} {X : T → Prop}, ReadInv A P rc0 (fun b => (D.colF b).isSome) pre p →
      (∀ c, (rc0 c).isSome → (p.1.rc c).isSome) → (∀ x ∈ pre, rc0 x = none → X x) →
      Computes (clrLoop L B fuel is p) (Phlite.clrLoop D B fuel is p) (I X) (I fun x => X x ∨ ∃ i ∈ is, B.element i = some x ∧ rc0 x = none) := by
  induction is with
  | nil => intro pre p X _ _ _; exact (Computes.ret _ _).imp (fun _ h => h) fun s => h.anti _ _ s (by simp)
  | cons i is ih =>
    intro pre p X hinv hkeys hX
    refine (Computes.lift (B.element i) (I X)).bind fun b h1 => ?_
    have hb : p.1.rc b = none → A b := fun hn => hB i (by simp) b h1 (by
      by_contra hc
      have := hkeys b (Option.isSome_iff_ne_none.2 hc)
      rw [hn] at this; cases this)
    refine (clrColumn_computes h hinv.low hb X fuel).bind fun q h2 => ?_
    have hb' : ∀ c, (rc0 c).isSome → (q.1.rc c).isSome := fun c hc => (clrColumn_keys h2).1 c (hkeys c hc)
    have hreq : rc0 b = none → X b ∨ p.1.rc b = none := fun h0 => by
      by_cases hn : p.1.rc b = none
      · exact Or.inr hn
      · rcases hinv.keys b (Option.isSome_iff_ne_none.2 hn) with h3 | h3 | h3
        · rw [h0] at h3; cases h3
        · exact Or.inl (hX b h3 h0)
        · exact absurd h3 (hAP b (hB i (by simp) b h1 h0))
    have fin : ∀ x, (X x ∨ ∃ i' ∈ i :: is, B.element i' = some x ∧ rc0 x = none) →
        (X x ∨ (x = b ∧ p.1.rc b = none)) ∨ ∃ i' ∈ is, B.element i' = some x ∧ rc0 x = none := by
      rintro x (hx | ⟨i', hi', hx, h0⟩)
      · exact Or.inl (Or.inl hx)
      · rcases List.mem_cons.1 hi' with rfl | hi'
        · rw [h1] at hx; cases hx
          exact Or.inl ((hreq h0).imp_right fun h => ⟨rfl, h⟩)
        · exact Or.inr ⟨i', hi', hx, h0⟩
    by_cases hn : p.1.rc b = none
    · refine (ih (fun i hi => hB i (by simp [hi])) (X := fun x => X x ∨ (x = b ∧ p.1.rc b = none)) (clrColumn_read hrow hrowF hAP hinv (hb hn) h2) hb' ?_).imp
        (fun _ h => h) fun s => h.anti _ _ s fin
      intro x hx h0
      rcases List.mem_cons.1 hx with rfl | hx
      · exact Or.inr ⟨rfl, hn⟩
      · exact Or.inl (hX x hx h0)
    · have : q = p := by
        unfold Phlite.clrColumn at h2
        rw [if_pos (Option.isSome_iff_ne_none.2 hn)] at h2
        exact (Option.some.inj h2).symm
      subst this
      exact (ih (fun i hi => hB i (by simp [hi])) (X := fun x => X x ∨ (x = b ∧ q.1.rc b = none)) hinv hb' fun x hx h0 => Or.inl (hX x hx h0)).imp
        (fun _ h => h) fun s => h.anti _ _ s fin

variable [Field K] [LawfulCoeff CF K] {B : SplitBasis T} {f : T → F} {M : T → (T →₀ K)} {deg : T → ℤ} {ε : ℤ} {dims : List ℕ} {els : ℕ → List T}

/-- The cached matrix presents the columns of `D` itself (not only of `&D`) on the cells of a chain complex. -/
theorem cached_matches (hC : SplitComplex K D B f M deg ε dims els) {Y A : T → Prop} (hA : ∀ c, A c → Y c) (hels : ∀ c, A c → c ∈ dims.flatMap els) :
    Matches (cached D) D A (Idle D.toOracle Y) := by
  refine (Matches.cached D hA).congr rfl (fun _ _ => rfl) fun c hc => ?_
  obtain ⟨d, hd, hcd⟩ := List.mem_flatMap.1 (hels c hc)
  obtain ⟨l, h1, h2, h3, _⟩ := hC.good d hd c hcd
  rw [h2]
  show defaultColF D.toOracle D.filt c = _
  unfold defaultColF
  rw [h1, Option.bind_some]
  exact mapOpt_of_forall fun t ht => by rw [h3 t ht]; rfl

theorem clrAll_computes (hC : SplitComplex K D B f M deg ε dims els) {fuel : ℕ} {s' : CrmState CF T} (dn q : List ℕ) (hdims : dims = dn ++ q) :
    ∀ {s : CrmState CF T} (X : T → Prop), Phlite.clrAll D B fuel dn ⟨Diagram.empty, fun _ => none⟩ = some s → Phlite.clrAll D B fuel q s = some s' →
      Computes (clrAll (cached D) B fuel q s) (some s') (Idle D.toOracle (fun c => c ∈ dims.flatMap els ∧ ∀ j, (c, j) ∉ s'.diagram.pairings) X)
        (Idle D.toOracle (fun c => c ∈ dims.flatMap els ∧ ∀ j, (c, j) ∉ s'.diagram.pairings) fun x => X x ∨ (x ∈ q.flatMap els ∧ ∀ j, (x, j) ∉ s'.diagram.pairings)) := by
  have anti := fun Y => (Matches.cached (A := fun _ => False) D (Y := Y) (fun c hc => hc.elim)).anti
  induction q generalizing dn with
  | nil =>
    intro s X _ h; cases h
    exact (Computes.ret _ _).imp (fun _ h => h) fun s => anti _ _ _ s (by simp)
  | cons d q ih =>
    intro s X h h'
    have hdd : d ∈ dims := by rw [hdims]; simp
    have hcl := fun c (hc : c ∈ els d) => cleared_iff_birth hC hdims h h' hc
    simp only [Phlite.clrAll] at h'
    obtain ⟨s1, h1, h2⟩ := Option.bind_eq_some_iff.1 h'
    have h3 : Phlite.clrAll D B fuel (dn ++ [d]) ⟨Diagram.empty, fun _ => none⟩ = some s1 := by
      rw [clrAll_append, h, Option.bind_some]
      simp only [Phlite.clrAll, h1, Option.bind_some]
    obtain ⟨Bd, hB1, hB2⟩ := hC.basis d hdd
    obtain ⟨hlen, hel⟩ := elems_spec hB2
    have hnb : ∀ c, (c ∈ els d ∧ s.rc c = none) → c ∈ dims.flatMap els ∧ ∀ j, (c, j) ∉ s'.diagram.pairings := by
      rintro c ⟨hc, hn⟩
      refine ⟨List.mem_flatMap.2 ⟨d, hdd, hc⟩, fun j hj => ?_⟩
      have := (hcl c hc).2 ⟨j, hj⟩
      rw [hn] at this; cases this
    have hm := cached_matches hC (A := fun c => c ∈ els d ∧ s.rc c = none) hnb fun c hc => (hnb c hc).1
    have key := clrLoop_computes hm (P := fun c => deg c = d + ε) (rc0 := s.rc) (B := Bd) (fuel := fuel)
      (fun b hb l hl t ht => (hC.rows d hdd b hb.1 l hl t ht).1) (fun b hb es hes => hC.rowsF hdd hb.1 hes)
      (fun c hc hd' => by
        have := hC.deg_els d hdd c hc.1
        have := hC.shift
        omega) (List.range Bd.size) (fun i hi b hb hn => ⟨by
          rw [hel i (List.mem_range.1 hi)] at hb
          exact List.mem_of_getElem? hb, hn⟩) (pre := []) (p := (s, fun _ => none)) (X := X)
      ⟨fun _ _ _ h => (by cases h), fun c hc => Or.inl hc, by simp⟩ (fun c hc => hc) (by simp)
    have e : (some s' : Option (CrmState CF T)) = (Phlite.clrDimension D B fuel s d).bind fun s1 => Phlite.clrAll D B fuel q s1 := by
      rw [h1, Option.bind_some, h2]
    rw [e]
    have hd1 : Computes (clrDimension (cached D) B fuel s d) (Phlite.clrDimension D B fuel s d) _ _ :=
      (Computes.lift (B.inDim d) _).bind fun Bd' hBd' => by
        rw [hB1] at hBd'; cases hBd'
        exact key.map Prod.fst
    refine hd1.bind fun s2 hs2 => ?_
    rw [h1] at hs2; cases hs2
    have hfin := ih (dn ++ [d]) (by rw [hdims]; simp) (fun x => X x ∨ ∃ i ∈ List.range Bd.size, Bd.element i = some x ∧ s.rc x = none) h3 h2
    rw [h2]
    refine hfin.imp (fun _ h => h) fun st => anti _ _ _ st ?_
    rintro x (hx | ⟨hx, hn⟩)
    · exact Or.inl (Or.inl hx)
    · rw [List.flatMap_cons, List.mem_append] at hx
      rcases hx with hx | hx
      · refine Or.inl (Or.inr ?_)
        obtain ⟨i, hi, rfl⟩ := List.mem_iff_getElem.1 hx
        refine ⟨i, List.mem_range.2 (by omega), by rw [hel i (by omega), List.getElem?_eq_getElem hi], ?_⟩
        by_contra hc
        obtain ⟨j, hj⟩ := (hcl _ hx).1 (Option.isSome_iff_ne_none.2 hc)
        exact hn j hj
      · exact Or.inr ⟨hx, hn⟩

end
end Lazy
end Phlite
