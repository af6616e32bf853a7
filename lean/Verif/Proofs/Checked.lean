/-
Runs with coefficient operations that may panic: if fewer operations panic, a run that returns still returns the same; with operations that never panic the runs
are those of `Verif.Model.{Columns, Matrices, Reduction}`.
-/
import Verif.Model.Checked
import Verif.Proofs.Mono

set_option linter.unusedSectionVars false
set_option linter.unusedSimpArgs false

namespace Phlite

/-- `K'` answers whenever `K` does, in the same way. -/
structure PanicOps.LE {CF : Type} (K K' : PanicOps CF) : Prop where
  add : ∀ a b r, K.add a b = some r → K'.add a b = some r
  mul : ∀ a b r, K.mul a b = some r → K'.mul a b = some r
  one : K.one = K'.one
  neg : ∀ a r, K.neg a = some r → K'.neg a = some r
  inv : ∀ a r, K.inv a = some r → K'.inv a = some r

namespace Ck
variable {CF T F Row Col : Type} {K K' : PanicOps CF}

theorem addOpt_mono (h : K.LE K') (a : CF) : OLE (addOpt K a) (addOpt K' a) := by
  intro o r hr
  cases o with
  | none => exact hr
  | some b => exact h.add a b r hr

theorem scale_mono (h : K.LE K') (m : CF) : OLE (fun e : Entry F Row CF => scale K e m) (fun e => scale K' e m) := by
  intro e r hr
  simp only [scale, Option.map_eq_some_iff] at hr ⊢
  obtain ⟨c, h1, h2⟩ := hr
  exact ⟨c, h.mul _ _ _ h1, h2⟩

section
variable [StdHeap] [LinearOrder F] [LinearOrder Row]

theorem popLoop_none {b : BHCol F Row CF} (hp : StdHeap.pop b = none) (wi : Row) (ws : Option CF) (wf : F) :
    popLoop K b wi ws wf = some (ws.map fun c => ⟨wf, wi, c⟩, b) := by
  rw [popLoop]; split
  · rfl
  · rename_i h; rw [hp] at h; cases h

theorem popLoop_some {b b' : BHCol F Row CF} {e : Entry F Row CF} (hp : StdHeap.pop b = some (e, b')) (wi : Row) (ws : Option CF) (wf : F) :
    popLoop K b wi ws wf = if e.row ≠ wi then
        (match ws with
        | some c => some (some ⟨wf, wi, c⟩, b)
        | none => (addOpt K e.coeff none).bind fun s => popLoop K b' e.row s e.filt)
      else (addOpt K e.coeff ws).bind fun s => popLoop K b' wi s wf := by
  rw [popLoop]; split
  · rename_i h; rw [hp] at h; cases h
  · rename_i h
    rw [hp] at h
    obtain ⟨rfl, rfl⟩ := Prod.mk.inj (Option.some.inj h)
    rfl

theorem popLoop_mono (h : K.LE K') (n : ℕ) : ∀ (b : BHCol F Row CF) (wi : Row) (ws : Option CF) (wf : F) r,
    (StdHeap.bag b).card ≤ n → popLoop K b wi ws wf = some r → popLoop K' b wi ws wf = some r := by
  induction n with
  | zero =>
    intro b wi ws wf r hn hr
    cases hp : StdHeap.pop b with
    | none => rw [popLoop_none hp] at hr ⊢; exact hr
    | some p =>
      have := BHCol.card_pop (e := p.1) (h' := p.2) hp
      omega
  | succ n ih =>
    intro b wi ws wf r hn hr
    cases hp : StdHeap.pop b with
    | none => rw [popLoop_none hp] at hr ⊢; exact hr
    | some p =>
      obtain ⟨e, b'⟩ := p
      have hlt := BHCol.card_pop hp
      rw [popLoop_some hp] at hr ⊢
      by_cases hne : e.row ≠ wi
      · rw [if_pos hne] at hr ⊢
        cases ws with
        | some c => exact hr
        | none =>
          simp only [Option.bind_eq_some_iff] at hr ⊢
          obtain ⟨s, h1, h2⟩ := hr
          exact ⟨s, addOpt_mono h _ _ _ h1, ih _ _ _ _ _ (by omega) h2⟩
      · rw [if_neg hne] at hr ⊢
        simp only [Option.bind_eq_some_iff] at hr ⊢
        obtain ⟨s, h1, h2⟩ := hr
        exact ⟨s, addOpt_mono h _ _ _ h1, ih _ _ _ _ _ (by omega) h2⟩

theorem popPivot_mono (h : K.LE K') : OLE (popPivot K (F := F) (Row := Row)) (popPivot K') := by
  intro b r hr
  unfold popPivot at hr ⊢
  cases hp : StdHeap.pop b with
  | none => rw [hp] at hr; exact hr
  | some p => rw [hp] at hr; exact popLoop_mono h _ _ _ _ _ _ le_rfl hr

theorem clonePivot_mono (h : K.LE K') : OLE (clonePivot K (F := F) (Row := Row)) (clonePivot K') := by
  intro b r hr
  unfold clonePivot at hr ⊢
  rw [Option.map_eq_some_iff] at hr ⊢
  obtain ⟨p, h1, h2⟩ := hr
  exact ⟨p, popPivot_mono h _ _ h1, h2⟩

theorem drainFuel_mono (h : K.LE K') (n : ℕ) : OLE (drainFuel K n (F := F) (Row := Row)) (drainFuel K' n) := by
  induction n with
  | zero => intro b r hr; exact hr
  | succ n ih =>
    intro b r hr
    unfold drainFuel at hr ⊢
    rw [Option.bind_eq_some_iff] at hr ⊢
    obtain ⟨p, h1, h2⟩ := hr
    refine ⟨p, popPivot_mono h _ _ h1, ?_⟩
    rcases p with ⟨o, b'⟩
    cases o with
    | none => exact h2
    | some e =>
      simp only [Option.map_eq_some_iff] at h2 ⊢
      obtain ⟨q, h3, h4⟩ := h2
      exact ⟨q, ih _ _ h3, h4⟩

theorem toSortedVec_mono (h : K.LE K') : OLE (toSortedVec K (F := F) (Row := Row)) (toSortedVec K') := by
  intro b r hr
  unfold toSortedVec at hr ⊢
  rw [Option.map_eq_some_iff] at hr ⊢
  obtain ⟨p, h1, h2⟩ := hr
  exact ⟨p, drainFuel_mono h _ _ _ h1, h2⟩

theorem buildBhcol_mono {M M' : FOracle CF Col Row F} (h : OLE M.colF M'.colF) : OLE (buildBhcol M) (buildBhcol M') := by
  intro c r hr
  simp only [buildBhcol, Option.map_eq_some_iff] at hr ⊢
  obtain ⟨es, h1, h2⟩ := hr
  exact ⟨es, h _ _ h1, h2⟩

theorem consolidate_mono (h : K.LE K') (M : Oracle CF Col Row) : OLE (consolidate K M).column (consolidate K' M).column := by
  intro c r hr
  simp only [consolidate, Option.bind_eq_some_iff, Option.map_eq_some_iff] at hr ⊢
  obtain ⟨b, h1, es, h2, h3⟩ := hr
  exact ⟨b, h1, es, toSortedVec_mono h _ _ h2, h3⟩

theorem eqOnCol_mono [DecidableEq CF] (h : K.LE K') (A B : Oracle CF Col Row) : OLE (eqOnCol K A B) (eqOnCol K' A B) := by
  intro c r hr
  simp only [eqOnCol, Option.bind_eq_some_iff, Option.map_eq_some_iff] at hr ⊢
  obtain ⟨a, h1, b, h2, la, h3, lb, h4, h5⟩ := hr
  exact ⟨a, h1, b, h2, la, toSortedVec_mono h _ _ h3, lb, toSortedVec_mono h _ _ h4, h5⟩
end

theorem prodColumn_mono (h : K.LE K') {Mid : Type} (D : Oracle CF Mid Row) {V V' : Oracle CF Col Mid} (hV : OLE V.column V'.column) :
    OLE (prodColumn K D V) (prodColumn K' D V') := by
  intro c r hr
  simp only [prodColumn, Option.bind_eq_some_iff] at hr ⊢
  obtain ⟨l, h1, h2⟩ := hr
  refine ⟨l, hV c l h1, OLE.flatMapOpt ?_ l r h2⟩
  intro x y hy
  simp only [Option.bind_eq_some_iff] at hy ⊢
  obtain ⟨v, h3, h4⟩ := hy
  refine ⟨v, h3, OLE.mapOpt ?_ _ _ h4⟩
  intro u w hw
  simp only [Option.map_eq_some_iff] at hw ⊢
  obtain ⟨m, h5, h6⟩ := hw
  exact ⟨m, h.mul _ _ _ h5, h6⟩

theorem productF_mono (h : K.LE K') {Mid : Type} (D : FOracle CF Mid Row F) {V V' : Oracle CF Col Mid} (hV : OLE V.column V'.column) :
    OLE (productF K D V).colF (productF K' D V').colF := by
  intro c r hr
  simp only [productF, Option.bind_eq_some_iff] at hr ⊢
  obtain ⟨l, h1, h2⟩ := hr
  refine ⟨l, hV c l h1, OLE.flatMapOpt ?_ l r h2⟩
  intro x y hy
  simp only [Option.bind_eq_some_iff] at hy ⊢
  obtain ⟨v, h3, h4⟩ := hy
  refine ⟨v, h3, OLE.mapOpt ?_ _ _ h4⟩
  intro u w hw
  simp only [Option.map_eq_some_iff] at hw ⊢
  obtain ⟨m, h5, h6⟩ := hw
  exact ⟨m, h.mul _ _ _ h5, h6⟩

section
variable [StdHeap] [LinearOrder F] [LinearOrder T]

theorem stdReduce_mono (h : K.LE K') (D : FOracle CF T T F) (v : T → Option (List (CF × T))) (low : T → Option (T × CF)) (n : ℕ) :
    ∀ r vi x, stdReduce K D v low n r vi = some x → stdReduce K' D v low n r vi = some x := by
  induction n with
  | zero => intro r vi x hx; simp [stdReduce] at hx
  | succ n ih =>
    intro r vi x hx
    unfold stdReduce at hx ⊢
    rw [Option.bind_eq_some_iff] at hx ⊢
    obtain ⟨p, h1, h2⟩ := hx
    refine ⟨p, popPivot_mono h _ _ h1, ?_⟩
    rcases p with ⟨o, r1⟩
    cases o with
    | none => exact h2
    | some e =>
      simp only at h2 ⊢
      cases hl : low e.row with
      | none => rw [hl] at h2; exact h2
      | some q =>
        rw [hl] at h2
        simp only [Option.bind_eq_some_iff] at h2 ⊢
        obtain ⟨nn, a1, ji, a2, m, a3, re, a4, ve, a5, re', a6, ve', a7, a8⟩ := h2
        exact ⟨nn, h.neg _ _ a1, ji, h.inv _ _ a2, m, h.mul _ _ _ a3, re, productF_mono h _ (OLE.refl _) _ _ a4, ve, a5,
          re', OLE.mapOpt (scale_mono h m) _ _ a6, ve', OLE.mapOpt (scale_mono h m) _ _ a7, ih _ _ _ a8⟩

theorem stdColumn_mono (h : K.LE K') (D : FOracle CF T T F) (fuel : ℕ) (s : StdState CF T) : OLE (stdColumn K D fuel s) (stdColumn K' D fuel s) := by
  intro b r hr
  unfold stdColumn at hr ⊢
  simp only [Option.bind_eq_some_iff, Option.map_eq_some_iff] at hr ⊢
  obtain ⟨r0, h1, p, h2, q, h3, vs, h4, h5⟩ := hr
  exact ⟨r0, h1, p, stdReduce_mono h _ _ _ _ _ _ _ (h.one ▸ h2), q, popPivot_mono h _ _ h3, vs, toSortedVec_mono h _ _ h4, h5⟩

theorem stdLoop_mono (h : K.LE K') (D : FOracle CF T T F) (B : Basis T) (fuel : ℕ → ℕ) (is : List ℕ) :
    OLE (stdLoop K D B fuel is) (stdLoop K' D B fuel is) := by
  induction is with
  | nil => intro s r hr; exact hr
  | cons i is ih =>
    intro s r hr
    simp only [stdLoop, Option.bind_eq_some_iff] at hr ⊢
    obtain ⟨b, h1, s', h2, h3⟩ := hr
    exact ⟨b, h1, s', stdColumn_mono h _ _ _ _ _ h2, ih _ _ h3⟩

theorem standardAlgo_mono (h : K.LE K') (D : FOracle CF T T F) (B : Basis T) : OLE (standardAlgo K D B) (standardAlgo K' D B) := by
  intro fuel r hr
  simp only [standardAlgo, Option.map_eq_some_iff] at hr ⊢
  obtain ⟨s, h1, h2⟩ := hr
  exact ⟨s, stdLoop_mono h _ _ _ _ _ _ h1, h2⟩

theorem readLoop_mono (h : K.LE K') {R R' : FOracle CF T T F} (hR : OLE R.colF R'.colF) (B : Basis T) (is : List ℕ) :
    OLE (readLoop K R B is) (readLoop K' R' B is) := by
  induction is with
  | nil => intro d r hr; exact hr
  | cons i is ih =>
    intro d r hr
    simp only [readLoop, Option.bind_eq_some_iff] at hr ⊢
    obtain ⟨b, h1, r0, h2, p, h3, q, h4, h5⟩ := hr
    exact ⟨b, h1, r0, buildBhcol_mono hR _ _ h2, p, popPivot_mono h _ _ h3, q, popPivot_mono h _ _ h4, ih _ _ h5⟩

theorem readOffDiagram_mono (h : K.LE K') (D : FOracle CF T T F) (B : Basis T) (v : T → Option (List (CF × T))) :
    OLE (readOffDiagram K D B v) (readOffDiagram K' D B v) := by
  intro rev r hr
  exact readLoop_mono h (productF_mono h _ (OLE.refl _)) _ _ _ _ hr

theorem standardAlgoWithDiagram_mono (h : K.LE K') (D : FOracle CF T T F) (B : Basis T) (fuel : ℕ → ℕ) :
    OLE (standardAlgoWithDiagram K D B fuel) (standardAlgoWithDiagram K' D B fuel) := by
  intro rev r hr
  simp only [standardAlgoWithDiagram, Option.bind_eq_some_iff, Option.map_eq_some_iff] at hr ⊢
  obtain ⟨v, h1, d, h2, h3⟩ := hr
  exact ⟨v, standardAlgo_mono h _ _ _ _ h1, d, readOffDiagram_mono h _ _ _ _ _ h2, h3⟩

theorem crmColumn_mono (h : K.LE K') (D : Oracle CF T T) (rc : T → Option (RedCol CF T)) (n : ℕ) :
    OLE (crmColumn K D rc n) (crmColumn K' D rc n) := by
  induction n with
  | zero => intro c r hr; simp [crmColumn] at hr
  | succ n ih =>
    intro c r hr
    simp only [crmColumn, Option.bind_eq_some_iff] at hr ⊢
    obtain ⟨x, h1, h2⟩ := hr
    refine ⟨x, h1, ?_⟩
    cases x with
    | cleared j => exact prodColumn_mono h D (V := ⟨crmColumn K D rc n⟩) (V' := ⟨crmColumn K' D rc n⟩) ih j r h2
    | reduced v => rw [← h.one]; exact h2

theorem colIsCycle_mono (h : K.LE K') (D : FOracle CF T T F) (rc : T → Option (RedCol CF T)) (n : ℕ) :
    OLE (colIsCycle K D rc n) (colIsCycle K' D rc n) := by
  intro c r hr
  simp only [colIsCycle, Option.bind_eq_some_iff] at hr ⊢
  obtain ⟨x, h1, h2⟩ := hr
  refine ⟨x, h1, ?_⟩
  cases x with
  | cleared j => exact h2
  | reduced v =>
    simp only [Option.bind_eq_some_iff, Option.map_eq_some_iff] at h2 ⊢
    obtain ⟨b, h3, p, h4, h5⟩ := h2
    exact ⟨b, buildBhcol_mono (productF_mono h _ (crmColumn_mono h _ _ _)) _ _ h3, p, popPivot_mono h _ _ h4, h5⟩

theorem clrReduce_mono (h : K.LE K') (D : FOracle CF T T F) (rc : T → Option (RedCol CF T)) (depth : ℕ) (low : T → Option (T × CF)) (n : ℕ) :
    ∀ r vi x, clrReduce K D rc depth low n r vi = some x → clrReduce K' D rc depth low n r vi = some x := by
  induction n with
  | zero => intro r vi x hx; simp [clrReduce] at hx
  | succ n ih =>
    intro r vi x hx
    unfold clrReduce at hx ⊢
    rw [Option.bind_eq_some_iff] at hx ⊢
    obtain ⟨p, h1, h2⟩ := hx
    refine ⟨p, clonePivot_mono h _ _ h1, ?_⟩
    rcases p with ⟨o, r1⟩
    cases o with
    | none => exact h2
    | some e =>
      simp only at h2 ⊢
      cases hl : low e.row with
      | none => rw [hl] at h2; exact h2
      | some q =>
        rw [hl] at h2
        simp only [Option.bind_eq_some_iff] at h2 ⊢
        obtain ⟨nn, a1, ji, a2, m, a3, re, a4, ve, a5, re', a6, ve', a7, a8⟩ := h2
        exact ⟨nn, h.neg _ _ a1, ji, h.inv _ _ a2, m, h.mul _ _ _ a3, re,
          productF_mono h _ (crmColumn_mono h D.toOracle rc depth) _ _ a4, ve,
          defaultColF_mono' (crmColumn_mono h D.toOracle rc depth) _ _ a5,
          re', OLE.mapOpt (scale_mono h m) _ _ a6, ve', OLE.mapOpt (scale_mono h m) _ _ a7, ih _ _ _ a8⟩
where
  defaultColF_mono' {V V' : T → Option (List (CF × T))} (hV : OLE V V') : OLE (Oracle.withTrivial ⟨V⟩).colF (Oracle.withTrivial ⟨V'⟩).colF := by
    intro c r hr
    simp only [Oracle.withTrivial, Oracle.withFilt, defaultColF, Option.bind_eq_some_iff] at hr ⊢
    obtain ⟨l, h1, h2⟩ := hr
    exact ⟨l, hV _ _ h1, h2⟩

theorem clrSave_mono (h : K.LE K') (s : CrmState CF T) (low : T → Option (T × CF)) (b : T) (r : BHCol F T CF) :
    OLE (clrSave K s low b r) (clrSave K' s low b r) := by
  intro vi x hx
  simp only [clrSave, Option.map_eq_some_iff] at hx ⊢
  obtain ⟨vs, h1, h2⟩ := hx
  exact ⟨vs, toSortedVec_mono h _ _ h1, h2⟩

theorem clrColumn_mono (h : K.LE K') (D : FOracle CF T T F) (fuel : ℕ) (p : CrmState CF T × (T → Option (T × CF))) :
    OLE (clrColumn K D fuel p) (clrColumn K' D fuel p) := by
  intro b x hx
  unfold clrColumn at hx ⊢
  split
  · rename_i hs; rwa [if_pos hs] at hx
  · rename_i hs
    rw [if_neg hs] at hx
    simp only [Option.bind_eq_some_iff] at hx ⊢
    obtain ⟨r0, h1, q, h2, h3⟩ := hx
    exact ⟨r0, h1, q, clrReduce_mono h _ _ _ _ _ _ _ _ h2, clrSave_mono h _ _ _ _ _ _ h3⟩

theorem clrLoop_mono (h : K.LE K') (D : FOracle CF T T F) (B : Basis T) (fuel : ℕ) (is : List ℕ) :
    OLE (clrLoop K D B fuel is) (clrLoop K' D B fuel is) := by
  induction is with
  | nil => intro s r hr; exact hr
  | cons i is ih =>
    intro s r hr
    simp only [clrLoop, Option.bind_eq_some_iff] at hr ⊢
    obtain ⟨b, h1, s', h2, h3⟩ := hr
    exact ⟨b, h1, s', clrColumn_mono h _ _ _ _ _ h2, ih _ _ h3⟩

theorem clrDimension_mono (h : K.LE K') (D : FOracle CF T T F) (B : SplitBasis T) (fuel : ℕ) (s : CrmState CF T) :
    OLE (clrDimension K D B fuel s) (clrDimension K' D B fuel s) := by
  intro d r hr
  simp only [clrDimension, Option.bind_eq_some_iff, Option.map_eq_some_iff] at hr ⊢
  obtain ⟨Bd, h1, p, h2, h3⟩ := hr
  exact ⟨Bd, h1, p, clrLoop_mono h _ _ _ _ _ _ h2, h3⟩

theorem clrAll_mono (h : K.LE K') (D : FOracle CF T T F) (B : SplitBasis T) (fuel : ℕ) (ds : List ℕ) :
    OLE (clrAll K D B fuel ds) (clrAll K' D B fuel ds) := by
  induction ds with
  | nil => intro s r hr; exact hr
  | cons d ds ih =>
    intro s r hr
    simp only [clrAll, Option.bind_eq_some_iff] at hr ⊢
    obtain ⟨s', h2, h3⟩ := hr
    exact ⟨s', clrDimension_mono h _ _ _ _ _ _ h2, ih _ _ h3⟩

theorem buildWithDiagram_mono (h : K.LE K') (D : FOracle CF T T F) (B : SplitBasis T) (fuel : ℕ) :
    OLE (buildWithDiagram K D B fuel) (buildWithDiagram K' D B fuel) := by
  intro ds r hr
  simp only [buildWithDiagram, Option.map_eq_some_iff] at hr ⊢
  obtain ⟨s, h1, h2⟩ := hr
  exact ⟨s, clrAll_mono h _ _ _ _ _ _ h1, h2⟩
end

/-! ### Operations that never panic -/
section
variable [NonZeroCoeff CF]

theorem addOpt_exact (a : CF) (o : Option CF) : addOpt (PanicOps.exact CF) a o = some (NonZeroCoeff.addOpt a o) := by
  cases o <;> rfl

theorem mapOpt_some {α β : Type} (f : α → β) (l : List α) : mapOpt (fun a => some (f a)) l = some (l.map f) := by
  induction l with
  | nil => rfl
  | cons a l ih => simp [mapOpt, ih]

theorem scale_exact (m : CF) : (fun e : Entry F Row CF => scale (PanicOps.exact CF) e m) = fun e => some (e.scale m) := rfl

theorem prodColumn_exact {Mid : Type} (D : Oracle CF Mid Row) (V : Oracle CF Col Mid) : prodColumn (PanicOps.exact CF) D V = Phlite.prodColumn D V := by
  funext c
  simp only [prodColumn, Phlite.prodColumn, PanicOps.exact, Option.map_some, mapOpt_some, ← Option.map_eq_bind]
  congr 1; funext l; congr 1; funext t
  cases D.column t.2 <;> rfl

theorem productF_exact {Mid : Type} (D : FOracle CF Mid Row F) (V : Oracle CF Col Mid) : productF (PanicOps.exact CF) D V = Phlite.productF D V := by
  unfold productF Phlite.productF
  rw [prodColumn_exact]
  congr 1
  funext c
  simp only [PanicOps.exact, Option.map_some, mapOpt_some]
  congr 1; funext l; congr 1; funext t
  cases D.colF t.2 <;> rfl

theorem crmColumn_exact (D : Oracle CF T T) (rc : T → Option (RedCol CF T)) (n : ℕ) : crmColumn (PanicOps.exact CF) D rc n = Phlite.crmColumn D rc n := by
  induction n with
  | zero => rfl
  | succ n ih =>
    funext c
    simp only [crmColumn, Phlite.crmColumn]
    congr 1; funext x
    cases x with
    | cleared j => simp only [ih, prodColumn_exact]
    | reduced v => rfl

section
variable [StdHeap] [LinearOrder F] [LinearOrder Row]

theorem popLoop_none' {b : BHCol F Row CF} (hp : StdHeap.pop b = none) (wi : Row) (ws : Option CF) (wf : F) :
    BHCol.popLoop b wi ws wf = (ws.map fun c => ⟨wf, wi, c⟩, b) := by
  rw [BHCol.popLoop]; split
  · rfl
  · rename_i h; rw [hp] at h; cases h

theorem popLoop_some' {b b' : BHCol F Row CF} {e : Entry F Row CF} (hp : StdHeap.pop b = some (e, b')) (wi : Row) (ws : Option CF) (wf : F) :
    BHCol.popLoop b wi ws wf = if e.row ≠ wi then
        (match ws with
        | some c => (some ⟨wf, wi, c⟩, b)
        | none => BHCol.popLoop b' e.row (NonZeroCoeff.addOpt e.coeff none) e.filt)
      else BHCol.popLoop b' wi (NonZeroCoeff.addOpt e.coeff ws) wf := by
  rw [BHCol.popLoop]; split
  · rename_i h; rw [hp] at h; cases h
  · rename_i h
    rw [hp] at h
    obtain ⟨rfl, rfl⟩ := Prod.mk.inj (Option.some.inj h)
    rfl

theorem popLoop_exact (n : ℕ) : ∀ (b : BHCol F Row CF) (wi : Row) (ws : Option CF) (wf : F), (StdHeap.bag b).card ≤ n →
    popLoop (PanicOps.exact CF) b wi ws wf = some (BHCol.popLoop b wi ws wf) := by
  induction n with
  | zero =>
    intro b wi ws wf hn
    cases hp : StdHeap.pop b with
    | none => rw [popLoop_none hp, popLoop_none' hp]
    | some p =>
      have := BHCol.card_pop (e := p.1) (h' := p.2) hp
      omega
  | succ n ih =>
    intro b wi ws wf hn
    cases hp : StdHeap.pop b with
    | none => rw [popLoop_none hp, popLoop_none' hp]
    | some p =>
      obtain ⟨e, b'⟩ := p
      have hlt := BHCol.card_pop hp
      rw [popLoop_some hp, popLoop_some' hp]
      by_cases hne : e.row ≠ wi
      · rw [if_pos hne, if_pos hne]
        cases ws with
        | some c => rfl
        | none =>
          simp only [addOpt_exact, Option.bind_some]
          exact ih _ _ _ _ (by omega)
      · rw [if_neg hne, if_neg hne]
        simp only [addOpt_exact, Option.bind_some]
        exact ih _ _ _ _ (by omega)

theorem popPivot_exact (b : BHCol F Row CF) : popPivot (PanicOps.exact CF) b = some (BHCol.popPivot b) := by
  unfold popPivot BHCol.popPivot
  cases hp : StdHeap.pop b with
  | none => rfl
  | some p => exact popLoop_exact _ _ _ _ _ le_rfl

theorem clonePivot_exact (b : BHCol F Row CF) : clonePivot (PanicOps.exact CF) b = some (BHCol.clonePivot b) := by
  unfold clonePivot BHCol.clonePivot
  rw [popPivot_exact]
  rcases BHCol.popPivot b with ⟨o, b'⟩
  cases o <;> rfl

theorem drainFuel_exact (n : ℕ) (b : BHCol F Row CF) : drainFuel (PanicOps.exact CF) n b = BHCol.drainFuel n b := by
  induction n generalizing b with
  | zero => rfl
  | succ n ih =>
    unfold drainFuel BHCol.drainFuel
    rw [popPivot_exact, Option.bind_some]
    rcases BHCol.popPivot b with ⟨o, b'⟩
    cases o with
    | none => rfl
    | some e => simp only [ih]

theorem toSortedVec_exact (b : BHCol F Row CF) : toSortedVec (PanicOps.exact CF) b = BHCol.toSortedVec b := by
  unfold toSortedVec BHCol.toSortedVec
  rw [drainFuel_exact]

theorem buildBhcol_eq (M : FOracle CF Col Row F) : buildBhcol M = M.buildBhcol := rfl

theorem consolidate_exact (M : Oracle CF Col Row) : consolidate (PanicOps.exact CF) M = M.consolidate := by
  unfold consolidate Oracle.consolidate Oracle.consolidateColumn
  simp only [toSortedVec_exact, buildBhcol_eq]

theorem eqOnCol_exact [DecidableEq CF] (A B : Oracle CF Col Row) : eqOnCol (PanicOps.exact CF) A B = A.eqOnCol B := by
  funext c
  unfold eqOnCol Oracle.eqOnCol
  simp only [toSortedVec_exact, buildBhcol_eq]
end

section
variable [StdHeap] [LinearOrder F] [LinearOrder T]

theorem stdReduce_exact (D : FOracle CF T T F) (v : T → Option (List (CF × T))) (low : T → Option (T × CF)) (n : ℕ) :
    ∀ r vi, stdReduce (PanicOps.exact CF) D v low n r vi = Phlite.stdReduce D v low n r vi := by
  induction n with
  | zero => intro r vi; rfl
  | succ n ih =>
    intro r vi
    unfold stdReduce Phlite.stdReduce
    rw [popPivot_exact, Option.bind_some]
    rcases BHCol.popPivot r with ⟨o, r1⟩
    cases o with
    | none => rfl
    | some e =>
      simp only
      cases hl : low e.row with
      | none => rfl
      | some q =>
        simp only [scale_exact, mapOpt_some, productF_exact, Option.bind_some, ih]
        simp only [PanicOps.exact, Option.bind_some]

theorem stdColumn_exact (D : FOracle CF T T F) (fuel : ℕ) (s : StdState CF T) (b : T) :
    stdColumn (PanicOps.exact CF) D fuel s b = Phlite.stdColumn D fuel s b := by
  unfold stdColumn Phlite.stdColumn
  simp only [stdReduce_exact, popPivot_exact, toSortedVec_exact, Option.bind_some, buildBhcol_eq]
  rfl

theorem stdLoop_exact (D : FOracle CF T T F) (B : Basis T) (fuel : ℕ → ℕ) (is : List ℕ) (s : StdState CF T) :
    stdLoop (PanicOps.exact CF) D B fuel is s = Phlite.stdLoop D B fuel is s := by
  induction is generalizing s with
  | nil => rfl
  | cons i is ih => simp only [stdLoop, Phlite.stdLoop, stdColumn_exact, ih]

theorem standardAlgo_exact (D : FOracle CF T T F) (B : Basis T) (fuel : ℕ → ℕ) :
    standardAlgo (PanicOps.exact CF) D B fuel = Phlite.standardAlgo D B fuel := by
  simp only [standardAlgo, Phlite.standardAlgo, stdLoop_exact]

theorem readLoop_exact (R : FOracle CF T T F) (B : Basis T) (is : List ℕ) (d : Diagram T) :
    readLoop (PanicOps.exact CF) R B is d = Phlite.readLoop R B is d := by
  induction is generalizing d with
  | nil => rfl
  | cons i is ih =>
    simp only [readLoop, Phlite.readLoop, popPivot_exact, Option.bind_some, ih, buildBhcol_eq]
    rfl

theorem readOffDiagram_exact (D : FOracle CF T T F) (B : Basis T) (v : T → Option (List (CF × T))) (rev : Bool) :
    readOffDiagram (PanicOps.exact CF) D B v rev = Phlite.readOffDiagram D B v rev := by
  simp only [readOffDiagram, Phlite.readOffDiagram, readLoop_exact, productF_exact]

theorem standardAlgoWithDiagram_exact (D : FOracle CF T T F) (B : Basis T) (fuel : ℕ → ℕ) (rev : Bool) :
    standardAlgoWithDiagram (PanicOps.exact CF) D B fuel rev = Phlite.standardAlgoWithDiagram D B fuel rev := by
  simp only [standardAlgoWithDiagram, Phlite.standardAlgoWithDiagram, standardAlgo_exact, readOffDiagram_exact]

theorem crmMatrix_exact (D : Oracle CF T T) (rc : T → Option (RedCol CF T)) (n : ℕ) : crmMatrix (PanicOps.exact CF) D rc n = Phlite.crmMatrix D rc n := by
  simp only [crmMatrix, Phlite.crmMatrix, crmColumn_exact]

theorem colIsCycle_exact (D : FOracle CF T T F) (rc : T → Option (RedCol CF T)) (n : ℕ) (c : T) :
    colIsCycle (PanicOps.exact CF) D rc n c = Phlite.colIsCycle D rc n c := by
  unfold colIsCycle Phlite.colIsCycle
  congr 1; funext x
  cases x with
  | cleared j => rfl
  | reduced v =>
    simp only [productF_exact, crmMatrix_exact, buildBhcol_eq, popPivot_exact, Option.map_some]
    cases (Phlite.productF D.ref (Phlite.crmMatrix D.toOracle rc n)).buildBhcol c <;> rfl

theorem clrReduce_exact (D : FOracle CF T T F) (rc : T → Option (RedCol CF T)) (depth : ℕ) (low : T → Option (T × CF)) (n : ℕ) :
    ∀ r vi, clrReduce (PanicOps.exact CF) D rc depth low n r vi = Phlite.clrReduce D rc depth low n r vi := by
  induction n with
  | zero => intro r vi; rfl
  | succ n ih =>
    intro r vi
    unfold clrReduce Phlite.clrReduce
    rw [clonePivot_exact, Option.bind_some]
    rcases BHCol.clonePivot r with ⟨o, r1⟩
    cases o with
    | none => rfl
    | some e =>
      simp only
      cases hl : low e.row with
      | none => rfl
      | some q =>
        simp only [scale_exact, mapOpt_some, productF_exact, crmMatrix_exact, Option.bind_some, ih]
        simp only [PanicOps.exact, Option.bind_some]

theorem clrSave_exact (s : CrmState CF T) (low : T → Option (T × CF)) (b : T) (r : BHCol F T CF) (vi : BHCol Unit T CF) :
    clrSave (PanicOps.exact CF) s low b r vi = Phlite.clrSave s low b r vi := by
  simp only [clrSave, Phlite.clrSave, toSortedVec_exact]
  rfl

theorem clrColumn_exact (D : FOracle CF T T F) (fuel : ℕ) (p : CrmState CF T × (T → Option (T × CF))) (b : T) :
    clrColumn (PanicOps.exact CF) D fuel p b = Phlite.clrColumn D fuel p b := by
  simp only [clrColumn, Phlite.clrColumn, clrReduce_exact, clrSave_exact, buildBhcol_eq]

theorem clrLoop_exact (D : FOracle CF T T F) (B : Basis T) (fuel : ℕ) (is : List ℕ) (p : CrmState CF T × (T → Option (T × CF))) :
    clrLoop (PanicOps.exact CF) D B fuel is p = Phlite.clrLoop D B fuel is p := by
  induction is generalizing p with
  | nil => rfl
  | cons i is ih => simp only [clrLoop, Phlite.clrLoop, clrColumn_exact, ih]

theorem clrAll_exact (D : FOracle CF T T F) (B : SplitBasis T) (fuel : ℕ) (ds : List ℕ) (s : CrmState CF T) :
    clrAll (PanicOps.exact CF) D B fuel ds s = Phlite.clrAll D B fuel ds s := by
  induction ds generalizing s with
  | nil => rfl
  | cons d ds ih => simp only [clrAll, Phlite.clrAll, clrDimension, Phlite.clrDimension, clrLoop_exact, ih]

theorem buildWithDiagram_exact (D : FOracle CF T T F) (B : SplitBasis T) (fuel : ℕ) (ds : List ℕ) :
    buildWithDiagram (PanicOps.exact CF) D B fuel ds = Phlite.buildWithDiagram D B fuel ds := by
  simp only [buildWithDiagram, Phlite.buildWithDiagram, clrAll_exact]
end
end
end Ck
end Phlite
