/-
The algorithms are monotone in the fuel and in the matrix: if a run succeeds, then it succeeds with the same result with more fuel
and with a matrix that answers more requests. Hence a run that succeeds on a matrix that panics outside of a list of columns only
requests columns of that list.
-/
import Verif.Proofs.Standard
import Verif.Proofs.Clearing

set_option linter.unusedSectionVars false
set_option linter.unusedSimpArgs false

namespace Phlite

/-- `g` answers whenever `f` does, in the same way. -/
def OLE {α β : Type} (f g : α → Option β) : Prop := ∀ x y, f x = some y → g x = some y

theorem OLE.refl {α β : Type} (f : α → Option β) : OLE f f := fun _ _ h => h

theorem OLE.mapOpt {α β : Type} {f g : α → Option β} (h : OLE f g) : OLE (mapOpt f) (mapOpt g) := by
  intro l r hr
  rw [mapOpt_eq_some] at hr ⊢
  exact hr.imp fun a b => h a b

theorem OLE.flatMapOpt {α β : Type} {f g : α → Option (List β)} (h : OLE f g) : OLE (flatMapOpt f) (flatMapOpt g) := by
  intro l
  induction l with
  | nil => intro r hr; exact hr
  | cons a l ih =>
    intro r hr
    simp only [Phlite.flatMapOpt, Option.bind_eq_some_iff, Option.map_eq_some_iff] at hr ⊢
    obtain ⟨b, h1, c, h2, h3⟩ := hr
    exact ⟨b, h a b h1, c, ih c h2, h3⟩

section
variable {CF T F : Type} [NonZeroCoeff CF]

/-- `D'` answers every request that `D` answers, in the same way. -/
structure DLE (D D' : FOracle CF T T F) : Prop where
  col : OLE D.column D'.column
  filt : OLE D.filt D'.filt
  colF : OLE D.colF D'.colF

theorem DLE.refl (D : FOracle CF T T F) : DLE D D := ⟨OLE.refl _, OLE.refl _, OLE.refl _⟩

theorem defaultColF_mono {Col Row : Type} {M M' : Oracle CF Col Row} {f f' : Row → Option F} (hM : OLE M.column M'.column) (hf : OLE f f') :
    OLE (defaultColF M f) (defaultColF M' f') := by
  intro c r hr
  simp only [defaultColF, Option.bind_eq_some_iff] at hr ⊢
  obtain ⟨l, h1, h2⟩ := hr
  refine ⟨l, hM c l h1, OLE.mapOpt ?_ l r h2⟩
  intro x y hy
  simp only [Option.map_eq_some_iff] at hy ⊢
  obtain ⟨v, h3, h4⟩ := hy
  exact ⟨v, hf _ _ h3, h4⟩

theorem DLE.ref {D D' : FOracle CF T T F} (h : DLE D D') : DLE D.ref D'.ref :=
  ⟨h.col, h.filt, defaultColF_mono h.col h.filt⟩

theorem prodColumn_mono {D D' V V' : Oracle CF T T} (hD : OLE D.column D'.column) (hV : OLE V.column V'.column) :
    OLE (prodColumn D V) (prodColumn D' V') := by
  intro c r hr
  simp only [prodColumn, Option.bind_eq_some_iff] at hr ⊢
  obtain ⟨l, h1, h2⟩ := hr
  refine ⟨l, hV c l h1, OLE.flatMapOpt ?_ l r h2⟩
  intro x y hy
  simp only [Option.map_eq_some_iff] at hy ⊢
  obtain ⟨v, h3, h4⟩ := hy
  exact ⟨v, hD _ _ h3, h4⟩

theorem productF_mono {D D' : FOracle CF T T F} {V V' : Oracle CF T T} (hD : DLE D D') (hV : OLE V.column V'.column) :
    DLE (productF D V) (productF D' V') := by
  refine ⟨prodColumn_mono hD.col hV, hD.filt, ?_⟩
  intro c r hr
  simp only [productF, Option.bind_eq_some_iff] at hr ⊢
  obtain ⟨l, h1, h2⟩ := hr
  refine ⟨l, hV c l h1, OLE.flatMapOpt ?_ l r h2⟩
  intro x y hy
  simp only [Option.map_eq_some_iff] at hy ⊢
  obtain ⟨v, h3, h4⟩ := hy
  exact ⟨v, hD.colF _ _ h3, h4⟩

theorem crmColumn_mono {D D' : Oracle CF T T} (hD : OLE D.column D'.column) (rc : T → Option (RedCol CF T)) {n m : Nat} (hnm : n ≤ m) :
    OLE (crmColumn D rc n) (crmColumn D' rc m) := by
  induction n generalizing m with
  | zero => intro c l h; simp [crmColumn] at h
  | succ n ih =>
    obtain ⟨m, rfl⟩ : ∃ k, m = k + 1 := ⟨m - 1, by omega⟩
    intro c l h
    simp only [crmColumn, Option.bind_eq_some_iff] at h ⊢
    obtain ⟨x, h1, h2⟩ := h
    refine ⟨x, h1, ?_⟩
    cases x with
    | cleared j => exact prodColumn_mono (V := ⟨crmColumn D rc n⟩) (V' := ⟨crmColumn D' rc m⟩) hD (ih (by omega)) j l h2
    | reduced v => exact h2

variable [StdHeap] [LinearOrder F] [LinearOrder T]

theorem buildBhcol_mono {D D' : FOracle CF T T F} (h : DLE D D') : OLE D.buildBhcol D'.buildBhcol := by
  intro c r hr
  simp only [FOracle.buildBhcol, Option.map_eq_some_iff] at hr ⊢
  obtain ⟨es, h1, h2⟩ := hr
  exact ⟨es, h.colF _ _ h1, h2⟩

theorem genReduce_mono' {get : BHCol F T CF → Option (Entry F T CF) × BHCol F T CF}
    {rcol rcol' : T → Option (List (Entry F T CF))} {vcol vcol' : T → Option (List (Entry Unit T CF))} {low : T → Option (T × CF)}
    (hr : OLE rcol rcol') (hv : OLE vcol vcol') {n m : Nat} (hnm : n ≤ m) {r : BHCol F T CF} {vi : BHCol Unit T CF}
    {x : BHCol F T CF × BHCol Unit T CF} (h : genReduce get rcol vcol low n r vi = some x) :
    genReduce get rcol' vcol' low m r vi = some x := by
  induction n generalizing m r vi with
  | zero => simp [genReduce] at h
  | succ n ih =>
    obtain ⟨m, rfl⟩ : ∃ k, m = k + 1 := ⟨m - 1, by omega⟩
    unfold genReduce at h ⊢
    rcases hg : get r with ⟨o, r1⟩
    rw [hg] at h
    cases o with
    | none => exact h
    | some e =>
      simp only at h ⊢
      cases hl : low e.row with
      | none => rw [hl] at h; exact h
      | some q =>
        rw [hl] at h
        simp only [Option.bind_eq_some_iff] at h ⊢
        obtain ⟨re, h1, ve, h2, h3⟩ := h
        exact ⟨re, hr _ _ h1, ve, hv _ _ h2, ih (by omega) h3⟩

/-! ### Standard algorithm -/

theorem stdLoop_mono' {D D' : FOracle CF T T F} (hD : DLE D D') {B : Basis T} {fuel fuel' : Nat → Nat} {is : List Nat}
    (hf : ∀ i ∈ is, fuel i ≤ fuel' i) {s s' : StdState CF T} (h : stdLoop D B fuel is s = some s') :
    stdLoop D' B fuel' is s = some s' := by
  induction is generalizing s with
  | nil => exact h
  | cons i is ih =>
    simp only [stdLoop, Option.bind_eq_some_iff] at h ⊢
    obtain ⟨b, h1, s1, h2, h3⟩ := h
    refine ⟨b, h1, s1, ?_, ih (fun i hi => hf i (List.mem_cons_of_mem _ hi)) h3⟩
    simp only [stdColumn, Option.bind_eq_some_iff, Option.map_eq_some_iff] at h2 ⊢
    obtain ⟨r0, a1, p, a2, a3⟩ := h2
    refine ⟨r0, buildBhcol_mono hD _ _ a1, p, ?_, a3⟩
    rw [stdReduce_eq] at a2 ⊢
    exact genReduce_mono' (productF_mono hD.ref (OLE.refl _)).colF (OLE.refl _) (hf i List.mem_cons_self) a2

theorem standardAlgo_mono' {D D' : FOracle CF T T F} (hD : DLE D D') {B : Basis T} {fuel fuel' : Nat → Nat}
    (hf : ∀ i, i < B.size → fuel i ≤ fuel' i) {v : T → Option (List (CF × T))} (h : standardAlgo D B fuel = some v) :
    standardAlgo D' B fuel' = some v := by
  simp only [standardAlgo, Option.map_eq_some_iff] at h ⊢
  obtain ⟨s, h1, h2⟩ := h
  exact ⟨s, stdLoop_mono' hD (fun i hi => hf i (by simpa using hi)) h1, h2⟩

theorem readLoop_mono {R R' : FOracle CF T T F} (hR : DLE R R') {B : Basis T} {is : List Nat} {d d' : Diagram T}
    (h : readLoop R B is d = some d') : readLoop R' B is d = some d' := by
  induction is generalizing d with
  | nil => exact h
  | cons i is ih =>
    simp only [readLoop, Option.bind_eq_some_iff] at h ⊢
    obtain ⟨b, h1, r, h2, h3⟩ := h
    exact ⟨b, h1, r, buildBhcol_mono hR _ _ h2, ih h3⟩

theorem readOff_mono {D D' : FOracle CF T T F} (hD : DLE D D') {B : Basis T} {v : T → Option (List (CF × T))} {rev : Bool} {d : Diagram T}
    (h : readOffDiagram D B v rev = some d) : readOffDiagram D' B v rev = some d :=
  readLoop_mono (productF_mono hD.ref (OLE.refl _)) h

theorem standardAlgoWithDiagram_mono {D D' : FOracle CF T T F} (hD : DLE D D') {B : Basis T} {fuel fuel' : Nat → Nat}
    (hf : ∀ i, i < B.size → fuel i ≤ fuel' i) {rev : Bool} {x : (T → Option (List (CF × T))) × Diagram T}
    (h : standardAlgoWithDiagram D B fuel rev = some x) : standardAlgoWithDiagram D' B fuel' rev = some x := by
  simp only [standardAlgoWithDiagram, Option.bind_eq_some_iff, Option.map_eq_some_iff] at h ⊢
  obtain ⟨v, h1, d, h2, h3⟩ := h
  exact ⟨v, standardAlgo_mono' hD.ref hf h1, d, readOff_mono hD.ref h2, h3⟩

/-! ### Clearing -/

theorem clrColumn_mono {D D' : FOracle CF T T F} (hD : DLE D D') {n m : Nat} (hnm : n ≤ m)
    {p q : CrmState CF T × (T → Option (T × CF))} {b : T} (h : clrColumn D n p b = some q) : clrColumn D' m p b = some q := by
  unfold clrColumn at h ⊢
  split at h
  · rename_i hb; rw [if_pos hb]; exact h
  · rename_i hb
    rw [if_neg hb]
    simp only [Option.bind_eq_some_iff] at h ⊢
    obtain ⟨r0, h1, x, h2, h3⟩ := h
    refine ⟨r0, buildBhcol_mono hD _ _ h1, x, ?_, h3⟩
    rw [clrReduce_eq] at h2 ⊢
    have hc := crmColumn_mono (D := D.toOracle) (D' := D'.toOracle) hD.col p.1.rc hnm
    have hv : OLE (crmMatrix D.toOracle p.1.rc n).withTrivial.colF (crmMatrix D'.toOracle p.1.rc m).withTrivial.colF :=
      defaultColF_mono (F := Unit) (M := crmMatrix D.toOracle p.1.rc n) (M' := crmMatrix D'.toOracle p.1.rc m) hc (OLE.refl fun _ => some ())
    exact genReduce_mono' (productF_mono hD.ref (V := (crmMatrix D.toOracle p.1.rc n).withTrivial.toOracle)
      (V' := (crmMatrix D'.toOracle p.1.rc m).withTrivial.toOracle) hc).colF
      hv hnm h2

theorem clrLoop_mono {D D' : FOracle CF T T F} (hD : DLE D D') {n m : Nat} (hnm : n ≤ m) {B : Basis T} {is : List Nat}
    {p q : CrmState CF T × (T → Option (T × CF))} (h : clrLoop D B n is p = some q) : clrLoop D' B m is p = some q := by
  induction is generalizing p with
  | nil => exact h
  | cons i is ih =>
    simp only [clrLoop, Option.bind_eq_some_iff] at h ⊢
    obtain ⟨b, h1, p', h2, h3⟩ := h
    exact ⟨b, h1, p', clrColumn_mono hD hnm h2, ih h3⟩

theorem clrAll_mono {D D' : FOracle CF T T F} (hD : DLE D D') {n m : Nat} (hnm : n ≤ m) {B : SplitBasis T} {dims : List Nat}
    {s s' : CrmState CF T} (h : clrAll D B n dims s = some s') : clrAll D' B m dims s = some s' := by
  induction dims generalizing s with
  | nil => exact h
  | cons d ds ih =>
    simp only [clrAll, clrDimension, Option.bind_eq_some_iff, Option.map_eq_some_iff] at h ⊢
    obtain ⟨s1, ⟨Bd, h1, p, h2, h3⟩, h4⟩ := h
    exact ⟨s1, ⟨Bd, h1, p, clrLoop_mono hD hnm h2, h3⟩, ih h4⟩

theorem buildWithDiagram_mono {D D' : FOracle CF T T F} (hD : DLE D D') {n m : Nat} (hnm : n ≤ m) {B : SplitBasis T} {dims : List Nat}
    {x : (T → Option (RedCol CF T)) × Diagram T} (h : buildWithDiagram D B n dims = some x) :
    buildWithDiagram D' B m dims = some x := by
  simp only [buildWithDiagram, Option.map_eq_some_iff] at h ⊢
  obtain ⟨s, h1, h2⟩ := h
  exact ⟨s, clrAll_mono hD hnm h1, h2⟩

theorem restrict_le (D : FOracle CF T T F) (els : List T) : DLE (D.restrict els) D := by
  refine ⟨?_, OLE.refl _, ?_⟩
  · intro c l h
    simp only [FOracle.restrict] at h
    split at h
    · exact h
    · cases h
  · intro c l h
    simp only [FOracle.restrict] at h
    split at h
    · exact h
    · cases h

variable {K : Type} [Field K] [LawfulCoeff CF K]

theorem ReadsCol.restrict {D : FOracle CF T T F} {f : T → F} {M : T → (T →₀ K)} {c : T} (h : ReadsCol K D f M c) {els : List T}
    (hc : c ∈ els) : ReadsCol K (D.restrict els) f M c := by
  obtain ⟨l, h1, h2, h3, h4⟩ := h
  exact ⟨l, by simp [FOracle.restrict, hc, h1], by simp [FOracle.restrict, hc, h2], h3, h4⟩

theorem SplitComplex.restrict {D : FOracle CF T T F} {B : SplitBasis T} {f : T → F} {M : T → (T →₀ K)} {deg : T → ℤ} {ε : ℤ}
    {dims : List ℕ} {els : ℕ → List T} (h : SplitComplex K D B f M deg ε dims els) :
    SplitComplex K (D.restrict (dims.flatMap els)) B f M deg ε dims els := by
  refine ⟨h.basis, h.deg_els, h.sorted, ?_, ?_, h.nodup, h.order, h.shift, h.sq⟩
  · intro d hd c hc
    exact (h.good d hd c hc).restrict (List.mem_flatMap.2 ⟨d, hd, hc⟩)
  · intro d hd c hc l hl
    exact h.rows d hd c hc l ((restrict_le D _).col c l hl)

end
end Phlite
