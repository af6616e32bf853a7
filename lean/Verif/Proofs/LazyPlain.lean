/-
Matrices without interior mutability: reading columns lazily gives the lists of the eager model, for every program in `Model/Lazy.lean`.
-/
import Verif.Proofs.LazyReduction

set_option linter.unusedSectionVars false
set_option linter.unusedSimpArgs false

namespace Phlite
namespace Lazy

section
variable {σ Col Mid α β CF : Type}

/-- Requests and steps do not change the shared state. -/
structure Pure (L : Cols σ Col α) : Prop where
  request : ∀ c s it s', L.request c s = some (it, s') → s' = s
  pull : ∀ it s o it' s', L.pull it s = some (o, it', s') → s' = s

theorem Pure.ofFun (f : Col → Option (List α)) : Pure (Cols.ofFun f : Cols σ Col α) where
  request c s it s' h := by
    obtain ⟨l, _, h2⟩ := Option.map_eq_some_iff.1 (show (f c).map _ = _ from h)
    cases h2; rfl
  pull it s o it' s' h := by
    cases it with
    | nil => cases h; rfl
    | cons a l => cases h; rfl

theorem Pure.flatMap {R : Cols σ Col (CF × Mid)} {L : Cols σ Mid α} (hR : Pure R) (hL : Pure L) (scale : CF → α → α) : Pure (R.flatMap L scale) where
  request c s it s' h := by
    obtain ⟨p, h1, h2⟩ := Option.map_eq_some_iff.1 (show (R.request c s).map _ = _ from h)
    cases h2
    exact hR.request _ _ _ _ h1
  pull it s o it' s' h := by
    obtain ⟨rit, front⟩ := it
    cases front with
    | some p =>
      obtain ⟨⟨o', lit, s1⟩, h1, h2⟩ := Option.map_eq_some_iff.1 (show (L.pull p.2 s).map _ = _ from h)
      cases hL.pull _ _ _ _ _ h1
      cases o' <;> (cases h2; rfl)
    | none =>
      obtain ⟨⟨o', rit', s1⟩, h1, h2⟩ := Option.bind_eq_some_iff.1 (show (R.pull rit s).bind _ = _ from h)
      cases hR.pull _ _ _ _ _ h1
      cases o' with
      | done => cases h2; rfl
      | skip => cases h2; rfl
      | item t =>
        obtain ⟨q, h3, h4⟩ := Option.map_eq_some_iff.1 h2
        cases h4
        exact hL.request _ _ _ _ h3

theorem Behaves.robust {L : Cols σ Col α} (hL : Pure L) {s0 : σ} {it : L.It} {s : σ} {v : Option (List α)} (h : Behaves L (· = s0) it s v) (hs : s = s0) :
    Robust L (· = s0) (fun _ => True) it v := by
  induction h with
  | panic h => subst hs; exact .panic fun s hs => by cases hs; exact h
  | done h1 h2 => subst hs; exact .done fun s hs => by cases hs; exact ⟨_, _, h1, h2⟩
  | skip h _ ih => subst hs; have := hL.pull _ _ _ _ _ h; exact .skip (fun s hs => by cases hs; exact ⟨_, h, this⟩) (ih this)
  | item h _ ih => subst hs; have := hL.pull _ _ _ _ _ h; exact .item trivial (fun s hs => by cases hs; exact ⟨_, h, this⟩) (ih this)

theorem Serves.right {L : Cols σ Col α} (hL : Pure L) {s0 : σ} {c : Col} {v : Option (List α)} (h : Serves L c v (· = s0) (· = s0)) (s : σ) (hs : s = s0) :
    (L.request c s = none → v = none) ∧ ∀ it s', L.request c s = some (it, s') → s' = s0 ∧ Robust L (· = s0) (fun _ => True) it v := by
  refine ⟨(h s hs).1, fun it s' hr => ?_⟩
  have h1 : s' = s0 := (hL.request _ _ _ _ hr).trans hs
  exact ⟨h1, ((h s hs).2 it s' hr).robust hL h1⟩

end

section
variable [StdHeap] {σ CF T F : Type} [NonZeroCoeff CF] [LinearOrder T] {Dc : Cols σ T (CF × T)} {rc : T → Option (RedCol CF T)}

theorem Pure.crmCols (hD : Pure Dc) (n : ℕ) : Pure (crmCols Dc rc n) := by
  induction n with
  | zero => exact Pure.ofFun _
  | succ n ih =>
    have hP := ih.flatMap hD scaleTuple
    refine ⟨fun c s it s' h => ?_, fun it s o it' s' h => ?_⟩
    · obtain ⟨r, h1, h2⟩ := Option.bind_eq_some_iff.1 (show (rc c).bind _ = _ from h)
      cases r with
      | reduced vec => cases h2; rfl
      | cleared j =>
        obtain ⟨p, h3, h4⟩ := Option.map_eq_some_iff.1 h2
        cases h4
        exact hP.request _ _ _ _ h3
    · cases it with
      | inl it =>
        obtain ⟨p, h1, h2⟩ := Option.map_eq_some_iff.1 (show (((Lazy.crmCols Dc rc n).flatMap Dc scaleTuple).pull it s).map _ = _ from h)
        cases h2
        exact hP.pull _ _ _ _ _ h1
      | inr l =>
        cases l with
        | nil => cases h; rfl
        | cons a l => cases h; rfl

theorem crmStep_serves {P : Cols σ T (CF × T)} {rc : T → Option (RedCol CF T)} {c j : T} (hc : rc c = some (.cleared j)) {v : Option (List (CF × T))} {I J : σ → Prop}
    (h : Serves P j v I J) : Serves (crmStep P rc) c v I J := by
  intro s hs
  obtain ⟨h1, h2⟩ := h s hs
  have e : (crmStep P rc).request c s = (P.request j s).map fun p => (.inl p.1, p.2) := by
    show (rc c).bind _ = _; rw [hc]; rfl
  have hb : ∀ {it : P.It} {s : σ} {v}, Behaves P J it s v → Behaves (crmStep P rc) J (.inl it) s v := by
    intro it s v hb
    have e : ∀ it s, (crmStep P rc).pull (.inl it) s = (P.pull it s).map fun p => (p.1, .inl p.2.1, p.2.2) := fun _ _ => rfl
    induction hb with
    | panic h => exact .panic (by rw [e, h]; rfl)
    | @done it s it' s' h hJ => exact .done (it' := .inl it') (s' := s') (by rw [e, h]; rfl) hJ
    | @skip it s it' s' v h _ ih => exact .skip (L := crmStep P rc) (it' := .inl it') (s' := s') (by rw [e, h]; rfl) ih
    | @item it s a it' s' v h _ ih => exact .item (L := crmStep P rc) (it' := .inl it') (s' := s') (by rw [e, h]; rfl) ih
  refine ⟨fun hn => h1 (Option.map_eq_none_iff.1 (e.symm.trans hn)), fun it s' hr => ?_⟩
  rw [e] at hr
  obtain ⟨p, h3, h4⟩ := Option.map_eq_some_iff.1 hr
  cases h4
  exact hb (h2 _ _ h3)

theorem crmCols_none {c : T} (hc : rc c = none) (n : ℕ) (s : σ) : (crmCols Dc rc n).request c s = none := by
  cases n with
  | zero => rfl
  | succ n => show (rc c).bind _ = _; rw [hc]; rfl

/-- The lazy column of the clearing matrix, for any stored columns (also ill-formed ones) and any recursion depth. -/
theorem crmCols_serves {D : Oracle CF T T} (hP : Pure Dc) {s0 : σ} (hD : ∀ c, Serves Dc c (D.column c) (· = s0) (· = s0)) (n : ℕ) :
    ∀ c, Serves (crmCols Dc rc n) c (crmColumn D rc n c) (· = s0) (· = s0) := by
  induction n with
  | zero => intro c s _; exact ⟨fun _ => rfl, fun it s' h => by cases h⟩
  | succ n ih =>
    intro c
    cases hc : rc c with
    | none =>
      intro s _
      refine ⟨fun _ => ?_, fun it s' h => by rw [crmCols_none hc] at h; cases h⟩
      simp only [crmColumn, hc, Option.bind_none]
    | some r =>
      cases r with
      | cleared j =>
        have e : crmColumn D rc (n + 1) c = prodColumn D ⟨crmColumn D rc n⟩ j := by simp only [crmColumn, hc, Option.bind_some]
        rw [e]
        exact crmStep_serves hc (flatMap_serves (A := fun _ => True) (scale := scaleTuple) (fun t _ => hD t.2) fun s hs => Serves.right (hP.crmCols n) (ih j) s hs)
      | reduced vec => exact Robust.serves (crm_right (A := fun _ => True) trivial hc (fun _ _ => trivial) _ (n + 1) Dc D)

end

section
variable [StdHeap] {σ CF T F : Type} [NonZeroCoeff CF] [LinearOrder F] [LinearOrder T] (D : FOracle CF T T F) (s0 : σ)

theorem Matches.plain : Matches (plain D : Matrix σ CF T F) D (fun _ => True) (fun _ s => s = s0) where
  anti _ _ _ _ h := h
  filt := rfl
  column c _ X := ofFun_serves _ _ _
  colF c _ X := ofFun_serves _ _ _

theorem plain_crm (rc : T → Option (RedCol CF T)) (n : ℕ) (c : T) : Serves (crmCols (plain D : Matrix σ CF T F).column rc n) c (crmColumn D.toOracle rc n c) (· = s0) (· = s0) :=
  crmCols_serves (Pure.ofFun _) (fun c => ofFun_serves _ _ _) n c

theorem plain_product (rc : T → Option (RedCol CF T)) (n : ℕ) (c : T) :
    Serves (productRef (plain D : Matrix σ CF T F) (crmCols (plain D : Matrix σ CF T F).column rc n)).colF c
      ((productF D.ref (crmMatrix D.toOracle rc n)).colF c) (· = s0) (· = s0) ∧
    Serves (productRef (plain D : Matrix σ CF T F) (crmCols (plain D : Matrix σ CF T F).column rc n)).column c
      ((productF D.ref (crmMatrix D.toOracle rc n)).column c) (· = s0) (· = s0) :=
  robust_product (Matches.plain D s0) (fun _ => False) fun s hs => Serves.right ((Pure.ofFun _).crmCols n) (plain_crm D s0 rc n c) s hs

variable {D s0}

theorem plain_clrReduce {rc : T → Option (RedCol CF T)} {depth : ℕ} {low : T → Option (T × CF)} (fuel : ℕ) :
    ∀ (r : BHCol F T CF) (vi : BHCol Unit T CF), Computes (clrReduce (plain D : Matrix σ CF T F) rc depth low fuel r vi) (Phlite.clrReduce D rc depth low fuel r vi) (· = s0) (· = s0) := by
  induction fuel with
  | zero => intro r vi; exact Computes.lift none _
  | succ fuel ih =>
    intro r vi
    unfold Lazy.clrReduce Phlite.clrReduce
    rcases BHCol.clonePivot r with ⟨_ | e, r1⟩
    · exact Computes.ret _ _
    · dsimp only
      rcases low e.row with _ | ⟨j, jc⟩
      · exact Computes.ret _ _
      · dsimp only
        refine Computes.bind (J := (· = s0)) ?_ fun re _ => Computes.bind (J := (· = s0)) ?_ fun ve _ => ih _ _
        · exact (plain_product D s0 rc depth j).1.collect
        · exact ((plain_crm D s0 rc depth j).mapItems _).collect

theorem plain_clrLoop {B : Basis T} {fuel : ℕ} (is : List ℕ) : ∀ p : CrmState CF T × (T → Option (T × CF)),
    Computes (clrLoop (plain D : Matrix σ CF T F) B fuel is p) (Phlite.clrLoop D B fuel is p) (· = s0) (· = s0) := by
  induction is with
  | nil => intro p; exact Computes.ret _ _
  | cons i is ih =>
    intro p
    refine (Computes.lift (B.element i) _).bind fun b _ => Computes.bind (J := (· = s0)) ?_ fun p' _ => ih p'
    unfold Lazy.clrColumn Phlite.clrColumn
    split
    · exact Computes.ret _ _
    · exact ((Matches.plain D s0).buildBhcol trivial fun _ => False).bind fun r0 _ => (plain_clrReduce fuel _ _).bind fun q _ => Computes.lift _ _

theorem plain_clrAll {B : SplitBasis T} {fuel : ℕ} (ds : List ℕ) : ∀ s : CrmState CF T,
    Computes (clrAll (plain D : Matrix σ CF T F) B fuel ds s) (Phlite.clrAll D B fuel ds s) (· = s0) (· = s0) := by
  induction ds with
  | nil => intro s; exact Computes.ret _ _
  | cons d ds ih =>
    intro s
    refine Computes.bind (J := (· = s0)) ?_ fun s' _ => ih s'
    exact (Computes.lift (B.inDim d) _).bind fun Bd _ => (plain_clrLoop _ _).map _

end
end Lazy
end Phlite
