/-
Lazy iterators yield what the eager model says: contracts for iterators and for programs that run them.
-/
import Verif.Model.Lazy
import Verif.Proofs.ClearingPanics
import Verif.Props.Cache

set_option linter.unusedSectionVars false
set_option linter.unusedSimpArgs false

namespace Phlite
namespace Lazy

section
variable {σ Col Mid α β γ : Type}

/-- The iterator `it` in the state `s`, left alone with the shared state, yields the list `l` and ends in a state satisfying `J` (`v = some l`), or panics at some point (`v = none`). -/
inductive Behaves (L : Cols σ Col α) (J : σ → Prop) : L.It → σ → Option (List α) → Prop
  | panic {it s} : L.pull it s = none → Behaves L J it s none
  | done {it s it' s'} : L.pull it s = some (.done, it', s') → J s' → Behaves L J it s (some [])
  | skip {it s it' s' v} : L.pull it s = some (.skip, it', s') → Behaves L J it' s' v → Behaves L J it s v
  | item {it s a it' s' v} : L.pull it s = some (.item a, it', s') → Behaves L J it' s' v → Behaves L J it s (v.map (a :: ·))

/-- Requesting column `c` in a state satisfying `I` and running the iterator. -/
def Serves (L : Cols σ Col α) (c : Col) (v : Option (List α)) (I J : σ → Prop) : Prop :=
  ∀ s, I s → (L.request c s = none → v = none) ∧ ∀ it s', L.request c s = some (it, s') → Behaves L J it s' v

/-- The iterator `it` yields the items of `v` (satisfying `A`) and keeps the invariant `H` of the shared state, also if the shared state is changed between its steps (keeping `H`). -/
inductive Robust (R : Cols σ Col α) (H : σ → Prop) (A : α → Prop) : R.It → Option (List α) → Prop
  | panic {it} : (∀ s, H s → R.pull it s = none) → Robust R H A it none
  | done {it} : (∀ s, H s → ∃ it' s', R.pull it s = some (.done, it', s') ∧ H s') → Robust R H A it (some [])
  | skip {it it' v} : (∀ s, H s → ∃ s', R.pull it s = some (.skip, it', s') ∧ H s') → Robust R H A it' v → Robust R H A it v
  | item {it a it' v} : A a → (∀ s, H s → ∃ s', R.pull it s = some (.item a, it', s') ∧ H s') → Robust R H A it' v → Robust R H A it (v.map (a :: ·))

theorem Robust.behaves {R : Cols σ Col α} {H : σ → Prop} {A : α → Prop} {it : R.It} {v : Option (List α)} (h : Robust R H A it v) :
    ∀ {s}, H s → Behaves R H it s v := by
  induction h with
  | panic h => exact fun hs => .panic (h _ hs)
  | done h => intro s hs; obtain ⟨it', s', h1, h2⟩ := h s hs; exact .done h1 h2
  | skip h _ ih => intro s hs; obtain ⟨s', h1, h2⟩ := h s hs; exact .skip h1 (ih h2)
  | item _ h _ ih => intro s hs; obtain ⟨s', h1, h2⟩ := h s hs; exact .item h1 (ih h2)

theorem Behaves.imp {L : Cols σ Col α} {J J' : σ → Prop} (hJ : ∀ s, J s → J' s) {it : L.It} {s : σ} {v : Option (List α)} (h : Behaves L J it s v) :
    Behaves L J' it s v := by
  induction h with
  | panic h => exact .panic h
  | done h1 h2 => exact .done h1 (hJ _ h2)
  | skip h _ ih => exact .skip h ih
  | item h _ ih => exact .item h ih

theorem Serves.imp {L : Cols σ Col α} {c : Col} {v : Option (List α)} {I I' J J' : σ → Prop} (h : Serves L c v I J) (hI : ∀ s, I' s → I s) (hJ : ∀ s, J s → J' s) :
    Serves L c v I' J' :=
  fun s hs => ⟨(h s (hI s hs)).1, fun it s' hr => ((h s (hI s hs)).2 it s' hr).imp hJ⟩

/-! ### Constructors -/

theorem ofFun_behaves (f : Col → Option (List α)) (J : σ → Prop) (l : List α) (s : σ) (hs : J s) : Behaves (Cols.ofFun f) J l s (some l) := by
  induction l with
  | nil => exact .done rfl hs
  | cons a l ih => exact .item (v := some l) rfl ih

theorem ofFun_robust (f : Col → Option (List α)) (H : σ → Prop) {A : α → Prop} (l : List α) (hA : ∀ a ∈ l, A a) : Robust (Cols.ofFun (σ := σ) f) H A l (some l) := by
  induction l with
  | nil => exact .done fun s hs => ⟨_, _, rfl, hs⟩
  | cons a l ih => exact .item (v := some l) (hA a (by simp)) (fun s hs => ⟨_, rfl, hs⟩) (ih fun b hb => hA b (by simp [hb]))

theorem ofFun_serves (f : Col → Option (List α)) (c : Col) (I : σ → Prop) : Serves (Cols.ofFun f) c (f c) I I := by
  intro s hs
  have hr : (Cols.ofFun (σ := σ) f).request c s = (f c).map fun l => (l, s) := rfl
  rw [hr]
  cases h : f c with
  | none => exact ⟨fun _ => rfl, fun it s' h => by cases h⟩
  | some l => exact ⟨fun h => (by cases h), fun it s' h => by cases h; exact ofFun_behaves f I l s hs⟩

theorem Behaves.mapItems {L : Cols σ Col α} {J : σ → Prop} (g : α → Option β) {it : L.It} {s : σ} {v : Option (List α)} (h : Behaves L J it s v) :
    Behaves (L.mapItems g) J it s (v.bind (mapOpt g)) := by
  induction h with
  | panic h => exact .panic (by show (L.pull _ _).bind _ = none; rw [h]; rfl)
  | done h1 h2 => exact .done (by show (L.pull _ _).bind _ = some (Pull.done, _, _); rw [h1]; rfl) h2
  | skip h _ ih => exact .skip (by show (L.pull _ _).bind _ = some (Pull.skip, _, _); rw [h]; rfl) ih
  | @item it s a it' s' v h _ ih =>
    have e : ((v.map (a :: ·)).bind (mapOpt g)) = (g a).bind fun b => (v.bind (mapOpt g)).map (b :: ·) := by
      cases v with
      | none => cases g a <;> rfl
      | some l => rfl
    rw [e]
    cases hg : g a with
    | none => exact .panic (by show (L.pull _ _).bind _ = none; rw [h]; show (g a).map _ = none; rw [hg]; rfl)
    | some b => exact .item (by show (L.pull _ _).bind _ = some (Pull.item b, _, _); rw [h]; show (g a).map _ = _; rw [hg]; rfl) ih

theorem Serves.mapItems {L : Cols σ Col α} {c : Col} {v : Option (List α)} {I J : σ → Prop} (h : Serves L c v I J) (g : α → Option β) :
    Serves (L.mapItems g) c (v.bind (mapOpt g)) I J :=
  fun s hs => ⟨fun hr => by rw [(h s hs).1 hr]; rfl, fun it s' hr => ((h s hs).2 it s' hr).mapItems g⟩

section
variable {CF : Type} {R : Cols σ Col (CF × Mid)} {L : Cols σ Mid α} {scale : CF → α → α} {H : σ → Prop} {A : CF × Mid → Prop}

theorem flatMap_inner {rit : R.It} {rest : Option (List α)} (hrest : ∀ s, H s → Behaves (R.flatMap L scale) H (rit, none) s rest) (k : CF)
    {lit : L.It} {s : σ} {w : Option (List α)} (h : Behaves L H lit s w) :
    Behaves (R.flatMap L scale) H (rit, some (k, lit)) s (w.bind fun x => rest.map (x.map (scale k) ++ ·)) := by
  induction h with
  | @panic it s h => exact .panic (by show (L.pull it s).map _ = none; rw [h]; rfl)
  | @done it s it' s' h1 h2 =>
    refine .skip (it' := (rit, none)) (s' := s') (by show (L.pull it s).map _ = _; rw [h1]; rfl) ?_
    have : ((some []).bind fun x : List α => rest.map (x.map (scale k) ++ ·)) = rest := by cases rest <;> rfl
    rw [this]
    exact hrest s' h2
  | @skip it s it' s' v h _ ih => exact .skip (it' := (rit, some (k, it'))) (s' := s') (by show (L.pull it s).map _ = _; rw [h]; rfl) ih
  | @item it s a it' s' v h _ ih =>
    have e : ((v.map (a :: ·)).bind fun x : List α => rest.map (x.map (scale k) ++ ·)) =
        (v.bind fun x : List α => rest.map (x.map (scale k) ++ ·)).map (scale k a :: ·) := by
      cases v with
      | none => rfl
      | some l => cases rest <;> rfl
    rw [e]
    exact .item (it' := (rit, some (k, it'))) (s' := s') (by show (L.pull it s).map _ = _; rw [h]; rfl) ih

theorem flatMap_behaves {g : Mid → Option (List α)} (hL : ∀ t, A t → Serves L t.2 (g t.2) H H) {rit : R.It} {v : Option (List (CF × Mid))} (h : Robust R H A rit v) :
    ∀ s, H s → Behaves (R.flatMap L scale) H (rit, none) s (v.bind (flatMapOpt fun t => (g t.2).map (List.map (scale t.1)))) := by
  induction h with
  | panic h => exact fun s hs => .panic (by show (R.pull _ _).bind _ = none; rw [h s hs]; rfl)
  | done h =>
    intro s hs
    obtain ⟨it', s', h1, h2⟩ := h s hs
    exact .done (it' := (it', none)) (s' := s') (by show (R.pull _ _).bind _ = _; rw [h1]; rfl) h2
  | @skip it it' v h _ ih =>
    intro s hs
    obtain ⟨s', h1, h2⟩ := h s hs
    exact .skip (it' := (it', none)) (s' := s') (by show (R.pull _ _).bind _ = _; rw [h1]; rfl) (ih s' h2)
  | @item it a it' v hA h _ ih =>
    intro s hs
    obtain ⟨s', h1, h2⟩ := h s hs
    have e : ((v.map (a :: ·)).bind (flatMapOpt fun t => (g t.2).map (List.map (scale t.1)))) =
        (g a.2).bind fun x => (v.bind (flatMapOpt fun t => (g t.2).map (List.map (scale t.1)))).map (x.map (scale a.1) ++ ·) := by
      cases v with
      | none => cases g a.2 <;> rfl
      | some l => cases hg : g a.2 <;> simp [flatMapOpt, hg]
    rw [e]
    have hp : (R.flatMap L scale).pull (it, none) s = (L.request a.2 s').map fun q => (.skip, (it', some (a.1, q.1)), q.2) := by
      show (R.pull _ _).bind _ = _; rw [h1]; rfl
    have hq := hL a hA s' h2
    cases hr : L.request a.2 s' with
    | none =>
      rw [hr] at hp
      rw [hq.1 hr]
      exact .panic hp
    | some q =>
      rw [hr] at hp
      exact .skip hp (flatMap_inner ih a.1 (hq.2 _ _ hr))

theorem flatMap_serves {g : Mid → Option (List α)} {c : Col} {v : Option (List (CF × Mid))} (hL : ∀ t, A t → Serves L t.2 (g t.2) H H)
    (hR : ∀ s, H s → (R.request c s = none → v = none) ∧ ∀ it s', R.request c s = some (it, s') → H s' ∧ Robust R H A it v) :
    Serves (R.flatMap L scale) c (v.bind (flatMapOpt fun t => (g t.2).map (List.map (scale t.1)))) H H := by
  intro s hs
  have := hR s hs
  have e : (R.flatMap L scale).request c s = (R.request c s).map fun p => ((p.1, none), p.2) := rfl
  refine ⟨fun h => ?_, fun it s' h => ?_⟩
  · rw [this.1 (Option.map_eq_none_iff.1 (e.symm.trans h))]; rfl
  · obtain ⟨p, h1, h2⟩ := Option.map_eq_some_iff.1 (e.symm.trans h)
    cases h2
    obtain ⟨h3, h4⟩ := this.2 p.1 p.2 h1
    exact flatMap_behaves hL h4 p.2 h3

end

/-! ### Programs -/

/-- The program `op`, started in a state satisfying `I`, returns exactly when `v` is a value, with that value, and leaves a state satisfying `J`. -/
structure Computes (op : LM σ β) (v : Option β) (I J : σ → Prop) : Prop where
  ok : ∀ s, I s → ∀ b, v = some b → ∃ n0 s', J s' ∧ ∀ n, n0 ≤ n → op n s = some (b, s')
  sound : ∀ s, I s → ∀ n b s', op n s = some (b, s') → v = some b ∧ J s'

theorem Computes.ret (b : β) (I : σ → Prop) : Computes (LM.ret b) (some b) I I where
  ok s hs b' hb := ⟨0, s, hs, fun n _ => by cases hb; rfl⟩
  sound s hs n b' s' h := by simp only [LM.ret, Option.some.injEq, Prod.mk.injEq] at h; obtain ⟨rfl, rfl⟩ := h; exact ⟨rfl, hs⟩

theorem Computes.lift (v : Option β) (I : σ → Prop) : Computes (LM.lift v) v I I where
  ok s hs b hb := ⟨0, s, hs, fun n _ => by subst hb; rfl⟩
  sound s hs n b s' h := by
    obtain ⟨b', h1, h2⟩ := Option.map_eq_some_iff.1 h
    cases h2
    exact ⟨h1, hs⟩

theorem Computes.bind {op : LM σ β} {v : Option β} {I J K : σ → Prop} (h : Computes op v I J) {k : β → LM σ γ} {w : β → Option γ}
    (hk : ∀ b, v = some b → Computes (k b) (w b) J K) : Computes (op.bind k) (v.bind w) I K where
  ok s hs c hc := by
    obtain ⟨b, h1, h2⟩ := Option.bind_eq_some_iff.1 hc
    obtain ⟨n1, s1, h3, h4⟩ := h.ok s hs b h1
    obtain ⟨n2, s2, h5, h6⟩ := (hk b h1).ok s1 h3 c h2
    refine ⟨max n1 n2, s2, h5, fun n hn => ?_⟩
    show (op n s).bind _ = _
    rw [h4 n (le_trans (le_max_left _ _) hn)]
    exact h6 n (le_trans (le_max_right _ _) hn)
  sound s hs n c s' hc := by
    obtain ⟨p, h1, h2⟩ := Option.bind_eq_some_iff.1 hc
    obtain ⟨h3, h4⟩ := h.sound s hs n p.1 p.2 h1
    obtain ⟨h5, h6⟩ := (hk p.1 h3).sound p.2 h4 n c s' h2
    exact ⟨by rw [h3]; exact h5, h6⟩

theorem Computes.map {op : LM σ β} {v : Option β} {I J : σ → Prop} (h : Computes op v I J) (f : β → γ) : Computes (op.map f) (v.map f) I J := by
  have := h.bind (k := fun b => LM.ret (f b)) (w := fun b => some (f b)) fun b _ => Computes.ret (f b) J
  rw [Option.map_eq_bind]
  exact this

theorem Computes.imp {op : LM σ β} {v : Option β} {I I' J J' : σ → Prop} (h : Computes op v I J) (hI : ∀ s, I' s → I s) (hJ : ∀ s, J s → J' s) : Computes op v I' J' where
  ok s hs b hb := by
    obtain ⟨n, s', h1, h2⟩ := h.ok s (hI s hs) b hb
    exact ⟨n, s', hJ _ h1, h2⟩
  sound s hs n b s' hb := by
    obtain ⟨h1, h2⟩ := h.sound s (hI s hs) n b s' hb
    exact ⟨h1, hJ _ h2⟩

theorem Computes.congr {op : LM σ β} {v w : Option β} {I J : σ → Prop} (h : Computes op v I J) (e : v = w) : Computes op w I J := e ▸ h

theorem Behaves.drain {L : Cols σ Col α} {J : σ → Prop} {it : L.It} {s : σ} {v : Option (List α)} (h : Behaves L J it s v) :
    ∀ l, v = some l → ∃ n0 s', J s' ∧ ∀ n, n0 ≤ n → L.drain n it s = some (l, s') := by
  induction h with
  | panic h => intro l hl; cases hl
  | @done it s it' s' h1 h2 =>
    intro l hl; cases hl
    refine ⟨1, s', h2, fun n hn => ?_⟩
    obtain ⟨m, rfl⟩ := Nat.exists_eq_add_of_le' hn
    show (L.pull it s).bind _ = _
    rw [h1]; rfl
  | @skip it s it' s' v h _ ih =>
    intro l hl
    obtain ⟨n0, s2, h3, h4⟩ := ih l hl
    refine ⟨n0 + 1, s2, h3, fun n hn => ?_⟩
    obtain ⟨m, rfl⟩ : ∃ m, n = m + 1 := ⟨n - 1, by omega⟩
    show (L.pull it s).bind _ = _
    rw [h]
    exact h4 m (by omega)
  | @item it s a it' s' v h _ ih =>
    intro l hl
    obtain ⟨l', rfl, rfl⟩ := Option.map_eq_some_iff.1 hl
    obtain ⟨n0, s2, h3, h4⟩ := ih l' rfl
    refine ⟨n0 + 1, s2, h3, fun n hn => ?_⟩
    obtain ⟨m, rfl⟩ : ∃ m, n = m + 1 := ⟨n - 1, by omega⟩
    show (L.pull it s).bind _ = _
    rw [h]
    show (L.drain m it' s').map _ = _
    rw [h4 m (by omega)]; rfl

theorem Behaves.drain_sound {L : Cols σ Col α} {J : σ → Prop} {it : L.It} {s : σ} {v : Option (List α)} (h : Behaves L J it s v) :
    ∀ n l s', L.drain n it s = some (l, s') → v = some l ∧ J s' := by
  induction h with
  | @panic it s h =>
    intro n l s' hd
    cases n with
    | zero => cases hd
    | succ n =>
      have hd' : (L.pull it s).bind _ = _ := hd
      rw [h] at hd'; cases hd'
  | @done it s it' s1 h1 h2 =>
    intro n l s' hd
    cases n with
    | zero => cases hd
    | succ n =>
      have hd' : (L.pull it s).bind _ = _ := hd
      rw [h1] at hd'; cases hd'
      exact ⟨rfl, h2⟩
  | @skip it s it' s1 v h _ ih =>
    intro n l s' hd
    cases n with
    | zero => cases hd
    | succ n =>
      have hd' : (L.pull it s).bind _ = _ := hd
      rw [h] at hd'
      exact ih n l s' hd'
  | @item it s a it' s1 v h _ ih =>
    intro n l s' hd
    cases n with
    | zero => cases hd
    | succ n =>
      have hd' : (L.pull it s).bind _ = _ := hd
      rw [h] at hd'
      obtain ⟨p, h3, h4⟩ := Option.map_eq_some_iff.1 (show (L.drain n it' s1).map _ = _ from hd')
      obtain ⟨h5, h6⟩ := ih n p.1 p.2 h3
      cases h4
      exact ⟨by rw [h5]; rfl, h6⟩

theorem Serves.collect {L : Cols σ Col α} {c : Col} {v : Option (List α)} {I J : σ → Prop} (h : Serves L c v I J) : Computes (L.collect c) v I J where
  ok s hs l hl := by
    have := h s hs
    cases hr : L.request c s with
    | none => rw [this.1 hr] at hl; cases hl
    | some p =>
      obtain ⟨n0, s', h1, h2⟩ := Behaves.drain (this.2 _ _ hr) l hl
      refine ⟨n0, s', h1, fun n hn => ?_⟩
      show (L.request c s).bind _ = _
      rw [hr]
      exact h2 n hn
  sound s hs n l s' hc := by
    have := h s hs
    obtain ⟨p, h1, h2⟩ := Option.bind_eq_some_iff.1 (show (L.request c s).bind _ = _ from hc)
    exact Behaves.drain_sound (this.2 _ _ h1) n l s' h2

end

/-! ### The cache -/

section
variable {CF Col Row : Type} [DecidableEq Col] {M : Oracle CF Col Row}

/-- Between two uses: no iterator is alive, the cache holds columns of `M`, the inner matrix was asked for each of them once, for all columns in `X` and for columns in `Y` only. -/
structure Idle (M : Oracle CF Col Row) (Y X : Col → Prop) (s : CacheState CF Col Row) : Prop where
  cached : ∀ c l, s.cache c = some l → M.column c = some l
  log : ∀ c, c ∈ s.log ↔ (s.cache c).isSome
  nodup : s.log.Nodup
  idle : ∀ it ∈ s.iters, it.inner = none
  lower : ∀ c, X c → c ∈ s.log
  upper : ∀ c ∈ s.log, Y c

theorem Idle.init (M : Oracle CF Col Row) (Y : Col → Prop) : Idle M Y (fun _ => False) CacheState.init :=
  ⟨by simp [CacheState.init], by simp [CacheState.init], by simp [CacheState.init], by simp [CacheState.init], by simp, by simp [CacheState.init]⟩

theorem cached_behaves {Y X : Col → Prop} (rest : List (CF × Row)) : ∀ {s : CacheState CF Col Row} {olds : List (CacheIter CF Col Row)} {it : CacheIter CF Col Row},
    s.iters = olds ++ [it] → it.inner = some rest → (∀ it ∈ olds, it.inner = none) → Idle M Y X { s with iters := [] } →
    Behaves (cachedCols M) (Idle M Y X) olds.length s (some rest) := by
  induction rest with
  | nil =>
    intro s olds it h1 h2 h3 h4
    have hp : (cachedCols M).pull olds.length s = some (.done, olds.length, { s with iters := olds ++ [{ it with inner := none, finished := true }] }) := by
      show ((s.iters[olds.length]?).bind fun it => _) = _
      rw [h1]
      simp only [List.getElem?_append_right (le_refl _), Nat.sub_self, List.getElem?_cons_zero, Option.bind_some, CacheState.step, Option.map_some, h1, modify_last]
      unfold CacheIter.next
      rw [h2]
    refine .done hp ⟨h4.cached, h4.log, h4.nodup, ?_, h4.lower, h4.upper⟩
    intro x hx
    rcases List.mem_append.1 hx with hx | hx
    · exact h3 x hx
    · rw [List.mem_singleton.1 hx]
  | cons x rest ih =>
    intro s olds it h1 h2 h3 h4
    have hp : (cachedCols M).pull olds.length s =
        some (.item x, olds.length, { s with iters := olds ++ [{ it with inner := some rest, yielded := it.yielded ++ [x] }] }) := by
      show ((s.iters[olds.length]?).bind fun it => _) = _
      rw [h1]
      simp only [List.getElem?_append_right (le_refl _), Nat.sub_self, List.getElem?_cons_zero, Option.bind_some, CacheState.step, Option.map_some, h1, modify_last]
      unfold CacheIter.next
      rw [h2]
    exact .item (v := some rest) hp (ih rfl rfl h3 h4)

theorem cached_serves {Y X : Col → Prop} {c : Col} (hY : Y c) : Serves (cachedCols M) c (M.column c) (Idle M Y X) (Idle M Y fun x => X x ∨ x = c) := by
  intro s hs
  have hb : s.borrowed = false := by
    unfold CacheState.borrowed
    rw [List.any_eq_false]
    intro it hit; rw [hs.idle it hit]; simp
  have e : (cachedCols M).request c s = (s.request M c).map fun s' => (s.iters.length, s') := rfl
  rw [e]
  unfold CacheState.request
  cases hc : s.cache c with
  | some l =>
    dsimp only [Option.map_some]
    rw [hs.cached c l hc]
    refine ⟨fun h => (by cases h), fun it s' h => ?_⟩
    cases h
    refine cached_behaves l (s := { s with iters := s.iters ++ [⟨c, [], some l, false, false⟩] }) rfl rfl hs.idle ⟨hs.cached, hs.log, hs.nodup, by simp, ?_, hs.upper⟩
    rintro x (hx | rfl)
    · exact hs.lower x hx
    · rw [hs.log, hc]; rfl
  | none =>
    dsimp only
    cases hM : M.column c with
    | none => exact ⟨fun _ => rfl, fun it s' h => by cases h⟩
    | some l =>
      simp only [Option.bind_some, hb, Bool.false_eq_true, if_false, Option.map_some]
      refine ⟨fun h => (by cases h), fun it s' h => ?_⟩
      cases h
      refine cached_behaves l rfl rfl hs.idle ⟨?_, ?_, ?_, by simp, ?_, ?_⟩
      · intro c' l' h
        dsimp only [mapInsert] at h
        split at h
        · rename_i e; cases h; rw [e]; exact hM
        · exact hs.cached c' l' h
      · intro c'
        dsimp only [mapInsert]
        split
        · rename_i e; simp [e]
        · rename_i e; simp [e, hs.log]
      · dsimp only
        rw [List.nodup_append]
        refine ⟨hs.nodup, by simp, ?_⟩
        intro a ha b hb' hab
        rw [List.mem_singleton] at hb'; subst hb'; subst hab
        rw [hs.log, hc] at ha; simp at ha
      · rintro x (hx | rfl)
        · exact List.mem_append_left _ (hs.lower x hx)
        · simp
      · intro x hx
        rcases List.mem_append.1 hx with hx | hx
        · exact hs.upper x hx
        · rw [List.mem_singleton.1 hx]; exact hY

end
end Lazy
end Phlite
