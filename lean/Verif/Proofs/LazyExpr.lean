/-
Lazy iterators over shared caches: contracts with the cache borrows an iterator holds.
-/
import Verif.Model.LazyExpr
import Verif.Spec.LazyExpr
import Verif.Proofs.Columns
import Mathlib.Data.Finset.Lattice.Basic
import Mathlib.Data.Set.Disjoint
import Mathlib.Algebra.BigOperators.Group.List.Basic

set_option linter.unusedSectionVars false
set_option linter.unusedSimpArgs false

namespace Phlite
namespace Lazy

theorem map_isSome {α β : Type} {f : α → β} {o : Option α} (h : o.isSome) : (o.map f).isSome := by cases o with | none => cases h | some _ => rfl

/-! ### Running to the end -/

section
variable {σ Col α : Type}

theorem drain_mono {L : Cols σ Col α} {n : ℕ} : ∀ {it : L.It} {s : σ} {p : List α × σ}, L.drain n it s = some p → ∀ m, n ≤ m → L.drain m it s = some p := by
  induction n with
  | zero => intro it s p h; cases h
  | succ n ih =>
    intro it s p h m hm
    obtain ⟨m, rfl⟩ : ∃ k, m = k + 1 := ⟨m - 1, by omega⟩
    have h' : (L.pull it s).bind _ = some p := h
    show (L.pull it s).bind _ = some p
    cases hp : L.pull it s with
    | none => rw [hp] at h'; cases h'
    | some q =>
      rw [hp] at h'
      obtain ⟨x, it', s'⟩ := q
      cases x with
      | done => exact h'
      | skip => exact ih h' m (by omega)
      | item a =>
        obtain ⟨r, h1, h2⟩ := Option.map_eq_some_iff.1 (show (L.drain n it' s').map _ = _ from h')
        show (L.drain m it' s').map _ = _
        rw [ih h1 m (by omega)]
        exact congrArg some h2

theorem collect_mono {L : Cols σ Col α} {c : Col} {s : σ} {p : List α × σ} {n m : ℕ} (h : L.collect c n s = some p) (hm : n ≤ m) : L.collect c m s = some p := by
  obtain ⟨q, h1, h2⟩ := Option.bind_eq_some_iff.1 (show (L.request c s).bind _ = _ from h)
  show (L.request c s).bind _ = _
  rw [h1]
  exact drain_mono h2 m hm

theorem collectAll_of_collect {L : Cols σ Col α} {c : Col} {s : σ} {p : List α × σ} {n : ℕ} (h : L.collect c n s = some p) : L.collectAll c s = some p := by
  have hex : ∃ p n, L.collect c n s = some p := ⟨p, n, h⟩
  unfold Cols.collectAll
  rw [dif_pos hex]
  obtain ⟨m, hm⟩ := hex.choose_spec
  have h1 := collect_mono h (le_max_left n m)
  have h2 := collect_mono hm (le_max_right n m)
  rw [h1] at h2
  exact h2.symm

theorem collect_of_collectAll {L : Cols σ Col α} {c : Col} {s : σ} {p : List α × σ} (h : L.collectAll c s = some p) : ∃ n, L.collect c n s = some p := by
  unfold Cols.collectAll at h
  split at h
  · rename_i hex
    cases h
    exact hex.choose_spec
  · cases h

end

/-! ### Contracts -/

section
variable {ι CF T α β : Type} [DecidableEq ι] [DecidableEq T]

/-- The iterator number `p.2` of cache `p.1` exists. -/
def Old (s : Caches ι CF T) (p : ι × ℕ) : Prop := p.2 < (s p.1).iters.length

/-- A step of an iterator that owned the cache iterators in `G` and then owns those in `G'`. -/
structure Move (ment : Finset ι) (G : Set (ι × ℕ)) (s s' : Caches ι CF T) (G' : Set (ι × ℕ)) : Prop where
  same : ∀ i, i ∉ ment → s' i = s i
  len : ∀ i, (s i).iters.length ≤ (s' i).iters.length
  other : ∀ p, Old s p → p ∉ G → (s' p.1).iters[p.2]? = (s p.1).iters[p.2]?
  cache : ∀ i c l, (s i).cache c = some l → (s' i).cache c = some l
  live : ∀ p, Live s' p → (Live s p ∧ p ∉ G) ∨ p ∈ G'
  fresh : ∀ p ∈ G', p ∈ G ∨ ¬ Old s p

theorem Move.refl (ment : Finset ι) (G : Set (ι × ℕ)) (s : Caches ι CF T) : Move ment G s s G where
  same _ _ := rfl
  len _ := le_refl _
  other _ _ _ := rfl
  cache _ _ _ h := h
  live p h := by
    by_cases hp : p ∈ G
    · exact Or.inr hp
    · exact Or.inl ⟨h, hp⟩
  fresh p hp := Or.inl hp

theorem Old.mono {ment : Finset ι} {G G' : Set (ι × ℕ)} {s s' : Caches ι CF T} (h : Move ment G s s' G') {p : ι × ℕ} (hp : Old s p) : Old s' p :=
  lt_of_lt_of_le hp (h.len p.1)

theorem Move.trans {ment ment' ment'' : Finset ι} {G G' G'' : Set (ι × ℕ)} {s s' s'' : Caches ι CF T} (h : Move ment G s s' G') (h' : Move ment' G' s' s'' G'')
    (h1 : ment ⊆ ment'') (h2 : ment' ⊆ ment'') : Move ment'' G s s'' G'' where
  same i hi := (h'.same i fun hh => hi (h2 hh)).trans (h.same i fun hh => hi (h1 hh))
  len i := (h.len i).trans (h'.len i)
  other p hp hG := by
    have : p ∉ G' := fun hh => (h.fresh p hh).elim hG fun hn => hn hp
    rw [h'.other p (hp.mono h) this, h.other p hp hG]
  cache i c l hl := h'.cache i c l (h.cache i c l hl)
  live p hp := by
    rcases h'.live p hp with ⟨h3, h4⟩ | h3
    · rcases h.live p h3 with h5 | h5
      · exact Or.inl h5
      · exact absurd h5 h4
    · exact Or.inr h3
  fresh p hp := by
    rcases h'.fresh p hp with h3 | h3
    · exact h.fresh p h3
    · exact Or.inr fun ho => h3 (ho.mono h)

theorem Move.imp {ment ment' : Finset ι} {G G' : Set (ι × ℕ)} {s s' : Caches ι CF T} (h : Move ment G s s' G') (h1 : ment ⊆ ment') : Move ment' G s s' G' :=
  { h with same := fun i hi => h.same i fun hh => hi (h1 hh) }

/-- Another iterator owns the cache iterators in `R`. -/
theorem Move.frame {ment : Finset ι} {G G' R : Set (ι × ℕ)} {s s' : Caches ι CF T} (h : Move ment G s s' G') (hd : Disjoint G R) :
    Move ment (G ∪ R) s s' (G' ∪ R) where
  same := h.same
  len := h.len
  other p hp hG := h.other p hp fun hh => hG (Or.inl hh)
  cache := h.cache
  live p hp := by
    rcases h.live p hp with ⟨h1, h2⟩ | h1
    · by_cases hR : p ∈ R
      · exact Or.inr (Or.inr hR)
      · exact Or.inl ⟨h1, fun hh => hh.elim h2 hR⟩
    · exact Or.inr (Or.inl h1)
  fresh p hp := by
    rcases hp with hp | hp
    · exact (h.fresh p hp).imp Or.inl id
    · exact Or.inl (Or.inr hp)

theorem Move.disjoint {ment : Finset ι} {G G' R : Set (ι × ℕ)} {s s' : Caches ι CF T} (h : Move ment G s s' G') (hd : Disjoint G R) (hR : ∀ p ∈ R, Old s p) : Disjoint G' R := by
  rw [Set.disjoint_left] at hd ⊢
  intro p hp hpR
  rcases h.fresh p hp with h1 | h1
  · exact hd h1 hpR
  · exact h1 (hR p hpR)

/-- A family of iterators over shared caches yields the columns `g`. -/
structure Contract (M : ι → Oracle CF T T) (L : Cols (Caches ι CF T) T α) (g : T → Option (List α)) (ment hold : Finset ι) where
  /-- the cache iterators an iterator owns -/
  fp : L.It → Set (ι × ℕ)
  /-- the iterator is going to yield `v` in at most `n` steps -/
  Own : L.It → Caches ι CF T → Option (List α) → ℕ → Prop
  cost : T → ℕ
  frame : ∀ {it s s' v n}, Own it s v n → (∀ p ∈ fp it, (s' p.1).iters[p.2]? = (s p.1).iters[p.2]?) → Own it s' v n
  old : ∀ {it s v n p}, Own it s v n → p ∈ fp it → Old s p
  hold : ∀ {it s v n p}, Own it s v n → p ∈ fp it → p.1 ∈ hold
  request : ∀ {c s it s'}, Stored M s → L.request c s = some (it, s') → Stored M s' ∧ Move ment ∅ s s' (fp it) ∧ Own it s' (g c) (cost c)
  done : ∀ {it s v n it' s'}, Stored M s → Own it s v n → L.pull it s = some (.done, it', s') → Stored M s' ∧ Move ment (fp it) s s' ∅ ∧ v = some []
  skip : ∀ {it s v n it' s'}, Stored M s → Own it s v n → L.pull it s = some (.skip, it', s') →
    Stored M s' ∧ Move ment (fp it) s s' (fp it') ∧ ∃ n', Own it' s' v n' ∧ (v.isSome → n' < n)
  item : ∀ {it s v n a it' s'}, Stored M s → Own it s v n → L.pull it s = some (.item a, it', s') →
    Stored M s' ∧ Move ment (fp it) s s' (fp it') ∧ ∃ v' n', v = v'.map (a :: ·) ∧ Own it' s' v' n' ∧ (v.isSome → n' < n)

theorem Warm.move {M : ι → Oracle CF T T} {W : Finset ι} {s s' : Caches ι CF T} (h : Warm M W s) {ment : Finset ι} {G G' : Set (ι × ℕ)} (hm : Move ment G s s' G') : Warm M W s' :=
  fun i hi c l hl => hm.cache i c l (h i hi c l hl)

/-- No panic, if the columns of the caches in `W` have been read before and nobody else borrows the caches in `req` (at the request) and `pul` (at the steps). -/
structure Contract.Ok {M : ι → Oracle CF T T} {L : Cols (Caches ι CF T) T α} {g : T → Option (List α)} {ment hold : Finset ι} (C : Contract M L g ment hold) (W req pul : Finset ι) : Prop where
  request : ∀ {c s l}, Stored M s → Warm M W s → g c = some l → (∀ p, p.1 ∈ req → ¬ Live s p) → (L.request c s).isSome
  pull : ∀ {it s l n}, Stored M s → Warm M W s → C.Own it s (some l) n → (∀ p, p.1 ∈ pul → Live s p → p ∈ C.fp it) → (L.pull it s).isSome

section
variable {M : ι → Oracle CF T T} {L : Cols (Caches ι CF T) T α} {g : T → Option (List α)} {ment hold : Finset ι}

theorem Contract.drain_sound (C : Contract M L g ment hold) (m : ℕ) : ∀ {it : L.It} {s : Caches ι CF T} {v : Option (List α)} {n : ℕ} {l : List α} {s' : Caches ι CF T},
    Stored M s → C.Own it s v n → L.drain m it s = some (l, s') → v = some l ∧ Stored M s' ∧ Move ment (C.fp it) s s' ∅ := by
  induction m with
  | zero => intro it s v n l s' _ _ h; cases h
  | succ m ih =>
    intro it s v n l s' hs ho h
    have h' : (L.pull it s).bind _ = some (l, s') := h
    cases hp : L.pull it s with
    | none => rw [hp] at h'; cases h'
    | some q =>
      rw [hp] at h'
      obtain ⟨x, it', s1⟩ := q
      cases x with
      | done =>
        cases h'
        obtain ⟨h1, h2, h3⟩ := C.done hs ho hp
        exact ⟨h3, h1, h2⟩
      | skip =>
        obtain ⟨h1, h2, n', h3, -⟩ := C.skip hs ho hp
        obtain ⟨h4, h5, h6⟩ := ih h1 h3 h'
        exact ⟨h4, h5, h2.trans h6 (by rfl) (by rfl)⟩
      | item a =>
        obtain ⟨h1, h2, v', n', h3, h4, -⟩ := C.item hs ho hp
        obtain ⟨r, h5, h6⟩ := Option.map_eq_some_iff.1 (show (L.drain m it' s1).map _ = _ from h')
        cases h6
        obtain ⟨h7, h8, h9⟩ := ih h1 h4 h5
        exact ⟨by rw [h3, h7]; rfl, h8, h2.trans h9 (by rfl) (by rfl)⟩

theorem Contract.collect_sound (C : Contract M L g ment hold) {m : ℕ} {c : T} {s : Caches ι CF T} {l : List α} {s' : Caches ι CF T} (hs : Stored M s) (h : L.collect c m s = some (l, s')) :
    g c = some l ∧ Stored M s' ∧ Move ment ∅ s s' ∅ := by
  obtain ⟨q, h1, h2⟩ := Option.bind_eq_some_iff.1 (show (L.request c s).bind _ = _ from h)
  obtain ⟨h3, h4, h5⟩ := C.request hs h1
  obtain ⟨h6, h7, h8⟩ := C.drain_sound m h3 h5 h2
  exact ⟨h6, h7, h4.trans h8 (by rfl) (by rfl)⟩

variable {C : Contract M L g ment hold} {W req pul : Finset ι}

theorem Contract.Ok.drain (hC : C.Ok W req pul) (n : ℕ) : ∀ {it : L.It} {s : Caches ι CF T} {l : List α},
    Stored M s → Warm M W s → C.Own it s (some l) n → (∀ p, p.1 ∈ pul → Live s p → p ∈ C.fp it) → ∃ s', L.drain (n + 1) it s = some (l, s') := by
  induction n using Nat.strong_induction_on with
  | _ n ih =>
    intro it s l hs hw ho hl
    have hp := hC.pull hs hw ho hl
    cases hq : L.pull it s with
    | none => rw [hq] at hp; cases hp
    | some q =>
      obtain ⟨x, it', s1⟩ := q
      have hd : L.drain (n + 1) it s = (some (x, it', s1)).bind _ := (congrArg (Option.bind · _) hq : (L.pull it s).bind _ = _)
      rw [hd]
      have hlive : Move ment (C.fp it) s s1 (C.fp it') → ∀ p, p.1 ∈ pul → Live s1 p → p ∈ C.fp it' := by
        intro hm p hpp hlv
        rcases hm.live p hlv with ⟨h1, h2⟩ | h1
        · exact absurd (hl p hpp h1) h2
        · exact h1
      cases x with
      | done =>
        obtain ⟨h1, h2, h3⟩ := C.done hs ho hq
        cases h3
        exact ⟨s1, rfl⟩
      | skip =>
        obtain ⟨h1, h2, n', h3, h4⟩ := C.skip hs ho hq
        obtain ⟨s2, h5⟩ := ih n' (h4 rfl) h1 (hw.move h2) h3 (hlive h2)
        exact ⟨s2, drain_mono h5 n (h4 rfl)⟩
      | item a =>
        obtain ⟨h1, h2, v', n', h3, h4, h6⟩ := C.item hs ho hq
        obtain ⟨l', rfl, rfl⟩ := Option.map_eq_some_iff.1 h3.symm
        obtain ⟨s2, h5⟩ := ih n' (h6 rfl) h1 (hw.move h2) h4 (hlive h2)
        refine ⟨s2, ?_⟩
        show (L.drain n it' s1).map _ = _
        rw [drain_mono h5 n (h6 rfl)]; rfl

theorem Contract.Ok.collect (hC : C.Ok W req pul) {c : T} {s : Caches ι CF T} {l : List α} (hs : Stored M s) (hw : Warm M W s) (hg : g c = some l)
    (hl : ∀ p, p.1 ∈ req ∪ pul → ¬ Live s p) : ∃ s', L.collect c (C.cost c + 1) s = some (l, s') := by
  have hr := hC.request hs hw hg fun p hp => hl p (Finset.mem_union_left _ hp)
  cases hq : L.request c s with
  | none => rw [hq] at hr; cases hr
  | some q =>
    obtain ⟨h1, h2, h3⟩ := C.request hs hq
    rw [hg] at h3
    obtain ⟨s2, h4⟩ := hC.drain _ h1 (hw.move h2) h3 fun p hp hlv => by
      rcases h2.live p hlv with ⟨h5, -⟩ | h5
      · exact absurd h5 (hl p (Finset.mem_union_right _ hp))
      · exact h5
    refine ⟨s2, ?_⟩
    show (L.request c s).bind _ = _
    rw [hq]; exact h4

theorem Contract.collectAll_sound (C : Contract M L g ment hold) {c : T} {s : Caches ι CF T} {p : List α × Caches ι CF T} (hs : Stored M s) (h : L.collectAll c s = some p) :
    g c = some p.1 ∧ Stored M p.2 ∧ Move ment ∅ s p.2 ∅ := by
  obtain ⟨n, hn⟩ := collect_of_collectAll h
  exact C.collect_sound hs hn

theorem Contract.Ok.collectAll (hC : C.Ok W req pul) {c : T} {s : Caches ι CF T} {l : List α} (hs : Stored M s) (hw : Warm M W s) (hg : g c = some l)
    (hl : ∀ p, p.1 ∈ req ∪ pul → ¬ Live s p) : ∃ s', L.collectAll c s = some (l, s') := by
  obtain ⟨s', h⟩ := hC.collect hs hw hg hl
  exact ⟨s', collectAll_of_collect h⟩

end

/-! ### Matrices without interior mutability -/

section
variable {M : ι → Oracle CF T T}

def ofFunContract (M : ι → Oracle CF T T) (f : T → Option (List α)) : Contract M (Cols.ofFun f) f ∅ ∅ where
  fp _ := ∅
  Own l _ v n := v = some l ∧ n = List.length l
  cost c := ((f c).getD []).length
  frame h _ := h
  old _ h := h.elim
  hold _ h := h.elim
  request {c s it s'} hs h := by
    obtain ⟨l, h1, h2⟩ := Option.map_eq_some_iff.1 (show (f c).map _ = _ from h)
    cases h2
    exact ⟨hs, Move.refl _ _ _, h1, by rw [h1]; rfl⟩
  done {it s v n it' s'} hs ho h := by
    cases it with
    | nil => cases h; exact ⟨hs, Move.refl _ _ _, ho.1⟩
    | cons a l => cases h
  skip {it s v n it' s'} hs ho h := by
    cases it with
    | nil => cases h
    | cons a l => cases h
  item {it s v n a it' s'} hs ho h := by
    cases it with
    | nil => cases h
    | cons b l =>
      cases h
      exact ⟨hs, Move.refl _ _ _, some _, _, ho.1, ⟨rfl, rfl⟩, fun _ => by rw [ho.2]; exact Nat.lt_succ_self _⟩

theorem ofFunContract_ok (M : ι → Oracle CF T T) (f : T → Option (List α)) (W : Finset ι) : (ofFunContract M f).Ok W ∅ ∅ where
  request {c s l} _ _ hg _ := by show ((f c).map _).isSome; rw [hg]; rfl
  pull {it s l n} _ _ _ _ := by cases it <;> rfl

end

/-! ### Mapped items -/

section
variable {M : ι → Oracle CF T T} {L : Cols (Caches ι CF T) T α} {g : T → Option (List α)} {ment hold : Finset ι}

theorem mapItems_pull {L : Cols (Caches ι CF T) T α} {h : α → Option β} {it : L.It} {s : Caches ι CF T} {x : Pull β} {it' : L.It} {s' : Caches ι CF T}
    (hp : (L.mapItems h).pull it s = some (x, it', s')) :
    (x = .done ∧ L.pull it s = some (.done, it', s')) ∨ (x = .skip ∧ L.pull it s = some (.skip, it', s')) ∨ ∃ a b, x = .item b ∧ h a = some b ∧ L.pull it s = some (.item a, it', s') := by
  have hp' : (L.pull it s).bind _ = _ := hp
  cases hq : L.pull it s with
  | none => rw [hq] at hp'; cases hp'
  | some q =>
    rw [hq] at hp'
    obtain ⟨y, it1, s1⟩ := q
    cases y with
    | done => cases hp'; exact Or.inl ⟨rfl, rfl⟩
    | skip => cases hp'; exact Or.inr (Or.inl ⟨rfl, rfl⟩)
    | item a =>
      obtain ⟨b, h1, h2⟩ := Option.map_eq_some_iff.1 (show (h a).map _ = _ from hp')
      cases h2
      exact Or.inr (Or.inr ⟨a, b, rfl, h1, rfl⟩)

def Contract.mapItems (C : Contract M L g ment hold) (h : α → Option β) : Contract M (L.mapItems h) (fun c => (g c).bind (mapOpt h)) ment hold where
  fp := C.fp
  Own it s v n := ∃ w, C.Own it s w n ∧ v = w.bind (mapOpt h)
  cost := C.cost
  frame := fun ⟨w, h1, h2⟩ hf => ⟨w, C.frame h1 hf, h2⟩
  old := fun ⟨_, h1, _⟩ hp => C.old h1 hp
  hold := fun ⟨_, h1, _⟩ hp => C.hold h1 hp
  request hs hr := by
    obtain ⟨h1, h2, h3⟩ := C.request hs hr
    exact ⟨h1, h2, _, h3, rfl⟩
  done := by
    rintro it s v n it' s' hs ⟨w, ho, rfl⟩ hp
    rcases mapItems_pull hp with ⟨_, h1⟩ | ⟨h1, _⟩ | ⟨a, b, h1, _⟩
    · obtain ⟨h2, h3, h4⟩ := C.done hs ho h1
      exact ⟨h2, h3, by rw [h4]; rfl⟩
    · cases h1
    · cases h1
  skip := by
    rintro it s v n it' s' hs ⟨w, ho, rfl⟩ hp
    rcases mapItems_pull hp with ⟨h1, _⟩ | ⟨_, h1⟩ | ⟨a, b, h1, _⟩
    · cases h1
    · obtain ⟨h2, h3, n', h4, h5⟩ := C.skip hs ho h1
      refine ⟨h2, h3, n', ⟨w, h4, rfl⟩, fun hv => h5 ?_⟩
      cases w with
      | none => cases hv
      | some _ => rfl
    · cases h1
  item := by
    rintro it s v n b it' s' hs ⟨w, ho, rfl⟩ hp
    rcases mapItems_pull hp with ⟨h1, _⟩ | ⟨h1, _⟩ | ⟨a, b', h1, h2, h3⟩
    · cases h1
    · cases h1
    · cases h1
      obtain ⟨h4, h5, v', n', h6, h7, h8⟩ := C.item hs ho h3
      refine ⟨h4, h5, v'.bind (mapOpt h), n', ?_, ⟨v', h7, rfl⟩, fun hv => h8 ?_⟩
      · rw [h6]
        cases v' with
        | none => rfl
        | some l => show (h a).bind _ = _; rw [h2]; rfl
      · cases w with
        | none => cases hv
        | some _ => rfl

theorem Contract.Ok.mapItems {C : Contract M L g ment hold} {W req pul : Finset ι} (hC : C.Ok W req pul) (h : α → Option β) : (C.mapItems h).Ok W req pul where
  request {c s l} hs hw hg hl := by
    obtain ⟨l', h1, _⟩ := Option.bind_eq_some_iff.1 hg
    exact hC.request hs hw h1 hl
  pull {it s l n} hs hw ho hl := by
    obtain ⟨w, ho, he⟩ := ho
    obtain ⟨l', rfl, h1⟩ := Option.bind_eq_some_iff.1 he.symm
    have h2 := hC.pull hs hw ho hl
    show ((L.pull it s).bind _).isSome
    cases hq : L.pull it s with
    | none => rw [hq] at h2; cases h2
    | some q =>
      obtain ⟨x, it', s'⟩ := q
      cases x with
      | done => rfl
      | skip => rfl
      | item a =>
        obtain ⟨_, _, v', _, h6, _⟩ := C.item hs ho hq
        obtain ⟨l2, rfl, rfl⟩ := Option.map_eq_some_iff.1 h6.symm
        obtain ⟨b, h7, _⟩ := Option.bind_eq_some_iff.1 (show (h a).bind _ = _ from h1)
        show ((h a).map _).isSome
        rw [h7]; rfl

end

/-! ### Chains -/

section
variable {M : ι → Oracle CF T T} {L R : Cols (Caches ι CF T) T α} {g g' : T → Option (List α)} {ment hold ment' hold' : Finset ι}

theorem chain_pull_left {lit : L.It} {rit : R.It} {s : Caches ι CF T} {x : Pull α} {it' : Option L.It × R.It} {s' : Caches ι CF T} (h : (L.chain R).pull (some lit, rit) s = some (x, it', s')) :
    (∃ l', x = .skip ∧ it' = (none, rit) ∧ L.pull lit s = some (.done, l', s')) ∨ (∃ l', x = .skip ∧ it' = (some l', rit) ∧ L.pull lit s = some (.skip, l', s')) ∨
    ∃ a l', x = .item a ∧ it' = (some l', rit) ∧ L.pull lit s = some (.item a, l', s') := by
  have h' : (L.pull lit s).map _ = _ := h
  obtain ⟨q, h1, h2⟩ := Option.map_eq_some_iff.1 h'
  obtain ⟨y, l', s1⟩ := q
  cases y with
  | done => cases h2; exact Or.inl ⟨l', rfl, rfl, h1⟩
  | skip => cases h2; exact Or.inr (Or.inl ⟨l', rfl, rfl, h1⟩)
  | item a => cases h2; exact Or.inr (Or.inr ⟨a, l', rfl, rfl, h1⟩)

theorem chain_pull_right {rit : R.It} {s : Caches ι CF T} {x : Pull α} {it' : Option L.It × R.It} {s' : Caches ι CF T} (h : (L.chain R).pull (none, rit) s = some (x, it', s')) :
    ∃ r', it' = (none, r') ∧ R.pull rit s = some (x, r', s') := by
  have h' : (R.pull rit s).map _ = _ := h
  obtain ⟨q, h1, h2⟩ := Option.map_eq_some_iff.1 h'
  cases h2
  exact ⟨q.2.1, rfl, h1⟩

def chainVal (v w : Option (List α)) : Option (List α) := v.bind fun x => w.map (x ++ ·)

theorem chainVal_nil (w : Option (List α)) : chainVal (some []) w = w := by cases w <;> rfl

theorem chainVal_cons (a : α) (v w : Option (List α)) : chainVal (v.map (a :: ·)) w = (chainVal v w).map (a :: ·) := by
  cases v <;> cases w <;> rfl

theorem chainVal_isSome {v w : Option (List α)} (h : (chainVal v w).isSome) : v.isSome ∧ w.isSome := by
  cases v <;> cases w <;> simp_all [chainVal]

def chainFp (C : Contract M L g ment hold) (C' : Contract M R g' ment' hold') : (L.chain R).It → Set (ι × ℕ)
  | (some lit, rit) => C.fp lit ∪ C'.fp rit
  | (none, rit) => C'.fp rit

def chainOwn (C : Contract M L g ment hold) (C' : Contract M R g' ment' hold') : (L.chain R).It → Caches ι CF T → Option (List α) → ℕ → Prop
  | (some lit, rit), s, v, n => ∃ vl nl vr nr, C.Own lit s vl nl ∧ C'.Own rit s vr nr ∧ Disjoint (C.fp lit) (C'.fp rit) ∧ v = chainVal vl vr ∧ n = nl + 1 + nr
  | (none, rit), s, v, n => C'.Own rit s v n

def Contract.chain (C : Contract M L g ment hold) (C' : Contract M R g' ment' hold') : Contract M (L.chain R) (fun c => chainVal (g c) (g' c)) (ment ∪ ment') (hold ∪ hold') where
  fp := chainFp C C'
  Own := chainOwn C C'
  cost c := C.cost c + 1 + C'.cost c
  frame := by
    rintro ⟨_ | lit, rit⟩ s s' v n h hf
    · exact C'.frame h hf
    · obtain ⟨vl, nl, vr, nr, h1, h2, h3⟩ := h
      exact ⟨vl, nl, vr, nr, C.frame h1 fun p hp => hf p (Or.inl hp), C'.frame h2 fun p hp => hf p (Or.inr hp), h3⟩
  old := by
    rintro ⟨_ | lit, rit⟩ s v n p h hp
    · exact C'.old h hp
    · obtain ⟨vl, nl, vr, nr, h1, h2, h3⟩ := h
      exact hp.elim (C.old h1) (C'.old h2)
  hold := by
    rintro ⟨_ | lit, rit⟩ s v n p h hp
    · exact Finset.mem_union_right _ (C'.hold h hp)
    · obtain ⟨vl, nl, vr, nr, h1, h2, h3⟩ := h
      exact hp.elim (fun hp => Finset.mem_union_left _ (C.hold h1 hp)) fun hp => Finset.mem_union_right _ (C'.hold h2 hp)
  request {c s it s'} hs h := by
    obtain ⟨p, h1, h2⟩ := Option.bind_eq_some_iff.1 (show (L.request c s).bind _ = _ from h)
    obtain ⟨q, h3, h4⟩ := Option.map_eq_some_iff.1 h2
    cases h4
    obtain ⟨h5, h6, h7⟩ := C.request hs h1
    obtain ⟨h8, h9, h10⟩ := C'.request h5 h3
    have hold1 : ∀ p' ∈ C.fp p.1, Old p.2 p' := fun p' hp' => C.old h7 hp'
    have hf := (h9.frame (R := C.fp p.1) (Set.empty_disjoint _))
    rw [Set.empty_union] at hf
    refine ⟨h8, ?_, _, _, _, _, C.frame h7 fun p' hp' => h9.other p' (hold1 p' hp') (Set.notMem_empty _), h10, ?_, rfl, rfl⟩
    · have := h6.trans hf (Finset.subset_union_left (s₂ := ment')) Finset.subset_union_right
      show Move _ _ _ _ (C.fp p.1 ∪ C'.fp q.1)
      rw [Set.union_comm]; exact this
    · exact (h9.disjoint (Set.empty_disjoint _) hold1).symm
  done := by
    rintro ⟨_ | lit, rit⟩ s v n it' s' hs ho hp
    · obtain ⟨r', rfl, h1⟩ := chain_pull_right hp
      obtain ⟨h2, h3, h4⟩ := C'.done hs ho h1
      exact ⟨h2, h3.imp Finset.subset_union_right, h4⟩
    · rcases chain_pull_left hp with ⟨l', h, -⟩ | ⟨l', h, -⟩ | ⟨a, l', h, -⟩ <;> cases h
  skip := by
    rintro ⟨_ | lit, rit⟩ s v n it' s' hs ho hp
    · obtain ⟨r', rfl, h1⟩ := chain_pull_right hp
      obtain ⟨h2, h3, n', h4, h5⟩ := C'.skip hs ho h1
      exact ⟨h2, h3.imp Finset.subset_union_right, n', h4, h5⟩
    · obtain ⟨vl, nl, vr, nr, h1, h2, h3, rfl, rfl⟩ := ho
      have hR : ∀ p ∈ C'.fp rit, Old s p := fun p hp => C'.old h2 hp
      rcases chain_pull_left hp with ⟨l', -, rfl, h4⟩ | ⟨l', -, rfl, h4⟩ | ⟨a, l', h, -⟩
      · obtain ⟨h5, h6, rfl⟩ := C.done hs h1 h4
        have hf := (h6.frame h3).imp (Finset.subset_union_left (s₂ := ment'))
        rw [Set.empty_union] at hf
        refine ⟨h5, hf, nr, ?_, fun _ => by omega⟩
        rw [chainVal_nil]
        exact C'.frame h2 fun p hp => h6.other p (hR p hp) (Set.disjoint_right.1 h3 hp)
      · obtain ⟨h5, h6, n', h7, h8⟩ := C.skip hs h1 h4
        refine ⟨h5, (h6.frame h3).imp Finset.subset_union_left, n' + 1 + nr, ⟨vl, n', vr, nr, h7, ?_, h6.disjoint h3 hR, rfl, rfl⟩, fun hv => ?_⟩
        · exact C'.frame h2 fun p hp => h6.other p (hR p hp) (Set.disjoint_right.1 h3 hp)
        · have := h8 (chainVal_isSome hv).1; omega
      · cases h
  item := by
    rintro ⟨_ | lit, rit⟩ s v n a it' s' hs ho hp
    · obtain ⟨r', rfl, h1⟩ := chain_pull_right hp
      obtain ⟨h2, h3, h4⟩ := C'.item hs ho h1
      exact ⟨h2, h3.imp Finset.subset_union_right, h4⟩
    · obtain ⟨vl, nl, vr, nr, h1, h2, h3, rfl, rfl⟩ := ho
      have hR : ∀ p ∈ C'.fp rit, Old s p := fun p hp => C'.old h2 hp
      rcases chain_pull_left hp with ⟨l', h, -⟩ | ⟨l', h, -⟩ | ⟨b, l', h, rfl, h4⟩
      · cases h
      · cases h
      · cases h
        obtain ⟨h5, h6, v', n', rfl, h7, h8⟩ := C.item hs h1 h4
        refine ⟨h5, (h6.frame h3).imp Finset.subset_union_left, chainVal v' vr, n' + 1 + nr, chainVal_cons _ _ _, ⟨v', n', vr, nr, h7, ?_, h6.disjoint h3 hR, rfl, rfl⟩, fun hv => ?_⟩
        · exact C'.frame h2 fun p hp => h6.other p (hR p hp) (Set.disjoint_right.1 h3 hp)
        · have := h8 (chainVal_isSome hv).1; omega

theorem Contract.Ok.chain {C : Contract M L g ment hold} {C' : Contract M R g' ment' hold'} {W req pul req' pul' : Finset ι} (hC : C.Ok W req pul) (hC' : C'.Ok W req' pul')
    (h1 : Disjoint hold req') (h2 : Disjoint hold' pul) : (C.chain C').Ok W (req ∪ req') (pul ∪ pul') where
  request {c s l} hs hw hg hl := by
    obtain ⟨l1, hg1, hg2⟩ := Option.bind_eq_some_iff.1 hg
    obtain ⟨l2, hg2, -⟩ := Option.map_eq_some_iff.1 hg2
    have h3 := hC.request hs hw hg1 fun p hp => hl p (Finset.mem_union_left _ hp)
    show ((L.request c s).bind _).isSome
    cases hq : L.request c s with
    | none => rw [hq] at h3; cases h3
    | some q =>
      obtain ⟨h4, h5, h6⟩ := C.request hs hq
      have h7 := hC'.request h4 (hw.move h5) hg2 fun p hp hlv => by
        rcases h5.live p hlv with ⟨h8, -⟩ | h8
        · exact hl p (Finset.mem_union_right _ hp) h8
        · exact Finset.disjoint_left.1 h1 (C.hold h6 h8) hp
      show ((R.request c q.2).map _).isSome
      exact map_isSome h7
  pull := by
    rintro ⟨_ | lit, rit⟩ s l n hs hw ho hl
    · have h3 := hC'.pull hs hw ho fun p hp => hl p (Finset.mem_union_right _ hp)
      show ((R.pull rit s).map _).isSome
      exact map_isSome h3
    · obtain ⟨vl, nl, vr, nr, h4, h5, h6, h7, rfl⟩ := ho
      obtain ⟨l1, rfl, -⟩ := Option.bind_eq_some_iff.1 h7.symm
      have h3 := hC.pull hs hw h4 fun p hp hlv => by
        rcases hl p (Finset.mem_union_left _ hp) hlv with h8 | h8
        · exact h8
        · exact absurd hp (Finset.disjoint_left.1 h2 (C'.hold h5 h8))
      show ((L.pull lit s).map _).isSome
      exact map_isSome h3

end

/-! ### Products -/

section
variable {M : ι → Oracle CF T T} {R : Cols (Caches ι CF T) T (CF × T)} {L : Cols (Caches ι CF T) T α} {scale : CF → α → α}
variable {gR : T → Option (List (CF × T))} {gL : T → Option (List α)} {ment hold ment' hold' : Finset ι}

theorem flatMap_pull_some {rit : R.It} {k : CF} {lit : L.It} {s : Caches ι CF T} {x : Pull α} {it' : (R.flatMap L scale).It} {s' : Caches ι CF T}
    (h : (R.flatMap L scale).pull (rit, some (k, lit)) s = some (x, it', s')) :
    (∃ l', x = .skip ∧ it' = (rit, none) ∧ L.pull lit s = some (.done, l', s')) ∨ (∃ l', x = .skip ∧ it' = (rit, some (k, l')) ∧ L.pull lit s = some (.skip, l', s')) ∨
    ∃ a l', x = .item (scale k a) ∧ it' = (rit, some (k, l')) ∧ L.pull lit s = some (.item a, l', s') := by
  have h' : (L.pull lit s).map _ = _ := h
  obtain ⟨q, h1, h2⟩ := Option.map_eq_some_iff.1 h'
  obtain ⟨y, l', s1⟩ := q
  cases y with
  | done => cases h2; exact Or.inl ⟨l', rfl, rfl, h1⟩
  | skip => cases h2; exact Or.inr (Or.inl ⟨l', rfl, rfl, h1⟩)
  | item a => cases h2; exact Or.inr (Or.inr ⟨a, l', rfl, rfl, h1⟩)

theorem flatMap_pull_none {rit : R.It} {s : Caches ι CF T} {x : Pull α} {it' : (R.flatMap L scale).It} {s' : Caches ι CF T}
    (h : (R.flatMap L scale).pull (rit, none) s = some (x, it', s')) :
    (∃ r', x = .done ∧ it' = (r', none) ∧ R.pull rit s = some (.done, r', s')) ∨ (∃ r', x = .skip ∧ it' = (r', none) ∧ R.pull rit s = some (.skip, r', s')) ∨
    ∃ t r' s1 l', x = .skip ∧ it' = (r', some (t.1, l')) ∧ R.pull rit s = some (.item t, r', s1) ∧ L.request t.2 s1 = some (l', s') := by
  have h' : (R.pull rit s).bind _ = _ := h
  obtain ⟨q, h1, h2⟩ := Option.bind_eq_some_iff.1 h'
  obtain ⟨y, r', s1⟩ := q
  cases y with
  | done => cases h2; exact Or.inl ⟨r', rfl, rfl, h1⟩
  | skip => cases h2; exact Or.inr (Or.inl ⟨r', rfl, rfl, h1⟩)
  | item t =>
    obtain ⟨q, h3, h4⟩ := Option.map_eq_some_iff.1 (show (L.request t.2 s1).map _ = _ from h2)
    cases h4
    exact Or.inr (Or.inr ⟨t, r', s1, q.1, rfl, rfl, h1, h3⟩)

/-- What is still to come from a list of items of the right factor. -/
def prodVal (gL : T → Option (List α)) (scale : CF → α → α) (v : Option (List (CF × T))) : Option (List α) :=
  v.bind (flatMapOpt fun t => (gL t.2).map (List.map (scale t.1)))

theorem prodVal_cons (t : CF × T) (v : Option (List (CF × T))) :
    prodVal gL scale (v.map (t :: ·)) = chainVal ((gL t.2).map (List.map (scale t.1))) (prodVal gL scale v) := by
  cases v with
  | none => cases h : gL t.2 <;> simp [prodVal, chainVal, h]
  | some l => cases h : gL t.2 <;> simp [prodVal, chainVal, flatMapOpt, h]

def prodSteps (cost : T → ℕ) (v : Option (List (CF × T))) : ℕ := ((v.getD []).map fun t => cost t.2 + 1).sum

theorem prodSteps_cons (cost : T → ℕ) (t : CF × T) (l : List (CF × T)) : prodSteps cost (some (t :: l)) = cost t.2 + 1 + prodSteps cost (some l) := by
  simp [prodSteps]

variable (C : Contract M R gR ment hold) (C' : Contract M L gL ment' hold')

def prodFp : (R.flatMap L scale).It → Set (ι × ℕ)
  | (rit, some (_, lit)) => C'.fp lit ∪ C.fp rit
  | (rit, none) => C.fp rit

def prodOwn : (R.flatMap L scale).It → Caches ι CF T → Option (List α) → ℕ → Prop
  | (rit, some (k, lit)), s, v, n => ∃ vl nl vr nr, C'.Own lit s vl nl ∧ C.Own rit s vr nr ∧ Disjoint (C'.fp lit) (C.fp rit) ∧
      v = chainVal (vl.map (List.map (scale k))) (prodVal gL scale vr) ∧ n = nl + 1 + nr + prodSteps C'.cost vr
  | (rit, none), s, v, n => ∃ vr nr, C.Own rit s vr nr ∧ v = prodVal gL scale vr ∧ n = nr + prodSteps C'.cost vr

def Contract.flatMap : Contract M (R.flatMap L scale) (fun c => prodVal gL scale (gR c)) (ment ∪ ment') (hold ∪ hold') where
  fp := prodFp C C'
  Own := prodOwn C C'
  cost c := C.cost c + prodSteps C'.cost (gR c)
  frame := by
    rintro ⟨rit, _ | ⟨k, lit⟩⟩ s s' v n h hf
    · obtain ⟨vr, nr, h1, h2⟩ := h
      exact ⟨vr, nr, C.frame h1 hf, h2⟩
    · obtain ⟨vl, nl, vr, nr, h1, h2, h3⟩ := h
      exact ⟨vl, nl, vr, nr, C'.frame h1 fun p hp => hf p (Or.inl hp), C.frame h2 fun p hp => hf p (Or.inr hp), h3⟩
  old := by
    rintro ⟨rit, _ | ⟨k, lit⟩⟩ s v n p h hp
    · obtain ⟨vr, nr, h1, h2⟩ := h
      exact C.old h1 hp
    · obtain ⟨vl, nl, vr, nr, h1, h2, h3⟩ := h
      exact hp.elim (C'.old h1) (C.old h2)
  hold := by
    rintro ⟨rit, _ | ⟨k, lit⟩⟩ s v n p h hp
    · obtain ⟨vr, nr, h1, h2⟩ := h
      exact Finset.mem_union_left _ (C.hold h1 hp)
    · obtain ⟨vl, nl, vr, nr, h1, h2, h3⟩ := h
      exact hp.elim (fun hp => Finset.mem_union_right _ (C'.hold h1 hp)) fun hp => Finset.mem_union_left _ (C.hold h2 hp)
  request {c s it s'} hs h := by
    obtain ⟨q, h1, h2⟩ := Option.map_eq_some_iff.1 (show (R.request c s).map _ = _ from h)
    cases h2
    obtain ⟨h3, h4, h5⟩ := C.request hs h1
    exact ⟨h3, h4.imp Finset.subset_union_left, _, _, h5, rfl, rfl⟩
  done := by
    rintro ⟨rit, _ | ⟨k, lit⟩⟩ s v n it' s' hs ho hp
    · obtain ⟨vr, nr, h1, rfl, rfl⟩ := ho
      rcases flatMap_pull_none hp with ⟨r', -, rfl, h2⟩ | ⟨r', h, -⟩ | ⟨t, r', s1, l', h, -⟩
      · obtain ⟨h3, h4, rfl⟩ := C.done hs h1 h2
        exact ⟨h3, h4.imp Finset.subset_union_left, rfl⟩
      · cases h
      · cases h
    · rcases flatMap_pull_some hp with ⟨l', h, -⟩ | ⟨l', h, -⟩ | ⟨a, l', h, -⟩ <;> cases h
  skip := by
    rintro ⟨rit, _ | ⟨k, lit⟩⟩ s v n it' s' hs ho hp
    · obtain ⟨vr, nr, h1, rfl, rfl⟩ := ho
      rcases flatMap_pull_none hp with ⟨r', h, -⟩ | ⟨r', -, rfl, h2⟩ | ⟨t, r', s1, l', -, rfl, h2, h3⟩
      · cases h
      · obtain ⟨h3, h4, n', h5, h6⟩ := C.skip hs h1 h2
        refine ⟨h3, h4.imp Finset.subset_union_left, _, ⟨vr, n', h5, rfl, rfl⟩, fun hv => ?_⟩
        have : vr.isSome := by cases vr with | none => cases hv | some _ => rfl
        have := h6 this
        omega
      · obtain ⟨h4, h5, v', n', rfl, h6, h7⟩ := C.item hs h1 h2
        obtain ⟨h8, h9, h10⟩ := C'.request h4 h3
        have hR : ∀ p ∈ C.fp r', Old s1 p := fun p hp => C.old h6 hp
        have hf := h9.frame (R := C.fp r') (Set.empty_disjoint _)
        rw [Set.empty_union] at hf
        refine ⟨h8, h5.trans hf Finset.subset_union_left Finset.subset_union_right, _, ⟨_, _, v', n', h10, ?_, ?_, ?_, rfl⟩, fun hv => ?_⟩
        · exact C.frame h6 fun p hp => h9.other p (hR p hp) (Set.notMem_empty _)
        · exact h9.disjoint (Set.empty_disjoint _) hR
        · rw [prodVal_cons]
        · cases v' with
          | none => cases hv
          | some l =>
            have := h7 rfl
            rw [Option.map_some, prodSteps_cons]
            omega
    · obtain ⟨vl, nl, vr, nr, h1, h2, h3, rfl, rfl⟩ := ho
      have hR : ∀ p ∈ C.fp rit, Old s p := fun p hp => C.old h2 hp
      rcases flatMap_pull_some hp with ⟨l', -, rfl, h4⟩ | ⟨l', -, rfl, h4⟩ | ⟨a, l', h, -⟩
      · obtain ⟨h5, h6, rfl⟩ := C'.done hs h1 h4
        have hf := (h6.frame h3).imp (Finset.subset_union_right (s₁ := ment))
        rw [Set.empty_union] at hf
        refine ⟨h5, hf, _, ⟨vr, nr, ?_, ?_, rfl⟩, fun _ => by omega⟩
        · exact C.frame h2 fun p hp => h6.other p (hR p hp) (Set.disjoint_right.1 h3 hp)
        · exact chainVal_nil _
      · obtain ⟨h5, h6, n', h7, h8⟩ := C'.skip hs h1 h4
        refine ⟨h5, (h6.frame h3).imp Finset.subset_union_right, _, ⟨vl, n', vr, nr, h7, ?_, h6.disjoint h3 hR, rfl, rfl⟩, fun hv => ?_⟩
        · exact C.frame h2 fun p hp => h6.other p (hR p hp) (Set.disjoint_right.1 h3 hp)
        · have := h8 (by simpa using (chainVal_isSome hv).1)
          omega
      · cases h
  item := by
    rintro ⟨rit, _ | ⟨k, lit⟩⟩ s v n a it' s' hs ho hp
    · rcases flatMap_pull_none hp with ⟨r', h, -⟩ | ⟨r', h, -⟩ | ⟨t, r', s1, l', h, -⟩ <;> cases h
    · obtain ⟨vl, nl, vr, nr, h1, h2, h3, rfl, rfl⟩ := ho
      have hR : ∀ p ∈ C.fp rit, Old s p := fun p hp => C.old h2 hp
      rcases flatMap_pull_some hp with ⟨l', h, -⟩ | ⟨l', h, -⟩ | ⟨b, l', h, rfl, h4⟩
      · cases h
      · cases h
      · cases h
        obtain ⟨h5, h6, v', n', rfl, h7, h8⟩ := C'.item hs h1 h4
        refine ⟨h5, (h6.frame h3).imp Finset.subset_union_right, chainVal (v'.map (List.map (scale k))) (prodVal gL scale vr), _, ?_,
          ⟨v', n', vr, nr, h7, ?_, h6.disjoint h3 hR, rfl, rfl⟩, fun hv => ?_⟩
        · rw [← chainVal_cons]
          cases v' <;> rfl
        · exact C.frame h2 fun p hp => h6.other p (hR p hp) (Set.disjoint_right.1 h3 hp)
        · have := h8 (by simpa using (chainVal_isSome hv).1)
          omega

variable {C C'}

theorem Contract.Ok.flatMap {W req pul req' pul' : Finset ι} (hC : C.Ok W req pul) (hC' : C'.Ok W req' pul') (hd : Disjoint hold (req' ∪ pul')) :
    (C.flatMap C' (scale := scale)).Ok W req (pul ∪ (req' ∪ pul')) where
  request {c s l} hs hw hg hl := by
    obtain ⟨l1, hg1, -⟩ := Option.bind_eq_some_iff.1 hg
    have h3 := hC.request hs hw hg1 hl
    show ((R.request c s).map _).isSome
    exact map_isSome h3
  pull := by
    rintro ⟨rit, _ | ⟨k, lit⟩⟩ s l n hs hw ho hl
    · obtain ⟨vr, nr, h1, h2, rfl⟩ := ho
      obtain ⟨lr, rfl, h2'⟩ := Option.bind_eq_some_iff.1 h2.symm
      have h3 := hC.pull hs hw h1 fun p hp hlv => hl p (Finset.mem_union_left _ hp) hlv
      show ((R.pull rit s).bind _).isSome
      cases hq : R.pull rit s with
      | none => rw [hq] at h3; cases h3
      | some q =>
        obtain ⟨x, r', s1⟩ := q
        cases x with
        | done => rfl
        | skip => rfl
        | item t =>
          obtain ⟨h4, h5, v', n', h6, h7, -⟩ := C.item hs h1 hq
          obtain ⟨l', rfl, rfl⟩ := Option.map_eq_some_iff.1 h6.symm
          obtain ⟨x, h8, -⟩ := Option.bind_eq_some_iff.1 (show (Option.map (List.map (scale t.1)) (gL t.2)).bind _ = some l from h2')
          obtain ⟨lx, h8, -⟩ := Option.map_eq_some_iff.1 h8
          have h9 := hC'.request h4 (hw.move h5) h8 fun p hp hlv => by
            have hpn : p.1 ∉ hold := fun hh => Finset.disjoint_left.1 hd hh (Finset.mem_union_left _ hp)
            rcases h5.live p hlv with ⟨h10, h11⟩ | h10
            · exact h11 (hl p (Finset.mem_union_right _ (Finset.mem_union_left _ hp)) h10)
            · exact hpn (C.hold h7 h10)
          show ((L.request t.2 s1).map _).isSome
          exact map_isSome h9
    · obtain ⟨vl, nl, vr, nr, h4, h5, h6, h7, rfl⟩ := ho
      obtain ⟨l1, h8, -⟩ := Option.bind_eq_some_iff.1 h7.symm
      obtain ⟨l2, rfl, -⟩ := Option.map_eq_some_iff.1 h8
      have h3 := hC'.pull hs hw h4 fun p hp hlv => by
        rcases hl p (Finset.mem_union_right _ (Finset.mem_union_right _ hp)) hlv with h8 | h8
        · exact h8
        · exact absurd (Finset.mem_union_right _ hp) (Finset.disjoint_left.1 hd (C.hold h5 h8))
      show ((L.pull lit s).map _).isSome
      exact map_isSome h3

end
end
end Lazy
end Phlite
