/-
C72: combinations of cached matrices.
-/
import Verif.Proofs.LazyExprCache
import Verif.Props.Lazy

set_option linter.unusedSectionVars false
set_option linter.unusedSimpArgs false

namespace Phlite
open Lazy

section
variable [StdHeap] {ι CF T F : Type} [DecidableEq ι] [NonZeroCoeff CF] [LinearOrder T] {made : ι → Expr ι CF T}

/-- Nothing is borrowed. -/
def Lazy.Caches.Idle (s : Caches ι CF T) : Prop := ∀ i, (s i).borrowed = false

theorem idle_iff {s : Caches ι CF T} : s.Idle ↔ ∀ p, ¬ Live s p :=
  ⟨fun h p hp => not_borrowed.1 (h p.1) p.2 hp, fun h i => not_borrowed.2 fun k => h (i, k)⟩

/-- Newly made caches. -/
theorem C72_init (made : ι → Expr ι CF T) : Stored (fun i => (made i).matrix) (Caches.init (ι := ι) (CF := CF) (T := T)) ∧ (Caches.init (ι := ι) (CF := CF) (T := T)).Idle :=
  ⟨⟨by simp [Caches.init, CacheState.init], by simp [Caches.init, CacheState.init], by simp [Caches.init, CacheState.init]⟩, fun _ => rfl⟩

theorem collectAll_ofFun {σ Col α : Type} (f : Col → Option (List α)) (c : Col) (s : σ) : (Cols.ofFun f).collectAll c s = (f c).map fun l => (l, s) := by
  have hc := (ofFun_serves f c (fun s' => s' = s)).collect
  cases h : f c with
  | none =>
    cases hq : (Cols.ofFun f).collectAll c s with
    | none => rfl
    | some p =>
      obtain ⟨n, hn⟩ := collect_of_collectAll hq
      have := (hc.sound s rfl n p.1 p.2 hn).1
      rw [h] at this; cases this
  | some l =>
    obtain ⟨n, s', rfl, h2⟩ := hc.ok s rfl l h
    exact collectAll_of_collect (h2 n (le_refl _))

/-- One cache around a matrix without interior mutability behaves as the cache of C18, C19 and C69 (`WithCachedCols` of a plain matrix), on its part of the state. -/
theorem C72_one_cache (M : Oracle CF T T) (i : ι) (s : Caches ι CF T) :
    (∀ c, (Expr.cached i (.plain M)).cols.request c s = ((cachedCols M).request c (s i)).map fun p => (p.1, Function.update s i p.2)) ∧
    ∀ k : ℕ, (Expr.cached i (.plain M)).cols.pull k s = ((cachedCols M).pull k (s i)).map fun p => (p.1, p.2.1, Function.update s i p.2.2) := by
  refine ⟨fun c => ?_, fun k => ?_⟩
  · show (cacheAround i (Cols.ofFun M.column)).request c s = (((s i).request M c).map _).map _
    simp only [cacheAround, CacheState.request, collectAll_ofFun]
    cases (s i).cache c with
    | some l => rfl
    | none =>
      cases M.column c with
      | none => rfl
      | some l =>
        simp only [Option.map_some, Option.bind_some]
        split <;> rfl
  · show ((s i).iters[k]?).map _ = (((s i).iters[k]?).bind _).map _
    cases (s i).iters[k]? with
    | none => rfl
    | some it =>
      obtain ⟨_, _, _ | ⟨_ | _⟩, _, _⟩ := it <;> rfl

/-- C72 (never wrong). Take any expression built from matrices by `product`, `sum`, `consolidate` and `cache_cols`, in which the same cached matrix may occur several times, and any state of the caches, whatever
is stored and whatever is borrowed by other iterators. If reading a column lazily (with or without filtration values) ends normally, then the result is the column of the matrix the expression stands for, all
caches still hold columns of their matrices, each asked for once, and no borrow is left behind. -/
theorem C72_never_wrong {e : Expr ι CF T} (he : e.MadeBy made) {s : Caches ι CF T} (hs : Stored (fun i => (made i).matrix) s) (c : T) (n : ℕ) :
    (∀ l s', e.cols.collect c n s = some (l, s') → e.matrix.column c = some l ∧ Stored (fun i => (made i).matrix) s' ∧ ∀ i, (s' i).borrowed → (s i).borrowed) ∧
    ∀ (filt : T → Option F) es s', (e.colF filt).collect c n s = some (es, s') →
      (e.matrixF filt).colF c = some es ∧ Stored (fun i => (made i).matrix) s' ∧ ∀ i, (s' i).borrowed → (s i).borrowed := by
  have hb : ∀ {ment : Finset ι} {s' : Caches ι CF T}, Move ment ∅ s s' ∅ → ∀ i, (s' i).borrowed → (s i).borrowed := by
    intro ment s' h i hi
    by_contra hn
    rw [Bool.not_eq_true, not_borrowed] at hn
    rw [not_borrowed.2 fun k hk => ?_] at hi
    · cases hi
    · rcases h.live _ hk with ⟨h1, -⟩ | h1
      · exact hn k h1
      · exact h1
  refine ⟨fun l s' h => ?_, fun filt es s' h => ?_⟩
  · obtain ⟨C, -⟩ := Expr.contract made ∅ he
    obtain ⟨h1, h2, h3⟩ := C.collect_sound hs h
    exact ⟨h1, h2, hb h3⟩
  · obtain ⟨C, -⟩ := Expr.contractF filt made ∅ he
    obtain ⟨h1, h2, h3⟩ := C.collect_sound hs h
    exact ⟨h1, h2, hb h3⟩

theorem read_returns {α : Type} {L : Cols (Caches ι CF T) T α} {g : T → Option (List α)} {ment hold W : Finset ι} {p : Finset ι × Finset ι} {C : Contract (fun i => (made i).matrix) L g ment hold}
    (hC : C.Ok W p.1 p.2) {s : Caches ι CF T} (hs : Stored (fun i => (made i).matrix) s) (hw : Warm (fun i => (made i).matrix) W s) (hf : ∀ i ∈ p.1 ∪ p.2, (s i).borrowed = false)
    {c : T} {l : List α} (hl : g c = some l) :
    Lazy.Returns (L.collect c) s l fun s' => Stored (fun i => (made i).matrix) s' ∧ (∀ i, (s' i).borrowed → (s i).borrowed) ∧ ∀ i c l, (s i).cache c = some l → (s' i).cache c = some l := by
  obtain ⟨s', h⟩ := hC.collect hs hw hl fun p hp => not_borrowed.1 (hf p.1 hp) p.2
  obtain ⟨-, h2, h3⟩ := C.collect_sound hs h
  refine ⟨_, s', ⟨h2, fun i hi => ?_, h3.cache⟩, fun n hn => collect_mono h hn⟩
  by_contra hn
  rw [Bool.not_eq_true, not_borrowed] at hn
  rw [not_borrowed.2 fun k hk => ?_] at hi
  · cases hi
  · rcases h3.live _ hk with ⟨h1, -⟩ | h1
    · exact hn k h1
    · exact h1

/-- C72 (safe expressions). If the expression is safe (no cache has to be filled while an iterator of the same expression keeps it borrowed), and nobody else borrows the caches that may have to be filled, then reading
a column lazily, with or without filtration values, returns exactly when the column of the matrix itself is defined; no borrow is left behind and nothing is lost from the caches. The caches in `warm` need not be filled:
all their columns have been read before. -/
theorem C72_safe {e : Expr ι CF T} (he : e.MadeBy made) {warm : Finset ι} (hsafe : e.safe warm) {s : Caches ι CF T} (hs : Stored (fun i => (made i).matrix) s)
    (hw : Warm (fun i => (made i).matrix) warm s) (hf : ∀ i ∈ (e.fills warm).1 ∪ (e.fills warm).2, (s i).borrowed = false) (c : T) :
    ((∀ l, e.matrix.column c = some l → Lazy.Returns (e.cols.collect c) s l fun s' =>
        Stored (fun i => (made i).matrix) s' ∧ (∀ i, (s' i).borrowed → (s i).borrowed) ∧ ∀ i c l, (s i).cache c = some l → (s' i).cache c = some l) ∧
      (e.matrix.column c = none → Lazy.Fails (e.cols.collect c) s)) ∧
    ∀ filt : T → Option F, (∀ es, (e.matrixF filt).colF c = some es → Lazy.Returns ((e.colF filt).collect c) s es fun s' =>
        Stored (fun i => (made i).matrix) s' ∧ (∀ i, (s' i).borrowed → (s i).borrowed) ∧ ∀ i c l, (s i).cache c = some l → (s' i).cache c = some l) ∧
      ((e.matrixF filt).colF c = none → Lazy.Fails ((e.colF filt).collect c) s) := by
  refine ⟨⟨fun l hl => ?_, fun hn n => ?_⟩, fun filt => ⟨fun l hl => ?_, fun hn n => ?_⟩⟩
  · obtain ⟨C, hC⟩ := Expr.contract made warm he
    exact read_returns (hC hsafe) hs hw hf hl
  · cases h : e.cols.collect c n s with
    | none => rfl
    | some p =>
      have := ((C72_never_wrong (F := Unit) he hs c n).1 p.1 p.2 h).1
      rw [hn] at this; cases this
  · obtain ⟨C, hC⟩ := Expr.contractF filt made warm he
    exact read_returns (hC hsafe) hs hw hf hl
  · cases h : (e.colF filt).collect c n s with
    | none => rfl
    | some p =>
      have := ((C72_never_wrong he hs c n).2 filt p.1 p.2 h).1
      rw [hn] at this; cases this

/-- C72 (histories). Reading columns of any number of safe expressions over the same caches, one after the other and in any order, starting when nothing is borrowed: the values are the columns of the matrices themselves,
the run fails exactly if one of these is undefined, and at the end nothing is borrowed and each cached matrix has been asked at most once for each of its columns (`Stored.nodup`), since it was made. -/
theorem C72_reads {rs : List (Expr ι CF T × T)} (hrs : ∀ r ∈ rs, r.1.MadeBy made ∧ r.1.safe ∅) {s : Caches ι CF T} (hs : Stored (fun i => (made i).matrix) s) (hi : s.Idle) :
    (∀ ls, mapOpt (fun r : Expr ι CF T × T => r.1.matrix.column r.2) rs = some ls → Lazy.Returns (readAll rs) s ls fun s' => Stored (fun i => (made i).matrix) s' ∧ s'.Idle) ∧
    (mapOpt (fun r : Expr ι CF T × T => r.1.matrix.column r.2) rs = none → Lazy.Fails (readAll rs) s) := by
  refine Lazy.Computes.returns (I := fun s => Stored (fun i => (made i).matrix) s ∧ s.Idle) ?_ ⟨hs, hi⟩
  clear hs hi
  induction rs with
  | nil => exact Lazy.Computes.ret _ _
  | cons r rs ih =>
    obtain ⟨he, hsafe⟩ := hrs r (by simp)
    refine Lazy.Computes.bind (J := fun s => Stored (fun i => (made i).matrix) s ∧ s.Idle) (v := r.1.matrix.column r.2) ⟨?_, ?_⟩ fun l _ => (ih fun r hr => hrs r (by simp [hr])).map fun ls => l :: ls
    · rintro s ⟨hs, hi⟩ l hl
      obtain ⟨n0, s', ⟨h1, h2, -⟩, h3⟩ := (C72_safe (F := Unit) he hsafe hs (by intro i hi; simp at hi) (fun i _ => hi i) r.2).1.1 l hl
      refine ⟨n0, s', ⟨h1, fun i => ?_⟩, h3⟩
      by_contra hn
      have := h2 i (by simpa using hn)
      rw [hi i] at this; cases this
    · rintro s ⟨hs, hi⟩ n l s' h
      obtain ⟨h1, h2, h3⟩ := (C72_never_wrong (F := Unit) he hs r.2 n).1 l s' h
      refine ⟨h1, h2, fun i => ?_⟩
      by_contra hn
      have := h3 i (by simpa using hn)
      rw [hi i] at this; cases this

/-- C72 (warm caches). If all columns of all caches have been read before, every expression can be read, also one that is not safe, and whatever is borrowed. -/
theorem C72_warm {e : Expr ι CF T} (he : e.MadeBy made) {s : Caches ι CF T} (hs : Stored (fun i => (made i).matrix) s) (hw : Warm (fun i => (made i).matrix) e.mentions s) (c : T) :
    (∀ l, e.matrix.column c = some l → Lazy.Returns (e.cols.collect c) s l fun s' => Stored (fun i => (made i).matrix) s' ∧ ∀ i, (s' i).borrowed → (s i).borrowed) ∧
    (e.matrix.column c = none → Lazy.Fails (e.cols.collect c) s) := by
  have key : ∀ (W : Finset ι) (e : Expr ι CF T), e.mentions ⊆ W → e.safe W ∧ e.fills W = (∅, ∅) := by
    intro W e
    induction e with
    | plain M => intro _; exact ⟨trivial, rfl⟩
    | cached i e ih =>
      intro h
      have hi : i ∈ W := h (by simp [Expr.mentions])
      exact ⟨Or.inl hi, by simp [Expr.fills, hi]⟩
    | product l r ihl ihr =>
      intro h
      obtain ⟨h1, h2⟩ := ihl (Finset.subset_union_right.trans h)
      obtain ⟨h3, h4⟩ := ihr (Finset.subset_union_left.trans h)
      exact ⟨⟨h1, h3, by simp [h2]⟩, by simp [Expr.fills, h2, h4]⟩
    | sum l r ihl ihr =>
      intro h
      obtain ⟨h1, h2⟩ := ihl (Finset.subset_union_left.trans h)
      obtain ⟨h3, h4⟩ := ihr (Finset.subset_union_right.trans h)
      exact ⟨⟨h1, h3, by simp [h4], by simp [h2]⟩, by simp [Expr.fills, h2, h4]⟩
    | consolidate e ih =>
      intro h
      obtain ⟨h1, h2⟩ := ih h
      exact ⟨h1, by simp [Expr.fills, h2]⟩
  obtain ⟨h1, h2⟩ := key e.mentions e (le_refl _)
  obtain ⟨⟨h3, h4⟩, -⟩ := C72_safe (F := Unit) he h1 hs hw (by simp [h2]) c
  refine ⟨fun l hl => ?_, h4⟩
  obtain ⟨n0, s', ⟨h5, h6, -⟩, h7⟩ := h3 l hl
  exact ⟨n0, s', ⟨h5, h6⟩, h7⟩

/-! ### Clashes -/

theorem drain_panic {σ Col α : Type} {L : Cols σ Col α} {it : L.It} {s : σ} (h : L.pull it s = none) (n : ℕ) : L.drain n it s = none := by
  cases n with
  | zero => rfl
  | succ n => show (L.pull it s).bind _ = none; rw [h]; rfl

/-- A cached matrix whose cache is borrowed cannot be asked for a column that is not there. -/
theorem cached_request_clash {i : ι} {e : Expr ι CF T} (he : (Expr.cached i e).MadeBy made) {s : Caches ι CF T} (hs : Stored (fun i => (made i).matrix) s) {t : T} (ht : (s i).cache t = none)
    {k : ℕ} (hk : Live s (i, k)) : (Expr.cached i e).cols.request t s = none := by
  show (cacheAround i e.cols).request t s = none
  simp only [cacheAround, ht]
  rw [Option.bind_eq_none_iff]
  intro p hp
  obtain ⟨C, -⟩ := Expr.contract made ∅ he.2
  obtain ⟨-, -, h3⟩ := C.collectAll_sound hs hp
  have hi : i ∉ e.mentions := fun hi => by
    have := Expr.size_of_mentions he.2 i hi
    rw [← he.1] at this
    exact lt_irrefl _ this
  have : (p.2 i).borrowed = true := by
    rw [h3.same i hi]
    by_contra hn
    rw [Bool.not_eq_true, not_borrowed] at hn
    exact hn k hk
  simp [this]

/-- Requesting column `c` of a cached matrix: the iterator is alive, and no other column has been stored. -/
theorem cached_request_some {i : ι} {e : Expr ι CF T} (he : (Expr.cached i e).MadeBy made) {s : Caches ι CF T} (hs : Stored (fun i => (made i).matrix) s) {c : T} {q : ℕ × Caches ι CF T}
    (h : (Expr.cached i e).cols.request c s = some q) :
    Stored (fun i => (made i).matrix) q.2 ∧ (∃ it l, (q.2 i).iters[q.1]? = some it ∧ it.inner = some l ∧ e.matrix.column c = some l) ∧ ∀ t, t ≠ c → (q.2 i).cache t = (s i).cache t := by
  have hi : i ∉ e.mentions := fun hi => by
    have := Expr.size_of_mentions he.2 i hi
    rw [← he.1] at this
    exact lt_irrefl _ this
  obtain ⟨C, -⟩ := Expr.contract made ∅ he
  refine ⟨(C.request hs h).1, ?_⟩
  replace h : (cacheAround i e.cols).request c s = some q := h
  simp only [cacheAround] at h
  split at h
  · rename_i l hl
    cases h
    refine ⟨⟨⟨c, [], some l, false, false⟩, l, ?_, rfl, ?_⟩, fun t _ => ?_⟩
    · simp only [Function.update_self]; exact List.getElem?_concat_length
    · have := hs.stored i c l hl
      simp only [← he.1] at this
      exact this
    · simp only [Function.update_self]
  · obtain ⟨p, h1, h2⟩ := Option.bind_eq_some_iff.1 h
    obtain ⟨C', -⟩ := Expr.contract made ∅ he.2
    obtain ⟨h3, -, h5⟩ := C'.collectAll_sound hs h1
    split at h2
    · cases h2
    · cases h2
      refine ⟨⟨⟨c, [], some p.1, false, false⟩, p.1, ?_, rfl, h3⟩, fun t ht => ?_⟩
      · simp only [Function.update_self]; exact List.getElem?_concat_length
      · simp only [Function.update_self, mapInsert, if_neg ht]
        rw [h5.same i hi]

/-- C72 (clash in a product). A product of a cached matrix with itself cannot be read: if the first entry of the column is in another row `t` and column `t` is not in the cache yet, the read panics. -/
theorem C72_square_clash {i : ι} {e : Expr ι CF T} (he : (Expr.cached i e).MadeBy made) {s : Caches ι CF T} (hs : Stored (fun i => (made i).matrix) s) {c t : T} {k : CF} {rest : List (CF × T)}
    (hc : e.matrix.column c = some ((k, t) :: rest)) (htc : t ≠ c) (ht : (s i).cache t = none) :
    Lazy.Fails ((Expr.product (.cached i e) (.cached i e)).cols.collect c) s := by
  intro n
  show (((Expr.cached i e).cols.request c s).map _).bind _ = none
  cases hq : (Expr.cached i e).cols.request c s with
  | none => rfl
  | some q =>
    obtain ⟨h1, ⟨it, l, h2, h3, h4⟩, h5⟩ := cached_request_some he hs hq
    rw [hc] at h4; cases h4
    refine drain_panic ?_ n
    have hp : (Expr.cached i e).cols.pull q.1 q.2 = _ := cacheAround_pull (L := e.cols) h2
    have hn : it.next = (some (k, t), { it with inner := some rest, yielded := it.yielded ++ [(k, t)] }) := by unfold CacheIter.next; rw [h3]
    rw [hn] at hp
    obtain ⟨C, -⟩ := Expr.contract made ∅ he
    have hst := (C.item h1 (C.request hs hq).2.2 hp).1
    show ((Expr.cached i e).cols.pull q.1 q.2).bind _ = none
    rw [hp]
    show ((Expr.cached i e).cols.request t _).map _ = none
    rw [cached_request_clash he hst (k := q.1)]
    · rfl
    · simp only [Function.update_self]; rw [h5 t htc]; exact ht
    · refine ⟨{ it with inner := some rest, yielded := it.yielded ++ [(k, t)] }, ?_, rfl⟩
      simp only [Function.update_self]
      rw [getElem?_modify_self h2, hn]

/-- C72 (order of a sum). `sum(product(&C, X), &C)` panics when the first entry of the column of `X` is in a row `t ≠ c` whose column is not in the cache yet; `sum(&C, product(&C, X))` can always be read. -/
theorem C72_sum_order {i : ι} {e : Expr ι CF T} (he : (Expr.cached i e).MadeBy made) (hsafe : e.safe ∅) (X : Oracle CF T T) {s : Caches ι CF T} (hs : Stored (fun i => (made i).matrix) s) {c t : T}
    {k : CF} {rest : List (CF × T)} (hX : X.column c = some ((k, t) :: rest)) (htc : t ≠ c) (ht : (s i).cache t = none) :
    Lazy.Fails ((Expr.sum (.product (.cached i e) (.plain X)) (.cached i e)).cols.collect c) s ∧
    (s.Idle → ∀ l, (sumOracle e.matrix (product e.matrix X)).column c = some l →
      Lazy.Returns ((Expr.sum (.cached i e) (.product (.cached i e) (.plain X))).cols.collect c) s l fun s' => Stored (fun i => (made i).matrix) s' ∧ s'.Idle) := by
  refine ⟨fun n => ?_, fun hi l hl => ?_⟩
  · have hr : (Expr.product (.cached i e) (.plain X)).cols.request c s = some (((k, t) :: rest, none), s) := by
      show ((X.column c).map _).map _ = _
      rw [hX]; rfl
    show (((Expr.product (.cached i e) (.plain X)).cols.request c s).bind _).bind _ = none
    rw [hr]
    show (((Expr.cached i e).cols.request c s).map _).bind _ = none
    cases hq : (Expr.cached i e).cols.request c s with
    | none => rfl
    | some q =>
      obtain ⟨h1, ⟨it, l, h2, h3, h4⟩, h5⟩ := cached_request_some he hs hq
      refine drain_panic ?_ n
      show ((Option.map _ ((Expr.cached i e).cols.request t q.2))).map _ = none
      rw [cached_request_clash he h1 (k := q.1) (by rw [h5 t htc]; exact ht) ⟨it, h2, by rw [h3]; rfl⟩]
      rfl
  · have hm : (Expr.sum (.cached i e) (.product (.cached i e) (.plain X))).MadeBy made := ⟨he, he, trivial⟩
    have hsf : (Expr.sum (.cached i e) (.product (.cached i e) (.plain X))).safe ∅ := by
      simp [Expr.safe, Expr.fills, Expr.holds, hsafe]
    obtain ⟨n0, s', ⟨h1, h2, -⟩, h3⟩ := (C72_safe (F := Unit) hm hsf hs (by intro i hi; simp at hi) (fun i _ => hi i) c).1.1 l hl
    refine ⟨n0, s', ⟨h1, fun j => ?_⟩, h3⟩
    by_contra hn
    have := h2 j (by simpa using hn)
    rw [hi j] at this; cases this

/-- C72 (the check is not necessary). A cached matrix can be added to itself: when the column is requested for the second time, it is in the cache. -/
theorem C72_sum_same {i : ι} {e : Expr ι CF T} (he : (Expr.cached i e).MadeBy made) (hsafe : e.safe ∅) {s : Caches ι CF T} (hs : Stored (fun i => (made i).matrix) s) (hi : s.Idle) (c : T) :
    (∀ l, e.matrix.column c = some l → Lazy.Returns ((Expr.sum (.cached i e) (.cached i e)).cols.collect c) s (l ++ l) fun s' => Stored (fun i => (made i).matrix) s' ∧ s'.Idle) ∧
    (e.matrix.column c = none → Lazy.Fails ((Expr.sum (.cached i e) (.cached i e)).cols.collect c) s) := by
  have hwarm : ∀ s : Caches ι CF T, Warm (fun i => (made i).matrix) ∅ s := fun s i hi => by simp at hi
  refine ⟨fun l hl => ?_, fun hn n => ?_⟩
  · obtain ⟨C, hC⟩ := Expr.contract made ∅ he
    replace hC := hC (Or.inr hsafe)
    have hp2 : (Expr.fills ∅ (.cached i e)).2 = ∅ := by simp [Expr.fills]
    rw [hp2] at hC
    have hok : (C.chain C).Ok ∅ (Expr.fills ∅ (.cached i e)).1 ∅ := by
      refine ⟨?_, ?_⟩
      · intro c s l hs hw hg hl
        obtain ⟨l1, hg1, -⟩ := Option.bind_eq_some_iff.1 hg
        have h3 := hC.request hs hw hg1 hl
        show (((Expr.cached i e).cols.request c s).bind _).isSome
        cases hq : (Expr.cached i e).cols.request c s with
        | none => rw [hq] at h3; cases h3
        | some q =>
          show (((Expr.cached i e).cols.request c q.2).map _).isSome
          refine map_isSome ?_
          have hc : ((q.2 i).cache c).isSome := by
            replace hq : (cacheAround i e.cols).request c s = some q := hq
            simp only [cacheAround] at hq
            split at hq
            · rename_i l' hl'
              cases hq
              simp [hl']
            · obtain ⟨p, -, h2⟩ := Option.bind_eq_some_iff.1 hq
              split at h2
              · cases h2
              · cases h2
                simp [mapInsert]
          obtain ⟨l', hl'⟩ := Option.isSome_iff_exists.1 hc
          show ((cacheAround i e.cols).request c q.2).isSome
          simp only [cacheAround, hl']
          rfl
      · rintro ⟨_ | lit, rit⟩ s l n hs hw ho hl
        · show (((Expr.cached i e).cols.pull rit s).map _).isSome
          exact map_isSome (hC.pull hs hw ho (by simp))
        · obtain ⟨vl, nl, vr, nr, h4, h5, h6, h7, rfl⟩ := ho
          obtain ⟨l1, rfl, -⟩ := Option.bind_eq_some_iff.1 h7.symm
          show (((Expr.cached i e).cols.pull lit s).map _).isSome
          exact map_isSome (hC.pull hs hw h4 (by simp))
    obtain ⟨n0, s', ⟨h1, h2, -⟩, h3⟩ := read_returns (made := made) (p := ((Expr.fills ∅ (.cached i e)).1, ∅)) hok hs (hwarm s) (fun j _ => hi j) (c := c) (l := l ++ l)
      (by show chainVal (e.matrix.column c) (e.matrix.column c) = _; rw [hl]; rfl)
    refine ⟨n0, s', ⟨h1, fun j => ?_⟩, h3⟩
    by_contra hn
    have := h2 j (by simpa using hn)
    rw [hi j] at this; cases this
  · cases h : (Expr.sum (.cached i e) (.cached i e)).cols.collect c n s with
    | none => rfl
    | some p =>
      have := ((C72_never_wrong (F := Unit) (made := made) (e := .sum (.cached i e) (.cached i e)) ⟨he, he⟩ hs c n).1 p.1 p.2 h).1
      rw [show (Expr.sum (.cached i e) (.cached i e)).matrix.column c = none by show (e.matrix.column c).bind _ = none; rw [hn]; rfl] at this
      cases this

end

/-! ### The filled triangle -/
namespace Example

/-- The boundary matrix, cached twice: number 0 is the cached boundary, number 1 a cached product of the cached boundary with the boundary. -/
def madeE (i : ℕ) : Expr ℕ (ZP 3) ℕ := if i = 0 then .plain D.toOracle else .product (.cached 0 (.plain D.toOracle)) (.plain D.toOracle)

/-- The cached boundary. -/
def c0 : Expr ℕ (ZP 3) ℕ := .cached 0 (.plain D.toOracle)
/-- The cached product. -/
def c1 : Expr ℕ (ZP 3) ℕ := .cached 1 (.product c0 (.plain D.toOracle))

example : (Expr.sum c0 (.product c1 (.consolidate c0))).MadeBy madeE := by simp [Expr.MadeBy, c0, c1, madeE]

/-- Safe: a consolidated right factor holds nothing; different caches do not clash; a sum with the cached matrix first. -/
example : (Expr.product c0 (.consolidate c0)).safe ∅ ∧ (Expr.product c0 c1).safe ∅ ∧ (Expr.sum c0 (.product c0 (.plain D.toOracle))).safe ∅ ∧ (Expr.sum (.consolidate c1) (.product c0 (.consolidate c0))).safe ∅ := by
  decide +kernel

/-- Not safe: the square of a cached matrix, the sum in the other order, and a product whose left factor fills the cache that its right factor holds; all are safe if the caches are filled. -/
example : ¬ (Expr.product c0 c0).safe ∅ ∧ ¬ (Expr.sum (.product c0 (.plain D.toOracle)) c0).safe ∅ ∧ ¬ (Expr.product c1 c0).safe ∅ ∧ (Expr.product c1 c0).safe {0, 1} := by
  decide +kernel

/-- Column 6 of the boundary starts with an entry in row 3, so the square of the cached boundary panics on it (C72_square_clash), as does the sum with the cached matrix second (C72_sum_order) ... -/
example : letI := listHeap
    Lazy.Fails ((Expr.product c0 c0).cols.collect 6) Caches.init ∧ Lazy.Fails ((Expr.sum (.product c0 (.plain D.toOracle)) c0).cols.collect 6) Caches.init := by
  let _ := listHeap
  obtain ⟨k, t, rest, h, ht⟩ : ∃ k t rest, D.toOracle.column 6 = some ((k, t) :: rest) ∧ t ≠ 6 := by
    have h : ((D.toOracle.column 6).bind List.head?).map (fun p => decide (p.2 ≠ 6)) = some true := by decide +kernel
    obtain ⟨p, h1, h2⟩ := Option.map_eq_some_iff.1 h
    obtain ⟨l, h3, h4⟩ := Option.bind_eq_some_iff.1 h1
    cases l with
    | nil => cases h4
    | cons a l => cases h4; exact ⟨_, _, l, h3, of_decide_eq_true h2⟩
  have hm : c0.MadeBy madeE := by simp [Expr.MadeBy, c0, madeE]
  exact ⟨C72_square_clash hm (C72_init madeE).1 (h : (Expr.plain D.toOracle).matrix.column 6 = _) ht rfl, (C72_sum_order hm trivial D.toOracle (C72_init madeE).1 h ht rfl).1⟩

/-- ... but after consolidating the right factor it can be read, and is the zero chain, listed as cancelling entries (C72_safe). -/
example : letI := listHeap
    ∃ s', Stored (fun i => (madeE i).matrix) s' ∧ s'.Idle ∧ ∃ n, readAll [(.product c0 (.consolidate c0), 6), (c1, 6)] n Caches.init =
      some ([[(o, 2), (t, 1), (t, 2), (o, 0), (o, 1), (t, 0)], [(o, 2), (t, 1), (t, 2), (o, 0), (o, 1), (t, 0)]], s') := by
  let _ := listHeap
  have h := (C72_reads (made := madeE) (rs := [(.product c0 (.consolidate c0), 6), (c1, 6)]) (by
    intro r hr
    simp only [List.mem_cons, List.not_mem_nil, or_false] at hr
    rcases hr with rfl | rfl
    · exact ⟨by simp [Expr.MadeBy, c0, madeE], by decide +kernel⟩
    · exact ⟨by simp [Expr.MadeBy, c0, c1, madeE], by decide +kernel⟩) (C72_init madeE).1 (C72_init madeE).2).1 [[(o, 2), (t, 1), (t, 2), (o, 0), (o, 1), (t, 0)], [(o, 2), (t, 1), (t, 2), (o, 0), (o, 1), (t, 0)]] (by decide +kernel)
  obtain ⟨n0, s', ⟨h1, h2⟩, h3⟩ := h
  exact ⟨s', h1, h2, n0, h3 n0 (le_refl _)⟩

end Example
end Phlite
