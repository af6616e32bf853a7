/-
Property theorems C11, C12 (column cache).
-/
import Verif.Proofs.Matrices

set_option linter.unusedSectionVars false

namespace Phlite
variable {CF Col Row : Type} [DecidableEq Col]

/-- What every iterator handed out by the cache satisfies. -/
structure IterOk (M : Oracle CF Col Row) (it : CacheIter CF Col Row) : Prop where
  prefix_ok : ∃ l, M.column it.col = some l ∧ it.yielded <+: l ∧ (it.finished = true → it.yielded = l) ∧
    (∀ rest, it.inner = some rest → it.yielded ++ rest = l)
  alive : it.inner = none ↔ (it.finished = true ∨ it.dropped = true)

/-- Invariant of the cache. -/
structure CacheInv (M : Oracle CF Col Row) (ops : List (CacheOp Col)) (s : CacheState CF Col Row) : Prop where
  cached : ∀ c l, s.cache c = some l → M.column c = some l
  asked : ∀ c, (s.cache c).isSome ↔ CacheOp.request c ∈ ops
  log : ∀ c, c ∈ s.log ↔ (s.cache c).isSome
  nodup : s.log.Nodup
  iters : ∀ it ∈ s.iters, IterOk M it

theorem IterOk.next {M : Oracle CF Col Row} {it : CacheIter CF Col Row} (h : IterOk M it) : IterOk M it.next.2 := by
  obtain ⟨⟨l, h1, h2, h3, h4⟩, h5⟩ := h
  unfold CacheIter.next
  split
  · exact ⟨⟨l, h1, h2, h3, h4⟩, h5⟩
  · rename_i hin
    have := h4 [] hin
    exact ⟨⟨l, h1, h2, fun _ => by simpa using this, by simp⟩, by simp⟩
  · rename_i x xs hin
    have hx := h4 (x :: xs) hin
    have hnf : ¬ (it.finished = true ∨ it.dropped = true) := fun h => by
      rw [← h5] at h; rw [h] at hin; cases hin
    refine ⟨⟨l, h1, ⟨xs, by simpa using hx⟩, fun hf => absurd (Or.inl hf) hnf, ?_⟩, ?_⟩
    · intro rest hr; simp only [Option.some.injEq] at hr; subst hr; simpa using hx
    · simp only [reduceCtorEq, false_iff]; exact hnf

theorem IterOk.dropIt {M : Oracle CF Col Row} {it : CacheIter CF Col Row} (h : IterOk M it) : IterOk M it.dropIt := by
  obtain ⟨⟨l, h1, h2, h3, h4⟩, h5⟩ := h
  exact ⟨⟨l, h1, h2, h3, by simp [CacheIter.dropIt]⟩, by simp [CacheIter.dropIt]⟩

theorem modify_mem {α : Type} {f : α → α} {l : List α} {i : Nat} {x : α} (h : x ∈ l.modify i f) :
    x ∈ l ∨ ∃ y ∈ l, x = f y := by
  induction l generalizing i with
  | nil => cases i <;> simp [List.modify] at h
  | cons a l ih =>
    cases i with
    | zero =>
      simp only [List.modify_zero_cons, List.mem_cons] at h
      rcases h with rfl | h
      · exact Or.inr ⟨a, by simp, rfl⟩
      · exact Or.inl (by simp [h])
    | succ i =>
      simp only [List.modify_succ_cons, List.mem_cons] at h
      rcases h with rfl | h
      · exact Or.inl (by simp)
      · rcases ih h with h | ⟨y, hy, rfl⟩
        · exact Or.inl (by simp [h])
        · exact Or.inr ⟨y, by simp [hy], rfl⟩

theorem modify_last {α : Type} (f : α → α) (l : List α) (x : α) : (l ++ [x]).modify l.length f = l ++ [f x] := by
  induction l with
  | nil => rfl
  | cons a l ih => simp only [List.cons_append, List.length_cons, List.modify_succ_cons, ih]

theorem CacheInv.init (M : Oracle CF Col Row) : CacheInv M [] CacheState.init :=
  ⟨by simp [CacheState.init], by simp [CacheState.init], by simp [CacheState.init], by simp [CacheState.init],
   by simp [CacheState.init]⟩

theorem CacheInv.step {M : Oracle CF Col Row} {ops : List (CacheOp Col)} {s s' : CacheState CF Col Row} {op : CacheOp Col}
    (h : CacheInv M ops s) (hs : s.step M op = some s') : CacheInv M (ops ++ [op]) s' := by
  have iter0 : ∀ c l, M.column c = some l → IterOk M (⟨c, [], some l, false, false⟩ : CacheIter CF Col Row) :=
    fun c l hl => ⟨⟨l, hl, by simp, by simp, by simp⟩, by simp⟩
  cases op with
  | request c =>
    simp only [CacheState.step, CacheState.request] at hs
    split at hs
    · rename_i l hl
      simp only [Option.some.injEq] at hs; subst hs
      refine ⟨h.cached, ?_, h.log, h.nodup, ?_⟩
      · intro c'
        rw [List.mem_append, h.asked, List.mem_singleton]
        constructor
        · exact Or.inl
        · rintro (h' | h')
          · exact h'
          · cases h'; rw [← h.asked, hl]; rfl
      · intro it hit
        rcases List.mem_append.1 hit with hit | hit
        · exact h.iters it hit
        · rw [List.mem_singleton.1 hit]; exact iter0 c l (h.cached c l hl)
    · rename_i hn
      simp only [Option.bind_eq_some_iff] at hs
      obtain ⟨l, hl, hs⟩ := hs
      split at hs
      · cases hs
      · simp only [Option.some.injEq] at hs; subst hs
        refine ⟨?_, ?_, ?_, ?_, ?_⟩
        · intro c' l' hc'
          simp only [mapInsert] at hc'
          split at hc'
          · rename_i he; cases hc'; rw [he]; exact hl
          · exact h.cached c' l' hc'
        · intro c'
          simp only [mapInsert, List.mem_append, List.mem_singleton]
          split
          · rename_i he; simp [he]
          · rename_i he
            rw [h.asked]
            simp [he]
        · intro c'
          simp only [mapInsert, List.mem_append, List.mem_singleton]
          split
          · rename_i he; simp [he]
          · rename_i he; simp [he, h.log]
        · rw [List.nodup_append]
          refine ⟨h.nodup, by simp, ?_⟩
          intro a ha b hb hab
          rw [List.mem_singleton] at hb; subst hb; subst hab
          rw [h.log, hn] at ha; simp at ha
        · intro it hit
          rcases List.mem_append.1 hit with hit | hit
          · exact h.iters it hit
          · rw [List.mem_singleton.1 hit]; exact iter0 c l hl
  | next i =>
    simp only [CacheState.step, Option.some.injEq] at hs; subst hs
    refine ⟨h.cached, by simp [h.asked], h.log, h.nodup, ?_⟩
    intro it hit
    rcases modify_mem hit with hit | ⟨y, hy, rfl⟩
    · exact h.iters it hit
    · exact (h.iters y hy).next
  | drop i =>
    simp only [CacheState.step, Option.some.injEq] at hs; subst hs
    refine ⟨h.cached, by simp [h.asked], h.log, h.nodup, ?_⟩
    intro it hit
    rcases modify_mem hit with hit | ⟨y, hy, rfl⟩
    · exact h.iters it hit
    · exact (h.iters y hy).dropIt

theorem CacheState.run_append (M : Oracle CF Col Row) (s : CacheState CF Col Row) (o₁ o₂ : List (CacheOp Col)) :
    s.run M (o₁ ++ o₂) = (s.run M o₁).bind fun s' => s'.run M o₂ := by
  induction o₁ generalizing s with
  | nil => rfl
  | cons o os ih =>
    simp only [List.cons_append, CacheState.run]
    cases s.step M o with
    | none => rfl
    | some s' => simp [ih]

theorem CacheInv.run {M : Oracle CF Col Row} {pre ops : List (CacheOp Col)} {s s' : CacheState CF Col Row}
    (h : CacheInv M pre s) (hs : s.run M ops = some s') : CacheInv M (pre ++ ops) s' := by
  induction ops generalizing pre s with
  | nil => simp only [CacheState.run, Option.some.injEq] at hs; subst hs; simpa using h
  | cons o os ih =>
    simp only [CacheState.run, Option.bind_eq_some_iff] at hs
    obtain ⟨s1, h1, h2⟩ := hs
    have := ih (h.step h1) h2
    simpa using this

/-- C11: after any history of requests, iterator steps and drops that does not panic, every iterator handed out (for column `col`)
has yielded a prefix of the inner oracle's column, and all of it once it has returned `None`; as long as it is alive its next item is
the next entry of that column; and the inner oracle has been asked for each column at most once. -/
theorem C11_cache_transparent (M : Oracle CF Col Row) (ops : List (CacheOp Col)) (s : CacheState CF Col Row)
    (hs : CacheState.init.run M ops = some s) :
    (∀ it ∈ s.iters, ∃ l, M.column it.col = some l ∧ it.yielded <+: l ∧ (it.finished = true → it.yielded = l) ∧
      (it.finished = false → it.dropped = false → it.next.1 = l[it.yielded.length]?)) ∧
    s.log.Nodup := by
  have h := (CacheInv.init M).run hs
  refine ⟨?_, h.nodup⟩
  intro it hit
  obtain ⟨⟨l, h1, h2, h3, h4⟩, h5⟩ := h.iters it hit
  refine ⟨l, h1, h2, h3, ?_⟩
  intro hf hd
  cases hin : it.inner with
  | none => rw [hin] at h5; simp [hf, hd] at h5
  | some rest =>
    have := h4 rest hin
    unfold CacheIter.next
    rw [← this]
    cases rest with
    | nil => simp [hin]
    | cons x xs => simp [hin]

/-- C11: the effect of each operation. A request hands out one new iterator, for the requested column and at its start; advancing an iterator makes that iterator yield
the next entry of its column, or finish at its end, and leaves the others alone; dropping an iterator only affects that iterator. Finished and dropped iterators
do not move. -/
theorem C11_cache_step (M : Oracle CF Col Row) (ops : List (CacheOp Col)) (s : CacheState CF Col Row) (hs : CacheState.init.run M ops = some s) :
    (∀ c s', s.step M (.request c) = some s' → ∃ it, s'.iters = s.iters ++ [it] ∧ it.col = c ∧ it.yielded = [] ∧ it.finished = false ∧ it.dropped = false) ∧
    (∀ i it, s.iters[i]? = some it → ∃ s' it' l, s.step M (.next i) = some s' ∧ s'.iters = s.iters.set i it' ∧ s'.log = s.log ∧
      M.column it.col = some l ∧ it'.col = it.col ∧ it'.dropped = it.dropped ∧
      (it.finished = true ∨ it.dropped = true → it' = it) ∧
      (it.finished = false → it.dropped = false → it'.yielded = l.take (it.yielded.length + 1) ∧ (it'.finished = true ↔ it.yielded = l))) ∧
    (∀ i it, s.iters[i]? = some it → ∃ s' it', s.step M (.drop i) = some s' ∧ s'.iters = s.iters.set i it' ∧ s'.log = s.log ∧
      it'.col = it.col ∧ it'.yielded = it.yielded ∧ it'.finished = it.finished ∧ it'.dropped = true) := by
  have h := (CacheInv.init M).run hs
  have hmod : ∀ (f : CacheIter CF Col Row → CacheIter CF Col Row) i it, s.iters[i]? = some it → s.iters.modify i f = s.iters.set i (f it) := by
    intro f i it hi
    obtain ⟨hlt, hget⟩ := List.getElem?_eq_some_iff.1 hi
    apply List.ext_getElem?
    intro j
    rw [List.getElem?_modify, List.getElem?_set]
    split <;> rename_i hij
    · subst hij; rw [hi]; first | rfl | (rw [if_pos hlt]; rfl)
    · simp
  refine ⟨fun c s' hs' => ?_, fun i it hi => ?_, fun i it hi => ⟨_, it.dropIt, rfl, hmod _ i it hi, rfl, rfl, rfl, rfl, rfl⟩⟩
  · simp only [CacheState.step, CacheState.request] at hs'
    split at hs'
    · cases hs'; exact ⟨_, rfl, rfl, rfl, rfl, rfl⟩
    · obtain ⟨l, -, hs'⟩ := Option.bind_eq_some_iff.1 hs'
      split at hs'
      · cases hs'
      · cases hs'; exact ⟨_, rfl, rfl, rfl, rfl, rfl⟩
  · obtain ⟨⟨l, h1, h2, h3, h4⟩, h5⟩ := h.iters it (List.mem_of_getElem? hi)
    refine ⟨_, it.next.2, l, rfl, hmod _ i it hi, rfl, h1, ?_⟩
    unfold CacheIter.next
    cases hin : it.inner with
    | none => exact ⟨rfl, rfl, fun _ => rfl, fun hf hd => by rw [hin] at h5; simp [hf, hd] at h5⟩
    | some rest =>
      have hnf : ¬ (it.finished = true ∨ it.dropped = true) := fun h => by rw [← h5, hin] at h; cases h
      have hl := h4 rest hin
      cases rest with
      | nil =>
        rw [List.append_nil] at hl
        refine ⟨rfl, rfl, fun h => absurd h hnf, fun _ _ => ⟨?_, by simp [hl]⟩⟩
        show it.yielded = _
        rw [← hl, List.take_of_length_le (Nat.le_succ _)]
      | cons x xs =>
        refine ⟨rfl, rfl, fun h => absurd h hnf, fun hf _ => ⟨?_, ?_⟩⟩
        · show it.yielded ++ [x] = _
          rw [← hl, List.take_append, List.take_of_length_le (Nat.le_succ _)]
          simp
        · show it.finished = true ↔ _
          rw [hf, ← hl]
          simp

/-- C11: the log really is what the inner oracle is asked for: a request consults the inner oracle (and is logged) exactly when
the column was never requested before; otherwise the cached copy is used. -/
theorem C11_cache_log (M : Oracle CF Col Row) (ops : List (CacheOp Col)) (s s' : CacheState CF Col Row) (c : Col)
    (hs : CacheState.init.run M ops = some s) (hs' : s.step M (.request c) = some s') :
    s'.log = (if CacheOp.request c ∈ ops then s.log else s.log ++ [c]) ∧
    (CacheOp.request c ∈ ops → ∀ M' : Oracle CF Col Row, s.step M' (.request c) = some s') := by
  have h := (CacheInv.init M).run hs
  simp only [List.nil_append] at h
  simp only [CacheState.step, CacheState.request] at hs' ⊢
  cases hc : s.cache c with
  | some l =>
    have hin : CacheOp.request c ∈ ops := by rw [← h.asked, hc]; rfl
    rw [hc] at hs'
    rw [if_pos hin]
    simp only [Option.some.injEq] at hs' ⊢; subst hs'
    exact ⟨rfl, fun _ _ => rfl⟩
  | none =>
    have hin : CacheOp.request c ∉ ops := by rw [← h.asked, hc]; simp
    rw [hc] at hs'
    rw [if_neg hin]
    simp only [Option.bind_eq_some_iff] at hs'
    obtain ⟨l, _, hs'⟩ := hs'
    split at hs'
    · cases hs'
    · cases hs'; exact ⟨rfl, fun h => absurd h hin⟩

/-- C12: requesting column `c` after a history `ops` panics exactly when `c` was never requested before and either the inner oracle
panics or some previously obtained iterator is still alive (neither dropped nor run until it returned `None`). -/
theorem C12_cache_panics (M : Oracle CF Col Row) (ops : List (CacheOp Col)) (s : CacheState CF Col Row) (c : Col)
    (hs : CacheState.init.run M ops = some s) :
    s.step M (.request c) = none ↔
      (CacheOp.request c ∉ ops ∧ (M.column c = none ∨ ∃ it ∈ s.iters, it.finished = false ∧ it.dropped = false)) := by
  have h := (CacheInv.init M).run hs
  simp only [List.nil_append] at h
  have hb : s.borrowed = true ↔ ∃ it ∈ s.iters, it.finished = false ∧ it.dropped = false := by
    unfold CacheState.borrowed
    rw [List.any_eq_true]
    constructor
    · rintro ⟨it, h1, h2⟩
      refine ⟨it, h1, ?_⟩
      have := (h.iters it h1).alive
      cases hin : it.inner with
      | none => rw [hin] at h2; cases h2
      | some l =>
        rw [hin] at this
        simpa using this
    · rintro ⟨it, h1, h2, h3⟩
      refine ⟨it, h1, ?_⟩
      have := (h.iters it h1).alive
      cases hin : it.inner with
      | none => rw [hin] at this; simp [h2, h3] at this
      | some l => rfl
  simp only [CacheState.step, CacheState.request]
  cases hc : s.cache c with
  | some l =>
    have : CacheOp.request c ∈ ops := by rw [← h.asked, hc]; rfl
    simp [this]
  | none =>
    have hn : CacheOp.request c ∉ ops := by rw [← h.asked, hc]; simp
    simp only [hn, not_false_iff, true_and, ← hb]
    cases M.column c with
    | none => simp
    | some l => cases hbb : s.borrowed <;> simp

/-- Requesting `c` as the `i`-th iterator, advancing it `k` times and dropping it. -/
def oneAtATime (i : Nat) : List (Col × Nat) → List (CacheOp Col)
  | [] => []
  | (c, k) :: rest => .request c :: (List.replicate k (.next i) ++ [.drop i]) ++ oneAtATime (i + 1) rest

/-- C12: requesting columns one after another (each iterator advanced any number of times and dropped before the next request)
never panics, provided the inner oracle does not. -/
theorem C12_sequential_ok (M : Oracle CF Col Row) (reqs : List (Col × Nat)) (hM : ∀ r ∈ reqs, M.column r.1 ≠ none) :
    CacheState.init.run M (oneAtATime 0 reqs) ≠ none := by
  suffices H : ∀ (reqs : List (Col × Nat)) (s : CacheState CF Col Row), (∀ r ∈ reqs, M.column r.1 ≠ none) →
      (∀ it ∈ s.iters, it.inner = none) → s.run M (oneAtATime s.iters.length reqs) ≠ none from
    H reqs CacheState.init hM (by simp [CacheState.init])
  clear hM reqs
  intro reqs
  induction reqs with
  | nil => intro s _ _; simp [oneAtATime, CacheState.run]
  | cons r reqs ih =>
    obtain ⟨c, k⟩ := r
    intro s hM hs
    have hb : s.borrowed = false := by
      unfold CacheState.borrowed
      rw [List.any_eq_false]
      intro it hit; rw [hs it hit]; simp
    have hreq : ∃ s1 it, s.step M (.request c) = some s1 ∧ s1.iters = s.iters ++ [it] := by
      simp only [CacheState.step, CacheState.request]
      cases s.cache c with
      | some l => exact ⟨_, _, rfl, rfl⟩
      | none =>
        obtain ⟨l, hl⟩ := Option.ne_none_iff_exists'.1 (hM (c, k) (by simp))
        simp only at hl
        refine ⟨_, ⟨c, [], some l, false, false⟩, by simp only [hl, Option.bind_some, hb]; rfl, rfl⟩
    obtain ⟨s1, it, h1, h2⟩ := hreq
    have hnext : ∀ (k : Nat) (t : CacheState CF Col Row) (it : CacheIter CF Col Row), t.iters = s.iters ++ [it] →
        ∃ t' it', t.run M (List.replicate k (.next s.iters.length)) = some t' ∧ t'.iters = s.iters ++ [it'] := by
      intro k
      induction k with
      | zero => intro t it ht; exact ⟨t, it, rfl, ht⟩
      | succ k ihk =>
        intro t it ht
        obtain ⟨t', it', h3, h4⟩ := ihk { t with iters := t.iters.modify s.iters.length fun it => it.next.2 } it.next.2
          (by simp only [ht]; rw [modify_last])
        exact ⟨t', it', by simp only [List.replicate_succ, CacheState.run, CacheState.step, Option.bind_some]; exact h3, h4⟩
    obtain ⟨t', it', h3, h4⟩ := hnext k s1 it h2
    simp only [oneAtATime, List.cons_append, CacheState.run, h1, Option.bind_some, List.append_assoc]
    rw [CacheState.run_append, h3]
    simp only [Option.bind_some, List.nil_append, CacheState.run, CacheState.step]
    have hi : t'.iters.modify s.iters.length CacheIter.dropIt = s.iters ++ [it'.dropIt] := by
      rw [h4, modify_last]
    have hl : s.iters.length + 1 = (t'.iters.modify s.iters.length CacheIter.dropIt).length := by
      rw [hi]; simp
    rw [hl]
    apply ih { t' with iters := t'.iters.modify s.iters.length CacheIter.dropIt }
      (fun r hr => hM r (List.mem_cons_of_mem _ hr))
    intro x hx
    simp only [hi] at hx
    rcases List.mem_append.1 hx with hx | hx
    · exact hs x hx
    · rw [List.mem_singleton.1 hx]; rfl

/-- C12: the access pattern of `product(&m, &m)` on a cached matrix `m` (request column `c`, take its first entry `(k, r)`,
request column `r` while the first iterator is alive) panics for every fresh cache as soon as `r ≠ c`. -/
theorem C12_product_with_itself_panics (M : Oracle CF Col Col) (c r : Col) (k : CF) (l : List (CF × Col))
    (h : M.column c = some ((k, r) :: l)) (hr : r ≠ c) :
    (∃ s, CacheState.init.run M [.request c, .next 0] = some s ∧ s.iters.map (·.yielded) = [[(k, r)]]) ∧
    CacheState.init.run M [.request c, .next 0, .request r] = none := by
  have e : CacheState.init.run M [.request c, .next 0] = some
      { cache := mapInsert (fun _ => none) c ((k, r) :: l), iters := [⟨c, [(k, r)], some l, false, false⟩], log := [c] } := by
    simp [CacheState.run, CacheState.step, CacheState.request, CacheState.init, h, CacheState.borrowed,
      CacheIter.next, List.modify]
  refine ⟨⟨_, e, rfl⟩, ?_⟩
  have e2 : ([.request c, .next 0, .request r] : List (CacheOp Col)) = [.request c, .next 0] ++ [.request r] := rfl
  rw [e2, CacheState.run_append, e]
  simp only [Option.bind_some, CacheState.run]
  rw [Option.bind_eq_none_iff]
  intro s' hs'
  exfalso
  have : CacheState.step M _ (.request r) = none := (C12_cache_panics M [.request c, .next 0] _ r e).2
    ⟨by simp [hr], Or.inr ⟨⟨c, [(k, r)], some l, false, false⟩, by simp, rfl, rfl⟩⟩
  rw [this] at hs'; cases hs'

/-- A concrete history without panic: both columns are requested, the first twice. -/
example : (CacheState.init.run (vecVecMatrix [[(Z2.one, 5)], [(Z2.one, 6)]])
    [.request 0, .next 0, .next 0, .request 1, .request 0, .next 2]).map (fun s => (s.log, s.iters.map (·.yielded)))
    = some ([0, 1], [[(Z2.one, 5)], [], [(Z2.one, 5)]]) := by decide

end Phlite
