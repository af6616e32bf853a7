/-
Contracts for consolidated and cached matrices, and for expressions.
-/
import Verif.Proofs.LazyExpr
import Verif.Proofs.Matrices

set_option linter.unusedSectionVars false
set_option linter.unusedSimpArgs false

namespace Phlite
namespace Lazy

section
variable {ι CF T : Type} [DecidableEq ι]

/-! ### Consolidated matrices -/

section
variable [StdHeap] [LinearOrder T] [NonZeroCoeff CF]

theorem consolidate_column (g : T → Option (List (CF × T))) (c : T) :
    (Oracle.mk g).consolidate.column c = (g c).bind fun l =>
      (BHCol.toSortedVec ((BHCol.empty : BHCol Unit T CF).addEntries (l.map fun t => Entry.ofTuple (t.1, t.2, ())))).map fun es => es.map fun e => (e.coeff, e.row) := by
  show (((g c).bind (mapOpt fun t => some (Entry.ofTuple (t.1, t.2, ())))).map _).bind _ = _
  cases g c with
  | none => rfl
  | some l => simp only [Option.bind_some, mapOpt_some]; rfl

theorem drainFuel_isSome (n : ℕ) : ∀ (h : BHCol Unit T CF), (StdHeap.bag h).card < n → ∃ p, BHCol.drainFuel n h = some p := by
  induction n with
  | zero => intro h hn; omega
  | succ n ih =>
    intro h hn
    unfold BHCol.drainFuel
    split
    · exact ⟨_, rfl⟩
    · rename_i e h' hp
      have hcard := BHCol.popPivot_card (fun _ => ()) (fun _ _ => rfl) hp (by simp)
      obtain ⟨p, hp⟩ := ih h' (by omega)
      exact ⟨_, by rw [hp]; rfl⟩

theorem drainFuel_succ (n : ℕ) (h : BHCol Unit T CF) : BHCol.drainFuel (n + 1) h =
    match BHCol.popPivot h with
    | (none, h') => some ([], h')
    | (some e, h') => (BHCol.drainFuel n h').map fun p => (e :: p.1, p.2) := by
  rw [BHCol.drainFuel]
  rcases BHCol.popPivot h with ⟨_ | _, _⟩ <;> rfl

def consolidateContract {M : ι → Oracle CF T T} {L : Cols (Caches ι CF T) T (CF × T)} {g : T → Option (List (CF × T))} {ment hold : Finset ι} (C : Contract M L g ment hold) :
    Contract M (consolidateCols L) (Oracle.mk g).consolidate.column ment ∅ where
  fp _ := ∅
  Own h _ v n := ∃ p : List (Entry Unit T CF) × BHCol Unit T CF, BHCol.drainFuel n h = some p ∧ v = some (p.1.map fun e => (e.coeff, e.row))
  cost c := ((g c).getD []).length + 1
  frame h _ := h
  old _ h := h.elim
  hold _ h := h.elim
  request {c s it s'} hs h := by
    obtain ⟨q, h1, h2⟩ := Option.map_eq_some_iff.1 (show (L.collectAll c s).map _ = _ from h)
    cases h2
    obtain ⟨h3, h4, h5⟩ := C.collectAll_sound hs h1
    refine ⟨h4, h5, ?_⟩
    rw [consolidate_column, h3]
    have hcard : (StdHeap.bag ((BHCol.empty : BHCol Unit T CF).addEntries (q.1.map fun t => Entry.ofTuple (t.1, t.2, ())))).card = q.1.length := by
      rw [BHCol.bag_addEntries]
      simp [BHCol.empty, StdHeap.bag_empty]
    obtain ⟨p, hp⟩ := drainFuel_isSome (q.1.length + 1) ((BHCol.empty : BHCol Unit T CF).addEntries (q.1.map fun t => Entry.ofTuple (t.1, t.2, ()))) (by omega)
    refine ⟨p, hp, ?_⟩
    simp only [Option.bind_some, BHCol.toSortedVec, hcard, hp, Option.map_some]
  done {it s v n it' s'} hs ho h := by
    obtain ⟨p, h1, rfl⟩ := ho
    cases n with
    | zero => cases h1
    | succ n =>
      replace h1 := (drainFuel_succ n it).symm.trans h1
      simp only [consolidateCols] at h
      split at h
      · rename_i heq
        rw [heq] at h1
        cases h; cases h1
        exact ⟨hs, (Move.refl _ _ _), rfl⟩
      · cases h
  skip {it s v n it' s'} hs ho h := by
    simp only [consolidateCols] at h
    split at h <;> cases h
  item {it s v n a it' s'} hs ho h := by
    obtain ⟨p, h1, rfl⟩ := ho
    cases n with
    | zero => cases h1
    | succ n =>
      replace h1 := (drainFuel_succ n it).symm.trans h1
      simp only [consolidateCols] at h
      split at h
      · cases h
      · rename_i e h' heq
        rw [heq] at h1
        obtain ⟨q, h2, h3⟩ := Option.map_eq_some_iff.1 h1
        cases h; cases h3
        exact ⟨hs, Move.refl _ _ _, _, n, rfl, ⟨q, h2, rfl⟩, fun _ => Nat.lt_succ_self n⟩

theorem consolidateContract_ok {M : ι → Oracle CF T T} {L : Cols (Caches ι CF T) T (CF × T)} {g : T → Option (List (CF × T))} {ment hold : Finset ι} {C : Contract M L g ment hold}
    {W req pul : Finset ι} (hC : C.Ok W req pul) : (consolidateContract C).Ok W (req ∪ pul) ∅ where
  request {c s l} hs hw hg hl := by
    rw [consolidate_column] at hg
    obtain ⟨l', h1, -⟩ := Option.bind_eq_some_iff.1 hg
    obtain ⟨s', h2⟩ := hC.collectAll hs hw h1 hl
    show ((L.collectAll c s).map _).isSome
    rw [h2]; rfl
  pull {it s l n} hs hw ho hl := by
    simp only [consolidateCols]
    split <;> rfl

end

/-! ### Cached matrices -/

section
variable [DecidableEq T]

theorem live_update_ne {s : Caches ι CF T} {i : ι} {t : CacheState CF T T} {p : ι × ℕ} (h : p.1 ≠ i) : Live (Function.update s i t) p ↔ Live s p := by
  unfold Live; rw [Function.update_of_ne h]

theorem not_borrowed {s : Caches ι CF T} {i : ι} : (s i).borrowed = false ↔ ∀ k, ¬ Live s (i, k) := by
  unfold CacheState.borrowed Live
  rw [List.any_eq_false]
  constructor
  · rintro h k ⟨it, h1, h2⟩
    exact h it (List.mem_of_getElem? h1) h2
  · intro h it hit h2
    obtain ⟨k, hk⟩ := List.mem_iff_getElem?.1 hit
    exact h k ⟨it, hk, h2⟩

/-- Handing out a new iterator (and possibly storing a column). -/
theorem move_push {s : Caches ι CF T} {i : ι} {cache : T → Option (List (CF × T))} {log : List T} {it : CacheIter CF T T} (hc : ∀ c l, (s i).cache c = some l → cache c = some l) :
    Move {i} ∅ s (Function.update s i ⟨cache, (s i).iters ++ [it], log⟩) {(i, (s i).iters.length)} where
  same j hj := Function.update_of_ne (by simpa using hj) _ _
  len j := by
    by_cases h : j = i
    · subst h; simp
    · rw [Function.update_of_ne h]
  other p hp _ := by
    by_cases h : p.1 = i
    · rw [h, Function.update_self]
      unfold Old at hp
      rw [h] at hp
      exact List.getElem?_append_left hp
    · rw [Function.update_of_ne h]
  cache j c l hl := by
    by_cases h : j = i
    · subst h; rw [Function.update_self]; exact hc c l hl
    · rw [Function.update_of_ne h]; exact hl
  live p hp := by
    by_cases h : p.1 = i
    · obtain ⟨x, h1, h2⟩ := hp
      rw [h, Function.update_self] at h1
      have h1' : ((s i).iters ++ [it])[p.2]? = some x := h1
      rcases Nat.lt_trichotomy p.2 (s i).iters.length with h3 | h3 | h3
      · rw [List.getElem?_append_left h3] at h1'
        exact Or.inl ⟨⟨x, by rw [h]; exact h1', h2⟩, Set.notMem_empty _⟩
      · right
        exact Prod.ext h h3
      · rw [List.getElem?_eq_none (by simp; omega)] at h1'; cases h1'
    · exact Or.inl ⟨(live_update_ne h).1 hp, Set.notMem_empty _⟩
  fresh p hp := by
    right
    cases hp
    exact lt_irrefl _

theorem stored_iters {M : ι → Oracle CF T T} {s : Caches ι CF T} (hs : Stored M s) {i : ι} {its : List (CacheIter CF T T)} :
    Stored M (Function.update s i { s i with iters := its }) where
  stored j c l h := by
    by_cases hj : j = i
    · subst hj; rw [Function.update_self] at h; exact hs.stored j c l h
    · rw [Function.update_of_ne hj] at h; exact hs.stored j c l h
  log j c := by
    by_cases hj : j = i
    · subst hj; rw [Function.update_self]; exact hs.log j c
    · rw [Function.update_of_ne hj]; exact hs.log j c
  nodup j := by
    by_cases hj : j = i
    · subst hj; rw [Function.update_self]; exact hs.nodup j
    · rw [Function.update_of_ne hj]; exact hs.nodup j

theorem stored_insert {M : ι → Oracle CF T T} {s : Caches ι CF T} (hs : Stored M s) {i : ι} {c : T} {l : List (CF × T)} {its : List (CacheIter CF T T)} (hl : (M i).column c = some l)
    (hn : (s i).cache c = none) : Stored M (Function.update s i { cache := mapInsert (s i).cache c l, iters := its, log := (s i).log ++ [c] }) where
  stored j c' l' h := by
    by_cases hj : j = i
    · subst hj
      rw [Function.update_self] at h
      dsimp only [mapInsert] at h
      split at h
      · rename_i e; cases h; rw [e]; exact hl
      · exact hs.stored j c' l' h
    · rw [Function.update_of_ne hj] at h; exact hs.stored j c' l' h
  log j c' := by
    by_cases hj : j = i
    · subst hj
      rw [Function.update_self]
      dsimp only [mapInsert]
      split
      · rename_i e; simp [e]
      · rename_i e; simp [e, hs.log]
    · rw [Function.update_of_ne hj]; exact hs.log j c'
  nodup j := by
    by_cases hj : j = i
    · subst hj
      rw [Function.update_self]
      dsimp only
      rw [List.nodup_append]
      refine ⟨hs.nodup j, by simp, ?_⟩
      intro a ha b hb hab
      rw [List.mem_singleton] at hb; subst hb; subst hab
      rw [hs.log, hn] at ha; cases ha
    · rw [Function.update_of_ne hj]; exact hs.nodup j

/-- A step of a cache iterator. -/
theorem move_next {s : Caches ι CF T} {i : ι} {k : ℕ} {x : CacheIter CF T T} (hx : (s i).iters[k]? = some x) (G' : Set (ι × ℕ)) (hG : G' ⊆ {(i, k)})
    (hin : x.next.2.inner.isSome → (i, k) ∈ G') : Move {i} {(i, k)} s (Function.update s i { s i with iters := (s i).iters.modify k fun it => it.next.2 }) G' where
  same j hj := Function.update_of_ne (by simpa using hj) _ _
  len j := by
    by_cases h : j = i
    · subst h; simp
    · rw [Function.update_of_ne h]
  other p hp hpk := by
    by_cases h : p.1 = i
    · rw [h, Function.update_self]
      have : k ≠ p.2 := by rintro rfl; exact hpk (Prod.ext h rfl)
      simp [List.getElem?_modify, this]
    · rw [Function.update_of_ne h]
  cache j c l hl := by
    by_cases h : j = i
    · subst h; rw [Function.update_self]; exact hl
    · rw [Function.update_of_ne h]; exact hl
  live p hp := by
    by_cases h : p.1 = i
    · by_cases hk : p.2 = k
      · have hpe : p = (i, k) := Prod.ext h hk
        subst hpe
        right
        obtain ⟨y, h1, h2⟩ := hp
        rw [Function.update_self] at h1
        simp only [List.getElem?_modify, hx, if_true, Option.map_eq_map, Option.map_some, Option.some.injEq] at h1
        subst h1
        exact hin h2
      · left
        refine ⟨?_, fun hh => hk (congrArg Prod.snd hh)⟩
        obtain ⟨y, h1, h2⟩ := hp
        rw [h, Function.update_self] at h1
        simp only [List.getElem?_modify, Ne.symm hk, if_false, Option.map_eq_map, id_eq, Option.map_id'] at h1
        exact ⟨y, by rw [h]; simpa using h1, h2⟩
    · exact Or.inl ⟨(live_update_ne h).1 hp, fun hh => h (congrArg Prod.fst hh)⟩
  fresh p hp := Or.inl (hG hp)

theorem getElem?_modify_self {l : List (CacheIter CF T T)} {k : ℕ} {x : CacheIter CF T T} (hx : l[k]? = some x) {f : CacheIter CF T T → CacheIter CF T T} : (l.modify k f)[k]? = some (f x) := by
  simp [List.getElem?_modify, hx]

theorem cacheAround_pull {i : ι} {L : Cols (Caches ι CF T) T (CF × T)} {k : ℕ} {s : Caches ι CF T} {x : CacheIter CF T T} (hx : (s i).iters[k]? = some x) :
    (cacheAround i L).pull k s = some (match x.next.1 with | none => .done | some y => .item y, k, Function.update s i { s i with iters := (s i).iters.modify k fun it => it.next.2 }) := by
  show ((s i).iters[k]?).map _ = _
  rw [hx]; rfl

def cacheOwn (i : ι) (k : ℕ) (s : Caches ι CF T) (v : Option (List (CF × T))) (n : ℕ) : Prop :=
  ∃ x, (s i).iters[k]? = some x ∧ v = some (x.inner.getD []) ∧ n = (x.inner.getD []).length

def cacheContract {M : ι → Oracle CF T T} {L : Cols (Caches ι CF T) T (CF × T)} {g : T → Option (List (CF × T))} {ment hold : Finset ι} (C : Contract M L g ment hold) (i : ι)
    (hi : i ∉ ment) (hM : ∀ c, (M i).column c = g c) : Contract M (cacheAround i L) g ({i} ∪ ment) {i} where
  fp k := {(i, k)}
  Own := cacheOwn i
  cost c := ((g c).getD []).length
  frame := by
    rintro k s s' v n ⟨x, h1, h2⟩ hf
    exact ⟨x, by rw [hf (i, k) rfl]; exact h1, h2⟩
  old := by
    rintro k s v n p ⟨x, h1, h2⟩ hp
    cases hp
    by_contra hh
    have hh' : (s i).iters.length ≤ k := Nat.le_of_not_lt hh
    rw [List.getElem?_eq_none hh'] at h1
    cases h1
  hold := by
    rintro k s v n p _ hp
    cases hp
    exact Finset.mem_singleton_self _
  request {c s it s'} hs h := by
    simp only [cacheAround] at h
    split at h
    · rename_i l hl
      cases h
      refine ⟨stored_iters hs, (move_push fun _ _ hh => hh).imp Finset.subset_union_left, ⟨c, [], some l, false, false⟩, ?_, ?_, ?_⟩
      · rw [Function.update_self]; exact List.getElem?_concat_length
      · rw [← hM, hs.stored i c l hl]; rfl
      · rw [← hM, hs.stored i c l hl]
    · rename_i hn
      obtain ⟨p, h1, h2⟩ := Option.bind_eq_some_iff.1 h
      obtain ⟨h3, h4, h5⟩ := C.collectAll_sound hs h1
      split at h2
      · cases h2
      · cases h2
        have hn' : (p.2 i).cache c = none := by rw [h5.same i hi]; exact hn
        refine ⟨stored_insert h4 (by rw [hM]; exact h3) hn', h5.trans (move_push fun c' l' hh => ?_) Finset.subset_union_right Finset.subset_union_left, ⟨c, [], some p.1, false, false⟩, ?_, ?_, ?_⟩
        · dsimp only [mapInsert]
          split
          · rename_i e; rw [e, hn'] at hh; cases hh
          · exact hh
        · rw [Function.update_self]; exact List.getElem?_concat_length
        · rw [h3]; rfl
        · rw [h3]
  done := by
    rintro k s v n k' s' hs ⟨x, h1, rfl, rfl⟩ h
    replace h := (cacheAround_pull (L := L) h1).symm.trans h
    obtain ⟨col, y, inner, fin, dr⟩ := x
    cases inner with
    | none =>
      cases h
      exact ⟨stored_iters hs, (move_next h1 ∅ (Set.empty_subset _) (by simp [CacheIter.next])).imp Finset.subset_union_left, rfl⟩
    | some l =>
      cases l with
      | nil =>
        cases h
        exact ⟨stored_iters hs, (move_next h1 ∅ (Set.empty_subset _) (by simp [CacheIter.next])).imp Finset.subset_union_left, rfl⟩
      | cons a l => cases h
  skip := by
    rintro k s v n k' s' hs ⟨x, h1, rfl, rfl⟩ h
    replace h := (cacheAround_pull (L := L) h1).symm.trans h
    obtain ⟨col, y, inner, fin, dr⟩ := x
    cases inner with
    | none => cases h
    | some l => cases l <;> cases h
  item := by
    rintro k s v n a k' s' hs ⟨x, h1, rfl, rfl⟩ h
    replace h := (cacheAround_pull (L := L) h1).symm.trans h
    obtain ⟨col, y, inner, fin, dr⟩ := x
    cases inner with
    | none => cases h
    | some l =>
      cases l with
      | nil => cases h
      | cons b l =>
        cases h
        refine ⟨stored_iters hs, (move_next h1 _ (le_refl _) fun _ => rfl).imp Finset.subset_union_left, some l, l.length, rfl, ⟨⟨col, y ++ [a], some l, fin, dr⟩, ?_, rfl, rfl⟩, fun _ => Nat.lt_succ_self _⟩
        rw [Function.update_self]
        exact getElem?_modify_self h1

theorem cacheContract_ok {M : ι → Oracle CF T T} {L : Cols (Caches ι CF T) T (CF × T)} {g : T → Option (List (CF × T))} {ment hold : Finset ι} {C : Contract M L g ment hold} {i : ι}
    {hi : i ∉ ment} {hM : ∀ c, (M i).column c = g c} {W req pul : Finset ι} (hC : C.Ok W req pul) : (cacheContract C i hi hM).Ok W ({i} ∪ (req ∪ pul)) ∅ where
  request {c s l} hs hw hg hl := by
    simp only [cacheAround]
    split
    · rfl
    · obtain ⟨s', h2⟩ := hC.collectAll hs hw hg fun p hp => hl p (Finset.mem_union_right _ hp)
      obtain ⟨h3, h4, h5⟩ := C.collectAll_sound hs h2
      rw [h2]
      have : (s' i).borrowed = false := by
        rw [not_borrowed]
        intro k hk
        rcases h5.live _ hk with ⟨h6, -⟩ | h6
        · exact hl (i, k) (Finset.mem_union_left _ (Finset.mem_singleton_self _)) h6
        · exact h6
      simp [this]
  pull {it s l n} hs hw ho hl := by
    obtain ⟨x, h1, -⟩ := ho
    exact Option.isSome_of_eq_some (cacheAround_pull (L := L) h1)

theorem cacheContract_ok_warm {M : ι → Oracle CF T T} {L : Cols (Caches ι CF T) T (CF × T)} {g : T → Option (List (CF × T))} {ment hold : Finset ι} {C : Contract M L g ment hold} {i : ι}
    {hi : i ∉ ment} {hM : ∀ c, (M i).column c = g c} {W : Finset ι} (hW : i ∈ W) : (cacheContract C i hi hM).Ok W ∅ ∅ where
  request {c s l} hs hw hg hl := by
    have := hw i hW c l (by rw [hM]; exact hg)
    simp only [cacheAround, this]
    rfl
  pull {it s l n} hs hw ho hl := by
    obtain ⟨x, h1, -⟩ := ho
    exact Option.isSome_of_eq_some (cacheAround_pull (L := L) h1)

end

/-! ### Expressions -/

section
variable [StdHeap] [LinearOrder T] [NonZeroCoeff CF]

def Expr.size : Expr ι CF T → ℕ
  | .plain _ => 1
  | .cached _ e => e.size + 1
  | .product l r => l.size + r.size + 1
  | .sum l r => l.size + r.size + 1
  | .consolidate e => e.size + 1

theorem Expr.size_of_mentions {made : ι → Expr ι CF T} : ∀ {e : Expr ι CF T}, e.MadeBy made → ∀ i ∈ e.mentions, (made i).size < e.size
  | .plain _, _, i, hi => by simp [mentions] at hi
  | .cached j e, h, i, hi => by
    simp only [mentions, Finset.mem_union, Finset.mem_singleton] at hi
    rcases hi with rfl | hi
    · rw [← h.1]; exact Nat.lt_succ_self _
    · exact (Expr.size_of_mentions h.2 i hi).trans (Nat.lt_succ_self _)
  | .product l r, h, i, hi => by
    simp only [mentions, Finset.mem_union] at hi
    rcases hi with hi | hi
    · have := Expr.size_of_mentions h.2 i hi; simp only [size]; omega
    · have := Expr.size_of_mentions h.1 i hi; simp only [size]; omega
  | .sum l r, h, i, hi => by
    simp only [mentions, Finset.mem_union] at hi
    rcases hi with hi | hi
    · have := Expr.size_of_mentions h.1 i hi; simp only [size]; omega
    · have := Expr.size_of_mentions h.2 i hi; simp only [size]; omega
  | .consolidate e, h, i, hi => (Expr.size_of_mentions (e := e) h i hi).trans (Nat.lt_succ_self _)

theorem Expr.contract (made : ι → Expr ι CF T) (W : Finset ι) : ∀ {e : Expr ι CF T}, e.MadeBy made →
    ∃ C : Contract (fun i => (made i).matrix) e.cols e.matrix.column e.mentions e.holds, e.safe W → C.Ok W (e.fills W).1 (e.fills W).2
  | .plain M, _ => ⟨ofFunContract _ M.column, fun _ => ofFunContract_ok _ _ _⟩
  | .cached i e, h => by
    obtain ⟨C, hC⟩ := Expr.contract made W h.2
    refine ⟨cacheContract C i (fun hi => ?_) fun c => by rw [← h.1], fun hs => ?_⟩
    · have := Expr.size_of_mentions h.2 i hi
      rw [← h.1] at this
      exact lt_irrefl _ this
    · unfold Expr.fills
      split
      · rename_i hW
        exact cacheContract_ok_warm hW
      · rename_i hW
        exact cacheContract_ok (hC (hs.resolve_left hW))
  | .product l r, h => by
    obtain ⟨C, hC⟩ := Expr.contract made W h.1
    obtain ⟨C', hC'⟩ := Expr.contract made W h.2
    exact ⟨C'.flatMap C, fun hs => (hC' hs.2.1).flatMap (hC hs.1) hs.2.2⟩
  | .sum l r, h => by
    obtain ⟨C, hC⟩ := Expr.contract made W h.1
    obtain ⟨C', hC'⟩ := Expr.contract made W h.2
    exact ⟨C.chain C', fun hs => (hC hs.1).chain (hC' hs.2.1) hs.2.2.1 hs.2.2.2⟩
  | .consolidate e, h => by
    obtain ⟨C, hC⟩ := Expr.contract made W (e := e) h
    exact ⟨consolidateContract C, fun hs => consolidateContract_ok (hC hs)⟩

theorem Expr.contractF {F : Type} (filt : T → Option F) (made : ι → Expr ι CF T) (W : Finset ι) : ∀ {e : Expr ι CF T}, e.MadeBy made →
    ∃ C : Contract (fun i => (made i).matrix) (e.colF filt) (e.matrixF filt).colF e.mentions e.holds, e.safe W → C.Ok W (e.fills W).1 (e.fills W).2
  | .plain M, h => by
    obtain ⟨C, hC⟩ := Expr.contract made W (e := .plain M) h
    exact ⟨C.mapItems _, fun hs => (hC hs).mapItems _⟩
  | .cached i e, h => by
    obtain ⟨C, hC⟩ := Expr.contract made W (e := .cached i e) h
    exact ⟨C.mapItems _, fun hs => (hC hs).mapItems _⟩
  | .sum l r, h => by
    obtain ⟨C, hC⟩ := Expr.contract made W (e := .sum l r) h
    exact ⟨C.mapItems _, fun hs => (hC hs).mapItems _⟩
  | .consolidate e, h => by
    obtain ⟨C, hC⟩ := Expr.contract made W (e := .consolidate e) h
    exact ⟨C.mapItems _, fun hs => (hC hs).mapItems _⟩
  | .product l r, h => by
    obtain ⟨C, hC⟩ := Expr.contractF filt made W h.1
    obtain ⟨C', hC'⟩ := Expr.contract made W h.2
    exact ⟨C'.flatMap C, fun hs => (hC' hs.2.1).flatMap (hC hs.1) hs.2.2⟩

end
end
end Lazy
end Phlite
