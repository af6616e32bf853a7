/-
A product of a cached matrix with a column that is itself a product of the same cached matrix panics when a column that is not in the cache is needed.
-/
import Verif.Proofs.LazyReduction

set_option linter.unusedSectionVars false
set_option linter.unusedSimpArgs false

namespace Phlite
namespace Lazy

section
variable {CF T α : Type} [DecidableEq T] [NonZeroCoeff CF] {M : Oracle CF T T}

/-- Iterator number `i` is alive and has the entries `rest` left. -/
def Alive (s : CacheState CF T T) (i : ℕ) (rest : List (CF × T)) : Prop := ∃ it, s.iters[i]? = some it ∧ it.inner = some rest

theorem Alive.borrowed {s : CacheState CF T T} {i : ℕ} {rest : List (CF × T)} (h : Alive s i rest) : s.borrowed = true := by
  obtain ⟨it, h1, h2⟩ := h
  unfold CacheState.borrowed
  rw [List.any_eq_true]
  exact ⟨it, List.mem_of_getElem? h1, by rw [h2]; rfl⟩

theorem Alive.lt {s : CacheState CF T T} {i : ℕ} {rest : List (CF × T)} (h : Alive s i rest) : i < s.iters.length := by
  obtain ⟨it, h1, _⟩ := h
  exact (List.getElem?_eq_some_iff.1 h1).1

theorem pull_cached (s s' : CacheState CF T T) (i j : ℕ) (o : Pull (CF × T)) (h : (cachedCols M).pull i s = some (o, j, s')) :
    j = i ∧ s'.cache = s.cache ∧ s'.iters.length = s.iters.length ∧
      (∀ k rest, k ≠ i → Alive s k rest → Alive s' k rest) ∧
      ∀ rest, Alive s i rest → match rest with
        | [] => o = .done
        | x :: rest' => o = .item x ∧ Alive s' i rest' := by
  obtain ⟨it, h1, h2⟩ := Option.bind_eq_some_iff.1 (show ((s.iters[i]?).bind fun it => _) = some (o, j, s') from h)
  obtain ⟨s1, h3, h4⟩ := Option.map_eq_some_iff.1 h2
  simp only [CacheState.step, Option.some.injEq] at h3
  have hs : s' = s1 ∧ j = i ∧ (o = match it.next.1 with | none => .done | some x => .item x) := by
    cases hn : it.next.1 with
    | none => rw [hn] at h4; cases h4; exact ⟨rfl, rfl, rfl⟩
    | some x => rw [hn] at h4; cases h4; exact ⟨rfl, rfl, rfl⟩
  obtain ⟨rfl, rfl, ho⟩ := hs
  subst h3
  refine ⟨rfl, rfl, by simp, ?_, ?_⟩
  · rintro k rest hk ⟨it', g1, g2⟩
    refine ⟨it', ?_, g2⟩
    dsimp only
    rw [List.getElem?_modify, g1]; simp [Ne.symm hk]
  · rintro rest ⟨it', g1, g2⟩
    rw [h1] at g1; cases g1
    rw [ho]
    cases rest with
    | nil => unfold CacheIter.next; rw [g2]
    | cons x rest' =>
      refine ⟨by unfold CacheIter.next; rw [g2], ⟨_, by
        dsimp only
        rw [List.getElem?_modify, h1]; simp; rfl, by unfold CacheIter.next; rw [g2]⟩⟩

theorem request_cached {s s' : CacheState CF T T} {c : T} {i : ℕ}
    (h : (cachedCols M).request c s = some (i, s')) :
    i = s.iters.length ∧ (∃ l, (s.cache c = some l ∨ (s.cache c = none ∧ M.column c = some l ∧ s.borrowed = false)) ∧ Alive s' i l) ∧
      (∀ k rest, Alive s k rest → Alive s' k rest) ∧ (∀ x, x ≠ c → s'.cache x = s.cache x) ∧ (s.borrowed = true → s'.cache = s.cache) := by
  obtain ⟨s1, h1, h2⟩ := Option.map_eq_some_iff.1 (show (s.request M c).map _ = some (i, s') from h)
  cases h2
  have happ : ∀ (st : CacheState CF T T) (it : CacheIter CF T T), st.iters = s.iters ++ [it] → (∀ k rest, Alive s k rest → Alive st k rest) := by
    rintro st it hst k rest hk
    have hlt := hk.lt
    obtain ⟨it', g1, g2⟩ := hk
    exact ⟨it', by rw [hst, List.getElem?_append_left hlt, g1], g2⟩
  have hnew : ∀ (st : CacheState CF T T) (l : List (CF × T)), st.iters = s.iters ++ [⟨c, [], some l, false, false⟩] → Alive st s.iters.length l := by
    intro st l hst
    exact ⟨_, by rw [hst, List.getElem?_append_right (le_refl _), Nat.sub_self]; rfl, rfl⟩
  unfold CacheState.request at h1
  cases hc : s.cache c with
  | some l =>
    rw [hc] at h1
    cases h1
    exact ⟨rfl, ⟨l, Or.inl rfl, hnew _ l rfl⟩, happ _ _ rfl, fun _ _ => rfl, fun _ => rfl⟩
  | none =>
    rw [hc] at h1
    dsimp only at h1
    obtain ⟨l, h3, h4⟩ := Option.bind_eq_some_iff.1 h1
    split at h4
    · cases h4
    · rename_i hb
      cases h4
      refine ⟨rfl, ⟨l, Or.inr ⟨rfl, h3, by simpa using hb⟩, hnew _ l rfl⟩, happ _ _ rfl, fun x hx => ?_, fun h => absurd h hb⟩
      dsimp only [mapInsert]
      rw [if_neg hx]

variable {rc : T → Option (RedCol CF T)} {m : ℕ} {Lft : Cols (CacheState CF T T) T α} {num : Lft.It → ℕ} {scale : CF → α → α}

/-- The cell `c0` is not in the cache, and the iterator over the column of the right factor is yet to reach an entry of row `c0`. -/
inductive Doomed (M : Oracle CF T T) (rc : T → Option (RedCol CF T)) (m : ℕ) (Lft : Cols (CacheState CF T T) T α) (num : Lft.It → ℕ) (c0 : T) :
    (crmCols (cachedCols M) rc (m + 2)).It × Option (CF × Lft.It) → CacheState CF T T → Prop
  /-- between two columns of the inner product -/
  | between {vs : List (CF × T)} {s : CacheState CF T T} : s.cache c0 = none → (∀ c l, s.cache c = some l → M.column c = some l) → (∀ t ∈ vs, t.2 ≠ c0) →
      (∃ t ∈ vs, ∀ l, M.column t.2 = some l → ∃ u ∈ l, u.2 = c0) → Doomed M rc m Lft num c0 (.inl (.inr vs, none), none) s
  /-- within a column of the inner product: its iterator (number `i`) is alive -/
  | within {vs : List (CF × T)} {s : CacheState CF T T} {k : CF} {i : ℕ} {rest : List (CF × T)} {front : Option (CF × Lft.It)} : s.cache c0 = none →
      (∀ c l, s.cache c = some l → M.column c = some l) → (∀ t ∈ vs, t.2 ≠ c0) → Alive s i rest →
      ((∃ u ∈ rest, u.2 = c0) ∨ ∃ t ∈ vs, ∀ l, M.column t.2 = some l → ∃ u ∈ l, u.2 = c0) → (∀ p, front = some p → num p.2 ≠ i) →
      Doomed M rc m Lft num c0 (.inl (.inr vs, some (k, i)), front) s

theorem doomed_drain {c0 : T}
    (hreq : ∀ c s it s', Lft.request c s = some (it, s') → (cachedCols M).request c s = some (num it, s'))
    (hpull : ∀ it s o it' s', Lft.pull it s = some (o, it', s') → num it' = num it ∧ ∃ o', (cachedCols M).pull (num it) s = some (o', num it, s')) (n : ℕ) :
    ∀ {st : (crmCols (cachedCols M) rc (m + 2)).It × Option (CF × Lft.It)} {s : CacheState CF T T}, Doomed M rc m Lft num c0 st s →
      ((crmCols (cachedCols M) rc (m + 2)).flatMap Lft scale).drain n st s = none := by
  induction n with
  | zero => intro st s _; rfl
  | succ n ih =>
    intro st s hd
    show (((crmCols (cachedCols M) rc (m + 2)).flatMap Lft scale).pull st s).bind _ = none
    rw [Option.bind_eq_none_iff]
    rintro ⟨o, st', s'⟩ hp
    -- it suffices that the state after the step is doomed and the iterator is not exhausted
    suffices h : Doomed M rc m Lft num c0 st' s' ∧ ∀ hh : o = .done, False by
      have hdr := ih h.1
      cases o with
      | done => exact (h.2 rfl).elim
      | skip => exact hdr
      | item a => show (((crmCols (cachedCols M) rc (m + 2)).flatMap Lft scale).drain n st' s').map _ = none; rw [hdr]; rfl
    cases hd with
    | @between vs s h1 h2 h3 h4 =>
      cases vs with
      | nil => obtain ⟨t, ht, _⟩ := h4; simp at ht
      | cons t vs =>
        -- the right factor requests the column of `t`
        have hp' : (((cachedCols M).request t.2 s).map fun q => ((.skip, (.inl (.inr vs, some (t.1, q.1)), none), q.2) :
            Pull α × ((crmCols (cachedCols M) rc (m + 2)).It × Option (CF × Lft.It)) × CacheState CF T T)) = some (o, st', s') := by
          rw [← hp]
          show _ = ((crmCols (cachedCols M) rc (m + 2)).pull _ s).bind _
          show _ = (((((crmCols (cachedCols M) rc (m + 1)).flatMap (cachedCols M) scaleTuple).pull (.inr (t :: vs), none) s)).map _).bind _
          show _ = ((((cachedCols M).request t.2 s).map _).map _).bind _
          cases (cachedCols M).request t.2 s <;> rfl
        obtain ⟨⟨i, s1⟩, g1, g2⟩ := Option.map_eq_some_iff.1 hp'
        cases g2
        obtain ⟨e1, ⟨l, e2, e3⟩, e4, e5, e6⟩ := request_cached g1
        have hMl : M.column t.2 = some l := by
          rcases e2 with e2 | e2
          · exact h2 _ _ e2
          · exact e2.2.1
        have ht := h3 t (by simp)
        refine ⟨.within (rest := l) ?_ ?_ (fun t' ht' => h3 t' (by simp [ht'])) e3 ?_ (by simp), by rintro ⟨⟩⟩
        · rw [e5 c0 (Ne.symm ht)]; exact h1
        · intro c l' hc
          by_cases hct : c = t.2
          · subst hct
            by_cases hb : s.borrowed = true
            · rw [e6 hb] at hc; exact h2 _ _ hc
            · -- the cached list is the one the new iterator got
              have hs' : s1.cache t.2 = some l := by
                obtain ⟨s2, q1, q2⟩ := Option.map_eq_some_iff.1 (show (s.request M t.2).map _ = some (i, s1) from g1)
                cases q2
                unfold CacheState.request at q1
                cases hcc : s.cache t.2 with
                | some l2 =>
                  rw [hcc] at q1
                  cases q1
                  rw [← hMl]
                  dsimp only
                  rw [hcc, h2 _ _ hcc]
                | none =>
                  rw [hcc] at q1
                  dsimp only at q1
                  rw [hMl, Option.bind_some] at q1
                  split at q1
                  · cases q1
                  · cases q1; simp [mapInsert]
              rw [hs'] at hc; cases hc; exact hMl
          · rw [e5 c hct] at hc; exact h2 _ _ hc
        · obtain ⟨t', ht', h5⟩ := h4
          rcases List.mem_cons.1 ht' with rfl | ht'
          · exact Or.inl (h5 l hMl)
          · exact Or.inr ⟨t', ht', h5⟩
    | @within vs s k i rest front h1 h2 h3 h4 h5 h6 =>
      cases front with
      | some p =>
        obtain ⟨k', lit⟩ := p
        have hne := h6 _ rfl
        have hp' : (Lft.pull lit s).map _ = some (o, st', s') := hp
        obtain ⟨⟨o', lit', s1⟩, g1, g2⟩ := Option.map_eq_some_iff.1 hp'
        obtain ⟨e1, o2, e2⟩ := hpull _ _ _ _ _ g1
        obtain ⟨_, e4, _, e5, _⟩ := pull_cached _ _ _ _ _ e2
        have hal := e5 i rest (Ne.symm hne) h4
        have hcache : s1.cache c0 = none := by rw [e4]; exact h1
        have hok : ∀ c l, s1.cache c = some l → M.column c = some l := by rw [e4]; exact h2
        cases o' with
        | done => cases g2; exact ⟨.within hcache hok h3 hal h5 (by simp), by rintro ⟨⟩⟩
        | skip =>
          cases g2
          exact ⟨.within hcache hok h3 hal h5 (by rintro p ⟨⟩; rw [e1]; exact hne), by rintro ⟨⟩⟩
        | item a =>
          cases g2
          exact ⟨.within hcache hok h3 hal h5 (by rintro p ⟨⟩; rw [e1]; exact hne), by rintro ⟨⟩⟩
      | none =>
        -- the right factor is asked for its next item
        have hpe : (((crmCols (cachedCols M) rc (m + 2)).flatMap Lft scale).pull (.inl (.inr vs, some (k, i)), none) s) =
            ((cachedCols M).pull i s).bind fun
              | (.done, _, s') => (some (.skip, (.inl (.inr vs, none), none), s') : Option (Pull α × ((crmCols (cachedCols M) rc (m + 2)).It × Option (CF × Lft.It)) × CacheState CF T T))
              | (.skip, j, s') => some (.skip, (.inl (.inr vs, some (k, j)), none), s')
              | (.item a, j, s') => (Lft.request a.2 s').map fun q => (.skip, (.inl (.inr vs, some (k, j)), some (NonZeroCoeff.mul a.1 k, q.1)), q.2) := by
          show ((((cachedCols M).pull i s).map _).map _).bind _ = _
          rcases (cachedCols M).pull i s with _ | ⟨_ | _ | a, j, s'⟩ <;> rfl
        rw [hpe] at hp
        obtain ⟨⟨o', j, s1⟩, g1, g2⟩ := Option.bind_eq_some_iff.1 hp
        obtain ⟨e1, e2, e3, e4, e5⟩ := pull_cached _ _ _ _ _ g1
        subst e1
        have hcache : s1.cache c0 = none := by rw [e2]; exact h1
        have hok : ∀ c l, s1.cache c = some l → M.column c = some l := by rw [e2]; exact h2
        have e6 := e5 rest h4
        cases rest with
        | nil =>
          dsimp only at e6
          subst e6
          cases g2
          refine ⟨.between hcache hok h3 ?_, by rintro ⟨⟩⟩
          rcases h5 with ⟨u, hu, _⟩ | h5
          · simp at hu
          · exact h5
        | cons x rest =>
          obtain ⟨rfl, hal⟩ := e6
          obtain ⟨⟨lit, s2⟩, g3, g4⟩ := Option.map_eq_some_iff.1 (show (Lft.request x.2 s1).map _ = _ from g2)
          cases g4
          have hr := hreq _ _ _ _ g3
          obtain ⟨f1, ⟨l, f2, f3⟩, f4, _, f6⟩ := request_cached hr
          have hx : x.2 ≠ c0 := by
            intro hx
            rcases f2 with f2 | f2
            · rw [hx, hcache] at f2; cases f2
            · rw [hal.borrowed] at f2; cases f2.2.2
          refine ⟨.within ?_ ?_ h3 (f4 _ _ hal) ?_ ?_, by rintro ⟨⟩⟩
          · rw [f6 hal.borrowed]; exact hcache
          · rw [f6 hal.borrowed]; exact hok
          · rcases h5 with ⟨u, hu, hu2⟩ | h5
            · rcases List.mem_cons.1 hu with rfl | hu
              · exact absurd hu2 hx
              · exact Or.inl ⟨u, hu, hu2⟩
            · exact Or.inr h5
          · rintro p ⟨⟩
            have := hal.lt
            show num lit ≠ j
            rw [f1]
            omega

end
end Lazy
end Phlite
