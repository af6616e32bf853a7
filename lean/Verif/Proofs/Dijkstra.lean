/-
Correctness of the shortest path computation.
-/
import Verif.Model.Dijkstra
import Verif.Theory.ShortestPaths
import Verif.Proofs.Matrices

set_option linter.unusedSectionVars false
set_option linter.unusedSimpArgs false

namespace Phlite
open OrderDual (toDual ofDual)

section
variable {F : Type} [LinearOrder F] [Zero F] [OrderTop F] [StdHeap]
variable {add : F → F → F} {edges : List (ℕ × ℕ × F)} {out : ℕ → List (ℕ × ℕ × F)} {start : ℕ}

/-- `out` lists the edges of finite weight by their source, in any order. -/
def AdjOf (edges : List (ℕ × ℕ × F)) (out : ℕ → List (ℕ × ℕ × F)) : Prop := ∀ u, (out u).Perm ((finiteEdges edges).filter fun e => e.1 = u)

theorem AdjOf.mem (h : AdjOf edges out) {u : ℕ} {e : ℕ × ℕ × F} : e ∈ out u ↔ e ∈ edges ∧ e.2.2 < ⊤ ∧ e.1 = u := by
  rw [(h u).mem_iff]
  simp only [finiteEdges, List.mem_filter, decide_eq_true_eq, and_assoc]

/-- The invariant between two iterations of the main loop. -/
structure DijInv (add : F → F → F) (edges : List (ℕ × ℕ × F)) (start : ℕ) (s : DijState F) : Prop where
  walk : ∀ j x, s.scores j = some x → IsWalk add edges start j x
  entry : ∀ e ∈ StdHeap.bag s.heap, ∃ y, s.scores e.coeff = some y ∧ y ≤ ofDual e.filt
  unvis : ∀ j x, s.scores j = some x → s.visited j = false → minScored x j ∈ StdHeap.bag s.heap
  vis : ∀ v, s.visited v = true → ∃ x, s.scores v = some x ∧ (∀ e ∈ StdHeap.bag s.heap, x ≤ ofDual e.filt) ∧
    ∀ j w, (v, j, w) ∈ edges → w < ⊤ → ∃ y, s.scores j = some y ∧ y ≤ add x w
  source : ∃ y, s.scores start = some y ∧ y ≤ 0

/-- The invariant while the edges of `u`, whose score is `x`, are relaxed; `done` are the edges already relaxed. -/
structure MidInv (add : F → F → F) (edges : List (ℕ × ℕ × F)) (start u : ℕ) (x : F) (done : List (ℕ × ℕ × F)) (s : DijState F) : Prop where
  walk : ∀ j x, s.scores j = some x → IsWalk add edges start j x
  entry : ∀ e ∈ StdHeap.bag s.heap, ∃ y, s.scores e.coeff = some y ∧ y ≤ ofDual e.filt
  unvis : ∀ j x, j ≠ u → s.scores j = some x → s.visited j = false → minScored x j ∈ StdHeap.bag s.heap
  su : s.scores u = some x
  nu : s.visited u = false
  low : ∀ e ∈ StdHeap.bag s.heap, x ≤ ofDual e.filt
  vis : ∀ v, s.visited v = true → ∃ y, s.scores v = some y ∧ y ≤ x ∧
    ∀ j w, (v, j, w) ∈ edges → w < ⊤ → ∃ z, s.scores j = some z ∧ z ≤ add y w
  dn : ∀ e ∈ done, ∃ y, s.scores e.2.1 = some y ∧ y ≤ add x e.2.2
  source : ∃ y, s.scores start = some y ∧ y ≤ 0

theorem MidInv.insert {u : ℕ} {x : F} {done : List (ℕ × ℕ × F)} {s : DijState F} (h : MidInv add edges start u x done s) {e : ℕ × ℕ × F}
    (hadd : IsLengthAddition add) (he : e ∈ edges) (hw : e.2.2 < ⊤) (hu : e.1 = u) (h0 : 0 ≤ e.2.2) (hne : e.2.1 ≠ u) (hv : s.visited e.2.1 = false)
    (hold : ∀ old, s.scores e.2.1 = some old → add x e.2.2 ≤ old) :
    MidInv add edges start u x (e :: done)
      { s with scores := mapInsert s.scores e.2.1 (add x e.2.2), heap := StdHeap.push s.heap (minScored (add x e.2.2) e.2.1) } := by
  have dec : ∀ j y, s.scores j = some y → ∃ z, mapInsert s.scores e.2.1 (add x e.2.2) j = some z ∧ z ≤ y := by
    intro j y hy
    unfold mapInsert
    split
    · rename_i hj; subst hj; exact ⟨_, rfl, hold y hy⟩
    · exact ⟨y, hy, le_rfl⟩
  have same : ∀ j, j ≠ e.2.1 → mapInsert s.scores e.2.1 (add x e.2.2) j = s.scores j := fun j hj => by simp [mapInsert, hj]
  have self : mapInsert s.scores e.2.1 (add x e.2.2) e.2.1 = some (add x e.2.2) := by simp [mapInsert]
  refine ⟨?_, ?_, ?_, ?_, h.nu, ?_, ?_, ?_, ?_⟩
  · intro j y hy
    by_cases hj : j = e.2.1
    · subst hj
      cases self.symm.trans hy
      exact .snoc (h.walk u x h.su) (by rw [← hu]; exact he) hw
    · exact h.walk j y ((same j hj).symm.trans hy)
  · intro a ha
    rw [StdHeap.bag_push, Multiset.mem_cons] at ha
    rcases ha with rfl | ha
    · exact ⟨_, self, le_rfl⟩
    · obtain ⟨y, h1, h2⟩ := h.entry a ha
      obtain ⟨z, h3, h4⟩ := dec _ _ h1
      exact ⟨z, h3, h4.trans h2⟩
  · intro j y hj hy hvj
    rw [StdHeap.bag_push, Multiset.mem_cons]
    by_cases hje : j = e.2.1
    · subst hje
      cases self.symm.trans hy
      exact Or.inl rfl
    · exact Or.inr (h.unvis j y hj ((same j hje).symm.trans hy) hvj)
  · exact (same u (Ne.symm hne)).trans h.su
  · intro a ha
    rw [StdHeap.bag_push, Multiset.mem_cons] at ha
    rcases ha with rfl | ha
    · exact hadd.le_add_right _ _ h0
    · exact h.low a ha
  · intro v hvv
    obtain ⟨y, h1, h2, h3⟩ := h.vis v hvv
    have hve : v ≠ e.2.1 := by rintro rfl; rw [show s.visited e.2.1 = true from hvv] at hv; cases hv
    refine ⟨y, (same v hve).trans h1, h2, ?_⟩
    intro j w hj hjw
    obtain ⟨z, h4, h5⟩ := h3 j w hj hjw
    obtain ⟨z', h6, h7⟩ := dec _ _ h4
    exact ⟨z', h6, h7.trans h5⟩
  · intro a ha
    rcases List.mem_cons.1 ha with rfl | ha
    · exact ⟨_, self, le_rfl⟩
    · obtain ⟨y, h1, h2⟩ := h.dn a ha
      obtain ⟨z, h3, h4⟩ := dec _ _ h1
      exact ⟨z, h3, h4.trans h2⟩
  · obtain ⟨y, h1, h2⟩ := h.source
    obtain ⟨z, h3, h4⟩ := dec _ _ h1
    exact ⟨z, h3, h4.trans h2⟩

theorem MidInv.cons {u : ℕ} {x : F} {done : List (ℕ × ℕ × F)} {s : DijState F} (h : MidInv add edges start u x done s) {e : ℕ × ℕ × F} {y : F}
    (hy : s.scores e.2.1 = some y) (hle : y ≤ add x e.2.2) : MidInv add edges start u x (e :: done) s :=
  ⟨h.walk, h.entry, h.unvis, h.su, h.nu, h.low, h.vis, fun a ha => by
    rcases List.mem_cons.1 ha with rfl | ha
    · exact ⟨y, hy, hle⟩
    · exact h.dn a ha, h.source⟩

theorem relax_inv {u : ℕ} {x : F} {done : List (ℕ × ℕ × F)} {s : DijState F} (h : MidInv add edges start u x done s) {e : ℕ × ℕ × F}
    (hadd : IsLengthAddition add) (he : e ∈ edges) (hw : e.2.2 < ⊤) (hu : e.1 = u) (h0 : 0 ≤ e.2.2) :
    MidInv add edges start u x (e :: done) (relax add x s e) := by
  unfold relax
  split
  · rename_i hv
    obtain ⟨y, h1, h2, _⟩ := h.vis _ hv
    exact h.cons h1 (h2.trans (hadd.le_add_right _ _ h0))
  · rename_i hv
    rw [Bool.not_eq_true] at hv
    dsimp only
    split
    · rename_i old hold
      split
      · rename_i hlt
        refine h.insert hadd he hw hu h0 ?_ hv fun o ho => ?_
        · rintro hj
          rw [hj, h.su] at hold
          cases hold
          exact absurd hlt (not_lt.2 (hadd.le_add_right _ _ h0))
        · rw [hold] at ho; cases ho; exact hlt.le
      · rename_i hlt
        exact h.cons hold (not_lt.1 hlt)
    · rename_i hnone
      refine h.insert hadd he hw hu h0 ?_ hv fun o ho => ?_
      · rintro hj; rw [hj, h.su] at hnone; cases hnone
      · rw [hnone] at ho; cases ho

theorem foldl_relax_inv {u : ℕ} {x : F} (hadd : IsLengthAddition add) (l : List (ℕ × ℕ × F)) (hl : ∀ e ∈ l, e ∈ edges ∧ e.2.2 < ⊤ ∧ e.1 = u ∧ 0 ≤ e.2.2) :
    ∀ {done : List (ℕ × ℕ × F)} {s : DijState F}, MidInv add edges start u x done s →
      ∃ done', MidInv add edges start u x done' (l.foldl (relax add x) s) ∧ ∀ e, e ∈ l ∨ e ∈ done → e ∈ done' := by
  induction l with
  | nil => intro done s h; exact ⟨done, h, fun e he => by simpa using he⟩
  | cons a l ih =>
    intro done s h
    obtain ⟨h1, h2, h3, h4⟩ := hl a (by simp)
    obtain ⟨d, h5, h6⟩ := ih (fun e he => hl e (by simp [he])) (relax_inv h hadd h1 h2 h3 h4)
    refine ⟨d, h5, fun e he => h6 e ?_⟩
    simp only [List.mem_cons] at he ⊢
    tauto

theorem relax_visited (x : F) (s : DijState F) (e : ℕ × ℕ × F) : (relax add x s e).visited = s.visited := by
  unfold relax
  split
  · rfl
  · dsimp only
    split
    · split <;> rfl
    · rfl

theorem relax_card (x : F) (s : DijState F) (e : ℕ × ℕ × F) : (StdHeap.bag (relax add x s e).heap).card ≤ (StdHeap.bag s.heap).card + 1 := by
  unfold relax
  split
  · omega
  · dsimp only
    split
    · split
      · simp [StdHeap.bag_push]
      · omega
    · simp [StdHeap.bag_push]

theorem foldl_relax_visited (x : F) (l : List (ℕ × ℕ × F)) (s : DijState F) : (l.foldl (relax add x) s).visited = s.visited := by
  induction l generalizing s with
  | nil => rfl
  | cons a l ih => rw [List.foldl_cons, ih, relax_visited]

theorem foldl_relax_card (x : F) (l : List (ℕ × ℕ × F)) (s : DijState F) :
    (StdHeap.bag (l.foldl (relax add x) s).heap).card ≤ (StdHeap.bag s.heap).card + l.length := by
  induction l generalizing s with
  | nil => simp
  | cons a l ih =>
    rw [List.foldl_cons, List.length_cons]
    have := ih (relax add x s a)
    have := relax_card (add := add) x s a
    omega

/-- What is left to do: entries in the heap, and edges whose source has not been visited. -/
def dijMeasure (edges : List (ℕ × ℕ × F)) (s : DijState F) : ℕ :=
  (StdHeap.bag s.heap).card + ((finiteEdges edges).filter fun e => !s.visited e.1).length

theorem filter_visit (l : List (ℕ × ℕ × F)) (vis : ℕ → Bool) (u : ℕ) (hu : vis u = false) :
    (l.filter fun e => !(if e.1 = u then true else vis e.1)).length + (l.filter fun e => e.1 = u).length = (l.filter fun e => !vis e.1).length := by
  induction l with
  | nil => rfl
  | cons a l ih =>
    by_cases ha : a.1 = u
    · simp [ha, hu] at ih ⊢; omega
    · by_cases hv : vis a.1 <;> simp [ha, hv] at ih ⊢ <;> omega

theorem dijLoop_spec (hadd : IsLengthAddition add) (hout : AdjOf edges out) (hw : ∀ e ∈ edges, 0 ≤ e.2.2) :
    ∀ (fuel : ℕ) (s : DijState F), DijInv add edges start s → dijMeasure edges s < fuel →
      ∃ scores, dijLoop add out fuel s = some scores ∧ (∀ j x, scores j = some x → IsLeast {y | IsWalk add edges start j y} x) ∧
        ∀ j x, IsWalk add edges start j x → ∃ y, scores j = some y := by
  intro fuel
  induction fuel with
  | zero => intro s _ h; exact absurd h (Nat.not_lt_zero _)
  | succ fuel ih =>
    intro s h hm
    unfold dijLoop
    cases hp : StdHeap.pop s.heap with
    | none =>
      have hb := StdHeap.pop_none _ hp
      refine ⟨s.scores, rfl, ?_⟩
      have hvis : ∀ j x, s.scores j = some x → s.visited j = true := by
        intro j x hx
        by_contra hc
        rw [Bool.not_eq_true] at hc
        have := h.unvis j x hx hc
        rw [hb] at this
        exact absurd this (Multiset.notMem_zero _)
      have key : ∀ j y, IsWalk add edges start j y → ∃ x, s.scores j = some x ∧ x ≤ y := by
        intro j y hy
        induction hy with
        | nil => exact h.source
        | snoc _ he hlt ih =>
          obtain ⟨x, h1, h2⟩ := ih
          obtain ⟨x', h3, _, h4⟩ := h.vis _ (hvis _ _ h1)
          rw [h1] at h3; cases h3
          obtain ⟨z, h5, h6⟩ := h4 _ _ he hlt
          exact ⟨z, h5, h6.trans (hadd.mono _ _ _ h2)⟩
      refine ⟨fun j x hx => ⟨h.walk j x hx, fun y hy => ?_⟩, fun j x hx => ?_⟩
      · obtain ⟨x', h1, h2⟩ := key j y hy
        rw [hx] at h1; cases h1; exact h2
      · obtain ⟨x', h1, _⟩ := key j x hx
        exact ⟨x', h1⟩
    | some p =>
      obtain ⟨e, h'⟩ := p
      have hbag := StdHeap.pop_bag _ _ _ hp
      have hmin : ∀ a ∈ StdHeap.bag s.heap, (ofDual e.filt : F) ≤ ofDual a.filt := by
        intro a ha
        have := StdHeap.pop_max _ _ _ hp a ha
        rw [Entry.key, Entry.key, Prod.Lex.toLex_le_toLex] at this
        rcases this with h1 | ⟨h1, _⟩
        · exact (show e.filt < a.filt ∨ ofDual e.filt ≤ ofDual a.filt from Or.inr (le_of_lt h1)).elim (fun h => absurd h (not_lt.2 h1.le)) id
        · exact le_of_eq (congrArg ofDual h1.symm)
      have hsub : ∀ a ∈ StdHeap.bag h', a ∈ StdHeap.bag s.heap := fun a ha => by rw [hbag]; exact Multiset.mem_cons_of_mem ha
      have hcard : (StdHeap.bag s.heap).card = (StdHeap.bag h').card + 1 := by rw [hbag, Multiset.card_cons]
      dsimp only
      split
      · rename_i hv
        refine ih _ ⟨h.walk, fun a ha => h.entry a (hsub a ha), ?_, ?_, h.source⟩ ?_
        · intro j x hx hj
          have := h.unvis j x hx hj
          rw [hbag, Multiset.mem_cons] at this
          rcases this with hje | this
          · exfalso
            have : e.coeff = j := by rw [← hje]; rfl
            rw [this] at hv
            rw [show s.visited j = true from hv] at hj; cases hj
          · exact this
        · intro v hvv
          obtain ⟨x, h1, h2, h3⟩ := h.vis v hvv
          exact ⟨x, h1, fun a ha => h2 a (hsub a ha), h3⟩
        · unfold dijMeasure at hm ⊢
          dsimp only
          omega
      · rename_i hv
        rw [Bool.not_eq_true] at hv
        set u := e.coeff with hu
        set x : F := ofDual e.filt with hx
        obtain ⟨y, hy1, hy2⟩ := h.entry e (by rw [hbag]; exact Multiset.mem_cons_self _ _)
        have hxy : y = x := le_antisymm hy2 (hmin _ (h.unvis u y hy1 hv))
        rw [hxy] at hy1
        have mid : MidInv add edges start u x [] { s with heap := h' } := by
          refine ⟨h.walk, fun a ha => h.entry a (hsub a ha), ?_, hy1, hv, fun a ha => hmin a (hsub a ha), ?_, by simp, h.source⟩
          · intro j z hj hz hvj
            have := h.unvis j z hz hvj
            rw [hbag, Multiset.mem_cons] at this
            rcases this with hje | this
            · exfalso; apply hj; rw [hu, ← hje]; rfl
            · exact this
          · intro v hvv
            obtain ⟨z, h1, h2, h3⟩ := h.vis v hvv
            exact ⟨z, h1, h2 e (by rw [hbag]; exact Multiset.mem_cons_self _ _), h3⟩
        have hl : ∀ a ∈ out u, a ∈ edges ∧ a.2.2 < ⊤ ∧ a.1 = u ∧ 0 ≤ a.2.2 := fun a ha => by
          obtain ⟨h1, h2, h3⟩ := hout.mem.1 ha
          exact ⟨h1, h2, h3, hw a h1⟩
        obtain ⟨done, m, hd⟩ := foldl_relax_inv hadd (out u) hl mid
        have hvis' := foldl_relax_visited (add := add) x (out u) { s with heap := h' }
        have hcard' := foldl_relax_card (add := add) x (out u) { s with heap := h' }
        generalize hs' : (out u).foldl (relax add x) { s with heap := h' } = s' at m hvis' hcard'
        refine ih _ ⟨m.walk, m.entry, ?_, ?_, m.source⟩ ?_
        · intro j z hz hj
          dsimp only at hj
          split at hj
          · cases hj
          · rename_i hju
            exact m.unvis j z hju hz hj
        · intro v hvv
          dsimp only at hvv
          split at hvv
          · rename_i hvu
            subst hvu
            refine ⟨x, m.su, m.low, ?_⟩
            intro j w hj hjw
            exact m.dn _ (hd (_, j, w) (Or.inl (hout.mem.2 ⟨hj, hjw, rfl⟩)))
          · obtain ⟨z, h1, h2, h3⟩ := m.vis v hvv
            exact ⟨z, h1, fun a ha => h2.trans (m.low a ha), h3⟩
        · unfold dijMeasure at hm ⊢
          dsimp only
          rw [hvis']
          dsimp only
          have h1 := filter_visit (finiteEdges edges) s.visited u hv
          have h2 : (out u).length = ((finiteEdges edges).filter fun e => e.1 = u).length := (hout u).length_eq
          have h3 : (StdHeap.bag s'.heap).card ≤ (StdHeap.bag h').card + (out u).length := hcard'
          omega

theorem dijkstra_spec (hadd : IsLengthAddition add) (hout : AdjOf edges out) (hw : ∀ e ∈ edges, 0 ≤ e.2.2) (start : ℕ) {fuel : ℕ}
    (hf : edges.length + 2 ≤ fuel) :
    ∃ scores, dijkstra add out start fuel = some scores ∧ (∀ j x, scores j = some x → IsLeast {y | IsWalk add edges start j y} x) ∧
      ∀ j x, IsWalk add edges start j x → ∃ y, scores j = some y := by
  refine dijLoop_spec hadd hout hw fuel _ ⟨?_, ?_, ?_, ?_, ?_⟩ ?_
  · intro j x hx
    dsimp only [mapInsert] at hx
    split at hx
    · rename_i hj; subst hj; cases hx; exact .nil
    · cases hx
  · intro e he
    rw [StdHeap.bag_push, StdHeap.bag_empty] at he
    rw [Multiset.mem_cons] at he
    rcases he with rfl | he
    · exact ⟨0, by simp [minScored, mapInsert], le_rfl⟩
    · exact absurd he (Multiset.notMem_zero _)
  · intro j x hx _
    rw [StdHeap.bag_push]
    dsimp only [mapInsert] at hx
    split at hx
    · rename_i hj; subst hj; cases hx; exact Multiset.mem_cons_self _ _
    · cases hx
  · intro v hv; cases hv
  · exact ⟨0, by simp [mapInsert], le_rfl⟩
  · unfold dijMeasure
    dsimp only
    rw [StdHeap.bag_push, StdHeap.bag_empty]
    have h1 : ((finiteEdges edges).filter fun e => !false).length ≤ edges.length :=
      (List.length_filter_le _ _).trans (List.length_filter_le _ _)
    simp only [Multiset.card_cons, Multiset.card_zero]
    omega

theorem IsAdjacency.adjOf {adj : List (ℕ × ℕ × F) → ℕ → List (ℕ × ℕ × F)} (h : IsAdjacency adj) : AdjOf edges (adj (finiteEdges edges)) := fun u => h _ u

theorem IsShortestPaths.eq {sp sp' : ℕ → Option F} {start : ℕ} (h1 : ∀ j x, sp j = some x → IsLeast {y | IsWalk add edges start j y} x)
    (h2 : ∀ j x, IsWalk add edges start j x → ∃ y, sp j = some y) (h1' : ∀ j x, sp' j = some x → IsLeast {y | IsWalk add edges start j y} x)
    (h2' : ∀ j x, IsWalk add edges start j x → ∃ y, sp' j = some y) : sp = sp' := by
  funext j
  cases hs : sp j with
  | some x =>
    obtain ⟨y, hy⟩ := h2' j x (h1 j x hs).1
    rw [hy, (h1 j x hs).unique (h1' j y hy)]
  | none =>
    cases hs' : sp' j with
    | none => rfl
    | some x =>
      obtain ⟨y, hy⟩ := h2 j x (h1' j x hs').1
      rw [hs] at hy; cases hy

/-- The tables are the shortest path lengths. -/
theorem tables_spec {adj : List (ℕ × ℕ × F) → ℕ → List (ℕ × ℕ × F)} {sp : ℕ → ℕ → Option F} (hadd : IsLengthAddition add) (hadj : IsAdjacency adj)
    (hw : ∀ e ∈ edges, 0 ≤ e.2.2) (hsp : IsShortestPaths add edges sp) (n : ℕ) {fuel : ℕ} (hf : edges.length + 2 ≤ fuel) :
    dijkstraTables add adj n edges fuel = some ((List.range n).map sp) := by
  refine mapOpt_of_forall fun i _ => ?_
  obtain ⟨scores, h1, h2, h3⟩ := dijkstra_spec hadd (hadj.adjOf (edges := edges)) hw i hf
  rw [h1, IsShortestPaths.eq h2 h3 (hsp.least i) (hsp.reach i)]

theorem tableLookup_range {sp : ℕ → ℕ → Option F} {n i j : ℕ} (hi : i < n) : tableLookup ((List.range n).map sp) i j = sp i j := by
  simp [tableLookup, hi]

theorem buildFiltration_tables {sp : ℕ → ℕ → Option F} {n : ℕ} : buildFiltration n (tableLookup ((List.range n).map sp)) = buildFiltration n sp := by
  refine List.map_congr_left fun i hi => List.map_congr_left fun j _ => ?_
  rw [tableLookup_range (List.mem_range.1 hi)]

end
end Phlite
