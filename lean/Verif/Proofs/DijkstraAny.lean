/-
The shortest path computation on arbitrary weights: it terminates, and returns lengths of walks.
-/
import Verif.Proofs.Dijkstra

set_option linter.unusedSectionVars false
set_option linter.unusedSimpArgs false

namespace Phlite
open OrderDual (toDual ofDual)

section
variable {F : Type} [LinearOrder F] [Zero F] [OrderTop F]
variable {add : F → F → F} {edges : List (ℕ × ℕ × F)}

theorem IsWalkOf.isWalk {i j k : ℕ} {x : F} (h : IsWalkOf add edges i k j x) : IsWalk add edges i j x := by
  induction h with
  | nil => exact .nil
  | snoc _ he hw ih => exact .snoc ih he hw

theorem IsWalk.isWalkOf {i j : ℕ} {x : F} (h : IsWalk add edges i j x) : ∃ k, IsWalkOf add edges i k j x := by
  induction h with
  | nil => exact ⟨0, .nil⟩
  | snoc _ he hw ih =>
    obtain ⟨k, h⟩ := ih
    exact ⟨k + 1, .snoc h he hw⟩

theorem IsWalk.lt_of {i j n : ℕ} {x : F} (h : IsWalk add edges i j x) (hn : ∀ e ∈ edges, e.1 < n ∧ e.2.1 < n) (hi : i < n) : j < n := by
  cases h with
  | nil => exact hi
  | snoc _ he _ => exact (hn _ he).2

variable [StdHeap] {out : ℕ → List (ℕ × ℕ × F)} {start : ℕ}

/-- The invariant between two iterations; `vs` are the vertices visited. -/
structure AnyInv (add : F → F → F) (edges : List (ℕ × ℕ × F)) (start : ℕ) (vs : Finset ℕ) (s : DijState F) : Prop where
  vis : ∀ v, s.visited v = true ↔ v ∈ vs
  walk : ∀ j x, s.scores j = some x → ∃ k ≤ vs.card, IsWalkOf add edges start k j x
  entry : ∀ e ∈ StdHeap.bag s.heap, (∃ k ≤ vs.card, IsWalkOf add edges start k e.coeff (ofDual e.filt)) ∧ (s.scores e.coeff).isSome
  unvis : ∀ j, (s.scores j).isSome → s.visited j = false → ∃ e ∈ StdHeap.bag s.heap, e.coeff = j
  next : ∀ v ∈ vs, ∀ j w, (v, j, w) ∈ edges → w < ⊤ → (s.scores j).isSome
  source : (s.scores start).isSome
  scored : ∀ v ∈ vs, (s.scores v).isSome

/-- The invariant while the edges of `u` are relaxed; `c` bounds the number of edges of the walks. -/
structure AnyMid (add : F → F → F) (edges : List (ℕ × ℕ × F)) (start u : ℕ) (vs : Finset ℕ) (done : List (ℕ × ℕ × F)) (s : DijState F) : Prop where
  vis : ∀ v, s.visited v = true ↔ v ∈ vs
  walk : ∀ j x, s.scores j = some x → ∃ k ≤ vs.card + 1, IsWalkOf add edges start k j x
  entry : ∀ e ∈ StdHeap.bag s.heap, (∃ k ≤ vs.card + 1, IsWalkOf add edges start k e.coeff (ofDual e.filt)) ∧ (s.scores e.coeff).isSome
  unvis : ∀ j, j ≠ u → (s.scores j).isSome → s.visited j = false → ∃ e ∈ StdHeap.bag s.heap, e.coeff = j
  next : ∀ v ∈ vs, ∀ j w, (v, j, w) ∈ edges → w < ⊤ → (s.scores j).isSome
  source : (s.scores start).isSome
  scored : ∀ v ∈ insert u vs, (s.scores v).isSome
  dn : ∀ e ∈ done, (s.scores e.2.1).isSome

theorem AnyMid.cons {u : ℕ} {vs : Finset ℕ} {done : List (ℕ × ℕ × F)} {s : DijState F} (h : AnyMid add edges start u vs done s) {e : ℕ × ℕ × F}
    (he : (s.scores e.2.1).isSome) : AnyMid add edges start u vs (e :: done) s :=
  ⟨h.vis, h.walk, h.entry, h.unvis, h.next, h.source, h.scored, fun a ha => by
    rcases List.mem_cons.1 ha with rfl | ha
    · exact he
    · exact h.dn a ha⟩

theorem AnyMid.insert {u : ℕ} {x : F} {vs : Finset ℕ} {done : List (ℕ × ℕ × F)} {s : DijState F} (h : AnyMid add edges start u vs done s) {e : ℕ × ℕ × F}
    (hx : ∃ k ≤ vs.card, IsWalkOf add edges start k u x) (he : e ∈ edges) (hw : e.2.2 < ⊤) (hu : e.1 = u) :
    AnyMid add edges start u vs (e :: done)
      { s with scores := mapInsert s.scores e.2.1 (add x e.2.2), heap := StdHeap.push s.heap (minScored (add x e.2.2) e.2.1) } := by
  have hwalk : ∃ k ≤ vs.card + 1, IsWalkOf add edges start k e.2.1 (add x e.2.2) := by
    obtain ⟨k, hk, hx⟩ := hx
    exact ⟨k + 1, by omega, .snoc hx (by rw [← hu]; exact he) hw⟩
  have inc : ∀ j, (s.scores j).isSome → (mapInsert s.scores e.2.1 (add x e.2.2) j).isSome := by
    intro j hj
    unfold mapInsert
    split
    · rfl
    · exact hj
  have self : (mapInsert s.scores e.2.1 (add x e.2.2) e.2.1).isSome := by simp [mapInsert]
  refine ⟨h.vis, ?_, ?_, ?_, fun v hv j w h1 h2 => inc _ (h.next v hv j w h1 h2), inc _ h.source, fun v hv => inc _ (h.scored v hv), ?_⟩
  · intro j y hy
    dsimp only [mapInsert] at hy
    split at hy
    · rename_i hj; subst hj; cases hy; exact hwalk
    · exact h.walk j y hy
  · intro a ha
    rw [StdHeap.bag_push, Multiset.mem_cons] at ha
    rcases ha with rfl | ha
    · exact ⟨hwalk, self⟩
    · exact ⟨(h.entry a ha).1, inc _ (h.entry a ha).2⟩
  · intro j hj hy hvj
    dsimp only [mapInsert] at hy
    split at hy
    · rename_i hje
      exact ⟨minScored (add x e.2.2) e.2.1, by rw [StdHeap.bag_push]; exact Multiset.mem_cons_self _ _, hje.symm⟩
    · obtain ⟨a, ha, h1⟩ := h.unvis j hj hy hvj
      exact ⟨a, by rw [StdHeap.bag_push]; exact Multiset.mem_cons_of_mem ha, h1⟩
  · intro a ha
    rcases List.mem_cons.1 ha with rfl | ha
    · exact self
    · exact inc _ (h.dn a ha)

theorem relax_any {u : ℕ} {x : F} {vs : Finset ℕ} {done : List (ℕ × ℕ × F)} {s : DijState F} (h : AnyMid add edges start u vs done s) {e : ℕ × ℕ × F}
    (hx : ∃ k ≤ vs.card, IsWalkOf add edges start k u x) (he : e ∈ edges) (hw : e.2.2 < ⊤) (hu : e.1 = u) :
    AnyMid add edges start u vs (e :: done) (relax add x s e) := by
  unfold relax
  split
  · rename_i hv
    exact h.cons (h.scored _ (Finset.mem_insert_of_mem ((h.vis _).1 hv)))
  · dsimp only
    split
    · rename_i old hold
      split
      · exact h.insert hx he hw hu
      · exact h.cons (by rw [hold]; rfl)
    · exact h.insert hx he hw hu

theorem foldl_relax_any {u : ℕ} {x : F} {vs : Finset ℕ} (hx : ∃ k ≤ vs.card, IsWalkOf add edges start k u x) (l : List (ℕ × ℕ × F))
    (hl : ∀ e ∈ l, e ∈ edges ∧ e.2.2 < ⊤ ∧ e.1 = u) : ∀ {done : List (ℕ × ℕ × F)} {s : DijState F}, AnyMid add edges start u vs done s →
      ∃ done', AnyMid add edges start u vs done' (l.foldl (relax add x) s) ∧ ∀ e, e ∈ l ∨ e ∈ done → e ∈ done' := by
  induction l with
  | nil => intro done s h; exact ⟨done, h, fun e he => by simpa using he⟩
  | cons a l ih =>
    intro done s h
    obtain ⟨h1, h2, h3⟩ := hl a (by simp)
    obtain ⟨d, h5, h6⟩ := ih (fun e he => hl e (by simp [he])) (relax_any h hx h1 h2 h3)
    refine ⟨d, h5, fun e he => h6 e ?_⟩
    simp only [List.mem_cons] at he ⊢
    tauto

/-- What the loop returns, for any weights and any addition; the vertices are those below `n`. -/
theorem dijLoop_any {n : ℕ} (hn : ∀ e ∈ edges, e.1 < n ∧ e.2.1 < n) (hstart : start < n) (hout : AdjOf edges out) :
    ∀ (fuel : ℕ) (s : DijState F) (vs : Finset ℕ), AnyInv add edges start vs s → dijMeasure edges s < fuel →
      ∃ scores, dijLoop add out fuel s = some scores ∧ (∀ fuel' ≥ fuel, dijLoop add out fuel' s = some scores) ∧
        (∀ j x, scores j = some x → ∃ k ≤ n, IsWalkOf add edges start k j x) ∧
        ∀ j x, IsWalk add edges start j x → ∃ y, scores j = some y := by
  intro fuel
  induction fuel with
  | zero => intro s _ _ h; exact absurd h (Nat.not_lt_zero _)
  | succ fuel ih =>
    intro s vs h hm
    have hvsn : vs ⊆ Finset.range n := by
      intro v hv
      obtain ⟨x, hx⟩ := Option.isSome_iff_exists.1 (h.scored v hv)
      obtain ⟨k, _, hk⟩ := h.walk v x hx
      exact Finset.mem_range.2 (hk.isWalk.lt_of hn hstart)
    have hcardn : vs.card ≤ n := by simpa using Finset.card_le_card hvsn
    cases hp : StdHeap.pop s.heap with
    | none =>
      have hb := StdHeap.pop_none _ hp
      have hrun : ∀ m, dijLoop add out (m + 1) s = some s.scores := by intro m; rw [dijLoop]; simp only [hp]
      refine ⟨s.scores, hrun _, fun fuel' hf' => ?_, ?_, ?_⟩
      · obtain ⟨m, rfl⟩ : ∃ m, fuel' = m + 1 := ⟨fuel' - 1, by omega⟩
        exact hrun m
      · intro j x hx
        obtain ⟨k, hk, hw⟩ := h.walk j x hx
        exact ⟨k, hk.trans hcardn, hw⟩
      · have hvis : ∀ j, (s.scores j).isSome → j ∈ vs := by
          intro j hj
          rw [← h.vis]
          by_contra hc
          rw [Bool.not_eq_true] at hc
          obtain ⟨e, he, _⟩ := h.unvis j hj hc
          rw [hb] at he
          exact absurd he (Multiset.notMem_zero _)
        intro j x hx
        refine Option.isSome_iff_exists.1 ?_
        induction hx with
        | nil => exact h.source
        | snoc _ he hlt ih => exact h.next _ (hvis _ ih) _ _ he hlt
    | some p =>
      obtain ⟨e, h'⟩ := p
      have hbag := StdHeap.pop_bag _ _ _ hp
      have hsub : ∀ a ∈ StdHeap.bag h', a ∈ StdHeap.bag s.heap := fun a ha => by rw [hbag]; exact Multiset.mem_cons_of_mem ha
      have hcard : (StdHeap.bag s.heap).card = (StdHeap.bag h').card + 1 := by rw [hbag, Multiset.card_cons]
      obtain ⟨hwe, hse⟩ := h.entry e (by rw [hbag]; exact Multiset.mem_cons_self _ _)
      by_cases hv : s.visited e.coeff = true
      · have hrun : ∀ m, dijLoop add out (m + 1) s = dijLoop add out m { s with heap := h' } := by
          intro m; rw [dijLoop]; simp only [hp, hv, if_true]
        have hi : AnyInv add edges start vs { s with heap := h' } := by
          refine ⟨h.vis, h.walk, fun a ha => h.entry a (hsub a ha), ?_, h.next, h.source, h.scored⟩
          intro j hx hj
          obtain ⟨a, ha, haj⟩ := h.unvis j hx hj
          rw [hbag, Multiset.mem_cons] at ha
          rcases ha with rfl | ha
          · rw [haj] at hv
            rw [show s.visited j = true from hv] at hj; cases hj
          · exact ⟨a, ha, haj⟩
        have hme : dijMeasure edges { s with heap := h' } < fuel := by
          unfold dijMeasure at hm ⊢
          dsimp only
          omega
        obtain ⟨scores, a1, a2, a3⟩ := ih _ vs hi hme
        refine ⟨scores, (hrun _).trans a1, fun fuel' hf' => ?_, a3⟩
        obtain ⟨m, rfl⟩ : ∃ m, fuel' = m + 1 := ⟨fuel' - 1, by omega⟩
        exact (hrun m).trans (a2 m (by omega))
      · rw [Bool.not_eq_true] at hv
        set u := e.coeff with hu
        set x : F := ofDual e.filt with hx
        have huv : u ∉ vs := fun hc => by rw [(h.vis u).2 hc] at hv; cases hv
        have hins : (insert u vs).card = vs.card + 1 := Finset.card_insert_of_notMem huv
        have mid : AnyMid add edges start u vs [] { s with heap := h' } := by
          refine ⟨h.vis, ?_, ?_, ?_, h.next, h.source, ?_, by simp⟩
          · intro j y hy
            obtain ⟨k, hk, hw⟩ := h.walk j y hy
            exact ⟨k, by omega, hw⟩
          · intro a ha
            obtain ⟨⟨k, hk, hw⟩, hs⟩ := h.entry a (hsub a ha)
            exact ⟨⟨k, by omega, hw⟩, hs⟩
          · intro j hj hz hvj
            obtain ⟨a, ha, haj⟩ := h.unvis j hz hvj
            rw [hbag, Multiset.mem_cons] at ha
            rcases ha with rfl | ha
            · exact absurd haj.symm hj
            · exact ⟨a, ha, haj⟩
          · intro v hvv
            rcases Finset.mem_insert.1 hvv with rfl | hvv
            · exact hse
            · exact h.scored v hvv
        have hl : ∀ a ∈ out u, a ∈ edges ∧ a.2.2 < ⊤ ∧ a.1 = u := fun a ha => hout.mem.1 ha
        obtain ⟨done, m, hd⟩ := foldl_relax_any hwe (out u) hl mid
        have hvis' := foldl_relax_visited (add := add) x (out u) { s with heap := h' }
        have hcard' := foldl_relax_card (add := add) x (out u) { s with heap := h' }
        have hrun : ∀ m, dijLoop add out (m + 1) s = dijLoop add out m
            { (out u).foldl (relax add x) { s with heap := h' } with
              visited := fun v => if v = u then true else ((out u).foldl (relax add x) { s with heap := h' }).visited v } := by
          intro m; rw [dijLoop]; simp only [hp, ← hu, hv, Bool.false_eq_true, if_false, ← hx]
        generalize (out u).foldl (relax add x) { s with heap := h' } = s' at m hvis' hcard' hrun
        have hi : AnyInv add edges start (insert u vs) { s' with visited := fun v => if v = u then true else s'.visited v } := by
          refine ⟨?_, by rw [hins]; exact m.walk, by rw [hins]; exact m.entry, ?_, ?_, m.source, m.scored⟩
          · intro v
            dsimp only
            split
            · rename_i hvu; simp [hvu]
            · rename_i hvu; rw [m.vis, Finset.mem_insert]; simp [hvu]
          · intro j hz hj
            dsimp only at hj
            split at hj
            · cases hj
            · rename_i hju
              exact m.unvis j hju hz hj
          · intro v hvv j w hj hjw
            rcases Finset.mem_insert.1 hvv with rfl | hvv
            · exact m.dn _ (hd (_, j, w) (Or.inl (hout.mem.2 ⟨hj, hjw, rfl⟩)))
            · exact m.next v hvv j w hj hjw
        have hme : dijMeasure edges { s' with visited := fun v => if v = u then true else s'.visited v } < fuel := by
          unfold dijMeasure at hm ⊢
          dsimp only
          rw [hvis']
          dsimp only
          have h1 := filter_visit (finiteEdges edges) s.visited u hv
          have h2 : (out u).length = ((finiteEdges edges).filter fun e => e.1 = u).length := (hout u).length_eq
          have h3 : (StdHeap.bag s'.heap).card ≤ (StdHeap.bag h').card + (out u).length := hcard'
          omega
        obtain ⟨scores, a1, a2, a3⟩ := ih _ _ hi hme
        refine ⟨scores, (hrun _).trans a1, fun fuel' hf' => ?_, a3⟩
        obtain ⟨m, rfl⟩ : ∃ m, fuel' = m + 1 := ⟨fuel' - 1, by omega⟩
        exact (hrun m).trans (a2 m (by omega))

theorem dijkstra_any {n : ℕ} (hn : ∀ e ∈ edges, e.1 < n ∧ e.2.1 < n) (hstart : start < n) (hout : AdjOf edges out) :
    ∃ scores, (∀ fuel ≥ edges.length + 2, dijkstra add out start fuel = some scores) ∧
      (∀ j x, scores j = some x → ∃ k ≤ n, IsWalkOf add edges start k j x) ∧ ∀ j x, IsWalk add edges start j x → ∃ y, scores j = some y := by
  have hi : AnyInv add edges start ∅ ⟨fun _ => false, mapInsert (fun _ => none) start 0, StdHeap.push StdHeap.empty (minScored 0 start)⟩ := by
    refine ⟨?_, ?_, ?_, ?_, ?_, ?_, ?_⟩
    · simp
    · intro j x hx
      dsimp only [mapInsert] at hx
      split at hx
      · rename_i hj; subst hj; cases hx; exact ⟨0, by simp, .nil⟩
      · cases hx
    · intro e he
      rw [StdHeap.bag_push, StdHeap.bag_empty] at he
      rw [Multiset.mem_cons] at he
      rcases he with rfl | he
      · exact ⟨⟨0, by simp, .nil⟩, by simp [minScored, mapInsert]⟩
      · exact absurd he (Multiset.notMem_zero _)
    · intro j hx _
      dsimp only [mapInsert] at hx
      split at hx
      · rename_i hj; subst hj
        exact ⟨minScored 0 j, by rw [StdHeap.bag_push]; exact Multiset.mem_cons_self _ _, rfl⟩
      · cases hx
    · intro v hv; simp at hv
    · simp [mapInsert]
    · intro v hv; simp at hv
  have hme : dijMeasure edges (⟨fun _ => false, mapInsert (fun _ => none) start 0, StdHeap.push StdHeap.empty (minScored 0 start)⟩ : DijState F) < edges.length + 2 := by
    unfold dijMeasure
    dsimp only
    rw [StdHeap.bag_push, StdHeap.bag_empty]
    have h1 : ((finiteEdges edges).filter fun e => !false).length ≤ edges.length :=
      (List.length_filter_le _ _).trans (List.length_filter_le _ _)
    simp only [Multiset.card_cons, Multiset.card_zero]
    omega
  obtain ⟨scores, _, a2, a3⟩ := dijLoop_any hn hstart hout _ _ _ hi hme
  exact ⟨scores, a2, a3⟩

end
end Phlite
