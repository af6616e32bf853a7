/-
Shortest path lengths exist.
-/
import Verif.Spec.Digraph
import Mathlib.Data.List.Nodup
import Mathlib.Data.Set.Finite.Basic
import Mathlib.Data.Set.Finite.Lattice
import Mathlib.Data.Set.Finite.List
import Mathlib.Data.Set.Finite.Lemmas

set_option linter.unusedSectionVars false
set_option linter.unusedSimpArgs false

namespace Phlite

theorem not_nodup_map_split {α β : Type} {f : α → β} {l : List α} (h : ¬ (l.map f).Nodup) :
    ∃ a e b e' c, l = a ++ e :: (b ++ e' :: c) ∧ f e = f e' := by
  induction l with
  | nil => simp at h
  | cons x l ih =>
    rw [List.map_cons, List.nodup_cons, not_and_or, not_not] at h
    rcases h with h | h
    · obtain ⟨y, hy, e⟩ := List.mem_map.1 h
      obtain ⟨b, c, rfl⟩ := List.append_of_mem hy
      exact ⟨[], x, b, y, c, rfl, e.symm⟩
    · obtain ⟨a, e, b, e', c, rfl, he⟩ := ih h
      exact ⟨x :: a, e, b, e', c, rfl, he⟩

section
variable {F : Type} [LinearOrder F] [Zero F] [OrderTop F] {add : F → F → F} {edges : List (ℕ × ℕ × F)}

/-- A list of edges is a path from `i` to `j`. -/
def EdgePath (edges : List (ℕ × ℕ × F)) : ℕ → List (ℕ × ℕ × F) → ℕ → Prop
  | i, [], j => i = j
  | i, e :: l, j => e.1 = i ∧ e ∈ edges ∧ e.2.2 < ⊤ ∧ EdgePath edges e.2.1 l j

theorem edgePath_append {l l' : List (ℕ × ℕ × F)} {i j : ℕ} :
    EdgePath edges i (l ++ l') j ↔ ∃ k, EdgePath edges i l k ∧ EdgePath edges k l' j := by
  induction l generalizing i with
  | nil => simp [EdgePath]
  | cons e l ih =>
    simp only [List.cons_append, EdgePath, ih]
    constructor
    · rintro ⟨h1, h2, h3, k, h4, h5⟩; exact ⟨k, ⟨h1, h2, h3, h4⟩, h5⟩
    · rintro ⟨k, ⟨h1, h2, h3, h4⟩, h5⟩; exact ⟨h1, h2, h3, k, h4, h5⟩

/-- The length of a path that is entered at `x`. -/
def pathLength (add : F → F → F) (x : F) (l : List (ℕ × ℕ × F)) : F := l.foldl (fun x e => add x e.2.2) x

theorem isWalk_iff {i j : ℕ} {x : F} : IsWalk add edges i j x ↔ ∃ l, EdgePath edges i l j ∧ pathLength add 0 l = x := by
  constructor
  · intro h
    induction h with
    | nil => exact ⟨[], rfl, rfl⟩
    | @snoc k j x w _ he hw ih =>
      obtain ⟨l, h1, rfl⟩ := ih
      refine ⟨l ++ [(k, j, w)], edgePath_append.2 ⟨k, h1, rfl, he, hw, rfl⟩, ?_⟩
      simp [pathLength]
  · rintro ⟨l, h, rfl⟩
    induction l using List.reverseRecOn generalizing j with
    | nil => cases h; exact IsWalk.nil
    | append_singleton l e ih =>
      obtain ⟨k, h1, h2, h3, h4, h5⟩ := edgePath_append.1 h
      have := IsWalk.snoc (j := e.2.1) (w := e.2.2) (ih h1) (by rw [← h2]; exact h3) h4
      rw [← show e.2.1 = j from h5]
      simpa [pathLength] using this

theorem pathLength_mono (hadd : IsLengthAddition add) {x y : F} (h : x ≤ y) (l : List (ℕ × ℕ × F)) : pathLength add x l ≤ pathLength add y l := by
  induction l generalizing x y with
  | nil => exact h
  | cons e l ih => exact ih (hadd.mono _ _ _ h)

theorem le_pathLength (hadd : IsLengthAddition add) (hw : ∀ e ∈ edges, 0 ≤ e.2.2) {i j : ℕ} {l : List (ℕ × ℕ × F)} (h : EdgePath edges i l j) (x : F) :
    x ≤ pathLength add x l := by
  induction l generalizing x i with
  | nil => exact le_rfl
  | cons e l ih => exact (hadd.le_add_right _ _ (hw _ h.2.1)).trans (ih h.2.2.2 _)

theorem edgePath_mem {i j : ℕ} {l : List (ℕ × ℕ × F)} (h : EdgePath edges i l j) : ∀ e ∈ l, e ∈ edges := by
  induction l generalizing i with
  | nil => simp
  | cons e l ih =>
    intro x hx
    rcases List.mem_cons.1 hx with rfl | hx
    · exact h.2.1
    · exact ih h.2.2.2 x hx

/-- Cycles can be removed from paths. -/
theorem exists_short (hadd : IsLengthAddition add) (hw : ∀ e ∈ edges, 0 ≤ e.2.2) {i j : ℕ} (l : List (ℕ × ℕ × F)) (h : EdgePath edges i l j) :
    ∃ l', EdgePath edges i l' j ∧ pathLength add 0 l' ≤ pathLength add 0 l ∧ (l'.map fun e => e.2.1).Nodup := by
  induction hn : l.length using Nat.strong_induction_on generalizing l with
  | _ m ih =>
    by_cases hnd : (l.map fun e => e.2.1).Nodup
    · exact ⟨l, h, le_rfl, hnd⟩
    obtain ⟨a, e, b, e', c, rfl, he⟩ := not_nodup_map_split hnd
    obtain ⟨k, h1, h2, h3, h4, h5⟩ := edgePath_append.1 h
    obtain ⟨k', h6, h7, h8, h9, h10⟩ := edgePath_append.1 h5
    have hp : EdgePath edges i (a ++ e :: c) j := edgePath_append.2 ⟨k, h1, h2, h3, h4, by rw [he]; exact h10⟩
    obtain ⟨l', q1, q2, q3⟩ := ih _ (by rw [← hn]; simp; omega) _ hp rfl
    refine ⟨l', q1, q2.trans ?_, q3⟩
    simp only [pathLength, List.foldl_append, List.foldl_cons]
    refine pathLength_mono hadd ?_ c
    exact (le_pathLength hadd hw h6 _).trans (hadd.le_add_right _ _ (hw _ h8))

/-- Nor need a path return to its start. -/
theorem exists_simple (hadd : IsLengthAddition add) (hw : ∀ e ∈ edges, 0 ≤ e.2.2) {i j : ℕ} (l : List (ℕ × ℕ × F)) (h : EdgePath edges i l j) :
    ∃ l', EdgePath edges i l' j ∧ pathLength add 0 l' ≤ pathLength add 0 l ∧ (i :: l'.map fun e => e.2.1).Nodup := by
  obtain ⟨m, h1, h2, h3⟩ := exists_short hadd hw l h
  by_cases hi : i ∈ m.map fun e => e.2.1
  · obtain ⟨e, he, hei⟩ := List.mem_map.1 hi
    obtain ⟨a, c, rfl⟩ := List.append_of_mem he
    obtain ⟨k, q1, q2, q3, q4, q5⟩ := edgePath_append.1 h1
    rw [hei] at q5
    refine ⟨c, q5, le_trans ?_ h2, ?_⟩
    · simp only [pathLength, List.foldl_append, List.foldl_cons]
      exact pathLength_mono hadd ((le_pathLength hadd hw q1 0).trans (hadd.le_add_right _ _ (hw _ q3))) c
    · rw [List.map_append, List.map_cons, List.nodup_append] at h3
      rw [← hei]
      exact h3.2.1
  · exact ⟨m, h1, h2, List.nodup_cons.2 ⟨hi, h3⟩⟩

/-- Every weighted digraph with non-negative weights has a table of shortest path lengths. -/
theorem exists_shortestPaths (hadd : IsLengthAddition add) (hw : ∀ e ∈ edges, 0 ≤ e.2.2) : ∃ sp, IsShortestPaths add edges sp := by
  classical
  have hfin : ∀ i j, (∃ x, IsWalk add edges i j x) → ∃ x, IsLeast {y | IsWalk add edges i j y} x := by
    rintro i j ⟨x, hx⟩
    obtain ⟨l, hl, rfl⟩ := isWalk_iff.1 hx
    set S : Set (List (ℕ × ℕ × F)) := {l | EdgePath edges i l j ∧ (l.map fun e => e.2.1).Nodup} with hS
    have hSf : S.Finite := by
      refine Set.Finite.subset (List.finite_length_le (α := {e // e ∈ edges}) edges.length |>.image (List.map Subtype.val)) ?_
      rintro l ⟨h1, h2⟩
      refine ⟨l.attachWith _ (edgePath_mem h1), ?_, List.attachWith_map_subtype_val _⟩
      show (l.attachWith _ (edgePath_mem h1)).length ≤ edges.length
      rw [List.length_attachWith]
      have := (h2.subperm (l₂ := edges.map fun e => e.2.1) fun v hv => by
        obtain ⟨e, he, rfl⟩ := List.mem_map.1 hv
        exact List.mem_map.2 ⟨e, edgePath_mem h1 e he, rfl⟩).length_le
      simpa using this
    obtain ⟨l', q1, q2, q3⟩ := exists_short hadd hw l hl
    obtain ⟨l₀, ⟨hl₀, _⟩, hmin⟩ := Set.exists_min_image S (pathLength add 0) hSf ⟨l', q1, q3⟩
    refine ⟨pathLength add 0 l₀, isWalk_iff.2 ⟨l₀, hl₀, rfl⟩, ?_⟩
    intro y hy
    obtain ⟨m, hm, rfl⟩ := isWalk_iff.1 hy
    obtain ⟨m', r1, r2, r3⟩ := exists_short hadd hw m hm
    exact (hmin m' ⟨r1, r3⟩).trans r2
  refine ⟨fun i j => if h : ∃ x, IsWalk add edges i j x then some (hfin i j h).choose else none, ?_, ?_⟩
  · intro i j x hx
    split at hx
    · rename_i h
      cases hx
      exact (hfin i j h).choose_spec
    · cases hx
  · intro i j x hx
    have h : ∃ x, IsWalk add edges i j x := ⟨x, hx⟩
    exact ⟨_, dif_pos h⟩

end
end Phlite
