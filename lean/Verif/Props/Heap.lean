/-
C63: the binary heap of Rust's standard library, on which the columns and the shortest path search rest.
-/
import Verif.Proofs.BinaryHeap
import Verif.Props.GrPPHEdges

set_option linter.unusedSectionVars false
set_option linter.unusedSimpArgs false

namespace Phlite
open ArrayHeap

section
variable {α κ : Type} [LinearOrder κ] {key : α → κ}

/-- An operation on a heap. -/
inductive HeapOp (α : Type)
  | push (x : α)
  | pop

/-- A history of operations on the array; the elements popped, in order. A `pop` of an empty heap returns nothing and does nothing. -/
def heapHistory (key : α → κ) : List (HeapOp α) → Array α → List (Option α) × Array α
  | [], a => ([], a)
  | .push x :: ops, a => heapHistory key ops (ArrayHeap.push key a x)
  | .pop :: ops, a => match ArrayHeap.pop key a with
    | none => (none :: (heapHistory key ops a).1, (heapHistory key ops a).2)
    | some (x, b) => (some x :: (heapHistory key ops b).1, (heapHistory key ops b).2)

/-- Specification of a priority queue: `popped` and `rest` are possible for these operations on a queue with the elements `q`: a `pop` returns some element of the
largest key and removes it. -/
inductive IsQueueHistory (key : α → κ) : List (HeapOp α) → Multiset α → List (Option α) → Multiset α → Prop
  | nil (q) : IsQueueHistory key [] q [] q
  | push {x ops q popped rest} : IsQueueHistory key ops (x ::ₘ q) popped rest → IsQueueHistory key (.push x :: ops) q popped rest
  | pop_empty {ops popped rest} : IsQueueHistory key ops 0 popped rest → IsQueueHistory key (.pop :: ops) 0 (none :: popped) rest
  | pop {x ops q popped rest} : (∀ y ∈ q, key y ≤ key x) → IsQueueHistory key ops q popped rest → IsQueueHistory key (.pop :: ops) (x ::ₘ q) (some x :: popped) rest

theorem heapHistory_spec (ops : List (HeapOp α)) : ∀ {a : Array α}, IsHeap key a →
    IsQueueHistory key ops (a.toList : Multiset α) (heapHistory key ops a).1 ((heapHistory key ops a).2.toList : Multiset α) := by
  induction ops with
  | nil => intro a _; exact .nil _
  | cons op ops ih =>
    intro a ha
    cases op with
    | push x =>
      refine .push ?_
      have := ih (push_heap ha x)
      have he : ((ArrayHeap.push key a x).toList : Multiset α) = x ::ₘ (a.toList : Multiset α) := by
        rw [Multiset.cons_coe]
        refine Multiset.coe_eq_coe.2 ((Array.perm_iff_toList_perm.1 (push_perm _ _)).trans ?_)
        rw [Array.toList_push]
        exact List.perm_append_comm
      rw [he] at this
      exact this
    | pop =>
      unfold heapHistory
      split
      · rename_i hn
        have h0 := ArrayHeap.pop_none hn
        subst h0
        exact .pop_empty (ih ha)
      · rename_i x b hn
        obtain ⟨h1, h2, _, h4⟩ := pop_spec ha hn
        rw [Multiset.coe_eq_coe.2 h2, ← Multiset.cons_coe]
        exact .pop (fun y hy => h4 y (h2.mem_iff.2 (List.mem_cons_of_mem _ (Multiset.mem_coe.1 hy)))) (ih h1)

/-- C63: every history of pushes and pops of the standard library's array heap, from the empty heap on, is a history of a priority queue. -/
theorem C63_heap_histories (ops : List (HeapOp α)) :
    IsQueueHistory key ops 0 (heapHistory key ops #[]).1 ((heapHistory key ops #[]).2.toList : Multiset α) :=
  heapHistory_spec ops fun i h => by simp at h

/-- C63: pushing the elements of a list and popping them gives the elements in descending order. -/
theorem C63_heap_sort (l : List α) :
    ∃ r : List α, (heapHistory key (l.map HeapOp.push ++ List.replicate l.length .pop) #[]).1 = r.map some ∧ r.Perm l ∧ r.Pairwise fun x y => key y ≤ key x := by
  have drain : ∀ (m : ℕ) (a : Array α), IsHeap key a → a.size = m →
      ∃ r : List α, (heapHistory key (List.replicate m .pop) a).1 = r.map some ∧ r.Perm a.toList ∧ r.Pairwise fun x y => key y ≤ key x := by
    intro m
    induction m with
    | zero =>
      intro a _ hs
      have : a = #[] := Array.size_eq_zero_iff.1 hs
      subst this
      exact ⟨[], rfl, List.Perm.refl _, List.Pairwise.nil⟩
    | succ m ih =>
      intro a ha hs
      rw [List.replicate_succ]
      unfold heapHistory
      split
      · rename_i hn
        rw [ArrayHeap.pop_none hn] at hs; simp at hs
      · rename_i x b hn
        obtain ⟨h1, h2, _, h4⟩ := pop_spec ha hn
        obtain ⟨r, h5, h6, h7⟩ := ih b h1 (by
          have := h2.length_eq
          simp only [Array.length_toList, List.length_cons] at this
          omega)
        refine ⟨x :: r, by rw [List.map_cons, ← h5], (h6.cons x).trans h2.symm, List.Pairwise.cons (fun y hy => ?_) h7⟩
        exact h4 y (h2.mem_iff.2 (List.mem_cons_of_mem _ (h6.mem_iff.1 hy)))
  have fill : ∀ (l : List α) (a : Array α) (rest : List (HeapOp α)), IsHeap key a →
      ∃ b, heapHistory key (l.map HeapOp.push ++ rest) a = heapHistory key rest b ∧ IsHeap key b ∧ b.toList.Perm (l ++ a.toList) := by
    intro l
    induction l with
    | nil => intro a rest ha; exact ⟨a, rfl, ha, List.Perm.refl _⟩
    | cons x l ih =>
      intro a rest ha
      obtain ⟨b, h1, h2, h3⟩ := ih (ArrayHeap.push key a x) rest (push_heap ha x)
      refine ⟨b, h1, h2, h3.trans ?_⟩
      have h4 := Array.perm_iff_toList_perm.1 (push_perm (key := key) a x)
      rw [Array.toList_push] at h4
      refine (h4.append_left l).trans ?_
      rw [List.cons_append]
      refine (List.perm_append_comm_assoc l a.toList [x]).trans ?_
      refine (List.perm_append_comm (l₁ := a.toList)).trans ?_
      rw [List.append_assoc]
      refine (List.perm_append_comm (l₁ := l)).trans ?_
      rw [List.append_assoc, List.singleton_append]
      exact List.Perm.cons _ List.perm_append_comm
  obtain ⟨b, h1, h2, h3⟩ := fill l #[] (List.replicate l.length .pop) fun i h => by simp at h
  rw [h1]
  simp only [List.append_nil] at h3
  obtain ⟨r, h4, h5, h6⟩ := drain l.length b h2 (by rw [← Array.length_toList, h3.length_eq])
  exact ⟨r, h4, h5.trans h3, h6⟩

/-- A history with ties: of the two entries of key 3 the one pushed first is popped first here. -/
example : (heapHistory (fun x : ℕ × ℕ => x.1) [.push (1, 0), .push (3, 1), .pop, .push (2, 2), .push (3, 3), .push (3, 4), .pop, .pop, .pop, .pop, .pop] #[]).1 =
    [some (3, 1), some (3, 3), some (3, 4), some (2, 2), some (1, 0), none] := by decide +kernel

end

/-- C63: the heap of the standard library is one of the heaps over which the other theorems range. -/
theorem C63_contract {F Row CF : Type} [LinearOrder F] [LinearOrder Row] :
    (arrayHeap.H F Row CF = { a : Array (Entry F Row CF) // IsHeap Entry.key a }) ∧
    (∀ (h : arrayHeap.H F Row CF) e, (arrayHeap.push h e).1 = ArrayHeap.push Entry.key h.1 e) ∧
    (∀ h : arrayHeap.H F Row CF, (arrayHeap.pop h).map (fun p => (p.1, p.2.1)) = ArrayHeap.pop Entry.key h.1) ∧
    (∀ h : arrayHeap.H F Row CF, arrayHeap.peek h = ArrayHeap.peek h.1) ∧ (arrayHeap.empty : arrayHeap.H F Row CF).1 = #[] := by
  refine ⟨rfl, fun _ _ => rfl, fun h => ?_, fun _ => rfl, rfl⟩
  unfold StdHeap.pop arrayHeap
  dsimp only
  split
  · rename_i hn; exact hn.symm
  · rename_i hn; exact hn.symm

namespace GraphExample

set_option synthInstance.maxSize 2000 in
set_option synthInstance.maxHeartbeats 200000 in
/-- The run of C61 with the standard library's heap. -/
example : (letI := arrayHeap; grpphWithInvolutionEdges Z2 (fun x y => x + y) newestFirst (fun l => l) GrPPHExample.enumE GrPPHExample.enumP GrPPHExample.enumB 6 edges 7 100
      (fun i => i + 1)) =
    some ([[0, 0, 0], []], [[], [(0, 10), (0, 1)]], [[(1, 0), (0, 1)], [(4, 3), (3, 4)]]) := by
  decide +kernel

end GraphExample
end Phlite
