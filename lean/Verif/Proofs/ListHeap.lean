/-
An implementation of the `StdHeap` contract (so that the class is inhabited): a list kept in descending key order.
It is not a model of std's array heap; the theorems hold for every implementation of the contract.
-/
import Verif.Model.Columns
import Mathlib.Data.List.Basic
import Mathlib.Data.Multiset.Basic
import Mathlib.Order.Lattice

set_option linter.unusedSectionVars false

namespace Phlite.ListHeap
variable {F Row CF : Type} [LinearOrder F] [LinearOrder Row]

/-- Insert before the first entry that is not larger. -/
def ins (e : Entry F Row CF) : List (Entry F Row CF) → List (Entry F Row CF)
  | [] => [e]
  | x :: l => if x.key ≤ e.key then e :: x :: l else x :: ins e l

theorem ins_perm (e : Entry F Row CF) (l : List (Entry F Row CF)) : (ins e l).Perm (e :: l) := by
  induction l with
  | nil => exact List.Perm.refl _
  | cons x l ih =>
    unfold ins; split
    · exact List.Perm.refl _
    · exact (ih.cons x).trans (List.Perm.swap e x l)

/-- Descending by key. -/
def Desc (l : List (Entry F Row CF)) : Prop := l.Pairwise fun a b => b.key ≤ a.key

theorem ins_desc (e : Entry F Row CF) (l : List (Entry F Row CF)) (h : Desc l) : Desc (ins e l) := by
  induction l with
  | nil => exact List.pairwise_singleton _ _
  | cons x l ih =>
    unfold ins
    have hx := List.pairwise_cons.1 h
    split
    · rename_i hle
      refine List.Pairwise.cons ?_ h
      intro y hy
      rcases List.mem_cons.1 hy with rfl | hy
      · exact hle
      · exact le_trans (hx.1 y hy) hle
    · rename_i hle
      refine List.Pairwise.cons ?_ (ih hx.2)
      intro y hy
      rcases List.mem_cons.1 ((ins_perm e l).mem_iff.1 hy) with rfl | hy
      · exact (lt_of_not_ge hle).le
      · exact hx.1 y hy

/-- The heap type. -/
def H (F Row CF : Type) [LinearOrder F] [LinearOrder Row] : Type := { l : List (Entry F Row CF) // Desc l }

def pop : H F Row CF → Option (Entry F Row CF × H F Row CF)
  | ⟨[], _⟩ => none
  | ⟨e :: l, h⟩ => some (e, ⟨l, (List.pairwise_cons.1 h).2⟩)

end Phlite.ListHeap

namespace Phlite

open ListHeap in
/-- The list heap satisfies the contract. Not a global instance: theorems are stated for every `StdHeap`. -/
@[reducible] def listHeap : StdHeap where
  H := ListHeap.H
  empty := ⟨[], List.Pairwise.nil⟩
  push h e := ⟨ins e h.1, ins_desc e h.1 h.2⟩
  pop := ListHeap.pop
  peek h := h.1.head?
  bag h := (h.1 : Multiset _)
  bag_empty := rfl
  bag_push h e := by
    exact Multiset.coe_eq_coe.2 (ins_perm e h.1)
  pop_none h hp := by
    obtain ⟨l, hl⟩ := h
    cases l with
    | nil => rfl
    | cons a l => simp [ListHeap.pop] at hp
  pop_bag h h' e hp := by
    obtain ⟨l, hl⟩ := h
    cases l with
    | nil => simp [ListHeap.pop] at hp
    | cons a l => simp only [ListHeap.pop, Option.some.injEq] at hp; cases hp; rfl
  pop_max h h' e hp := by
    obtain ⟨l, hl⟩ := h
    cases l with
    | nil => simp [ListHeap.pop] at hp
    | cons a l =>
      simp only [ListHeap.pop, Option.some.injEq] at hp
      cases hp
      intro x hx
      have hx : x ∈ e :: l := hx
      rcases List.mem_cons.1 hx with rfl | hx
      · exact le_refl _
      · exact (List.pairwise_cons.1 hl).1 x hx
  peek_pop h := by
    obtain ⟨l, hl⟩ := h
    cases l <;> rfl

end Phlite
