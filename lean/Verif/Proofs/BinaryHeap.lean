/-
The array heap of Rust's standard library satisfies the contract `StdHeap`.
-/
import Verif.Model.BinaryHeap
import Mathlib.Data.Multiset.Basic
import Mathlib.Order.Lattice

set_option linter.unusedSectionVars false
set_option linter.unusedSimpArgs false

namespace Phlite.ArrayHeap
variable {α κ : Type} [LinearOrder κ] {key : α → κ}

/-- Every element is at most its parent. -/
def IsHeap (key : α → κ) (a : Array α) : Prop := ∀ i (h : i < a.size), 0 < i → key a[i] ≤ key a[(i - 1) / 2]

/-- All is well except that the element at `pos` may be larger than its parent. -/
structure UpInv (key : α → κ) (a : Array α) (pos : ℕ) : Prop where
  ok : ∀ i (h : i < a.size), 0 < i → i ≠ pos → key a[i] ≤ key a[(i - 1) / 2]
  kids : ∀ i (h : i < a.size) (_ : 0 < i) (_ : (i - 1) / 2 = pos) (_ : 0 < pos), key a[i] ≤ key (a[(pos - 1) / 2]'(by omega))

/-- All is well except that the element at `pos` may be smaller than its children. -/
structure DownInv (key : α → κ) (a : Array α) (pos : ℕ) : Prop where
  ok : ∀ i (h : i < a.size), 0 < i → i ≠ pos → (i - 1) / 2 ≠ pos → key a[i] ≤ key a[(i - 1) / 2]
  kids : ∀ i (h : i < a.size) (_ : 0 < i) (_ : (i - 1) / 2 = pos) (_ : 0 < pos), key a[i] ≤ key (a[(pos - 1) / 2]'(by omega))

theorem siftUp_size (fuel : ℕ) : ∀ (a : Array α) (pos : ℕ), (siftUp key fuel a pos).size = a.size := by
  induction fuel with
  | zero => intro a pos; rfl
  | succ fuel ih =>
    intro a pos
    unfold siftUp
    split
    · dsimp only
      split
      · rfl
      · rw [ih, Array.size_swap]
    · rfl

theorem siftUp_perm (fuel : ℕ) : ∀ (a : Array α) (pos : ℕ), (siftUp key fuel a pos).Perm a := by
  induction fuel with
  | zero => intro a pos; exact .refl _
  | succ fuel ih =>
    intro a pos
    unfold siftUp
    split
    · dsimp only
      split
      · exact .refl _
      · exact (ih _ _).trans (Array.swap_perm _ _)
    · exact .refl _

theorem siftUp_heap (fuel : ℕ) : ∀ (a : Array α) (pos : ℕ), pos ≤ fuel → pos < a.size → UpInv key a pos → IsHeap key (siftUp key fuel a pos) := by
  induction fuel with
  | zero =>
    intro a pos hf hs h i hi h0
    exact h.ok i hi h0 (by omega)
  | succ fuel ih =>
    intro a pos hf hs h
    unfold siftUp
    split
    · rename_i hpos
      dsimp only
      split
      · rename_i hle
        intro i hi h0
        by_cases hip : i = pos
        · subst hip; exact hle
        · exact h.ok i hi h0 hip
      · rename_i hlt
        rw [not_le] at hlt
        refine ih _ _ (by omega) (by rw [Array.size_swap]; omega) ⟨?_, ?_⟩
        · intro i hi h0 hne
          rw [Array.size_swap] at hi
          rw [Array.getElem_swap, Array.getElem_swap]
          by_cases h1 : i = pos
          · subst h1
            rw [if_pos rfl, if_neg (by omega), if_pos rfl]
            exact hlt.le
          · rw [if_neg h1, if_neg hne]
            by_cases h2 : (i - 1) / 2 = pos
            · rw [if_pos h2]; exact h.kids i hi h0 h2 hpos.1
            · rw [if_neg h2]
              split
              · rename_i h3
                have := h.ok i hi h0 h1
                simp only [h3] at this
                exact this.trans hlt.le
              · exact h.ok i hi h0 h1
        · intro i hi h0 hpar hpp
          rw [Array.size_swap] at hi
          have hgp : key a[(pos - 1) / 2] ≤ key (a[((pos - 1) / 2 - 1) / 2]'(by omega)) := h.ok _ (by omega) hpp (by omega)
          rw [Array.getElem_swap, Array.getElem_swap]
          rw [if_neg (show ¬ ((pos - 1) / 2 - 1) / 2 = pos by omega), if_neg (show ¬ ((pos - 1) / 2 - 1) / 2 = (pos - 1) / 2 by omega)]
          by_cases h1 : i = pos
          · rw [if_pos h1]; exact hgp
          · rw [if_neg h1, if_neg (by omega)]
            have := h.ok i hi h0 h1
            simp only [hpar] at this
            exact this.trans hgp
    · rename_i hpos
      intro i hi h0
      exact h.ok i hi h0 (by omega)

theorem push_size (a : Array α) (x : α) : (push key a x).size = a.size + 1 := by
  unfold push; rw [siftUp_size, Array.size_push]

theorem push_perm (a : Array α) (x : α) : (push key a x).Perm (a.push x) := siftUp_perm _ _ _

theorem push_heap {a : Array α} (h : IsHeap key a) (x : α) : IsHeap key (push key a x) := by
  refine siftUp_heap _ _ _ le_rfl (by rw [Array.size_push]; omega) ⟨?_, ?_⟩
  · intro i hi h0 hne
    rw [Array.size_push] at hi
    have hi' : i < a.size := by omega
    rw [Array.getElem_push, Array.getElem_push, dif_pos hi', dif_pos (show (i - 1) / 2 < a.size by omega)]
    exact h i hi' h0
  · intro i hi h0 hpar
    rw [Array.size_push] at hi
    omega

theorem siftDown_step {a : Array α} {pos c : ℕ} (h : DownInv key a pos) (hc : c < a.size) (hpar : (c - 1) / 2 = pos) (h0 : 0 < c)
    (hmax : ∀ i (hi : i < a.size), 0 < i → (i - 1) / 2 = pos → key a[i] ≤ key a[c]) : DownInv key (a.swap pos c (by omega) hc) c := by
  constructor
  · intro i hi hi0 hne hpar'
    rw [Array.size_swap] at hi
    rw [Array.getElem_swap, Array.getElem_swap]
    by_cases h1 : i = pos
    · rw [if_pos h1, if_neg (by omega), if_neg hpar']
      have := h.kids c hc h0 hpar (by omega)
      simp only [h1]; exact this
    · rw [if_neg h1, if_neg hne]
      by_cases h2 : (i - 1) / 2 = pos
      · rw [if_pos h2]; exact hmax i hi hi0 h2
      · rw [if_neg h2, if_neg hpar']
        exact h.ok i hi hi0 h1 h2
  · intro i hi hi0 hpar' _
    rw [Array.size_swap] at hi
    rw [Array.getElem_swap, Array.getElem_swap]
    rw [if_neg (show ¬ i = pos by omega), if_neg (show ¬ i = c by omega), if_pos hpar]
    have := h.ok i hi hi0 (by omega) (by omega)
    simp only [hpar'] at this
    exact this

theorem siftDown_spec (fuel : ℕ) : ∀ (a : Array α) (pos : ℕ), a.size ≤ pos + fuel → pos < a.size → DownInv key a pos →
    UpInv key (siftDown key fuel a pos).1 (siftDown key fuel a pos).2 ∧ (siftDown key fuel a pos).1.Perm a ∧
      (siftDown key fuel a pos).2 < (siftDown key fuel a pos).1.size := by
  induction fuel with
  | zero => intro a pos h1 h2; omega
  | succ fuel ih =>
    intro a pos hf hs h
    unfold siftDown
    dsimp only
    split
    · rename_i hc
      split
      · rename_i hle
        have hd := siftDown_step h (c := 2 * pos + 1 + 1) hc (by omega) (by omega) (by
          intro i hi hi0 hp
          have : i = 2 * pos + 1 ∨ i = 2 * pos + 1 + 1 := by omega
          rcases this with rfl | rfl
          · exact hle
          · exact le_rfl)
        obtain ⟨h1, h2, h3⟩ := ih _ _ (by rw [Array.size_swap]; omega) (by rw [Array.size_swap]; omega) hd
        exact ⟨h1, h2.trans (Array.swap_perm _ _), h3⟩
      · rename_i hle
        rw [not_le] at hle
        have hd := siftDown_step h (c := 2 * pos + 1) (by omega) (by omega) (by omega) (by
          intro i hi hi0 hp
          have : i = 2 * pos + 1 ∨ i = 2 * pos + 1 + 1 := by omega
          rcases this with rfl | rfl
          · exact le_rfl
          · exact hle.le)
        obtain ⟨h1, h2, h3⟩ := ih _ _ (by rw [Array.size_swap]; omega) (by rw [Array.size_swap]; omega) hd
        exact ⟨h1, h2.trans (Array.swap_perm _ _), h3⟩
    · split
      · rename_i hc
        have hd := siftDown_step h (c := 2 * pos + 1) (by omega) (by omega) (by omega) (by
          intro i hi hi0 hp
          have : i = 2 * pos + 1 := by omega
          subst this
          exact le_rfl)
        refine ⟨⟨fun i hi hi0 hne => ?_, hd.kids⟩, Array.swap_perm _ _, by rw [Array.size_swap]; omega⟩
        have : i < a.size := by rw [Array.size_swap] at hi; exact hi
        exact hd.ok i hi hi0 hne (by omega)
      · exact ⟨⟨fun i hi hi0 hne => h.ok i hi hi0 hne (by have : i < a.size := hi; omega), h.kids⟩, .refl _, hs⟩

theorem siftDownToBottom_spec {a : Array α} (hs : 0 < a.size) (h : DownInv key a 0) : IsHeap key (siftDownToBottom key a) ∧ (siftDownToBottom key a).Perm a := by
  obtain ⟨h1, h2, h3⟩ := siftDown_spec a.size a 0 (by omega) hs h
  exact ⟨siftUp_heap _ _ _ le_rfl h3 h1, (siftUp_perm _ _ _).trans h2⟩

theorem root_max {a : Array α} (h : IsHeap key a) : ∀ (i : ℕ) (hi : i < a.size), key a[i] ≤ key (a[0]'(by omega)) := by
  intro i
  induction i using Nat.strong_induction_on with
  | _ i ih =>
    intro hi
    by_cases h0 : i = 0
    · subst h0; exact le_rfl
    · exact (h i hi (by omega)).trans (ih ((i - 1) / 2) (by omega) (by omega))

theorem pop_spec {a : Array α} (h : IsHeap key a) {x : α} {b : Array α} (hp : pop key a = some (x, b)) :
    IsHeap key b ∧ a.toList.Perm (x :: b.toList) ∧ peek a = some x ∧ ∀ y ∈ a.toList, key y ≤ key x := by
  unfold pop at hp
  have hmem : ∀ y ∈ a.toList, ∀ h0 : 0 < a.size, key y ≤ key a[0] := by
    intro y hy h0
    obtain ⟨i, hi, rfl⟩ := List.getElem_of_mem hy
    rw [Array.getElem_toList]
    exact root_max h i (by simpa using hi)
  split at hp
  · cases hp
  · rename_i last hl
    have hs : 0 < a.size := by
      by_contra hc
      have : a = #[] := Array.size_eq_zero_iff.1 (by omega)
      rw [this] at hl; simp at hl
    have hlast : a[a.size - 1] = last := by
      rw [Array.back?_eq_getElem?, Array.getElem?_eq_getElem (by omega)] at hl
      exact Option.some.inj hl
    have hsplit : a.toList = a.pop.toList ++ [last] := by
      rw [Array.toList_pop]
      have hne : a.toList ≠ [] := by
        intro hc
        have : a.toList.length = 0 := by rw [hc]; rfl
        rw [Array.length_toList] at this
        omega
      have h1 := List.dropLast_append_getLast hne
      have h2 : a.toList.getLast hne = last := by
        rw [List.getLast_eq_getElem]
        simp only [Array.length_toList, Array.getElem_toList]
        exact hlast
      rw [h2] at h1
      exact h1.symm
    dsimp only at hp
    split at hp
    · rename_i h0
      cases hp
      have hps : a.pop.size = a.size - 1 := Array.size_pop
      have hroot : a.pop[0] = a[0] := Array.getElem_pop h0
      have hdn : DownInv key (a.pop.set 0 last) 0 := by
        constructor
        · intro i hi hi0 hne hpar
          rw [Array.size_set] at hi
          rw [Array.getElem_set, Array.getElem_set, if_neg (by omega : ¬ 0 = i), if_neg (by omega : ¬ 0 = (i - 1) / 2), Array.getElem_pop, Array.getElem_pop]
          exact h i (by omega) hi0
        · intro i hi hi0 hpar hlt
          omega
      obtain ⟨h1, h2⟩ := siftDownToBottom_spec (by rw [Array.size_set]; exact h0) hdn
      refine ⟨h1, ?_, ?_, fun y hy => by rw [hroot]; exact hmem y hy hs⟩
      · have h3 : (siftDownToBottom key (a.pop.set 0 last)).toList.Perm (a.pop.set 0 last).toList := Array.perm_iff_toList_perm.1 h2
        rw [Array.toList_set] at h3
        refine List.Perm.trans ?_ (h3.symm.cons _)
        rw [hsplit]
        have h4 : a.pop.toList = a.pop[0] :: a.pop.toList.tail := by
          cases hl' : a.pop.toList with
          | nil =>
            have : a.pop.toList.length = 0 := by rw [hl']; rfl
            rw [Array.length_toList] at this
            omega
          | cons z zs =>
            have : a.pop.toList[0]'(by rw [Array.length_toList]; exact h0) = z := by simp only [hl', List.getElem_cons_zero]
            rw [Array.getElem_toList] at this
            rw [this]; rfl
        have h5 : a.pop.toList.set 0 last = last :: a.pop.toList.tail := by rw [h4]; rfl
        rw [h5]
        conv_lhs => rw [h4]
        rw [List.cons_append]
        exact List.Perm.cons _ List.perm_append_comm
      · unfold peek
        rw [Array.getElem?_eq_getElem hs, hroot]
    · rename_i h0
      cases hp
      have hps : a.pop.size = a.size - 1 := Array.size_pop
      have hs1 : a.size = 1 := by omega
      have hr : a[0] = x := by
        rw [← hlast]; congr 1; omega
      refine ⟨fun i hi => by omega, ?_, ?_, fun y hy => by rw [← hr]; exact hmem y hy hs⟩
      · rw [hsplit]
        exact List.perm_append_comm
      · unfold peek
        rw [Array.getElem?_eq_getElem hs, hr]

theorem pop_none {a : Array α} (hp : pop key a = none) : a = #[] := by
  unfold pop at hp
  split at hp
  · rename_i h; simpa using h
  · dsimp only at hp; split at hp <;> cases hp

end Phlite.ArrayHeap

namespace Phlite
open ArrayHeap

/-- The array heap of Rust's standard library is an implementation of the contract. -/
@[instance_reducible] def arrayHeap : StdHeap where
  H F Row CF _ _ := { a : Array (Entry F Row CF) // IsHeap Entry.key a }
  empty := ⟨#[], fun i h => by simp at h⟩
  push h e := ⟨ArrayHeap.push Entry.key h.1 e, push_heap h.2 e⟩
  pop h := match hp : ArrayHeap.pop Entry.key h.1 with
    | none => none
    | some (x, b) => some (x, ⟨b, (pop_spec h.2 hp).1⟩)
  peek h := ArrayHeap.peek h.1
  bag h := (h.1.toList : Multiset _)
  bag_empty := rfl
  bag_push h e := by
    rw [Multiset.cons_coe]
    refine Multiset.coe_eq_coe.2 ((Array.perm_iff_toList_perm.1 (push_perm _ _)).trans ?_)
    rw [Array.toList_push]
    exact List.perm_append_comm
  pop_none h hp := by
    split at hp
    · rename_i hn
      rw [ArrayHeap.pop_none hn]; rfl
    · cases hp
  pop_bag h h' e hp := by
    split at hp
    · cases hp
    · rename_i hn
      cases hp
      rw [Multiset.cons_coe]
      exact Multiset.coe_eq_coe.2 (pop_spec h.2 hn).2.1
  pop_max h h' e hp := by
    split at hp
    · cases hp
    · rename_i hn
      cases hp
      intro x hx
      exact (pop_spec h.2 hn).2.2.2 x (Multiset.mem_coe.1 hx)
  peek_pop h := by
    split
    · rename_i hn
      rw [ArrayHeap.pop_none hn]; rfl
    · rename_i hn
      exact (pop_spec h.2 hn).2.2.1

end Phlite
