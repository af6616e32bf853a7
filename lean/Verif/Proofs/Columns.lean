/-
Lemmas about the heap column.
-/
import Verif.Model.Columns
import Verif.Spec.Column
import Mathlib.Algebra.BigOperators.Group.Multiset.Basic
import Mathlib.Tactic.Abel

set_option linter.unusedSectionVars false
set_option linter.unusedSimpArgs false
set_option linter.unusedVariables false

namespace Phlite
open Finsupp

variable {F Row CF K : Type} [LinearOrder F] [LinearOrder Row] [NonZeroCoeff CF] [Field K] [LawfulCoeff CF K]

theorem rowKey_inj {F Row : Type} (f : Row → F) {a b : Row} (h : rowKey f a = rowKey f b) : a = b := by
  have := congrArg (fun x => (ofLex x).2) h
  simpa [rowKey] using this

theorem rowKey_injective {F Row : Type} (f : Row → F) : Function.Injective (rowKey f) := fun _ _ h => rowKey_inj f h

/-- Vector of one entry. -/
noncomputable def Entry.vec (K : Type) [Field K] [LawfulCoeff CF K] (e : Entry F Row CF) : Row →₀ K :=
  single e.row (LawfulCoeff.val e.coeff)

/-- Vector of a bag of entries. -/
noncomputable def bagVec (K : Type) [Field K] [LawfulCoeff CF K] (s : Multiset (Entry F Row CF)) : Row →₀ K :=
  (s.map (Entry.vec K)).sum

/-- Every entry carries the filtration value of its row. -/
def Coherent (f : Row → F) (s : Multiset (Entry F Row CF)) : Prop := ∀ e ∈ s, e.filt = f e.row

@[simp] theorem bagVec_zero : bagVec K (0 : Multiset (Entry F Row CF)) = 0 := by simp [bagVec]
@[simp] theorem bagVec_cons (e : Entry F Row CF) (s : Multiset (Entry F Row CF)) :
    bagVec K (e ::ₘ s) = e.vec K + bagVec K s := by simp [bagVec]

theorem Coherent.key {f : Row → F} {s : Multiset (Entry F Row CF)} (h : Coherent f s) {e} (he : e ∈ s) :
    e.key = rowKey f e.row := by
  unfold Entry.key rowKey; rw [h e he]

theorem optVal_addOpt (c : CF) (o : Option CF) :
    optVal K (NonZeroCoeff.addOpt c o) = LawfulCoeff.val c + optVal K o := by
  cases o with
  | none => simp [NonZeroCoeff.addOpt, optVal]
  | some d => simpa [NonZeroCoeff.addOpt, optVal] using LawfulCoeff.val_add (K := K) c d

theorem bagVec_apply_eq_zero {s : Multiset (Entry F Row CF)} {r : Row}
    (h : ∀ e ∈ s, e.row ≠ r) : bagVec K s r = 0 := by
  induction s using Multiset.induction_on with
  | empty => simp
  | cons e s ih =>
    rw [bagVec_cons, Finsupp.add_apply, ih (fun x hx => h x (Multiset.mem_cons_of_mem hx))]
    simp [Entry.vec, Finsupp.single_apply, h e (Multiset.mem_cons_self _ _)]

/-- The rows of a bag all have key at most / less than a bound; so does the support of its vector. -/
theorem bagVec_support {s : Multiset (Entry F Row CF)} {r : Row} (h : bagVec K s r ≠ 0) :
    ∃ e ∈ s, e.row = r := by
  by_contra hc
  push Not at hc
  exact h (bagVec_apply_eq_zero hc)


section heap
variable [StdHeap]
namespace BHCol

/-- The vector represented by a heap column. -/
noncomputable def vec (K : Type) [Field K] [LawfulCoeff CF K] (h : BHCol F Row CF) : Row →₀ K :=
  bagVec K (StdHeap.bag h)

/-- What `popLoop`/`popPivot` guarantee about a total vector. -/
def PopSpec (f : Row → F) (b : Multiset (Entry F Row CF)) (total : Row →₀ K)
    (res : Option (Entry F Row CF) × BHCol F Row CF) : Prop :=
  StdHeap.bag res.2 ≤ b ∧
  match res.1 with
  | none => total = 0 ∧ StdHeap.bag res.2 = 0
  | some e => total = e.vec K + vec K res.2 ∧ e.filt = f e.row ∧ ∀ x ∈ StdHeap.bag res.2, x.key < rowKey f e.row

theorem popLoop_spec (f : Row → F) (h : BHCol F Row CF) (wi : Row) (ws : Option CF) (wf : F)
    (hc : Coherent f (StdHeap.bag h)) (hwf : wf = f wi) (hle : ∀ x ∈ StdHeap.bag h, x.key ≤ rowKey f wi) :
    PopSpec (K := K) f (StdHeap.bag h) (single wi (optVal K ws) + vec K h) (popLoop h wi ws wf) := by
  fun_induction popLoop h wi ws wf with
  | case1 h wi ws wf hp =>
    have h0 := StdHeap.pop_none h hp
    refine ⟨le_refl _, ?_⟩
    cases ws with
    | none => simp [optVal, vec, h0]
    | some c => simp [optVal, vec, h0, Entry.vec, hwf]
  | case2 h wi wf next h' hp this hne c =>
    refine ⟨le_refl _, ?_⟩
    refine ⟨by simp [optVal, Entry.vec], hwf, ?_⟩
    intro x hx
    rcases lt_or_eq_of_le (hle x hx) with hlt | heq
    · exact hlt
    · exfalso
      have hmem : next ∈ StdHeap.bag h := by rw [StdHeap.pop_bag _ _ _ hp]; exact Multiset.mem_cons_self _ _
      have h1 := StdHeap.pop_max _ _ _ hp x hx
      have h2 := hle next hmem
      rw [heq] at h1
      have := le_antisymm h1 h2
      rw [hc.key hmem] at this
      exact hne (rowKey_inj f this.symm)
  | case3 h wi wf next h' hp this hne ih =>
    have hbag := StdHeap.pop_bag _ _ _ hp
    have hmem : next ∈ StdHeap.bag h := by rw [hbag]; exact Multiset.mem_cons_self _ _
    have hsub : ∀ x ∈ StdHeap.bag h', x ∈ StdHeap.bag h := by
      intro x hx; rw [hbag]; exact Multiset.mem_cons_of_mem hx
    have := ih (fun e he => hc e (hsub e he)) (hc next hmem) (fun x hx => by
      have := StdHeap.pop_max _ _ _ hp x (hsub x hx)
      rwa [hc.key hmem] at this)
    have htot : single wi (optVal K (none : Option CF)) + vec K h
        = single next.row (optVal K (NonZeroCoeff.addOpt next.coeff none)) + vec K h' := by
      rw [optVal_addOpt]
      simp [optVal, vec, hbag, Entry.vec]
    rw [htot]
    refine ⟨le_trans this.1 (by rw [hbag]; exact Multiset.le_cons_self _ _), this.2⟩
  | case4 h wi ws wf next h' hp this heq ih =>
    have heq : next.row = wi := by simpa using heq
    have hbag := StdHeap.pop_bag _ _ _ hp
    have hmem : next ∈ StdHeap.bag h := by rw [hbag]; exact Multiset.mem_cons_self _ _
    have hsub : ∀ x ∈ StdHeap.bag h', x ∈ StdHeap.bag h := by
      intro x hx; rw [hbag]; exact Multiset.mem_cons_of_mem hx
    have := ih (fun e he => hc e (hsub e he)) hwf (fun x hx => hle x (hsub x hx))
    have htot : single wi (optVal K ws) + vec K h
        = single wi (optVal K (NonZeroCoeff.addOpt next.coeff ws)) + vec K h' := by
      rw [optVal_addOpt]
      simp only [vec, hbag, bagVec_cons, Entry.vec, heq, Finsupp.single_add]
      abel
    rw [htot]
    refine ⟨le_trans this.1 (by rw [hbag]; exact Multiset.le_cons_self _ _), this.2⟩

theorem popPivot_spec (f : Row → F) (h : BHCol F Row CF) (hc : Coherent f (StdHeap.bag h)) :
    PopSpec (K := K) f (StdHeap.bag h) (vec K h) (popPivot h) := by
  unfold popPivot
  split
  · rename_i hp
    have h0 := StdHeap.pop_none h hp
    exact ⟨le_refl _, by simp [vec, h0]⟩
  · rename_i first h' hp
    have hbag := StdHeap.pop_bag _ _ _ hp
    have hmem : first ∈ StdHeap.bag h := by rw [hbag]; exact Multiset.mem_cons_self _ _
    have hsub : ∀ x ∈ StdHeap.bag h', x ∈ StdHeap.bag h := by
      intro x hx; rw [hbag]; exact Multiset.mem_cons_of_mem hx
    have := popLoop_spec (K := K) f h' first.row (some first.coeff) first.filt
      (fun e he => hc e (hsub e he)) (hc first hmem) (fun x hx => by
      have := StdHeap.pop_max _ _ _ hp x (hsub x hx)
      rwa [hc.key hmem] at this)
    have htot : vec K h = single first.row (optVal K (some first.coeff)) + vec K h' := by
      simp [optVal, vec, hbag, Entry.vec]
    rw [htot]
    refine ⟨le_trans this.1 (by rw [hbag]; exact Multiset.le_cons_self _ _), this.2⟩

/-- If the rest of the bag lies strictly below `e`, then `e` is the pivot of the total. -/
theorem lead_of_lt {f : Row → F} {s : Multiset (Entry F Row CF)} {e : Entry F Row CF} {v : Row →₀ K}
    (hs : Coherent f s) (hv : v = e.vec K + bagVec K s) (hlt : ∀ x ∈ s, x.key < rowKey f e.row) :
    v e.row = LawfulCoeff.val e.coeff ∧ IsPivot f v e.row ∧ bagVec K s = v.erase e.row := by
  have h0 : bagVec K s e.row = 0 := by
    apply bagVec_apply_eq_zero
    intro x hx hxe
    have := hlt x hx
    rw [hs.key hx, hxe] at this
    exact lt_irrefl _ this
  have hval : v e.row = LawfulCoeff.val e.coeff := by
    rw [hv]; simp [Entry.vec, h0]
  refine ⟨hval, ⟨by rw [hval]; exact LawfulCoeff.val_ne_zero _, ?_⟩, ?_⟩
  · intro r' hr'
    by_cases hre : r' = e.row
    · rw [hre]
    · have : bagVec K s r' ≠ 0 := by
        intro hz; apply hr'; rw [hv]; simp [Entry.vec, hz, Finsupp.single_apply, Ne.symm hre]
      obtain ⟨x, hx, hxr⟩ := bagVec_support this
      have := hlt x hx
      rw [hs.key hx, hxr] at this
      exact this.le
  · ext r
    by_cases hr : r = e.row
    · subst hr; simp [h0]
    · rw [Finsupp.erase_ne hr, hv]; simp [Entry.vec, Finsupp.single_apply, Ne.symm hr]

theorem coherent_le {f : Row → F} {s t : Multiset (Entry F Row CF)} (h : Coherent f t) (hle : s ≤ t) : Coherent f s :=
  fun e he => h e (Multiset.mem_of_le hle he)

theorem popPivot_none {f : Row → F} {h h' : BHCol F Row CF} (hc : Coherent f (StdHeap.bag h))
    (hp : popPivot h = (none, h')) : vec K h = 0 ∧ StdHeap.bag h' = 0 := by
  have := popPivot_spec (K := K) f h hc
  rw [hp] at this; exact this.2

theorem popPivot_some {f : Row → F} {h h' : BHCol F Row CF} {e : Entry F Row CF} (hc : Coherent f (StdHeap.bag h))
    (hp : popPivot h = (some e, h')) :
    Coherent f (StdHeap.bag h') ∧ StdHeap.bag h' ≤ StdHeap.bag h ∧ e.filt = f e.row ∧
    (vec K h) e.row = LawfulCoeff.val e.coeff ∧ IsPivot f (vec K h) e.row ∧ vec K h' = (vec K h).erase e.row ∧
    ∀ x ∈ StdHeap.bag h', x.key < rowKey f e.row := by
  have := popPivot_spec (K := K) f h hc
  rw [hp] at this
  obtain ⟨h1, h2, h3, h4⟩ := this
  have hc' := coherent_le hc h1
  obtain ⟨g1, g2, g3⟩ := lead_of_lt hc' h2 h4
  exact ⟨hc', h1, h3, g1, g2, g3, h4⟩

theorem bag_addEntry (h : BHCol F Row CF) (e : Entry F Row CF) :
    StdHeap.bag (addEntry h e) = e ::ₘ StdHeap.bag h := StdHeap.bag_push h e

theorem vec_addEntry (h : BHCol F Row CF) (e : Entry F Row CF) : vec K (addEntry h e) = e.vec K + vec K h := by
  simp [vec, bag_addEntry]

theorem bag_addEntries (h : BHCol F Row CF) (es : List (Entry F Row CF)) :
    StdHeap.bag (addEntries h es) = (es : Multiset _) + StdHeap.bag h := by
  induction es generalizing h with
  | nil => simp [addEntries]
  | cons e es ih =>
    have : addEntries h (e :: es) = addEntries (addEntry h e) es := rfl
    rw [this, ih, bag_addEntry, ← Multiset.cons_coe, Multiset.add_cons, Multiset.cons_add]

theorem vec_addEntries (h : BHCol F Row CF) (es : List (Entry F Row CF)) :
    vec K (addEntries h es) = (es.map (Entry.vec K)).sum + vec K h := by
  simp [vec, bag_addEntries, bagVec]

theorem bag_empty' : StdHeap.bag (BHCol.empty : BHCol F Row CF) = 0 := StdHeap.bag_empty
theorem vec_empty : vec K (BHCol.empty : BHCol F Row CF) = 0 := by simp [vec, bag_empty']

theorem popPivot_card {h h' : BHCol F Row CF} {o : Option (Entry F Row CF)} (f : Row → F)
    (hc : Coherent f (StdHeap.bag h)) (hp : popPivot h = (o, h')) (ho : o ≠ none) :
    (StdHeap.bag h').card < (StdHeap.bag h).card := by
  unfold popPivot at hp
  split at hp
  · simp only [Prod.mk.injEq] at hp; exact absurd hp.1.symm ho
  · rename_i first h1 hpop
    have hbag := StdHeap.pop_bag _ _ _ hpop
    have hmem : first ∈ StdHeap.bag h := by rw [hbag]; exact Multiset.mem_cons_self _ _
    have hle : ∀ (h : BHCol F Row CF) (wi : Row) (ws : Option CF) (wf : F),
        (StdHeap.bag (popLoop h wi ws wf).2).card ≤ (StdHeap.bag h).card := by
      intro h wi ws wf
      fun_induction popLoop h wi ws wf with
      | case1 => exact le_refl _
      | case2 => exact le_refl _
      | case3 _ _ _ _ _ _ this _ ih => exact le_trans ih this.le
      | case4 _ _ _ _ _ _ _ this _ ih => exact le_trans ih this.le
    have := hle h1 first.row (some first.coeff) first.filt
    rw [hp] at this
    rw [hbag, Multiset.card_cons]
    exact Nat.lt_succ_of_le this

/-- `clone_pivot` returns what `pop_pivot` returns. -/
theorem clonePivot_fst (h : BHCol F Row CF) : (clonePivot h).1 = (popPivot h).1 := by
  unfold clonePivot
  split <;> rename_i hp <;> rw [hp]

theorem clonePivot_none {f : Row → F} {h h' : BHCol F Row CF} (hc : Coherent f (StdHeap.bag h))
    (hp : clonePivot h = (none, h')) : vec K h = 0 ∧ StdHeap.bag h' = 0 := by
  unfold clonePivot at hp
  split at hp
  · simp at hp
  · rename_i h2 hp2
    simp only [Prod.mk.injEq, true_and] at hp
    subst hp
    exact popPivot_none hc hp2

theorem clonePivot_some {f : Row → F} {h h' : BHCol F Row CF} {e : Entry F Row CF} (hc : Coherent f (StdHeap.bag h))
    (hp : clonePivot h = (some e, h')) :
    Coherent f (StdHeap.bag h') ∧ e.filt = f e.row ∧
    (vec K h) e.row = LawfulCoeff.val e.coeff ∧ IsPivot f (vec K h) e.row ∧ vec K h' = vec K h ∧
    peekPivot h' = some e ∧ (∀ x ∈ StdHeap.bag h', x = e ∨ x ∈ StdHeap.bag h) := by
  unfold clonePivot at hp
  split at hp
  · rename_i p h2 hp2
    simp only [Prod.mk.injEq, Option.some.injEq] at hp
    obtain ⟨rfl, rfl⟩ := hp
    obtain ⟨h1, h2', h3, h4, h5, h6, h7⟩ := popPivot_some (K := K) hc hp2
    refine ⟨?_, h3, h4, h5, ?_, ?_, ?_⟩
    · intro x hx
      rw [bag_addEntry] at hx
      rcases Multiset.mem_cons.1 hx with rfl | hx
      · exact h3
      · exact h1 x hx
    · rw [vec_addEntry, h6, Entry.vec, ← h4]
      exact Finsupp.single_add_erase _ _
    · unfold peekPivot
      rw [StdHeap.peek_pop]
      cases hq : StdHeap.pop (addEntry h2 p) with
      | none =>
        have := StdHeap.pop_none _ hq
        rw [bag_addEntry] at this
        exact absurd this (Multiset.cons_ne_zero)
      | some t =>
        obtain ⟨e', h3'⟩ := t
        have hb := StdHeap.pop_bag _ _ _ hq
        have hmax := StdHeap.pop_max _ _ _ hq p (by rw [bag_addEntry]; exact Multiset.mem_cons_self _ _)
        have hmem : e' ∈ StdHeap.bag (addEntry h2 p) := by rw [hb]; exact Multiset.mem_cons_self _ _
        rw [bag_addEntry] at hmem
        rcases Multiset.mem_cons.1 hmem with rfl | hm
        · rfl
        · exfalso
          have := h7 e' hm
          have hpk : p.key = rowKey f p.row := by unfold Entry.key rowKey; rw [h3]
          rw [hpk] at hmax
          exact absurd this (not_lt.2 hmax)
    · intro x hx
      rw [bag_addEntry] at hx
      rcases Multiset.mem_cons.1 hx with rfl | hx
      · exact Or.inl rfl
      · exact Or.inr (Multiset.mem_of_le h2' hx)
  · simp at hp

/-- Canonical form of a vector: a list of entries in strictly decreasing key order which lists exactly the non-zero
coefficients. -/
def IsCanonical (f : Row → F) (v : Row →₀ K) (es : List (Entry F Row CF)) : Prop :=
  es.Pairwise (fun a b => b.key < a.key) ∧
  ∀ e : Entry F Row CF, e ∈ es ↔ (v e.row ≠ 0 ∧ LawfulCoeff.val e.coeff = v e.row ∧ e.filt = f e.row)

theorem drainFuel_spec (f : Row → F) (n : Nat) (h : BHCol F Row CF) (hc : Coherent f (StdHeap.bag h))
    (hn : (StdHeap.bag h).card < n) :
    ∃ es h', drainFuel n h = some (es, h') ∧ IsCanonical (K := K) f (vec K h) es ∧ StdHeap.bag h' = 0 := by
  induction n generalizing h with
  | zero => omega
  | succ n ih =>
    unfold drainFuel
    split
    · rename_i h' hp
      obtain ⟨h1, h2⟩ := popPivot_none (K := K) hc hp
      exact ⟨[], h', rfl, ⟨List.Pairwise.nil, by intro e; simp [h1]⟩, h2⟩
    · rename_i e h' hp
      obtain ⟨h1, h2, h3, h4, h5, h6, h7⟩ := popPivot_some (K := K) hc hp
      have hcard := popPivot_card f hc hp (by simp)
      obtain ⟨es, h'', hd, ⟨hs, hm⟩, hz⟩ := ih h' h1 (by omega)
      refine ⟨e :: es, h'', by rw [hd]; rfl, ⟨?_, ?_⟩, hz⟩
      · refine List.Pairwise.cons ?_ hs
        intro x hx
        have hx := (hm x).1 hx
        obtain ⟨y, hy, hyr⟩ := bagVec_support (s := StdHeap.bag h') hx.1
        have := h7 y hy
        rw [h1.key hy, hyr] at this
        unfold Entry.key
        rw [hx.2.2, h3]; exact this
      · intro x
        rw [List.mem_cons, hm, h6]
        constructor
        · rintro (rfl | ⟨a, b, c⟩)
          · exact ⟨h5.1, h4.symm, h3⟩
          · have hne : x.row ≠ e.row := by
              intro hh; rw [hh, Finsupp.erase_same] at a; exact a rfl
            rw [Finsupp.erase_ne hne] at a b
            exact ⟨a, b, c⟩
        · rintro ⟨a, b, c⟩
          by_cases hre : x.row = e.row
          · left
            cases x with | mk xf xr xc =>
            cases e with | mk ef er ec =>
            simp only at hre a b c h3 h4
            subst hre
            rw [h4] at b
            rw [LawfulCoeff.val_inj _ _ b, c, h3]
          · right
            rw [Finsupp.erase_ne hre]; exact ⟨a, b, c⟩

theorem toSortedVec_spec (f : Row → F) (h : BHCol F Row CF) (hc : Coherent f (StdHeap.bag h)) :
    ∃ es, toSortedVec h = some es ∧ IsCanonical (K := K) f (vec K h) es := by
  obtain ⟨es, h', h1, h2, _⟩ := drainFuel_spec (K := K) f ((StdHeap.bag h).card + 1) h hc (by omega)
  exact ⟨es, by unfold toSortedVec; rw [h1]; rfl, h2⟩

theorem IsCanonical.unique {f : Row → F} {v : Row →₀ K} {es fs : List (Entry F Row CF)}
    (h1 : IsCanonical f v es) (h2 : IsCanonical f v fs) : es = fs := by
  have n1 : es.Nodup := h1.1.imp (fun h e => by subst e; exact lt_irrefl _ h)
  have n2 : fs.Nodup := h2.1.imp (fun h e => by subst e; exact lt_irrefl _ h)
  have hp : es.Perm fs := (List.perm_ext_iff_of_nodup n1 n2).2 (fun e => by rw [h1.2, h2.2])
  exact hp.eq_of_pairwise (fun a b _ _ h1 h2 => absurd h1 (not_lt.2 h2.le)) h1.1 h2.1

theorem IsCanonical.vec_eq {f : Row → F} {v w : Row →₀ K} {es : List (Entry F Row CF)}
    (h1 : IsCanonical f v es) (h2 : IsCanonical f w es) : v = w := by
  ext r
  by_cases hr : v r = 0
  · by_contra hne
    have hw : w r ≠ 0 := fun h => hne (by rw [hr, h])
    obtain ⟨c, hcv⟩ := LawfulCoeff.val_surj (CF := CF) (w r) hw
    have := (h2.2 ⟨f r, r, c⟩).2 ⟨hw, hcv, rfl⟩
    exact ((h1.2 _).1 this).1 hr
  · obtain ⟨c, hcv⟩ := LawfulCoeff.val_surj (CF := CF) (v r) hr
    have := (h1.2 ⟨f r, r, c⟩).2 ⟨hr, hcv, rfl⟩
    have h3 := ((h2.2 _).1 this).2.1
    simp only at h3
    rw [← h3, hcv]

end BHCol
end heap
end Phlite
