/-
Property theorems C04, C05, C06 (heap columns). All hold for every implementation of the heap contract.
-/
import Verif.Proofs.Columns
import Verif.Proofs.ListHeap
import Verif.Proofs.Fields

set_option linter.unusedSectionVars false

namespace Phlite
open Finsupp

variable {F Row CF K : Type} [LinearOrder F] [LinearOrder Row] [NonZeroCoeff CF] [Field K] [LawfulCoeff CF K] [StdHeap]

/-- The public mutating operations on a column. -/
inductive ColOp (F Row CF : Type)
  | addEntry (e : Entry F Row CF)
  | addEntries (es : List (Entry F Row CF))
  | addTuple (t : CF × Row × F)
  | addTuples (ts : List (CF × Row × F))
  | popPivot
  | clonePivot

/-- Entries inserted by an operation. -/
def ColOp.inserted : ColOp F Row CF → List (Entry F Row CF)
  | .addEntry e => [e]
  | .addEntries es => es
  | .addTuple t => [⟨t.2.2, t.2.1, t.1⟩]
  | .addTuples ts => ts.map fun t => ⟨t.2.2, t.2.1, t.1⟩
  | .popPivot => []
  | .clonePivot => []

/-- Apply one operation to a column. -/
def ColOp.run (h : BHCol F Row CF) : ColOp F Row CF → BHCol F Row CF
  | .addEntry e => h.addEntry e
  | .addEntries es => h.addEntries es
  | .addTuple t => h.addTuple t
  | .addTuples ts => h.addTuples ts
  | .popPivot => (BHCol.popPivot h).2
  | .clonePivot => (BHCol.clonePivot h).2

/-- Specification of one operation on the represented vector: insertions add their terms, `pop_pivot` removes the
leading term (if any), `clone_pivot` changes nothing. -/
inductive ColOp.Spec (f : Row → F) : ColOp F Row CF → (Row →₀ K) → (Row →₀ K) → Prop
  | insert (op : ColOp F Row CF) (v) (h : op ≠ .popPivot) :
      Spec f op v (v + lcOf K (op.inserted.map fun e => (e.coeff, e.row)))
  | popZero : Spec f .popPivot 0 0
  | pop (v : Row →₀ K) (r : Row) (hp : IsPivot f v r) : Spec f .popPivot v (v.erase r)

/-- A column reached from the empty one by some history of operations whose insertions carry the filtration value `f`
of their row, together with the vector that the specification assigns to this history. -/
inductive ColReach (f : Row → F) : BHCol F Row CF → (Row →₀ K) → Prop
  | empty : ColReach f BHCol.empty 0
  | step {h v v'} (op : ColOp F Row CF) (prev : ColReach f h v) (hf : ∀ e ∈ op.inserted, e.filt = f e.row)
      (hs : ColOp.Spec f op v v') : ColReach f (op.run h) v'

theorem sum_vec_eq_lcOf (es : List (Entry F Row CF)) :
    (es.map (Entry.vec K)).sum = lcOf K (es.map fun e => (e.coeff, e.row)) := by
  unfold lcOf Entry.vec; rw [List.map_map]; rfl

theorem ColReach.inv {f : Row → F} {h : BHCol F Row CF} {v : Row →₀ K} (hr : ColReach f h v) :
    Coherent f (StdHeap.bag h) ∧ BHCol.vec K h = v := by
  induction hr with
  | empty => exact ⟨by intro e he; rw [BHCol.bag_empty'] at he; simp at he, BHCol.vec_empty⟩
  | @step h v v' op prev hf hs ih =>
    obtain ⟨hc, hv⟩ := ih
    have key : ∀ es : List (Entry F Row CF), (∀ e ∈ es, e.filt = f e.row) →
        Coherent f (StdHeap.bag (h.addEntries es)) ∧
        BHCol.vec K (h.addEntries es) = v + lcOf K (es.map fun e => (e.coeff, e.row)) := by
      intro es hes
      refine ⟨?_, by rw [BHCol.vec_addEntries, hv, sum_vec_eq_lcOf, add_comm]⟩
      intro e he
      rw [BHCol.bag_addEntries] at he
      rcases Multiset.mem_add.1 he with he | he
      · exact hes e (by simpa using he)
      · exact hc e he
    cases hs with
    | insert _ _ hne =>
      cases op with
      | addEntry e => exact key [e] hf
      | addEntries es => exact key es hf
      | addTuple t => exact key [⟨t.2.2, t.2.1, t.1⟩] hf
      | addTuples ts => exact key _ hf
      | popPivot => exact absurd rfl hne
      | clonePivot =>
        simp only [ColOp.inserted, List.map_nil, ColOp.run]
        have h0 : lcOf K ([] : List (CF × Row)) = 0 := by simp [lcOf]
        rw [h0, add_zero]
        rcases hq : BHCol.clonePivot h with ⟨o, h'⟩
        cases o with
        | none =>
          obtain ⟨h1, h2⟩ := BHCol.clonePivot_none (K := K) hc hq
          refine ⟨by rw [h2]; intro e he; simp at he, ?_⟩
          rw [← hv, h1]; simp [BHCol.vec, h2]
        | some e =>
          obtain ⟨h1, _, _, _, h5, _⟩ := BHCol.clonePivot_some (K := K) hc hq
          exact ⟨h1, by rw [h5, hv]⟩
    | popZero =>
      simp only [ColOp.run]
      rcases hq : BHCol.popPivot h with ⟨o, h'⟩
      cases o with
      | none =>
        obtain ⟨h1, h2⟩ := BHCol.popPivot_none (K := K) hc hq
        exact ⟨by rw [h2]; intro e he; simp at he, by simp [BHCol.vec, h2]⟩
      | some e =>
        obtain ⟨_, _, _, _, h5, _⟩ := BHCol.popPivot_some (K := K) hc hq
        exfalso; apply h5.1; rw [hv]; rfl
    | pop _ r hp =>
      simp only [ColOp.run]
      rcases hq : BHCol.popPivot h with ⟨o, h'⟩
      cases o with
      | none =>
        obtain ⟨h1, h2⟩ := BHCol.popPivot_none (K := K) hc hq
        exfalso; apply hp.1; rw [← hv, h1]; rfl
      | some e =>
        obtain ⟨h1, _, _, _, h5, h6, _⟩ := BHCol.popPivot_some (K := K) hc hq
        refine ⟨h1, ?_⟩
        rw [hv] at h5 h6
        rw [h6]
        rw [rowKey_inj f (le_antisymm (hp.2 _ h5.1) (h5.2 _ hp.1))]

/-- C04: after any history of column operations, with `v` the represented vector: `pop_pivot` returns `None` iff
`v = 0`; if it returns an entry, that entry is the largest row of `v` in (filtration, index) order, with the exact total
coefficient and filtration value, and what remains is `v` without that row. -/
theorem C04_pop_pivot (f : Row → F) (h : BHCol F Row CF) (v : Row →₀ K) (hr : ColReach f h v) :
    ((BHCol.popPivot h).1 = none ↔ v = 0) ∧
    (∀ e, (BHCol.popPivot h).1 = some e →
      IsPivot f v e.row ∧ LawfulCoeff.val e.coeff = v e.row ∧ e.filt = f e.row ∧
      ColReach f (BHCol.popPivot h).2 (v.erase e.row)) ∧
    (v = 0 → ColReach (K := K) f (BHCol.popPivot h).2 0) := by
  obtain ⟨hc, hv⟩ := hr.inv
  rcases hq : BHCol.popPivot h with ⟨o, h'⟩
  refine ⟨?_, ?_, ?_⟩
  · cases o with
    | none =>
      obtain ⟨h1, _⟩ := BHCol.popPivot_none (K := K) hc hq
      simp [← hv, h1]
    | some e =>
      obtain ⟨_, _, _, _, h5, _⟩ := BHCol.popPivot_some (K := K) hc hq
      rw [hv] at h5
      constructor
      · intro h; cases h
      · intro h; rw [h] at h5; exact absurd rfl h5.1
  · intro e he
    simp only at he; subst he
    obtain ⟨_, _, h3, h4, h5, h6, _⟩ := BHCol.popPivot_some (K := K) hc hq
    rw [hv] at h4 h5
    refine ⟨h5, h4.symm, h3, ?_⟩
    have := ColReach.step .popPivot hr (by simp [ColOp.inserted]) (.pop v e.row h5)
    simpa [ColOp.run, hq] using this
  · intro h0
    subst h0
    have := ColReach.step .popPivot hr (by simp [ColOp.inserted]) .popZero
    simpa [ColOp.run, hq] using this

/-- C05: draining a column (or `to_sorted_vec`) terminates and lists exactly the rows with non-zero coefficient, each
once, with its coefficient and filtration value, in strictly decreasing (filtration, index) order. -/
theorem C05_to_sorted_vec (f : Row → F) (h : BHCol F Row CF) (v : Row →₀ K) (hr : ColReach f h v) :
    ∃ es, BHCol.toSortedVec h = some es ∧
      es.Pairwise (fun a b => toLex (b.filt, b.row) < toLex (a.filt, a.row)) ∧
      ∀ e : Entry F Row CF, e ∈ es ↔ (v e.row ≠ 0 ∧ LawfulCoeff.val e.coeff = v e.row ∧ e.filt = f e.row) := by
  obtain ⟨hc, hv⟩ := hr.inv
  obtain ⟨es, h1, h2, h3⟩ := BHCol.toSortedVec_spec (K := K) f h hc
  rw [hv] at h3
  exact ⟨es, h1, h2, h3⟩

/-- C05: two columns drain to the same list iff they represent the same linear combination. -/
theorem C05_canonical (f : Row → F) (h₁ h₂ : BHCol F Row CF) (v₁ v₂ : Row →₀ K)
    (hr₁ : ColReach f h₁ v₁) (hr₂ : ColReach f h₂ v₂) :
    BHCol.toSortedVec h₁ = BHCol.toSortedVec h₂ ↔ v₁ = v₂ := by
  obtain ⟨hc, hv⟩ := hr₁.inv
  obtain ⟨hc', hv'⟩ := hr₂.inv
  obtain ⟨es, h1, h2⟩ := BHCol.toSortedVec_spec (K := K) f h₁ hc
  obtain ⟨es', h1', h2'⟩ := BHCol.toSortedVec_spec (K := K) f h₂ hc'
  rw [hv] at h2; rw [hv'] at h2'
  rw [h1, h1']
  constructor
  · intro h; cases h; exact h2.vec_eq h2'
  · intro h; subst h; rw [h2.unique h2']

/-- C06: `clone_pivot` returns the same entry as `pop_pivot`, does not change the represented vector, and afterwards
`peek_pivot` shows exactly that entry (nothing iff the column is zero). -/
theorem C06_clone_pivot (f : Row → F) (h : BHCol F Row CF) (v : Row →₀ K) (hr : ColReach f h v) :
    (BHCol.clonePivot h).1 = (BHCol.popPivot h).1 ∧
    ColReach f (BHCol.clonePivot h).2 v ∧
    BHCol.peekPivot (BHCol.clonePivot h).2 = (BHCol.clonePivot h).1 ∧
    ((BHCol.clonePivot h).1 = none ↔ v = 0) := by
  obtain ⟨hc, hv⟩ := hr.inv
  refine ⟨BHCol.clonePivot_fst h, ?_, ?_, ?_⟩
  · have := ColReach.step .clonePivot hr (by simp [ColOp.inserted]) (.insert .clonePivot v (by simp))
    simpa [ColOp.run, ColOp.inserted, lcOf] using this
  · rcases hq : BHCol.clonePivot h with ⟨o, h'⟩
    cases o with
    | none =>
      obtain ⟨_, h2⟩ := BHCol.clonePivot_none (K := K) hc hq
      unfold BHCol.peekPivot
      rw [StdHeap.peek_pop]
      cases hp : StdHeap.pop h' with
      | none => rfl
      | some t =>
        have := StdHeap.pop_bag h' t.2 t.1 hp
        rw [h2] at this; exact absurd this.symm Multiset.cons_ne_zero
    | some e =>
      obtain ⟨_, _, _, _, _, h6, _⟩ := BHCol.clonePivot_some (K := K) hc hq
      exact h6
  · rw [BHCol.clonePivot_fst]; exact (C04_pop_pivot f h v hr).1

/-- Non-vacuity: a reachable column over `Z3` with a repeated and a cancelling row (executed on the list heap): rows
`5` (1+1 = 2) and `7` (1+2 = 0), so the pivot is row 5 although row 7 is on top of the heap. -/
example : letI := listHeap
    ∃ (h : BHCol Nat Nat (ZP 3)) (v : Nat →₀ ZMod 3), ColReach (fun r => r) h v ∧ v ≠ 0 ∧
      (BHCol.popPivot h).1.map (fun e => (e.coeff.n, e.row)) = some (2, 5) := by
  let _ := listHeap
  let o : ZP 3 := ⟨1, by decide⟩
  let t : ZP 3 := ⟨2, by decide⟩
  refine ⟨BHCol.empty.addEntries [⟨5, 5, o⟩, ⟨7, 7, o⟩, ⟨5, 5, o⟩, ⟨7, 7, t⟩], _,
    ColReach.step (.addEntries _) ColReach.empty (by simp [ColOp.inserted]) (.insert _ _ (by simp)), ?_, by decide +kernel⟩
  intro h
  have := DFunLike.congr_fun h 5
  simp [lcOf, ColOp.inserted, LawfulCoeff.val, o] at this
  revert this; decide

end Phlite
