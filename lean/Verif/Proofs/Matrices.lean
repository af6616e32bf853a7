/-
Lemmas about oracles and their adaptors.
-/
import Verif.Model.Matrices
import Verif.Spec.Basis
import Verif.Proofs.Columns
import Mathlib.LinearAlgebra.Finsupp.LinearCombination

set_option linter.unusedSectionVars false
set_option linter.unusedSimpArgs false
set_option linter.unusedVariables false

namespace Phlite
open Finsupp

section opt
variable {α β γ : Type}

theorem mapOpt_append (f : α → Option β) (l₁ l₂ : List α) :
    mapOpt f (l₁ ++ l₂) = (mapOpt f l₁).bind fun a => (mapOpt f l₂).map fun b => a ++ b := by
  induction l₁ with
  | nil => simp [mapOpt]
  | cons x l ih =>
    simp only [List.cons_append, mapOpt, ih]
    cases f x <;> cases mapOpt f l <;> cases mapOpt f l₂ <;> simp

theorem mapOpt_some (f : α → β) (l : List α) : mapOpt (fun a => some (f a)) l = some (l.map f) := by
  induction l with
  | nil => rfl
  | cons x l ih => simp [mapOpt, ih]

theorem mapOpt_congr {f g : α → Option β} {l : List α} (h : ∀ a ∈ l, f a = g a) : mapOpt f l = mapOpt g l := by
  induction l with
  | nil => rfl
  | cons x l ih =>
    simp only [mapOpt, h x List.mem_cons_self, ih fun a ha => h a (List.mem_cons_of_mem _ ha)]

theorem mapOpt_of_forall {f : α → Option β} {g : α → β} {l : List α} (h : ∀ a ∈ l, f a = some (g a)) :
    mapOpt f l = some (l.map g) := by rw [mapOpt_congr h, mapOpt_some]

theorem mapOpt_map (f : β → Option γ) (g : α → β) (l : List α) : mapOpt f (l.map g) = mapOpt (fun a => f (g a)) l := by
  induction l with
  | nil => rfl
  | cons x l ih => simp [mapOpt, ih]

theorem mapOpt_eq_some {f : α → Option β} {l : List α} {r : List β} :
    mapOpt f l = some r ↔ List.Forall₂ (fun a b => f a = some b) l r := by
  induction l generalizing r with
  | nil => cases r <;> simp [mapOpt]
  | cons x l ih =>
    cases r with
    | nil => simp only [mapOpt]; cases f x <;> simp
    | cons y r =>
      simp only [mapOpt, List.forall₂_cons, ← ih]
      cases f x <;> simp [and_comm]

theorem mapOpt_isSome {f : α → Option β} {l : List α} (h : ∀ a ∈ l, (f a).isSome) : (mapOpt f l).isSome := by
  induction l with
  | nil => rfl
  | cons x l ih =>
    obtain ⟨y, hy⟩ := Option.isSome_iff_exists.1 (h x List.mem_cons_self)
    obtain ⟨r, hr⟩ := Option.isSome_iff_exists.1 (ih fun a ha => h a (List.mem_cons_of_mem _ ha))
    simp [mapOpt, hy, hr]

theorem flatMapOpt_append (f : α → Option (List β)) (l₁ l₂ : List α) :
    flatMapOpt f (l₁ ++ l₂) = (flatMapOpt f l₁).bind fun a => (flatMapOpt f l₂).map fun b => a ++ b := by
  induction l₁ with
  | nil => simp [flatMapOpt]
  | cons x l ih =>
    simp only [List.cons_append, flatMapOpt, ih]
    cases f x <;> cases flatMapOpt f l <;> cases flatMapOpt f l₂ <;> simp

theorem flatMapOpt_of_forall {f : α → Option (List β)} {g : α → List β} {l : List α} (h : ∀ a ∈ l, f a = some (g a)) :
    flatMapOpt f l = some (l.flatMap g) := by
  induction l with
  | nil => rfl
  | cons x l ih =>
    simp [flatMapOpt, h x List.mem_cons_self, ih fun a ha => h a (List.mem_cons_of_mem _ ha)]

theorem flatMapOpt_map (f : β → Option (List γ)) (g : α → β) (l : List α) :
    flatMapOpt f (l.map g) = flatMapOpt (fun a => f (g a)) l := by
  induction l with
  | nil => rfl
  | cons x l ih => simp [flatMapOpt, ih]

theorem flatMapOpt_bind_mapOpt (g : α → Option (List β)) (h : β → Option γ) (l : List α) :
    (flatMapOpt g l).bind (mapOpt h) = flatMapOpt (fun a => (g a).bind (mapOpt h)) l := by
  induction l with
  | nil => rfl
  | cons x l ih =>
    simp only [flatMapOpt, ← ih]
    cases g x with
    | none => rfl
    | some y =>
      cases flatMapOpt g l with
      | none => simp
      | some z =>
        simp only [Option.bind_some, Option.map_some, mapOpt_append]

theorem flatMapOpt_bind_flatMapOpt (g : α → Option (List β)) (h : β → Option (List γ)) (l : List α) :
    (flatMapOpt g l).bind (flatMapOpt h) = flatMapOpt (fun a => (g a).bind (flatMapOpt h)) l := by
  induction l with
  | nil => rfl
  | cons x l ih =>
    simp only [flatMapOpt, ← ih]
    cases g x with
    | none => rfl
    | some y =>
      cases flatMapOpt g l with
      | none => simp
      | some z =>
        simp only [Option.bind_some, Option.map_some, flatMapOpt_append]

theorem flatMapOpt_congr {f g : α → Option (List β)} {l : List α} (h : ∀ a ∈ l, f a = g a) :
    flatMapOpt f l = flatMapOpt g l := by
  induction l with
  | nil => rfl
  | cons x l ih =>
    simp only [flatMapOpt, h x List.mem_cons_self, ih fun a ha => h a (List.mem_cons_of_mem _ ha)]

theorem flatMapOpt_map_out (f : α → Option (List β)) (g : β → γ) (l : List α) :
    (flatMapOpt f l).map (fun r => r.map g) = flatMapOpt (fun a => (f a).map fun r => r.map g) l := by
  induction l with
  | nil => rfl
  | cons x l ih =>
    simp only [flatMapOpt, ← ih]
    cases f x <;> cases flatMapOpt f l <;> simp

theorem flatMapOpt_eq_none {f : α → Option (List β)} {l : List α} :
    flatMapOpt f l = none ↔ ∃ a ∈ l, f a = none := by
  induction l with
  | nil => simp [flatMapOpt]
  | cons x l ih =>
    simp only [flatMapOpt, List.mem_cons, exists_eq_or_imp, ← ih]
    cases f x <;> cases flatMapOpt f l <;> simp

theorem mapOpt_eq_none {f : α → Option β} {l : List α} :
    mapOpt f l = none ↔ ∃ a ∈ l, f a = none := by
  induction l with
  | nil => simp [mapOpt]
  | cons x l ih =>
    simp only [mapOpt, List.mem_cons, exists_eq_or_imp, ← ih]
    cases f x <;> cases mapOpt f l <;> simp

end opt

variable {CF Col Row Mid F K : Type} [NonZeroCoeff CF] [Field K] [LawfulCoeff CF K]

theorem coeff_mul_assoc (K : Type) [Field K] [LawfulCoeff CF K] (a b c : CF) :
    NonZeroCoeff.mul (NonZeroCoeff.mul a b) c = NonZeroCoeff.mul a (NonZeroCoeff.mul b c) := by
  apply LawfulCoeff.val_inj (K := K); simp [LawfulCoeff.val_mul, mul_assoc]

@[simp] theorem lcOf_nil : lcOf K ([] : List (CF × Row)) = 0 := rfl
@[simp] theorem lcOf_cons (t : CF × Row) (l : List (CF × Row)) :
    lcOf K (t :: l) = single t.2 (LawfulCoeff.val t.1) + lcOf K l := rfl
@[simp] theorem lcOf_append (l₁ l₂ : List (CF × Row)) : lcOf K (l₁ ++ l₂) = lcOf K l₁ + lcOf K l₂ := by
  simp [lcOf]

theorem lcOf_scale (l : List (CF × Row)) (k : CF) :
    lcOf K (l.map fun u => (NonZeroCoeff.mul u.1 k, u.2)) = (LawfulCoeff.val k : K) • lcOf K l := by
  induction l with
  | nil => simp
  | cons x l ih =>
    simp only [List.map_cons, lcOf_cons, ih, smul_add, Finsupp.smul_single, LawfulCoeff.val_mul, smul_eq_mul]
    rw [mul_comm]

theorem lcOf_support {l : List (CF × Row)} {r : Row} (h : lcOf K l r ≠ 0) : ∃ t ∈ l, t.2 = r := by
  induction l with
  | nil => simp at h
  | cons x l ih =>
    by_cases hx : x.2 = r
    · exact ⟨x, List.mem_cons_self, hx⟩
    · rw [lcOf_cons, Finsupp.add_apply, Finsupp.single_eq_of_ne (Ne.symm hx), zero_add] at h
      obtain ⟨t, ht, h2⟩ := ih h
      exact ⟨t, List.mem_cons_of_mem _ ht, h2⟩

theorem lcOf_perm {l l' : List (CF × Row)} (h : l.Perm l') : lcOf K l = lcOf K l' := by
  unfold lcOf; exact (h.map _).sum_eq

theorem lcOf_map_inj {Row' : Type} (g : Row → Row') (hg : Function.Injective g) (l : List (CF × Row)) (r : Row) :
    lcOf K (l.map fun t => (t.1, g t.2)) (g r) = lcOf K l r := by
  induction l with
  | nil => simp
  | cons x l ih =>
    simp only [List.map_cons, lcOf_cons, Finsupp.add_apply, ih]
    congr 1
    classical
    simp only [Finsupp.single_apply, hg.eq_iff]

/-- Linear extension of a column function. -/
noncomputable def applyCols (M : Mid → (Row →₀ K)) (v : Mid →₀ K) : Row →₀ K := Finsupp.linearCombination K M v

theorem applyCols_lcOf (M : Mid → (Row →₀ K)) (l : List (CF × Mid)) :
    applyCols M (lcOf K l) = (l.map fun t => (LawfulCoeff.val t.1 : K) • M t.2).sum := by
  induction l with
  | nil => simp [applyCols]
  | cons x l ih =>
    simp only [lcOf_cons, applyCols, map_add, Finsupp.linearCombination_single, List.map_cons, List.sum_cons] at *
    rw [ih]

variable [LinearOrder F] [LinearOrder Row] [StdHeap]

theorem withTrivial_colF (M : Oracle CF Col Row) (c : Col) :
    M.withTrivial.colF c = (M.column c).map fun l => l.map fun t => ⟨(), t.2, t.1⟩ := by
  simp only [Oracle.withTrivial, Oracle.withFilt, defaultColF, Option.map_some, Entry.ofTuple]
  cases M.column c with
  | none => rfl
  | some l => simp [mapOpt_some]

/-- Building a heap column from coherent entries. -/
theorem build_spec (f : Row → F) (es : List (Entry F Row CF)) (h : ∀ e ∈ es, e.filt = f e.row) :
    Coherent f (StdHeap.bag (BHCol.empty.addEntries es : BHCol F Row CF)) ∧
    BHCol.vec K (BHCol.empty.addEntries es : BHCol F Row CF) = lcOf K (es.map fun e => (e.coeff, e.row)) := by
  refine ⟨?_, ?_⟩
  · intro e he
    rw [BHCol.bag_addEntries, BHCol.bag_empty'] at he
    exact h e (by simpa using he)
  · rw [BHCol.vec_addEntries, BHCol.vec_empty, add_zero]
    unfold lcOf Entry.vec; rw [List.map_map]; rfl

theorem trivial_build_spec (l : List (CF × Row)) :
    Coherent (fun _ => ()) (StdHeap.bag (BHCol.empty.addEntries
      (l.map fun t => (⟨(), t.2, t.1⟩ : Entry Unit Row CF)) : BHCol Unit Row CF)) ∧
    BHCol.vec K (BHCol.empty.addEntries (l.map fun t => (⟨(), t.2, t.1⟩ : Entry Unit Row CF)) : BHCol Unit Row CF)
      = lcOf K l := by
  have := build_spec (K := K) (fun _ : Row => ()) (l.map fun t => (⟨(), t.2, t.1⟩ : Entry Unit Row CF)) (by simp)
  refine ⟨this.1, ?_⟩
  rw [this.2, List.map_map]; congr 1
  conv_rhs => rw [← List.map_id l]
  rfl

section
variable {CF Row K : Type} [NonZeroCoeff CF] [Field K] [LawfulCoeff CF K] [LinearOrder Row]

theorem IsSparseList.lcOf_eq {v : Row →₀ K} {l : List (CF × Row)} (h : IsSparseList v l) : lcOf K l = v := by
  have key : ∀ l : List (CF × Row), l.Pairwise (fun s t => t.2 < s.2) →
      ∀ r, (∀ t ∈ l, t.2 = r → lcOf K l r = LawfulCoeff.val t.1) ∧ ((∀ t ∈ l, t.2 ≠ r) → lcOf K l r = 0) := by
    intro l hl r
    induction l with
    | nil => simp
    | cons x l ih =>
      have hx := List.pairwise_cons.1 hl
      obtain ⟨i1, i2⟩ := ih hx.2
      refine ⟨?_, ?_⟩
      · intro t ht htr
        rcases List.mem_cons.1 ht with rfl | ht
        · rw [lcOf_cons, Finsupp.add_apply, htr, Finsupp.single_eq_same, i2, add_zero]
          intro t' ht' h'
          have := hx.1 t' ht'
          rw [h', htr] at this; exact lt_irrefl _ this
        · rw [lcOf_cons, Finsupp.add_apply, i1 t ht htr]
          have : x.2 ≠ r := by
            intro h'; have := hx.1 t ht; rw [h', htr] at this; exact lt_irrefl _ this
          rw [Finsupp.single_eq_of_ne (Ne.symm this), zero_add]
      · intro hne
        rw [lcOf_cons, Finsupp.add_apply, i2 (fun t ht => hne t (List.mem_cons_of_mem _ ht)),
          Finsupp.single_eq_of_ne (Ne.symm (hne x List.mem_cons_self)), zero_add]
  ext r
  by_cases hr : v r = 0
  · rw [hr]
    apply (key l h.1 r).2
    intro t ht htr
    have := ((h.2 t).1 ht).1
    rw [htr] at this; exact this hr
  · obtain ⟨k, hk⟩ := LawfulCoeff.val_surj (CF := CF) (v r) hr
    rw [(key l h.1 r).1 (k, r) ((h.2 (k, r)).2 ⟨hr, hk⟩) rfl, hk]

theorem BHCol.IsCanonical.sparse {v : Row →₀ K} {es : List (Entry Unit Row CF)}
    (h2 : BHCol.IsCanonical (K := K) (fun _ => ()) v es) : IsSparseList v (es.map fun e => (e.coeff, e.row)) := by
  refine ⟨?_, ?_⟩
  · rw [List.pairwise_map]
    refine h2.1.imp ?_
    intro a b hab
    simp only [Entry.key, Prod.Lex.toLex_lt_toLex] at hab
    rcases hab with hab | hab
    · exact absurd hab (lt_irrefl _)
    · exact hab.2
  · intro t
    rw [List.mem_map]
    constructor
    · rintro ⟨e, he, rfl⟩
      have := (h2.2 e).1 he
      exact ⟨this.1, this.2.1⟩
    · rintro ⟨h3, h4⟩
      exact ⟨⟨(), t.2, t.1⟩, (h2.2 _).2 ⟨h3, h4, rfl⟩, rfl⟩
end

end Phlite
