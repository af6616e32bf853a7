/-
The Rips code with another implementation of `from_indices`, which agrees with the exact one for indices below a bound `b` (and may panic
from `b` on).
-/
import Verif.Model.Rips64
import Verif.Props.RipsReport

set_option linter.unusedSectionVars false
set_option linter.unusedSimpArgs false

namespace Phlite
open Finsupp (single linearCombination linearCombination_single)
open OrderDual (toDual ofDual)

/-! ### 64-bit arithmetic -/

theorem fold64_exact {n : Nat} (l : List Nat) (k acc : Nat) (hl : ∀ v ∈ l, v < n) (hacc : acc < 2 ^ 64) (hn : n + 1 < 2 ^ 64) :
    (l.zipIdx k).foldlM (fun acc p =>
      (chk64 (n + 1)).bind fun b => (pow64 b p.2).bind fun x => (chk64 (p.1 + 1)).bind fun c => (chk64 (x * c)).bind fun y =>
        chk64 (acc + y)) acc = if acc + (n + 1) ^ k * enc (n + 1) l < 2 ^ 64 then some (acc + (n + 1) ^ k * enc (n + 1) l) else none := by
  induction l generalizing k acc with
  | nil => simpa [enc] using hacc
  | cons v l ih =>
    have hv := hl v (by simp)
    rw [List.zipIdx_cons, List.foldlM_cons]
    have e1 : chk64 (n + 1) = some (n + 1) := if_pos hn
    have e2 : chk64 (v + 1) = some (v + 1) := if_pos (by omega)
    have e0 : acc + (n + 1) ^ k * enc (n + 1) (v :: l) = acc + (n + 1) ^ k * (v + 1) + (n + 1) ^ (k + 1) * enc (n + 1) l := by
      simp only [enc]; ring
    rw [e0]
    simp only [e1, Option.bind_some] at ih ⊢
    by_cases hk : (n + 1) ^ k < 2 ^ 64
    · rw [pow64_eq k hk (Nat.succ_pos n), Option.bind_some, e2, Option.bind_some]
      by_cases h3 : (n + 1) ^ k * (v + 1) < 2 ^ 64
      · rw [chk64, if_pos h3, Option.bind_some]
        by_cases h4 : acc + (n + 1) ^ k * (v + 1) < 2 ^ 64
        · rw [chk64, if_pos h4]
          exact ih (k + 1) _ (fun v hv => hl v (by simp [hv])) h4
        · rw [chk64, if_neg h4, if_neg (by omega)]; rfl
      · rw [chk64, if_neg h3, if_neg (by omega)]; rfl
    · have h5 : (n + 1) ^ k ≤ (n + 1) ^ k * (v + 1) := Nat.le_mul_of_pos_right _ (Nat.succ_pos v)
      rw [pow64_none k (by omega), if_neg (by omega)]; rfl

/-- The 64-bit computation succeeds exactly if the index is below `2^64`. -/
theorem fromIndices64_iff {n : Nat} (l : List Nat) (hl : ∀ v ∈ l, v < n) (hn : n + 1 < 2 ^ 64) :
    fromIndices64 n l = if enc (n + 1) l < 2 ^ 64 then some (fromIndices n l) else none := by
  have := fold64_exact l 0 0 hl (by norm_num) hn
  unfold fromIndices64
  rw [this, pow_zero, one_mul, Nat.zero_add]
  split
  · by_cases h : l = []
    · subst h; rfl
    · rw [fromIndices_eq n h]
      have := enc_pos (b := n + 1) h
      simp [this]
  · rfl

/-- `fi` computes the exact index if it is below `b`. -/
def AgreesBelow (fi : FromIndices) (n b : ℕ) : Prop := ∀ l : List ℕ, (∀ v ∈ l, v < n) → enc (n + 1) l < b → fi n l = some (fromIndices n l)

/-- `fi` panics if the index is not below `b`. -/
def PanicsFrom (fi : FromIndices) (n b : ℕ) : Prop := ∀ l : List ℕ, (∀ v ∈ l, v < n) → b ≤ enc (n + 1) l → fi n l = none

theorem fromIndices64_agrees {n : ℕ} (hn : n + 1 < 2 ^ 64) : AgreesBelow fromIndices64 n (2 ^ 64) := fun l hl h => by
  rw [fromIndices64_iff l hl hn, if_pos h]

theorem fromIndices64_panics {n : ℕ} (hn : n + 1 < 2 ^ 64) : PanicsFrom fromIndices64 n (2 ^ 64) := fun l hl h => by
  rw [fromIndices64_iff l hl hn, if_neg (by omega)]

theorem fromIndicesWrapping_agrees {n : ℕ} : AgreesBelow (fun n l => some (fromIndicesWrapping n l)) n (2 ^ 64) := fun l hl h => by
  unfold fromIndicesWrapping fromIndices
  have := enc_sum (n + 1) 0 l
  rw [pow_zero, one_mul] at this
  dsimp only
  rw [this, Nat.mod_eq_of_lt h]

/-! ### Folds -/

section
variable {α β : Type} {f g : β → α → Option β} {P : β → Prop}

theorem foldlM_back {l : List α} (hA : ∀ a ∈ l, ∀ b b', f b a = some b' → P b' → P b) {b b' : β} (h : l.foldlM f b = some b') (hb : P b') : P b := by
  induction l generalizing b with
  | nil => cases h; exact hb
  | cons a l ih =>
    rw [List.foldlM_cons] at h
    obtain ⟨c, h1, h2⟩ := Option.bind_eq_some_iff.1 h
    exact hA a List.mem_cons_self b c h1 (ih (fun a ha => hA a (List.mem_cons_of_mem _ ha)) h2)

theorem foldlM_succ {l : List α} (hA : ∀ a ∈ l, ∀ b b', f b a = some b' → P b' → P b) (hB : ∀ a ∈ l, ∀ b b', f b a = some b' → P b' → g b a = some b')
    {b b' : β} (h : l.foldlM f b = some b') (hb : P b') : l.foldlM g b = some b' := by
  induction l generalizing b with
  | nil => exact h
  | cons a l ih =>
    rw [List.foldlM_cons] at h ⊢
    obtain ⟨c, h1, h2⟩ := Option.bind_eq_some_iff.1 h
    have hA' := fun a (ha : a ∈ l) => hA a (List.mem_cons_of_mem _ ha)
    rw [hB a List.mem_cons_self b c h1 (foldlM_back hA' h2 hb)]
    exact ih hA' (fun a ha => hB a (List.mem_cons_of_mem _ ha)) h2

theorem foldlM_sound {l : List α} (hC : ∀ a ∈ l, ∀ b b', P b → g b a = some b' → f b a = some b' ∧ P b') {b b' : β} (hb : P b)
    (h : l.foldlM g b = some b') : l.foldlM f b = some b' ∧ P b' := by
  induction l generalizing b with
  | nil => cases h; exact ⟨rfl, hb⟩
  | cons a l ih =>
    rw [List.foldlM_cons] at h ⊢
    obtain ⟨c, h1, h2⟩ := Option.bind_eq_some_iff.1 h
    obtain ⟨h3, h4⟩ := hC a List.mem_cons_self b c hb h1
    rw [h3]
    exact ih (fun a ha => hC a (List.mem_cons_of_mem _ ha)) h4 h2

end

/-! ### Bases -/

section
variable {F : Type} [LinearOrder F] [Zero F] {fi : FromIndices}

/-- All indices are below `b`. -/
def FitsIn (b : ℕ) (bases : List (List (F × RipsIndex))) : Prop := ∀ basis ∈ bases, ∀ x ∈ basis, x.2 < b

theorem modify_fits {b : ℕ} {bases : List (List (F × RipsIndex))} {k : ℕ} (x : F × RipsIndex) (hk : k < bases.length) :
    FitsIn b (bases.modify k (· ++ [x])) ↔ FitsIn b bases ∧ x.2 < b := by
  induction bases generalizing k with
  | nil => simp at hk
  | cons a bases ih =>
    cases k with
    | zero =>
      simp only [FitsIn, List.modify_zero_cons, List.mem_cons, forall_eq_or_imp, List.mem_append, List.mem_nil_iff, or_false]
      constructor
      · rintro ⟨h1, h2⟩
        exact ⟨⟨fun y hy => h1 y (Or.inl hy), h2⟩, h1 x (Or.inr rfl)⟩
      · rintro ⟨⟨h1, h2⟩, h3⟩
        exact ⟨fun y hy => hy.elim (h1 y) fun e => e ▸ h3, h2⟩
    | succ k =>
      have := ih (k := k) (by simpa using hk)
      simp only [FitsIn, List.modify_succ_cons, List.mem_cons, forall_eq_or_imp] at this ⊢
      rw [this, and_assoc]

theorem pushAt_fits {b : ℕ} {bases b' : List (List (F × RipsIndex))} {k : ℕ} {x : F × RipsIndex} (h : pushAt bases k x = some b') :
    FitsIn b b' ↔ FitsIn b bases ∧ x.2 < b := by
  unfold pushAt at h
  split at h
  · rename_i hk
    cases h
    exact modify_fits x hk
  · cases h

variable {distances : List (List F)} {max_dim b : ℕ}

theorem addCofacets_back (fuel : ℕ) {bases b' : List (List (F × RipsIndex))} {simplex : List ℕ} {fil : F}
    (h : addCofacets distances max_dim fuel bases simplex fil = some b') (hb : FitsIn b b') : FitsIn b bases := by
  induction fuel generalizing bases b' simplex fil with
  | zero => cases h
  | succ fuel ih =>
    unfold addCofacets at h
    obtain ⟨m, _, h⟩ := Option.bind_eq_some_iff.1 h
    dsimp only at h
    split at h
    · cases h; exact hb
    · refine foldlM_back (P := FitsIn b) (fun v _ c c' hc hc' => ?_) h hb
      simp only [Option.bind_eq_some_iff] at hc
      obtain ⟨ds, _, m', _, index, _, c1, h1, h2⟩ := hc
      have : FitsIn b c1 := by
        split at h2
        · exact ih h2 hc'
        · cases h2; exact hc'
      exact ((pushAt_fits h1).1 this).1

theorem addCofacetsW_succ (hfi : AgreesBelow fi distances.length b) (fuel : ℕ) {bases b' : List (List (F × RipsIndex))} {simplex : List ℕ} {fil : F}
    (hlt : ∀ v ∈ simplex, v < distances.length) (h : addCofacets distances max_dim fuel bases simplex fil = some b') (hb : FitsIn b b') :
    addCofacetsW fi distances max_dim fuel bases simplex fil = some b' := by
  induction fuel generalizing bases b' simplex fil with
  | zero => cases h
  | succ fuel ih =>
    unfold addCofacets at h
    unfold addCofacetsW
    obtain ⟨m, hm, h⟩ := Option.bind_eq_some_iff.1 h
    rw [hm, Option.bind_some]
    dsimp only at h ⊢
    have hm' := hlt m (List.mem_of_getLast? hm)
    split at h
    · rename_i he; rw [if_pos he]; exact h
    · rename_i he
      rw [if_neg he]
      refine foldlM_succ (P := FitsIn b) (fun v _ c c' hc hc' => ?_) (fun v hv c c' hc hc' => ?_) h hb
      · simp only [Option.bind_eq_some_iff] at hc
        obtain ⟨ds, _, m', _, index, _, c1, h1, h2⟩ := hc
        have : FitsIn b c1 := by
          split at h2
          · exact addCofacets_back _ h2 hc'
          · cases h2; exact hc'
        exact ((pushAt_fits h1).1 this).1
      · simp only [Option.bind_eq_some_iff] at hc ⊢
        obtain ⟨ds, h3, m', h4, index, h5, c1, h1, h2⟩ := hc
        have hf1 : FitsIn b c1 := by
          split at h2
          · exact addCofacets_back _ h2 hc'
          · cases h2; exact hc'
        rw [List.mem_range'_1] at hv
        have hlt' : ∀ w ∈ simplex ++ [v], w < distances.length := by
          intro w hw
          rcases List.mem_append.1 hw with h | h
          · exact hlt w h
          · rw [List.mem_singleton.1 h]; omega
        have hidx : index = enc (distances.length + 1) (simplex ++ [v]) := by
          rw [fromIndices_eq _ (by simp)] at h5; exact (Option.some.inj h5).symm
        have hlt2 := ((pushAt_fits h1).1 hf1).2
        refine ⟨ds, h3, m', h4, index, ⟨_, hfi _ hlt' (by rw [← hidx]; exact hlt2), h5⟩, c1, h1, ?_⟩
        split at h2
        · rename_i hk; rw [if_pos hk]; exact ih hlt' h2 hc'
        · rename_i hk; rw [if_neg hk]; exact h2

theorem addCofacetsW_sound (hfi : AgreesBelow fi distances.length b) (hfi' : PanicsFrom fi distances.length b) (fuel : ℕ)
    {bases b' : List (List (F × RipsIndex))} {simplex : List ℕ} {fil : F} (hlt : ∀ v ∈ simplex, v < distances.length) (hb : FitsIn b bases)
    (h : addCofacetsW fi distances max_dim fuel bases simplex fil = some b') :
    addCofacets distances max_dim fuel bases simplex fil = some b' ∧ FitsIn b b' := by
  induction fuel generalizing bases b' simplex fil with
  | zero => cases h
  | succ fuel ih =>
    unfold addCofacetsW at h
    unfold addCofacets
    obtain ⟨m, hm, h⟩ := Option.bind_eq_some_iff.1 h
    rw [hm, Option.bind_some]
    dsimp only at h ⊢
    have hm' := hlt m (List.mem_of_getLast? hm)
    split at h
    · rename_i he; rw [if_pos he]; cases h; exact ⟨rfl, hb⟩
    · rename_i he
      rw [if_neg he]
      refine foldlM_sound (P := FitsIn b) (fun v hv c c' hc hc' => ?_) hb h
      simp only [Option.bind_eq_some_iff] at hc' ⊢
      obtain ⟨ds, h3, m', h4, index, ⟨o, h5, h6⟩, c1, h1, h2⟩ := hc'
      rw [List.mem_range'_1] at hv
      have hlt' : ∀ w ∈ simplex ++ [v], w < distances.length := by
        intro w hw
        rcases List.mem_append.1 hw with h | h
        · exact hlt w h
        · rw [List.mem_singleton.1 h]; omega
      have hlt2 : enc (distances.length + 1) (simplex ++ [v]) < b := by
        by_contra hcon
        rw [hfi' _ hlt' (not_lt.1 hcon)] at h5; cases h5
      rw [hfi _ hlt' hlt2] at h5
      have h6 : o = some index := h6
      have hidx : index = enc (distances.length + 1) (simplex ++ [v]) := by
        rw [fromIndices_eq _ (by simp), h6] at h5; exact (Option.some.inj (Option.some.inj h5)).symm
      have hf1 : FitsIn b c1 := (pushAt_fits h1).2 ⟨hc, by rw [hidx]; exact hlt2⟩
      have h5' : fromIndices distances.length (simplex ++ [v]) = some index := by rw [← h6]; exact Option.some.inj h5
      split at h2
      · rename_i hk
        obtain ⟨q1, q2⟩ := ih hlt' hf1 h2
        exact ⟨⟨ds, h3, m', h4, index, h5', c1, h1, by rw [if_pos hk]; exact q1⟩, q2⟩
      · rename_i hk
        refine ⟨⟨ds, h3, m', h4, index, h5', c1, h1, by rw [if_neg hk]; exact h2⟩, ?_⟩
        cases h2; exact hf1

theorem fits_sorted {bases : List (List (F × RipsIndex))} : FitsIn b (bases.map fun basis => basis.insertionSort tupleLe) ↔ FitsIn b bases := by
  unfold FitsIn
  rw [List.forall_mem_map]
  exact forall_congr' fun basis => imp_congr_right fun _ => forall_congr' fun x => by rw [(List.perm_insertionSort _ _).mem_iff]

theorem buildRipsBasesW_succ (hfi : AgreesBelow fi distances.length b) {bases : List (List (F × RipsIndex))}
    (h : buildRipsBases distances max_dim = some bases) (hb : FitsIn b bases) : buildRipsBasesW fi distances max_dim = some bases := by
  unfold buildRipsBases at h
  unfold buildRipsBasesW
  obtain ⟨b1, h1, rfl⟩ := Option.map_eq_some_iff.1 h
  rw [fits_sorted] at hb
  refine Option.map_eq_some_iff.2 ⟨b1, ?_, rfl⟩
  refine foldlM_succ (P := FitsIn b) (fun v _ c c' hc hc' => ?_) (fun v hv c c' hc hc' => ?_) h1 hb
  · simp only [Option.bind_eq_some_iff] at hc
    obtain ⟨index, _, c1, h1, h2⟩ := hc
    exact ((pushAt_fits h1).1 (addCofacets_back _ h2 hc')).1
  · simp only [Option.bind_eq_some_iff] at hc ⊢
    obtain ⟨index, h5, c1, h1, h2⟩ := hc
    have hv' : ∀ w ∈ [v], w < distances.length := by simpa using hv
    have hf := (pushAt_fits h1).1 (addCofacets_back _ h2 hc')
    have hidx : index = enc (distances.length + 1) [v] := by
      rw [fromIndices_eq _ (by simp)] at h5; exact (Option.some.inj h5).symm
    exact ⟨index, ⟨_, hfi _ hv' (by rw [← hidx]; exact hf.2), h5⟩, c1, h1, addCofacetsW_succ hfi _ hv' h2 hc'⟩

theorem buildRipsBasesW_sound (hfi : AgreesBelow fi distances.length b) (hfi' : PanicsFrom fi distances.length b)
    {bases : List (List (F × RipsIndex))} (h : buildRipsBasesW fi distances max_dim = some bases) :
    buildRipsBases distances max_dim = some bases ∧ FitsIn b bases := by
  unfold buildRipsBasesW at h
  unfold buildRipsBases
  obtain ⟨b1, h1, rfl⟩ := Option.map_eq_some_iff.1 h
  have := foldlM_sound (P := FitsIn b) (f := fun bases v => (fromIndices distances.length [v]).bind fun index =>
    (pushAt bases 0 (0, index)).bind fun bases => addCofacets distances max_dim (max_dim + 1) bases [v] 0) (fun v hv c c' hc hc' => ?_) ?_ h1
  · rw [this.1]
    exact ⟨rfl, fits_sorted.2 this.2⟩
  · simp only [Option.bind_eq_some_iff] at hc' ⊢
    obtain ⟨index, ⟨o, h5, h6⟩, c1, h1, h2⟩ := hc'
    have hv' : ∀ w ∈ [v], w < distances.length := by simpa using hv
    have hlt2 : enc (distances.length + 1) [v] < b := by
      by_contra hcon
      rw [hfi' _ hv' (not_lt.1 hcon)] at h5; cases h5
    rw [hfi _ hv' hlt2] at h5
    have h6 : o = some index := h6
    have h5' : fromIndices distances.length [v] = some index := by rw [← h6]; exact Option.some.inj h5
    have hidx : index = enc (distances.length + 1) [v] := by
      rw [fromIndices_eq _ (by simp)] at h5'; exact (Option.some.inj h5').symm
    obtain ⟨q1, q2⟩ := addCofacetsW_sound hfi hfi' _ hv' ((pushAt_fits h1).2 ⟨hc, by rw [hidx]; exact hlt2⟩) h2
    exact ⟨⟨index, h5', c1, h1, q1⟩, q2⟩
  · intro basis hm x hx
    rw [List.eq_of_mem_replicate hm] at hx
    simp at hx

/-! ### Columns -/

variable {CF : Type} [NonZeroCoeff CF]

theorem seek_some {fuel : ℕ} {it it' : CobIter} (h : CobIter.seek fuel it = some (some it')) :
    it'.base = it.base ∧ it'.max_vertex = it.max_vertex ∧ it'.next_vertex ≤ it.max_vertex := by
  induction fuel generalizing it with
  | zero => cases h
  | succ fuel ih =>
    unfold CobIter.seek at h
    split at h
    · cases h
    · rename_i hle
      split at h
      · simp only [Option.some.injEq] at h; subst h
        exact ⟨rfl, rfl, by omega⟩
      · split at h
        · obtain ⟨a, b, c⟩ := ih h; exact ⟨a, b, c⟩
        · split at h
          · obtain ⟨a, b, c⟩ := ih h; exact ⟨a, b, c⟩
          · simp only [Option.some.injEq] at h; subst h
            exact ⟨rfl, rfl, by omega⟩

/-- One item: the same, if its index is below the bound; a panic, if `fi` panics from the bound on. -/
theorem yieldW_iff {n : ℕ} (hfi : AgreesBelow fi n b) {it : CobIter} (hn : it.max_vertex + 1 = n) (hv : it.next_vertex ≤ it.max_vertex)
    (hlt : ∀ v ∈ it.base, v < n) :
    (∀ p, it.yield_ (CF := CF) = some p → p.1.2.1 < b → it.yieldW fi = some p) ∧
    (PanicsFrom fi n b → ∀ p, it.yieldW (CF := CF) fi = some p → it.yield_ = some p ∧ p.1.2.1 < b) := by
  have hlt' : ∀ w ∈ it.base.take it.insertion_position ++ [it.next_vertex] ++ it.base.drop it.insertion_position, w < n := by
    intro w hw
    rw [List.mem_append, List.mem_append] at hw
    rcases hw with (h | h) | h
    · exact hlt w (List.mem_of_mem_take h)
    · rw [List.mem_singleton.1 h]; omega
    · exact hlt w (List.mem_of_mem_drop h)
  have hne : it.base.take it.insertion_position ++ [it.next_vertex] ++ it.base.drop it.insertion_position ≠ [] := by simp
  unfold CobIter.yield_ CobIter.yieldW
  rw [hn]
  dsimp only
  rw [fromIndices_eq n hne]
  constructor
  · intro p hp hpb
    simp only [Option.map_some, Option.some.injEq] at hp
    subst hp
    rw [hfi _ hlt' hpb, fromIndices_eq n hne]
    rfl
  · intro hfi' p hp
    obtain ⟨index, h1, h2⟩ := Option.map_eq_some_iff.1 hp
    obtain ⟨o, h3, h4⟩ := Option.bind_eq_some_iff.1 h1
    have hlt2 : enc (n + 1) (it.base.take it.insertion_position ++ [it.next_vertex] ++ it.base.drop it.insertion_position) < b := by
      by_contra hcon
      rw [hfi' _ hlt' (not_lt.1 hcon)] at h3; cases h3
    rw [hfi _ hlt' hlt2, fromIndices_eq n hne] at h3
    have h4 : o = some index := h4
    rw [h4, Option.some.injEq, Option.some.injEq] at h3
    rw [← h2, h3]
    exact ⟨rfl, by rw [← h3]; exact hlt2⟩

theorem collectW_succ {n : ℕ} (hfi : AgreesBelow fi n b) (fuel : ℕ) {it : CobIter} (hn : it.max_vertex + 1 = n) (hlt : ∀ v ∈ it.base, v < n)
    {items : List (CF × RipsIndex × Nat)} (h : CobIter.collect fuel it = some items) (hb : ∀ t ∈ items, t.2.1 < b) :
    CobIter.collectW fi fuel it = some items := by
  induction fuel generalizing it items with
  | zero => cases h
  | succ fuel ih =>
    unfold CobIter.collect at h
    unfold CobIter.collectW
    obtain ⟨o, h1, h2⟩ := Option.bind_eq_some_iff.1 h
    rw [h1, Option.bind_some]
    cases o with
    | none => exact h2
    | some it' =>
      obtain ⟨hb', hm, hv⟩ := seek_some h1
      dsimp only at h2 ⊢
      obtain ⟨p, h3, h4⟩ := Option.bind_eq_some_iff.1 h2
      obtain ⟨r, h5, rfl⟩ := Option.map_eq_some_iff.1 h4
      rw [(yieldW_iff hfi (by rw [hm]; exact hn) (by rw [hm]; exact hv) (by rw [hb']; exact hlt)).1 p h3 (hb _ List.mem_cons_self), Option.bind_some]
      have : p.2.base = it.base ∧ p.2.max_vertex = it.max_vertex := by
        unfold CobIter.yield_ at h3
        obtain ⟨i, _, rfl⟩ := Option.map_eq_some_iff.1 h3
        exact ⟨hb', hm⟩
      rw [ih (by rw [this.2]; exact hn) (by rw [this.1]; exact hlt) h5 fun t ht => hb t (List.mem_cons_of_mem _ ht)]
      rfl

theorem collectW_sound {n : ℕ} (hfi : AgreesBelow fi n b) (hfi' : PanicsFrom fi n b) (fuel : ℕ) {it : CobIter} (hn : it.max_vertex + 1 = n)
    (hlt : ∀ v ∈ it.base, v < n) {items : List (CF × RipsIndex × Nat)} (h : CobIter.collectW fi fuel it = some items) :
    CobIter.collect fuel it = some items ∧ ∀ t ∈ items, t.2.1 < b := by
  induction fuel generalizing it items with
  | zero => cases h
  | succ fuel ih =>
    unfold CobIter.collectW at h
    unfold CobIter.collect
    obtain ⟨o, h1, h2⟩ := Option.bind_eq_some_iff.1 h
    rw [h1, Option.bind_some]
    cases o with
    | none => cases h2; exact ⟨rfl, by simp⟩
    | some it' =>
      obtain ⟨hb', hm, hv⟩ := seek_some h1
      dsimp only at h2 ⊢
      obtain ⟨p, h3, h4⟩ := Option.bind_eq_some_iff.1 h2
      obtain ⟨r, h5, rfl⟩ := Option.map_eq_some_iff.1 h4
      obtain ⟨q1, q2⟩ := (yieldW_iff hfi (by rw [hm]; exact hn) (by rw [hm]; exact hv) (by rw [hb']; exact hlt)).2 hfi' p h3
      have : p.2.base = it.base ∧ p.2.max_vertex = it.max_vertex := by
        unfold CobIter.yield_ at q1
        obtain ⟨i, _, rfl⟩ := Option.map_eq_some_iff.1 q1
        exact ⟨hb', hm⟩
      obtain ⟨r1, r2⟩ := ih (by rw [this.2]; exact hn) (by rw [this.1]; exact hlt) h5
      rw [q1, Option.bind_some, r1]
      refine ⟨rfl, ?_⟩
      intro t ht
      rcases List.mem_cons.1 ht with rfl | ht
      · exact q2
      · exact r2 t ht

theorem ripsCoboundaryColumnW_succ {n : ℕ} (hfi : AgreesBelow fi n b) {c : RipsIndex} {l : List (CF × RipsIndex)}
    (h : ripsCoboundaryColumn n c = some l) (hb : ∀ t ∈ l, t.2 < b) : ripsCoboundaryColumnW fi n c = some l := by
  unfold ripsCoboundaryColumn cobItems at h
  unfold ripsCoboundaryColumnW cobItemsW
  obtain ⟨items, h1, rfl⟩ := Option.map_eq_some_iff.1 h
  obtain ⟨base, h2, h3⟩ := Option.bind_eq_some_iff.1 h1
  obtain ⟨it, h4, h5⟩ := Option.bind_eq_some_iff.1 h3
  rw [h2, Option.bind_some, h4, Option.bind_some]
  have : it.max_vertex + 1 = n ∧ it.base = base := by
    unfold CobIter.new at h4
    split at h4
    · cases h4
    · rename_i hn
      cases h4
      exact ⟨by show n - 1 + 1 = n; omega, rfl⟩
  rw [collectW_succ hfi _ this.1 (by rw [this.2]; exact (toVec_inv h2).2) h5]
  · rfl
  · intro t ht
    exact hb (t.1, t.2.1) (List.mem_map.2 ⟨t, ht, rfl⟩)

theorem ripsCoboundaryColumnW_sound {n : ℕ} (hfi : AgreesBelow fi n b) (hfi' : PanicsFrom fi n b) {c : RipsIndex} {l : List (CF × RipsIndex)}
    (h : ripsCoboundaryColumnW fi n c = some l) : ripsCoboundaryColumn n c = some l ∧ ∀ t ∈ l, t.2 < b := by
  unfold ripsCoboundaryColumnW cobItemsW at h
  unfold ripsCoboundaryColumn cobItems
  obtain ⟨items, h1, rfl⟩ := Option.map_eq_some_iff.1 h
  obtain ⟨base, h2, h3⟩ := Option.bind_eq_some_iff.1 h1
  obtain ⟨it, h4, h5⟩ := Option.bind_eq_some_iff.1 h3
  rw [h2, Option.bind_some, h4, Option.bind_some]
  have : it.max_vertex + 1 = n ∧ it.base = base := by
    unfold CobIter.new at h4
    split at h4
    · cases h4
    · rename_i hn
      cases h4
      exact ⟨by show n - 1 + 1 = n; omega, rfl⟩
  obtain ⟨q1, q2⟩ := collectW_sound hfi hfi' _ this.1 (by rw [this.2]; exact (toVec_inv h2).2) h5
  rw [q1]
  refine ⟨rfl, ?_⟩
  intro t ht
  obtain ⟨u, hu, rfl⟩ := List.mem_map.1 ht
  exact q2 u hu

/-- Faces have smaller indices, so the boundary never overflows. -/
theorem ripsBoundaryColumnW_eq {n : ℕ} (hfi : AgreesBelow fi n b) {c : RipsIndex} (hc : c < b) :
    ripsBoundaryColumnW (CF := CF) fi n c = ripsBoundaryColumn n c := by
  unfold ripsBoundaryColumnW ripsBoundaryColumn
  cases h : toVec n c with
  | none => rfl
  | some l =>
    obtain ⟨he, hl⟩ := toVec_inv h
    simp only [Option.bind_some, Option.map_some]
    refine filterMapOpt_eq _ _ _ fun i hi => ?_
    have hz : (l.zipIdx.filter fun p => decide (p.2 ≠ i)).map Prod.fst = l.eraseIdx i := by
      have := zipIdx_filter_ne l 0 i
      simpa using this
    rw [hz, hfi]
    · rfl
    · exact fun v hv => hl v (List.mem_of_mem_eraseIdx hv)
    · refine lt_trans ?_ (he ▸ hc)
      refine enc_lt_of_length (fun v hv => hl v (List.mem_of_mem_eraseIdx hv)) ?_
      rw [List.mem_range] at hi
      rw [List.length_eraseIdx_of_lt hi]; omega

end

section
variable {F CF : Type} [LinearOrder F] [Zero F] [NonZeroCoeff CF] {fi : FromIndices}

/-- A matrix that agrees with `D` on the columns in `els` answers what `D` restricted to `els` answers. -/
theorem restrict_ref_le {T : Type} [LinearOrder T] {D D' : FOracle CF T T F} {els : List T} (hc : ∀ c ∈ els, D'.column c = D.column c)
    (hf : D'.filt = D.filt) : DLE (D.ref.restrict els) D'.ref := by
  refine ⟨?_, ?_, ?_⟩
  · intro c l h
    simp only [FOracle.restrict] at h
    split at h
    · rename_i hm
      show D'.column c = some l
      rw [hc c hm]; exact h
    · cases h
  · intro c l h
    show D'.filt c = some l
    rw [hf]; exact h
  · intro c l h
    simp only [FOracle.restrict] at h
    split at h
    · rename_i hm
      show defaultColF D'.toOracle D'.filt c = some l
      have h : defaultColF D.toOracle D.filt c = some l := h
      unfold defaultColF at h ⊢
      rw [hf, hc c hm]; exact h
    · cases h

end
end Phlite
