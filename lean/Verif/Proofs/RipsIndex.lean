/-
Positional numerals: `RipsIndex::from_indices` and `to_vec`.
-/
import Verif.Model.Rips
import Verif.Spec.Rips

set_option linter.unusedSectionVars false
set_option linter.unusedSimpArgs false

namespace Phlite

/-- Value of a digit list, least significant first, digits shifted by one. -/
def enc (b : Nat) : List Nat → Nat
  | [] => 0
  | v :: l => v + 1 + b * enc b l

theorem enc_sum (b k : Nat) (l : List Nat) : ((l.zipIdx k).map fun p => b ^ p.2 * (p.1 + 1)).sum = b ^ k * enc b l := by
  induction l generalizing k with
  | nil => simp [enc]
  | cons v l ih =>
    simp only [List.zipIdx_cons, List.map_cons, List.sum_cons, ih, enc]
    ring

theorem enc_pos {b : Nat} {l : List Nat} (h : l ≠ []) : 0 < enc b l := by
  cases l with
  | nil => exact absurd rfl h
  | cons v l => simp [enc]

theorem fromIndices_eq (n : Nat) {l : List Nat} (h : l ≠ []) : fromIndices n l = some (enc (n + 1) l) := by
  have e := enc_sum (n + 1) 0 l
  rw [pow_zero, one_mul] at e
  unfold fromIndices
  simp only [e]
  rw [if_pos (enc_pos h)]

theorem fromIndices_nil (n : Nat) : fromIndices n [] = none := rfl

theorem toVecLoop_enc {b : Nat} (fuel : Nat) (l : List Nat) (hl : ∀ v ∈ l, v + 1 < b) (hf : enc b l ≤ fuel) :
    toVecLoop b fuel (enc b l) = some l := by
  induction l generalizing fuel with
  | nil => unfold toVecLoop; simp [enc]
  | cons v l ih =>
    have hv := hl v (by simp)
    have e1 : enc b (v :: l) ≠ 0 := (enc_pos (by simp)).ne'
    have e2 : enc b (v :: l) % b = v + 1 := by
      simp only [enc]; rw [Nat.add_mul_mod_self_left, Nat.mod_eq_of_lt hv]
    have e3 : enc b (v :: l) / b = enc b l := by
      simp only [enc]; rw [Nat.add_mul_div_left _ _ (by omega), Nat.div_eq_of_lt hv, zero_add]
    unfold toVecLoop
    rw [if_neg e1]
    cases fuel with
    | zero => omega
    | succ fuel =>
      simp only [e2, e3]
      rw [if_neg (by omega), ih fuel (fun v hv => hl v (by simp [hv]))]
      · simp
      · have : enc b l < enc b (v :: l) := by
          simp only [enc]
          have : enc b l ≤ b * enc b l := Nat.le_mul_of_pos_left _ (by omega)
          omega
        omega

theorem toVec_enc (n : Nat) (l : List Nat) (hl : ∀ v ∈ l, v < n) : toVec n (enc (n + 1) l) = some l :=
  toVecLoop_enc _ l (fun v hv => by have := hl v hv; omega) (Nat.le_refl _)

theorem toVecLoop_inv {b : Nat} (hb : 0 < b) (fuel w : Nat) (l : List Nat) (h : toVecLoop b fuel w = some l) :
    enc b l = w ∧ ∀ v ∈ l, v + 1 < b := by
  induction fuel generalizing w l with
  | zero =>
    unfold toVecLoop at h
    split at h
    · simp only [Option.some.injEq] at h; subst h; rename_i h; subst h; simp [enc]
    · cases h
  | succ fuel ih =>
    unfold toVecLoop at h
    split at h
    · simp only [Option.some.injEq] at h; subst h; rename_i h; subst h; simp [enc]
    · simp only at h
      split at h
      · cases h
      · rename_i h1 h2
        obtain ⟨l', h3, rfl⟩ := Option.map_eq_some_iff.1 h
        obtain ⟨i1, i2⟩ := ih _ _ h3
        have hm := Nat.mod_lt w hb
        refine ⟨?_, ?_⟩
        · simp only [enc, i1]
          have := Nat.mod_add_div w b
          omega
        · intro v hv
          rcases List.mem_cons.1 hv with rfl | hv
          · omega
          · exact i2 v hv

theorem toVec_inv {n : Nat} {w : Nat} {l : List Nat} (h : toVec n w = some l) : enc (n + 1) l = w ∧ ∀ v ∈ l, v < n := by
  obtain ⟨h1, h2⟩ := toVecLoop_inv (Nat.succ_pos n) w w l h
  exact ⟨h1, fun v hv => by have := h2 v hv; omega⟩

theorem enc_inj {n : Nat} {l l' : List Nat} (hl : ∀ v ∈ l, v < n) (hl' : ∀ v ∈ l', v < n) (h : enc (n + 1) l = enc (n + 1) l') :
    l = l' := by
  have := toVec_enc n l hl
  rw [h, toVec_enc n l' hl'] at this
  exact (Option.some.inj this).symm

theorem enc_lt_pow {n : Nat} {l : List Nat} (hl : ∀ v ∈ l, v < n) : enc (n + 1) l < (n + 1) ^ l.length := by
  induction l with
  | nil => simp [enc]
  | cons v l ih =>
    have hv := hl v (by simp)
    have := ih fun v hv => hl v (by simp [hv])
    simp only [enc, List.length_cons, pow_succ]
    have h2 : (n + 1) * (enc (n + 1) l + 1) ≤ (n + 1) * (n + 1) ^ l.length := Nat.mul_le_mul_left _ this
    rw [Nat.mul_add, Nat.mul_one] at h2
    rw [Nat.mul_comm ((n + 1) ^ l.length)]
    omega

theorem pow_le_enc {n : Nat} {v : Nat} {l : List Nat} : (n + 1) ^ l.length ≤ enc (n + 1) (v :: l) := by
  induction l generalizing v with
  | nil => simp [enc]
  | cons w l ih =>
    have := ih (v := w)
    simp only [enc, List.length_cons, pow_succ] at this ⊢
    have h2 : (n + 1) * (n + 1) ^ l.length ≤ (n + 1) * (w + 1 + (n + 1) * enc (n + 1) l) := Nat.mul_le_mul_left _ this
    rw [Nat.mul_comm ((n + 1) ^ l.length)]
    omega

theorem enc_lt_of_length {n : Nat} {l l' : List Nat} (hl : ∀ v ∈ l, v < n) (h : l.length < l'.length) : enc (n + 1) l < enc (n + 1) l' := by
  cases l' with
  | nil => simp at h
  | cons v l' =>
    refine lt_of_lt_of_le (enc_lt_pow hl) (le_trans ?_ pow_le_enc)
    exact Nat.pow_le_pow_right (Nat.succ_pos _) (by simpa using Nat.lt_succ_iff.1 h)

/-! ### 64-bit arithmetic -/

theorem pow64_eq {b : Nat} (k : Nat) (h : b ^ k < 2 ^ 64) (hb : 0 < b) : pow64 b k = some (b ^ k) := by
  induction k with
  | zero => rfl
  | succ k ih =>
    have : b ^ k ≤ b ^ (k + 1) := Nat.pow_le_pow_right hb (Nat.le_succ k)
    unfold pow64
    rw [ih (by omega), Option.bind_some, chk64, if_pos (by rw [← pow_succ]; exact h), pow_succ]

theorem pow64_none {b : Nat} (k : Nat) (h : 2 ^ 64 ≤ b ^ k) : pow64 b k = none := by
  induction k with
  | zero => norm_num at h
  | succ k ih =>
    unfold pow64
    by_cases hk : 2 ^ 64 ≤ b ^ k
    · rw [ih hk]; rfl
    · rcases Nat.eq_zero_or_pos b with rfl | hb
      · rw [Nat.zero_pow (by omega)] at h; norm_num at h
      · rw [pow64_eq k (by omega) hb, Option.bind_some]
        unfold chk64
        rw [if_neg]
        rw [← pow_succ]; omega

theorem fold64 {n : Nat} (l : List Nat) (k acc : Nat) (hl : ∀ v ∈ l, v < n) (hacc : acc < (n + 1) ^ k)
    (hn : n + 1 < 2 ^ 64) (hfit : (n + 1) ^ (k + l.length) ≤ 2 ^ 64) :
    (l.zipIdx k).foldlM (fun acc p =>
      (chk64 (n + 1)).bind fun b => (pow64 b p.2).bind fun x => (chk64 (p.1 + 1)).bind fun c => (chk64 (x * c)).bind fun y =>
        chk64 (acc + y)) acc = some (acc + (n + 1) ^ k * enc (n + 1) l) := by
  induction l generalizing k acc with
  | nil => simp [enc]
  | cons v l ih =>
    have hv := hl v (by simp)
    have hk1 : (n + 1) ^ (k + 1) ≤ (n + 1) ^ (k + (v :: l).length) := Nat.pow_le_pow_right (Nat.succ_pos n) (by simp)
    have hle : (n + 1) ^ (k + 1) ≤ 2 ^ 64 := le_trans hk1 hfit
    have hk0 : (n + 1) ^ k * 2 ≤ (n + 1) ^ (k + 1) := by rw [pow_succ]; exact Nat.mul_le_mul_left _ (by omega)
    have hpos : 0 < (n + 1) ^ k := Nat.pow_pos (Nat.succ_pos n)
    have hk : (n + 1) ^ k < 2 ^ 64 := by omega
    have hy : acc + (n + 1) ^ k * (v + 1) < (n + 1) ^ (k + 1) := by
      rw [pow_succ]
      have : (n + 1) ^ k * (v + 1 + 1) ≤ (n + 1) ^ k * (n + 1) := Nat.mul_le_mul_left _ (by omega)
      rw [Nat.mul_add _ (v + 1)] at this
      omega
    rw [List.zipIdx_cons, List.foldlM_cons]
    have e1 : chk64 (n + 1) = some (n + 1) := if_pos hn
    have e2 : chk64 (v + 1) = some (v + 1) := if_pos (by omega)
    have e3 : chk64 ((n + 1) ^ k * (v + 1)) = some ((n + 1) ^ k * (v + 1)) := if_pos (by omega)
    have e4 : chk64 (acc + (n + 1) ^ k * (v + 1)) = some (acc + (n + 1) ^ k * (v + 1)) := if_pos (by omega)
    simp only [e1, e2, e3, e4, pow64_eq k hk (Nat.succ_pos n), Option.bind_some]
    show (l.zipIdx (k + 1)).foldlM _ (acc + (n + 1) ^ k * (v + 1)) = _
    have := ih (k + 1) (acc + (n + 1) ^ k * (v + 1)) (fun v hv => hl v (by simp [hv])) hy (by
      rwa [List.length_cons, Nat.add_comm l.length, ← Nat.add_assoc] at hfit)
    simp only [e1, Option.bind_some] at this
    rw [this]
    simp only [enc]
    congr 1
    ring

theorem fromIndices64_eq {n : Nat} (l : List Nat) (hl : ∀ v ∈ l, v < n) (hn : n + 1 < 2 ^ 64) (hfit : (n + 1) ^ l.length ≤ 2 ^ 64) :
    fromIndices64 n l = some (fromIndices n l) := by
  have := fold64 l 0 0 hl (by simp) hn (by simpa using hfit)
  unfold fromIndices64
  rw [this]
  by_cases h : l = []
  · subst h; rfl
  · rw [fromIndices_eq n h]
    have := enc_pos (b := n + 1) h
    simp [this]

end Phlite
