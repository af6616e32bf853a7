/-
Property theorems C76: the Rips program from its csv records to its report, with `f64` numbers.
-/
import Mathlib.Data.Rat.Cast.Order
import Verif.Spec.RipsProgram
import Verif.Proofs.Float64
import Verif.Props.RipsAny

set_option linter.unusedSectionVars false
set_option linter.unusedSimpArgs false

namespace Phlite
open OrderDual (toDual ofDual)

/-! ### The length filter -/

theorem round_mid : roundNat (5764607523034235 * 2 ^ 1015 + 2 ^ 1014) = 5764607523034236 * 2 ^ 1015 := by decide +kernel
theorem round_below : roundNat (5764607523034235 * 2 ^ 1015 + 2 ^ 1014 - 1) = 5764607523034235 * 2 ^ 1015 := by decide +kernel

theorem lt_round_iff (n : ℕ) : 5764607523034235 * 2 ^ 1015 < roundNat n ↔ 5764607523034235 * 2 ^ 1015 + 2 ^ 1014 ≤ n := by
  constructor
  · intro h
    by_contra hn
    have := roundNat_mono (show n ≤ 5764607523034235 * 2 ^ 1015 + 2 ^ 1014 - 1 by omega)
    rw [round_below] at this
    omega
  · intro h
    have := roundNat_mono h
    rw [round_mid] at this
    omega

theorem overflow_gt : 5764607523034236 * 2 ^ 1015 < overflowF64 := by
  unfold overflowF64; decide +kernel

theorem lt_signed {c e o r : ℕ} {z : ℤ} (hc : 0 < c) (key : c < r ↔ c + e ≤ z.natAbs) (ho : c < o) :
    (F64Value.fin c < (match (if r < o then (r : WithTop ℕ) else ⊤) with
      | some m => F64Value.fin (if z < 0 then -(m : ℤ) else m)
      | none => if z < 0 then ⊥ else ((⊤ : WithTop ℤ) : WithBot (WithTop ℤ)))) ↔ (c : ℤ) + e ≤ z := by
  by_cases hr : r < o
  · rw [if_pos hr]
    show F64Value.fin c < F64Value.fin (if z < 0 then -(r : ℤ) else (r : ℤ)) ↔ _
    rw [WithBot.coe_lt_coe, WithTop.coe_lt_coe]
    split <;> omega
  · rw [if_neg hr]
    show F64Value.fin c < (if z < 0 then ⊥ else ((⊤ : WithTop ℤ) : WithBot (WithTop ℤ))) ↔ _
    split
    · rename_i hz
      exact ⟨fun h => absurd h (not_lt_bot), fun h => by omega⟩
    · rename_i hz
      refine ⟨fun _ => by omega, fun _ => ?_⟩
      rw [WithBot.coe_lt_coe]
      exact WithTop.coe_lt_top _

theorem hundredth_lt_round (z : ℤ) : hundredth < roundInt z ↔ 5764607523034235 * 2 ^ 1015 + 2 ^ 1014 ≤ z := by
  have h := lt_signed (o := overflowF64) (z := z) (by positivity) (lt_round_iff z.natAbs) (lt_trans (by decide +kernel) overflow_gt)
  unfold roundInt hundredth roundF64
  push_cast at h
  exact h

theorem long_iff (birth death : NotNan) :
    longF64 birth death = true ↔
      (∃ b e : ℤ, birth.1 = F64Value.fin b ∧ death.1 = F64Value.fin e ∧ (11529215046068471 : ℚ) / 2 ^ 60 ≤ F64Value.real e - F64Value.real b) ∨
      (death.1 = ((⊤ : WithTop ℤ) : WithBot (WithTop ℤ)) ∧ birth.1 ≠ ((⊤ : WithTop ℤ) : WithBot (WithTop ℤ))) ∨ (birth.1 = ⊥ ∧ death.1 ≠ ⊥) := by
  obtain ⟨b, hb⟩ := birth
  obtain ⟨e, he⟩ := death
  have htop : hundredth < ((⊤ : WithTop ℤ) : WithBot (WithTop ℤ)) := by
    unfold hundredth
    rw [WithBot.coe_lt_coe]
    exact WithTop.coe_lt_top _
  have key : ∀ x y : ℤ, (11529215046068471 : ℚ) / 2 ^ 60 ≤ F64Value.real y - F64Value.real x ↔ 5764607523034235 * 2 ^ 1015 + 2 ^ 1014 ≤ y - x := by
    intro x y
    unfold F64Value.real
    rw [← sub_div, div_le_div_iff₀ (by positivity) (by positivity)]
    rw [show (2 : ℚ) ^ 1074 = 2 ^ 1014 * 2 ^ 60 by rw [← pow_add], ← mul_assoc, mul_le_mul_iff_left₀ (by positivity)]
    rw [← Int.cast_le (R := ℚ)]
    push_cast
    rw [show (11529215046068471 : ℚ) * 2 ^ 1014 = 5764607523034235 * 2 ^ 1015 + 2 ^ 1014 by
      rw [show (2 : ℚ) ^ 1015 = 2 ^ 1014 * 2 from pow_succ _ _]; generalize (2 : ℚ) ^ 1014 = t; ring]
  unfold longF64
  dsimp only
  have hne : ∀ z : ℤ, F64Value.fin z ≠ ⊥ := fun z => WithBot.coe_ne_bot
  have hne' : ∀ z : ℤ, F64Value.fin z ≠ ((⊤ : WithTop ℤ) : WithBot (WithTop ℤ)) := fun z h => WithTop.coe_ne_top (WithBot.coe_injective h)
  have hbt : ((⊤ : WithTop ℤ) : WithBot (WithTop ℤ)) ≠ ⊥ := WithBot.coe_ne_bot
  rcases b with _ | _ | x
  · rcases e with _ | _ | y
    · exact ⟨fun h => (by cases h), fun h => by
        rcases h with ⟨b, e, h, _⟩ | ⟨h, _⟩ | ⟨_, h⟩
        · exact absurd h.symm (hne b)
        · exact absurd h.symm hbt
        · exact absurd rfl h⟩
    · exact ⟨fun _ => Or.inr (Or.inr ⟨rfl, hbt⟩), fun _ => decide_eq_true htop⟩
    · exact ⟨fun _ => Or.inr (Or.inr ⟨rfl, hne y⟩), fun _ => decide_eq_true htop⟩
  · rcases e with _ | _ | y
    · exact ⟨fun h => absurd (of_decide_eq_true (p := hundredth < ⊥) h) not_lt_bot, fun h => by
        rcases h with ⟨b, e, _, h, _⟩ | ⟨h, _⟩ | ⟨h, _⟩
        · exact absurd h.symm (hne e)
        · exact absurd h.symm hbt
        · exact absurd h hbt⟩
    · exact ⟨fun h => (by cases h), fun h => by
        rcases h with ⟨b, e, h, _⟩ | ⟨_, h⟩ | ⟨h, _⟩
        · exact absurd h.symm (hne' b)
        · exact absurd rfl h
        · exact absurd h hbt⟩
    · exact ⟨fun h => absurd (of_decide_eq_true (p := hundredth < ⊥) h) not_lt_bot, fun h => by
        rcases h with ⟨b, e, h, _⟩ | ⟨h, _⟩ | ⟨h, _⟩
        · exact absurd h.symm (hne' b)
        · exact absurd h (hne' y)
        · exact absurd h hbt⟩
  · rcases e with _ | _ | y
    · exact ⟨fun h => absurd (of_decide_eq_true (p := hundredth < ⊥) h) not_lt_bot, fun h => by
        rcases h with ⟨b, e, _, h, _⟩ | ⟨h, _⟩ | ⟨h, _⟩
        · exact absurd h.symm (hne e)
        · exact absurd h.symm hbt
        · exact absurd h (hne x)⟩
    · exact ⟨fun _ => Or.inr (Or.inl ⟨rfl, hne' x⟩), fun _ => decide_eq_true htop⟩
    · have : gtF64 (subF64 (F64Value.fin y) (F64Value.fin x)) hundredth = decide (hundredth < roundInt (y - x)) := rfl
      show gtF64 (subF64 (F64Value.fin y) (F64Value.fin x)) hundredth = true ↔ _
      rw [this, decide_eq_true_iff, hundredth_lt_round, ← key]
      constructor
      · exact fun h => Or.inl ⟨x, y, rfl, rfl, h⟩
      · rintro (⟨b, e, h1, h2, h⟩ | ⟨h, _⟩ | ⟨h, _⟩)
        · rw [show x = b from WithTop.coe_injective (WithBot.coe_injective h1), show y = e from WithTop.coe_injective (WithBot.coe_injective h2)]
          exact h
        · exact absurd h (hne' y)
        · exact absurd h (hne x)

/-- C76: the length filter `death - birth > 0.01` in floating point arithmetic, with rounding and infinite numbers, in terms of exact numbers. -/
theorem C76_filter (birth death : NotNan) : longF64 birth death = true ↔ IsLong birth death := by
  rw [long_iff]
  have hc : (5764607523034235 : ℚ) / 2 ^ 59 + 1 / 2 ^ 60 = 11529215046068471 / 2 ^ 60 := by norm_num
  unfold IsLong
  rw [hc]
  refine or_congr_left ⟨?_, ?_⟩
  · rintro ⟨b, e, h1, h2, h⟩
    exact ⟨_, _, ⟨b, h1, rfl⟩, ⟨e, h2, rfl⟩, h⟩
  · rintro ⟨x, y, ⟨b, h1, rfl⟩, ⟨e, h2, rfl⟩, h⟩
    exact ⟨b, e, h1, h2, h⟩

/-- Only intervals of positive length are long. -/
theorem IsLong.lt {b e : NotNan} (h : IsLong b e) : b < e := by
  show b.1 < e.1
  rcases h with ⟨x, y, ⟨z, h1, rfl⟩, ⟨w, h2, rfl⟩, h⟩ | ⟨h1, h2⟩ | ⟨h1, h2⟩
  · rw [h1, h2, WithBot.coe_lt_coe, WithTop.coe_lt_coe]
    unfold F64Value.real at h
    have h3 : (0 : ℚ) < w / 2 ^ 1074 - z / 2 ^ 1074 := lt_of_lt_of_le (by positivity) h
    rw [sub_pos, div_lt_div_iff_of_pos_right (by positivity)] at h3
    exact_mod_cast h3
  · rw [h1]
    exact lt_of_le_of_ne (by
      cases hb : b.1 with
      | none => exact bot_le
      | some x => exact WithBot.coe_le_coe.2 le_top) h2
  · rw [h1]
    exact bot_lt_iff_ne_bot.2 h2

/-! ### Numerals -/

theorem digit_iff (c : Char) : c.isDigit = true ↔ ∃ d < 10, c = Nat.digitChar d := by
  constructor
  · intro h
    have h1 : 48 ≤ c.toNat ∧ c.toNat ≤ 57 := by
      simp only [Char.isDigit, Bool.and_eq_true, decide_eq_true_eq] at h
      exact ⟨UInt32.le_iff_toNat_le.1 h.1, UInt32.le_iff_toNat_le.1 h.2⟩
    have hc := Char.ofNat_toNat c
    generalize c.toNat = n at h1 hc
    obtain ⟨h1, h2⟩ := h1
    refine ⟨n - 48, by omega, ?_⟩
    rw [← hc]
    interval_cases n <;> rfl
  · rintro ⟨d, hd, rfl⟩
    interval_cases d <;> rfl

theorem digit_value {d : ℕ} (hd : d < 10) : (Nat.digitChar d).toNat - '0'.toNat = d := by
  interval_cases d <;> rfl

theorem foldl_digits (ds : List ℕ) (h : ∀ d ∈ ds, d < 10) (n : ℕ) :
    (ds.map Nat.digitChar).foldl (fun n c => 10 * n + (c.toNat - '0'.toNat)) n = Nat.ofDigits 10 (ds.reverse ++ [n]) := by
  induction ds generalizing n with
  | nil => simp
  | cons d ds ih =>
    rw [List.map_cons, List.foldl_cons, ih (fun d' hd' => h d' (by simp [hd'])), digit_value (h d (by simp)), List.reverse_cons, List.append_assoc,
      Nat.ofDigits_append, Nat.ofDigits_append]
    congr 1
    simp [Nat.ofDigits_cons]
    ring

theorem chars_digits {cs : List Char} (h : cs.all (fun c => c.isDigit) = true) : ∃ ds : List ℕ, (∀ d ∈ ds, d < 10) ∧ cs = ds.map Nat.digitChar := by
  induction cs with
  | nil => exact ⟨[], by simp, rfl⟩
  | cons c cs ih =>
    rw [List.all_cons, Bool.and_eq_true] at h
    obtain ⟨d, hd, rfl⟩ := (digit_iff c).1 h.1
    obtain ⟨ds, h1, rfl⟩ := ih h.2
    exact ⟨d :: ds, by simpa using ⟨hd, h1⟩, rfl⟩

/-- Reading the digits of a numeral. -/
theorem parseDigits (cs : List Char) (k : ℕ) :
    (if cs = [] ∨ ¬ (cs.all fun c => c.isDigit) then none
      else
        let n := cs.foldl (fun n c => 10 * n + (c.toNat - '0'.toNat)) 0
        if n < 2 ^ 64 then some n else none) = some k ↔
      ∃ ds : List ℕ, ds ≠ [] ∧ (∀ d ∈ ds, d < 10) ∧ cs = ds.map Nat.digitChar ∧ k = Nat.ofDigits 10 ds.reverse ∧ k < 2 ^ 64 := by
  have hval : ∀ ds : List ℕ, (∀ d ∈ ds, d < 10) → (ds.map Nat.digitChar).foldl (fun n c => 10 * n + (c.toNat - '0'.toNat)) 0 = Nat.ofDigits 10 ds.reverse := by
    intro ds h
    rw [foldl_digits ds h, Nat.ofDigits_append]; simp
  constructor
  · intro h
    split at h
    · cases h
    · rename_i hc
      push Not at hc
      obtain ⟨ds, h1, rfl⟩ := chars_digits (by simpa using hc.2)
      dsimp only at h
      rw [hval ds h1] at h
      split at h
      · cases h
        exact ⟨ds, by simpa using hc.1, h1, rfl, rfl, by assumption⟩
      · cases h
  · rintro ⟨ds, h1, h2, rfl, rfl, h3⟩
    rw [if_neg]
    · dsimp only
      rw [hval ds h2, if_pos h3]
    · push Not
      refine ⟨by simpa using h1, ?_⟩
      rw [List.all_eq_true]
      intro c hc
      obtain ⟨d, hd, rfl⟩ := List.mem_map.1 hc
      exact (digit_iff _).2 ⟨d, h2 d hd, rfl⟩

/-- C76: the first argument is read as a decimal numeral below 2^64. -/
theorem C76_argument (s : String) (k : ℕ) : parseUsize s = some k ↔ IsNumeral s k ∧ k < 2 ^ 64 := by
  have hplus : ∀ ds : List ℕ, (∀ d ∈ ds, d < 10) → ∀ cs, ds.map Nat.digitChar ≠ '+' :: cs := by
    intro ds h cs e
    cases ds with
    | nil => cases e
    | cons d ds =>
      have hd := h d (by simp)
      have := (List.cons.inj e).1
      interval_cases d <;> exact absurd this (by decide)
  unfold parseUsize IsNumeral
  generalize s.toList = l
  dsimp only
  rw [parseDigits]
  constructor
  · rintro ⟨ds, h1, h2, h3, h4, h5⟩
    refine ⟨⟨ds, h1, h2, ?_, h4⟩, h5⟩
    split at h3
    · exact Or.inr (by rw [h3])
    · exact Or.inl h3
  · rintro ⟨⟨ds, h1, h2, h3, h4⟩, h5⟩
    refine ⟨ds, h1, h2, ?_, h4, h5⟩
    rcases h3 with h3 | h3
    · split
      · rename_i cs
        exact absurd h3.symm (hplus ds h2 cs)
      · exact h3
    · rw [h3]; rfl

/-! ### Lists of results -/

theorem mapOpt_at {α β : Type} {g : α → Option β} {l : List α} {r : List β} (h : mapOpt g l = some r) {a : α} (ha : a ∈ l) : ∃ b, g a = some b := by
  rw [mapOpt_eq_some] at h
  obtain ⟨k, hk, rfl⟩ := List.getElem_of_mem ha
  exact ⟨_, (List.forall₂_iff_get.1 h).2 k hk (by rw [← h.length_eq]; exact hk)⟩

theorem mapOpt_exists {α β : Type} {g : α → Option β} {l : List α} (h : ∀ a ∈ l, ∃ b, g a = some b) : ∃ r, mapOpt g l = some r := by
  induction l with
  | nil => exact ⟨[], rfl⟩
  | cons a l ih =>
    obtain ⟨b, hb⟩ := h a (by simp)
    obtain ⟨r, hr⟩ := ih fun a' ha' => h a' (by simp [ha'])
    refine ⟨b :: r, ?_⟩
    rw [mapOpt_eq_some] at hr ⊢
    exact .cons hb hr

theorem mapOpt_getElem? {α β : Type} {g : α → Option β} {l : List α} {r : List β} (h : mapOpt g l = some r) (i : ℕ) : r[i]? = l[i]?.bind g := by
  rw [mapOpt_eq_some] at h
  by_cases hi : i < l.length
  · have hi' : i < r.length := by rw [← h.length_eq]; exact hi
    rw [List.getElem?_eq_getElem hi, List.getElem?_eq_getElem hi', Option.bind_some]
    exact ((List.forall₂_iff_get.1 h).2 i hi hi').symm
  · have hl := h.length_eq
    rw [List.getElem?_eq_none (l := r) (by omega), List.getElem?_eq_none (l := l) (by omega)]
    rfl

/-! ### The program -/

theorem readMatrix_eq {F : Type} (parse : String → Option (Option F)) (records : List (Option (List String))) :
    (∃ m, readMatrix parse records = some m) ↔ ∀ r ∈ records, ∃ row, r = some row ∧ ∀ s ∈ row, ∃ x, parse s = some (some x) := by
  constructor
  · rintro ⟨m, h⟩ r hr
    obtain ⟨x, hx⟩ := mapOpt_at h hr
    obtain ⟨row, rfl, h2⟩ := Option.bind_eq_some_iff.1 hx
    refine ⟨row, rfl, fun s hs => ?_⟩
    obtain ⟨y, hy⟩ := mapOpt_at h2 hs
    obtain ⟨o, h3, h4⟩ := Option.bind_eq_some_iff.1 hy
    exact ⟨y, by rw [h3]; exact congrArg some h4⟩
  · intro h
    refine mapOpt_exists fun r hr => ?_
    obtain ⟨row, rfl, h2⟩ := h r hr
    rw [Option.bind_some]
    refine mapOpt_exists fun s hs => ?_
    obtain ⟨x, hx⟩ := h2 s hs
    exact ⟨x, by unfold parseEntry; rw [hx]; rfl⟩

theorem readMatrix_entry {F : Type} {parse : String → Option (Option F)} {records : List (Option (List String))} {m : List (List F)}
    (h : readMatrix parse records = some m) : m.length = records.length ∧
      ∀ (i j : ℕ) (x : F), (m[i]?.bind fun row => row[j]?) = some x ↔ ∃ row s, records[i]? = some (some row) ∧ row[j]? = some s ∧ parse s = some (some x) := by
  unfold readMatrix at h
  refine ⟨((mapOpt_eq_some.1 h).length_eq).symm, fun i j x => ?_⟩
  rw [mapOpt_getElem? h i]
  constructor
  · intro hx
    obtain ⟨l, hl, hx⟩ := Option.bind_eq_some_iff.1 hx
    obtain ⟨r, hr, hl⟩ := Option.bind_eq_some_iff.1 hl
    obtain ⟨row, rfl, hl⟩ := Option.bind_eq_some_iff.1 hl
    rw [mapOpt_getElem? hl j] at hx
    obtain ⟨s, hs, hx⟩ := Option.bind_eq_some_iff.1 hx
    obtain ⟨o, h3, h4⟩ := Option.bind_eq_some_iff.1 hx
    exact ⟨row, s, hr, hs, by rw [h3]; exact congrArg some h4⟩
  · rintro ⟨row, s, hr, hs, hx⟩
    obtain ⟨l, hl⟩ := mapOpt_at h (List.mem_of_getElem? hr)
    rw [hr, Option.bind_some, hl, Option.bind_some]
    rw [Option.bind_some] at hl
    rw [mapOpt_getElem? hl j, hs, Option.bind_some]
    unfold parseEntry
    rw [hx]; rfl

section
variable [StdHeap] (CF K : Type) [Field K] [NonZeroCoeff CF] [LawfulCoeff CF K] {parse : String → Option (Option NotNan)}
variable {enumE : Finset RipsIndexᵒᵈ → List RipsIndexᵒᵈ} {enumP : Finset (RipsIndexᵒᵈ × RipsIndexᵒᵈ) → List (RipsIndexᵒᵈ × RipsIndexᵒᵈ)}
include K

theorem program_returns (hE : Enumerates enumE) (hP : Enumerates enumP) {records : List (Option (List String))} {args : List String}
    (h1 : ∀ r ∈ records, ∃ row, r = some row ∧ records.length ≤ row.length ∧ ∀ s ∈ row, ∃ x, parse s = some (some x))
    (h2 : ∀ arg, args[1]? = some arg → ∃ k, IsNumeral arg k ∧ k < 2 ^ 64 ∧ (1 ≤ k ∨ records.length ≤ 1)) :
    ∃ report enough, ∀ fuel ≥ enough, ripsProgram CF parse enumE enumP records args fuel = some report := by
  obtain ⟨m, hm⟩ := (readMatrix_eq parse records).2 fun r hr => by
    obtain ⟨row, e, _, h⟩ := h1 r hr
    exact ⟨row, e, h⟩
  obtain ⟨hl, hent⟩ := readMatrix_entry hm
  have harg : ∃ a, readArg args = some a ∧ (1 ≤ a.getD 1 ∨ records.length ≤ 1) := by
    unfold readArg
    cases ha : args[1]? with
    | none => exact ⟨none, rfl, Or.inl le_rfl⟩
    | some arg =>
      obtain ⟨k, h3, h4, h5⟩ := h2 arg ha
      exact ⟨some k, by simp [(C76_argument arg k).2 ⟨h3, h4⟩], h5⟩
  obtain ⟨a, ha, ha1⟩ := harg
  obtain ⟨report, ⟨enough, hrun⟩, -⟩ := C75_rips_any_matrix (F := NotNan) (distances := m) (d := fun i j => ((m[i]?.bind fun row => row[j]?).getD 0)) CF K (by
    intro i hi j hj
    rw [hl] at hi hj
    obtain ⟨row, e, h3, h4⟩ := h1 _ (List.getElem_mem hi)
    obtain ⟨x, hx⟩ := h4 _ (List.getElem_mem (show j < row.length by omega))
    have := (hent i j x).2 ⟨row, _, by rw [List.getElem?_eq_getElem hi, e], List.getElem?_eq_getElem (by omega), hx⟩
    rw [this]; rfl) a (by rw [hl]; exact ha1) longF64 hE hP
  refine ⟨report, enough, fun fuel hf => ?_⟩
  unfold ripsProgram
  rw [hm, Option.bind_some, ha, Option.bind_some]
  exact hrun fuel hf

theorem program_panics (hE : Enumerates enumE) (hP : Enumerates enumP) {records : List (Option (List String))} {args : List String} {fuel : ℕ}
    {report : RipsReport NotNan} (h : ripsProgram CF parse enumE enumP records args fuel = some report) :
    (∀ r ∈ records, ∃ row, r = some row ∧ records.length ≤ row.length ∧ ∀ s ∈ row, ∃ x, parse s = some (some x)) ∧
      ∀ arg, args[1]? = some arg → ∃ k, IsNumeral arg k ∧ k < 2 ^ 64 ∧ (1 ≤ k ∨ records.length ≤ 1) := by
  obtain ⟨m, hm, h⟩ := Option.bind_eq_some_iff.1 h
  obtain ⟨a, ha, h⟩ := Option.bind_eq_some_iff.1 h
  obtain ⟨hl, hent⟩ := readMatrix_entry hm
  have hread := (readMatrix_eq parse records).1 ⟨m, hm⟩
  have hno : ¬ ((∃ i < m.length, ∃ j < m.length, (m[i]?.bind fun row => row[j]?) = none) ∨ (a.getD 1 = 0 ∧ 2 ≤ m.length)) := by
    intro hc
    rw [C75_rips_panics CF K a hc longF64 hE hP fuel] at h
    cases h
  push Not at hno
  obtain ⟨hn1, hn2⟩ := hno
  rw [hl] at hn1 hn2
  constructor
  · intro r hr
    obtain ⟨row, rfl, h3⟩ := hread r hr
    refine ⟨row, rfl, ?_, h3⟩
    obtain ⟨i, hi, e⟩ := List.getElem_of_mem hr
    by_contra hlt
    obtain ⟨x, hx⟩ := Option.ne_none_iff_exists'.1 (hn1 i hi (records.length - 1) (by omega))
    obtain ⟨row', s, h4, h5, _⟩ := (hent _ _ x).1 hx
    rw [List.getElem?_eq_getElem hi, e] at h4
    cases h4
    have := (List.getElem?_eq_some_iff.1 h5).1
    omega
  · intro arg harg
    unfold readArg at ha
    rw [harg] at ha
    obtain ⟨k, hk, rfl⟩ := Option.map_eq_some_iff.1 ha
    obtain ⟨h3, h4⟩ := (C76_argument arg k).1 hk
    refine ⟨k, h3, h4, ?_⟩
    by_cases h0 : k = 0
    · have := hn2 h0; omega
    · omega

/-- C76: when the program ends without a panic: exactly if the csv reader yields no error, all entries are numbers other than NaN, no row has fewer entries than there are rows,
and the first argument, if there is one, is a numeral below 2^64 that is not 0, or there is at most one row. Otherwise it panics: it never runs forever. -/
theorem C76_returns_iff (hE : Enumerates enumE) (hP : Enumerates enumP) (records : List (Option (List String))) (args : List String) :
    ((∃ report enough, ∀ fuel ≥ enough, ripsProgram CF parse enumE enumP records args fuel = some report) ∨
      ∀ fuel, ripsProgram CF parse enumE enumP records args fuel = none) ∧
    ((∃ fuel report, ripsProgram CF parse enumE enumP records args fuel = some report) ↔
      (∀ r ∈ records, ∃ row, r = some row ∧ records.length ≤ row.length ∧ ∀ s ∈ row, ∃ x, parse s = some (some x)) ∧
      ∀ arg, args[1]? = some arg → ∃ k, IsNumeral arg k ∧ k < 2 ^ 64 ∧ (1 ≤ k ∨ records.length ≤ 1)) := by
  constructor
  · by_cases hc : ∃ fuel report, ripsProgram CF parse enumE enumP records args fuel = some report
    · obtain ⟨fuel, report, h⟩ := hc
      obtain ⟨h1, h2⟩ := program_panics CF K hE hP h
      exact Or.inl (program_returns CF K hE hP h1 h2)
    · push Not at hc
      exact Or.inr fun fuel => Option.eq_none_iff_forall_ne_some.2 (hc fuel)
  · constructor
    · rintro ⟨fuel, report, h⟩
      exact program_panics CF K hE hP h
    · rintro ⟨h1, h2⟩
      obtain ⟨report, enough, h⟩ := program_returns CF K hE hP h1 h2
      exact ⟨enough, report, h enough le_rfl⟩

open Classical in
/-- C76: what it prints for a distance matrix. -/
theorem C76_report (hE : Enumerates enumE) (hP : Enumerates enumP) {records : List (Option (List String))} {args : List String} {d : ℕ → ℕ → NotNan}
    (hrec : ∀ r ∈ records, ∃ row, r = some row ∧ ∀ s ∈ row, ∃ x, parse s = some (some x))
    (hd : ∀ i < records.length, ∀ j < records.length, ∃ row s, records[i]? = some (some row) ∧ row[j]? = some s ∧ parse s = some (some (d i j)))
    (hsymm : ∀ i < records.length, ∀ j < records.length, d i j = d j i) (hdiag : ∀ i < records.length, d i i = 0)
    (hnonneg : ∀ i < records.length, ∀ j < records.length, 0 ≤ d i j)
    {max_dim : ℕ} (harg : (args[1]? = none ∧ max_dim = 1) ∨ ∃ arg, args[1]? = some arg ∧ IsNumeral arg max_dim ∧ max_dim < 2 ^ 64)
    (h1 : 1 ≤ max_dim) :
    ∃ report, (∃ enough, ∀ fuel ≥ enough, ripsProgram CF parse enumE enumP records args fuel = some report) ∧
      report.sizes = (List.range (max_dim + 1)).map (fun k => (k, records.length.choose (k + 1))) ∧
      ∀ p, (p ≤ max_dim → ∃ bars, (∀ bars', IsRipsBarcode K records.length d p bars' ↔ bars' = bars) ∧
        report.intervals p = bars.filter fun b => ∀ e : NotNan, b.2 = (e : WithTop NotNan) → IsLong b.1 e) ∧
        (max_dim < p → report.intervals p = 0) := by
  obtain ⟨m, hm⟩ := (readMatrix_eq parse records).2 hrec
  obtain ⟨hl, hent⟩ := readMatrix_entry hm
  have hD : IsDistanceMatrix m d := by
    refine ⟨fun i hi j hj => (hent i j _).2 (hd i (hl ▸ hi) j (hl ▸ hj)), ?_, ?_, ?_⟩ <;> rw [hl] <;> assumption
  have harg' : ∃ a, readArg args = some a ∧ a.getD 1 = max_dim := by
    unfold readArg
    rcases harg with ⟨h2, rfl⟩ | ⟨arg, h2, h3, h4⟩
    · rw [h2]; exact ⟨none, rfl, rfl⟩
    · rw [h2]; exact ⟨some max_dim, by simp [(C76_argument arg max_dim).2 ⟨h3, h4⟩], rfl⟩
  obtain ⟨a, ha, rfl⟩ := harg'
  obtain ⟨report, ⟨enough, hrun⟩, hsizes, hbars, hess, hprs⟩ := C52_rips_report CF K hD a (Or.inl h1) (long := longF64)
    (fun b e h => ((C76_filter b e).1 h).lt) hE hP
  rw [hl] at hsizes hbars
  refine ⟨report, ⟨enough, fun fuel hf => ?_⟩, hsizes, fun p => ⟨fun hp => ?_, fun hp => ?_⟩⟩
  · unfold ripsProgram
    rw [hm, Option.bind_some, ha, Option.bind_some]
    exact hrun fuel hf
  · obtain ⟨bars, h2, h3⟩ := hbars p hp
    refine ⟨bars, h2, ?_⟩
    rw [h3]
    exact Multiset.filter_congr fun b _ => forall₂_congr fun e _ => C76_filter b.1 e
  · unfold RipsReport.intervals
    rw [List.filter_eq_nil_iff.2, List.filter_eq_nil_iff.2]
    · rfl
    · intro x hx
      have := (hprs x hx).1
      simp; omega
    · intro x hx
      have := (hess x hx).1
      simp; omega

end

/-- Rounded numbers exist in binary64. -/
theorem isF64_round (z : ℤ) : IsF64 (roundInt z) := by
  intro w h
  unfold roundInt at h
  cases hr : roundF64 z.natAbs with
  | top =>
    rw [hr] at h
    have h : (if z < 0 then ⊥ else ((⊤ : WithTop ℤ) : WithBot (WithTop ℤ))) = F64Value.fin w := h
    split at h
    · exact absurd h.symm WithBot.coe_ne_bot
    · exact absurd (WithBot.coe_injective h).symm WithTop.coe_ne_top
  | coe m =>
    rw [hr] at h
    have h : F64Value.fin (if z < 0 then -(m : ℤ) else m) = F64Value.fin w := h
    have hw : (if z < 0 then -(m : ℤ) else m) = w := WithTop.coe_injective (WithBot.coe_injective h)
    have : w.natAbs = m := by rw [← hw]; split <;> simp
    rw [this]
    exact roundF64_valid _ m hr

/-- The `f64` nearest to `z * 2^-1074`. -/
def NotNan.round (z : ℤ) : NotNan := ⟨roundInt z, isF64_round z⟩

namespace RipsExample

/-- Some texts and their values; `n` thousandths are rounded. -/
def parse (s : String) : Option (Option NotNan) :=
  if s = "NaN" then some none
  else if s = "inf" then some (some ⟨((⊤ : WithTop ℤ) : WithBot (WithTop ℤ)), fun _ h => absurd (WithBot.coe_injective h).symm WithTop.coe_ne_top⟩)
  else if s = "0.01" then some (some (NotNan.round (2 ^ 1074 / 100)))
  else if s = "0.011" then some (some (NotNan.round (2 ^ 1074 * 11 / 1000)))
  else (parseUsize s).map fun n => some (NotNan.round (n * 2 ^ 1074))

/-- The integer part; -1 for infinite numbers. -/
def floor (x : NotNan) : ℤ := match x.1 with | some (some z) => z / 2 ^ 1074 | _ => -1

/-- The dimensions and (integer parts of the) values printed. -/
def printed (records : List (Option (List String))) (args : List String) : Option (List (ℕ × ℕ) × List (ℕ × ℤ) × List (ℕ × ℤ × ℤ)) :=
  letI := listHeap
  (ripsProgram Z2 parse enumE enumP records args 30).map fun r => (r.sizes, r.essential.map fun x => (x.1, floor x.2.2), r.pairings.map fun x => (x.1, floor x.2.2.1, floor x.2.2.2))

/-- A square with sides 1 and diagonals 2; a point at infinite distance. -/
example : printed [some ["0", "1", "2", "1"], some ["1", "0", "1", "2"], some ["2", "1", "0", "1"], some ["1", "2", "1", "0"]] ["phlite_rips", "+1"] =
    some ([(0, 4), (1, 6)], [(0, 0)], [(1, 1, 2), (0, 0, 1), (0, 0, 1), (0, 0, 1)]) := by decide +kernel
example : printed [some ["0", "inf"], some ["inf", "0"]] ["phlite_rips"] = some ([(0, 2), (1, 1)], [(0, 0)], [(0, 0, -1)]) := by decide +kernel

/-- Length 0.01 is not printed, length 0.011 is. -/
example : printed [some ["0", "0.01"], some ["0.01", "0"]] [] = some ([(0, 2), (1, 1)], [(0, 0)], []) := by decide +kernel
example : printed [some ["0", "0.011"], some ["0.011", "0"]] [] = some ([(0, 2), (1, 1)], [(0, 0)], [(0, 0, 0)]) := by decide +kernel

/-- Panics: NaN, text, an error of the reader, a bad argument, a short row; a long row is fine. -/
example : printed [some ["NaN"]] [] = none ∧ printed [some ["x"]] [] = none ∧ printed [some ["0"], none] [] = none ∧ printed [some ["0"]] ["", "-1"] = none := by
  refine ⟨?_, ?_, ?_, ?_⟩ <;> decide +kernel
example : printed [some ["0", "1"], some ["1"]] [] = none ∧ printed [some ["0", "1", "2"], some ["1", "0", "2"]] [] = some ([(0, 2), (1, 1)], [(0, 0)], [(0, 0, 1)]) := by
  refine ⟨?_, ?_⟩ <;> decide +kernel

/-- Numerals. -/
example : IsNumeral "+07" 7 ∧ parseUsize "+07" = some 7 ∧ parseUsize "18446744073709551616" = none ∧ parseUsize "" = none ∧ parseUsize "+" = none :=
  ⟨⟨[0, 7], by decide, by decide, Or.inr (by decide), by decide⟩, by decide +kernel, by decide +kernel, by decide +kernel, by decide +kernel⟩

end RipsExample
end Phlite
