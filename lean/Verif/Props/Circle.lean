/-
Property theorems C81: the Rips program on the distance matrices of phlite_rips/circle_distance_matrix.py.
-/
import Verif.Theory.Circle
import Verif.Props.Rips64Any
import Verif.Props.Intervals
import Verif.Props.RipsProgram

set_option linter.unusedSectionVars false
set_option linter.unusedSimpArgs false

namespace Phlite
open OrderDual (toDual ofDual)

/-! ### Text -/

theorem numeral_toString (k : ℕ) : IsNumeral (toString k) k := by
  have key : ∀ k : ℕ, ∃ ds : List ℕ, ds ≠ [] ∧ (∀ d ∈ ds, d < 10) ∧ Nat.toDigits 10 k = ds.map Nat.digitChar ∧ k = Nat.ofDigits 10 ds.reverse := by
    intro k
    induction k using Nat.strong_induction_on with
    | _ k ih =>
      rcases Nat.lt_or_ge k 10 with h | h
      · exact ⟨[k], by simp, by simpa using h, Nat.toDigits_of_lt_base h, by simp⟩
      · obtain ⟨ds, h1, h2, h3, h4⟩ := ih (k / 10) (by omega)
        refine ⟨ds ++ [k % 10], by simp, ?_, ?_, ?_⟩
        · intro d hd
          rcases List.mem_append.1 hd with hd | hd
          · exact h2 d hd
          · rw [List.mem_singleton.1 hd]; omega
        · rw [Nat.toDigits_of_base_le (by omega) h, h3, List.map_append]
          rfl
        · rw [List.reverse_append, List.reverse_singleton, List.singleton_append, Nat.ofDigits_cons, ← h4]
          omega
  obtain ⟨ds, h1, h2, h3, h4⟩ := key k
  refine ⟨ds, h1, h2, Or.inl ?_, h4⟩
  rw [← h3, Nat.toString_eq_repr, Nat.toList_repr]

/-! ### Values -/

theorem NotNan.HasValue.le_iff {a b : NotNan} {x y : ℚ} (ha : a.HasValue x) (hb : b.HasValue y) : a ≤ b ↔ x ≤ y := by
  obtain ⟨z, h1, rfl⟩ := ha
  obtain ⟨w, h2, rfl⟩ := hb
  show a.1 ≤ b.1 ↔ _
  rw [h1, h2, WithBot.coe_le_coe, WithTop.coe_le_coe]
  unfold F64Value.real
  rw [div_le_div_iff_of_pos_right (by positivity), Int.cast_le]

theorem NotNan.HasValue.eq_zero {a : NotNan} (ha : a.HasValue 0) : a = 0 := by
  have h0 : (0 : NotNan).HasValue 0 := ⟨0, rfl, by simp [F64Value.real]⟩
  exact le_antisymm ((ha.le_iff h0).2 le_rfl) ((h0.le_iff ha).2 le_rfl)

/-- Different whole numbers are far enough apart for the length filter of the program. -/
theorem isLong_of_lt {a b : NotNan} {k l : ℕ} (ha : a.HasValue k) (hb : b.HasValue l) (h : k < l) : IsLong a b := by
  refine Or.inl ⟨k, l, ha, hb, ?_⟩
  have : ((k : ℚ) + 1) ≤ l := by exact_mod_cast h
  have h2 : (5764607523034235 : ℚ) / 2 ^ 59 + 1 / 2 ^ 60 ≤ 1 := by norm_num
  linarith

theorem circleDist_half {n i j : ℕ} (hi : i < n) (hj : j < n) : circleDist n i j ≤ n / 2 := by
  rcases lt_trichotomy i j with h | h | h
  · rw [circleDist_lt h hj]; omega
  · subst h; rw [circleDist_self]; omega
  · rw [circleDist_comm, circleDist_lt h hi]; omega

/-! ### The barcode in any units -/

section
variable {K F : Type} [Field K] [LinearOrder F] [Zero F]

/-- C81, the barcodes: for `n` points on a circle, at distances that are a strictly monotone function `v` of the number of steps, the barcode of degree 0 consists of `n - 1` intervals
from 0 to 1 step and an infinite one; and the barcode of degree 1 consists, for `n ≥ 4`, of one interval from 1 step to a third of the circle (rounded up), and is empty for
`n ≤ 3`. -/
theorem C81_barcodes {n : ℕ} (hn : 1 ≤ n) {d : ℕ → ℕ → F} {v : ℕ → F} (hd : ∀ i < n, ∀ j < n, d i j = v (circleDist n i j)) (hv : ∀ k l, k < l → l ≤ n / 2 → v k < v l) :
    (∀ bars, IsRipsBarcode K n d 0 bars ↔ bars = Multiset.replicate (n - 1) (v 0, ((v 1 : F) : WithTop F)) + {(v 0, ⊤)}) ∧
    ∀ bars, IsRipsBarcode K n d 1 bars ↔ bars = if 4 ≤ n then {(v 1, ((v ((n + 2) / 3) : F) : WithTop F))} else 0 := by
  classical
  set φ : ℕ → F := fun k => v (min k (n / 2)) with hφ
  have hmono : Monotone φ := by
    intro k l h
    rcases eq_or_lt_of_le (min_le_min_right (n / 2) h) with e | h'
    · exact le_of_eq (congrArg v e)
    · exact (hv _ _ h' (min_le_right _ _)).le
  have hφv : ∀ k ≤ n / 2, φ k = v k := fun k hk => by rw [hφ]; simp only [min_eq_left hk]
  have hd' : ∀ i < n, ∀ j < n, d i j = φ (circleDist n i j) := fun i hi j hj => by
    rw [hd i hi j hj, hφv _ (circleDist_half hi hj)]
  constructor
  · intro bars
    refine (fun {b'} (h : IsRipsBarcode K n d _ b') => (⟨fun h' => IsBarcode.unique h' h, fun e => e ▸ h⟩ : IsRipsBarcode K n d _ bars ↔ bars = b')) ?_
    have := (circle_barcode_zero (K := K) hn).rescale hmono hd'
    convert this using 1
    rw [Multiset.filter_eq_self.2]
    · rw [Multiset.map_add, Multiset.map_replicate, Multiset.map_singleton]
      unfold mapInterval
      simp only [WithTop.map_top, WithTop.map_coe]
      rw [hφv 0 (by omega)]
      rcases Nat.lt_or_ge n 2 with h | h
      · rw [show n - 1 = 0 by omega]; rfl
      · rw [hφv 1 (by omega)]
    · intro b hb
      obtain ⟨b', hb', rfl⟩ := Multiset.mem_map.1 hb
      clear hb
      rename' b' => b, hb' => hb
      rcases Multiset.mem_add.1 hb with hb | hb
      · have hn2 : 2 ≤ n := by
          have := Multiset.mem_replicate.1 hb
          omega
        rw [Multiset.eq_of_mem_replicate hb]
        unfold mapInterval
        simp only [WithTop.map_coe, WithTop.coe_lt_coe]
        rw [hφv 0 (by omega), hφv 1 (by omega)]
        exact hv 0 1 (by omega) (by omega)
      · rw [Multiset.mem_singleton.1 hb]; exact WithTop.coe_lt_top _
  · intro bars
    refine (fun {b'} (h : IsRipsBarcode K n d _ b') => (⟨fun h' => IsBarcode.unique h' h, fun e => e ▸ h⟩ : IsRipsBarcode K n d _ bars ↔ bars = b')) ?_
    have := (circle_barcode_one (K := K) hn).rescale hmono hd'
    convert this using 1
    split
    · rename_i h4
      have e1 := hφv 1 (by omega)
      have e2 := hφv ((n + 2) / 3) (by omega)
      rw [Multiset.map_singleton, Multiset.filter_singleton]
      unfold mapInterval
      simp only [WithTop.map_coe, WithTop.coe_lt_coe]
      rw [e1, e2, if_pos (hv _ _ (by omega) (by omega))]
    · simp
end

/-! ### The program -/

section
variable [StdHeap] (CF K : Type) [Field K] [NonZeroCoeff CF] [LawfulCoeff CF K] {parse : String → Option (Option NotNan)}
  {enumE : Finset RipsIndexᵒᵈ → List RipsIndexᵒᵈ} {enumP : Finset (RipsIndexᵒᵈ × RipsIndexᵒᵈ) → List (RipsIndexᵒᵈ × RipsIndexᵒᵈ)}

include K in
/-- C81: what the Rips program prints for the output of `circle_distance_matrix.py n`: if the conversion of text to `f64` is exact on numerals up to `n / 2`, then for any
dimension of 1 or more, in degree 0 it prints `n - 1` intervals (0, 1) and one infinite interval from 0; and in degree 1, one interval from 1 to `n / 3` (rounded up) if
`n ≥ 4`, and nothing if `n ≤ 3`. -/
theorem C81_circle (hE : Enumerates enumE) (hP : Enumerates enumP) {n : ℕ} (hn : 1 ≤ n)
    (hparse : ∀ s k, IsNumeral s k → k ≤ n / 2 → ∃ x : NotNan, parse s = some (some x) ∧ x.HasValue k) {args : List String}
    {max_dim : ℕ} (harg : (args[1]? = none ∧ max_dim = 1) ∨ ∃ arg, args[1]? = some arg ∧ IsNumeral arg max_dim ∧ max_dim < 2 ^ 64) (h1 : 1 ≤ max_dim) :
    ∃ (report : RipsReport NotNan) (v : ℕ → NotNan), (∀ k ≤ n / 2, (v k).HasValue k) ∧
      (∃ enough, ∀ fuel ≥ enough, ripsProgram CF parse enumE enumP ((circleRecords n).map some) args fuel = some report) ∧
      report.sizes = (List.range (max_dim + 1)).map (fun k => (k, n.choose (k + 1))) ∧
      report.intervals 0 = Multiset.replicate (n - 1) (v 0, ((v 1 : NotNan) : WithTop NotNan)) + {(v 0, ⊤)} ∧
      report.intervals 1 = if 4 ≤ n then {(v 1, ((v ((n + 2) / 3) : NotNan) : WithTop NotNan))} else 0 := by
  classical
  have hex : ∀ k, ∃ x : NotNan, k ≤ n / 2 → parse (toString k) = some (some x) ∧ x.HasValue k := by
    intro k
    by_cases hk : k ≤ n / 2
    · obtain ⟨x, hx⟩ := hparse _ k (numeral_toString k) hk
      exact ⟨x, fun _ => hx⟩
    · exact ⟨0, fun h => absurd h hk⟩
  choose v hv using hex
  have hlt : ∀ k l, k < l → l ≤ n / 2 → v k < v l := by
    intro k l h hl
    rw [← not_le, (hv l hl).2.le_iff (hv k (by omega)).2, not_le]
    exact_mod_cast h
  have hlen : ((circleRecords n).map some).length = n := by simp [circleRecords]
  set d : ℕ → ℕ → NotNan := fun i j => v (circleDist n i j) with hdd
  obtain ⟨report, hrun, hsizes, hbars⟩ := C76_report CF K (parse := parse) hE hP (records := (circleRecords n).map some) (args := args) (d := d)
    (by
      intro r hr
      obtain ⟨row, hrow, rfl⟩ := List.mem_map.1 hr
      refine ⟨row, rfl, ?_⟩
      intro s hs
      obtain ⟨i, hi, rfl⟩ := List.mem_map.1 hrow
      obtain ⟨j, hj, rfl⟩ := List.mem_map.1 hs
      exact ⟨_, (hv _ (circleDist_half (by simpa using hi) (by simpa using hj))).1⟩)
    (by
      rw [hlen]
      intro i hi j hj
      refine ⟨(List.range n).map fun j => toString (circleDist n i j), toString (circleDist n i j), ?_, ?_, (hv _ (circleDist_half hi hj)).1⟩
      · simp [circleRecords, hi]
      · simp [hj])
    (fun i _ j _ => by rw [hdd]; simp only [circleDist_comm n i j])
    (fun i _ => by
      rw [hdd]; simp only [circleDist_self]
      exact (by simpa using (hv 0 (Nat.zero_le _)).2 : (v 0).HasValue 0).eq_zero)
    (by
      rw [hlen]
      intro i hi j hj
      have h0 : (0 : NotNan).HasValue 0 := ⟨0, rfl, by simp [F64Value.real]⟩
      rw [h0.le_iff (hv _ (circleDist_half hi hj)).2]
      positivity)
    harg h1
  rw [hlen] at hsizes hbars
  obtain ⟨hb0, hb1⟩ := C81_barcodes (K := K) hn (d := d) (v := v) (fun _ _ _ _ => rfl) hlt
  refine ⟨report, v, fun k hk => (hv k hk).2, hrun, hsizes, ?_, ?_⟩
  · obtain ⟨bars, h2, h3⟩ := (hbars 0).1 (Nat.zero_le _)
    rw [h3, (hb0 bars).1 ((h2 bars).2 rfl), Multiset.filter_eq_self]
    intro b hb e he
    rcases Multiset.mem_add.1 hb with hb | hb
    · have hn2 : 2 ≤ n := by
        have := Multiset.mem_replicate.1 hb
        omega
      rw [Multiset.eq_of_mem_replicate hb] at he ⊢
      rw [← WithTop.coe_injective he]
      exact isLong_of_lt (hv 0 (by omega)).2 (hv 1 (by omega)).2 (by omega)
    · rw [Multiset.mem_singleton.1 hb] at he
      cases he
  · obtain ⟨bars, h2, h3⟩ := (hbars 1).1 h1
    rw [h3, (hb1 bars).1 ((h2 bars).2 rfl), Multiset.filter_eq_self]
    intro b hb e he
    split at hb
    · rw [Multiset.mem_singleton.1 hb] at he ⊢
      rw [← WithTop.coe_injective he]
      exact isLong_of_lt (hv 1 (by omega)).2 (hv _ (by omega)).2 (by omega)
    · exact absurd hb (Multiset.notMem_zero _)

include K in
/-- C81 on a 64-bit machine, without an argument: for at most 2642244 points the debug build and the release build print the same report; for more points the debug
build panics. -/
theorem C81_machine (hE : Enumerates enumE) (hP : Enumerates enumP) {n : ℕ} (hn : 1 ≤ n) (hn' : n + 1 < 2 ^ 64)
    (hparse : ∀ s k, IsNumeral s k → k ≤ n / 2 → ∃ x : NotNan, parse s = some (some x) ∧ x.HasValue k) {args : List String} (harg : args[1]? = none) :
    (n ≤ 2642244 → ∃ report enough, ∀ fuel ≥ enough,
      ripsProgram CF parse enumE enumP ((circleRecords n).map some) args fuel = some report ∧
      ripsProgramW fromIndices64 CF parse enumE enumP ((circleRecords n).map some) args fuel = some report ∧
      ripsProgramW fromIndicesRelease CF parse enumE enumP ((circleRecords n).map some) args fuel = some report) ∧
    (2642244 < n → ∀ fuel, ripsProgramW fromIndices64 CF parse enumE enumP ((circleRecords n).map some) args fuel = none) := by
  have hlen : ((circleRecords n).map some).length = n := by simp [circleRecords]
  obtain ⟨hiff, halt⟩ := C78_program CF K (parse := parse) hE hP ((circleRecords n).map some) args (by rw [hlen]; exact hn')
  rw [hlen] at hiff
  have hth := C78_default (n := n)
  rw [C78_threshold] at hth
  constructor
  · intro hs
    rcases halt with h | h
    · exact h
    · exfalso
      obtain ⟨fuel, report, hf⟩ := hiff.2 ⟨by
        intro r hr
        obtain ⟨row, hrow, rfl⟩ := List.mem_map.1 hr
        obtain ⟨i, hi, rfl⟩ := List.mem_map.1 hrow
        refine ⟨_, rfl, by simp, ?_⟩
        intro s hs
        obtain ⟨j, hj, rfl⟩ := List.mem_map.1 hs
        obtain ⟨x, hx, _⟩ := hparse _ _ (numeral_toString _) (circleDist_half (n := n) (i := i) (j := j) (by simpa using hi) (by simpa using hj))
        exact ⟨x, hx⟩, 1, Or.inl ⟨harg, rfl⟩, by norm_num, Or.inl le_rfl, hth.2 hs⟩
      rw [h fuel] at hf
      cases hf
  · intro hs fuel
    rw [Option.eq_none_iff_forall_ne_some]
    intro report hf
    obtain ⟨-, k, hk, -, -, hsum⟩ := hiff.1 ⟨fuel, report, hf⟩
    rcases hk with ⟨_, rfl⟩ | ⟨arg, h, _⟩
    · have := hth.1 hsum
      omega
    · rw [harg] at h; cases h

end

/-! ### Examples -/

namespace CircleExample
open RipsExample (enumE enumP)

/-- Text to `f64`, for decimal numerals. -/
def parse (s : String) : Option (Option NotNan) := (parseUsize s).map fun n => some (NotNan.round (n * 2 ^ 1074))

theorem round_exact_aux {k e : ℕ} (hk : k < 2 ^ 53) (he : 53 + e ≤ 2098) : roundInt ((k : ℤ) * 2 ^ e) = F64Value.fin ((k : ℤ) * 2 ^ e) := by
  have hv : Has53Bits (k * 2 ^ e) ∧ k * 2 ^ e < overflowF64 := by
    refine ⟨⟨k, e, hk, rfl⟩, ?_⟩
    unfold overflowF64
    calc k * 2 ^ e < 2 ^ 53 * 2 ^ e := Nat.mul_lt_mul_of_pos_right hk (Nat.pow_pos (by omega))
      _ = 2 ^ (53 + e) := (pow_add 2 53 e).symm
      _ ≤ 2 ^ 2098 := Nat.pow_le_pow_right (by omega) he
  have hc : ((k : ℤ) * 2 ^ e) = ((k * 2 ^ e : ℕ) : ℤ) := by rw [Nat.cast_mul, Nat.cast_pow, Nat.cast_ofNat]
  rw [hc]
  generalize k * 2 ^ e = m at hv
  unfold roundInt
  rw [Int.natAbs_natCast, roundF64_of_valid hv]
  show F64Value.fin (if (m : ℤ) < 0 then -(m : ℤ) else m) = F64Value.fin m
  rw [if_neg (by omega)]

theorem real_aux (k e : ℕ) : (((k : ℤ) * 2 ^ e : ℤ) : ℚ) / 2 ^ e = k := by
  rw [Int.cast_mul, Int.cast_pow, Int.cast_ofNat, Int.cast_natCast, mul_div_assoc, div_self (pow_ne_zero _ two_ne_zero), mul_one]

theorem round_exact {k : ℕ} (hk : k < 2 ^ 53) : (NotNan.round ((k : ℤ) * 2 ^ 1074)).HasValue k :=
  ⟨(k : ℤ) * 2 ^ 1074, round_exact_aux hk (by omega), real_aux k 1074⟩

/-- The hypothesis of C81 on the conversion of text can be met for every number of points for which all whole numbers up to `n / 2` are `f64` numbers. -/
theorem parse_exact (s : String) (k : ℕ) (h : IsNumeral s k) (hk : k < 2 ^ 53) : ∃ x : NotNan, parse s = some (some x) ∧ x.HasValue k := by
  refine ⟨_, ?_, round_exact hk⟩
  unfold parse
  rw [(C76_argument s k).2 ⟨h, by omega⟩]
  rfl

/-- C81 for a million points. -/
example : ∃ (report : RipsReport NotNan) (v : ℕ → NotNan), (∀ k ≤ 500000, (v k).HasValue k) ∧
    (∃ enough, ∀ fuel ≥ enough, (letI := listHeap; ripsProgram Z2 parse enumE enumP ((circleRecords 1000000).map some) [] fuel = some report)) ∧
    report.intervals 1 = {(v 1, ((v 333334 : NotNan) : WithTop NotNan))} := by
  letI := listHeap
  obtain ⟨report, v, h1, h2, -, -, h3⟩ := C81_circle Z2 (ZMod 2) (parse := parse) (enumE := enumE) (enumP := enumP) (enumBy_enumerates _ _) (enumBy_enumerates _ _) (n := 1000000) (by omega)
    (fun s k h hk => parse_exact s k h (by omega)) (args := []) (max_dim := 1) (Or.inl ⟨rfl, rfl⟩) le_rfl
  exact ⟨report, v, h1, h2, h3⟩

/-- The text for 6 points, and the report. -/
example : circleRecords 6 = [["0", "1", "2", "3", "2", "1"], ["1", "0", "1", "2", "3", "2"], ["2", "1", "0", "1", "2", "3"], ["3", "2", "1", "0", "1", "2"], ["2", "3", "2", "1", "0", "1"],
    ["1", "2", "3", "2", "1", "0"]] := by decide +kernel

example : (letI := listHeap
    (ripsProgram Z2 parse enumE enumP ((circleRecords 6).map some) [] 30).map fun r =>
      (r.essential.map fun x => (x.1, RipsExample.floor x.2.2), r.pairings.map fun x => (x.1, RipsExample.floor x.2.2.1, RipsExample.floor x.2.2.2))) =
    some ([(0, 0)], [(1, 1, 2), (0, 0, 1), (0, 0, 1), (0, 0, 1), (0, 0, 1), (0, 0, 1)]) := by decide +kernel

end CircleExample
end Phlite
