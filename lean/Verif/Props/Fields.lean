/-
Property theorems C01, C02, C03 (coefficient fields).
-/
import Verif.Proofs.Fields
import Verif.Model.Q64

namespace Phlite

/-! ### C01 -/

/-- The bytes obtainable from `one` by the public operations of `ZP<P>` (operations that do not panic). -/
inductive ZpReach (P : Nat) : Nat → Prop
  | one : ZpReach P zpOne
  | add {a b c} : ZpReach P a → ZpReach P b → zpAdd P a b = some (some c) → ZpReach P c
  | mul {a b c} : ZpReach P a → ZpReach P b → zpMul P a b = some c → ZpReach P c
  | neg {a c} : ZpReach P a → zpNeg P a = some c → ZpReach P c
  | inv {a c} : ZpReach P a → zpInv P a = some c → ZpReach P c

/-- C01: in each of `Z3, Z5, Z7, Z11, Z13` the obtainable values are exactly the residues `1 .. p-1`. -/
theorem C01_zp_values (P : Nat) (hP : P ∈ [3, 5, 7, 11, 13]) (a : Nat) :
    ZpReach P a ↔ 0 < a ∧ a < P := by
  have : ProvidedPrime P := ⟨hP⟩
  have h1 : IsRes P 1 := by
    rcases ProvidedPrime.cases (P := P) with h | h | h | h | h <;> subst h <;> decide
  constructor
  · intro h
    change IsRes P a
    induction h with
    | one => exact h1
    | add _ _ h ha hb =>
      obtain ⟨r, h2, h3, _⟩ := zp_add_ok ha hb
      rw [h] at h2; cases h2; exact h3 _ rfl
    | mul _ _ h ha hb =>
      obtain ⟨r, h2, h3, _⟩ := zp_mul_ok ha hb
      rw [h] at h2; cases h2; exact h3
    | neg _ h ha =>
      obtain ⟨r, h2, h3, _⟩ := zp_neg_ok ha
      rw [h] at h2; cases h2; exact h3
    | inv _ h ha =>
      obtain ⟨r, h2, h3, _⟩ := zp_inv_ok ha
      rw [h] at h2; cases h2; exact h3
  · rintro ⟨h0, hlt⟩
    induction a with
    | zero => omega
    | succ n ih =>
      rcases Nat.eq_zero_or_pos n with h | h
      · subst h; exact ZpReach.one
      · refine ZpReach.add (ih h (by omega)) ZpReach.one ?_
        have hP' : P ≤ 13 := by rcases ProvidedPrime.cases (P := P) with h | h | h | h | h <;> omega
        unfold zpAdd
        have : (n + zpOne) % P = n + 1 := Nat.mod_eq_of_lt (by simpa [zpOne] using hlt)
        rw [if_neg (by unfold u8Max zpOne; omega), if_neg (by omega)]
        simp [this]

/-- C01: on the obtainable values of `Z3, Z5, Z7, Z11, Z13` no operation panics and each is the field operation of the
integers mod `p`; `+` returns `None` exactly when the sum is zero mod `p`. -/
theorem C01_zp_ops (P : Nat) (hP : P ∈ [3, 5, 7, 11, 13]) (a b : Nat)
    (ha : 0 < a ∧ a < P) (hb : 0 < b ∧ b < P) :
    (zpOne : ZMod P) = 1 ∧
    (if (a + b : ZMod P) = 0 then zpAdd P a b = some none
      else ∃ c, zpAdd P a b = some (some c) ∧ 0 < c ∧ c < P ∧ (c : ZMod P) = a + b) ∧
    (∃ c, zpMul P a b = some c ∧ 0 < c ∧ c < P ∧ (c : ZMod P) = a * b) ∧
    (∃ c, zpNeg P a = some c ∧ 0 < c ∧ c < P ∧ (c + a : ZMod P) = 0) ∧
    (∃ c, zpInv P a = some c ∧ 0 < c ∧ c < P ∧ (c * a : ZMod P) = 1) := by
  have : ProvidedPrime P := ⟨hP⟩
  have ha0 : (a : ZMod P) ≠ 0 := by
    rw [Ne, ZMod.natCast_eq_zero_iff]
    intro h; exact absurd (Nat.le_of_dvd ha.1 h) (by omega)
  refine ⟨by simp [zpOne], ?_, ?_, ?_, ?_⟩
  · obtain ⟨r, h1, h2, h3⟩ := zp_add_ok (P := P) ha hb
    rw [← h3]
    cases r with
    | none => simpa using h1
    | some c =>
      have hc := h2 c rfl
      have hc0 : (c : ZMod P) ≠ 0 := by
        rw [Ne, ZMod.natCast_eq_zero_iff]
        intro h; exact absurd (Nat.le_of_dvd hc.1 h) (by have := hc.2; omega)
      rw [if_neg (by simpa using hc0)]
      exact ⟨c, h1, hc.1, hc.2, rfl⟩
  · obtain ⟨c, h1, h2, h3⟩ := zp_mul_ok (P := P) ha hb
    exact ⟨c, h1, h2.1, h2.2, h3⟩
  · obtain ⟨c, h1, h2, h3⟩ := zp_neg_ok (P := P) ha
    exact ⟨c, h1, h2.1, h2.2, by rw [h3]; ring⟩
  · obtain ⟨c, h1, h2, h3⟩ := zp_inv_ok (P := P) ha
    exact ⟨c, h1, h2.1, h2.2, by rw [h3]; exact inv_mul_cancel₀ ha0⟩

/-- C01: `Z2` has a single value which is the field `ZMod 2` without zero; the laws are those of a field. -/
theorem C01_z2 : (∀ a : Z2, a = NonZeroCoeff.one) ∧
    (∀ a b : Z2, NonZeroCoeff.add a b = none) ∧ ((1 : ZMod 2) + 1 = 0) ∧
    (∀ a b : Z2, NonZeroCoeff.mul a b = NonZeroCoeff.one) ∧
    (∀ a : Z2, NonZeroCoeff.neg a = NonZeroCoeff.one ∧ NonZeroCoeff.inv a = NonZeroCoeff.one) := by
  refine ⟨fun a => by cases a; rfl, fun _ _ => rfl, by decide, fun _ _ => rfl, fun a => by cases a; exact ⟨rfl, rfl⟩⟩

/-- C01: for each of `Z2, Z3, .., Z13` the coefficient type with the trait operations is (through an explicit bijection)
the set of non-zero elements of `ZMod p`. -/
theorem C01_lawful : Nonempty (LawfulCoeff Z2 (ZMod 2)) ∧
    ∀ (P : Nat) [ProvidedPrime P], Nonempty (LawfulCoeff (ZP P) (ZMod P)) :=
  ⟨⟨inferInstance⟩, fun _ _ => ⟨inferInstance⟩⟩

/-- C01: adding an optional coefficient, where `None` stands for zero: the result is `None` exactly if the sum is zero, and otherwise the sum. For every
coefficient type that is the set of non-zero elements of a field (so for `Z2`, ..., `Z13` and `Q`). -/
theorem C01_add_option {CF K : Type} [NonZeroCoeff CF] [Field K] [LawfulCoeff CF K] (a : CF) (o : Option CF) :
    (NonZeroCoeff.addOpt a o).elim 0 (LawfulCoeff.val (K := K)) = LawfulCoeff.val a + o.elim 0 (LawfulCoeff.val (K := K)) := by
  cases o with
  | none => simp [NonZeroCoeff.addOpt]
  | some b => simpa [NonZeroCoeff.addOpt] using LawfulCoeff.val_add (K := K) a b

example : NonZeroCoeff.addOpt Z2.one none = some Z2.one ∧ NonZeroCoeff.addOpt Z2.one (some Z2.one) = none := by decide

example : zpAdd 5 3 4 = some (some 2) ∧ zpAdd 5 2 3 = some none ∧ zpMul 5 3 4 = some 2 ∧ zpNeg 5 2 = some 3 ∧
    zpInv 5 2 = some 3 := by decide

/-! ### C02 -/

/-- C02: `ZP<P>` for a prime `P` with `(P-1)^2 ≤ 255`: `+` and `*` never panic on residues. -/
theorem C02_small_primes_ok (P : Nat) (hp : P.Prime) (hP : (P - 1) ^ 2 ≤ 255) (a b : Nat)
    (ha : 0 < a ∧ a < P) (hb : 0 < b ∧ b < P) : zpAdd P a b ≠ none ∧ zpMul P a b ≠ none := by
  have h16 : P ≤ 16 := by
    by_contra h
    have : 16 ^ 2 ≤ (P - 1) ^ 2 := Nat.pow_le_pow_left (by omega) 2
    omega
  have : P = 2 ∨ P ∈ [3, 5, 7, 11, 13] := by
    have := hp.two_le
    interval_cases P <;> first | decide | (exfalso; revert hp; norm_num)
  rcases this with h | h
  · subst h
    have : a = 1 := by omega
    have : b = 1 := by omega
    subst_vars; decide
  · have := C01_zp_ops P h a b ha hb
    refine ⟨?_, ?_⟩
    · have h1 := this.2.1
      split at h1
      · rw [h1]; simp
      · obtain ⟨c, h1, _⟩ := h1; rw [h1]; simp
    · obtain ⟨c, h1, _⟩ := this.2.2.1; rw [h1]; simp

/-- C02: for every larger `P` a product of two residues overflows `u8` and panics. -/
theorem C02_large_panics (P : Nat) (hP : 255 < (P - 1) ^ 2) : zpMul P (P - 1) (P - 1) = none := by
  unfold zpMul
  rw [if_pos]
  unfold u8Max; rw [← pow_two]; exact hP

/-- C02: for composite `P` the product of two residues is zero mod `P` and `*` panics. -/
theorem C02_composite_panics (P : Nat) (h2 : 2 ≤ P) (hP : ¬ P.Prime) :
    ∃ a b, (0 < a ∧ a < P) ∧ (0 < b ∧ b < P) ∧ zpMul P a b = none := by
  obtain ⟨a, hd, h1, hlt⟩ := (Nat.not_prime_iff_exists_dvd_lt h2).1 hP
  obtain ⟨b, hb⟩ := hd
  have hb1 : 1 < b := by
    rcases Nat.lt_or_ge 1 b with h | h
    · exact h
    · exfalso
      have : a * b ≤ a * 1 := Nat.mul_le_mul_left a h
      omega
  have hb2 : b < P := by
    calc b = 1 * b := by omega
      _ < a * b := Nat.mul_lt_mul_of_pos_right (by omega) (by omega)
      _ = P := hb.symm
  refine ⟨a, b, ⟨by omega, hlt⟩, ⟨by omega, hb2⟩, ?_⟩
  unfold zpMul
  rw [← hb]
  split
  · rfl
  · split
    · rfl
    · simp

example : zpMul 17 16 16 = none ∧ zpMul 6 2 3 = none ∧ Nat.Prime 13 ∧ (13 - 1) ^ 2 ≤ 255 := by
  refine ⟨by decide, by decide, by norm_num, by decide⟩

/-! ### C03 -/

/-- Values of `Q` obtainable from `one` by public operations none of whose intermediate integers overflow. -/
inductive Q64Reach : Q → Prop
  | one : Q64Reach Q64.one
  | add {a b c} : Q64Reach a → Q64Reach b → Q64.add a b = some (some c) → Q64Reach c
  | mul {a b c} : Q64Reach a → Q64Reach b → Q64.mul a b = some c → Q64Reach c
  | neg {a c} : Q64Reach a → Q64.neg a = some c → Q64Reach c
  | inv {a c} : Q64Reach a → Q64.inv a = some c → Q64Reach c

theorem Q64.ckI_eq {x y : Int} (h : Q64.ckI x = some y) : y = x := by
  unfold Q64.ckI at h; split at h <;> simp_all
theorem Q64.ckU_eq {x y : Nat} (h : Q64.ckU x = some y) : y = x := by
  unfold Q64.ckU at h; split at h <;> simp_all

theorem Q64.reduce_eq {q r : Q} (h : Q64.reduce q = some r) : r = q.reduce := by
  unfold Q64.reduce at h
  simp only [Option.bind_eq_bind, Option.bind_eq_some_iff] at h
  obtain ⟨g, h1, h2⟩ := h
  have := Q64.ckI_eq h1
  split at h2
  · simp at h2
  · simp at h2; rw [← h2, this]; rfl

/-- C03: when nothing overflows, the 64-bit operations return what the unbounded ones return. -/
theorem C03_no_overflow_agree (a b : Q) :
    (∀ r, Q64.add a b = some r → Q.add a b = r) ∧ (∀ r, Q64.mul a b = some r → Q.mul a b = r) ∧
    (∀ r, Q64.neg a = some r → Q.neg a = r) ∧ (∀ r, Q64.inv a = some r → Q.inv a = r) := by
  refine ⟨?_, ?_, ?_, ?_⟩
  · intro r h
    unfold Q64.add at h
    simp only [Option.bind_eq_bind, Option.bind_eq_some_iff] at h
    obtain ⟨l, hl, h⟩ := h
    cases Q64.ckU_eq hl
    split at h
    · simp at h
    simp only [Option.bind_eq_some_iff] at h
    obtain ⟨fa, h1, x, h2, fb, h3, y, h4, n, h5, h6⟩ := h
    cases Q64.ckI_eq h1; cases Q64.ckI_eq h2; cases Q64.ckI_eq h3; cases Q64.ckI_eq h4
    cases Q64.ckI_eq h5
    unfold Q.add
    simp only
    split at h6 <;> rename_i h7
    · rw [if_pos h7]; simpa using h6
    · rw [if_neg h7]
      simp only [Option.map_eq_some_iff] at h6
      obtain ⟨r', h8, h9⟩ := h6
      rw [← h9, Q64.reduce_eq h8]
  · intro r h
    unfold Q64.mul at h
    simp only [Option.bind_eq_bind, Option.bind_eq_some_iff] at h
    obtain ⟨n, hn, d, hd, h⟩ := h
    cases Q64.ckI_eq hn; cases Q64.ckU_eq hd
    rw [Q64.reduce_eq h]; rfl
  · intro r h
    unfold Q64.neg at h
    simp only [Option.bind_eq_bind, Option.bind_eq_some_iff] at h
    obtain ⟨n, hn, h⟩ := h
    cases Q64.ckI_eq hn; cases h; rfl
  · intro r h
    unfold Q64.inv at h
    simp only [Option.bind_eq_bind, Option.bind_eq_some_iff] at h
    obtain ⟨d, hd, n, hn, h⟩ := h
    cases Q64.ckI_eq hd; cases Q64.ckI_eq hn; cases h; rfl

/-- C03: every obtainable value is non-zero, in lowest terms, with positive denominator. -/
theorem C03_valid (q : Q) (h : Q64Reach q) : q.num ≠ 0 ∧ 0 < q.den ∧ q.num.natAbs.gcd q.den = 1 := by
  change q.Valid
  induction h with
  | one => exact Q.one_ok.1
  | @add a b _ _ _ h ha hb => exact (Q.add_ok ha hb).1 _ ((C03_no_overflow_agree a b).1 _ h)
  | @mul a b _ _ _ h ha hb => rw [← (C03_no_overflow_agree a b).2.1 _ h]; exact (Q.mul_ok ha hb).1
  | @neg a _ _ h ha => rw [← (C03_no_overflow_agree a a).2.2.1 _ h]; exact (Q.neg_ok ha).1
  | @inv a _ _ h ha => rw [← (C03_no_overflow_agree a a).2.2.2 _ h]; exact (Q.inv_ok ha).1

/-- C03: on obtainable values, the non-overflowing operations are exact rational arithmetic, `+` is `None` exactly for
a zero sum, and `==` is equality of rationals. -/
theorem C03_exact (a b : Q) (ha : Q64Reach a) (hb : Q64Reach b) :
    (∀ r, Q64.add a b = some r →
      (r = none ↔ (a.num / a.den + b.num / b.den : ℚ) = 0) ∧
      ∀ c, r = some c → (c.num / c.den : ℚ) = a.num / a.den + b.num / b.den) ∧
    (∀ c, Q64.mul a b = some c → (c.num / c.den : ℚ) = (a.num / a.den) * (b.num / b.den)) ∧
    (∀ c, Q64.neg a = some c → (c.num / c.den : ℚ) = -(a.num / a.den)) ∧
    (∀ c, Q64.inv a = some c → (c.num / c.den : ℚ) = (a.num / a.den : ℚ)⁻¹) ∧
    (a = b ↔ (a.num / a.den : ℚ) = b.num / b.den) := by
  have ha := C03_valid a ha
  have hb := C03_valid b hb
  have hadd := Q.add_ok (a := a) (b := b) ha hb
  obtain ⟨g1, g2, g3, g4⟩ := C03_no_overflow_agree a b
  refine ⟨?_, ?_, ?_, ?_, ?_⟩
  · intro r h
    rw [g1 r h] at hadd
    cases r with
    | none => simp only [Option.elim_none, Q.toRat] at hadd; simp [← hadd.2]
    | some c =>
      have hc := hadd.1 c rfl
      have h0 := Q.Valid.toRat_ne hc
      simp only [Option.elim_some] at hadd
      have h2 := hadd.2
      rw [h2] at h0
      simp only [Q.toRat] at h0 h2
      refine ⟨by simp [h0], ?_⟩
      intro c' hc'; cases hc'; exact h2
  · intro c h; rw [← g2 c h]; exact (Q.mul_ok (a := a) (b := b) ha hb).2
  · intro c h; rw [← g3 c h]; exact (Q.neg_ok (a := a) ha).2
  · intro c h; rw [← g4 c h]; exact (Q.inv_ok (a := a) ha).2
  · exact ⟨fun h => by rw [h], fun h => Q.toRat_inj ha hb h⟩

theorem Q64.ckI_of {x : Int} (hx : x.natAbs < 9223372036854775808) : Q64.ckI x = some x := by
  unfold Q64.ckI Q64.inI; rw [if_pos]; rw [Bool.and_eq_true, decide_eq_true_iff, decide_eq_true_iff]; omega
theorem Q64.ckU_of {x : Nat} (hx : x < 18446744073709551616) : Q64.ckU x = some x := by
  unfold Q64.ckU Q64.inU; rw [if_pos]; rw [decide_eq_true_iff]; exact hx
theorem Q64.castI_of {x : Nat} (hx : x < 9223372036854775808) : Q64.castI x = some (x : Int) :=
  Q64.ckI_of (by rw [Int.natAbs_natCast]; exact hx)

theorem Q64.reduce_of {n : Int} {d : Nat} (h0 : 0 < d) (h : d < 9223372036854775808) :
    Q64.reduce ⟨n, d⟩ = some (Q.reduce ⟨n, d⟩) := by
  have hg := Nat.le_of_dvd h0 (Nat.gcd_dvd_right n.natAbs d)
  have hg0 := Nat.gcd_pos_of_pos_right n.natAbs h0
  unfold Q64.reduce
  simp only [Q64.castI_of (Nat.lt_of_le_of_lt hg h), Option.bind_eq_bind, Option.bind_some, if_neg hg0.ne']
  rfl

theorem bound31 {x y : Nat} (hx : x < 2147483648) (hy : y < 2147483648) : x * y < 4611686018427387904 :=
  calc x * y ≤ 2147483647 * 2147483647 := Nat.mul_le_mul (Nat.le_of_lt_succ hx) (Nat.le_of_lt_succ hy)
    _ < 4611686018427387904 := by norm_num

theorem Q64.add_of {a b : Q} (ha : a.Valid) (hb : b.Valid)
    (h1 : a.num.natAbs < 2147483648) (h2 : a.den < 2147483648)
    (h3 : b.num.natAbs < 2147483648) (h4 : b.den < 2147483648) : Q64.add a b ≠ none := by
  have hlcm : Nat.lcm a.den b.den ≤ a.den * b.den :=
    Nat.le_of_dvd (Nat.mul_pos ha.2.1 hb.2.1) (Nat.lcm_dvd_mul _ _)
  have hlcm0 : 0 < Nat.lcm a.den b.den := Nat.lcm_pos ha.2.1 hb.2.1
  have hl := Nat.lt_of_le_of_lt hlcm (bound31 h2 h4)
  have e1 : Nat.lcm a.den b.den / a.den ≤ b.den := Nat.div_le_of_le_mul hlcm
  have e2 : Nat.lcm a.den b.den / b.den ≤ a.den := by
    apply Nat.div_le_of_le_mul; rw [Nat.mul_comm]; exact hlcm
  have n1 : (((Nat.lcm a.den b.den / a.den : Nat) : Int) * a.num).natAbs < 4611686018427387904 := by
    rw [Int.natAbs_mul, Int.natAbs_natCast]; exact bound31 (Nat.lt_of_le_of_lt e1 h4) h1
  have n2 : (((Nat.lcm a.den b.den / b.den : Nat) : Int) * b.num).natAbs < 4611686018427387904 := by
    rw [Int.natAbs_mul, Int.natAbs_natCast]; exact bound31 (Nat.lt_of_le_of_lt e2 h2) h3
  have c0 : Q64.ckU (Nat.lcm a.den b.den) = some _ := Q64.ckU_of (by omega)
  have c1 : Q64.castI (Nat.lcm a.den b.den / a.den) = some _ := Q64.castI_of (by omega)
  have c2 : Q64.castI (Nat.lcm a.den b.den / b.den) = some _ := Q64.castI_of (by omega)
  have c3 := Q64.ckI_of (Nat.lt_trans n1 (by norm_num))
  have c4 := Q64.ckI_of (Nat.lt_trans n2 (by norm_num))
  have c5 := Q64.ckI_of (x := ((Nat.lcm a.den b.den / a.den : Nat) : Int) * a.num +
    ((Nat.lcm a.den b.den / b.den : Nat) : Int) * b.num) (by omega)
  have nd : ¬ (a.den = 0 ∨ b.den = 0) := by
    have := ha.2.1; have := hb.2.1; omega
  unfold Q64.add
  rw [Option.bind_eq_bind, c0, Option.bind_some, if_neg nd, Option.bind_eq_bind, c1, Option.bind_some]
  beta_reduce
  rw [c3, Option.bind_some, c2, Option.bind_some, c4, Option.bind_some, c5, Option.bind_some]
  split
  · simp
  · rw [Q64.reduce_of hlcm0 (by omega)]; simp

theorem Q64.mul_of {a b : Q} (ha : a.Valid) (hb : b.Valid)
    (h1 : a.num.natAbs < 2147483648) (h2 : a.den < 2147483648)
    (h3 : b.num.natAbs < 2147483648) (h4 : b.den < 2147483648) : Q64.mul a b ≠ none := by
  have n1 : (a.num * b.num).natAbs < 4611686018427387904 := by
    rw [Int.natAbs_mul]; exact bound31 h1 h3
  have n2 := bound31 h2 h4
  unfold Q64.mul
  rw [Option.bind_eq_bind, Q64.ckI_of (Nat.lt_trans n1 (by norm_num)), Option.bind_some, Option.bind_eq_bind,
    Q64.ckU_of (Nat.lt_trans n2 (by norm_num)), Option.bind_some, Q64.reduce_of (Nat.mul_pos ha.2.1 hb.2.1) (Nat.lt_trans n2 (by norm_num))]; simp

theorem Q64.neg_of {a : Q} (h1 : a.num.natAbs < 2147483648) : Q64.neg a ≠ none := by
  unfold Q64.neg
  simp only [Q64.ckI_of (x := -a.num) (by rw [Int.natAbs_neg]; exact Nat.lt_trans h1 (by norm_num)),
    Option.bind_eq_bind, Option.bind_some]
  simp

theorem Q64.inv_of {a : Q} (h2 : a.den < 2147483648) : Q64.inv a ≠ none := by
  have h : a.num.sign.natAbs ≤ 1 := by rw [Int.natAbs_sign]; split <;> omega
  have h' : (a.num.sign * (a.den : Int)).natAbs < 9223372036854775808 := by
    rw [Int.natAbs_mul, Int.natAbs_natCast]
    have := Nat.mul_le_mul_right a.den h
    omega
  unfold Q64.inv
  simp only [Q64.castI_of (Nat.lt_trans h2 (by norm_num)), Q64.ckI_of h', Option.bind_eq_bind, Option.bind_some]
  simp

/-- C03: a sufficient bound: nothing overflows as long as numerators and denominators stay below `2^31`. -/
theorem C03_bound_no_overflow (a b : Q) (ha : Q64Reach a) (hb : Q64Reach b)
    (h1 : a.num.natAbs < 2147483648) (h2 : a.den < 2147483648)
    (h3 : b.num.natAbs < 2147483648) (h4 : b.den < 2147483648) :
    Q64.add a b ≠ none ∧ Q64.mul a b ≠ none ∧ Q64.neg a ≠ none ∧ Q64.inv a ≠ none :=
  ⟨Q64.add_of (C03_valid a ha) (C03_valid b hb) h1 h2 h3 h4,
   Q64.mul_of (C03_valid a ha) (C03_valid b hb) h1 h2 h3 h4, Q64.neg_of h1, Q64.inv_of h2⟩

/-- C03: the coefficient type `Q` (proper values, unbounded integers) is the set of non-zero rationals. -/
theorem C03_lawful : Nonempty (LawfulCoeff QV ℚ) := ⟨inferInstance⟩

/-- Overflow is a real exclusion: `2^62/1 + 2^62/1` overflows `isize`. -/
example : Q64.add ⟨2 ^ 62, 1⟩ ⟨2 ^ 62, 1⟩ = none := by decide

/-- `3/4` is obtainable, so the hypotheses are met by a non-trivial value. -/
example : ∃ q, Q64Reach q ∧ q = ⟨3, 4⟩ := by
  have h1 : Q64Reach ⟨1, 1⟩ := Q64Reach.one
  have h2 : Q64Reach ⟨2, 1⟩ := Q64Reach.add h1 h1 (by decide)
  have h4 : Q64Reach ⟨4, 1⟩ := Q64Reach.mul h2 h2 (by decide)
  have h3 : Q64Reach ⟨3, 1⟩ := Q64Reach.add h2 h1 (by decide)
  have h5 : Q64Reach ⟨1, 4⟩ := Q64Reach.inv h4 (by decide)
  exact ⟨_, Q64Reach.mul h3 h5 (by decide), rfl⟩

/-! ### When machine integers overflow -/

theorem Q64.ckI_none {x : Int} : Q64.ckI x = none ↔ x < -2 ^ 63 ∨ 2 ^ 63 ≤ x := by
  unfold Q64.ckI Q64.inI
  split <;> rename_i h <;> simp at h ⊢ <;> omega

theorem Q64.ckI_some {x : Int} : Q64.ckI x = some x ↔ -2 ^ 63 ≤ x ∧ x < 2 ^ 63 := by
  unfold Q64.ckI Q64.inI
  split <;> rename_i h <;> simp at h ⊢ <;> omega

theorem Q64.ckU_none {x : Nat} : Q64.ckU x = none ↔ 2 ^ 64 ≤ x := by
  unfold Q64.ckU Q64.inU
  split <;> rename_i h <;> simp at h ⊢ <;> omega

theorem Q64.ckU_some {x : Nat} : Q64.ckU x = some x ↔ x < 2 ^ 64 := by
  unfold Q64.ckU Q64.inU
  split <;> rename_i h <;> simp at h ⊢ <;> omega

/-- The numbers fit in the machine types. -/
def Q64.Fits (q : Q) : Prop := -2 ^ 63 ≤ q.num ∧ q.num < 2 ^ 63 ∧ q.den < 2 ^ 64

theorem Q64.reduce_fits {q r : Q} (h : Q64.reduce q = some r) (hq : Q64.Fits q) : Q64.Fits r := by
  unfold Q64.reduce at h
  simp only [Option.bind_eq_bind, Option.bind_eq_some_iff] at h
  obtain ⟨gi, h1, h2⟩ := h
  have h1' := Q64.ckI_eq h1
  split at h2
  · cases h2
  · rename_i hg
    cases h2
    obtain ⟨q1, q2, q3⟩ := hq
    have hg' : (1 : ℤ) ≤ gi := by rw [h1']; exact_mod_cast Nat.one_le_iff_ne_zero.2 hg
    refine ⟨?_, ?_, lt_of_le_of_lt (Nat.div_le_self _ _) q3⟩ <;> show _
    · rcases le_total 0 q.num with h | h
      · exact le_trans (by norm_num) (Int.tdiv_nonneg h (by omega))
      · have := Int.tdiv_le_self gi (a := -q.num) (by omega)
        rw [Int.neg_tdiv] at this
        show -2 ^ 63 ≤ q.num.tdiv gi
        omega
    · rcases le_total 0 q.num with h | h
      · exact lt_of_le_of_lt (Int.tdiv_le_self gi h) q2
      · have := Int.tdiv_nonneg (a := -q.num) (b := gi) (by omega) (by omega)
        rw [Int.neg_tdiv] at this
        show q.num.tdiv gi < 2 ^ 63
        omega

theorem Q64.reach_fits {q : Q} (h : Q64Reach q) : Q64.Fits q := by
  induction h with
  | one => exact ⟨by decide, by decide, by decide⟩
  | add _ _ h ha hb =>
    unfold Q64.add at h
    simp only [Option.bind_eq_bind, Option.bind_eq_some_iff] at h
    obtain ⟨l, hl, h⟩ := h
    split at h
    · simp at h
    simp only [Option.bind_eq_some_iff] at h
    obtain ⟨fa, h1, x, h2, fb, h3, y, h4, n, h5, h6⟩ := h
    have hn := Q64.ckI_eq h5
    rw [← hn] at h5
    have hl' := Q64.ckU_eq hl
    rw [← hl'] at hl
    split at h6
    · simp at h6
    · obtain ⟨r, h7, h8⟩ := Option.map_eq_some_iff.1 h6
      cases h8
      exact Q64.reduce_fits h7 ⟨(Q64.ckI_some.1 h5).1, (Q64.ckI_some.1 h5).2, Q64.ckU_some.1 hl⟩
  | mul _ _ h ha hb =>
    unfold Q64.mul at h
    simp only [Option.bind_eq_bind, Option.bind_eq_some_iff] at h
    obtain ⟨n, hn, d, hd, h⟩ := h
    have hn' := Q64.ckI_eq hn
    rw [← hn'] at hn
    have hd' := Q64.ckU_eq hd
    rw [← hd'] at hd
    exact Q64.reduce_fits h ⟨(Q64.ckI_some.1 hn).1, (Q64.ckI_some.1 hn).2, Q64.ckU_some.1 hd⟩
  | neg _ h ha =>
    unfold Q64.neg at h
    simp only [Option.bind_eq_bind, Option.bind_eq_some_iff] at h
    obtain ⟨n, hn, h⟩ := h
    cases h
    have hn' := Q64.ckI_eq hn
    rw [← hn'] at hn
    exact ⟨(Q64.ckI_some.1 hn).1, (Q64.ckI_some.1 hn).2, ha.2.2⟩
  | inv _ h ha =>
    unfold Q64.inv at h
    simp only [Option.bind_eq_bind, Option.bind_eq_some_iff] at h
    obtain ⟨d, hd, n, hn, h⟩ := h
    cases h
    have hn' := Q64.ckI_eq hn
    rw [← hn'] at hn
    obtain ⟨h1, h2, h3⟩ := ha
    exact ⟨(Q64.ckI_some.1 hn).1, (Q64.ckI_some.1 hn).2, show Int.natAbs _ < 2 ^ 64 by omega⟩

theorem Q64.reduce_none {n : ℤ} {d : ℕ} (hn : n ≠ 0) (h1 : -2 ^ 63 ≤ n) (h2 : n < 2 ^ 63) : Q64.reduce ⟨n, d⟩ = none ↔ n = -2 ^ 63 ∧ 2 ^ 63 ∣ d := by
  unfold Q64.reduce
  have hpos : 0 < n.natAbs := Int.natAbs_pos.2 hn
  have hg : n.natAbs.gcd d ≠ 0 := (Nat.gcd_pos_of_pos_left _ hpos).ne'
  have hle : n.natAbs.gcd d ≤ n.natAbs := Nat.gcd_le_left _ hpos
  have key : Q64.castI (n.natAbs.gcd d) = none ↔ n = -2 ^ 63 ∧ 2 ^ 63 ∣ d := by
    unfold Q64.castI
    rw [Q64.ckI_none]
    constructor
    · intro h
      have e : n.natAbs.gcd d = 2 ^ 63 := by omega
      exact ⟨by omega, e ▸ Nat.gcd_dvd_right _ _⟩
    · rintro ⟨rfl, hd⟩
      right
      have : Int.natAbs (-2 ^ 63) = 2 ^ 63 := by decide
      rw [this, Nat.gcd_eq_left hd]
      norm_num
  rw [← key]
  dsimp only
  cases Q64.castI (n.natAbs.gcd d) with
  | none => simp
  | some g => simp [hg]

theorem Q64.neg_none {a : Q} (a1 : -2 ^ 63 ≤ a.num) (a2 : a.num < 2 ^ 63) : Q64.neg a = none ↔ a.num = -2 ^ 63 := by
    unfold Q64.neg
    simp only [Option.bind_eq_bind, Option.bind_eq_none_iff]
    constructor
    · intro h
      have : Q64.ckI (-a.num) = none := by
        by_contra hc
        obtain ⟨x, hx⟩ := Option.ne_none_iff_exists'.1 hc
        exact absurd (h x hx) (by simp)
      rw [Q64.ckI_none] at this
      omega
    · intro h x hx
      rw [h, Q64.ckI_none.2 (by norm_num)] at hx
      cases hx

theorem Q64.inv_none {a : Q} (v1 : a.num ≠ 0) : Q64.inv a = none ↔ 2 ^ 63 ≤ a.den := by
    unfold Q64.inv Q64.castI
    by_cases h : 2 ^ 63 ≤ a.den
    · rw [Q64.ckI_none.2 (Or.inr (by exact_mod_cast h))]
      simpa using h
    · have h' : ((a.den : ℤ)) < 2 ^ 63 := by exact_mod_cast not_le.1 h
      rw [Q64.ckI_some.2 ⟨by omega, h'⟩]
      have hs : Q64.ckI (a.num.sign * a.den) = some (a.num.sign * a.den) := by
        rw [Q64.ckI_some]
        rcases lt_trichotomy a.num 0 with h0 | h0 | h0
        · rw [Int.sign_eq_neg_one_of_neg h0]; constructor <;> omega
        · exact absurd h0 v1
        · rw [Int.sign_eq_one_of_pos h0]; constructor <;> omega
      simpa [hs] using h

theorem Q64.mul_none' {n : ℤ} {d : ℕ} (hne : n ≠ 0) : ((Q64.ckI n).bind fun n => (Q64.ckU d).bind fun d => Q64.reduce ⟨n, d⟩) = none ↔
    n < -2 ^ 63 ∨ 2 ^ 63 ≤ n ∨ 2 ^ 64 ≤ d ∨ n = -2 ^ 63 ∧ 2 ^ 63 ∣ d := by
  by_cases h1 : n < -2 ^ 63 ∨ 2 ^ 63 ≤ n
  · rw [Q64.ckI_none.2 h1, Option.bind_none]
    exact iff_of_true rfl (h1.elim Or.inl fun h => Or.inr (Or.inl h))
  · push Not at h1
    rw [Q64.ckI_some.2 h1, Option.bind_some]
    by_cases h2 : 2 ^ 64 ≤ d
    · rw [Q64.ckU_none.2 h2, Option.bind_none]
      exact iff_of_true rfl (Or.inr (Or.inr (Or.inl h2)))
    · rw [Q64.ckU_some.2 (not_le.1 h2), Option.bind_some, Q64.reduce_none hne h1.1 h1.2]
      refine ⟨fun h => Or.inr (Or.inr (Or.inr h)), ?_⟩
      rintro (h | h | h | h)
      · exact absurd h h1.1.not_gt
      · exact absurd h h1.2.not_ge
      · exact absurd h h2
      · exact h

theorem Q64.mul_none {a b : Q} (v1 : a.num ≠ 0) (w1 : b.num ≠ 0) : Q64.mul a b = none ↔
    a.num * b.num < -2 ^ 63 ∨ 2 ^ 63 ≤ a.num * b.num ∨ 2 ^ 64 ≤ a.den * b.den ∨ a.num * b.num = -2 ^ 63 ∧ 2 ^ 63 ∣ a.den * b.den :=
  Q64.mul_none' (mul_ne_zero v1 w1)

theorem Q64.add_none {a b : Q} (v2 : 0 < a.den) (w2 : 0 < b.den) :
    ∀ l : ℕ, l = a.den.lcm b.den → ∀ fa fb x y : ℤ, fa * a.den = l → fb * b.den = l → x = fa * a.num → y = fb * b.num →
      (Q64.add a b = none ↔ 2 ^ 64 ≤ l ∨ 2 ^ 63 ≤ fa ∨ 2 ^ 63 ≤ fb ∨ (x < -2 ^ 63 ∨ 2 ^ 63 ≤ x) ∨ (y < -2 ^ 63 ∨ 2 ^ 63 ≤ y) ∨ (x + y < -2 ^ 63 ∨ 2 ^ 63 ≤ x + y) ∨
        x + y = -2 ^ 63 ∧ 2 ^ 63 ∣ l) := by
    rintro l rfl fa fb x y hfa hfb rfl rfl
    have da : ((a.den.lcm b.den / a.den : ℕ) : ℤ) = fa := by
      have : ((a.den.lcm b.den / a.den * a.den : ℕ) : ℤ) = fa * a.den := by rw [Nat.div_mul_cancel (Nat.dvd_lcm_left _ _), hfa]
      push_cast at this
      exact mul_right_cancel₀ (by exact_mod_cast v2.ne') this
    have db : ((a.den.lcm b.den / b.den : ℕ) : ℤ) = fb := by
      have : ((a.den.lcm b.den / b.den * b.den : ℕ) : ℤ) = fb * b.den := by rw [Nat.div_mul_cancel (Nat.dvd_lcm_right _ _), hfb]
      push_cast at this
      exact mul_right_cancel₀ (by exact_mod_cast w2.ne') this
    have fa0 : 0 ≤ fa := by rw [← da]; exact Int.natCast_nonneg _
    have fb0 : 0 ≤ fb := by rw [← db]; exact Int.natCast_nonneg _
    unfold Q64.add Q64.castI
    by_cases h1 : 2 ^ 64 ≤ a.den.lcm b.den
    · rw [Q64.ckU_none.2 h1]
      simp only [Option.bind_eq_bind, Option.bind_none, true_iff]
      exact Or.inl h1
    rw [Q64.ckU_some.2 (not_le.1 h1)]
    simp only [Option.bind_eq_bind, Option.bind_some]
    rw [if_neg (by omega), da, db]
    by_cases h2 : 2 ^ 63 ≤ fa
    · rw [Q64.ckI_none.2 (Or.inr h2)]
      simp only [Option.bind_none, true_iff]
      exact Or.inr (Or.inl h2)
    rw [Q64.ckI_some.2 ⟨by omega, by omega⟩, Option.bind_some]
    by_cases h3 : fa * a.num < -2 ^ 63 ∨ 2 ^ 63 ≤ fa * a.num
    · rw [Q64.ckI_none.2 h3]
      simp only [Option.bind_none, true_iff]
      exact Or.inr (Or.inr (Or.inr (Or.inl h3)))
    rw [Q64.ckI_some.2 (by push Not at h3; exact h3), Option.bind_some]
    by_cases h4 : 2 ^ 63 ≤ fb
    · rw [Q64.ckI_none.2 (Or.inr h4)]
      simp only [Option.bind_none, true_iff]
      exact Or.inr (Or.inr (Or.inl h4))
    rw [Q64.ckI_some.2 ⟨by omega, by omega⟩, Option.bind_some]
    by_cases h5 : fb * b.num < -2 ^ 63 ∨ 2 ^ 63 ≤ fb * b.num
    · rw [Q64.ckI_none.2 h5]
      simp only [Option.bind_none, true_iff]
      exact Or.inr (Or.inr (Or.inr (Or.inr (Or.inl h5))))
    rw [Q64.ckI_some.2 (by push Not at h5; exact h5), Option.bind_some]
    by_cases h6 : fa * a.num + fb * b.num < -2 ^ 63 ∨ 2 ^ 63 ≤ fa * a.num + fb * b.num
    · rw [Q64.ckI_none.2 h6]
      simp only [Option.bind_none, true_iff]
      exact Or.inr (Or.inr (Or.inr (Or.inr (Or.inr (Or.inl h6)))))
    push Not at h6
    rw [Q64.ckI_some.2 h6, Option.bind_some]
    by_cases h7 : fa * a.num + fb * b.num = 0
    · rw [if_pos h7]
      constructor
      · rintro ⟨⟩
      · rintro (h | h | h | h | h | (h | h) | ⟨h, -⟩)
        · exact absurd h h1
        · exact absurd h h2
        · exact absurd h h4
        · exact absurd h h3
        · exact absurd h h5
        · exact absurd h h6.1.not_gt
        · exact absurd h h6.2.not_ge
        · rw [h7] at h; exact absurd h (by norm_num)
    · rw [if_neg h7, Option.map_eq_none_iff, Q64.reduce_none h7 h6.1 h6.2]
      refine ⟨fun h => Or.inr (Or.inr (Or.inr (Or.inr (Or.inr (Or.inr h))))), ?_⟩
      rintro (h | h | h | h | h | (h | h) | h)
      · exact absurd h h1
      · exact absurd h h2
      · exact absurd h h4
      · exact absurd h h3
      · exact absurd h h5
      · exact absurd h h6.1.not_gt
      · exact absurd h h6.2.not_ge
      · exact h

/-- C03: exactly when an operation on obtainable values overflows 64-bit integers. -/
theorem C03_overflow (a b : Q) (ha : Q64Reach a) (hb : Q64Reach b) :
    (Q64.neg a = none ↔ a.num = -2 ^ 63) ∧
    (Q64.inv a = none ↔ 2 ^ 63 ≤ a.den) ∧
    (Q64.mul a b = none ↔ a.num * b.num < -2 ^ 63 ∨ 2 ^ 63 ≤ a.num * b.num ∨ 2 ^ 64 ≤ a.den * b.den ∨ a.num * b.num = -2 ^ 63 ∧ 2 ^ 63 ∣ a.den * b.den) ∧
    ∀ l : ℕ, l = a.den.lcm b.den → ∀ fa fb x y : ℤ, fa * a.den = l → fb * b.den = l → x = fa * a.num → y = fb * b.num →
      (Q64.add a b = none ↔ 2 ^ 64 ≤ l ∨ 2 ^ 63 ≤ fa ∨ 2 ^ 63 ≤ fb ∨ (x < -2 ^ 63 ∨ 2 ^ 63 ≤ x) ∨ (y < -2 ^ 63 ∨ 2 ^ 63 ≤ y) ∨ (x + y < -2 ^ 63 ∨ 2 ^ 63 ≤ x + y) ∨
        x + y = -2 ^ 63 ∧ 2 ^ 63 ∣ l) := by
  obtain ⟨a1, a2, a3⟩ := Q64.reach_fits ha
  obtain ⟨v1, v2, v3⟩ := C03_valid a ha
  obtain ⟨w1, w2, w3⟩ := C03_valid b hb
  exact ⟨Q64.neg_none a1 a2, Q64.inv_none v1, Q64.mul_none v1 w1, Q64.add_none v2 w2⟩

/-- Overflow on obtainable values: with `1/2^62` and `3/2^62` (sum `1/2^60`) nothing overflows, with `1/2^32` and `1/3^21` it does. -/
example : Q64.neg ⟨-2 ^ 63, 1⟩ = none ∧ Q64.inv ⟨1, 2 ^ 63⟩ = none ∧ Q64.inv ⟨1, 2 ^ 63 - 1⟩ = some ⟨2 ^ 63 - 1, 1⟩ ∧ Q64.mul ⟨2 ^ 32, 1⟩ ⟨-2 ^ 31, 1⟩ = some ⟨-2 ^ 63, 1⟩ ∧
    Q64.mul ⟨2 ^ 32, 1⟩ ⟨2 ^ 31, 1⟩ = none ∧ Q64.add ⟨1, 2 ^ 62⟩ ⟨3, 2 ^ 62⟩ = some (some ⟨1, 2 ^ 60⟩) ∧ Q64.add ⟨1, 2 ^ 32⟩ ⟨1, 3 ^ 21⟩ = none := by
  decide +kernel

end Phlite
