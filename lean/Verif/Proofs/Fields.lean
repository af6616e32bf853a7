/-
The provided coefficient types are lawful.
-/
import Verif.Spec.Field
import Mathlib.Algebra.Field.ZMod
import Mathlib.Data.ZMod.Basic
import Mathlib.Data.Rat.Lemmas
import Mathlib.Data.Nat.Cast.Field
import Mathlib.Tactic.Ring
import Mathlib.Tactic.FieldSimp
import Mathlib.Tactic.Linarith
import Mathlib.Tactic.IntervalCases
import Mathlib.Data.Nat.Prime.Defs
import Mathlib.Tactic.NormNum.Prime

namespace Phlite

/-! ### Z2 -/

instance : Fact (Nat.Prime 2) := ⟨Nat.prime_two⟩

instance : LawfulCoeff Z2 (ZMod 2) where
  val _ := 1
  val_inj := by intro a b _; cases a; cases b; rfl
  val_ne_zero _ := one_ne_zero
  val_surj := by
    intro k hk
    refine ⟨Z2.one, ?_⟩
    revert k; decide
  val_one := rfl
  val_mul _ _ := by simp
  val_neg _ := by decide
  val_inv _ := by simp
  val_add _ _ := by simp [NonZeroCoeff.add]; decide

/-! ### ZP -/

/-- `P` is one of the characteristics for which the library provides a field (`Z3 .. Z13`). -/
class ProvidedPrime (P : Nat) : Prop where
  mem : P ∈ [3, 5, 7, 11, 13]

instance : ProvidedPrime 3 := ⟨by decide⟩
instance : ProvidedPrime 5 := ⟨by decide⟩
instance : ProvidedPrime 7 := ⟨by decide⟩
instance : ProvidedPrime 11 := ⟨by decide⟩
instance : ProvidedPrime 13 := ⟨by decide⟩

theorem ProvidedPrime.cases {P : Nat} [h : ProvidedPrime P] : P = 3 ∨ P = 5 ∨ P = 7 ∨ P = 11 ∨ P = 13 := by
  have := h.mem; simpa using this

instance ProvidedPrime.fact {P : Nat} [h : ProvidedPrime P] : Fact (Nat.Prime P) := by
  refine ⟨?_⟩
  rcases ProvidedPrime.cases (P := P) with h | h | h | h | h <;> subst h <;> norm_num

/-- A residue `a` in `1 .. P-1`. -/
def IsRes (P a : Nat) : Prop := 0 < a ∧ a < P
instance (P a : Nat) : Decidable (IsRes P a) := by unfold IsRes; infer_instance

theorem zp_add_ok {P a b : Nat} [ProvidedPrime P] (ha : IsRes P a) (hb : IsRes P b) :
    ∃ r, zpAdd P a b = some r ∧ (∀ c, r = some c → IsRes P c) ∧
      (r.elim 0 (fun c => (c : ZMod P))) = (a : ZMod P) + b := by
  have hP : P ≤ 13 ∧ 0 < P := by
    rcases ProvidedPrime.cases (P := P) with h | h | h | h | h <;> omega
  unfold IsRes at *
  have h1 : ¬ (a + b > u8Max) := by unfold u8Max; omega
  have h2 : P ≠ 0 := by omega
  refine ⟨_, by unfold zpAdd; rw [if_neg h1, if_neg h2], ?_, ?_⟩
  · intro c hc
    split at hc
    · cases hc
    · cases hc; exact ⟨by omega, Nat.mod_lt _ hP.2⟩
  · split
    · rename_i h
      have : ((a + b : Nat) : ZMod P) = 0 := by
        rw [ZMod.natCast_eq_zero_iff]; exact Nat.dvd_of_mod_eq_zero h
      simpa using this.symm
    · simp [ZMod.natCast_mod]

theorem zp_mul_ok {P a b : Nat} [ProvidedPrime P] (ha : IsRes P a) (hb : IsRes P b) :
    ∃ c, zpMul P a b = some c ∧ IsRes P c ∧ (c : ZMod P) = (a : ZMod P) * b := by
  have hP : P ≤ 13 ∧ 0 < P := by
    rcases ProvidedPrime.cases (P := P) with h | h | h | h | h <;> omega
  unfold IsRes at *
  have hab : a * b ≤ 12 * 12 := Nat.mul_le_mul (by omega) (by omega)
  have h1 : ¬ (a * b > u8Max) := by unfold u8Max; omega
  have h2 : P ≠ 0 := by omega
  have hp : Nat.Prime P := (ProvidedPrime.fact (P := P)).out
  have h3 : (a * b) % P ≠ 0 := by
    intro h
    rcases (Nat.Prime.dvd_mul hp).1 (Nat.dvd_of_mod_eq_zero h) with h | h
    · exact absurd (Nat.le_of_dvd ha.1 h) (by omega)
    · exact absurd (Nat.le_of_dvd hb.1 h) (by omega)
  refine ⟨(a * b) % P, ?_, ⟨by omega, Nat.mod_lt _ hP.2⟩, ?_⟩
  · unfold zpMul; rw [if_neg h1, if_neg h2]; exact if_neg h3
  · simp [ZMod.natCast_mod]

theorem zp_neg_ok {P a : Nat} (ha : IsRes P a) :
    ∃ c, zpNeg P a = some c ∧ IsRes P c ∧ (c : ZMod P) = -(a : ZMod P) := by
  unfold IsRes at *
  refine ⟨P - a, ?_, by omega, ?_⟩
  · unfold zpNeg; rw [if_neg (by omega), if_neg (by omega)]
  · rw [Nat.cast_sub (by omega)]; simp

theorem zp_inv_table : ∀ P ∈ [3, 5, 7, 11, 13], ∀ a < P, 0 < a →
    ∃ c < P, zpInv P a = some c ∧ 0 < c ∧ (a * c) % P = 1 := by decide +kernel

theorem zp_inv_ok {P a : Nat} [ProvidedPrime P] (ha : IsRes P a) :
    ∃ c, zpInv P a = some c ∧ IsRes P c ∧ (c : ZMod P) = (a : ZMod P)⁻¹ := by
  obtain ⟨c, h1, h2, h3, h4⟩ := zp_inv_table P ProvidedPrime.mem a ha.2 ha.1
  refine ⟨c, h2, ⟨h3, h1⟩, ?_⟩
  have : ((a * c : Nat) : ZMod P) = 1 := by
    rw [← ZMod.natCast_mod, h4]; simp
  exact eq_inv_of_mul_eq_one_right (by simpa using this)

/-- `ZP<P>` restricted to its proper values, the residues `1 .. P-1`. -/
structure ZP (P : Nat) where
  n : Nat
  res : IsRes P n

theorem ZP.ext' {P : Nat} {a b : ZP P} (h : a.n = b.n) : a = b := by
  cases a; cases b; cases h; rfl

instance {P : Nat} : DecidableEq (ZP P) := fun a b =>
  if h : a.n = b.n then isTrue (ZP.ext' h) else isFalse (fun e => h (by rw [e]))

theorem zpAdd_isSome {P : Nat} [ProvidedPrime P] (a b : ZP P) : (zpAdd P a.n b.n).isSome := by
  obtain ⟨r, h, _⟩ := zp_add_ok a.res b.res; rw [h]; rfl

/-- The raw byte operations on residues; the `get`s are justified by the no-panic lemmas above. -/
instance {P : Nat} [ProvidedPrime P] : NonZeroCoeff (ZP P) where
  add a b :=
    match h : (zpAdd P a.n b.n).get (zpAdd_isSome a b) with
    | none => none
    | some c => some ⟨c, by
        obtain ⟨r, h1, h2, _⟩ := zp_add_ok a.res b.res
        apply h2; simpa [h1] using h⟩
  mul a b := ⟨(zpMul P a.n b.n).get (by obtain ⟨r, h, _⟩ := zp_mul_ok a.res b.res; rw [h]; rfl), by
    obtain ⟨r, h, h2, _⟩ := zp_mul_ok a.res b.res; simpa [h] using h2⟩
  one := ⟨zpOne, by
    rcases ProvidedPrime.cases (P := P) with h | h | h | h | h <;> subst h <;> decide⟩
  neg a := ⟨(zpNeg P a.n).get (by obtain ⟨r, h, _⟩ := zp_neg_ok a.res; rw [h]; rfl), by
    obtain ⟨r, h, h2, _⟩ := zp_neg_ok a.res; simpa [h] using h2⟩
  inv a := ⟨(zpInv P a.n).get (by obtain ⟨r, h, _⟩ := zp_inv_ok a.res; rw [h]; rfl), by
    obtain ⟨r, h, h2, _⟩ := zp_inv_ok a.res; simpa [h] using h2⟩

instance {P : Nat} [ProvidedPrime P] : LawfulCoeff (ZP P) (ZMod P) where
  val a := (a.n : ZMod P)
  val_inj a b h := by
    apply ZP.ext'
    have := (ZMod.natCast_eq_natCast_iff' a.n b.n P).1 h
    rwa [Nat.mod_eq_of_lt a.res.2, Nat.mod_eq_of_lt b.res.2] at this
  val_ne_zero a h := by
    rw [ZMod.natCast_eq_zero_iff] at h
    exact absurd (Nat.le_of_dvd a.res.1 h) (by have := a.res.2; omega)
  val_surj k hk := by
    refine ⟨⟨k.val, ?_, ZMod.val_lt k⟩, ZMod.natCast_zmod_val k⟩
    rcases Nat.eq_zero_or_pos k.val with h | h
    · exact absurd ((ZMod.val_eq_zero k).1 h) hk
    · exact h
  val_one := by simp [NonZeroCoeff.one, zpOne]
  val_mul a b := by
    obtain ⟨r, h, _, h2⟩ := zp_mul_ok a.res b.res
    simpa [NonZeroCoeff.mul, h] using h2
  val_neg a := by
    obtain ⟨r, h, _, h2⟩ := zp_neg_ok a.res
    simpa [NonZeroCoeff.neg, h] using h2
  val_inv a := by
    obtain ⟨r, h, _, h2⟩ := zp_inv_ok a.res
    simpa [NonZeroCoeff.inv, h] using h2
  val_add a b := by
    obtain ⟨r, h, _, h2⟩ := zp_add_ok a.res b.res
    rw [← h2]
    simp only [NonZeroCoeff.add]
    split
    · rename_i h3
      simp [h] at h3; simp [h3]
    · rename_i h3
      simp [h] at h3; simp [h3]

/-! ### Q -/

/-- A proper value of `Q`: non-zero, positive denominator, lowest terms. -/
def Q.Valid (q : Q) : Prop := q.num ≠ 0 ∧ 0 < q.den ∧ q.num.natAbs.Coprime q.den

/-- The rational number denoted by a `Q`. -/
def Q.toRat (q : Q) : ℚ := (q.num : ℚ) / (q.den : ℚ)

theorem Q.reduce_ok {q : Q} (h1 : q.num ≠ 0) (h2 : 0 < q.den) : q.reduce.Valid ∧ q.reduce.toRat = q.toRat := by
  obtain ⟨n, d⟩ := q
  simp only at h1 h2
  have hg : 0 < Nat.gcd n.natAbs d := Nat.gcd_pos_of_pos_right _ h2
  have hn : ((Nat.gcd n.natAbs d : Nat) : Int) ∣ n := by
    rw [Int.natCast_dvd]; exact Nat.gcd_dvd_left _ _
  have hd : Nat.gcd n.natAbs d ∣ d := Nat.gcd_dvd_right _ _
  have e1 : n.tdiv (Nat.gcd n.natAbs d : Int) = n / (Nat.gcd n.natAbs d : Int) :=
    Int.tdiv_eq_ediv_of_dvd hn
  refine ⟨⟨?_, ?_, ?_⟩, ?_⟩
  · simp only [Q.reduce, e1]
    intro h
    have := Int.ediv_mul_cancel hn
    rw [h] at this; simp at this; exact h1 this.symm
  · simp only [Q.reduce]
    exact Nat.div_pos (Nat.le_of_dvd h2 hd) hg
  · simp only [Q.reduce, Int.natAbs_tdiv, Int.natAbs_natCast]
    exact Nat.coprime_div_gcd_div_gcd hg
  · simp only [Q.reduce, Q.toRat, e1]
    have hg' : ((Nat.gcd n.natAbs d : Nat) : ℚ) ≠ 0 := by exact_mod_cast hg.ne'
    have hd' : ((d : Nat) : ℚ) ≠ 0 := by exact_mod_cast h2.ne'
    rw [Int.cast_div hn (by exact_mod_cast hg.ne'), Nat.cast_div hd hg']
    simp only [Int.cast_natCast]
    field_simp

theorem Q.Valid.toRat_ne {q : Q} (h : q.Valid) : q.toRat ≠ 0 := by
  unfold Q.toRat
  have := h.1; have := h.2.1
  exact div_ne_zero (by exact_mod_cast h.1) (by exact_mod_cast h.2.1.ne')

theorem Q.toRat_inj {a b : Q} (ha : a.Valid) (hb : b.Valid) (h : a.toRat = b.toRat) : a = b := by
  obtain ⟨n, d⟩ := a
  obtain ⟨m, e⟩ := b
  have hn : ((n : ℚ) / (d : ℚ)).num = n := Rat.num_div_eq_of_coprime (b := (d : ℤ)) (by exact_mod_cast ha.2.1) (by simpa using ha.2.2)
  have hm : ((m : ℚ) / (e : ℚ)).num = m := Rat.num_div_eq_of_coprime (b := (e : ℤ)) (by exact_mod_cast hb.2.1) (by simpa using hb.2.2)
  have hd : ((((n : ℚ) / (d : ℚ)).den : ℕ) : ℤ) = d := Rat.den_div_eq_of_coprime (b := (d : ℤ)) (by exact_mod_cast ha.2.1) (by simpa using ha.2.2)
  have he : ((((m : ℚ) / (e : ℚ)).den : ℕ) : ℤ) = e := Rat.den_div_eq_of_coprime (b := (e : ℤ)) (by exact_mod_cast hb.2.1) (by simpa using hb.2.2)
  simp only [Q.toRat] at h
  rw [h] at hn hd
  rw [hn] at hm; rw [hd] at he
  have he' : d = e := by exact_mod_cast he
  rw [hm, he']

theorem Q.add_num {a b : Q} (ha : 0 < a.den) (hb : 0 < b.den) :
    ((((Nat.lcm a.den b.den / a.den : Nat) : Int) * a.num + ((Nat.lcm a.den b.den / b.den : Nat) : Int) * b.num : Int) : ℚ)
      / (Nat.lcm a.den b.den : ℚ) = a.toRat + b.toRat := by
  have hl : Nat.lcm a.den b.den ≠ 0 := Nat.lcm_ne_zero ha.ne' hb.ne'
  have hl' : ((Nat.lcm a.den b.den : Nat) : ℚ) ≠ 0 := by exact_mod_cast hl
  have ha' : ((a.den : Nat) : ℚ) ≠ 0 := by exact_mod_cast ha.ne'
  have hb' : ((b.den : Nat) : ℚ) ≠ 0 := by exact_mod_cast hb.ne'
  simp only [Int.cast_add, Int.cast_mul, Int.cast_natCast]
  rw [Nat.cast_div (Nat.dvd_lcm_left _ _) ha', Nat.cast_div (Nat.dvd_lcm_right _ _) hb']
  unfold Q.toRat
  field_simp

theorem Q.add_ok {a b : Q} (ha : a.Valid) (hb : b.Valid) :
    (∀ c, Q.add a b = some c → c.Valid) ∧ (Q.add a b).elim 0 Q.toRat = a.toRat + b.toRat := by
  have hn := Q.add_num (a := a) (b := b) ha.2.1 hb.2.1
  have hl : 0 < Nat.lcm a.den b.den := Nat.lcm_pos ha.2.1 hb.2.1
  unfold Q.add
  simp only
  split
  · rename_i h
    refine ⟨fun c hc => by simp at hc, ?_⟩
    rw [h] at hn; simpa using hn
  · rename_i h
    have := Q.reduce_ok (q := ⟨_, Nat.lcm a.den b.den⟩) h hl
    refine ⟨by intro c hc; cases hc; exact this.1, ?_⟩
    rw [← hn]; exact this.2

theorem Q.mul_ok {a b : Q} (ha : a.Valid) (hb : b.Valid) :
    (Q.mul a b).Valid ∧ (Q.mul a b).toRat = a.toRat * b.toRat := by
  have := Q.reduce_ok (q := ⟨a.num * b.num, a.den * b.den⟩) (mul_ne_zero ha.1 hb.1) (Nat.mul_pos ha.2.1 hb.2.1)
  refine ⟨this.1, ?_⟩
  unfold Q.mul; rw [this.2]
  unfold Q.toRat; push_cast; rw [mul_div_mul_comm]

theorem Q.one_ok : Q.one.Valid ∧ Q.one.toRat = 1 := by
  refine ⟨⟨by decide, by decide, by decide⟩, by simp [Q.one, Q.toRat]⟩

theorem Q.neg_ok {a : Q} (ha : a.Valid) : (Q.neg a).Valid ∧ (Q.neg a).toRat = -a.toRat := by
  refine ⟨⟨by simpa [Q.neg] using ha.1, ha.2.1, by simpa [Q.neg] using ha.2.2⟩, ?_⟩
  simp [Q.neg, Q.toRat, neg_div]

theorem Q.inv_ok {a : Q} (ha : a.Valid) : (Q.inv a).Valid ∧ (Q.inv a).toRat = a.toRat⁻¹ := by
  obtain ⟨n, d⟩ := a
  obtain ⟨h1, h2, h3⟩ := ha
  simp only at h1 h2 h3
  have hs : n.sign.natAbs = 1 := by rw [Int.natAbs_sign]; simp [h1]
  refine ⟨⟨?_, ?_, ?_⟩, ?_⟩
  · simp only [Q.inv]; intro h
    rcases mul_eq_zero.1 h with h | h
    · exact h1 (Int.sign_eq_zero_iff_zero.1 h)
    · omega
  · simp only [Q.inv]; omega
  · simp only [Q.inv, Int.natAbs_mul, hs, one_mul, Int.natAbs_natCast]
    exact h3.symm
  · simp only [Q.inv, Q.toRat]
    have hn : (n : ℚ) ≠ 0 := by exact_mod_cast h1
    have key : (n.natAbs : ℤ) = n.sign * n := by
      rcases lt_trichotomy n 0 with h | h | h
      · rw [Int.sign_eq_neg_one_of_neg h]; omega
      · omega
      · rw [Int.sign_eq_one_of_pos h]; omega
    have key' : (n.natAbs : ℚ) = (n.sign : ℚ) * n := by
      rw [← Int.cast_natCast, key]; push_cast; ring
    have hs0 : (n.sign : ℚ) ≠ 0 := by
      have : n.sign ≠ 0 := by intro h; exact h1 (Int.sign_eq_zero_iff_zero.1 h)
      exact_mod_cast this
    rw [key']
    push_cast
    rw [inv_div]
    field_simp

/-- `Q` restricted to its proper values. -/
structure QV where
  q : Q
  ok : q.Valid

theorem QV.ext' {a b : QV} (h : a.q = b.q) : a = b := by cases a; cases b; cases h; rfl

instance : DecidableEq QV := fun a b =>
  if h : a.q = b.q then isTrue (QV.ext' h) else isFalse (fun e => h (by rw [e]))

instance : NonZeroCoeff QV where
  add a b :=
    match h : Q.add a.q b.q with
    | none => none
    | some c => some ⟨c, (Q.add_ok a.ok b.ok).1 c h⟩
  mul a b := ⟨Q.mul a.q b.q, (Q.mul_ok a.ok b.ok).1⟩
  one := ⟨Q.one, Q.one_ok.1⟩
  neg a := ⟨Q.neg a.q, (Q.neg_ok a.ok).1⟩
  inv a := ⟨Q.inv a.q, (Q.inv_ok a.ok).1⟩

theorem Q.valid_of_rat (k : ℚ) (hk : k ≠ 0) : ∃ q : Q, q.Valid ∧ q.toRat = k :=
  ⟨⟨k.num, k.den⟩, ⟨by simpa using hk, k.den_pos, k.reduced⟩, by simpa [Q.toRat] using Rat.num_div_den k⟩

instance : LawfulCoeff QV ℚ where
  val a := a.q.toRat
  val_inj a b h := QV.ext' (Q.toRat_inj a.ok b.ok h)
  val_ne_zero a := a.ok.toRat_ne
  val_surj k hk := by
    obtain ⟨q, h1, h2⟩ := Q.valid_of_rat k hk
    exact ⟨⟨q, h1⟩, h2⟩
  val_one := Q.one_ok.2
  val_mul a b := (Q.mul_ok a.ok b.ok).2
  val_neg a := (Q.neg_ok a.ok).2
  val_inv a := (Q.inv_ok a.ok).2
  val_add a b := by
    rw [← (Q.add_ok a.ok b.ok).2]
    simp only [NonZeroCoeff.add]
    split <;> rename_i h <;> simp [h]

end Phlite
