/-
Property theorem C68: arithmetic of `Q` as compiled in debug and release builds.
-/
import Verif.Model.Q64Build
import Verif.Props.Fields

set_option linter.unusedSimpArgs false

namespace Phlite
open Q64

namespace Q64

theorem wrapI_of {x : ℤ} (h1 : -2 ^ 63 ≤ x) (h2 : x < 2 ^ 63) : wrapI x = x := by
  unfold wrapI
  rw [Int.emod_eq_of_lt] <;> omega

theorem isize_of_ckI {B : Build} {x y : ℤ} (h : ckI x = some y) : B.isize x = some y := by
  cases B with
  | debug => exact h
  | release =>
    have := ckI_eq h
    subst this
    have := ckI_some.1 h
    simp only [Build.isize]
    rw [wrapI_of this.1 this.2]

theorem usize_of_ckU {B : Build} {x y : ℕ} (h : ckU x = some y) : B.usize x = some y := by
  cases B with
  | debug => exact h
  | release =>
    have := ckU_eq h
    subst this
    have := ckU_some.1 h
    simp only [Build.usize, wrapU]
    rw [Nat.mod_eq_of_lt (by omega)]

theorem asIsize_of_castI {x : ℕ} {y : ℤ} (h : castI x = some y) : asIsize x = y := by
  have := ckI_eq h
  subst this
  have := ckI_some.1 h
  exact wrapI_of this.1 this.2

theorem Build.reduce_of {q r : Q} (h : Q64.reduce q = some r) : Build.reduce q = some r := by
  unfold Q64.reduce at h
  simp only [Option.bind_eq_bind, Option.bind_eq_some_iff] at h
  obtain ⟨g, h1, h2⟩ := h
  have hg := ckI_eq h1
  split at h2
  · cases h2
  · rename_i h0
    unfold Build.reduce divI divU
    simp only
    rw [asIsize_of_castI h1, if_neg (by rw [hg]; exact_mod_cast h0), if_neg (by rw [hg]; omega), if_neg h0]
    exact h2

theorem Build.lcm_of {B : Build} {a b l : ℕ} (h : ckU (Nat.lcm a b) = some l) : Build.lcm B a b = some l := by
  unfold Build.lcm
  split
  · rename_i h0
    have := ckU_eq h
    rw [this, h0.1]; simp
  · apply usize_of_ckU
    rw [← Nat.mul_div_assoc _ (Nat.gcd_dvd_right a b)]
    exact h

end Q64

/-- C68: as long as no integer of an operation leaves its range, debug and release builds return the same, and (with C03) this is the exact rational number. -/
theorem C68_builds_agree (B : Build) (a b : Q) :
    (∀ r, Q64.add a b = some r → Build.add B a b = some r) ∧ (∀ r, Q64.mul a b = some r → Build.mul B a b = some r) ∧
    (∀ r, Q64.neg a = some r → Build.neg B a = some r) ∧ (∀ r, Q64.inv a = some r → Build.inv B a = some r) := by
  refine ⟨?_, ?_, ?_, ?_⟩
  · intro r h
    unfold Q64.add at h
    simp only [Option.bind_eq_bind, Option.bind_eq_some_iff] at h
    obtain ⟨l, hl, h⟩ := h
    split at h
    · simp at h
    rename_i h0
    simp only [Option.bind_eq_some_iff] at h
    obtain ⟨fa, h1, x, h2, fb, h3, y, h4, n, h5, h6⟩ := h
    unfold Build.add divU
    rw [Build.lcm_of hl, Option.bind_some, if_neg (by omega), Option.bind_some, asIsize_of_castI h1, isize_of_ckI h2, Option.bind_some,
      if_neg (by omega), Option.bind_some, asIsize_of_castI h3, isize_of_ckI h4, Option.bind_some, isize_of_ckI h5, Option.bind_some]
    split at h6
    · rename_i h7; rw [if_pos h7]; exact h6
    · rename_i h7
      rw [if_neg h7]
      obtain ⟨q, h8, h9⟩ := Option.map_eq_some_iff.1 h6
      rw [Build.reduce_of h8]
      simpa using h9
  · intro r h
    unfold Q64.mul at h
    simp only [Option.bind_eq_bind, Option.bind_eq_some_iff] at h
    obtain ⟨n, hn, d, hd, h⟩ := h
    unfold Build.mul
    rw [isize_of_ckI hn, Option.bind_some, usize_of_ckU hd, Option.bind_some, Build.reduce_of h]
  · intro r h
    unfold Q64.neg at h
    simp only [Option.bind_eq_bind, Option.bind_eq_some_iff] at h
    obtain ⟨n, hn, h⟩ := h
    unfold Build.neg
    rw [isize_of_ckI hn]
    exact h
  · intro r h
    unfold Q64.inv at h
    simp only [Option.bind_eq_bind, Option.bind_eq_some_iff] at h
    obtain ⟨d, hd, n, hn, h⟩ := h
    unfold Build.inv
    rw [asIsize_of_castI hd, isize_of_ckI hn]
    exact h

namespace Q64

theorem castI_of' {x : ℕ} (h : x < 2 ^ 63) : castI x = some (asIsize x) := by
  have : castI x = some (x : ℤ) := castI_of (by omega)
  rw [asIsize_of_castI this]; exact this

theorem Build.reduce_eq {q : Q} (h : q.num.natAbs.gcd q.den < 2 ^ 63) : Build.reduce q = Q64.reduce q := by
  unfold Build.reduce Q64.reduce divI divU
  simp only
  have e : asIsize (q.num.natAbs.gcd q.den) = (q.num.natAbs.gcd q.den : ℕ) := wrapI_of (by omega) (by exact_mod_cast h)
  rw [castI_of' h]
  simp only [Option.bind_eq_bind, Option.bind_some]
  rw [e]
  by_cases h0 : q.num.natAbs.gcd q.den = 0
  · rw [if_pos (by exact_mod_cast h0), if_pos h0, if_pos h0]; rfl
  · rw [if_neg (by exact_mod_cast h0), if_neg (by omega), if_neg h0, if_neg h0]; rfl

theorem two_dvd_of_dvd_pow {x k : ℕ} (h : x ∣ 2 ^ k) : x = 1 ∨ 2 ∣ x := by
  obtain ⟨i, hi, rfl⟩ := (Nat.dvd_prime_pow Nat.prime_two).1 h
  rcases Nat.eq_zero_or_pos i with rfl | h
  · exact Or.inl (pow_zero 2)
  · exact Or.inr (dvd_pow_self 2 h.ne')

theorem lcm_two_pow {a b k : ℕ} (h : a.lcm b = 2 ^ k) : a = 2 ^ k ∨ b = 2 ^ k := by
  obtain ⟨i, hi, rfl⟩ := (Nat.dvd_prime_pow Nat.prime_two).1 (by rw [← h]; exact Nat.dvd_lcm_left a b : a ∣ 2 ^ k)
  obtain ⟨j, hj, rfl⟩ := (Nat.dvd_prime_pow Nat.prime_two).1 (by rw [← h]; exact Nat.dvd_lcm_right (2 ^ i) b : b ∣ 2 ^ k)
  rcases le_total i j with hij | hij
  · rw [Nat.lcm_eq_right (pow_dvd_pow 2 hij)] at h; exact Or.inr h
  · rw [Nat.lcm_eq_left (pow_dvd_pow 2 hij)] at h; exact Or.inl h

/-- Two numbers below `2^63` have no least common multiple `2^63`. -/
theorem lcm_ne {a b : ℕ} (ha : a < 2 ^ 63) (hb : b < 2 ^ 63) : a.lcm b ≠ 2 ^ 63 := by
  intro h
  rcases lcm_two_pow h with h | h
  · exact absurd h ha.ne
  · exact absurd h hb.ne

theorem odd_contra {k p q r s : ℕ} (hk : k ≠ 0) (h1 : p * q = 2 ^ k) (h2 : r * s = 2 ^ k) (hp : p < 2 ^ k) (hq : q < 2 ^ k) (c1 : r.gcd p = 1)
    (c2 : s.gcd q = 1) : False := by
  have ep : 2 ∣ p := by
    rcases two_dvd_of_dvd_pow (by rw [← h1]; exact Nat.dvd_mul_right p q : p ∣ 2 ^ k) with h | h
    · rw [h, Nat.one_mul] at h1; exact absurd h1 hq.ne
    · exact h
  have eq : 2 ∣ q := by
    rcases two_dvd_of_dvd_pow (by rw [← h1]; exact Nat.dvd_mul_left q p : q ∣ 2 ^ k) with h | h
    · rw [h, Nat.mul_one] at h1; exact absurd h1 hp.ne
    · exact h
  rcases (Nat.Prime.dvd_mul Nat.prime_two).1 (by rw [h2]; exact dvd_pow_self 2 hk : 2 ∣ r * s) with h | h
  · have := Nat.dvd_gcd h ep
    rw [c1] at this; omega
  · have := Nat.dvd_gcd h eq
    rw [c2] at this; omega

theorem dvd_eq {l : ℕ} (h0 : 0 < l) (h : l < 2 ^ 64) (hd : 2 ^ 63 ∣ l) : l = 2 ^ 63 := by
  obtain ⟨k, rfl⟩ := hd
  have : k = 1 := by omega
  rw [this, Nat.mul_one]

theorem bind_congr' {α β : Type} {o : Option α} {f g : α → Option β} (h : ∀ a, o = some a → f a = g a) : o.bind f = o.bind g := by
  cases o with
  | none => rfl
  | some a => exact h a rfl

theorem bind_of_eq {α β : Type} {o : Option α} {a : α} (h : o = some a) (f : α → Option β) : o.bind f = f a := by rw [h]; rfl

theorem gcd_eq {n : ℤ} {d : ℕ} (hn : n ≠ 0) (h : -2 ^ 63 ≤ n ∧ n < 2 ^ 63) (hge : ¬ n.natAbs.gcd d < 2 ^ 63) : n.natAbs.gcd d = 2 ^ 63 ∧ n.natAbs = 2 ^ 63 := by
  have hle : n.natAbs.gcd d ≤ n.natAbs := Nat.gcd_le_left _ (Int.natAbs_pos.2 hn)
  omega

theorem fits_of_ckI {x y : ℤ} (h : ckI x = some y) : y = x ∧ -2 ^ 63 ≤ y ∧ y < 2 ^ 63 := by
  have e := ckI_eq h
  rw [← e] at h
  exact ⟨e, ckI_some.1 h⟩

theorem fits_of_ckU {x y : ℕ} (h : ckU x = some y) : y = x ∧ y < 2 ^ 64 := by
  have e := ckU_eq h
  rw [← e] at h
  exact ⟨e, ckU_some.1 h⟩

theorem reduce_debug_add {n : ℤ} {da db l : ℕ} (hn : n ≠ 0) (h : -2 ^ 63 ≤ n ∧ n < 2 ^ 63) (hl : l = da.lcm db) (hl1 : l < 2 ^ 64) (pa : 0 < da) (pb : 0 < db)
    (ha : da < 2 ^ 63) (hb : db < 2 ^ 63) : Build.reduce ⟨n, l⟩ = Q64.reduce ⟨n, l⟩ := by
  apply Build.reduce_eq
  by_contra hge
  obtain ⟨e1, -⟩ := gcd_eq hn h hge
  have hdv : 2 ^ 63 ∣ l := by
    rw [← e1]; exact Nat.gcd_dvd_right _ _
  have := dvd_eq (by rw [hl]; exact Nat.lcm_pos pa pb) hl1 hdv
  rw [hl] at this
  exact lcm_ne ha hb this

theorem reduce_debug_mul {n : ℤ} {d : ℕ} {a b : Q} (ha : a.Valid) (hb : b.Valid) (h : -2 ^ 63 ≤ n ∧ n < 2 ^ 63) (hn : n = a.num * b.num) (hd : d = a.den * b.den)
    (hd1 : d < 2 ^ 64) (da : a.den < 2 ^ 63) (db : b.den < 2 ^ 63) : Build.reduce ⟨n, d⟩ = Q64.reduce ⟨n, d⟩ := by
  apply Build.reduce_eq
  by_contra hge
  obtain ⟨e1, e2⟩ := gcd_eq (by rw [hn]; exact mul_ne_zero ha.1 hb.1) h hge
  have hdv : 2 ^ 63 ∣ d := by
    rw [← e1]; exact Nat.gcd_dvd_right _ _
  have e3 := dvd_eq (by rw [hd]; exact Nat.mul_pos ha.2.1 hb.2.1) hd1 hdv
  rw [hd] at e3
  rw [hn, Int.natAbs_mul] at e2
  exact odd_contra (by decide) e3 e2 da db ha.2.2 hb.2.2

theorem add_debug {a b : Q} (ha : a.Valid) (hb : b.Valid) (da : a.den < 2 ^ 63) (db : b.den < 2 ^ 63) :
    Build.add .debug a b = Q64.add a b := by
  have hlcm : a.den * (b.den / Nat.gcd a.den b.den) = Nat.lcm a.den b.den := by
    rw [← Nat.mul_div_assoc _ (Nat.gcd_dvd_right a.den b.den)]; rfl
  have e1 : Nat.lcm a.den b.den / a.den ≤ b.den :=
    Nat.div_le_of_le_mul (Nat.le_of_dvd (Nat.mul_pos ha.2.1 hb.2.1) (Nat.lcm_dvd_mul _ _))
  have e2 : Nat.lcm a.den b.den / b.den ≤ a.den :=
    Nat.div_le_of_le_mul (by rw [Nat.mul_comm]; exact Nat.le_of_dvd (Nat.mul_pos ha.2.1 hb.2.1) (Nat.lcm_dvd_mul _ _))
  have hl : Build.lcm .debug a.den b.den = ckU (Nat.lcm a.den b.den) := by
    unfold Build.lcm
    rw [if_neg (fun h => ha.2.1.ne' h.1), hlcm]; rfl
  unfold Build.add Q64.add
  rw [hl]
  apply bind_congr'
  intro l h1
  obtain ⟨h1, h1'⟩ := fits_of_ckU h1
  have z : ¬ (a.den = 0 ∨ b.den = 0) := fun h => h.elim ha.2.1.ne' hb.2.1.ne'
  rw [if_neg z]
  have f1 : divU l a.den = some (l / a.den) := by unfold divU; rw [if_neg ha.2.1.ne']
  have f2 : divU l b.den = some (l / b.den) := by unfold divU; rw [if_neg hb.2.1.ne']
  have f3 : castI (l / a.den) = some (asIsize (l / a.den)) := castI_of' (by rw [h1]; exact lt_of_le_of_lt e1 db)
  have f4 : castI (l / b.den) = some (asIsize (l / b.den)) := castI_of' (by rw [h1]; exact lt_of_le_of_lt e2 da)
  show (divU l a.den).bind _ = (castI (l / a.den)).bind _
  refine (bind_of_eq f1 _).trans (Eq.trans ?_ (bind_of_eq f3 _).symm)
  show (ckI _).bind _ = (ckI _).bind _
  apply bind_congr'
  intro x hx
  show (divU l b.den).bind _ = (castI (l / b.den)).bind _
  refine (bind_of_eq f2 _).trans (Eq.trans ?_ (bind_of_eq f4 _).symm)
  show (ckI _).bind _ = (ckI _).bind _
  apply bind_congr'
  intro y hy
  show (ckI _).bind _ = (ckI _).bind _
  apply bind_congr'
  intro n hn
  by_cases h0 : n = 0
  · rw [if_pos h0, if_pos h0]
  · rw [if_neg h0, if_neg h0, reduce_debug_add h0 (fits_of_ckI hn).2 h1 h1' ha.2.1 hb.2.1 da db]

theorem mul_debug {a b : Q} (ha : a.Valid) (hb : b.Valid) (da : a.den < 2 ^ 63) (db : b.den < 2 ^ 63) :
    Build.mul .debug a b = Q64.mul a b := by
  unfold Build.mul Q64.mul
  show (ckI _).bind _ = (ckI _).bind _
  apply bind_congr'
  intro n hn
  show (ckU _).bind _ = (ckU _).bind _
  apply bind_congr'
  intro d hd
  obtain ⟨h1, h2⟩ := fits_of_ckI hn
  obtain ⟨h3, h4⟩ := fits_of_ckU hd
  exact reduce_debug_mul ha hb h2 h1 h3 h4 da db

theorem neg_debug (a : Q) : Build.neg .debug a = Q64.neg a := by
  unfold Build.neg Q64.neg
  simp only [Build.isize, Option.bind_eq_bind]
  cases ckI (-a.num) <;> rfl

theorem inv_debug {a : Q} (da : a.den < 2 ^ 63) : Build.inv .debug a = Q64.inv a := by
  unfold Build.inv Q64.inv
  rw [castI_of' da]
  simp only [Build.isize, Option.bind_eq_bind, Option.bind_some]
  cases ckI (a.num.sign * asIsize a.den) <;> rfl

end Q64

/-- C68: in a debug build, an operation on values in lowest terms with denominators below `2^63` panics or is exact rational arithmetic
(`+` returns `None` exactly for a zero sum). -/
theorem C68_debug_exact (a b : Q) (ha : a.num ≠ 0 ∧ 0 < a.den ∧ a.num.natAbs.gcd a.den = 1) (hb : b.num ≠ 0 ∧ 0 < b.den ∧ b.num.natAbs.gcd b.den = 1)
    (da : a.den < 2 ^ 63) (db : b.den < 2 ^ 63) :
    (∀ r, Build.add .debug a b = some r →
      (r = none ↔ (a.num / a.den + b.num / b.den : ℚ) = 0) ∧ ∀ c, r = some c → (c.num / c.den : ℚ) = a.num / a.den + b.num / b.den) ∧
    (∀ c, Build.mul .debug a b = some c → (c.num / c.den : ℚ) = (a.num / a.den) * (b.num / b.den)) ∧
    (∀ c, Build.neg .debug a = some c → (c.num / c.den : ℚ) = -(a.num / a.den)) ∧
    (∀ c, Build.inv .debug a = some c → (c.num / c.den : ℚ) = (a.num / a.den : ℚ)⁻¹) := by
  have ha' : a.Valid := ha
  have hb' : b.Valid := hb
  have hadd := Q.add_ok (a := a) (b := b) ha hb
  obtain ⟨g1, g2, g3, g4⟩ := C03_no_overflow_agree a b
  rw [add_debug ha' hb' da db, mul_debug ha' hb' da db, neg_debug, inv_debug da]
  refine ⟨?_, ?_, ?_, ?_⟩
  · intro r h
    rw [g1 r h] at hadd
    cases r with
    | none => simp only [Option.elim_none, Q.toRat] at hadd; simp [← hadd.2]
    | some c =>
      have hc := hadd.1 c rfl
      have h0 := Q.Valid.toRat_ne hc
      simp only [Option.elim_some] at hadd
      have h2 := hadd.2
      rw [h2] at h0
      simp only [Q.toRat] at h0 h2
      refine ⟨by simp [h0], ?_⟩
      intro c' hc'; cases hc'; exact h2
  · intro c h; rw [← g2 c h]; exact (Q.mul_ok (a := a) (b := b) ha hb).2
  · intro c h; rw [← g3 c h]; exact (Q.neg_ok (a := a) ha).2
  · intro c h; rw [← g4 c h]; exact (Q.inv_ok (a := a) ha).2

/-- Values obtainable from `one` in a build of the library, by operations that do not panic. -/
inductive Q64.Build.Reach (B : Build) : Q → Prop
  | one : Reach B Q64.one
  | add {a b c} : Reach B a → Reach B b → Build.add B a b = some (some c) → Reach B c
  | mul {a b c} : Reach B a → Reach B b → Build.mul B a b = some c → Reach B c
  | neg {a c} : Reach B a → Build.neg B a = some c → Reach B c
  | inv {a c} : Reach B a → Build.inv B a = some c → Reach B c

theorem Q64.reach_two_pow (B : Build) : Build.Reach B ⟨1, 2 ^ 63⟩ ∧ Build.Reach B ⟨4294967296, 1⟩ := by
  have h1 : Build.Reach B ⟨1, 1⟩ := Build.Reach.one
  have h2 : Build.Reach B ⟨2, 1⟩ := Build.Reach.add h1 h1 (by cases B <;> decide)
  have h4 : Build.Reach B ⟨4, 1⟩ := Build.Reach.mul h2 h2 (by cases B <;> decide)
  have h8 : Build.Reach B ⟨16, 1⟩ := Build.Reach.mul h4 h4 (by cases B <;> decide)
  have h16 : Build.Reach B ⟨256, 1⟩ := Build.Reach.mul h8 h8 (by cases B <;> decide)
  have h32 : Build.Reach B ⟨65536, 1⟩ := Build.Reach.mul h16 h16 (by cases B <;> decide +kernel)
  have h64 : Build.Reach B ⟨4294967296, 1⟩ := Build.Reach.mul h32 h32 (by cases B <;> decide +kernel)
  have i32 : Build.Reach B ⟨1, 4294967296⟩ := Build.Reach.inv h64 (by cases B <;> decide +kernel)
  have j2 : Build.Reach B ⟨1, 2147483648⟩ := Build.Reach.mul i32 h2 (by cases B <;> decide +kernel)
  exact ⟨Build.Reach.mul i32 j2 (by cases B <;> decide +kernel), h64⟩

/-- C68, the bound is sharp and the library's own values reach it: in a debug build, without any panic, `1/2^63` has the inverse `-2^63` and
`1 + 1/2^63` is negative; `-2^63 * 1/2^63` is `1`. In a release build `2^32 * 2^32` is a coefficient with value zero, and `2^62 + 2^62` is negative. -/
theorem C68_silently_wrong :
    (∃ a, Build.Reach .debug a ∧ (a.num / a.den : ℚ) = 1 / 2 ^ 63 ∧ ∃ c, Build.inv .debug a = some c ∧ (c.num / c.den : ℚ) = -2 ^ 63 ∧
      ∃ p, Build.mul .debug c a = some p ∧ (p.num / p.den : ℚ) = 1) ∧
    (∃ a b, Build.Reach .debug a ∧ Build.Reach .debug b ∧ 0 < (a.num / a.den : ℚ) ∧ 0 < (b.num / b.den : ℚ) ∧
      ∃ c, Build.add .debug a b = some (some c) ∧ (c.num / c.den : ℚ) < 0) ∧
    (∃ a, Build.Reach .release a ∧ 0 < (a.num / a.den : ℚ) ∧ ∃ c, Build.mul .release a a = some c ∧ (c.num / c.den : ℚ) = 0) := by
  refine ⟨⟨_, (reach_two_pow .debug).1, by norm_num, ⟨-2 ^ 63, 1⟩, by decide +kernel, by norm_num, ⟨1, 1⟩, by decide +kernel, by norm_num⟩,
    ⟨⟨1, 1⟩, _, Build.Reach.one, (reach_two_pow .debug).1, by norm_num, by norm_num, ⟨-9223372036854775807, 9223372036854775808⟩, by decide +kernel, by norm_num⟩,
    ⟨_, (reach_two_pow .release).2, by norm_num, ⟨0, 1⟩, by decide +kernel, by norm_num⟩⟩

/-- The hypotheses of `C68_debug_exact` are met by `3/4` and `-1/6`; the sum is `7/12`. -/
example : Build.add .debug ⟨3, 4⟩ ⟨-1, 6⟩ = some (some ⟨7, 12⟩) ∧ Build.mul .debug ⟨3, 4⟩ ⟨-1, 6⟩ = some ⟨-1, 8⟩ ∧
    Build.inv .debug ⟨-1, 6⟩ = some ⟨-6, 1⟩ := by decide +kernel

end Phlite
