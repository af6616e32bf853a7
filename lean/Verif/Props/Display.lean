/-
Property theorems C85: the numbers that the Rips program prints.
-/
import Verif.Spec.Display
import Verif.Proofs.Display
import Verif.Props.RipsText

set_option linter.unusedSectionVars false
set_option linter.unusedSimpArgs false

namespace Phlite

/-! ### Text -/

theorem digits_numeral {k : ℕ} (hk : 1 ≤ k) : ∃ ds, IsDigits (toString k).toList ds ∧ ds ≠ [] ∧ ds.head? ≠ some 0 ∧ ds.getLast? = some (k % 10) ∧ Nat.ofDigits 10 ds.reverse = k := by
  rw [Nat.toString_eq_repr, Nat.toList_repr]
  induction k using Nat.strong_induction_on with
  | _ k ih =>
    rcases Nat.lt_or_ge k 10 with h | h
    · refine ⟨[k], ⟨by simpa using h, Nat.toDigits_of_lt_base h⟩, by simp, ?_, ?_, by simp⟩
      · simp; omega
      · simp; omega
    · obtain ⟨ds, ⟨h1, h2⟩, h3, h4, -, h6⟩ := ih (k / 10) (by omega) (by omega)
      refine ⟨ds ++ [k % 10], ⟨?_, ?_⟩, by simp, ?_, by simp, ?_⟩
      · intro d hd
        rcases List.mem_append.1 hd with hd | hd
        · exact h1 d hd
        · rw [List.mem_singleton.1 hd]; omega
      · rw [Nat.toDigits_of_base_le (by omega) h, h2, List.map_append]
        rfl
      · cases ds with
        | nil => exact absurd rfl h3
        | cons a l => simpa using h4
      · rw [List.reverse_append, List.reverse_singleton, List.singleton_append, Nat.ofDigits_cons, h6]
        omega

theorem zeros_digits (n : ℕ) : IsDigits (zeros n).toList (List.replicate n 0) := by
  refine ⟨fun d hd => by rw [List.eq_of_mem_replicate hd]; norm_num, ?_⟩
  unfold zeros
  rw [String.toList_ofList, List.map_replicate]
  rfl

theorem ofDigits_zeros (n : ℕ) (l : List ℕ) : Nat.ofDigits 10 (List.replicate n 0 ++ l) = 10 ^ n * Nat.ofDigits 10 l := by
  induction n with
  | zero => simp
  | succ n ih => rw [List.replicate_succ, List.cons_append, Nat.ofDigits_cons, ih, pow_succ]; ring

theorem ofDigits_zeros' (n : ℕ) (l : List ℕ) : Nat.ofDigits 10 (l ++ List.replicate n 0) = Nat.ofDigits 10 l := by
  rw [Nat.ofDigits_append]
  have := ofDigits_zeros n []
  rw [List.append_nil] at this
  rw [this]
  simp

/-- Positional notation. -/
theorem positional_spec {c : ℕ} (hc : 1 ≤ c) {e : ℤ} (he : e < 0 → c % 10 ≠ 0) :
    ∃ before is after fs, IsDigits before is ∧ IsDigits after fs ∧ is ≠ [] ∧ (is = [0] ∨ is.head? ≠ some 0) ∧ fs.getLast? ≠ some 0 ∧
      (positional c e).toList = before ++ (if fs = [] then [] else '.' :: after) ∧ (c : ℚ) * 10 ^ e = ((Nat.ofDigits 10 (is ++ fs).reverse : ℕ) : ℚ) * 10 ^ (-(fs.length : ℤ)) := by
  obtain ⟨ds, h1, h2, h3, h4, h5⟩ := digits_numeral hc
  have hlen := h1.length
  unfold positional
  dsimp only
  by_cases h0 : 0 ≤ e
  · rw [if_pos h0]
    obtain ⟨n, rfl⟩ := Int.eq_ofNat_of_zero_le h0
    refine ⟨_, ds ++ List.replicate n 0, [], [], h1.append (zeros_digits n), ⟨by simp, rfl⟩, by simp [h2], Or.inr ?_, by simp, ?_, ?_⟩
    · cases ds with
      | nil => exact absurd rfl h2
      | cons a l => simpa using h3
    · simp
    · rw [List.append_nil, List.reverse_append, List.reverse_replicate, ofDigits_zeros, h5]
      simp
      ring
  · rw [if_neg h0]
    obtain ⟨f, hf⟩ := Int.eq_ofNat_of_zero_le (show 0 ≤ -e by omega)
    have hef : e = -(f : ℤ) := by omega
    have hf1 : 1 ≤ f := by omega
    have hlast := he (by omega)
    subst hef
    simp only [neg_neg, Int.toNat_natCast]
    by_cases hl : (toString c).toList.length ≤ f
    · rw [if_pos hl]
      refine ⟨['0'], [0], _, List.replicate (f - (toString c).toList.length) 0 ++ ds, ⟨by simp, rfl⟩, (zeros_digits _).append h1, by simp, Or.inl rfl, ?_, ?_, ?_⟩
      · rw [List.getLast?_append, h4]
        simpa using hlast
      · rw [if_neg (by simp [h2]), String.toList_append, String.toList_append]
        rfl
      · have : ([0] ++ (List.replicate (f - (toString c).toList.length) 0 ++ ds)).reverse = ds.reverse ++ List.replicate (f - (toString c).toList.length + 1) 0 := by
          rw [← List.append_assoc, List.reverse_append, show [0] ++ List.replicate (f - (toString c).toList.length) 0 = List.replicate (f - (toString c).toList.length + 1) 0 from rfl,
            List.reverse_replicate]
        rw [this, ofDigits_zeros', h5]
        congr 2
        simp only [List.length_append, List.length_replicate, Nat.cast_add]
        omega
    · rw [if_neg hl]
      have hl' : f < ds.length := by rw [← hlen]; omega
      obtain ⟨hb, hm⟩ := h1
      rw [hlen]
      refine ⟨_, ds.take (ds.length - f), _, ds.drop (ds.length - f), ⟨fun d hd => hb d (List.mem_of_mem_take hd), rfl⟩, ⟨fun d hd => hb d (List.mem_of_mem_drop hd), rfl⟩, ?_, Or.inr ?_, ?_, ?_, ?_⟩
      · intro h
        have := congrArg List.length h
        simp at this
        omega
      · rw [List.head?_take, if_neg (by omega)]
        exact h3
      · rw [List.getLast?_drop, if_neg (by omega), h4]
        simpa using hlast
      · rw [if_neg (by intro h; have := congrArg List.length h; simp at this; omega), String.toList_append, String.toList_append, String.toList_ofList, String.toList_ofList, hm,
          List.map_take, List.map_drop]
        simp
      · rw [List.take_append_drop, h5]
        congr 2
        simp only [List.length_drop]
        omega

/-! ### Signs -/

/-- The negative of a finite number. -/
theorem neg_exists {b : NotNan} {y : ℚ} (h : b.HasValue y) : ∃ b' : NotNan, b'.HasValue (-y) := by
  obtain ⟨z, h1, rfl⟩ := h
  obtain ⟨h2, h3⟩ := b.2 z h1
  refine ⟨⟨F64Value.fin (-z), fun z' hz' => ?_⟩, -z, rfl, ?_⟩
  · have : -z = z' := WithTop.coe_injective (WithBot.coe_injective hz')
    subst this
    rw [Int.natAbs_neg]
    exact ⟨h2, h3⟩
  · unfold F64Value.real
    push_cast
    ring

theorem bounds_neg {T x : ℚ} (h2 : x < T) (h3 : -T < x) : -x < T ∧ -T < -x := ⟨neg_lt.1 h3, neg_lt_neg h2⟩

theorem IsRounded.neg {v w : NotNan} {y x : ℚ} (hv : v.HasValue y) (hw : w.HasValue (-y)) (h : IsRounded x v) : IsRounded (-x) w := by
  obtain ⟨z, hz, hzy⟩ := hv
  rcases h with ⟨y', h1, ⟨h2, h3⟩, h4⟩ | ⟨h1, -⟩ | ⟨h1, -⟩
  · have hyy : y' = y := by
      obtain ⟨a, ha, rfl⟩ := h1
      rw [hz] at ha
      have : z = a := WithTop.coe_injective (WithBot.coe_injective ha)
      rw [← this, hzy]
    subst hyy
    unfold IsRounded
    have hb := bounds_neg h2 h3
    left
    refine ⟨-y', hw, hb, ?_⟩
    clear hb h2 h3
    intro b' t hb'
    obtain ⟨b'', hb''⟩ := neg_exists hb'
    obtain ⟨h5, h6⟩ := h4 b'' (-t) hb''
    have e1 : distQ (-x) t = distQ x (-t) := by rw [← distQ_neg, neg_neg]
    rw [distQ_neg, e1]
    refine ⟨h5, fun h7 h8 => ?_⟩
    obtain ⟨k, hk⟩ := h6 h7 (fun h => h8 (by rw [← h, neg_neg]))
    exact ⟨k, by linear_combination -hk⟩
  · rw [h1] at hz
    exact absurd (WithBot.coe_injective hz) (by exact WithTop.top_ne_coe)
  · rw [h1] at hz
    exact absurd hz WithBot.bot_ne_coe

/-! ### C85 -/

/-- The positive case. -/
theorem shortest_pos {v : NotNan} {n : ℕ} (hv : v.1 = F64Value.fin (n : ℤ)) (hn : 0 < n) {y : ℚ} (hy : v.HasValue y) :
    1 ≤ (shortest n).1 ∧ (0 : ℚ) < (shortest n).1 * 10 ^ (shortest n).2 ∧ ((shortest n).1 % 10 ≠ 0) ∧
    IsRounded ((shortest n).1 * 10 ^ (shortest n).2) v ∧ ∀ c' e' : ℤ, IsRounded (c' * 10 ^ e') v →
      (∀ j : ℕ, |c'| < 10 ^ j → |((shortest n).1 : ℤ)| < 10 ^ j) ∧
      ((∀ j : ℕ, |((shortest n).1 : ℤ)| < 10 ^ j → |c'| < 10 ^ j) → distQ y ((shortest n).1 * 10 ^ (shortest n).2) ≤ distQ y (c' * 10 ^ e')) := by
  obtain ⟨h1, h2, h3⟩ := shortest_spec hv hn hy
  refine ⟨h1, ?_, ?_, h2, fun c' e' hr => ?_⟩
  · have : (0 : ℚ) < (shortest n).1 := by exact_mod_cast h1
    exact mul_pos this (zpow_pos (by norm_num) _)
  · intro h10
    obtain ⟨c, hc⟩ := Nat.dvd_of_mod_eq_zero h10
    have h4 : IsRounded ((c : ℚ) * 10 ^ ((shortest n).2 + 1)) v := by
      rw [hc] at h2
      have : ((10 * c : ℕ) : ℚ) * 10 ^ (shortest n).2 = (c : ℚ) * 10 ^ ((shortest n).2 + 1) := by
        rw [zpow_add₀ (by norm_num), zpow_one]
        push_cast
        ring
      rwa [this] at h2
    have h5 := (h3 c _ h4).1
    rw [hc] at h1 h5
    have key : ∀ j, ¬ c < 10 ^ j := by
      intro j
      induction j with
      | zero => intro h; simp at h; omega
      | succ j ih =>
        intro h
        have := h5 _ h
        rw [pow_succ] at this
        exact ih (by omega)
    exact key c (Nat.lt_pow_self (by norm_num))
  · have hc0 : 0 ≤ c' := by
      by_contra hlt
      push Not at hlt
      have h0 : (0 : NotNan).HasValue 0 := ⟨0, rfl, by simp [F64Value.real]⟩
      have h4 : (c' : ℚ) * 10 ^ e' ≤ 0 := by
        have : (c' : ℚ) < 0 := by exact_mod_cast hlt
        have h5 : (0 : ℚ) < 10 ^ e' := by positivity
        nlinarith
      have h5 := C82_order hr (IsRounded.self h0) h4
      have h6 : v.1 ≤ F64Value.fin 0 := h5
      rw [hv, WithBot.coe_le_coe, WithTop.coe_le_coe] at h6
      omega
    obtain ⟨c, rfl⟩ := Int.eq_ofNat_of_zero_le hc0
    rw [Int.cast_natCast] at hr ⊢
    obtain ⟨h4, h5⟩ := h3 c e' hr
    have hcast : ∀ (a j : ℕ), |(a : ℤ)| < 10 ^ j ↔ a < 10 ^ j := by
      intro a j
      rw [Nat.abs_cast]
      exact_mod_cast Iff.rfl
    simp only [hcast]
    exact ⟨h4, h5⟩

/-- C85: a finite number is printed as a shortest decimal number, the nearest one of those, without an exponent. -/
theorem C85_shortest {v : NotNan} {y : ℚ} (hy : v.HasValue y) : ∃ x, IsPlainText (displayF64 v) x ∧ IsShortest v y x := by
  obtain ⟨z, hz, hzy⟩ := hy
  rcases lt_trichotomy z 0 with h | h | h
  · obtain ⟨w, hw⟩ := neg_exists ⟨z, hz, hzy⟩
    have hwz : w.1 = F64Value.fin (z.natAbs : ℤ) := by
      obtain ⟨z', h1, h2⟩ := hw
      rw [h1]
      have : z' = -z := by
        rw [← hzy] at h2
        unfold F64Value.real at h2
        have h3 : (z' : ℚ) = -z := by
          have h4 : (2 : ℚ) ^ 1074 ≠ 0 := by positivity
          generalize (2 : ℚ) ^ 1074 = t at *
          field_simp at h2
          exact h2
        exact_mod_cast h3
      rw [this]
      congr 2
      omega
    obtain ⟨h1, h2, h3, h4, h5⟩ := shortest_pos hwz (by omega) hw
    obtain ⟨before, is, after, fs, p1, p2, p3, p4, p5, p6, p7⟩ := positional_spec h1 (e := (shortest z.natAbs).2) (fun _ => h3)
    have hw' : v.HasValue (- -y) := by rw [neg_neg]; exact ⟨z, hz, hzy⟩
    refine ⟨-((shortest z.natAbs).1 * 10 ^ (shortest z.natAbs).2), ⟨before, is, after, fs, p1, p2, p3, p4, p5, ?_, ?_⟩, -((shortest z.natAbs).1 : ℤ), (shortest z.natAbs).2, ?_, h4.neg hw hw', ?_⟩
    · rw [if_pos (by linarith)]
      have : displayF64 v = "-" ++ displayFinite z.natAbs := by
        unfold displayF64
        rw [hz]
        show (if z = 0 then _ else if z < 0 then _ else _) = _
        rw [if_neg (by omega), if_pos h]
      rw [this, String.toList_append]
      unfold displayFinite
      rw [p6, List.append_assoc]
      rfl
    · rw [abs_neg, abs_of_pos h2, p7]
    · push_cast; ring
    · intro c' e' hr
      have hr' : IsRounded (((-c' : ℤ) : ℚ) * 10 ^ e') w := by
        have := hr.neg ⟨z, hz, hzy⟩ hw
        rw [show ((-c' : ℤ) : ℚ) * 10 ^ e' = -(c' * 10 ^ e') by push_cast; ring]
        exact this
      obtain ⟨h6, h7⟩ := h5 _ _ hr'
      rw [abs_neg] at h6 h7
      rw [abs_neg]
      refine ⟨h6, fun h8 => ?_⟩
      have h9 := h7 h8
      rw [show ((-c' : ℤ) : ℚ) * 10 ^ e' = -(c' * 10 ^ e') by push_cast; ring, distQ_neg] at h9
      rw [← distQ_neg, neg_neg]
      exact h9
  · subst h
    have hy0 : y = 0 := by rw [← hzy]; simp [F64Value.real]
    subst hy0
    refine ⟨0, ⟨['0'], [0], [], [], ⟨by simp, rfl⟩, ⟨by simp, rfl⟩, by simp, Or.inl rfl, by simp, ?_, by simp⟩, 0, 0, by simp, IsRounded.self ⟨0, hz, hzy⟩, fun c' e' _ => ⟨fun j _ => by simp, fun _ => ?_⟩⟩
    · have : displayF64 v = "0" := by
        unfold displayF64
        rw [hz]
        rfl
      rw [this]
      simp
    · unfold distQ
      rw [sub_self, abs_zero]
      exact abs_nonneg _
  · have hwz : v.1 = F64Value.fin (z.natAbs : ℤ) := by
      rw [hz]; congr 2; omega
    obtain ⟨h1, h2, h3, h4, h5⟩ := shortest_pos hwz (by omega) ⟨z, hz, hzy⟩
    obtain ⟨before, is, after, fs, p1, p2, p3, p4, p5, p6, p7⟩ := positional_spec h1 (e := (shortest z.natAbs).2) (fun _ => h3)
    refine ⟨(shortest z.natAbs).1 * 10 ^ (shortest z.natAbs).2, ⟨before, is, after, fs, p1, p2, p3, p4, p5, ?_, ?_⟩, ((shortest z.natAbs).1 : ℤ), (shortest z.natAbs).2, ?_, h4, h5⟩
    · rw [if_neg (by linarith)]
      have : displayF64 v = displayFinite z.natAbs := by
        unfold displayF64
        rw [hz]
        show (if z = 0 then _ else if z < 0 then _ else _) = _
        rw [if_neg (by omega), if_neg (by omega)]
      rw [this]
      unfold displayFinite
      rw [p6]
      rfl
    · rw [abs_of_pos h2, p7]
    · push_cast; ring

theorem IsPlainText.decimal {s : String} {x : ℚ} (h : IsPlainText s x) : IsDecimal s x := by
  obtain ⟨before, is, after, fs, h1, h2, h3, -, -, h4, h5⟩ := h
  refine ⟨if x < 0 then ['-'] else [], if x < 0 then -1 else 1, before, is, if fs = [] then [] else ['.'], after, fs, [], 0, ?_, h1, h2, Or.inl ⟨rfl, rfl⟩, Or.inl h3, ?_, ?_, ?_⟩
  · split
    · exact Or.inr (Or.inr ⟨rfl, rfl⟩)
    · exact Or.inl ⟨rfl, rfl⟩
  · split
    · exact Or.inr ⟨rfl, by assumption⟩
    · exact Or.inl rfl
  · rw [h4]
    split
    all_goals split
    all_goals simp
    all_goals
      rename_i h6
      exact h2.eq_nil.2 h6
  · rw [zero_sub, mul_assoc, ← h5]
    split
    · rename_i h6
      rw [abs_of_neg h6]; simp
    · rename_i h6
      rw [abs_of_nonneg (not_lt.1 h6)]; simp

/-- C85: every number that is printed is read back as the same number; infinite numbers are printed as `inf` and `-inf`. -/
theorem C85_reads_back : ReadsBack displayF64 ∧ displayF64 ⟨_, isF64_top⟩ = "inf" ∧ displayF64 ⟨⊥, isF64_bot⟩ = "-inf" := by
  have hinf : IsWord "inf" "inf" 1 := ⟨[], "inf".toList, by simp [IsSign], by decide, by simp⟩
  have hinf' : IsWord "inf" "-inf" (-1) := ⟨['-'], "inf".toList, by simp [IsSign], by decide, by decide⟩
  refine ⟨fun v => ?_, rfl, rfl⟩
  rw [(C82_entry _).1]
  obtain ⟨v, hv⟩ := v
  match v, hv with
  | none, hv => exact Or.inr (Or.inr ⟨Or.inl hinf', rfl⟩)
  | some none, hv => exact Or.inr (Or.inl ⟨Or.inl hinf, rfl⟩)
  | some (some z), hv =>
    obtain ⟨x, h1, c, e, h2, h3, -⟩ := C85_shortest (v := ⟨F64Value.fin z, hv⟩) ⟨z, rfl, rfl⟩
    exact Or.inl ⟨x, h1.decimal, h3⟩

/-- C85: the text without an exponent is determined by the number. -/
theorem C85_text {s s' : String} {x : ℚ} (h : IsPlainText s x) (h' : IsPlainText s' x) : s = s' := by
  obtain ⟨before, is, after, fs, h1, h2, h3, h4, h5, h6, h7⟩ := h
  obtain ⟨before', is', after', fs', h1', h2', h3', h4', h5', h6', h7'⟩ := h'
  -- the number of digits after the point
  have key : ∀ {is fs is' fs' : List ℕ}, (∀ d ∈ fs', d < 10) → fs'.getLast? ≠ some 0 →
      ((Nat.ofDigits 10 (is ++ fs).reverse : ℕ) : ℚ) * 10 ^ (-(fs.length : ℤ)) = ((Nat.ofDigits 10 (is' ++ fs').reverse : ℕ) : ℚ) * 10 ^ (-(fs'.length : ℤ)) →
      fs'.length ≤ fs.length := by
    intro is fs is' fs' hd hl he
    by_contra hlt
    push Not at hlt
    obtain ⟨k, hk⟩ := Nat.exists_eq_add_of_lt hlt
    have h10 : (10 : ℚ) ^ (-(fs.length : ℤ)) = 10 ^ (k + 1) * 10 ^ (-(fs'.length : ℤ)) := by
      rw [← zpow_natCast, ← zpow_add₀ (by norm_num)]
      congr 1
      rw [hk]; push_cast; ring
    rw [h10, ← mul_assoc] at he
    have he' := mul_right_cancel₀ (zpow_ne_zero _ (by norm_num)) he
    have hn : Nat.ofDigits 10 (is ++ fs).reverse * 10 ^ (k + 1) = Nat.ofDigits 10 (is' ++ fs').reverse := by exact_mod_cast he'
    rcases List.eq_nil_or_concat fs' with rfl | ⟨l, d, rfl⟩
    · simp at hlt
    · rw [List.concat_eq_append] at *
      rw [List.getLast?_concat] at hl
      have hd10 := hd d (by simp)
      rw [← List.append_assoc, show (is' ++ l ++ [d]).reverse = d :: (is' ++ l).reverse by simp, Nat.ofDigits_cons, pow_succ, ← mul_assoc] at hn
      simp at hl
      omega
  have hlen : fs.length = fs'.length := le_antisymm (key h2.1 h5 (h7'.symm.trans h7)) (key h2'.1 h5' (h7.symm.trans h7'))
  have hN : Nat.ofDigits 10 (is ++ fs).reverse = Nat.ofDigits 10 (is' ++ fs').reverse := by
    have := h7.symm.trans h7'
    rw [hlen] at this
    exact_mod_cast mul_right_cancel₀ (zpow_ne_zero _ (by norm_num)) this
  rw [List.reverse_append, List.reverse_append, Nat.ofDigits_append, Nat.ofDigits_append, List.length_reverse, List.length_reverse, hlen] at hN
  have hlt : Nat.ofDigits 10 fs.reverse < 10 ^ fs'.length := by
    rw [← hlen, ← List.length_reverse]
    exact Nat.ofDigits_lt_base_pow_length (by norm_num) (fun d hd => h2.1 d (by simpa using hd))
  have hlt' : Nat.ofDigits 10 fs'.reverse < 10 ^ fs'.length := by
    rw [← List.length_reverse]
    exact Nat.ofDigits_lt_base_pow_length (by norm_num) (fun d hd => h2'.1 d (by simpa using hd))
  have hf : Nat.ofDigits 10 fs.reverse = Nat.ofDigits 10 fs'.reverse := by
    have := congrArg (· % 10 ^ fs'.length) hN
    simpa [Nat.add_mul_mod_self_left, Nat.mod_eq_of_lt hlt, Nat.mod_eq_of_lt hlt'] using this
  have hi : Nat.ofDigits 10 is.reverse = Nat.ofDigits 10 is'.reverse := by
    rw [hf] at hN
    exact Nat.eq_of_mul_eq_mul_left (by positivity) (Nat.add_left_cancel hN)
  have efs : fs = fs' := by
    have := Nat.ofDigits_inj_of_len_eq (b := 10) (by norm_num) (L1 := fs.reverse) (L2 := fs'.reverse) (by simpa using hlen) (fun d hd => h2.1 d (by simpa using hd))
      (fun d hd => h2'.1 d (by simpa using hd)) hf
    exact List.reverse_injective this
  have canon : ∀ {is : List ℕ}, is ≠ [] → (∀ d ∈ is, d < 10) → (is = [0] ∨ is.head? ≠ some 0) → is = if Nat.ofDigits 10 is.reverse = 0 then [0] else (Nat.digits 10 (Nat.ofDigits 10 is.reverse)).reverse := by
    intro is hne hd hc
    rcases hc with rfl | hc
    · simp
    · have hlast : ∀ h : is.reverse ≠ [], is.reverse.getLast h ≠ 0 := by
        intro h h0
        apply hc
        rw [List.getLast_reverse] at h0
        cases is with
        | nil => exact absurd rfl hne
        | cons a l => simpa using h0
      have hdig := Nat.digits_ofDigits 10 (by norm_num) is.reverse (fun d hd' => hd d (by simpa using hd')) hlast
      rw [hdig, List.reverse_reverse, if_neg]
      intro h0
      rw [h0] at hdig
      simp at hdig
      exact hne hdig
  have eis : is = is' := by
    rw [canon h3 h1.1 h4, canon h3' h1'.1 h4', hi]
  subst efs eis
  apply String.toList_injective
  rw [h6, h6', h1.2, h1'.2, h2.2, h2'.2]

section
variable [StdHeap] (CF : Type) [NonZeroCoeff CF]
  {enumE : Finset RipsIndexᵒᵈ → List RipsIndexᵒᵈ} {enumP : Finset (RipsIndexᵒᵈ × RipsIndexᵒᵈ) → List (RipsIndexᵒᵈ × RipsIndexᵒᵈ)}

/-- C85: what the program prints determines its report. -/
theorem C85_unambiguous {stdin stdin' : String} {args args' : List String} {fuel fuel' : ℕ} {report report' : RipsReport NotNan}
    (h : ripsProgram CF parseF64 enumE enumP (csvRecords stdin) args fuel = some report) (h' : ripsProgram CF parseF64 enumE enumP (csvRecords stdin') args' fuel' = some report')
    (he : ripsStdout CF displayF64 enumE enumP stdin args fuel = ripsStdout CF displayF64 enumE enumP stdin' args' fuel') : report = report' := by
  rw [stdout_some CF displayF64 h, stdout_some CF displayF64 h'] at he
  exact C84_unambiguous C85_reads_back.1 (congrArg Prod.fst he)

end

namespace DisplayExample

/-- The text of a number is read and printed. -/
def rt (s : String) : Option String := match parseF64 s with | some (some v) => some (displayF64 v) | _ => none

example : rt "0.1" = some "0.1" ∧ rt "-2.50" = some "-2.5" ∧ rt "1e2" = some "100" ∧ rt "00" = some "0" ∧ rt "0.333333333333333333333333" = some "0.3333333333333333" ∧
    rt "9007199254740993" = some "9007199254740992" ∧ rt "1e23" = some "100000000000000000000000" ∧ rt "0.30000000000000004" = some "0.30000000000000004" ∧
    rt "1E-7" = some "0.0000001" ∧ rt "INF" = some "inf" := by
  refine ⟨?_, ?_, ?_, ?_, ?_, ?_, ?_, ?_, ?_, ?_⟩ <;> decide +kernel

/-- The least positive numbers: 4.94…e-324 and 9.88…e-324. -/
example : shortest 1 = (5, -324) ∧ shortest 2 = (1, -323) ∧ shortest 3 = (15, -324) ∧ shortest ((2 ^ 53 - 1) * 2 ^ 2045) = (17976931348623157, 292) := by
  refine ⟨?_, ?_, ?_, ?_⟩ <;> decide +kernel

open RipsExample in
/-- A run with its text: three points. -/
example : (letI := listHeap; ripsStdout Z2 displayF64 enumE enumP "0,0.1,1e-1\n0.1,0,0.25\n0.1,0.25,0\n" ["phlite_rips", "1"] 30) =
    ("Basis sizes:\nDimension 0: 3\nDimension 1: 3\n\nEssential:\n dim=0, birth=Reverse(RipsIndex(1)), f=(0, ∞)\n\nPairings:\n" ++
     " dim=0, pair=(Reverse(RipsIndex(3)), Reverse(RipsIndex(13))), f=(0, 0.1)\n dim=0, pair=(Reverse(RipsIndex(2)), Reverse(RipsIndex(9))), f=(0, 0.1)\n", true) := by decide +kernel

/-- C85 applied. -/
example {v : NotNan} {y : ℚ} (hy : v.HasValue y) : ∃ x, IsPlainText (displayF64 v) x ∧ IsShortest v y x := C85_shortest hy
example : ∃ v : NotNan, v.HasValue 3 := ⟨_, CircleExample.round_exact (k := 3) (by norm_num)⟩

end DisplayExample

end Phlite
