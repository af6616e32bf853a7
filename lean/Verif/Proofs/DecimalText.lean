/-
Reading decimal numbers.
-/
import Verif.Spec.RipsText
import Verif.Props.RipsProgram

set_option linter.unusedSectionVars false
set_option linter.unusedSimpArgs false

namespace Phlite

theorem isDigits_of_all {cs : List Char} (h : cs.all (fun c => c.isDigit) = true) : ∃ ds, IsDigits cs ds := by
  obtain ⟨ds, h1, h2⟩ := chars_digits h
  exact ⟨ds, h1, h2⟩

theorem IsDigits.all {cs : List Char} {ds : List ℕ} (h : IsDigits cs ds) : ∀ c ∈ cs, c.isDigit = true := by
  obtain ⟨h1, rfl⟩ := h
  intro c hc
  obtain ⟨d, hd, rfl⟩ := List.mem_map.1 hc
  exact (digit_iff _).2 ⟨d, h1 d hd, rfl⟩

theorem IsDigits.value {cs : List Char} {ds : List ℕ} (h : IsDigits cs ds) : digitsValue cs = Nat.ofDigits 10 ds.reverse := by
  obtain ⟨h1, rfl⟩ := h
  unfold digitsValue
  rw [foldl_digits ds h1, Nat.ofDigits_append]
  simp

theorem IsDigits.append {cs cs' : List Char} {ds ds' : List ℕ} (h : IsDigits cs ds) (h' : IsDigits cs' ds') : IsDigits (cs ++ cs') (ds ++ ds') := by
  obtain ⟨h1, rfl⟩ := h
  obtain ⟨h2, rfl⟩ := h'
  refine ⟨fun d hd => ?_, by simp⟩
  rcases List.mem_append.1 hd with hd | hd
  · exact h1 d hd
  · exact h2 d hd

theorem IsDigits.eq_nil {cs : List Char} {ds : List ℕ} (h : IsDigits cs ds) : cs = [] ↔ ds = [] := by
  obtain ⟨h1, rfl⟩ := h
  simp

theorem IsDigits.length {cs : List Char} {ds : List ℕ} (h : IsDigits cs ds) : cs.length = ds.length := by
  obtain ⟨h1, rfl⟩ := h
  simp

theorem takeDigits {cs rest : List Char} (h : ∀ c ∈ cs, c.isDigit = true) (hr : ∀ c, rest.head? = some c → c.isDigit = false) :
    (cs ++ rest).takeWhile (fun c => c.isDigit) = cs ∧ (cs ++ rest).dropWhile (fun c => c.isDigit) = rest := by
  induction cs with
  | nil =>
    cases rest with
    | nil => exact ⟨rfl, rfl⟩
    | cons c rest =>
      have := hr c rfl
      simp [this]
  | cons c cs ih =>
    obtain ⟨h1, h2⟩ := ih fun c hc => h c (by simp [hc])
    have := h c (by simp)
    simp [this, h1, h2]

theorem parseDigitsOnly_iff (cs : List Char) (n : ℕ) : parseDigitsOnly cs = some n ↔ ∃ ds, IsDigits cs ds ∧ ds ≠ [] ∧ n = Nat.ofDigits 10 ds.reverse := by
  unfold parseDigitsOnly
  split
  · rename_i h
    constructor
    · intro h; cases h
    · rintro ⟨ds, h1, h2, _⟩
      rcases h with h | h
      · exact absurd (h1.eq_nil.1 h) h2
      · exact absurd (List.all_eq_true.2 h1.all) h
  · rename_i h
    push Not at h
    constructor
    · intro e
      obtain ⟨ds, hds⟩ := isDigits_of_all h.2
      cases e
      exact ⟨ds, hds, fun e => h.1 (hds.eq_nil.2 e), hds.value⟩
    · rintro ⟨ds, h1, _, rfl⟩
      rw [h1.value]

theorem digits_not_sign {cs rest : List Char} {ds : List ℕ} (h : IsDigits cs ds) : cs ≠ '-' :: rest ∧ cs ≠ '+' :: rest := by
  constructor
  · rintro rfl
    exact absurd (h.all '-' (by simp)) (by decide)
  · rintro rfl
    exact absurd (h.all '+' (by simp)) (by decide)

theorem parseExponent_iff (cs : List Char) (k : ℤ) : parseExponent cs = some k ↔
    ∃ sign τ digits ds, IsSign sign τ ∧ IsDigits digits ds ∧ ds ≠ [] ∧ cs = sign ++ digits ∧ k = τ * ((Nat.ofDigits 10 ds.reverse : ℕ) : ℤ) := by
  constructor
  · intro h
    unfold parseExponent at h
    split at h
    · obtain ⟨n, h1, rfl⟩ := Option.map_eq_some_iff.1 h
      obtain ⟨ds, h2, h3, rfl⟩ := (parseDigitsOnly_iff _ _).1 h1
      exact ⟨['-'], -1, _, ds, by simp [IsSign], h2, h3, rfl, by simp⟩
    · obtain ⟨n, h1, rfl⟩ := Option.map_eq_some_iff.1 h
      obtain ⟨ds, h2, h3, rfl⟩ := (parseDigitsOnly_iff _ _).1 h1
      exact ⟨['+'], 1, _, ds, by simp [IsSign], h2, h3, rfl, by simp⟩
    · obtain ⟨n, h1, rfl⟩ := Option.map_eq_some_iff.1 h
      obtain ⟨ds, h2, h3, rfl⟩ := (parseDigitsOnly_iff _ _).1 h1
      exact ⟨[], 1, _, ds, by simp [IsSign], h2, h3, rfl, by simp⟩
  · rintro ⟨sign, τ, digits, ds, h1, h2, h3, rfl, rfl⟩
    have h4 := (parseDigitsOnly_iff digits _).2 ⟨ds, h2, h3, rfl⟩
    rcases h1 with ⟨rfl, rfl⟩ | ⟨rfl, rfl⟩ | ⟨rfl, rfl⟩
    · rw [List.nil_append]
      unfold parseExponent
      split
      · exact absurd rfl (digits_not_sign h2).1
      · exact absurd rfl (digits_not_sign h2).2
      · rw [h4]; simp
    · unfold parseExponent
      simp [h4]
    · unfold parseExponent
      simp [h4]

/-- A number without a sign. -/
theorem parseNumber_iff (cs : List Char) (m : ℕ) (e : ℤ) : parseNumber cs = some (m, e) ↔
    ∃ before is point after fs exponent k, IsDigits before is ∧ IsDigits after fs ∧ IsExponent exponent k ∧ (is ≠ [] ∨ fs ≠ []) ∧
      (point = ['.'] ∨ (point = [] ∧ fs = [])) ∧ cs = before ++ point ++ after ++ exponent ∧ m = Nat.ofDigits 10 (is ++ fs).reverse ∧ e = k - fs.length := by
  constructor
  · intro h
    unfold parseNumber at h
    dsimp only at h
    obtain ⟨is, his⟩ := isDigits_of_all (cs := cs.takeWhile fun c => c.isDigit) List.all_takeWhile
    have hfr : ∃ point fs, IsDigits (parseFraction (cs.dropWhile fun c => c.isDigit)).1 fs ∧ (point = ['.'] ∨ (point = [] ∧ fs = [])) ∧
        cs.dropWhile (fun c => c.isDigit) = point ++ (parseFraction (cs.dropWhile fun c => c.isDigit)).1 ++ (parseFraction (cs.dropWhile fun c => c.isDigit)).2 := by
      unfold parseFraction
      split
      · rename_i r hr
        obtain ⟨fs, hfs⟩ := isDigits_of_all (cs := r.takeWhile fun c => c.isDigit) List.all_takeWhile
        exact ⟨['.'], fs, hfs, Or.inl rfl, by rw [hr]; simp [List.takeWhile_append_dropWhile]⟩
      · exact ⟨[], [], ⟨by simp, rfl⟩, Or.inr ⟨rfl, rfl⟩, by simp⟩
    obtain ⟨point, fs, hfs, hpoint, hcs⟩ := hfr
    have hcs' : cs = cs.takeWhile (fun c => c.isDigit) ++ point ++ (parseFraction (cs.dropWhile fun c => c.isDigit)).1 ++ (parseFraction (cs.dropWhile fun c => c.isDigit)).2 := by
      conv_lhs => rw [← List.takeWhile_append_dropWhile (p := fun c : Char => c.isDigit) (l := cs), hcs]
      simp [List.append_assoc]
    split at h
    · cases h
    · rename_i hne
      rw [his.eq_nil, hfs.eq_nil, not_and_or] at hne
      refine ⟨_, is, point, _, fs, _, e + fs.length, his, hfs, ?_, hne, hpoint, hcs', ?_⟩
      · split at h
        · rename_i hr
          cases h
          left
          exact ⟨hr, by rw [hfs.length]; ring⟩
        · rename_i c rest hr
          split at h
          · rename_i hc
            obtain ⟨k, hk, h⟩ := Option.map_eq_some_iff.1 h
            cases h
            obtain ⟨sign, τ, digits, ds, h1, h2, h3, rfl, rfl⟩ := (parseExponent_iff _ _).1 hk
            right
            exact ⟨c, sign, τ, digits, ds, hc, h1, h2, h3, hr, by rw [hfs.length]; ring⟩
          · cases h
      · have hv := (his.append hfs).value
        split at h
        · cases h; exact ⟨hv, by ring⟩
        · split at h
          · obtain ⟨k, hk, h⟩ := Option.map_eq_some_iff.1 h
            cases h; exact ⟨hv, by ring⟩
          · cases h
  · rintro ⟨before, is, point, after, fs, exponent, k, his, hfs, hexp, hne, hpoint, rfl, rfl, rfl⟩
    have hexp0 : ∀ c, exponent.head? = some c → c.isDigit = false := by
      intro c hc
      rcases hexp with ⟨rfl, _⟩ | ⟨c', _, _, _, _, h1, _, _, _, rfl, _⟩
      · cases hc
      · cases hc
        rcases h1 with rfl | rfl <;> decide
    have hexp1 : ∀ r, exponent ≠ '.' :: r := by
      intro r e
      rcases hexp with ⟨rfl, _⟩ | ⟨c', _, _, _, _, h1, _, _, _, rfl, _⟩
      · cases e
      · cases e
        rcases h1 with h1 | h1 <;> exact absurd h1 (by decide)
    have h1 : (before ++ point ++ after ++ exponent).takeWhile (fun c => c.isDigit) = before ∧ (before ++ point ++ after ++ exponent).dropWhile (fun c => c.isDigit) = point ++ after ++ exponent := by
      have := takeDigits (cs := before) (rest := point ++ after ++ exponent) his.all (by
        intro c hc
        rcases hpoint with rfl | ⟨rfl, rfl⟩
        · simp at hc; subst hc; decide
        · have : after = [] := hfs.eq_nil.2 rfl
          subst this
          exact hexp0 c (by simpa using hc))
      simpa [List.append_assoc] using this
    have h2 : parseFraction (point ++ after ++ exponent) = (after, exponent) := by
      rcases hpoint with rfl | ⟨rfl, rfl⟩
      · have := takeDigits (cs := after) (rest := exponent) hfs.all hexp0
        unfold parseFraction
        simp [this.1, this.2]
      · have : after = [] := hfs.eq_nil.2 rfl
        subst this
        rw [List.nil_append, List.nil_append]
        unfold parseFraction
        split
        · exact absurd rfl (hexp1 _)
        · rfl
    unfold parseNumber
    dsimp only
    rw [h1.1, h1.2, h2, if_neg (by rw [his.eq_nil, hfs.eq_nil, not_and_or]; exact hne)]
    dsimp only
    rw [(his.append hfs).value, hfs.length]
    rcases hexp with ⟨rfl, rfl⟩ | ⟨c', sign, τ, digits, ds, h3, h4, h5, h6, rfl, rfl⟩
    · simp
    · dsimp only
      rw [if_pos h3, (parseExponent_iff _ _).2 ⟨sign, τ, digits, ds, h4, h5, h6, rfl, rfl⟩]
      simp

end Phlite
