/-
The bottleneck distance of the barcodes of grounded persistent path homology of two filtrations of the same digraph is at most the distance of the filtrations.

The 2-cells of the two filtrations differ, so this is not a special case of `TwoDegrees.bottleneck`: between two points of the segment from one filtration to
the other without a change of the order of the arrows, both are images of the same filtration by monotone maps.
-/
import Verif.Theory.Bottleneck
import Verif.Theory.GrPPHInvariance

set_option linter.unusedSectionVars false
set_option linter.unusedSimpArgs false

namespace Phlite

section
variable {F : Type} [Field F] [LinearOrder F] [IsStrictOrderedRing F]

theorem BottleneckLE.add {δ : F} {A B A' B' : Multiset (F × WithTop F)} (h : BottleneckLE δ A B) (h' : BottleneckLE δ A' B') :
    BottleneckLE δ (A + A') (B + B') := by
  obtain ⟨m, X, Y, rfl, rfl, h1, h2, h3⟩ := h
  obtain ⟨m', X', Y', rfl, rfl, h1', h2', h3'⟩ := h'
  refine ⟨m + m', X + X', Y + Y', ?_, ?_, ?_, ?_, ?_⟩
  · rw [Multiset.map_add]; abel
  · rw [Multiset.map_add]; abel
  · intro x hx
    rcases Multiset.mem_add.1 hx with hx | hx
    · exact h1 x hx
    · exact h1' x hx
  · intro x hx
    rcases Multiset.mem_add.1 hx with hx | hx
    · exact h2 x hx
    · exact h2' x hx
  · intro x hx
    rcases Multiset.mem_add.1 hx with hx | hx
    · exact h3 x hx
    · exact h3' x hx

theorem BottleneckLE.zero (δ : F) : BottleneckLE δ (0 : Multiset (F × WithTop F)) 0 :=
  ⟨0, 0, 0, by simp, by simp, by simp, by simp, by simp⟩

variable {G : Type}

open Classical in
/-- The images of the same intervals by two maps that are close. -/
theorem mapBars_close {φ ψ : G → F} {δ : F} (h : ∀ x, |φ x - ψ x| ≤ δ) (bars : Multiset (G × WithTop G)) :
    BottleneckLE δ ((bars.map (mapInterval φ)).filter fun b : F × WithTop F => (b.1 : WithTop F) < b.2)
      ((bars.map (mapInterval ψ)).filter fun b : F × WithTop F => (b.1 : WithTop F) < b.2) := by
  induction bars using Multiset.induction_on with
  | empty => simpa using BottleneckLE.zero δ
  | cons b bars ih =>
    rw [Multiset.map_cons, Multiset.map_cons, Multiset.filter_cons, Multiset.filter_cons]
    refine BottleneckLE.add ?_ ih
    obtain ⟨x, y⟩ := b
    cases y with
    | top =>
      rw [if_pos (by simp [mapInterval]), if_pos (by simp [mapInterval])]
      exact ⟨{((φ x, ⊤), (ψ x, ⊤))}, 0, 0, by simp [mapInterval], by simp [mapInterval], by
        intro z hz
        rw [Multiset.mem_singleton] at hz
        subst hz
        exact ⟨h x, Or.inl ⟨rfl, rfl⟩⟩, by simp, by simp⟩
    | coe y =>
      have hx := abs_le.1 (h x)
      have hy := abs_le.1 (h y)
      have e1 : ((mapInterval φ (x, (y : WithTop G))).1 : WithTop F) < (mapInterval φ (x, (y : WithTop G))).2 ↔ φ x < φ y := by
        simp [mapInterval]
      have e2 : ((mapInterval ψ (x, (y : WithTop G))).1 : WithTop F) < (mapInterval ψ (x, (y : WithTop G))).2 ↔ ψ x < ψ y := by
        simp [mapInterval]
      simp only [e1, e2]
      by_cases h1 : φ x < φ y <;> by_cases h2 : ψ x < ψ y
      · rw [if_pos h1, if_pos h2]
        refine ⟨{((φ x, (φ y : WithTop F)), (ψ x, (ψ y : WithTop F)))}, 0, 0, by simp [mapInterval], by simp [mapInterval], ?_, by simp, by simp⟩
        intro z hz
        rw [Multiset.mem_singleton] at hz
        subst hz
        exact ⟨h x, Or.inr ⟨_, _, rfl, rfl, h y⟩⟩
      · rw [if_pos h1, if_neg h2]
        refine ⟨0, {(φ x, (φ y : WithTop F))}, 0, by simp [mapInterval], by simp, by simp, ?_, by simp⟩
        intro z hz
        rw [Multiset.mem_singleton] at hz
        subst hz
        exact ⟨φ y, rfl, by have := not_lt.1 h2; show φ y - φ x ≤ 2 * δ; linarith [hx.1, hx.2, hy.1, hy.2]⟩
      · rw [if_neg h1, if_pos h2]
        refine ⟨0, 0, {(ψ x, (ψ y : WithTop F))}, by simp, by simp [mapInterval], by simp, by simp, ?_⟩
        intro z hz
        rw [Multiset.mem_singleton] at hz
        subst hz
        exact ⟨ψ y, rfl, by have := not_lt.1 h1; show ψ y - ψ x ≤ 2 * δ; linarith [hx.1, hx.2, hy.1, hy.2]⟩
      · rw [if_neg h1, if_neg h2]
        exact BottleneckLE.zero δ

variable {K : Type} [Field K] {E : Set (ℕ × ℕ)} {n p : ℕ}

/-- Barcodes exist for all filtrations of the digraph. -/
def HaveBarcodes (K : Type) [Field K] (E : Set (ℕ × ℕ)) (n p : ℕ) : Prop :=
  ∀ (G : Type) [LinearOrder G] [Zero G] [OrderTop G] (time : ℕ → ℕ → Option G), (∀ a < n, ∀ b < n, ∀ x, time a b = some x → 0 ≤ x ∧ x < ⊤) →
    (∀ a < n, time a a = none) → ∃ bars, IsGroundedBarcode K E n time p bars

/-- The arrows that appear at some time. -/
def finiteArrows (n : ℕ) (S : ℕ → ℕ → Prop) [DecidableRel S] : Finset (ℕ × ℕ) := (Finset.range n ×ˢ Finset.range n).filter fun e => S e.1 e.2

theorem mem_finiteArrows {S : ℕ → ℕ → Prop} [DecidableRel S] {e : ℕ × ℕ} : e ∈ finiteArrows n S ↔ (e.1 < n ∧ e.2 < n) ∧ S e.1 e.2 := by
  simp [finiteArrows, and_assoc]

/-- The filtration of the arrows `S` by `f`. -/
def arrowTime (S : ℕ → ℕ → Prop) [DecidableRel S] {G : Type} (f : ℕ × ℕ → G) (a b : ℕ) : Option G := if S a b then some (f (a, b)) else none

open Classical in
/-- Two filtrations that do not order arrows differently have barcodes which are close. -/
theorem grounded_step (hex : HaveBarcodes K E n p) (hE : ∀ e ∈ E, e.1 < n ∧ e.2 < n) {S : ℕ → ℕ → Prop} [DecidableRel S] (hS : ∀ a, ¬ S a a)
    {f g : ℕ × ℕ → F} {δ : F} (hδ : 0 ≤ δ) (hf : ∀ e ∈ finiteArrows n S, 0 ≤ f e) (hg : ∀ e ∈ finiteArrows n S, 0 ≤ g e)
    (hinv : inversions f g (finiteArrows n S ×ˢ finiteArrows n S) = ∅) (hfg : ∀ e ∈ finiteArrows n S, |f e - g e| ≤ δ) :
    ∃ A B, IsGroundedBarcode K E n (arrowTime S f) p A ∧ IsGroundedBarcode K E n (arrowTime S g) p B ∧ BottleneckLE δ A B := by
  obtain ⟨M, hM0, hM⟩ : ∃ M : F, 0 < M ∧ ∀ e ∈ finiteArrows n S, f e < M ∧ g e < M := by
    refine ⟨1 + ∑ e ∈ finiteArrows n S, (f e + g e), ?_, ?_⟩
    · have : 0 ≤ ∑ e ∈ finiteArrows n S, (f e + g e) := Finset.sum_nonneg fun e he => add_nonneg (hf e he) (hg e he)
      linarith
    · intro e he
      have := Finset.single_le_sum (f := fun e => f e + g e) (fun e he => add_nonneg (hf e he) (hg e he)) he
      have h1 := hf e he
      have h2 := hg e he
      constructor <;> linarith
  let Z : F × F → Prop := fun z => z = (0, 0) ∨ z = (M, M) ∨ ∃ e ∈ finiteArrows n S, z = (f e, g e)
  let G : Type := {z : Lex (F × F) // Z (ofLex z)}
  let z0 : G := ⟨toLex (0, 0), Or.inl rfl⟩
  let z1 : G := ⟨toLex (M, M), Or.inr (Or.inl rfl)⟩
  letI : Zero G := ⟨z0⟩
  have bd : ∀ z : G, 0 ≤ (ofLex z.1).1 ∧ 0 ≤ (ofLex z.1).2 ∧ (ofLex z.1).1 ≤ M ∧ (ofLex z.1).2 ≤ M := by
    rintro ⟨z, hz⟩
    show 0 ≤ (ofLex z).1 ∧ 0 ≤ (ofLex z).2 ∧ (ofLex z).1 ≤ M ∧ (ofLex z).2 ≤ M
    rcases hz with hz | hz | ⟨e, he, hz⟩ <;> rw [hz]
    · exact ⟨le_rfl, le_rfl, hM0.le, hM0.le⟩
    · exact ⟨hM0.le, hM0.le, le_rfl, le_rfl⟩
    · exact ⟨hf e he, hg e he, (hM e he).1.le, (hM e he).2.le⟩
  have lexle : ∀ a b : F × F, a.1 ≤ b.1 → a.2 ≤ b.2 → toLex a ≤ toLex b := by
    intro a b h1 h2
    rw [Prod.Lex.toLex_le_toLex]
    rcases h1.lt_or_eq with h | h
    · exact Or.inl h
    · exact Or.inr ⟨h, h2⟩
  letI : OrderTop G := { top := z1, le_top := fun z => lexle _ _ (bd z).2.2.1 (bd z).2.2.2 }
  let φ : G → F := fun z => (ofLex z.1).1
  let ψ : G → F := fun z => (ofLex z.1).2
  have hφ : Monotone φ := by
    intro a b h
    rcases Prod.Lex.le_iff.1 (show a.1 ≤ b.1 from h) with h | h
    · exact h.le
    · exact h.1.le
  have hno := Finset.filter_eq_empty_iff.1 hinv
  have hψ : Monotone ψ := by
    intro a b hle
    rcases Prod.Lex.le_iff.1 (show a.1 ≤ b.1 from hle) with h | h
    · clear hle
      obtain ⟨a, ha⟩ := a
      obtain ⟨b, hb⟩ := b
      show (ofLex a).2 ≤ (ofLex b).2
      change (ofLex a).1 < (ofLex b).1 at h
      have hbb := bd ⟨b, hb⟩
      have hab := bd ⟨a, ha⟩
      rcases ha with ha | ha | ⟨e, he, ha⟩
      · rw [ha]; exact hbb.2.1
      · rw [ha] at h; exact absurd h (not_lt.2 hbb.2.2.1)
      · rcases hb with hb | hb | ⟨e', he', hb⟩
        · rw [hb] at h; exact absurd h (not_lt.2 hab.1)
        · rw [hb]; exact hab.2.2.2
        · rw [ha, hb] at h ⊢
          by_contra hc
          exact hno (x := (e, e')) (Finset.mk_mem_product he he') ⟨h, not_le.1 hc⟩
    · exact h.2
  have hclose : ∀ z, |φ z - ψ z| ≤ δ := by
    rintro ⟨z, hz⟩
    show |(ofLex z).1 - (ofLex z).2| ≤ δ
    rcases hz with hz | hz | ⟨e, he, hz⟩ <;> rw [hz]
    · simpa using hδ
    · simpa using hδ
    · exact hfg e he
  let time : ℕ → ℕ → Option G := fun a b => if h : (a, b) ∈ finiteArrows n S then some ⟨toLex (f (a, b), g (a, b)), Or.inr (Or.inr ⟨_, h, rfl⟩)⟩ else none
  obtain ⟨bars, hb⟩ := hex G time (by
    intro a ha b hb x hx
    simp only [time] at hx
    split at hx
    · rename_i hm
      obtain rfl := Option.some.inj hx
      refine ⟨lexle _ _ (hf _ hm) (hg _ hm), ?_⟩
      exact Prod.Lex.toLex_lt_toLex.2 (Or.inl (hM _ hm).1)
    · cases hx) (by
    intro a ha
    simp only [time]
    rw [dif_neg]
    exact fun h => hS a (mem_finiteArrows.1 h).2)
  have ht : ∀ (θ : G → F) (h : ℕ × ℕ → F), (∀ e (he : e ∈ finiteArrows n S), θ ⟨toLex (f e, g e), Or.inr (Or.inr ⟨_, he, rfl⟩)⟩ = h e) →
      ∀ a < n, ∀ b < n, arrowTime S h a b = (time a b).map θ := by
    intro θ h hθ a ha b hb
    simp only [time, arrowTime]
    by_cases hs : S a b
    · have hm : (a, b) ∈ finiteArrows n S := mem_finiteArrows.2 ⟨⟨ha, hb⟩, hs⟩
      rw [if_pos hs, dif_pos hm, Option.map_some, hθ _ hm]
    · rw [if_neg hs, dif_neg (fun hm => hs (mem_finiteArrows.1 hm).2)]
      rfl
  exact ⟨_, _, hb.rescale hφ rfl hE (ht φ f fun _ _ => rfl), hb.rescale hψ rfl hE (ht ψ g fun _ _ => rfl), mapBars_close hclose bars⟩

open Classical in
/-- **Stability.** -/
theorem grounded_bottleneck (hex : HaveBarcodes K E n p) (hE : ∀ e ∈ E, e.1 < n ∧ e.2 < n) {S : ℕ → ℕ → Prop} [DecidableRel S] (hS : ∀ a, ¬ S a a)
    {f g : ℕ × ℕ → F} {δ : F} (hδ : 0 ≤ δ) (hf : ∀ e ∈ finiteArrows n S, 0 ≤ f e) (hg : ∀ e ∈ finiteArrows n S, 0 ≤ g e)
    (hfg : ∀ e ∈ finiteArrows n S, |f e - g e| ≤ δ) {A B : Multiset (F × WithTop F)} (hA : IsGroundedBarcode K E n (arrowTime S f) p A)
    (hB : IsGroundedBarcode K E n (arrowTime S g) p B) : BottleneckLE δ A B := by
  generalize hm : (inversions f g (finiteArrows n S ×ˢ finiteArrows n S)).card = m
  induction m using Nat.strong_induction_on generalizing f δ A with
  | _ m ih =>
  rcases Finset.eq_empty_or_nonempty (inversions f g (finiteArrows n S ×ˢ finiteArrows n S)) with he | hne
  · obtain ⟨A', B', h1, h2, h3⟩ := grounded_step hex hE hS hδ hf hg he hfg
    rwa [hA.unique h1, hB.unique h2]
  · obtain ⟨t, t0, t1, h1, h2⟩ := exists_crossing hne
    have a1 : ∀ x ∈ finiteArrows n S, |f x - (f x + t * (g x - f x))| ≤ t * δ := by
      intro x hx
      have : f x - (f x + t * (g x - f x)) = t * (f x - g x) := by ring
      rw [this, abs_mul, abs_of_nonneg t0]
      exact mul_le_mul_of_nonneg_left (hfg x hx) t0
    have a2 : ∀ x ∈ finiteArrows n S, |(f x + t * (g x - f x)) - g x| ≤ (1 - t) * δ := by
      intro x hx
      have : (f x + t * (g x - f x)) - g x = (1 - t) * (f x - g x) := by ring
      rw [this, abs_mul, abs_of_nonneg (by linarith)]
      exact mul_le_mul_of_nonneg_left (hfg x hx) (by linarith)
    have a3 : ∀ x ∈ finiteArrows n S, 0 ≤ f x + t * (g x - f x) := by
      intro x hx
      have : f x + t * (g x - f x) = (1 - t) * f x + t * g x := by ring
      rw [this]
      exact add_nonneg (mul_nonneg (by linarith) (hf x hx)) (mul_nonneg t0 (hg x hx))
    obtain ⟨A', C, c1, c2, c3⟩ := grounded_step hex hE hS (mul_nonneg t0 hδ) hf a3 h1 a1
    rw [← hA.unique c1] at c3
    have b2 := ih _ (hm ▸ h2) (δ := (1 - t) * δ) (mul_nonneg (by linarith) hδ) a3 a2 c2 rfl
    have b3 := c3.trans (mul_nonneg t0 hδ) (mul_nonneg (by linarith) hδ) b2
    have : t * δ + (1 - t) * δ = δ := by ring
    rwa [this] at b3

end
end Phlite
