/-
The barcode of the Vietoris-Rips filtration: invariance under permutations of the points, monotone changes of scale, and stability.
-/
import Verif.Theory.Relabel
import Verif.Theory.Unique
import Verif.Spec.RipsReport
import Mathlib.Algebra.BigOperators.Group.Finset.Sigma
import Mathlib.Tactic.Ring

set_option linter.unusedSectionVars false
set_option linter.unusedSimpArgs false

namespace Phlite
open Finsupp (single linearCombination linearCombination_single)

/-! ### Permutations of the points -/
section
variable {K : Type} [Field K]

/-- The number of inversions of `π` on `σ`. -/
def invCount (π : ℕ → ℕ) (σ : Finset ℕ) : ℕ := ∑ v ∈ σ, (σ.filter fun b => v < b ∧ π b < π v).card

theorem posIn_image {π : ℕ → ℕ} (hπ : Function.Injective π) (σ : Finset ℕ) (v : ℕ) : posIn (σ.image π) (π v) = (σ.filter fun b => π b < π v).card := by
  unfold posIn
  rw [Finset.filter_image, Finset.card_image_of_injective _ hπ]

theorem inv_sign {π : ℕ → ℕ} (hπ : Function.Injective π) {σ : Finset ℕ} {v : ℕ} (hv : v ∈ σ) :
    ∃ k, invCount π σ + posIn (σ.image π) (π v) = posIn σ v + invCount π (σ.erase v) + 2 * k := by
  refine ⟨(σ.filter fun b => v < b ∧ π b < π v).card, ?_⟩
  have h1 : invCount π σ = (σ.filter fun b => v < b ∧ π b < π v).card + ((σ.filter fun a => a < v ∧ π v < π a).card + invCount π (σ.erase v)) := by
    unfold invCount
    rw [← Finset.add_sum_erase σ _ hv]
    congr 1
    have : ∀ a ∈ σ.erase v, (σ.filter fun b => a < b ∧ π b < π a).card =
        (if a < v ∧ π v < π a then 1 else 0) + ((σ.erase v).filter fun b => a < b ∧ π b < π a).card := by
      intro a _
      conv_lhs => rw [← Finset.insert_erase hv]
      rw [Finset.filter_insert]
      split
      · rw [Finset.card_insert_of_notMem (by simp)]; ring
      · ring
    rw [Finset.sum_congr rfl this, Finset.sum_add_distrib]
    congr 1
    rw [← Finset.sum_filter, Finset.sum_const, smul_eq_mul, mul_one]
    congr 1
    ext a
    simp only [Finset.mem_filter, Finset.mem_erase]
    constructor
    · rintro ⟨⟨_, h1⟩, h2⟩; exact ⟨h1, h2⟩
    · rintro ⟨h1, h2⟩; exact ⟨⟨by omega, h1⟩, h2⟩
  have h2 : posIn (σ.image π) (π v) = (σ.filter fun b => b < v ∧ π b < π v).card + (σ.filter fun b => v < b ∧ π b < π v).card := by
    rw [posIn_image hπ, ← Finset.card_union_of_disjoint]
    · congr 1
      ext b
      simp only [Finset.mem_filter, Finset.mem_union]
      constructor
      · rintro ⟨h1, h2⟩
        rcases lt_trichotomy b v with h | h | h
        · exact Or.inl ⟨h1, h, h2⟩
        · subst h; exact absurd h2 (lt_irrefl _)
        · exact Or.inr ⟨h1, h, h2⟩
      · rintro (⟨h1, _, h2⟩ | ⟨h1, _, h2⟩) <;> exact ⟨h1, h2⟩
    · rw [Finset.disjoint_left]
      intro b h1 h2
      rw [Finset.mem_filter] at h1 h2
      omega
  have h3 : posIn σ v = (σ.filter fun b => b < v ∧ π b < π v).card + (σ.filter fun b => b < v ∧ π v < π b).card := by
    unfold posIn
    rw [← Finset.card_union_of_disjoint]
    · congr 1
      ext b
      simp only [Finset.mem_filter, Finset.mem_union]
      constructor
      · rintro ⟨h1, h2⟩
        rcases lt_trichotomy (π b) (π v) with h | h | h
        · exact Or.inl ⟨h1, h2, h⟩
        · exact absurd (hπ h) (by omega)
        · exact Or.inr ⟨h1, h2, h⟩
      · rintro (⟨h1, h2, _⟩ | ⟨h1, h2, _⟩) <;> exact ⟨h1, h2⟩
    · rw [Finset.disjoint_left]
      intro b h1 h2
      rw [Finset.mem_filter] at h1 h2
      omega
  omega

theorem simplexBoundary_image {π : ℕ → ℕ} (hπ : Function.Injective π) (σ : Finset ℕ) :
    (-1 : K) ^ invCount π σ • simplexBoundary K (σ.image π) =
      linearCombination K (fun τ => single (τ.image π) ((-1 : K) ^ invCount π τ)) (simplexBoundary K σ) := by
  unfold simplexBoundary
  rw [Finset.card_image_of_injective _ hπ]
  split
  · simp
  · rw [Finset.sum_image fun a _ b _ h => hπ h, map_sum, Finset.smul_sum]
    refine Finset.sum_congr rfl fun v hv => ?_
    rw [linearCombination_single, Finsupp.smul_single, Finsupp.smul_single, Finset.image_erase hπ, smul_eq_mul, smul_eq_mul]
    congr 1
    rw [← pow_add, ← pow_add]
    obtain ⟨k, hk⟩ := inv_sign hπ hv
    rw [hk, pow_add, pow_mul]
    simp

variable {F : Type} [LinearOrder F] [Zero F]

theorem vietorisRips_finite (n : ℕ) (d : ℕ → ℕ → F) (p : ℕ) (s : F) : (vietorisRips n d p s).Finite :=
  (Finset.finite_toSet (Finset.range n).powerset).subset fun σ hσ => by
    rw [Finset.mem_coe, Finset.mem_powerset]; exact hσ.1

/-- The barcode does not depend on the order of the points. -/
theorem betti_permute {n : ℕ} {d d' : ℕ → ℕ → F} (π : Equiv.Perm ℕ) (hπ : ∀ i, i < n ↔ π i < n)
    (hd : ∀ i < n, ∀ j < n, d' i j = d (π i) (π j)) (p : ℕ) {s t : F} (hst : s ≤ t) :
    persistentBetti (simplexBoundary K) (vietorisRips_mono n d p hst) (vietorisRips_mono n d (p + 1) hst) =
      persistentBetti (simplexBoundary K) (vietorisRips_mono n d' p hst) (vietorisRips_mono n d' (p + 1) hst) := by
  have himg : ∀ q (x : F), vietorisRips n d q x = (fun σ : Finset ℕ => σ.image π) '' vietorisRips n d' q x := by
    intro q x
    ext τ
    constructor
    · rintro ⟨h1, h2, h3⟩
      have hin : ∀ a ∈ τ, π.symm a < n := by
        intro a ha
        rw [hπ]; simpa using h1 ha
      refine ⟨τ.image π.symm, ⟨?_, ?_, ?_⟩, ?_⟩
      · intro b hb
        obtain ⟨a, ha, rfl⟩ := Finset.mem_image.1 hb
        exact Finset.mem_range.2 (hin a ha)
      · rw [Finset.card_image_of_injective _ π.symm.injective, h2]
      · intro a' ha' b' hb'
        obtain ⟨a, ha, rfl⟩ := Finset.mem_image.1 ha'
        obtain ⟨b, hb, rfl⟩ := Finset.mem_image.1 hb'
        rw [hd _ (hin a ha) _ (hin b hb)]
        simpa using h3 a ha b hb
      · show (τ.image π.symm).image π = τ
        rw [Finset.image_image]; simp
    · rintro ⟨σ, ⟨h1, h2, h3⟩, rfl⟩
      have hin : ∀ a ∈ σ, a < n := fun a ha => by simpa using h1 ha
      refine ⟨?_, ?_, ?_⟩
      · intro b hb
        obtain ⟨a, ha, rfl⟩ := Finset.mem_image.1 hb
        exact Finset.mem_range.2 ((hπ a).1 (hin a ha))
      · rw [Finset.card_image_of_injective _ π.injective, h2]
      · intro a' ha' b' hb'
        obtain ⟨a, ha, rfl⟩ := Finset.mem_image.1 ha'
        obtain ⟨b, hb, rfl⟩ := Finset.mem_image.1 hb'
        rw [← hd _ (hin a ha) _ (hin b hb)]
        exact h3 a ha b hb
  refine persistentBetti_relabel_units (fun σ : Finset ℕ => σ.image π) (Finset.image_injective π.injective) (fun σ => (-1 : K) ^ invCount π σ)
    (fun σ => pow_ne_zero _ (by simp)) (vietorisRips_finite _ _ _ _) (fun σ _ => simplexBoundary_image π.injective σ) _ _ (himg _ _) (himg _ _) (himg _ _)
    (himg _ _) _ _

theorem IsRipsBarcode.permute {n : ℕ} {d d' : ℕ → ℕ → F} (π : Equiv.Perm ℕ) (hπ : ∀ i, i < n ↔ π i < n)
    (hd : ∀ i < n, ∀ j < n, d' i j = d (π i) (π j)) {p : ℕ} {bars : Multiset (F × WithTop F)} (h : IsRipsBarcode K n d p bars) :
    IsRipsBarcode K n d' p bars :=
  ⟨h.1, fun s t hst => (h.2 s t hst).trans (betti_permute π hπ hd p hst)⟩

/-! ### Changes of scale -/

theorem betti_empty {M : Finset ℕ → (Finset ℕ →₀ K)} {X X' Y Y' : Set (Finset ℕ)} (hX : X ⊆ X') (hY : Y ⊆ Y') (h : X = ∅) : persistentBetti M hX hY = 0 := by
  subst h
  unfold persistentBetti
  have : Subsingleton (cyclesOn M (∅ : Set (Finset ℕ))) := by
    constructor
    rintro ⟨a, ha⟩ ⟨b, hb⟩
    have h1 := (Submodule.mem_inf.1 ha).1
    have h2 := (Submodule.mem_inf.1 hb).1
    rw [Finsupp.supported_empty, Submodule.mem_bot] at h1 h2
    exact Subtype.ext (h1.trans h2.symm)
  have : LinearMap.range (quotByMap (cyclesOn_mono M hX) (boundariesOn_mono M hY)) = ⊥ := by
    rw [LinearMap.range_eq_bot]
    apply LinearMap.ext
    intro x
    induction x using Submodule.Quotient.induction_on with | H x =>
    rw [Subsingleton.elim x 0]; simp
  rw [this, finrank_bot]

theorem betti_congr {M : Finset ℕ → (Finset ℕ →₀ K)} {X X' Y Y' U U' W W' : Set (Finset ℕ)} (h1 : X = U) (h2 : X' = U') (h3 : Y = W) (h4 : Y' = W')
    (hX : X ⊆ X') (hY : Y ⊆ Y') (hU : U ⊆ U') (hW : W ⊆ W') : persistentBetti M hX hY = persistentBetti M hU hW := by
  subst h1; subst h2; subst h3; subst h4; rfl

variable {G : Type} [LinearOrder G] [Zero G]

/-- For a monotone map into another order and finitely many values, each level in the target is a level in the source. -/
theorem level_preimage {φ : F → G} (hφ : Monotone φ) (W : Finset F) (s : G) :
    (∀ v ∈ W, ¬ φ v ≤ s) ∨ ∃ x ∈ W, φ x ≤ s ∧ ∀ v ∈ W, v ≤ x ↔ φ v ≤ s := by
  by_cases h : ∃ v ∈ W, φ v ≤ s
  · right
    obtain ⟨v, hv, hvs⟩ := h
    obtain ⟨x, hx, hmax⟩ := Finset.exists_max_image (W.filter fun v => φ v ≤ s) id ⟨v, by simp [hv, hvs]⟩
    rw [Finset.mem_filter] at hx
    refine ⟨x, hx.1, hx.2, fun v hv => ⟨fun h => (hφ h).trans hx.2, fun h => hmax v (by simp [hv, h])⟩⟩
  · left
    intro v hv hs
    exact h ⟨v, hv, hs⟩

/-- The interval `[φ b, φ e)`. -/
def mapInterval (φ : F → G) (b : F × WithTop F) : G × WithTop G := (φ b.1, b.2.map φ)

open Classical in
/-- Transforming the distances by a monotone function transforms the intervals of the barcode, some of which may become empty. -/
theorem IsRipsBarcode.rescale {n : ℕ} {d : ℕ → ℕ → F} {d' : ℕ → ℕ → G} {φ : F → G} (hφ : Monotone φ) (hd : ∀ i < n, ∀ j < n, d' i j = φ (d i j)) {p : ℕ}
    {bars : Multiset (F × WithTop F)} (h : IsRipsBarcode K n d p bars) :
    IsRipsBarcode K n d' p ((bars.map (mapInterval φ)).filter fun b => (b.1 : WithTop G) < b.2) := by
  refine ⟨fun b hb => (Multiset.mem_filter.1 hb).2, ?_⟩
  intro s t hst
  -- all values that matter
  let W : Finset F := ((Finset.range n ×ˢ Finset.range n).image fun q => d q.1 q.2) ∪ (bars.toFinset.image Prod.fst) ∪
    (bars.toFinset.image fun b => b.2.untopD b.1)
  have hWd : ∀ i < n, ∀ j < n, d i j ∈ W := fun i hi j hj =>
    Finset.mem_union_left _ (Finset.mem_union_left _ (Finset.mem_image.2 ⟨(i, j), by simp [hi, hj], rfl⟩))
  have hWb : ∀ b ∈ bars, b.1 ∈ W := fun b hb =>
    Finset.mem_union_left _ (Finset.mem_union_right _ (Finset.mem_image.2 ⟨b, by simpa using hb, rfl⟩))
  have hWe : ∀ b ∈ bars, ∀ e : F, b.2 = (e : WithTop F) → e ∈ W := fun b hb e he =>
    Finset.mem_union_right _ (Finset.mem_image.2 ⟨b, by simpa using hb, by rw [he]; rfl⟩)
  have hal : aliveBars ((bars.map (mapInterval φ)).filter fun b : G × WithTop G => (b.1 : WithTop G) < b.2) s t =
      bars.countP fun b => φ b.1 ≤ s ∧ (t : WithTop G) < b.2.map φ := by
    unfold aliveBars
    rw [Multiset.countP_filter, Multiset.countP_map, Multiset.countP_eq_card_filter]
    congr 1
    apply Multiset.filter_congr
    intro b _
    constructor
    · rintro ⟨h, _⟩; exact h
    · rintro ⟨h1, h2⟩
      refine ⟨⟨h1, h2⟩, lt_of_le_of_lt ?_ h2⟩
      exact WithTop.coe_le_coe.2 (h1.trans hst)
  have hvr : ∀ q (x : F) (s : G), (∀ v ∈ W, v ≤ x ↔ φ v ≤ s) → vietorisRips n d' q s = vietorisRips n d q x := by
    intro q x s hx
    ext σ
    constructor
    · rintro ⟨h1, h2, h3⟩
      refine ⟨h1, h2, fun a ha b hb => ?_⟩
      have ha' : a < n := by simpa using h1 ha
      have hb' : b < n := by simpa using h1 hb
      rw [hx _ (hWd a ha' b hb'), ← hd a ha' b hb']
      exact h3 a ha b hb
    · rintro ⟨h1, h2, h3⟩
      refine ⟨h1, h2, fun a ha b hb => ?_⟩
      have ha' : a < n := by simpa using h1 ha
      have hb' : b < n := by simpa using h1 hb
      rw [hd a ha' b hb', ← hx _ (hWd a ha' b hb')]
      exact h3 a ha b hb
  rw [hal]
  dsimp only
  rcases level_preimage hφ W s with hs | ⟨x, hxW, hxs, hx⟩
  · rw [betti_empty]
    · rw [Multiset.countP_eq_zero]
      rintro b hb ⟨h1, _⟩
      exact hs _ (hWb b hb) h1
    · rw [Set.eq_empty_iff_forall_notMem]
      rintro σ ⟨h1, h2, h3⟩
      obtain ⟨a, ha⟩ := Finset.card_pos.1 (by omega : 0 < σ.card)
      have ha' : a < n := by simpa using h1 ha
      have := h3 a ha a ha
      rw [hd a ha' a ha'] at this
      exact hs _ (hWd a ha' a ha') this
  · rcases level_preimage hφ W t with ht | ⟨y, hyW, hyt, hy⟩
    · exact absurd (hxs.trans hst) (ht x hxW)
    · have hxy : x ≤ y := (hy x hxW).2 (hxs.trans hst)
      rw [betti_congr (hvr p x s hx) (hvr p y t hy) (hvr (p + 1) x s hx) (hvr (p + 1) y t hy) _ _ (vietorisRips_mono n d p hxy)
        (vietorisRips_mono n d (p + 1) hxy)]
      refine Eq.trans ?_ (h.2 x y hxy)
      unfold aliveBars
      rw [Multiset.countP_eq_card_filter, Multiset.countP_eq_card_filter]
      congr 1
      apply Multiset.filter_congr
      intro b hb
      rw [hx _ (hWb b hb)]
      refine and_congr_right fun _ => ?_
      cases hb2 : b.2 with
      | top => simp
      | coe e =>
        rw [WithTop.map_coe, WithTop.coe_lt_coe, WithTop.coe_lt_coe, ← not_le, ← not_le, hy e (hWe b hb e hb2)]

/-! ### Stability -/

/-- The rank of a composition: widening the window can only lose classes. -/
theorem persistentBetti_nested {T : Type} {M : T → (T →₀ K)} {X₁ X₂ X₃ X₄ Y₁ Y₂ Y₃ Y₄ : Set T} (hfin : X₂.Finite) (h12 : X₁ ⊆ X₂) (h23 : X₂ ⊆ X₃) (h34 : X₃ ⊆ X₄)
    (k12 : Y₁ ⊆ Y₂) (k23 : Y₂ ⊆ Y₃) (k34 : Y₃ ⊆ Y₄) (h14 : X₁ ⊆ X₄) (k14 : Y₁ ⊆ Y₄) :
    persistentBetti M h14 k14 ≤ persistentBetti M h23 k23 := by
  unfold persistentBetti
  have hcomp : quotByMap (cyclesOn_mono M h14) (boundariesOn_mono M k14) =
      (quotByMap (cyclesOn_mono M h34) (boundariesOn_mono M k34)).comp ((quotByMap (cyclesOn_mono M h23) (boundariesOn_mono M k23)).comp
        (quotByMap (cyclesOn_mono M h12) (boundariesOn_mono M k12))) := by
    apply LinearMap.ext
    intro x
    induction x using Submodule.Quotient.induction_on with | H x => rfl
  rw [hcomp, LinearMap.range_comp, LinearMap.range_comp]
  have : FiniteDimensional K (Finsupp.supported K K X₂) := by
    rw [Finsupp.supported_eq_span_single]
    exact FiniteDimensional.span_of_finite K (hfin.image _)
  have : FiniteDimensional K (cyclesOn M X₂) := Submodule.finiteDimensional_of_le (inf_le_left : cyclesOn M X₂ ≤ Finsupp.supported K K X₂)
  have : FiniteDimensional K (QuotBy (cyclesOn M X₂) (boundariesOn M Y₂)) := inferInstance
  have : FiniteDimensional K (LinearMap.range (quotByMap (cyclesOn_mono M h23) (boundariesOn_mono M k23))) := inferInstance
  have hle : (LinearMap.range (quotByMap (cyclesOn_mono M h12) (boundariesOn_mono M k12))).map (quotByMap (cyclesOn_mono M h23) (boundariesOn_mono M k23)) ≤
      LinearMap.range (quotByMap (cyclesOn_mono M h23) (boundariesOn_mono M k23)) := LinearMap.map_le_range
  have := Submodule.finiteDimensional_of_le hle
  exact (Submodule.finrank_map_le _ _).trans (Submodule.finrank_mono hle)

/-- The barcodes of two distance matrices that are close. -/
theorem IsRipsBarcode.stable {n : ℕ} {d d' : ℕ → ℕ → F} {p : ℕ} {bars bars' : Multiset (F × WithTop F)} (h : IsRipsBarcode K n d p bars)
    (h' : IsRipsBarcode K n d' p bars') {s₀ s t t₀ : F} (h1 : s₀ ≤ s) (h2 : s ≤ t) (h3 : t ≤ t₀) (hs : ∀ i < n, ∀ j < n, d' i j ≤ s₀ → d i j ≤ s)
    (ht : ∀ i < n, ∀ j < n, d i j ≤ t → d' i j ≤ t₀) : aliveBars bars' s₀ t₀ ≤ aliveBars bars s t := by
  have hs' : ∀ q, vietorisRips n d' q s₀ ⊆ vietorisRips n d q s := by
    rintro q σ ⟨a1, a2, a3⟩
    exact ⟨a1, a2, fun a ha b hb => hs a (by simpa using a1 ha) b (by simpa using a1 hb) (a3 a ha b hb)⟩
  have ht' : ∀ q, vietorisRips n d q t ⊆ vietorisRips n d' q t₀ := by
    rintro q σ ⟨a1, a2, a3⟩
    exact ⟨a1, a2, fun a ha b hb => ht a (by simpa using a1 ha) b (by simpa using a1 hb) (a3 a ha b hb)⟩
  rw [h.2 s t h2, h'.2 s₀ t₀ (h1.trans (h2.trans h3))]
  exact persistentBetti_nested (vietorisRips_finite _ _ _ _) (hs' p) _ (ht' p) (hs' (p + 1)) _ (ht' (p + 1)) _ _

end
end Phlite
