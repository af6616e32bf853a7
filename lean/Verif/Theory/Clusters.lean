/-
Complexes in two parts: persistent Betti numbers add up.
-/
import Verif.Theory.Twin
import Verif.Proofs.GrPPHHomology

set_option linter.unusedSectionVars false
set_option linter.unusedSimpArgs false

namespace Phlite
open Finsupp (single linearCombination linearCombination_single supported)

section
variable {K : Type} [Field K] {T : Type} {V₁ V₂ : Set T} {P₁ P₂ Q₁ Q₂ : Submodule K (T →₀ K)}

theorem disjoint_parts (hV : Disjoint V₁ V₂) (h1 : P₁ ≤ supported K K V₁) (h2 : P₂ ≤ supported K K V₂) : Disjoint P₁ P₂ :=
  (Finsupp.disjoint_supported_supported hV).mono h1 h2

theorem inf_parts (hV : Disjoint V₁ V₂) (h1 : P₁ ≤ supported K K V₁) (h2 : P₂ ≤ supported K K V₂) (g1 : Q₁ ≤ supported K K V₁) (g2 : Q₂ ≤ supported K K V₂) :
    (P₁ ⊔ P₂) ⊓ (Q₁ ⊔ Q₂) = (P₁ ⊓ Q₁) ⊔ (P₂ ⊓ Q₂) := by
  apply le_antisymm
  · rintro z ⟨hp, hq⟩
    obtain ⟨a, ha, b, hb, rfl⟩ := Submodule.mem_sup.1 hp
    obtain ⟨c, hc, e, he, h⟩ := Submodule.mem_sup.1 hq
    have hac : a - c = e - b := by rw [sub_eq_sub_iff_add_eq_add, ← h]; abel
    have h0 : a - c = 0 := by
      have m1 : a - c ∈ supported K K V₁ := Submodule.sub_mem _ (h1 ha) (g1 hc)
      have m2 : a - c ∈ supported K K V₂ := by rw [hac]; exact Submodule.sub_mem _ (g2 he) (h2 hb)
      exact (Submodule.disjoint_def.1 (Finsupp.disjoint_supported_supported hV)) _ m1 m2
    obtain rfl := sub_eq_zero.1 h0
    obtain rfl := (sub_eq_zero.1 (hac.symm.trans h0)).symm
    exact Submodule.mem_sup.2 ⟨a, ⟨ha, hc⟩, b, ⟨hb, he⟩, rfl⟩
  · exact sup_le (inf_le_inf le_sup_left le_sup_left) (inf_le_inf le_sup_right le_sup_right)

theorem finrank_parts (hV : Disjoint V₁ V₂) (h1 : P₁ ≤ supported K K V₁) (h2 : P₂ ≤ supported K K V₂) [FiniteDimensional K P₁] [FiniteDimensional K P₂] :
    Module.finrank K ↥(P₁ ⊔ P₂) = Module.finrank K P₁ + Module.finrank K P₂ := by
  have := Submodule.finrank_sup_add_finrank_inf_eq P₁ P₂
  rw [(disjoint_parts hV h1 h2).eq_bot, finrank_bot] at this
  omega

variable {M : T → (T →₀ K)} {X X' Y Y' : Set T}

theorem inter_parts (h : X ⊆ V₁ ∪ V₂) : X = X ∩ V₁ ∪ X ∩ V₂ := by
  rw [← Set.inter_union_distrib_left]
  exact (Set.inter_eq_left.2 h).symm

theorem bdry_part {V : Set T} (hM : ∀ x ∈ V, M x ∈ supported K K V) {z : T →₀ K} (hz : z ∈ supported K K V) : bdry M z ∈ supported K K V :=
  map_supported (bdry M) (fun x hx => by rw [bdry, linearCombination_single, one_smul]; exact hM x hx) z hz

theorem cycles_parts (hV : Disjoint V₁ V₂) (hM₁ : ∀ x ∈ V₁, M x ∈ supported K K V₁) (hM₂ : ∀ x ∈ V₂, M x ∈ supported K K V₂) (hX : X ⊆ V₁ ∪ V₂) :
    cyclesOn M X = cyclesOn M (X ∩ V₁) ⊔ cyclesOn M (X ∩ V₂) := by
  apply le_antisymm
  · rintro z ⟨h1, h2⟩
    rw [SetLike.mem_coe, inter_parts hX, Finsupp.supported_union] at h1
    obtain ⟨a, ha, b, hb, rfl⟩ := Submodule.mem_sup.1 h1
    have h2 : bdry M (a + b) = 0 := h2
    rw [map_add] at h2
    have ma := bdry_part hM₁ (Finsupp.supported_mono Set.inter_subset_right ha)
    have mb := bdry_part hM₂ (Finsupp.supported_mono Set.inter_subset_right hb)
    have hab : bdry M a = -bdry M b := eq_neg_of_add_eq_zero_left h2
    have ha0 : bdry M a = 0 := (Submodule.disjoint_def.1 (Finsupp.disjoint_supported_supported hV)) _ ma (by rw [hab]; exact Submodule.neg_mem _ mb)
    rw [ha0, zero_add] at h2
    exact Submodule.mem_sup.2 ⟨a, ⟨ha, ha0⟩, b, ⟨hb, h2⟩, rfl⟩
  · exact sup_le (inf_le_inf_right _ (Finsupp.supported_mono Set.inter_subset_left)) (inf_le_inf_right _ (Finsupp.supported_mono Set.inter_subset_left))

theorem boundaries_parts (hX : X ⊆ V₁ ∪ V₂) : boundariesOn M X = boundariesOn M (X ∩ V₁) ⊔ boundariesOn M (X ∩ V₂) := by
  unfold boundariesOn
  rw [← Submodule.map_sup, ← Finsupp.supported_union, ← inter_parts hX]

theorem boundaries_part {V : Set T} (hM : ∀ x ∈ V, M x ∈ supported K K V) : boundariesOn M (X ∩ V) ≤ supported K K V := by
  rintro _ ⟨x, hx, rfl⟩
  exact bdry_part hM (Finsupp.supported_mono Set.inter_subset_right hx)

theorem cycles_part {V : Set T} : cyclesOn M (X ∩ V) ≤ supported K K V := inf_le_left.trans (Finsupp.supported_mono Set.inter_subset_right)

/-- Persistent Betti numbers of a complex in two parts. -/
theorem betti_parts (hV : Disjoint V₁ V₂) (hM₁ : ∀ x ∈ V₁, M x ∈ supported K K V₁) (hM₂ : ∀ x ∈ V₂, M x ∈ supported K K V₂) (hXX : X ⊆ X') (hYY : Y ⊆ Y')
    (hX : X ⊆ V₁ ∪ V₂) (hY' : Y' ⊆ V₁ ∪ V₂) (hfin : X.Finite) :
    persistentBetti M hXX hYY = persistentBetti M (Set.inter_subset_inter_left V₁ hXX) (Set.inter_subset_inter_left V₁ hYY) +
      persistentBetti M (Set.inter_subset_inter_left V₂ hXX) (Set.inter_subset_inter_left V₂ hYY) := by
  have fd : ∀ Z : Set T, Z ⊆ X → FiniteDimensional K (cyclesOn M Z) := fun Z hZ => by
    have := fd_supported K _ (hfin.subset hZ)
    exact Submodule.finiteDimensional_of_le (inf_le_left : _ ≤ supported K K Z)
  have f0 := fd X subset_rfl
  have f1 := fd (X ∩ V₁) Set.inter_subset_left
  have f2 := fd (X ∩ V₂) Set.inter_subset_left
  have r0 := finrank_quotBy (cyclesOn_mono M hXX) (boundariesOn_mono M hYY)
  have r1 := finrank_quotBy (cyclesOn_mono M (Set.inter_subset_inter_left V₁ hXX)) (boundariesOn_mono M (Set.inter_subset_inter_left V₁ hYY))
  have r2 := finrank_quotBy (cyclesOn_mono M (Set.inter_subset_inter_left V₂ hXX)) (boundariesOn_mono M (Set.inter_subset_inter_left V₂ hYY))
  have e1 := finrank_parts hV (cycles_part (M := M) (X := X) (V := V₁)) (cycles_part (M := M) (X := X) (V := V₂))
  rw [← cycles_parts hV hM₁ hM₂ hX] at e1
  have g1 : FiniteDimensional K ↥(cyclesOn M (X ∩ V₁) ⊓ boundariesOn M (Y' ∩ V₁)) := Submodule.finiteDimensional_of_le (inf_le_left : _ ≤ cyclesOn M (X ∩ V₁))
  have g2 : FiniteDimensional K ↥(cyclesOn M (X ∩ V₂) ⊓ boundariesOn M (Y' ∩ V₂)) := Submodule.finiteDimensional_of_le (inf_le_left : _ ≤ cyclesOn M (X ∩ V₂))
  have e2 := finrank_parts hV (P₁ := cyclesOn M (X ∩ V₁) ⊓ boundariesOn M (Y' ∩ V₁)) (P₂ := cyclesOn M (X ∩ V₂) ⊓ boundariesOn M (Y' ∩ V₂))
    (inf_le_left.trans cycles_part) (inf_le_left.trans cycles_part)
  rw [← inf_parts hV cycles_part cycles_part (boundaries_part hM₁) (boundaries_part hM₂), ← cycles_parts hV hM₁ hM₂ hX, ← boundaries_parts hY'] at e2
  unfold persistentBetti
  omega

end

section
variable {K F : Type} [Field K] [LinearOrder F] [Zero F] {n m : ℕ} {d dA dB : ℕ → ℕ → F}

theorem faces_part {V : Set (Finset ℕ)} (hV : ∀ σ ∈ V, ∀ v ∈ σ, 2 ≤ σ.card → σ.erase v ∈ V) {σ : Finset ℕ} (hσ : σ ∈ V) :
    simplexBoundary K σ ∈ supported K K V := by
  unfold simplexBoundary
  split
  · exact Submodule.zero_mem _
  · exact Submodule.sum_mem _ fun v hv => Finsupp.single_mem_supported K _ (hV σ hσ v hv (by omega))

theorem posIn_shift (n : ℕ) (σ : Finset ℕ) (v : ℕ) : posIn (σ.image (· + n)) (v + n) = posIn σ v := by
  unfold posIn
  rw [Finset.filter_image, Finset.card_image_of_injective _ (add_left_injective n)]
  simp only [add_lt_add_iff_right]

theorem simplexBoundary_shift (n : ℕ) (σ : Finset ℕ) :
    simplexBoundary K (σ.image (· + n)) = linearCombination K (fun τ : Finset ℕ => single (τ.image (· + n)) (1 : K)) (simplexBoundary K σ) := by
  unfold simplexBoundary
  rw [Finset.card_image_of_injective _ (add_left_injective n)]
  split
  · rw [map_zero]
  · rw [map_sum, Finset.sum_image fun a _ b _ h => add_left_injective n h]
    refine Finset.sum_congr rfl fun v _ => ?_
    rw [posIn_shift, linearCombination_single, Finsupp.smul_single, smul_eq_mul, mul_one, Finset.image_erase (add_left_injective n)]

/-- Below the distance of two groups of points, the persistent Betti numbers of the Vietoris-Rips filtration are sums. -/
theorem betti_clusters (hA : ∀ i < n, ∀ j < n, dA i j = d i j) (hB : ∀ i < m, ∀ j < m, dB i j = d (i + n) (j + n)) {R : F}
    (hfar : ∀ i < n, ∀ j < m, R ≤ d i (j + n)) (p : ℕ) {s t : F} (hst : s ≤ t) (ht : t < R) :
    persistentBetti (simplexBoundary K) (vietorisRips_mono (n + m) d p hst) (vietorisRips_mono (n + m) d (p + 1) hst) =
      persistentBetti (simplexBoundary K) (vietorisRips_mono n dA p hst) (vietorisRips_mono n dA (p + 1) hst) +
      persistentBetti (simplexBoundary K) (vietorisRips_mono m dB p hst) (vietorisRips_mono m dB (p + 1) hst) := by
  classical
  let V₁ : Set (Finset ℕ) := {σ | σ.Nonempty ∧ ∀ v ∈ σ, v < n}
  let V₂ : Set (Finset ℕ) := {σ | σ.Nonempty ∧ ∀ v ∈ σ, n ≤ v}
  have hV : Disjoint V₁ V₂ := by
    rw [Set.disjoint_left]
    rintro σ ⟨⟨v, hv⟩, h1⟩ ⟨_, h2⟩
    exact absurd (h1 v hv) (not_lt.2 (h2 v hv))
  have hne : ∀ σ : Finset ℕ, ∀ v ∈ σ, 2 ≤ σ.card → (σ.erase v).Nonempty := fun σ v hv hc => by
    rw [← Finset.card_pos, Finset.card_erase_of_mem hv]; omega
  have f1 : ∀ σ ∈ V₁, simplexBoundary K σ ∈ supported K K V₁ := fun σ hσ =>
    faces_part (V := V₁) (fun σ hσ v hv hc => ⟨hne σ v hv hc, fun w hw => hσ.2 w (Finset.mem_of_mem_erase hw)⟩) hσ
  have f2 : ∀ σ ∈ V₂, simplexBoundary K σ ∈ supported K K V₂ := fun σ hσ =>
    faces_part (V := V₂) (fun σ hσ v hv hc => ⟨hne σ v hv hc, fun w hw => hσ.2 w (Finset.mem_of_mem_erase hw)⟩) hσ
  have hsub : ∀ q, ∀ u ≤ t, vietorisRips (n + m) d q u ⊆ V₁ ∪ V₂ := by
    rintro q u hu σ ⟨h1, h2, h3⟩
    have hσ : σ.Nonempty := Finset.card_pos.1 (by omega)
    by_cases hall : ∀ v ∈ σ, v < n
    · exact .inl ⟨hσ, hall⟩
    · push Not at hall
      obtain ⟨w, hw, hwn⟩ := hall
      refine .inr ⟨hσ, fun v hv => ?_⟩
      by_contra hlt
      have hwm := Finset.mem_range.1 (h1 hw)
      have := hfar v (by omega) (w - n) (by omega)
      rw [Nat.sub_add_cancel hwn] at this
      exact absurd ((h3 v hv w hw).trans hu) (not_le.2 (ht.trans_le this))
  rw [betti_parts hV f1 f2 _ _ (hsub p s hst) (hsub (p + 1) t le_rfl) (vietorisRips_finite _ _ _ _)]
  have eA : ∀ q u, vietorisRips (n + m) d q u ∩ V₁ = vietorisRips n dA q u := by
    intro q u
    ext σ
    constructor
    · rintro ⟨⟨h1, h2, h3⟩, h4, h5⟩
      exact ⟨fun v hv => Finset.mem_range.2 (h5 v hv), h2, fun a ha b hb => by rw [hA a (h5 a ha) b (h5 b hb)]; exact h3 a ha b hb⟩
    · rintro ⟨h1, h2, h3⟩
      have hl : ∀ v ∈ σ, v < n := fun v hv => Finset.mem_range.1 (h1 hv)
      exact ⟨⟨fun v hv => Finset.mem_range.2 (by have := hl v hv; omega), h2, fun a ha b hb => by rw [← hA a (hl a ha) b (hl b hb)]; exact h3 a ha b hb⟩,
        Finset.card_pos.1 (by omega), hl⟩
  have eB : ∀ q u, vietorisRips (n + m) d q u ∩ V₂ = (fun σ : Finset ℕ => σ.image (· + n)) '' vietorisRips m dB q u := by
    intro q u
    ext σ
    constructor
    · rintro ⟨⟨h1, h2, h3⟩, h4, h5⟩
      have him : (σ.image (· - n)).image (· + n) = σ := by
        rw [Finset.image_image]
        conv_rhs => rw [← Finset.image_id (s := σ)]
        exact Finset.image_congr fun v hv => Nat.sub_add_cancel (h5 v hv)
      refine ⟨σ.image (· - n), ⟨?_, ?_, ?_⟩, him⟩
      · intro v hv
        obtain ⟨w, hw, rfl⟩ := Finset.mem_image.1 hv
        have h6 := Finset.mem_range.1 (h1 hw)
        have h7 := h5 w hw
        exact Finset.mem_range.2 (by omega)
      · rw [← h2, ← him, Finset.card_image_of_injective _ (add_left_injective n), him]
      · intro a' ha' b' hb'
        obtain ⟨a, ha, rfl⟩ := Finset.mem_image.1 ha'
        obtain ⟨b, hb, rfl⟩ := Finset.mem_image.1 hb'
        have h6 := Finset.mem_range.1 (h1 ha)
        have h7 := Finset.mem_range.1 (h1 hb)
        have h8 := h5 a ha
        have h9 := h5 b hb
        rw [hB _ (by omega) _ (by omega), Nat.sub_add_cancel h8, Nat.sub_add_cancel h9]
        exact h3 a ha b hb
    · rintro ⟨τ, ⟨h1, h2, h3⟩, rfl⟩
      refine ⟨⟨?_, ?_, ?_⟩, ?_, ?_⟩
      · intro v hv
        obtain ⟨w, hw, rfl⟩ := Finset.mem_image.1 hv
        have h6 := Finset.mem_range.1 (h1 hw)
        exact Finset.mem_range.2 (by omega)
      · show (τ.image (· + n)).card = q + 1
        rw [Finset.card_image_of_injective _ (add_left_injective n), h2]
      · intro a' ha' b' hb'
        obtain ⟨a, ha, rfl⟩ := Finset.mem_image.1 ha'
        obtain ⟨b, hb, rfl⟩ := Finset.mem_image.1 hb'
        rw [← hB _ (Finset.mem_range.1 (h1 ha)) _ (Finset.mem_range.1 (h1 hb))]
        exact h3 a ha b hb
      · exact (Finset.card_pos.1 (by omega)).image _
      · intro v hv
        obtain ⟨w, _, rfl⟩ := Finset.mem_image.1 hv
        omega
  congr 1
  · exact betti_congr (eA _ _) (eA _ _) (eA _ _) (eA _ _) _ _ _ _
  · exact persistentBetti_relabel_units (fun σ : Finset ℕ => σ.image (· + n)) (Finset.image_injective (add_left_injective n)) (fun _ => (1 : K))
      (fun _ => one_ne_zero) (vietorisRips_finite _ _ _ _) (fun σ _ => by rw [one_smul]; exact simplexBoundary_shift n σ) _ _ (eB _ _) (eB _ _) (eB _ _) (eB _ _) _ _

end
end Phlite
