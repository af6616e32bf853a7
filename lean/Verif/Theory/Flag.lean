/-
Cycles of flag complexes with few vertices are boundaries.
-/
import Verif.Theory.Twin
import Verif.Theory.Components
import Mathlib.Data.Finset.Max

set_option linter.unusedSectionVars false
set_option linter.unusedSimpArgs false

namespace Phlite
open Finsupp (single linearCombination linearCombination_single supported)

section
variable (K : Type) [Field K]

/-- The augmented boundary: that of a vertex is the empty simplex. -/
noncomputable def augBoundary : (Finset ℕ →₀ K) →ₗ[K] (Finset ℕ →₀ K) := linearCombination K fun σ => ∑ v ∈ σ, single (σ.erase v) ((-1 : K) ^ posIn σ v)

/-- Adding the vertex `v` to the simplices that do not contain it. -/
noncomputable def joinMap (v : ℕ) : (Finset ℕ →₀ K) →ₗ[K] (Finset ℕ →₀ K) := linearCombination K fun σ => single (insert v σ) 1

/-- The simplices that contain `v`, without `v`. -/
noncomputable def linkMap (v : ℕ) : (Finset ℕ →₀ K) →ₗ[K] (Finset ℕ →₀ K) := linearCombination K fun σ => if v ∈ σ then single (σ.erase v) 1 else 0

/-- The simplices that do not contain `v`. -/
noncomputable def awayMap (v : ℕ) : (Finset ℕ →₀ K) →ₗ[K] (Finset ℕ →₀ K) := linearCombination K fun σ => if v ∈ σ then 0 else single σ 1

variable {K}

theorem eq_on_supported_of_basis {X : Set (Finset ℕ)} (f g : (Finset ℕ →₀ K) →ₗ[K] (Finset ℕ →₀ K)) (h : ∀ σ ∈ X, f (single σ 1) = g (single σ 1)) :
    ∀ z ∈ supported K K X, f z = g z := by
  intro z hz
  rw [Finsupp.supported_eq_span_single] at hz
  refine sub_eq_zero.1 ((Submodule.span_le (p := LinearMap.ker (f - g))).2 ?_ hz)
  rintro _ ⟨σ, hσ, rfl⟩
  show (f - g) (single σ 1) = 0
  rw [LinearMap.sub_apply, h σ hσ, sub_self]

/-- The boundary of a join with a vertex before all others. -/
theorem join_boundary {v : ℕ} {X : Set (Finset ℕ)} (hX : ∀ σ ∈ X, ∀ a ∈ σ, v < a) : ∀ z ∈ supported K K X, augBoundary K (joinMap K v z) = z - joinMap K v (augBoundary K z) := by
  classical
  refine eq_on_supported_of_basis (augBoundary K ∘ₗ joinMap K v) (LinearMap.id - joinMap K v ∘ₗ augBoundary K) fun σ hσ => ?_
  have hlt := hX σ hσ
  have hv : v ∉ σ := fun h => lt_irrefl _ (hlt v h)
  rw [LinearMap.comp_apply, LinearMap.sub_apply, LinearMap.comp_apply, LinearMap.id_apply, joinMap, augBoundary, linearCombination_single, one_smul, linearCombination_single, one_smul,
    linearCombination_single, one_smul, Finset.sum_insert hv, Finset.erase_insert hv, map_sum]
  have h0 : posIn (insert v σ) v = 0 := by
    unfold posIn
    rw [Finset.card_eq_zero, Finset.filter_eq_empty_iff]
    intro x hx
    rcases Finset.mem_insert.1 hx with rfl | hx
    · exact lt_irrefl _
    · exact not_lt.2 (hlt x hx).le
  rw [h0, pow_zero, sub_eq_add_neg, ← Finset.sum_neg_distrib]
  congr 1
  refine Finset.sum_congr rfl fun a ha => ?_
  have hav := hlt a ha
  have hp : posIn (insert v σ) a = posIn σ a + 1 := by
    unfold posIn
    rw [Finset.filter_insert, if_pos hav, Finset.card_insert_of_notMem]
    simp [hv]
  rw [linearCombination_single, Finset.erase_insert_of_ne hav.ne, hp, pow_succ, Finsupp.smul_single, smul_eq_mul, mul_one, mul_neg, mul_one, Finsupp.single_neg]

/-- The simplices of the flag complex of `R` with `q` vertices, all in `V`. -/
def flagOn (R : ℕ → ℕ → Prop) (V : Finset ℕ) (q : ℕ) : Set (Finset ℕ) := {σ | σ ⊆ V ∧ σ.card = q ∧ ∀ a ∈ σ, ∀ b ∈ σ, R a b}

theorem flagOn_mono {R : ℕ → ℕ → Prop} {W V : Finset ℕ} (h : W ⊆ V) {r : ℕ} : flagOn R W r ⊆ flagOn R V r := fun _ hσ => ⟨hσ.1.trans h, hσ.2⟩

theorem augBoundary_free {X : Set (Finset ℕ)} {v : ℕ} (hX : ∀ σ ∈ X, v ∉ σ) : ∀ z ∈ supported K K X, augBoundary K z ∈ supported K K {σ : Finset ℕ | v ∉ σ} := by
  refine map_supported _ fun σ hσ => ?_
  rw [augBoundary, linearCombination_single, one_smul]
  exact Submodule.sum_mem _ fun a _ => Finsupp.single_mem_supported K _ fun h => hX σ hσ (Finset.mem_of_mem_erase h)

theorem linkMap_free {v : ℕ} : ∀ z ∈ supported K K {σ : Finset ℕ | v ∉ σ}, linkMap K v z = 0 :=
  eq_on_supported_of_basis (linkMap K v) 0 fun σ hσ => by rw [linkMap, linearCombination_single, if_neg hσ, smul_zero]; rfl

theorem linkMap_join {v : ℕ} : ∀ z ∈ supported K K {σ : Finset ℕ | v ∉ σ}, linkMap K v (joinMap K v z) = z :=
  eq_on_supported_of_basis (linkMap K v ∘ₗ joinMap K v) LinearMap.id fun σ hσ => by
    rw [LinearMap.comp_apply, joinMap, linearCombination_single, one_smul, linkMap, linearCombination_single, one_smul, if_pos (Finset.mem_insert_self v σ), Finset.erase_insert hσ]; rfl

theorem join_link_add_away (v : ℕ) (z : Finset ℕ →₀ K) : joinMap K v (linkMap K v z) + awayMap K v z = z := by
  refine eq_on_supported_of_basis (X := Set.univ) (joinMap K v ∘ₗ linkMap K v + awayMap K v) LinearMap.id (fun σ _ => ?_) z (by rw [Finsupp.mem_supported]; exact Set.subset_univ _)
  rw [LinearMap.add_apply, LinearMap.comp_apply, linkMap, linearCombination_single, one_smul, awayMap, linearCombination_single, one_smul]
  by_cases h : v ∈ σ
  · rw [if_pos h, if_pos h, joinMap, linearCombination_single, one_smul, Finset.insert_erase h, add_zero]; rfl
  · rw [if_neg h, if_neg h, map_zero, zero_add]; rfl

/-- In a flag complex with fewer than `2 q` vertices every reduced cycle of simplices with `q` vertices is a boundary. -/
theorem flag_cycle (R : ℕ → ℕ → Prop) : ∀ (m : ℕ) (V : Finset ℕ) (q : ℕ), V.card = m → m + 1 ≤ 2 * q → ∀ z ∈ supported K K (flagOn R V q), augBoundary K z = 0 →
    ∃ c ∈ supported K K (flagOn R V (q + 1)), augBoundary K c = z := by
  classical
  intro m
  induction m using Nat.strong_induction_on with
  | _ m IH =>
    intro V q hm hq z hz hzero
    rcases V.eq_empty_or_nonempty with rfl | hV
    · refine ⟨0, Submodule.zero_mem _, ?_⟩
      rw [map_zero]
      symm
      rw [← Finsupp.support_eq_empty, Finset.eq_empty_iff_forall_notMem]
      intro σ hσ
      obtain ⟨h1, h2, -⟩ := (Finsupp.mem_supported K z).1 hz hσ
      rw [Finset.subset_empty.1 h1, Finset.card_empty] at h2
      omega
    · set v := V.min' hV with hv
      have hvV : v ∈ V := V.min'_mem hV
      have hmin : ∀ a ∈ V.erase v, v < a := fun a ha => lt_of_le_of_ne (V.min'_le a (Finset.mem_of_mem_erase ha)) (Finset.ne_of_mem_erase ha).symm
      set L := (V.erase v).filter fun a => R v v ∧ R v a ∧ R a v with hL
      have hLV : L ⊆ V.erase v := Finset.filter_subset _ _
      have hfree : ∀ {r : ℕ} {W : Finset ℕ}, W ⊆ V.erase v → ∀ σ ∈ flagOn R W r, v ∉ σ := fun hW σ hσ h => lt_irrefl _ (hmin v (hW (hσ.1 h)))
      have hfree' : ∀ {r : ℕ} {W : Finset ℕ}, W ⊆ V.erase v → ∀ x ∈ supported K K (flagOn R W r), x ∈ supported K K {σ : Finset ℕ | v ∉ σ} :=
        fun hW x hx => Finsupp.supported_mono (hfree hW) hx
      have hafter : ∀ {r : ℕ} {W : Finset ℕ}, W ⊆ V.erase v → ∀ σ ∈ flagOn R W r, ∀ a ∈ σ, v < a := fun hW σ hσ a ha => hmin a (hW (hσ.1 ha))
      -- joins of simplices in the link
      have hjoin : ∀ {r : ℕ}, 1 ≤ r → ∀ x ∈ supported K K (flagOn R L r), joinMap K v x ∈ supported K K (flagOn R V (r + 1)) := by
        intro r hr
        refine map_supported _ fun σ hσ => ?_
        rw [joinMap, linearCombination_single, one_smul]
        refine Finsupp.single_mem_supported K _ ⟨Finset.insert_subset hvV ((hσ.1.trans hLV).trans (Finset.erase_subset _ _)), ?_, ?_⟩
        · rw [Finset.card_insert_of_notMem (hfree hLV σ hσ), hσ.2.1]
        · have hx : ∀ a ∈ σ, R v v ∧ R v a ∧ R a v := fun a ha => (Finset.mem_filter.1 (hσ.1 ha)).2
          obtain ⟨x, hxσ⟩ := Finset.card_pos.1 (by rw [hσ.2.1]; omega : 0 < σ.card)
          intro a ha b hb
          rcases Finset.mem_insert.1 ha with rfl | ha <;> rcases Finset.mem_insert.1 hb with rfl | hb
          · exact (hx x hxσ).1
          · exact (hx b hb).2.1
          · exact (hx a ha).2.2
          · exact hσ.2.2 a ha b hb
      set a := linkMap K v z with ha
      set b := awayMap K v z with hb
      have hz' : joinMap K v a + b = z := join_link_add_away v z
      have haL : a ∈ supported K K (flagOn R L (q - 1)) := by
        refine map_supported _ (fun σ hσ => ?_) z hz
        rw [linkMap, linearCombination_single, one_smul]
        split
        · rename_i hvσ
          refine Finsupp.single_mem_supported K _ ⟨fun x hx => ?_, by rw [Finset.card_erase_of_mem hvσ, hσ.2.1], fun x hx y hy => hσ.2.2 x (Finset.mem_of_mem_erase hx) y (Finset.mem_of_mem_erase hy)⟩
          have hxσ := Finset.mem_of_mem_erase hx
          exact Finset.mem_filter.2 ⟨Finset.mem_erase.2 ⟨Finset.ne_of_mem_erase hx, hσ.1 hxσ⟩, hσ.2.2 v hvσ v hvσ, hσ.2.2 v hvσ x hxσ, hσ.2.2 x hxσ v hvσ⟩
        · exact Submodule.zero_mem _
      have hbV : b ∈ supported K K (flagOn R (V.erase v) q) := by
        refine map_supported _ (fun σ hσ => ?_) z hz
        rw [awayMap, linearCombination_single, one_smul]
        split
        · exact Submodule.zero_mem _
        · rename_i hvσ
          exact Finsupp.single_mem_supported K _ ⟨fun x hx => Finset.mem_erase.2 ⟨fun e => hvσ (e ▸ hx), hσ.1 hx⟩, hσ.2.1, hσ.2.2⟩
      have hbd : a - joinMap K v (augBoundary K a) + augBoundary K b = 0 := by
        rw [← join_boundary (hafter hLV) a haL, ← map_add, hz', hzero]
      have hda : augBoundary K a = 0 := by
        have h := congrArg (linkMap K v) hbd
        rw [map_add, map_sub, linkMap_free a (hfree' hLV a haL), linkMap_join _ (augBoundary_free (hfree hLV) a haL), linkMap_free _ (augBoundary_free (hfree (Finset.Subset.refl _)) b hbV),
          map_zero, add_zero, zero_sub, neg_eq_zero] at h
        exact h
      rw [hda, map_zero, sub_zero] at hbd
      by_cases hLe : L = V.erase v
      · refine ⟨joinMap K v b, hjoin (by omega) b (hLe ▸ hbV), ?_⟩
        rw [join_boundary (hafter (Finset.Subset.refl _)) b hbV, eq_neg_of_add_eq_zero_right hbd, map_neg, sub_neg_eq_add, add_comm]
        exact hz'
      · have hc1 : (V.erase v).card = m - 1 := by rw [Finset.card_erase_of_mem hvV, hm]
        have hc2 : L.card < (V.erase v).card := Finset.card_lt_card (Finset.ssubset_iff_subset_ne.2 ⟨hLV, hLe⟩)
        obtain ⟨c, hc, hca⟩ := IH L.card (by omega) L (q - 1) rfl (by omega) a haL hda
        rw [show q - 1 + 1 = q by omega] at hc
        obtain ⟨e, he, hee⟩ := IH (m - 1) (by have := Finset.card_pos.2 hV; omega) (V.erase v) q hc1 (by omega) (b + c)
          (Submodule.add_mem _ hbV (Finsupp.supported_mono (flagOn_mono hLV) hc)) (by rw [map_add, hca, add_comm]; exact hbd)
        refine ⟨e - joinMap K v c, Submodule.sub_mem _ (Finsupp.supported_mono (flagOn_mono (Finset.erase_subset _ _)) he) (hjoin (by omega) c hc), ?_⟩
        rw [map_sub, hee, join_boundary (hafter hLV) c hc, hca]
        rw [← hz']
        abel

theorem augBoundary_eq {X : Set (Finset ℕ)} (hX : ∀ σ ∈ X, 2 ≤ σ.card) : ∀ z ∈ supported K K X, augBoundary K z = bdry (simplexBoundary K) z := by
  refine eq_on_supported_of_basis _ _ fun σ hσ => ?_
  have := hX σ hσ
  rw [augBoundary, linearCombination_single, one_smul, bdry, linearCombination_single, one_smul, simplexBoundary, if_neg (by omega)]

variable {F : Type} [LinearOrder F] [Zero F] {n : ℕ} {d : ℕ → ℕ → F}

/-- Fewer than `2 p + 2` points have no homology in dimension `p`. -/
theorem betti_few {p : ℕ} (hp : 1 ≤ p) (hn : n < 2 * p + 2) {s t : F} (hst : s ≤ t) :
    persistentBetti (simplexBoundary K) (vietorisRips_mono n d p hst) (vietorisRips_mono n d (p + 1) hst) = 0 := by
  refine finrank_range_eq_zero _ _ fun z hz => ?_
  have e : ∀ q, vietorisRips n d q t = flagOn (fun a b => d a b ≤ t) (Finset.range n) (q + 1) := fun _ => rfl
  have h2 : ∀ q, 1 ≤ q → ∀ σ ∈ vietorisRips n d q t, 2 ≤ σ.card := fun q hq σ hσ => by rw [hσ.2.1]; omega
  obtain ⟨c, hc, hcz⟩ := flag_cycle (K := K) (fun a b => d a b ≤ t) n (Finset.range n) (p + 1) (Finset.card_range n) (by omega) z hz.1
    (by rw [augBoundary_eq (h2 p hp) z hz.1]; exact LinearMap.mem_ker.1 hz.2)
  refine ⟨c, hc, ?_⟩
  rw [← augBoundary_eq (h2 (p + 1) (by omega)) c hc]
  exact hcz

theorem IsRipsBarcode.few {p : ℕ} (hp : 1 ≤ p) (hn : n < 2 * p + 2) : IsRipsBarcode K n d p 0 := by
  refine ⟨fun b hb => absurd hb (Multiset.notMem_zero b), fun s t hst => ?_⟩
  beta_reduce
  rw [betti_few hp hn hst, aliveBars, Multiset.countP_zero]

end
end Phlite
