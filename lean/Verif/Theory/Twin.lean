/-
Repeated points do not change the persistent homology of the Vietoris-Rips filtration; correspondences.
-/
import Verif.Theory.RipsInvariance
import Verif.Theory.Simplex
import Verif.Theory.Cone
import Mathlib.Logic.Equiv.Fintype
import Mathlib.GroupTheory.Perm.Basic

set_option linter.unusedSectionVars false
set_option linter.unusedSimpArgs false

namespace Phlite
open Finsupp (single linearCombination linearCombination_single supported)

section
variable {K T : Type} [Field K]

/-- A retraction of the large complex (`U`, `W` and `U'`, `W'`) onto the small one (`X`, `Y` and `X'`, `Y'`) that moves cycles by boundaries only. -/
theorem betti_retract {M : T → (T →₀ K)} {X X' Y Y' U U' W W' : Set T} (hX : X ⊆ X') (hY : Y ⊆ Y') (hU : U ⊆ U') (hW : W ⊆ W')
    (hXU : X ⊆ U) (hXU' : X' ⊆ U') (hYW : Y ⊆ W) (hYW' : Y' ⊆ W') (r : (T →₀ K) →ₗ[K] (T →₀ K))
    (hid : ∀ z ∈ supported K K X', r z = z) (hcyc : ∀ z ∈ cyclesOn M U, r z ∈ cyclesOn M X) (hbd : ∀ z ∈ boundariesOn M W', r z ∈ boundariesOn M Y')
    (hhom : ∀ z ∈ cyclesOn M U, z - r z ∈ boundariesOn M W) :
    persistentBetti M hX hY = persistentBetti M hU hW := by
  unfold persistentBetti
  have hcomm : (quotByMap (cyclesOn_mono M hXU') (boundariesOn_mono M hYW')) ∘ₗ quotByMap (cyclesOn_mono M hX) (boundariesOn_mono M hY) =
      quotByMap (cyclesOn_mono M hU) (boundariesOn_mono M hW) ∘ₗ quotByMap (cyclesOn_mono M hXU) (boundariesOn_mono M hYW) := by
    ext x; rfl
  have hsurj : LinearMap.range (quotByMap (cyclesOn_mono M hXU) (boundariesOn_mono M hYW)) = ⊤ := by
    rw [LinearMap.range_eq_top]
    intro x
    obtain ⟨⟨z, hz⟩, rfl⟩ := Submodule.mkQ_surjective _ x
    refine ⟨Submodule.mkQ _ ⟨r z, hcyc z hz⟩, ?_⟩
    show Submodule.mkQ _ (Submodule.inclusion (cyclesOn_mono M hXU) ⟨r z, hcyc z hz⟩) = _
    rw [← sub_eq_zero, ← map_sub, Submodule.mkQ_apply, Submodule.Quotient.mk_eq_zero, Submodule.mem_comap]
    show r z - z ∈ boundariesOn M W
    rw [← neg_sub]
    exact Submodule.neg_mem _ (hhom z hz)
  have hinj : Function.Injective (quotByMap (cyclesOn_mono M hXU') (boundariesOn_mono M hYW')) := by
    rw [injective_iff_map_eq_zero]
    intro x hx
    obtain ⟨⟨z, hz⟩, rfl⟩ := Submodule.mkQ_surjective _ x
    change Submodule.mkQ _ (Submodule.inclusion (cyclesOn_mono M hXU') ⟨z, hz⟩) = 0 at hx
    rw [Submodule.mkQ_apply, Submodule.Quotient.mk_eq_zero, Submodule.mem_comap] at hx
    have hx : z ∈ boundariesOn M W' := hx
    rw [Submodule.mkQ_apply, Submodule.Quotient.mk_eq_zero, Submodule.mem_comap]
    show z ∈ boundariesOn M Y'
    rw [← hid z hz.1]
    exact hbd z hx
  have h1 : Module.finrank K (LinearMap.range (quotByMap (cyclesOn_mono M hX) (boundariesOn_mono M hY))) =
      Module.finrank K (LinearMap.range ((quotByMap (cyclesOn_mono M hXU') (boundariesOn_mono M hYW')) ∘ₗ
        quotByMap (cyclesOn_mono M hX) (boundariesOn_mono M hY))) := by
    rw [LinearMap.range_comp]
    exact (LinearEquiv.finrank_eq (Submodule.equivMapOfInjective _ hinj _))
  rw [h1, hcomm, LinearMap.range_comp, hsurj, Submodule.map_top]

end

section
variable {K : Type} [Field K]

/-- The cone with the vertex 0, of simplices that contain `n`. -/
noncomputable def twinCone (K : Type) [Field K] (n : ℕ) : (Finset ℕ →₀ K) →ₗ[K] (Finset ℕ →₀ K) :=
  linearCombination K fun σ => if n ∈ σ ∧ 0 ∉ σ then single (insert 0 σ) 1 else 0

/-- Moving the vertex `n` to the vertex 0. -/
noncomputable def twinMove (K : Type) [Field K] (n : ℕ) : (Finset ℕ →₀ K) →ₗ[K] (Finset ℕ →₀ K) :=
  LinearMap.id - bdry (simplexBoundary K) ∘ₗ twinCone K n - twinCone K n ∘ₗ bdry (simplexBoundary K)

theorem bdry_sq (z : Finset ℕ →₀ K) : bdry (simplexBoundary K) (bdry (simplexBoundary K) z) = 0 := by
  have : bdry (simplexBoundary K) ∘ₗ bdry (simplexBoundary K) = 0 := by
    refine Finsupp.lhom_ext fun σ k => ?_
    rw [LinearMap.comp_apply]
    show linearCombination K (simplexBoundary K) (linearCombination K (simplexBoundary K) (single σ k)) = 0
    rw [linearCombination_single, map_smul, simplexBoundary_sq, smul_zero]
  exact LinearMap.congr_fun this z

theorem twinMove_bdry (n : ℕ) (z : Finset ℕ →₀ K) :
    twinMove K n (bdry (simplexBoundary K) z) = bdry (simplexBoundary K) (twinMove K n z) := by
  simp only [twinMove, LinearMap.sub_apply, LinearMap.comp_apply, LinearMap.id_apply, map_sub, bdry_sq, map_zero, sub_zero]

/-- Simplices without the vertex `n` stay. -/
theorem twinMove_id {n : ℕ} {σ : Finset ℕ} (h : n ∉ σ) : twinMove K n (single σ 1) = single σ 1 := by
  have h1 : twinCone K n (single σ 1) = 0 := by
    rw [twinCone, linearCombination_single, if_neg (fun h' => h h'.1), smul_zero]
  have h2 : twinCone K n (bdry (simplexBoundary K) (single σ 1)) = 0 := by
    rw [bdry, linearCombination_single, one_smul, simplexBoundary]
    split
    · exact map_zero _
    · rw [map_sum]
      refine Finset.sum_eq_zero fun v _ => ?_
      rw [twinCone, linearCombination_single, if_neg (fun h' => h (Finset.mem_of_mem_erase h'.1)), smul_zero]
  rw [twinMove, LinearMap.sub_apply, LinearMap.sub_apply, LinearMap.comp_apply, LinearMap.comp_apply, h1, h2]
  simp

/-- Simplices with the vertex `n` become simplices with the vertex 0 instead, or vanish. -/
theorem twinMove_move {n : ℕ} (hn : 1 ≤ n) {σ : Finset ℕ} (h : n ∈ σ) :
    ∃ k : K, twinMove K n (single σ 1) = if 0 ∈ σ then 0 else single (insert 0 (σ.erase n)) k := by
  classical
  rcases Nat.lt_or_ge σ.card 2 with hc | hc
  · obtain ⟨v, rfl⟩ := Finset.card_eq_one.1 (le_antisymm (by omega) (Finset.card_pos.2 ⟨n, h⟩))
    rw [Finset.mem_singleton] at h
    subst h
    refine ⟨1, ?_⟩
    have h0 : 0 ∉ ({n} : Finset ℕ) := by simp; omega
    have hins : insert 0 ({n} : Finset ℕ) = {0, n} := rfl
    rw [twinMove, LinearMap.sub_apply, LinearMap.sub_apply, LinearMap.comp_apply, LinearMap.comp_apply, twinCone, linearCombination_single,
      if_pos ⟨Finset.mem_singleton_self _, h0⟩, one_smul, hins, bdry, linearCombination_single, linearCombination_single, edge_boundary (by omega), simplexBoundary,
      if_pos (by simp), if_neg h0]
    simp
  · refine ⟨(-1) ^ posIn σ n, ?_⟩
    have hb : bdry (simplexBoundary K) (single σ 1) = ∑ v ∈ σ, single (σ.erase v) ((-1 : K) ^ posIn σ v) := by
      rw [bdry, linearCombination_single, one_smul, simplexBoundary, if_neg (by omega)]
    have h1 : twinCone K n (single σ 1) = coneMap K (single σ 1) := by
      rw [twinCone, coneMap, linearCombination_single, linearCombination_single]
      by_cases h0 : 0 ∈ σ
      · rw [if_pos h0, if_neg (fun h => h.2 h0)]
      · rw [if_neg h0, if_pos ⟨h, h0⟩]
    have h2 : coneMap K (bdry (simplexBoundary K) (single σ 1)) = twinCone K n (bdry (simplexBoundary K) (single σ 1)) +
        coneMap K (single (σ.erase n) ((-1 : K) ^ posIn σ n)) := by
      rw [hb, map_sum, map_sum, ← Finset.add_sum_erase σ _ h, ← Finset.add_sum_erase σ (fun v => twinCone K n _) h, add_comm]
      have h3 : twinCone K n (single (σ.erase n) ((-1 : K) ^ posIn σ n)) = 0 := by
        rw [twinCone, linearCombination_single, if_neg (fun h' => Finset.notMem_erase n σ h'.1), smul_zero]
      rw [h3, zero_add]
      congr 1
      refine Finset.sum_congr rfl fun v hv => ?_
      have hv' := Finset.mem_erase.1 hv
      rw [twinCone, coneMap, linearCombination_single, linearCombination_single]
      have hnv : n ∈ σ.erase v := Finset.mem_erase.2 ⟨fun e => hv'.1 e.symm, h⟩
      by_cases h0 : 0 ∈ σ.erase v
      · rw [if_pos h0, if_neg (fun h => h.2 h0)]
      · rw [if_neg h0, if_pos ⟨hnv, h0⟩]
    have h4 := cone_homotopy (K := K) hc
    rw [h2, ← h1] at h4
    have h5 : twinMove K n (single σ 1) = coneMap K (single (σ.erase n) ((-1 : K) ^ posIn σ n)) := by
      rw [twinMove, LinearMap.sub_apply, LinearMap.sub_apply, LinearMap.comp_apply, LinearMap.comp_apply, LinearMap.id_apply]
      conv_lhs => rw [← h4]
      rw [h4]
      rw [sub_sub, sub_eq_iff_eq_add]
      rw [← add_assoc] at h4
      rw [add_comm, h4]
    rw [h5, coneMap, linearCombination_single]
    have hiff : 0 ∈ σ.erase n ↔ 0 ∈ σ := by rw [Finset.mem_erase]; exact ⟨fun h => h.2, fun h => ⟨by omega, h⟩⟩
    by_cases h0 : 0 ∈ σ
    · rw [if_pos h0, if_pos (hiff.2 h0), smul_zero]
    · rw [if_neg h0, if_neg (fun h => h0 (hiff.1 h)), Finsupp.smul_single, smul_eq_mul, mul_one]

variable {F : Type} [LinearOrder F] [Zero F] {n : ℕ} {d : ℕ → ℕ → F}

theorem map_supported {T : Type} {X Y : Set T} (g : (T →₀ K) →ₗ[K] (T →₀ K)) (h : ∀ σ ∈ X, g (single σ 1) ∈ supported K K Y) :
    ∀ z ∈ supported K K X, g z ∈ supported K K Y := by
  intro z hz
  rw [Finsupp.supported_eq_span_single] at hz
  refine (Submodule.span_le (p := (supported K K Y).comap g)).2 ?_ hz
  rintro _ ⟨σ, hσ, rfl⟩
  exact h σ hσ

theorem vietorisRips_succ (q : ℕ) (s : F) : vietorisRips n d q s ⊆ vietorisRips (n + 1) d q s :=
  fun _ h => ⟨h.1.trans (Finset.range_mono (Nat.le_succ n)), h.2⟩

/-- The last point can be removed if it is at the same distances from all points as the first one. -/
theorem betti_twin (hn : 1 ≤ n) (htwin : ∀ a < n + 1, d 0 a = d n a ∧ d a 0 = d a n) (p : ℕ) {s t : F} (hst : s ≤ t) :
    persistentBetti (simplexBoundary K) (vietorisRips_mono n d p hst) (vietorisRips_mono n d (p + 1) hst) =
      persistentBetti (simplexBoundary K) (vietorisRips_mono (n + 1) d p hst) (vietorisRips_mono (n + 1) d (p + 1) hst) := by
  classical
  have hmove : ∀ q u, ∀ z ∈ supported K K (vietorisRips (n + 1) d q u), twinMove K n z ∈ supported K K (vietorisRips n d q u) := by
    intro q u
    refine map_supported _ ?_
    rintro σ ⟨h1, h2, h3⟩
    by_cases hnσ : n ∈ σ
    · obtain ⟨k, hk⟩ := twinMove_move (K := K) hn hnσ
      rw [hk]
      split
      · exact Submodule.zero_mem _
      · rename_i h0
        refine Finsupp.single_mem_supported K k ⟨?_, ?_, ?_⟩
        · intro x hx
          rcases Finset.mem_insert.1 hx with rfl | hx
          · exact Finset.mem_range.2 hn
          · obtain ⟨h4, h5⟩ := Finset.mem_erase.1 hx
            have := Finset.mem_range.1 (h1 h5)
            exact Finset.mem_range.2 (by omega)
        · rw [Finset.card_insert_of_notMem (fun h => h0 (Finset.mem_of_mem_erase h)), Finset.card_erase_of_mem hnσ, h2]
          rfl
        · have hlt : ∀ a ∈ σ, a < n + 1 := fun a ha => Finset.mem_range.1 (h1 ha)
          intro a ha b hb
          rcases Finset.mem_insert.1 ha with rfl | ha <;> rcases Finset.mem_insert.1 hb with rfl | hb
          · rw [(htwin 0 (by omega)).1, (htwin n (by omega)).2]
            exact h3 n hnσ n hnσ
          · rw [(htwin b (hlt b (Finset.mem_of_mem_erase hb))).1]
            exact h3 n hnσ b (Finset.mem_of_mem_erase hb)
          · rw [(htwin a (hlt a (Finset.mem_of_mem_erase ha))).2]
            exact h3 a (Finset.mem_of_mem_erase ha) n hnσ
          · exact h3 a (Finset.mem_of_mem_erase ha) b (Finset.mem_of_mem_erase hb)
    · rw [twinMove_id hnσ]
      refine Finsupp.single_mem_supported K 1 ⟨?_, h2, h3⟩
      intro x hx
      have := Finset.mem_range.1 (h1 hx)
      have : x ≠ n := fun e => hnσ (e ▸ hx)
      exact Finset.mem_range.2 (by omega)
  have hcone : ∀ q u, ∀ z ∈ supported K K (vietorisRips (n + 1) d q u), twinCone K n z ∈ supported K K (vietorisRips (n + 1) d (q + 1) u) := by
    intro q u
    refine map_supported _ ?_
    rintro σ ⟨h1, h2, h3⟩
    rw [twinCone, linearCombination_single, one_smul]
    split
    · rename_i h0
      have hlt : ∀ a ∈ σ, a < n + 1 := fun a ha => Finset.mem_range.1 (h1 ha)
      refine Finsupp.single_mem_supported K 1 ⟨?_, ?_, ?_⟩
      · intro x hx
        rcases Finset.mem_insert.1 hx with rfl | hx
        · exact Finset.mem_range.2 (by omega)
        · exact h1 hx
      · rw [Finset.card_insert_of_notMem h0.2, h2]
      · intro a ha b hb
        rcases Finset.mem_insert.1 ha with rfl | ha <;> rcases Finset.mem_insert.1 hb with rfl | hb
        · rw [(htwin 0 (by omega)).1, (htwin n (by omega)).2]
          exact h3 n h0.1 n h0.1
        · rw [(htwin b (hlt b hb)).1]
          exact h3 n h0.1 b hb
        · rw [(htwin a (hlt a ha)).2]
          exact h3 a ha n h0.1
        · exact h3 a ha b hb
    · exact Submodule.zero_mem _
  refine betti_retract (K := K) _ _ _ _ (vietorisRips_succ p s) (vietorisRips_succ p t) (vietorisRips_succ (p + 1) s) (vietorisRips_succ (p + 1) t) (twinMove K n) ?_ ?_ ?_ ?_
  · intro z hz
    have key : ∀ z ∈ supported K K (vietorisRips n d p t), (twinMove K n - (LinearMap.id : (Finset ℕ →₀ K) →ₗ[K] (Finset ℕ →₀ K))) z = 0 := by
      intro z hz
      rw [Finsupp.supported_eq_span_single] at hz
      refine (Submodule.span_le (p := LinearMap.ker (twinMove K n - (LinearMap.id : (Finset ℕ →₀ K) →ₗ[K] (Finset ℕ →₀ K))))).2 ?_ hz
      rintro _ ⟨σ, hσ, rfl⟩
      show (twinMove K n - (LinearMap.id : (Finset ℕ →₀ K) →ₗ[K] (Finset ℕ →₀ K))) (single σ 1) = 0
      rw [LinearMap.sub_apply, twinMove_id, LinearMap.id_apply, sub_self]
      intro h
      exact absurd (Finset.mem_range.1 (hσ.1 h)) (lt_irrefl _)
    exact sub_eq_zero.1 (key z hz)
  · rintro z ⟨h1, h2⟩
    refine ⟨hmove p s z h1, ?_⟩
    show bdry (simplexBoundary K) (twinMove K n z) = 0
    rw [← twinMove_bdry, LinearMap.mem_ker.1 h2, map_zero]
  · rintro _ ⟨w, hw, rfl⟩
    exact ⟨twinMove K n w, hmove (p + 1) t w hw, (twinMove_bdry n w).symm⟩
  · rintro z ⟨h1, h2⟩
    refine ⟨twinCone K n z, hcone p s z h1, ?_⟩
    rw [twinMove, LinearMap.sub_apply, LinearMap.sub_apply, LinearMap.comp_apply, LinearMap.comp_apply, LinearMap.mem_ker.1 h2, map_zero]
    simp

/-- Listing points repeatedly, in any order, does not change the barcode. -/
theorem IsRipsBarcode.pullback {p : ℕ} {bars : Multiset (F × WithTop F)} (h : IsRipsBarcode K n d p bars) : ∀ {m : ℕ} {d' : ℕ → ℕ → F} (f : ℕ → ℕ),
    (∀ i < m, f i < n) → (∀ j < n, ∃ i < m, f i = j) → (∀ i < m, ∀ j < m, d' i j = d (f i) (f j)) → IsRipsBarcode K m d' p bars := by
  intro m
  induction m with
  | zero =>
    intro d' f _ hsurj _
    have : n = 0 := by
      by_contra h0
      obtain ⟨i, hi, _⟩ := hsurj 0 (by omega)
      omega
    subst this
    exact h.permute (Equiv.refl ℕ) (fun _ => Iff.rfl) fun i hi => absurd hi (Nat.not_lt_zero i)
  | succ k ih =>
    intro d' f hf hsurj hd
    by_cases hinj : ∀ a < k + 1, ∀ b < k + 1, f a = f b → a = b
    · -- a permutation
      let g : Fin (k + 1) → Fin n := fun i => ⟨f i, hf i i.2⟩
      have hg : Function.Bijective g := by
        constructor
        · intro a b hab
          exact Fin.ext (hinj a a.2 b b.2 (by simpa [g] using hab))
        · intro j
          obtain ⟨i, hi, e⟩ := hsurj j j.2
          exact ⟨⟨i, hi⟩, Fin.ext e⟩
      have hcard : n = k + 1 := by
        have := Fintype.card_of_bijective hg
        simpa using this.symm
      subst hcard
      let π : Equiv.Perm ℕ := Equiv.Perm.extendDomain (Equiv.ofBijective g hg) Fin.equivSubtype
      have hπ : ∀ i (hi : i < k + 1), π i = f i := by
        intro i hi
        have := Equiv.Perm.extendDomain_apply_subtype (Equiv.ofBijective g hg) (Fin.equivSubtype (n := k + 1)) (b := i) hi
        rw [this]
        rfl
      refine h.permute π (fun i => ⟨fun hi => ?_, fun hi => ?_⟩) fun i hi j hj => ?_
      · rw [hπ i hi]; exact hf i hi
      · by_contra hni
        have : π i = i := Equiv.Perm.extendDomain_apply_not_subtype (Equiv.ofBijective g hg) (Fin.equivSubtype (n := k + 1)) (b := i) hni
        rw [this] at hi
        exact hni hi
      · rw [hd i hi j hj, hπ i hi, hπ j hj]
    · push Not at hinj
      obtain ⟨a, b, ha, hb, hab, hlt⟩ : ∃ a b, a < k + 1 ∧ b < k + 1 ∧ f a = f b ∧ a < b := by
        obtain ⟨a, ha, b, hb, hab, hne⟩ := hinj
        rcases Nat.lt_or_gt_of_ne hne with h1 | h1
        · exact ⟨a, b, ha, hb, hab, h1⟩
        · exact ⟨b, a, hb, ha, hab.symm, h1⟩
      set c := Equiv.swap 0 a b with hc
      have hc0 : c ≠ 0 := by
        intro e
        have h1 : Equiv.swap 0 a b = Equiv.swap 0 a a := by rw [← hc, e, Equiv.swap_apply_right]
        exact absurd ((Equiv.swap 0 a).injective h1) (by omega)
      have hck : c < k + 1 := by
        rw [hc, Equiv.swap_apply_def]
        split
        · omega
        · split <;> omega
      let π : Equiv.Perm ℕ := Equiv.swap 0 a * Equiv.swap k c
      have hπ0 : π 0 = a := by
        show Equiv.swap 0 a (Equiv.swap k c 0) = a
        rw [Equiv.swap_apply_of_ne_of_ne (by omega) hc0.symm, Equiv.swap_apply_left]
      have hπk : π k = b := by
        show Equiv.swap 0 a (Equiv.swap k c k) = b
        rw [Equiv.swap_apply_left, hc, Equiv.swap_apply_self]
      have hsw : ∀ x y, x < k + 1 → y < k + 1 → ∀ i, i < k + 1 → Equiv.swap x y i < k + 1 := by
        intro x y hx hy i hi
        rw [Equiv.swap_apply_def]
        split
        · exact hy
        · split
          · exact hx
          · exact hi
      have hπlt : ∀ i, i < k + 1 → π i < k + 1 := fun i hi => hsw 0 a (by omega) ha _ (hsw k c (by omega) hck i hi)
      have hπlt' : ∀ i, i < k + 1 → π.symm i < k + 1 := by
        intro i hi
        have : π.symm i = Equiv.swap k c (Equiv.swap 0 a i) := by
          rw [Equiv.symm_apply_eq]
          show i = Equiv.swap 0 a (Equiv.swap k c (Equiv.swap k c (Equiv.swap 0 a i)))
          rw [Equiv.swap_apply_self, Equiv.swap_apply_self]
        rw [this]
        exact hsw k c (by omega) hck _ (hsw 0 a (by omega) ha i hi)
      suffices hs : IsRipsBarcode K (k + 1) (fun i j => d' (π i) (π j)) p bars by
        refine hs.permute π.symm (fun i => ⟨hπlt' i, fun hi => ?_⟩) fun i _ j _ => ?_
        · have := hπlt _ hi
          rwa [Equiv.apply_symm_apply] at this
        · simp
      have hk : IsRipsBarcode K k (fun i j => d' (π i) (π j)) p bars := by
        refine ih (fun i => f (π i)) (fun i hi => hf _ (hπlt i (by omega))) (fun j hj => ?_) fun i hi j hj => hd _ (hπlt i (by omega)) _ (hπlt j (by omega))
        obtain ⟨i, hi, e⟩ := hsurj j hj
        by_cases hik : π.symm i = k
        · refine ⟨0, by omega, ?_⟩
          show f (π 0) = j
          rw [hπ0, hab, ← hπk, ← hik, Equiv.apply_symm_apply, e]
        · have := hπlt' i hi
          exact ⟨π.symm i, by omega, by rw [Equiv.apply_symm_apply, e]⟩
      refine ⟨hk.1, fun s t hst => (hk.2 s t hst).trans (betti_twin (by omega) (fun x hx => ?_) p hst)⟩
      rw [hπ0, hπk, hd a ha _ (hπlt x hx), hd b hb _ (hπlt x hx), hd _ (hπlt x hx) a ha, hd _ (hπlt x hx) b hb, hab]
      exact ⟨rfl, rfl⟩

end
end Phlite
