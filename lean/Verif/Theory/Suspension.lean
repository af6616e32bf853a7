/-
Two more points, far from each other and near to all others: the homology moves up one dimension.
-/
import Verif.Theory.Cross

set_option linter.unusedSectionVars false
set_option linter.unusedSimpArgs false

namespace Phlite
open Finsupp (single linearCombination linearCombination_single supported)

section
variable {K : Type} [Field K]

/-- Equal ranks on homology, by a map that is onto the homology of the small scale and injective on that of the large scale. -/
theorem finrank_transport {V : Type} [AddCommGroup V] [Module K V] {Z Z' B B' Y Y' C C' : Submodule K V} (hZ : Z ≤ Z') (hB : B ≤ B') (hY : Y ≤ Y') (hC : C ≤ C') (f : V →ₗ[K] V)
    (hfZ : ∀ z ∈ Z, f z ∈ Y) (hfZ' : ∀ z ∈ Z', f z ∈ Y') (hfB : ∀ z ∈ B', f z ∈ C') (hinj : ∀ z ∈ Z', f z ∈ C' → z ∈ B') (hsurj : ∀ y ∈ Y, ∃ z ∈ Z, y - f z ∈ C') :
    Module.finrank K (LinearMap.range (quotByMap hY hC)) = Module.finrank K (LinearMap.range (quotByMap hZ hB)) := by
  let g : QuotBy Z' B' →ₗ[K] QuotBy Y' C' := Submodule.mapQ _ _ (f.restrict hfZ') fun v hv => hfB v hv
  have hg : Function.Injective g := by
    rw [injective_iff_map_eq_zero]
    intro x hx
    obtain ⟨⟨z, hz⟩, rfl⟩ := Submodule.mkQ_surjective _ x
    change Submodule.mkQ _ (f.restrict hfZ' ⟨z, hz⟩) = 0 at hx
    rw [Submodule.mkQ_apply, Submodule.Quotient.mk_eq_zero, Submodule.mem_comap] at hx ⊢
    exact hinj z hz hx
  have hr : LinearMap.range (quotByMap hY hC) = (LinearMap.range (quotByMap hZ hB)).map g := by
    apply le_antisymm
    · rintro _ ⟨x, rfl⟩
      obtain ⟨⟨y, hy⟩, rfl⟩ := Submodule.mkQ_surjective _ x
      obtain ⟨z, hz, hyz⟩ := hsurj y hy
      refine ⟨_, ⟨Submodule.mkQ _ ⟨z, hz⟩, rfl⟩, ?_⟩
      show Submodule.mkQ _ (f.restrict hfZ' ⟨z, hZ hz⟩) = Submodule.mkQ _ (Submodule.inclusion hY ⟨y, hy⟩)
      rw [← sub_eq_zero, ← map_sub, Submodule.mkQ_apply, Submodule.Quotient.mk_eq_zero, Submodule.mem_comap]
      show f z - y ∈ C'
      rw [← neg_sub]
      exact Submodule.neg_mem _ hyz
    · rintro _ ⟨_, ⟨x, rfl⟩, rfl⟩
      obtain ⟨⟨z, hz⟩, rfl⟩ := Submodule.mkQ_surjective _ x
      exact ⟨Submodule.mkQ _ ⟨f z, hfZ z hz⟩, rfl⟩
  rw [hr]
  exact (Submodule.equivMapOfInjective g hg _).finrank_eq.symm

/-- The boundary of a join with a vertex after all others. -/
theorem join_boundary_last {v k : ℕ} {X : Set (Finset ℕ)} (hX : ∀ σ ∈ X, σ.card = k ∧ ∀ a ∈ σ, a < v) :
    ∀ z ∈ supported K K X, augBoundary K (joinMap K v z) = joinMap K v (augBoundary K z) + (-1 : K) ^ k • z := by
  classical
  refine eq_on_supported_of_basis (augBoundary K ∘ₗ joinMap K v) (joinMap K v ∘ₗ augBoundary K + (-1 : K) ^ k • LinearMap.id) fun σ hσ => ?_
  obtain ⟨hc, hlt⟩ := hX σ hσ
  have hv : v ∉ σ := fun h => lt_irrefl _ (hlt v h)
  rw [LinearMap.comp_apply, LinearMap.add_apply, LinearMap.comp_apply, LinearMap.smul_apply, LinearMap.id_apply, joinMap, augBoundary, linearCombination_single, one_smul,
    linearCombination_single, one_smul, linearCombination_single, one_smul, Finset.sum_insert hv, Finset.erase_insert hv, map_sum, add_comm]
  have h0 : posIn (insert v σ) v = k := by
    unfold posIn
    rw [Finset.filter_insert, if_neg (lt_irrefl v), Finset.filter_true_of_mem hlt, hc]
  rw [h0, Finsupp.smul_single, smul_eq_mul, mul_one]
  congr 1
  refine Finset.sum_congr rfl fun a ha => ?_
  have hav := hlt a ha
  have hp : posIn (insert v σ) a = posIn σ a := by
    unfold posIn
    rw [Finset.filter_insert, if_neg (not_lt.2 hav.le)]
  rw [linearCombination_single, Finset.erase_insert_of_ne hav.ne', hp, Finsupp.smul_single, smul_eq_mul, mul_one]

/-- Taking the link of a vertex that is the last one of all simplices that contain it commutes with boundaries. -/
theorem link_boundary {v : ℕ} {X : Set (Finset ℕ)} (hX : ∀ σ ∈ X, v ∈ σ → ∀ a ∈ σ, a ≤ v) :
    ∀ z ∈ supported K K X, linkMap K v (augBoundary K z) = augBoundary K (linkMap K v z) := by
  classical
  refine eq_on_supported_of_basis (linkMap K v ∘ₗ augBoundary K) (augBoundary K ∘ₗ linkMap K v) fun σ hσ => ?_
  rw [LinearMap.comp_apply, LinearMap.comp_apply, augBoundary, linkMap, linearCombination_single, one_smul, linearCombination_single, one_smul, map_sum]
  by_cases hv : v ∈ σ
  · rw [if_pos hv, linearCombination_single, one_smul, ← Finset.add_sum_erase _ _ hv, linearCombination_single, if_neg (Finset.notMem_erase v σ), smul_zero, zero_add]
    refine Finset.sum_congr rfl fun a ha => ?_
    obtain ⟨h1, h2⟩ := Finset.mem_erase.1 ha
    have hp : posIn (σ.erase v) a = posIn σ a := by
      unfold posIn
      rw [Finset.filter_erase, Finset.erase_eq_of_notMem]
      intro h
      exact absurd (Finset.mem_filter.1 h).2 (not_lt.2 (hX σ hσ hv a h2))
    rw [linearCombination_single, if_pos (Finset.mem_erase.2 ⟨h1.symm, hv⟩), hp, Finsupp.smul_single, smul_eq_mul, mul_one, Finset.erase_right_comm]
  · rw [if_neg hv, map_zero]
    refine Finset.sum_eq_zero fun a ha => ?_
    rw [linearCombination_single, if_neg (fun h => hv (Finset.mem_of_mem_erase h)), smul_zero]

variable {F : Type} [LinearOrder F] [Zero F] {n : ℕ} {d : ℕ → ℕ → F}

/-- The points `n` and `n + 1` are at distance `r` from the first `n` points and at distance `L` from each other; the other distances are between `r` and `L`. -/
structure IsSuspension (n : ℕ) (d : ℕ → ℕ → F) (r L : F) : Prop where
  diag : ∀ i < n + 2, d i i = 0
  nonneg : 0 ≤ r
  le : r ≤ L
  base : ∀ i < n, ∀ j < n, i ≠ j → r ≤ d i j ∧ d i j ≤ L
  apex : ∀ i < n, ∀ v, v = n ∨ v = n + 1 → d v i = r ∧ d i v = r
  far : d n (n + 1) = L ∧ d (n + 1) n = L

namespace IsSuspension
variable {r L : F}

theorem insert_mem (h : IsSuspension n d r L) {q : ℕ} {t : F} (hr : r ≤ t) {v : ℕ} (hv : v = n ∨ v = n + 1) {σ : Finset ℕ} (hσ : σ ∈ vietorisRips n d q t) :
    insert v σ ∈ vietorisRips (n + 2) d (q + 1) t := by
  obtain ⟨h1, h2, h3⟩ := hσ
  have hlt : ∀ a ∈ σ, a < n := fun a ha => Finset.mem_range.1 (h1 ha)
  refine ⟨fun x hx => ?_, ?_, fun a ha b hb => ?_⟩
  · rcases Finset.mem_insert.1 hx with hx | hx
    · exact Finset.mem_range.2 (by omega)
    · exact Finset.mem_range.2 (by have := hlt x hx; omega)
  · rw [Finset.card_insert_of_notMem (fun hx => by have := hlt v hx; omega), h2]
  · rcases Finset.mem_insert.1 ha with ha | ha <;> rcases Finset.mem_insert.1 hb with hb | hb
    · rw [ha, hb, h.diag v (by omega)]
      exact h.nonneg.trans hr
    · rw [ha, (h.apex b (hlt b hb) v hv).1]
      exact hr
    · rw [hb, (h.apex a (hlt a ha) v hv).2]
      exact hr
    · exact h3 a ha b hb

theorem not_both (h : IsSuspension n d r L) {q : ℕ} {t : F} (ht : t < L) {σ : Finset ℕ} (hσ : σ ∈ vietorisRips (n + 2) d q t) (h1 : n ∈ σ) : n + 1 ∉ σ := by
  intro h2
  have := hσ.2.2 n h1 (n + 1) h2
  rw [h.far.1] at this
  exact absurd ht (not_lt.2 this)

theorem rest_mem (h : IsSuspension n d r L) {q : ℕ} {t : F} {σ : Finset ℕ} (hσ : σ ∈ vietorisRips (n + 2) d q t) (h1 : n ∉ σ) (h2 : n + 1 ∉ σ) : σ ∈ vietorisRips n d q t := by
  refine ⟨fun x hx => ?_, hσ.2⟩
  have h3 := Finset.mem_range.1 (hσ.1 hx)
  have h4 : x ≠ n := fun e => h1 (e ▸ hx)
  have h5 : x ≠ n + 1 := fun e => h2 (e ▸ hx)
  exact Finset.mem_range.2 (by omega)

theorem erase_mem (h : IsSuspension n d r L) {q : ℕ} {t : F} (ht : t < L) {v : ℕ} (hv : v = n ∨ v = n + 1) {σ : Finset ℕ} (hσ : σ ∈ vietorisRips (n + 2) d (q + 1) t) (hvσ : v ∈ σ) :
    σ.erase v ∈ vietorisRips n d q t := by
  refine h.rest_mem ⟨(Finset.erase_subset _ _).trans hσ.1, by rw [Finset.card_erase_of_mem hvσ, hσ.2.1]; rfl, fun a ha b hb =>
    hσ.2.2 a (Finset.mem_of_mem_erase ha) b (Finset.mem_of_mem_erase hb)⟩ ?_ ?_
  · rcases hv with rfl | rfl
    · exact Finset.notMem_erase _ _
    · intro hn
      exact h.not_both ht hσ (Finset.mem_of_mem_erase hn) hvσ
  · rcases hv with rfl | rfl
    · intro hn
      exact h.not_both ht hσ hvσ (Finset.mem_of_mem_erase hn)
    · exact Finset.notMem_erase _ _

theorem join_supported (h : IsSuspension n d r L) {q : ℕ} {t : F} (hr : r ≤ t) {v : ℕ} (hv : v = n ∨ v = n + 1) :
    ∀ z ∈ supported K K (vietorisRips n d q t), joinMap K v z ∈ supported K K (vietorisRips (n + 2) d (q + 1) t) := by
  refine map_supported _ fun σ hσ => ?_
  rw [joinMap, linearCombination_single, one_smul]
  exact Finsupp.single_mem_supported K _ (h.insert_mem hr hv hσ)

theorem link_supported (h : IsSuspension n d r L) {q : ℕ} {t : F} (ht : t < L) {v : ℕ} (hv : v = n ∨ v = n + 1) :
    ∀ z ∈ supported K K (vietorisRips (n + 2) d (q + 1) t), linkMap K v z ∈ supported K K (vietorisRips n d q t) := by
  refine map_supported _ fun σ hσ => ?_
  rw [linkMap, linearCombination_single, one_smul]
  split_ifs with hvσ
  · exact Finsupp.single_mem_supported K _ (h.erase_mem ht hv hσ hvσ)
  · exact Submodule.zero_mem _

theorem last (h : IsSuspension n d r L) {q : ℕ} {t : F} (ht : t < L) {v : ℕ} (hv : v = n ∨ v = n + 1) : ∀ σ ∈ vietorisRips (n + 2) d q t, v ∈ σ → ∀ a ∈ σ, a ≤ v := by
  intro σ hσ hvσ a ha
  have h1 := Finset.mem_range.1 (hσ.1 ha)
  rcases hv with rfl | rfl
  · have : a ≠ v + 1 := fun e => h.not_both ht hσ hvσ (e ▸ ha)
    omega
  · omega

theorem boundary_join (h : IsSuspension n d r L) {q : ℕ} {t : F} {v : ℕ} (hv : v = n ∨ v = n + 1) : ∀ z ∈ supported K K (vietorisRips n d q t),
    augBoundary K (joinMap K v z) = joinMap K v (augBoundary K z) + (-1 : K) ^ (q + 1) • z :=
  join_boundary_last fun σ hσ => ⟨hσ.2.1, fun a ha => by have := Finset.mem_range.1 (hσ.1 ha); omega⟩

/-- The part of a chain without the two points. -/
theorem rest_supported (h : IsSuspension n d r L) {q : ℕ} {t : F} (ht : t < L) : ∀ z ∈ supported K K (vietorisRips (n + 2) d (q + 1) t),
    z - joinMap K n (linkMap K n z) - joinMap K (n + 1) (linkMap K (n + 1) z) ∈ supported K K (vietorisRips n d (q + 1) t) := by
  classical
  refine map_supported (LinearMap.id - joinMap K n ∘ₗ linkMap K n - joinMap K (n + 1) ∘ₗ linkMap K (n + 1)) fun σ hσ => ?_
  rw [LinearMap.sub_apply, LinearMap.sub_apply, LinearMap.comp_apply, LinearMap.comp_apply, LinearMap.id_apply, linkMap, linearCombination_single, one_smul, linkMap,
    linearCombination_single, one_smul]
  by_cases h1 : n ∈ σ
  · rw [if_pos h1, if_neg (h.not_both ht hσ h1), map_zero, joinMap, linearCombination_single, one_smul, Finset.insert_erase h1, sub_self, sub_zero]
    exact Submodule.zero_mem _
  · by_cases h2 : n + 1 ∈ σ
    · rw [if_neg h1, if_pos h2, map_zero, joinMap, linearCombination_single, one_smul, Finset.insert_erase h2, sub_zero, sub_self]
      exact Submodule.zero_mem _
    · rw [if_neg h1, if_neg h2, map_zero, map_zero, sub_zero, sub_zero]
      exact Finsupp.single_mem_supported K _ (h.rest_mem hσ h1 h2)

theorem betti_middle (h : IsSuspension n d r L) {p : ℕ} (hp : 1 ≤ p) {s t : F} (hst : s ≤ t) (hs : r ≤ s) (ht : t < L) :
    persistentBetti (simplexBoundary K) (vietorisRips_mono (n + 2) d (p + 1) hst) (vietorisRips_mono (n + 2) d (p + 1 + 1) hst) =
      persistentBetti (simplexBoundary K) (vietorisRips_mono n d p hst) (vietorisRips_mono n d (p + 1) hst) := by
  have h2 : ∀ {m q : ℕ} {u : F}, 1 ≤ q → ∀ σ ∈ vietorisRips m d q u, 2 ≤ σ.card := fun hq σ hσ => by rw [hσ.2.1]; omega
  have hin : ∀ {q : ℕ} {u : F}, r ≤ u → ∀ z ∈ supported K K (vietorisRips n d q u), (joinMap K n - joinMap K (n + 1)) z ∈ supported K K (vietorisRips (n + 2) d (q + 1) u) := fun hu z hz =>
    Submodule.sub_mem _ (h.join_supported hu (Or.inl rfl) z hz) (h.join_supported hu (Or.inr rfl) z hz)
  have hbd : ∀ {q : ℕ} {u : F}, ∀ z ∈ supported K K (vietorisRips n d q u), augBoundary K ((joinMap K n - joinMap K (n + 1)) z) = (joinMap K n - joinMap K (n + 1)) (augBoundary K z) := by
    intro q u z hz
    rw [LinearMap.sub_apply, map_sub, h.boundary_join (Or.inl rfl) z hz, h.boundary_join (Or.inr rfl) z hz, LinearMap.sub_apply, add_sub_add_right_eq_sub]
  have hcyc : ∀ {u : F}, r ≤ u → ∀ z ∈ cyclesOn (simplexBoundary K) (vietorisRips n d p u), (joinMap K n - joinMap K (n + 1)) z ∈ cyclesOn (simplexBoundary K) (vietorisRips (n + 2) d (p + 1) u) := by
    rintro u hu z ⟨h3, h4⟩
    refine ⟨hin hu z h3, ?_⟩
    rw [SetLike.mem_coe, LinearMap.mem_ker, ← augBoundary_eq (h2 (by omega)) _ (hin hu z h3), hbd z h3, augBoundary_eq (h2 hp) z h3, LinearMap.mem_ker.1 h4, map_zero]
  refine finrank_transport _ _ _ _ (joinMap K n - joinMap K (n + 1)) (hcyc hs) (hcyc (hs.trans hst)) ?_ ?_ ?_
  · rintro _ ⟨w, hw, rfl⟩
    refine ⟨_, hin (hs.trans hst) w hw, ?_⟩
    rw [← augBoundary_eq (h2 (by omega)) w hw, ← hbd w hw, augBoundary_eq (h2 (by omega)) _ (hin (hs.trans hst) w hw)]
  · rintro z ⟨h3, h4⟩ ⟨c, hc, hcz⟩
    refine ⟨linkMap K n c, h.link_supported ht (Or.inl rfl) c hc, ?_⟩
    rw [← augBoundary_eq (h2 (by omega)) _ (h.link_supported ht (Or.inl rfl) c hc), ← link_boundary (h.last ht (Or.inl rfl)) c hc, augBoundary_eq (h2 (by omega)) c hc, hcz]
    have hfree : z ∈ supported K K {σ : Finset ℕ | n ∉ σ} := Finsupp.supported_mono (fun σ hσ => show n ∉ σ from fun hx => lt_irrefl _ (Finset.mem_range.1 (hσ.1 hx))) h3
    rw [LinearMap.sub_apply, map_sub, linkMap_join z hfree, linkMap_free, sub_zero]
    refine map_supported (X := vietorisRips n d p t) _ (fun σ hσ => ?_) z h3
    rw [joinMap, linearCombination_single, one_smul]
    refine Finsupp.single_mem_supported K _ fun hx => ?_
    rcases Finset.mem_insert.1 hx with hx | hx
    · omega
    · exact lt_irrefl _ (Finset.mem_range.1 (hσ.1 hx))
  · rintro y ⟨h3, h4⟩
    have hy0 : augBoundary K y = 0 := by rw [augBoundary_eq (h2 (by omega)) y h3]; exact LinearMap.mem_ker.1 h4
    have hsL := hst.trans_lt ht
    have ha := h.link_supported (K := K) hsL (Or.inl rfl) y h3
    have hb := h.link_supported (K := K) hsL (Or.inr rfl) y h3
    have hc := h.rest_supported (K := K) hsL y h3
    have hda : augBoundary K (linkMap K n y) = 0 := by rw [← link_boundary (h.last hsL (Or.inl rfl)) y h3, hy0, map_zero]
    have hdb : augBoundary K (linkMap K (n + 1) y) = 0 := by rw [← link_boundary (h.last hsL (Or.inr rfl)) y h3, hy0, map_zero]
    set a := linkMap K n y
    set b := linkMap K (n + 1) y
    set c := y - joinMap K n a - joinMap K (n + 1) b with hcdef
    have hdc : augBoundary K c = -((-1 : K) ^ (p + 1) • (a + b)) := by
      rw [hcdef, map_sub, map_sub, hy0, h.boundary_join (Or.inl rfl) a ha, h.boundary_join (Or.inr rfl) b hb, hda, hdb, map_zero, map_zero, smul_add]
      abel
    have hJc := h.join_supported (K := K) hs (Or.inr rfl) c hc
    refine ⟨a, ⟨ha, ?_⟩, ?_⟩
    · rw [SetLike.mem_coe, LinearMap.mem_ker, ← augBoundary_eq (h2 hp) a ha]
      exact hda
    · refine boundariesOn_mono (simplexBoundary K) (vietorisRips_mono (n + 2) d (p + 1 + 1) hst) ⟨(-1 : K) ^ p • joinMap K (n + 1) c, Submodule.smul_mem _ _ hJc, ?_⟩
      rw [map_smul, ← augBoundary_eq (h2 (by omega)) _ hJc, h.boundary_join (Or.inr rfl) c hc, hdc, map_neg, map_smul, smul_add, smul_neg, smul_smul, smul_smul, ← pow_add, ← pow_add]
      have e1 : (-1 : K) ^ (p + (p + 1)) = -1 := by rw [show p + (p + 1) = 2 * p + 1 by omega, pow_succ, pow_mul]; simp
      have e2 : (-1 : K) ^ (p + (p + 1 + 1)) = 1 := by rw [show p + (p + 1 + 1) = 2 * (p + 1) by omega, pow_mul]; simp
      rw [e1, e2, neg_smul, neg_neg, one_smul, one_smul, map_add, LinearMap.sub_apply, hcdef]
      abel

theorem no_edges (h : IsSuspension n d r L) {q : ℕ} (hq : 1 ≤ q) {s : F} (hs : s < r) {m : ℕ} (hm : m = n ∨ m = n + 2) : vietorisRips m d q s = ∅ := by
  rw [Set.eq_empty_iff_forall_notMem]
  rintro σ ⟨h1, h2, h3⟩
  obtain ⟨a, ha, b, hb, hab⟩ := Finset.one_lt_card.1 (by rw [h2]; omega : 1 < σ.card)
  refine absurd (lt_of_le_of_lt (h3 a ha b hb) hs) (not_lt.2 ?_)
  have ha' := Finset.mem_range.1 (h1 ha)
  have hb' := Finset.mem_range.1 (h1 hb)
  by_cases h4 : a < n
  · by_cases h5 : b < n
    · exact (h.base a h4 b h5 hab).1
    · rw [(h.apex a h4 b (by omega)).2]
  · by_cases h5 : b < n
    · rw [(h.apex b h5 a (by omega)).1]
    · have : (a = n ∧ b = n + 1) ∨ (a = n + 1 ∧ b = n) := by omega
      rcases this with ⟨rfl, rfl⟩ | ⟨rfl, rfl⟩
      · rw [h.far.1]; exact h.le
      · rw [h.far.2]; exact h.le

theorem betti (h : IsSuspension n d r L) {p : ℕ} (hp : 1 ≤ p) {s t : F} (hst : s ≤ t) :
    persistentBetti (simplexBoundary K) (vietorisRips_mono (n + 2) d (p + 1) hst) (vietorisRips_mono (n + 2) d (p + 1 + 1) hst) =
      persistentBetti (simplexBoundary K) (vietorisRips_mono n d p hst) (vietorisRips_mono n d (p + 1) hst) := by
  have hempty : ∀ {m q : ℕ}, vietorisRips m d q s = ∅ → cyclesOn (simplexBoundary K) (vietorisRips m d q s) = ⊥ := by
    intro m q he
    rw [eq_bot_iff]
    rintro z ⟨hz, -⟩
    rw [he] at hz
    simpa using hz
  by_cases hs : s < r
  · exact (finrank_range_zero_of_bot _ _ (hempty (h.no_edges (by omega) hs (Or.inr rfl)))).trans (finrank_range_zero_of_bot _ _ (hempty (h.no_edges hp hs (Or.inl rfl)))).symm
  by_cases ht : t < L
  · exact h.betti_middle hp hst (not_lt.1 hs) ht
  have hL := not_lt.1 ht
  have h0 : (0 : F) ≤ t := h.nonneg.trans (h.le.trans hL)
  rw [betti_cone (q := n) (by omega) (by omega) hst fun i hi => ?_]
  · by_cases hn : n = 0
    · symm
      refine finrank_range_zero_of_bot _ _ (hempty ?_)
      rw [Set.eq_empty_iff_forall_notMem]
      rintro σ ⟨h1, h2, -⟩
      rw [hn, Finset.range_zero, Finset.subset_empty] at h1
      rw [h1, Finset.card_empty] at h2
      omega
    · rw [betti_cone (q := 0) hp (by omega) hst fun i hi => ?_]
      by_cases h1 : i = 0
      · rw [h1, h.diag 0 (by omega)]
        exact ⟨h0, h0⟩
      · exact ⟨(h.base 0 (by omega) i hi (Ne.symm h1)).2.trans hL, (h.base i hi 0 (by omega) h1).2.trans hL⟩
  · by_cases h1 : i < n
    · rw [(h.apex i h1 n (Or.inl rfl)).1, (h.apex i h1 n (Or.inl rfl)).2]
      exact ⟨h.le.trans hL, h.le.trans hL⟩
    · have : i = n ∨ i = n + 1 := by omega
      rcases this with rfl | rfl
      · rw [h.diag i (by omega)]
        exact ⟨h0, h0⟩
      · rw [h.far.1, h.far.2]
        exact ⟨hL, hL⟩

end IsSuspension

/-- The barcode moves up one dimension. -/
theorem IsRipsBarcode.suspension {r L : F} (h : IsSuspension n d r L) {p : ℕ} (hp : 1 ≤ p) {bars : Multiset (F × WithTop F)} : IsRipsBarcode K n d p bars ↔ IsRipsBarcode K (n + 2) d (p + 1) bars := by
  unfold IsRipsBarcode IsBarcode
  refine and_congr_right fun _ => forall_congr' fun s => forall_congr' fun t => forall_congr' fun hst => ?_
  beta_reduce
  rw [h.betti hp hst]

end
end Phlite
