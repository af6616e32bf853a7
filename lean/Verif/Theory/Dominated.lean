/-
Removing a point whose distances are not less than those of its nearest neighbour.
-/
import Verif.Theory.Clusters
import Verif.Theory.Unique

set_option linter.unusedSectionVars false
set_option linter.unusedSimpArgs false

namespace Phlite
open Finsupp (single linearCombination linearCombination_single supported)

section
variable {K F : Type} [Field K] [LinearOrder F] [Zero F] {n : ℕ} {d : ℕ → ℕ → F}

/-- At scale `u` every neighbour of the point `n` is a neighbour of the point 0. -/
def DominatedAt (n : ℕ) (d : ℕ → ℕ → F) (u : F) : Prop := ∀ a < n + 1, (d n a ≤ u → d 0 a ≤ u) ∧ (d a n ≤ u → d a 0 ≤ u)

theorem DominatedAt.simplex {u : F} (h : DominatedAt n d u) {σ : Finset ℕ} (hσ : σ ⊆ Finset.range (n + 1)) (hn : n ∈ σ) (h3 : ∀ a ∈ σ, ∀ b ∈ σ, d a b ≤ u) :
    ∀ a ∈ insert 0 σ, ∀ b ∈ insert 0 σ, d a b ≤ u := by
  have hlt : ∀ a ∈ σ, a < n + 1 := fun a ha => Finset.mem_range.1 (hσ ha)
  intro a ha b hb
  rcases Finset.mem_insert.1 ha with rfl | ha <;> rcases Finset.mem_insert.1 hb with rfl | hb
  · exact (h 0 (by omega)).2 ((h n (by omega)).1 (h3 n hn n hn))
  · exact (h b (hlt b hb)).1 (h3 n hn b hb)
  · exact (h a (hlt a ha)).2 (h3 a ha n hn)
  · exact h3 a ha b hb

theorem dominated_move (hn : 1 ≤ n) {u : F} {q : ℕ} (h : DominatedAt n d u ∨ 1 ≤ q ∧ ∀ a < n, u < d n a) :
    ∀ z ∈ supported K K (vietorisRips (n + 1) d q u), twinMove K n z ∈ supported K K (vietorisRips n d q u) := by
  classical
  refine map_supported _ ?_
  rintro σ ⟨h1, h2, h3⟩
  by_cases hnσ : n ∈ σ
  · rcases h with h | ⟨hq, hfar⟩
    · obtain ⟨k, hk⟩ := twinMove_move (K := K) hn hnσ
      rw [hk]
      split
      · exact Submodule.zero_mem _
      · rename_i h0
        refine Finsupp.single_mem_supported K k ⟨?_, ?_, ?_⟩
        · intro x hx
          rcases Finset.mem_insert.1 hx with rfl | hx
          · exact Finset.mem_range.2 hn
          · obtain ⟨h4, h5⟩ := Finset.mem_erase.1 hx
            have := Finset.mem_range.1 (h1 h5)
            exact Finset.mem_range.2 (by omega)
        · rw [Finset.card_insert_of_notMem (fun h => h0 (Finset.mem_of_mem_erase h)), Finset.card_erase_of_mem hnσ, h2]
          rfl
        · have hsub : insert 0 (σ.erase n) ⊆ insert 0 σ := Finset.insert_subset_insert _ (Finset.erase_subset _ _)
          exact fun a ha b hb => h.simplex h1 hnσ h3 a (hsub ha) b (hsub hb)
    · exfalso
      obtain ⟨a, ha, hne⟩ := Finset.exists_mem_ne (by omega : 1 < σ.card) n
      have hlt := Finset.mem_range.1 (h1 ha)
      exact absurd (h3 n hnσ a ha) (not_le.2 (hfar a (by omega)))
  · rw [twinMove_id hnσ]
    refine Finsupp.single_mem_supported K 1 ⟨?_, h2, h3⟩
    intro x hx
    have := Finset.mem_range.1 (h1 hx)
    have : x ≠ n := fun e => hnσ (e ▸ hx)
    exact Finset.mem_range.2 (by omega)

theorem dominated_cone {u : F} {q : ℕ} (h : DominatedAt n d u ∨ 1 ≤ q ∧ ∀ a < n, u < d n a) :
    ∀ z ∈ supported K K (vietorisRips (n + 1) d q u), twinCone K n z ∈ supported K K (vietorisRips (n + 1) d (q + 1) u) := by
  classical
  refine map_supported _ ?_
  rintro σ ⟨h1, h2, h3⟩
  rw [twinCone, linearCombination_single, one_smul]
  split
  · rename_i h0
    rcases h with h | ⟨hq, hfar⟩
    · refine Finsupp.single_mem_supported K 1 ⟨?_, ?_, h.simplex h1 h0.1 h3⟩
      · intro x hx
        rcases Finset.mem_insert.1 hx with rfl | hx
        · exact Finset.mem_range.2 (by omega)
        · exact h1 hx
      · rw [Finset.card_insert_of_notMem h0.2, h2]
    · exfalso
      obtain ⟨a, ha, hne⟩ := Finset.exists_mem_ne (by omega : 1 < σ.card) n
      have hlt := Finset.mem_range.1 (h1 ha)
      exact absurd (h3 n h0.1 a ha) (not_le.2 (hfar a (by omega)))
  · exact Submodule.zero_mem _

/-- The last point can be removed if at both scales it is dominated by the first one, or isolated (in positive degrees). -/
theorem betti_dominated (hn : 1 ≤ n) {p : ℕ} {s t : F} (hst : s ≤ t) (hs : DominatedAt n d s ∨ 1 ≤ p ∧ ∀ a < n, s < d n a) (ht : DominatedAt n d t) :
    persistentBetti (simplexBoundary K) (vietorisRips_mono n d p hst) (vietorisRips_mono n d (p + 1) hst) =
      persistentBetti (simplexBoundary K) (vietorisRips_mono (n + 1) d p hst) (vietorisRips_mono (n + 1) d (p + 1) hst) := by
  classical
  refine betti_retract (K := K) _ _ _ _ (vietorisRips_succ p s) (vietorisRips_succ p t) (vietorisRips_succ (p + 1) s) (vietorisRips_succ (p + 1) t) (twinMove K n) ?_ ?_ ?_ ?_
  · intro z hz
    have key : ∀ z ∈ supported K K (vietorisRips n d p t), (twinMove K n - (LinearMap.id : (Finset ℕ →₀ K) →ₗ[K] (Finset ℕ →₀ K))) z = 0 := by
      intro z hz
      rw [Finsupp.supported_eq_span_single] at hz
      refine (Submodule.span_le (p := LinearMap.ker (twinMove K n - (LinearMap.id : (Finset ℕ →₀ K) →ₗ[K] (Finset ℕ →₀ K))))).2 ?_ hz
      rintro _ ⟨σ, hσ, rfl⟩
      show (twinMove K n - (LinearMap.id : (Finset ℕ →₀ K) →ₗ[K] (Finset ℕ →₀ K))) (single σ 1) = 0
      rw [LinearMap.sub_apply, twinMove_id, LinearMap.id_apply, sub_self]
      intro h
      exact absurd (Finset.mem_range.1 (hσ.1 h)) (lt_irrefl _)
    exact sub_eq_zero.1 (key z hz)
  · rintro z ⟨h1, h2⟩
    refine ⟨dominated_move hn hs z h1, ?_⟩
    show bdry (simplexBoundary K) (twinMove K n z) = 0
    rw [← twinMove_bdry, LinearMap.mem_ker.1 h2, map_zero]
  · rintro _ ⟨w, hw, rfl⟩
    exact ⟨twinMove K n w, dominated_move hn (.inl ht) w hw, (twinMove_bdry n w).symm⟩
  · rintro z ⟨h1, h2⟩
    refine ⟨twinCone K n z, dominated_cone hs z h1, ?_⟩
    rw [twinMove, LinearMap.sub_apply, LinearMap.sub_apply, LinearMap.comp_apply, LinearMap.comp_apply, LinearMap.mem_ker.1 h2, map_zero]
    simp

/-- The persistent Betti numbers of a single point. -/
theorem betti_point {d : ℕ → ℕ → F} (h0 : d 0 0 = 0) (p : ℕ) {s t : F} (hst : s ≤ t) :
    persistentBetti (simplexBoundary K) (vietorisRips_mono 1 d p hst) (vietorisRips_mono 1 d (p + 1) hst) = if p = 0 ∧ 0 ≤ s then 1 else 0 := by
  split
  · rename_i h
    obtain ⟨rfl, hs⟩ := h
    have hz : ∀ i < 1, i = 0 := fun i hi => by omega
    rw [rips_components (fun i hi => by rw [hz i hi]; exact h0) (fun i hi j hj => by rw [hz i hi, hz j hj]) hs hst]
    exact componentCount_complete le_rfl fun a ha b hb _ => by
      rw [hz a ha, hz b hb, h0]; exact hs.trans hst
  · rename_i h
    refine betti_empty _ _ ?_
    rw [Set.eq_empty_iff_forall_notMem]
    rintro σ ⟨h1, h2, h3⟩
    have hc := Finset.card_le_card h1
    rw [Finset.card_range] at hc
    refine h ⟨by omega, ?_⟩
    obtain ⟨a, ha⟩ := Finset.card_pos.1 (by omega : 0 < σ.card)
    have := h3 a ha a ha
    obtain rfl : a = 0 := by have := Finset.mem_range.1 (h1 ha); omega
    rwa [h0] at this

/-- The point `n` can be removed if its nearest neighbour is the point 0, to which all points are at least as near: only the interval of degree 0 that ends at its distance
is lost. -/
theorem IsRipsBarcode.pendant (hn : 1 ≤ n) (hdiag : ∀ i < n + 1, d i i = 0) (hsymm : ∀ i < n + 1, ∀ j < n + 1, d i j = d j i) (h0 : 0 ≤ d 0 n)
    (hnear : ∀ a < n, d 0 n ≤ d a n) (hdom : ∀ a < n, d 0 a ≤ d n a) {p : ℕ} {bars : Multiset (F × WithTop F)} (h : IsRipsBarcode K n d p bars) :
    IsRipsBarcode K (n + 1) d p (if p = 0 ∧ 0 < d 0 n then (0, (d 0 n : WithTop F)) ::ₘ bars else bars) := by
  have hdomAt : ∀ u, d 0 n ≤ u → DominatedAt n d u := by
    intro u hu a ha
    by_cases e : a = n
    · subst e
      refine ⟨fun _ => hu, fun _ => ?_⟩
      rw [hsymm a ha 0 (by omega)]; exact hu
    · have ha' : a < n := by omega
      refine ⟨fun h => (hdom a ha').trans h, fun h => ?_⟩
      rw [hsymm a ha 0 (by omega)]
      rw [hsymm a ha n (by omega)] at h
      exact (hdom a ha').trans h
  refine ⟨fun b hb => ?_, fun s t hst => ?_⟩
  · split at hb
    · rename_i hc
      rcases Multiset.mem_cons.1 hb with rfl | hb
      · exact WithTop.coe_lt_coe.2 hc.2
      · exact h.1 b hb
    · exact h.1 b hb
  have hlhs : aliveBars (if p = 0 ∧ 0 < d 0 n then (0, (d 0 n : WithTop F)) ::ₘ bars else bars) s t = aliveBars bars s t + if p = 0 ∧ 0 ≤ s ∧ t < d 0 n then 1 else 0 := by
    by_cases hc : p = 0 ∧ 0 < d 0 n
    · rw [if_pos hc, aliveBars_cons]
      simp only [hc.1, true_and, WithTop.coe_lt_coe]
    · rw [if_neg hc, if_neg, add_zero]
      rintro ⟨h1, h2, h3⟩
      exact hc ⟨h1, h2.trans_lt (hst.trans_lt h3)⟩
  rw [hlhs, h.2 s t hst]
  by_cases ht : t < d 0 n
  · have hc := betti_clusters (K := K) (n := n) (m := 1) (d := d) (dA := d) (dB := fun i j => d (i + n) (j + n)) (fun _ _ _ _ => rfl) (fun _ _ _ _ => rfl)
      (R := d 0 n) (fun i hi j hj => by obtain rfl : j = 0 := by omega
                                        rw [zero_add]; exact hnear i hi) p hst ht
    refine Eq.trans ?_ hc.symm
    have hpt := betti_point (K := K) (d := fun i j => d (i + n) (j + n)) (hdiag (0 + n) (by omega)) p hst
    have hcond : (if p = 0 ∧ 0 ≤ s ∧ t < d 0 n then 1 else 0) = if p = 0 ∧ 0 ≤ s then 1 else 0 := by simp only [ht, and_true]
    rw [hcond, ← hpt]
  · rw [not_lt] at ht
    rw [if_neg (fun h => absurd ht (not_le.2 h.2.2)), add_zero]
    by_cases hs : d 0 n ≤ s
    · exact betti_dominated hn hst (.inl (hdomAt s hs)) (hdomAt t ht)
    rw [not_le] at hs
    by_cases hp : p = 0
    · subst hp
      by_cases hs0 : 0 ≤ s
      · have hd' : ∀ i < n, d i i = 0 := fun i hi => hdiag i (by omega)
        have hs' : ∀ i < n, ∀ j < n, d i j = d j i := fun i hi j hj => hsymm i (by omega) j (by omega)
        have e1 := rips_components (K := K) hd' hs' hs0 hst
        have e2 := rips_components (K := K) hdiag hsymm hs0 hst
        have e3 := rips_components (K := K) hd' hs' (hs0.trans hst) le_rfl
        have e4 := rips_components (K := K) hdiag hsymm (hs0.trans hst) le_rfl
        have e5 := betti_dominated (K := K) hn (le_refl t) (p := 0) (.inl (hdomAt t ht)) (hdomAt t ht)
        exact (e1.trans e3.symm).trans (e5.trans (e4.trans e2.symm))
      · have hempty : ∀ {m : ℕ}, (∀ i < m, d i i = 0) → vietorisRips m d 0 s = ∅ := by
          intro m hd
          rw [Set.eq_empty_iff_forall_notMem]
          rintro σ ⟨h1, h2, h3⟩
          obtain ⟨a, ha⟩ := Finset.card_pos.1 (by omega : 0 < σ.card)
          have := h3 a ha a ha
          rw [hd a (Finset.mem_range.1 (h1 ha))] at this
          exact hs0 this
        exact (betti_empty _ _ (hempty fun i hi => hdiag i (by omega))).trans (betti_empty _ _ (hempty hdiag)).symm
    · refine betti_dominated hn hst (.inr ⟨by omega, fun a ha => hs.trans_le ?_⟩) (hdomAt t ht)
      rw [hsymm n (by omega) a (by omega)]
      exact hnear a ha

/-- A point `x` can be removed if all other points are at least as near to its nearest neighbour `y` as to `x`. -/
theorem IsRipsBarcode.adjoin {N x y : ℕ} {d' : ℕ → ℕ → F} {f : ℕ → ℕ} (hdiag : ∀ i < N, d i i = 0) (hsymm : ∀ i < N, ∀ j < N, d i j = d j i) (hx : x < N) (hy : y < N)
    (hxy : y ≠ x) (h0 : 0 ≤ d x y) (hnear : ∀ a < N, a ≠ x → d x y ≤ d x a) (hdom : ∀ a < N, a ≠ x → d y a ≤ d x a)
    (hf : ∀ i < n, f i < N ∧ f i ≠ x) (hinj : ∀ i < n, ∀ j < n, f i = f j → i = j) (hsurj : ∀ a < N, a ≠ x → ∃ i < n, f i = a)
    (hd' : ∀ i < n, ∀ j < n, d' i j = d (f i) (f j)) {p : ℕ} {bars : Multiset (F × WithTop F)} (h : IsRipsBarcode K n d' p bars) :
    IsRipsBarcode K N d p (if p = 0 ∧ 0 < d x y then (0, (d x y : WithTop F)) ::ₘ bars else bars) := by
  classical
  obtain ⟨q, hq, hqy⟩ := hsurj y hy hxy
  have hsw : ∀ i, i < n ↔ Equiv.swap 0 q i < n := by
    intro i
    by_cases h0 : i = 0
    · subst h0; rw [Equiv.swap_apply_left]; omega
    by_cases h1 : i = q
    · subst h1; rw [Equiv.swap_apply_right]; omega
    · rw [Equiv.swap_apply_of_ne_of_ne h0 h1]
  -- the points in the order `y`, ..., `x`
  let G : ℕ → ℕ := fun i => if i < n then f (Equiv.swap 0 q i) else x
  have hGn : ∀ i < n, G i = f (Equiv.swap 0 q i) := fun i hi => if_pos hi
  have hGx : G n = x := if_neg (lt_irrefl n)
  have hG0 : G 0 = y := by rw [hGn 0 (by omega), Equiv.swap_apply_left, hqy]
  have hGlt : ∀ i < n + 1, G i < N := by
    intro i hi
    by_cases e : i < n
    · rw [hGn i e]; exact (hf _ ((hsw i).1 e)).1
    · obtain rfl : i = n := by omega
      rw [hGx]; exact hx
  have hGne : ∀ i < n, G i ≠ x := fun i hi => by rw [hGn i hi]; exact (hf _ ((hsw i).1 hi)).2
  have hGinj : ∀ i < n + 1, ∀ j < n + 1, G i = G j → i = j := by
    intro i hi j hj hij
    by_cases ei : i < n <;> by_cases ej : j < n
    · rw [hGn i ei, hGn j ej] at hij
      exact (Equiv.swap 0 q).injective (hinj _ ((hsw i).1 ei) _ ((hsw j).1 ej) hij)
    · obtain rfl : j = n := by omega
      exact absurd (hij.trans hGx) (hGne i ei)
    · obtain rfl : i = n := by omega
      exact absurd (hij.symm.trans hGx) (hGne j ej)
    · omega
  have hGsurj : ∀ a < N, ∃ i < n + 1, G i = a := by
    intro a ha
    by_cases e : a = x
    · exact ⟨n, by omega, by rw [hGx, e]⟩
    · obtain ⟨i, hi, rfl⟩ := hsurj a ha e
      have : Equiv.swap 0 q i < n := (hsw i).1 hi
      exact ⟨Equiv.swap 0 q i, by omega, by rw [hGn _ this, Equiv.swap_apply_self]⟩
  have h1 : IsRipsBarcode K n (fun i j => d (G i) (G j)) p bars :=
    h.permute (Equiv.swap 0 q) hsw fun i hi j hj => by
      rw [hGn i hi, hGn j hj, hd' _ ((hsw i).1 hi) _ ((hsw j).1 hj)]
  have hxy' : d y x = d x y := hsymm y hy x hx
  have h2 := IsRipsBarcode.pendant (K := K) (n := n) (d := fun i j => d (G i) (G j)) (by omega) (fun i hi => hdiag _ (hGlt i hi))
    (fun i hi j hj => hsymm _ (hGlt i hi) _ (hGlt j hj)) (by rw [hG0, hGx, hxy']; exact h0)
    (fun a ha => by
      rw [hG0, hGx, hxy', hsymm _ (hGlt a (by omega)) x hx]
      exact hnear _ (hGlt a (by omega)) (hGne a ha))
    (fun a ha => by
      rw [hG0, hGx]
      exact hdom _ (hGlt a (by omega)) (hGne a ha)) h1
  rw [hG0, hGx, hxy'] at h2
  choose! g hg using hGsurj
  refine h2.pullback g (fun i hi => (hg i hi).1) (fun j hj => ⟨G j, hGlt j hj, hGinj _ (hg _ (hGlt j hj)).1 _ hj (hg _ (hGlt j hj)).2⟩) fun i hi j hj => ?_
  show d i j = d (G (g i)) (G (g j))
  rw [(hg i hi).2, (hg j hj).2]

/-- The barcode of fewer than two points. -/
theorem ripsBarcode_small (hn : n ≤ 1) (hdiag : ∀ i < n, d i i = 0) (p : ℕ) : IsRipsBarcode K n d p (if p = 0 ∧ n = 1 then {(0, ⊤)} else 0) := by
  refine ⟨fun b hb => ?_, fun s t hst => ?_⟩
  · split at hb
    · rw [Multiset.mem_singleton.1 hb]; exact WithTop.coe_lt_top _
    · exact absurd hb (Multiset.notMem_zero b)
  rcases Nat.eq_zero_or_pos n with rfl | h
  · rw [if_neg (by simp), aliveBars_zero]
    refine (betti_empty _ _ ?_).symm
    rw [Set.eq_empty_iff_forall_notMem]
    rintro σ ⟨h1, h2, h3⟩
    have := Finset.card_le_card h1
    rw [Finset.card_range] at this
    omega
  · obtain rfl : n = 1 := by omega
    refine Eq.trans ?_ (betti_point (K := K) (hdiag 0 h) p hst).symm
    by_cases hp : p = 0
    · subst hp
      rw [if_pos ⟨rfl, rfl⟩, ← Multiset.cons_zero, aliveBars_cons, aliveBars_zero]
      simp [WithTop.coe_lt_top]
    · rw [if_neg (fun h => hp h.1), if_neg (fun h => hp h.1), aliveBars_zero]

/-- If each point but the first one is attached to an earlier one that is nearest among the earlier ones, and to which these are at least as near, the barcode is that of a tree. -/
theorem ripsBarcode_attached {parent : ℕ → ℕ} (hdiag : ∀ i < n, d i i = 0) (hsymm : ∀ i < n, ∀ j < n, d i j = d j i) (hnonneg : ∀ i < n, ∀ j < n, 0 ≤ d i j)
    (hpar : ∀ i < n, 1 ≤ i → parent i < i ∧ ∀ a < i, d i (parent i) ≤ d i a ∧ d (parent i) a ≤ d i a) (hn : 1 ≤ n) (p : ℕ) :
    IsRipsBarcode K n d p (if p = 0 then (0, ⊤) ::ₘ (((List.range n).filter fun i => 1 ≤ i ∧ 0 < d i (parent i)).map fun i => ((0 : F), (d i (parent i) : WithTop F)) : List _) else 0) := by
  induction n with
  | zero => omega
  | succ n ih =>
    rcases Nat.eq_zero_or_pos n with rfl | h0
    · have := ripsBarcode_small (K := K) (d := d) (n := 0 + 1) le_rfl hdiag p
      convert this using 1
      by_cases hp : p = 0
      · subst hp; simp
      · rw [if_neg hp, if_neg fun h => hp h.1]
    · have h1 := ih (fun i hi => hdiag i (by omega)) (fun i hi j hj => hsymm i (by omega) j (by omega)) (fun i hi j hj => hnonneg i (by omega) j (by omega))
        (fun i hi => hpar i (by omega)) h0
      obtain ⟨hp1, hp2⟩ := hpar n (by omega) h0
      have h2 := h1.adjoin (N := n + 1) (x := n) (y := parent n) (d := d) (f := id) hdiag hsymm (by omega) (by omega) hp1.ne (hnonneg _ (by omega) _ (by omega))
        (fun a ha e => (hp2 a (by omega)).1) (fun a ha e => (hp2 a (by omega)).2) (fun i hi => ⟨Nat.lt_succ_of_lt hi, hi.ne⟩) (fun i _ j _ e => e)
        (fun a ha e => ⟨a, by omega, rfl⟩) (fun _ _ _ _ => rfl)
      convert h2 using 1
      by_cases hp : p = 0
      · subst hp
        rw [List.range_succ, List.filter_append, List.map_append, if_pos rfl, if_pos rfl]
        by_cases hw : 0 < d n (parent n)
        · rw [if_pos ⟨rfl, hw⟩, List.filter_cons_of_pos (by simpa using ⟨h0, hw⟩), ← Multiset.coe_add, Multiset.cons_swap]
          rw [Multiset.add_comm]; rfl
        · rw [if_neg (fun h => hw h.2), List.filter_cons_of_neg (by simpa using fun _ => not_lt.1 hw)]
          simp
      · rw [if_neg hp, if_neg hp, if_neg fun h => hp h.1]

/-- If in each set of points there is one whose neighbours, at every scale, are neighbours of each other, there are no intervals in positive degrees. -/
theorem ripsBarcode_simplicial (hdiag : ∀ i < n, d i i = 0) (hsymm : ∀ i < n, ∀ j < n, d i j = d j i) (hnonneg : ∀ i < n, ∀ j < n, 0 ≤ d i j)
    (h : ∀ S ⊆ Finset.range n, S.Nonempty → ∃ x ∈ S, ∀ a ∈ S, ∀ b ∈ S, a ≠ x → b ≠ x → d a b ≤ max (d x a) (d x b)) {p : ℕ} (hp : 1 ≤ p) : IsRipsBarcode K n d p 0 := by
  classical
  induction n generalizing d with
  | zero =>
    have := ripsBarcode_small (K := K) (d := d) (n := 0) (by omega) hdiag p
    rwa [if_neg (by omega)] at this
  | succ n ih =>
    rcases Nat.eq_zero_or_pos n with rfl | h0
    · have := ripsBarcode_small (K := K) (d := d) (n := 0 + 1) le_rfl hdiag p
      rwa [if_neg (by omega)] at this
    obtain ⟨x, hxS, hx⟩ := h (Finset.range (n + 1)) subset_rfl ⟨0, by simp⟩
    have hxn := Finset.mem_range.1 hxS
    obtain ⟨y, hyS, hy⟩ := Finset.exists_min_image ((Finset.range (n + 1)).erase x) (fun a => d x a) (by
      rw [← Finset.card_pos, Finset.card_erase_of_mem hxS, Finset.card_range]; omega)
    obtain ⟨hyx, hyn⟩ := Finset.mem_erase.1 hyS
    have hyn := Finset.mem_range.1 hyn
    let f : ℕ → ℕ := Equiv.swap x n
    have hf : ∀ i < n, f i < n + 1 ∧ f i ≠ x := by
      intro i hi
      refine ⟨?_, fun e => ?_⟩
      · show Equiv.swap x n i < n + 1
        rw [Equiv.swap_apply_def]
        split
        · omega
        · split <;> omega
      · have : i = Equiv.swap x n x := (Equiv.swap_apply_self x n i).symm.trans (congrArg _ e)
        rw [Equiv.swap_apply_left] at this
        omega
    have hsurj : ∀ a < n + 1, a ≠ x → ∃ i < n, f i = a := by
      intro a ha hne
      refine ⟨Equiv.swap x n a, ?_, Equiv.swap_apply_self x n a⟩
      rw [Equiv.swap_apply_def, if_neg hne]
      split <;> omega
    have hd : ∀ i < n, ∀ j < n, f i < n + 1 ∧ f j < n + 1 := fun i hi j hj => ⟨(hf i hi).1, (hf j hj).1⟩
    have h1 : IsRipsBarcode K n (fun i j => d (f i) (f j)) p 0 := by
      refine ih (fun i hi => hdiag _ (hf i hi).1) (fun i hi j hj => hsymm _ (hf i hi).1 _ (hf j hj).1) (fun i hi j hj => hnonneg _ (hf i hi).1 _ (hf j hj).1) fun S hS hne => ?_
      obtain ⟨z, hz, hz'⟩ := h (S.image f) (fun a ha => by
        obtain ⟨i, hi, rfl⟩ := Finset.mem_image.1 ha
        exact Finset.mem_range.2 (hf i (Finset.mem_range.1 (hS hi))).1) (hne.image f)
      obtain ⟨i, hi, rfl⟩ := Finset.mem_image.1 hz
      exact ⟨i, hi, fun a ha b hb hai hbi => hz' (f a) (Finset.mem_image_of_mem f ha) (f b) (Finset.mem_image_of_mem f hb)
        (fun e => hai ((Equiv.swap x n).injective e)) (fun e => hbi ((Equiv.swap x n).injective e))⟩
    have h2 := h1.adjoin (N := n + 1) (x := x) (y := y) (d := d) (f := f) hdiag hsymm hxn hyn hyx (hnonneg _ hxn _ hyn)
      (fun a ha e => hy a (Finset.mem_erase.2 ⟨e, Finset.mem_range.2 ha⟩))
      (fun a ha e => (hx y (Finset.mem_range.2 hyn) a (Finset.mem_range.2 ha) hyx e).trans (max_le (hy a (Finset.mem_erase.2 ⟨e, Finset.mem_range.2 ha⟩)) le_rfl))
      hf (fun i _ j _ e => (Equiv.swap x n).injective e) hsurj (fun _ _ _ _ => rfl)
    rwa [if_neg (by omega)] at h2

end
end Phlite
