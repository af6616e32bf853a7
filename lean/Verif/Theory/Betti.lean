/-
Existence of reduced decompositions, and the count of bars as persistent Betti number.
-/
import Verif.Proofs.Standard
import Mathlib.LinearAlgebra.FiniteDimensional.Basic

set_option linter.unusedSectionVars false
set_option linter.unusedSimpArgs false

namespace Phlite
open Finsupp (single linearCombination linearCombination_single)

variable {K T L : Type} [Field K] [LinearOrder L]

theorem exists_reduce {key : T → L} (hk : Function.Injective key) (pre : List T) (Rv : T → (T →₀ K)) (S : Finset T)
    (hS : ∀ j ∈ pre, ∀ r, IsLead key (Rv j) r → r ∈ S) (n : ℕ) (v : T →₀ K)
    (hn : ∀ A : Finset T, A ⊆ S → (∀ x ∈ A, ∃ p, IsLead key v p ∧ key x ≤ key p) → A.card ≤ n) :
    ∃ a : T →₀ K, (∀ j, a j ≠ 0 → j ∈ pre) ∧
      ∀ c ∈ pre, ∀ r, IsLead key (Rv c) r → ¬ IsLead key (v + linearCombination K Rv a) r := by
  classical
  induction n using Nat.strong_induction_on generalizing v with
  | _ n ih =>
    by_cases h : ∃ c ∈ pre, ∃ r, IsLead key (Rv c) r ∧ IsLead key v r
    · obtain ⟨c, hc, r, hr, hv⟩ := h
      set k : K := -(v r) * (Rv c r)⁻¹ with hkdef
      have hz : (v + k • Rv c) r = 0 := by
        rw [Finsupp.add_apply, Finsupp.smul_apply, smul_eq_mul, hkdef, mul_assoc, inv_mul_cancel₀ hr.1]; ring
      have hlt : ∀ p, IsLead key (v + k • Rv c) p → key p < key r := by
        intro p hp
        rcases lt_trichotomy (key p) (key r) with h | h | h
        · exact h
        · rw [hk h] at hp; exact absurd hz hp.1
        · exfalso
          apply hp.1
          have h1 : v p = 0 := by by_contra hne; exact absurd (hv.2 p hne) (not_le.2 h)
          have h2 : Rv c p = 0 := by by_contra hne; exact absurd (hr.2 p hne) (not_le.2 h)
          simp [h1, h2]
      have hrS := hS c hc r hr
      have hn0 : 0 < n := by
        have := hn {r} (by simpa using hrS) (by intro x hx; rw [Finset.mem_singleton.1 hx]; exact ⟨r, hv, le_refl _⟩)
        simp at this; omega
      obtain ⟨a, h1, h2⟩ := ih (n - 1) (by omega) (v + k • Rv c) (by
        intro A hA hAp
        have hrA : r ∉ A := by
          intro hrA
          obtain ⟨p, hp, hle⟩ := hAp r hrA
          exact absurd (hlt p hp) (not_lt.2 hle)
        have := hn (insert r A) (Finset.insert_subset hrS hA) (by
          intro x hx
          rcases Finset.mem_insert.1 hx with rfl | hx
          · exact ⟨x, hv, le_refl _⟩
          · obtain ⟨p, hp, hle⟩ := hAp x hx
            exact ⟨r, hv, hle.trans (hlt p hp).le⟩)
        rw [Finset.card_insert_of_notMem hrA] at this
        omega)
      refine ⟨a + single c k, ?_, ?_⟩
      · intro j hj
        by_cases haj : a j = 0
        · rw [Finsupp.add_apply, haj, zero_add, Finsupp.single_apply] at hj
          split at hj
          · rename_i hcj; rw [← hcj]; exact hc
          · exact absurd rfl hj
        · exact h1 j haj
      · have : v + linearCombination K Rv (a + single c k) = v + k • Rv c + linearCombination K Rv a := by
          rw [map_add, linearCombination_single]; abel
        rw [this]; exact h2
    · push Not at h
      exact ⟨0, by simp, by simpa using h⟩

/-- Every matrix has a reduced decomposition. -/
theorem exists_decomp {key : T → L} (hk : Function.Injective key) (cols : List T) (hnd : cols.Nodup) (M : T → (T →₀ K)) :
    ∃ W, Decomp key cols M W := by
  classical
  induction cols using List.reverseRecOn with
  | nil => exact ⟨fun _ => 0, by simp, by simp, by simp, by simp⟩
  | append_singleton pre b ih =>
    rw [List.nodup_append] at hnd
    obtain ⟨W, hW⟩ := ih hnd.1
    have hb : b ∉ pre := fun h => hnd.2.2 b h b (by simp) rfl
    let Rv : T → (T →₀ K) := fun j => linearCombination K M (W j)
    let S : Finset T := pre.toFinset.biUnion fun j => (Rv j).support
    obtain ⟨a, h1, h2⟩ := exists_reduce (K := K) hk pre Rv S (by
      intro j hj r hr
      simp only [S, Finset.mem_biUnion, List.mem_toFinset]
      exact ⟨j, hj, by simpa using hr.1⟩) S.card (M b) (fun A hA _ => Finset.card_le_card hA)
    refine ⟨Function.update W b (single b 1 + linearCombination K W a), ?_⟩
    have hab : linearCombination K W a b = 0 := by
      by_contra hne
      obtain ⟨j, g1, g2⟩ := lc_support hne
      exact hb (hW.mem_of_ne (h1 j g1) g2)
    refine hW.snoc hb ?_ ?_ ?_ ?_
    · intro c hc
      rw [Function.update_of_ne]
      rintro rfl; exact hb hc
    · rw [Function.update_self, Finsupp.add_apply, hab]; simp
    · intro d hd
      rw [Function.update_self, Finsupp.add_apply] at hd
      by_cases hdb : d = b
      · exact Or.inl hdb
      · rw [Finsupp.single_eq_of_ne hdb, zero_add] at hd
        obtain ⟨j, g1, g2⟩ := lc_support hd
        exact Or.inr (hW.mem_of_ne (h1 j g1) g2)
    · intro c hc r hr
      rw [Function.update_self, map_add, linearCombination_single, one_smul, lc_lc]
      exact h2 c hc r hr

/-! ### Betti numbers -/

/-- Rank-nullity for a linear map restricted to a finite-dimensional subspace. -/
theorem finrank_map_add {V V' : Type} [AddCommGroup V] [Module K V] [AddCommGroup V'] [Module K V'] (g : V →ₗ[K] V')
    (P : Submodule K V) [FiniteDimensional K P] :
    Module.finrank K (P.map g) + Module.finrank K (P ⊓ LinearMap.ker g : Submodule K V) = Module.finrank K P := by
  have h := LinearMap.finrank_range_add_finrank_ker (g.domRestrict P)
  rw [← h]
  congr 1
  · rw [LinearMap.range_domRestrict]
  · have e : LinearMap.ker (g.domRestrict P) = (P ⊓ LinearMap.ker g).comap P.subtype := by
      ext x
      simp [LinearMap.mem_ker]
    rw [e]
    exact (LinearEquiv.finrank_eq (Submodule.comapSubtypeEquivOfLe (inf_le_left : P ⊓ LinearMap.ker g ≤ P))).symm

theorem finrank_quotBy {V : Type} [AddCommGroup V] [Module K V] {Z Z' B B' : Submodule K V} (hZ : Z ≤ Z') (hB : B ≤ B')
    [FiniteDimensional K Z] :
    Module.finrank K (LinearMap.range (quotByMap hZ hB)) + Module.finrank K (Z ⊓ B' : Submodule K V) = Module.finrank K Z := by
  have hr : LinearMap.range (quotByMap hZ hB) =
      LinearMap.range ((B'.comap Z'.subtype).mkQ ∘ₗ Submodule.inclusion hZ) := by
    rw [quotByMap, Submodule.mapQ, Submodule.range_liftQ]
  rw [hr]
  have h := LinearMap.finrank_range_add_finrank_ker ((B'.comap Z'.subtype).mkQ ∘ₗ Submodule.inclusion hZ)
  rw [← h]
  congr 1
  have e : LinearMap.ker ((B'.comap Z'.subtype).mkQ ∘ₗ Submodule.inclusion hZ) = (Z ⊓ B').comap Z.subtype := by
    ext x
    simp [LinearMap.mem_ker]
  rw [e]
  exact (LinearEquiv.finrank_eq (Submodule.comapSubtypeEquivOfLe (inf_le_left : Z ⊓ B' ≤ Z))).symm

theorem supported_fd (X : List T) : FiniteDimensional K (Finsupp.supported K K {x | x ∈ X}) := by
  rw [Finsupp.supported_eq_span_single]
  apply FiniteDimensional.span_of_finite
  exact (List.finite_toSet X).image _

theorem finrank_supported (X : List T) (hX : X.Nodup) : Module.finrank K (Finsupp.supported K K {x | x ∈ X}) = X.length := by
  classical
  rw [LinearEquiv.finrank_eq (Finsupp.supportedEquivFinsupp {x | x ∈ X})]
  have : Fintype {x | x ∈ X} := List.Subtype.fintype X
  rw [Module.finrank_finsupp_self, Fintype.card_of_subtype X.toFinset (by simp), List.toFinset_card_of_nodup hX]

theorem boundariesOn_eq_span (M : T → (T →₀ K)) (Y : Set T) : boundariesOn M Y = Submodule.span K (M '' Y) := by
  unfold boundariesOn bdry
  rw [Finsupp.span_image_eq_map_linearCombination]

open Classical in
/-- Counting bars gives persistent Betti numbers. -/
theorem betti_count {key : T → L} (hk : Function.Injective key) {M : T → (T →₀ K)} {Xs Ys X0 Xr Y1 Yr : List T}
    (hXs : Xs.Pairwise fun a b => key a < key b) (hYs : Ys.Nodup) (hX : Xs = X0 ++ Xr) (hY : Ys = Y1 ++ Yr)
    (hrows : ∀ y ∈ Ys, ∀ r, M y r ≠ 0 → r ∈ Xs) (hsq : ∀ y ∈ Ys, bdry M (M y) = 0) {X' Y : Set T}
    (hXX : {x | x ∈ X0} ⊆ X') (hYY : Y ⊆ {y | y ∈ Y1}) :
    persistentBetti M hXX hYY = X0.countP fun x => (¬ ∃ ρ, IsPersistencePair key Xs M ρ x) ∧
      ¬ ∃ y ∈ Y1, IsPersistencePair key Ys M x y := by
  have hXnd : Xs.Nodup := hXs.imp fun h e => by subst e; exact lt_irrefl _ h
  obtain ⟨W, hW⟩ := exists_decomp (K := K) hk Xs hXnd M
  obtain ⟨V, hV⟩ := exists_decomp (K := K) hk Ys hYs M
  have hW0 : Decomp key X0 M W := by rw [hX] at hW; exact hW.of_prefix
  have hV1 : Decomp key Y1 M V := by rw [hY] at hV; exact hV.of_prefix
  haveI := supported_fd (K := K) X0
  haveI := supported_fd (K := K) Y1
  -- cycles
  have hZ : Module.finrank K (cyclesOn M {x | x ∈ X0}) = X0.countP fun x => linearCombination K M (W x) = 0 := by
    have h1 := finrank_map_add (bdry M) (Finsupp.supported K K {x | x ∈ X0})
    have h2 : (Finsupp.supported K K {x | x ∈ X0}).map (bdry M) = Submodule.span K (M '' {x | x ∈ X0}) := boundariesOn_eq_span M _
    rw [h2, ← minorRank_univ, hW0.minorRank_eq hk Set.univ (fun _ _ _ _ => trivial),
      finrank_supported X0 (by rw [hX, List.nodup_append] at hXnd; exact hXnd.1)] at h1
    have h3 := List.length_eq_countP_add_countP (l := X0) (fun c => decide (∃ r ∈ (Set.univ : Set T), IsLead key (linearCombination K M (W c)) r))
    have h4 : X0.countP (fun a => decide ¬ (decide (∃ r ∈ (Set.univ : Set T), IsLead key (linearCombination K M (W a)) r)) = true) =
        X0.countP fun x => decide (linearCombination K M (W x) = 0) := by
      apply List.countP_congr
      intro x _
      simp only [decide_eq_true_eq, Set.mem_univ, true_and, not_exists]
      constructor
      · intro h; by_contra hne
        obtain ⟨p, hp⟩ := exists_lead key hne
        exact h p hp
      · intro h p hp; exact hp.ne_zero h
    rw [h4] at h3
    unfold cyclesOn
    omega
  haveI : FiniteDimensional K (cyclesOn M {x | x ∈ X0}) := Submodule.finiteDimensional_inf_left _ _
  haveI : FiniteDimensional K (boundariesOn M {y | y ∈ Y1}) := by unfold boundariesOn; infer_instance
  -- boundaries
  have hB : Module.finrank K (cyclesOn M {x | x ∈ X0} ⊓ boundariesOn M {y | y ∈ Y1} : Submodule K (T →₀ K)) =
      Y1.countP fun y => ∃ x ∈ X0, IsLead key (linearCombination K M (V y)) x := by
    obtain ⟨U, hU⟩ : ∃ U : Set T, ∀ r, r ∈ U ↔ ∀ x ∈ X0, key x < key r := ⟨{r | ∀ x ∈ X0, key x < key r}, fun _ => Iff.rfl⟩
    have hUup : ∀ r ∈ U, ∀ r', key r ≤ key r' → r' ∈ U := fun r hr r' hle => (hU r').2 fun x hx => lt_of_lt_of_le ((hU r).1 hr x hx) hle
    let g : (T →₀ K) →ₗ[K] (T →₀ K) :=
      { toFun := fun v => v.filter (· ∈ U), map_add' := fun _ _ => Finsupp.filter_add, map_smul' := fun _ _ => Finsupp.filter_smul }
    have h1 := finrank_map_add g (boundariesOn M {y | y ∈ Y1})
    have h2 : (boundariesOn M {y | y ∈ Y1}).map g = Submodule.span K ((fun c => (M c).filter (· ∈ U)) '' {y | y ∈ Y1}) := by
      rw [boundariesOn_eq_span, Submodule.map_span, ← Set.image_comp]; rfl
    have hsub : ∀ y ∈ Y1, y ∈ Ys := fun y hy => by rw [hY]; simp [hy]
    have hBs : boundariesOn M {y | y ∈ Y1} ≤ Finsupp.supported K K {x | x ∈ Xs} ⊓ LinearMap.ker (bdry M) := by
      rw [boundariesOn_eq_span, Submodule.span_le]
      rintro _ ⟨y, hy, rfl⟩
      refine ⟨?_, hsq y (hsub y hy)⟩
      rw [SetLike.mem_coe, Finsupp.mem_supported]
      intro r hr
      exact hrows y (hsub y hy) r (by simpa using hr)
    have h3 : (boundariesOn M {y | y ∈ Y1} ⊓ LinearMap.ker g : Submodule K (T →₀ K)) =
        cyclesOn M {x | x ∈ X0} ⊓ boundariesOn M {y | y ∈ Y1} := by
      ext v
      simp only [Submodule.mem_inf, cyclesOn, LinearMap.mem_ker, Finsupp.mem_supported]
      constructor
      · rintro ⟨hv, hg⟩
        obtain ⟨hvs, hvk⟩ := hBs hv
        refine ⟨⟨?_, hvk⟩, hv⟩
        intro r hr
        have hrX : r ∈ Xs := (Finsupp.mem_supported _ _).1 hvs hr
        by_contra hrn
        have hrU : r ∈ U := by
          rw [hU]
          intro x hx
          rw [hX] at hrX hXs
          rcases List.mem_append.1 hrX with h | h
          · exact absurd h hrn
          · exact (List.pairwise_append.1 hXs).2.2 x hx r h
        have := DFunLike.congr_fun hg r
        simp only [g, LinearMap.coe_mk, AddHom.coe_mk, Finsupp.filter_apply, hrU, if_true, Finsupp.zero_apply] at this
        simp at hr
        exact hr this
      · rintro ⟨⟨hvs, hvk⟩, hv⟩
        refine ⟨hv, ?_⟩
        ext r
        simp only [g, LinearMap.coe_mk, AddHom.coe_mk, Finsupp.filter_apply, Finsupp.zero_apply]
        split
        · rename_i hrU
          by_contra hne
          have : r ∈ X0 := hvs (by simpa using hne)
          exact lt_irrefl _ ((hU r).1 hrU r this)
        · rfl
    have h4 : Module.finrank K (boundariesOn M {y | y ∈ Y1}) =
        Y1.countP fun c => ∃ r ∈ (Set.univ : Set T), IsLead key (linearCombination K M (V c)) r := by
      rw [boundariesOn_eq_span, ← minorRank_univ, hV1.minorRank_eq hk Set.univ (fun _ _ _ _ => trivial)]
    have h5 := hV1.minorRank_eq hk U hUup
    unfold minorRank at h5
    rw [h2, h3, h4, h5] at h1
    have h6 : ∀ Y : List T, (∀ y ∈ Y, y ∈ Ys) → (Y.countP fun c => decide (∃ r ∈ U, IsLead key (linearCombination K M (V c)) r)) +
        (Y.countP fun y => decide (∃ x ∈ X0, IsLead key (linearCombination K M (V y)) x)) =
        Y.countP fun c => decide (∃ r ∈ (Set.univ : Set T), IsLead key (linearCombination K M (V c)) r) := by
      intro Y hYsub
      induction Y with
      | nil => rfl
      | cons y Y ih =>
        have ih := ih fun z hz => hYsub z (List.mem_cons_of_mem _ hz)
        simp only [List.countP_cons, decide_eq_true_eq]
        by_cases hl : ∃ p, IsLead key (linearCombination K M (V y)) p
        · obtain ⟨p, hp⟩ := hl
          have hpX : p ∈ Xs := by
            obtain ⟨c, c1, c2⟩ := lc_support hp.1
            exact hrows c (hV.mem_of_ne (hYsub y List.mem_cons_self) c1) p c2
          rw [if_pos (⟨p, trivial, hp⟩ : ∃ r ∈ (Set.univ : Set T), IsLead key (linearCombination K M (V y)) r)]
          by_cases hpX0 : p ∈ X0
          · rw [if_pos (⟨p, hpX0, hp⟩ : ∃ x ∈ X0, IsLead key (linearCombination K M (V y)) x), if_neg]
            · omega
            · rintro ⟨r, hr, hr'⟩
              rw [hr'.unique hk hp] at hr
              exact lt_irrefl _ ((hU p).1 hr p hpX0)
          · have hpU : p ∈ U := by
              rw [hU]
              intro x hx
              rw [hX] at hpX hXs
              rcases List.mem_append.1 hpX with h | h
              · exact absurd h hpX0
              · exact (List.pairwise_append.1 hXs).2.2 x hx p h
            rw [if_pos (⟨p, hpU, hp⟩ : ∃ r ∈ U, IsLead key (linearCombination K M (V y)) r), if_neg]
            · omega
            · rintro ⟨r, hr, hr'⟩
              rw [hr'.unique hk hp] at hr
              exact hpX0 hr
        · have hno : ∀ r, ¬ IsLead key (linearCombination K M (V y)) r := fun r hr => hl ⟨r, hr⟩
          simp only [hno, and_false, exists_false, if_false, Nat.add_zero]
          exact ih
    have := h6 Y1 hsub
    omega
  -- births are cycles
  have hbirth : ∀ y ∈ Ys, ∀ x, IsLead key (linearCombination K M (V y)) x → linearCombination K M (W x) = 0 := by
    intro y hy x hx
    have hxX : x ∈ Xs := by
      obtain ⟨c, c1, c2⟩ := lc_support hx.1
      exact hrows c (hV.mem_of_ne hy c1) x c2
    refine ((hW.zero_iff hk x).1 ?_).2
    obtain ⟨p, q, hpq⟩ := List.append_of_mem hxX
    refine ⟨p, q, hpq, ?_⟩
    set w := linearCombination K M (V y) with hw
    have hz : bdry M w = 0 := by
      rw [hw, bdry, lc_lc, Finsupp.linearCombination_apply, Finsupp.sum]
      apply Finset.sum_eq_zero
      intro c hc
      have := hsq c (hV.mem_of_ne hy (by simpa using hc))
      rw [bdry] at this
      rw [this, smul_zero]
    have hsplit : w = single x (w x) + w.erase x := (Finsupp.single_add_erase x w).symm
    rw [hsplit, map_add, bdry, linearCombination_single] at hz
    have hmem : linearCombination K M (w.erase x) ∈ Submodule.span K (M '' {z | z ∈ p}) := by
      rw [Finsupp.linearCombination_apply, Finsupp.sum]
      apply Submodule.sum_mem
      intro z hz
      apply Submodule.smul_mem
      apply Submodule.subset_span
      refine ⟨z, ?_, rfl⟩
      simp only [Finsupp.support_erase, Finset.mem_erase, Finsupp.mem_support_iff] at hz
      have hzX : z ∈ Xs := by
        obtain ⟨c, c1, c2⟩ := lc_support hz.2
        exact hrows c (hV.mem_of_ne hy c1) z c2
      have hzk := hx.2 z hz.2
      rw [hpq] at hzX hXs
      rcases List.mem_append.1 hzX with h | h
      · exact h
      · rcases List.mem_cons.1 h with h | h
        · exact absurd h hz.1
        · exfalso
          have := (List.pairwise_cons.1 (List.pairwise_append.1 hXs).2.1).1 z h
          exact absurd hzk (not_le.2 this)
    have : M x = -((w x)⁻¹ • linearCombination K M (w.erase x)) := by
      have h2 : w x • M x = -linearCombination K M (w.erase x) := by rw [eq_neg_iff_add_eq_zero]; exact hz
      rw [← smul_neg, ← h2, smul_smul, inv_mul_cancel₀ hx.1, one_smul]
    rw [this]
    exact Submodule.neg_mem _ (Submodule.smul_mem _ _ hmem)
  -- counting
  have hq := finrank_quotBy (cyclesOn_mono M hXX) (boundariesOn_mono M hYY)
  rw [hZ, hB] at hq
  have hdeath : ∀ x ∈ X0, (¬ ∃ ρ, IsPersistencePair key Xs M ρ x) ↔ linearCombination K M (W x) = 0 := by
    intro x hx
    have hxX : x ∈ Xs := by rw [hX]; simp [hx]
    constructor
    · intro h
      by_contra hne
      obtain ⟨p, hp⟩ := exists_lead key hne
      exact h ⟨p, (hW.pair_iff hk p x).2 ⟨hxX, hp⟩⟩
    · rintro h ⟨ρ, hρ⟩
      exact ((hW.pair_iff hk ρ x).1 hρ).2.ne_zero h
  have hpairY : ∀ x, (∃ y ∈ Y1, IsPersistencePair key Ys M x y) ↔ ∃ y ∈ Y1, IsLead key (linearCombination K M (V y)) x := by
    intro x
    constructor
    · rintro ⟨y, hy, hp⟩; exact ⟨y, hy, ((hV.pair_iff hk x y).1 hp).2⟩
    · rintro ⟨y, hy, hp⟩; exact ⟨y, hy, (hV.pair_iff hk x y).2 ⟨by rw [hY]; simp [hy], hp⟩⟩
  -- births in X0 by deaths in Y1 are in bijection
  have hbij : (Y1.countP fun y => decide (∃ x ∈ X0, IsLead key (linearCombination K M (V y)) x)) =
      X0.countP fun x => decide (∃ y ∈ Y1, IsLead key (linearCombination K M (V y)) x) := by
    have hY1nd : Y1.Nodup := hV1.nodup
    have hX0nd : X0.Nodup := hW0.nodup
    rw [List.countP_eq_length_filter, List.countP_eq_length_filter, ← List.toFinset_card_of_nodup (hY1nd.filter _),
      ← List.toFinset_card_of_nodup (hX0nd.filter _)]
    have hch : ∀ y : T, ∃ x, (∃ x ∈ X0, IsLead key (linearCombination K M (V y)) x) →
        x ∈ X0 ∧ IsLead key (linearCombination K M (V y)) x := by
      intro y
      by_cases h : ∃ x ∈ X0, IsLead key (linearCombination K M (V y)) x
      · obtain ⟨x, hx⟩ := h; exact ⟨x, fun _ => hx⟩
      · exact ⟨y, fun h' => absurd h' h⟩
    choose φ hφ using hch
    apply Finset.card_bij (fun y _ => φ y)
    · intro y hy
      simp only [List.mem_toFinset, List.mem_filter, decide_eq_true_eq] at hy ⊢
      exact ⟨(hφ y hy.2).1, y, hy.1, (hφ y hy.2).2⟩
    · intro y hy z hz he
      simp only [List.mem_toFinset, List.mem_filter, decide_eq_true_eq] at hy hz
      have h1 := (hφ y hy.2).2
      have h2 := (hφ z hz.2).2
      rw [← he] at h2
      exact hV1.reduced y hy.1 z hz.1 _ h1 h2
    · intro x hx
      simp only [List.mem_toFinset, List.mem_filter, decide_eq_true_eq] at hx
      obtain ⟨hx0, y, hy, hl⟩ := hx
      refine ⟨y, ?_, ?_⟩
      · simp only [List.mem_toFinset, List.mem_filter, decide_eq_true_eq]
        exact ⟨hy, x, hx0, hl⟩
      · exact (hφ y ⟨x, hx0, hl⟩).2.unique hk hl
  have hsum : ∀ X : List T, (∀ x ∈ X, x ∈ X0) → (X.countP fun x => decide ((¬ ∃ ρ, IsPersistencePair key Xs M ρ x) ∧
      ¬ ∃ y ∈ Y1, IsPersistencePair key Ys M x y)) + (X.countP fun x => decide (∃ y ∈ Y1, IsLead key (linearCombination K M (V y)) x)) =
      X.countP fun x => decide (linearCombination K M (W x) = 0) := by
    intro X hXsub
    induction X with
    | nil => rfl
    | cons x X ih =>
      have ih := ih fun z hz => hXsub z (List.mem_cons_of_mem _ hz)
      simp only [List.countP_cons, decide_eq_true_eq]
      have e : ((¬ ∃ ρ, IsPersistencePair key Xs M ρ x) ∧ ¬ ∃ y ∈ Y1, IsPersistencePair key Ys M x y) ↔
          (linearCombination K M (W x) = 0 ∧ ¬ ∃ y ∈ Y1, IsLead key (linearCombination K M (V y)) x) :=
        and_congr (hdeath x (hXsub x List.mem_cons_self)) (not_congr (hpairY x))
      by_cases h1 : linearCombination K M (W x) = 0
      · by_cases h2 : ∃ y ∈ Y1, IsLead key (linearCombination K M (V y)) x
        · rw [if_neg (fun h => (e.1 h).2 h2), if_pos h2, if_pos h1]; omega
        · rw [if_pos (e.2 ⟨h1, h2⟩), if_neg h2, if_pos h1]; omega
      · have h2 : ¬ ∃ y ∈ Y1, IsLead key (linearCombination K M (V y)) x := by
          rintro ⟨y, hy, hl⟩; exact h1 (hbirth y (by rw [hY]; simp [hy]) x hl)
        rw [if_neg (fun h => h1 (e.1 h).1), if_neg h2, if_neg h1]; omega
  have := hsum X0 fun _ h => h
  unfold persistentBetti
  omega

end Phlite
