/-
The 2-cells of the filtration form a basis of the ∂-invariant chains, so the cell complex computes grounded path homology.
-/
import Verif.Proofs.GrPPHCoboundary
import Verif.Theory.Relabel
import Mathlib.LinearAlgebra.LinearIndependent.Lemmas

set_option linter.unusedSectionVars false
set_option linter.unusedSimpArgs false

namespace Phlite
open Finsupp (single linearCombination linearCombination_single supported)

section
variable {K : Type} [Field K]

theorem lc_mem_of_supported {α V : Type} [AddCommGroup V] [Module K V] (g : α → V) (W : Submodule K V) {X : Set α} (hg : ∀ a ∈ X, g a ∈ W)
    {x : α →₀ K} (hx : x ∈ supported K K X) : linearCombination K g x ∈ W := by
  rw [Finsupp.linearCombination_apply, Finsupp.sum]
  exact Submodule.sum_mem _ fun a ha => Submodule.smul_mem _ _ (hg a (hx ha))

/-- The rank of the map on quotients does not change along an injective linear map. -/
theorem quotRank_map {V V' : Type} [AddCommGroup V] [Module K V] [AddCommGroup V'] [Module K V'] (φ : V →ₗ[K] V') (hφ : Function.Injective φ)
    {Z Z' B B' : Submodule K V} (hZ : Z ≤ Z') (hB : B ≤ B') [FiniteDimensional K Z] {U U' C C' : Submodule K V'} (hU : U ≤ U') (hC : C ≤ C')
    (e1 : U = Z.map φ) (e2 : C' = B'.map φ) :
    Module.finrank K (LinearMap.range (quotByMap hU hC)) = Module.finrank K (LinearMap.range (quotByMap hZ hB)) := by
  subst e1; subst e2
  have h0 : ∀ x, φ x = 0 → x = 0 := fun x hx => hφ (by rw [hx, map_zero])
  have hI : Z.map φ ⊓ B'.map φ = (Z ⊓ B').map φ := (Submodule.map_inf φ hφ).symm
  have a1 := finrank_quotBy hZ hB
  have a2 := finrank_quotBy hU hC
  rw [hI, finrank_map_injOn φ _ (fun x _ => h0 x), finrank_map_injOn φ _ (fun x _ => h0 x)] at a2
  omega

end

section
variable {F : Type} [LinearOrder F] [Zero F] [OrderTop F] {n : ℕ} {time : ℕ → ℕ → Option F} {et : EdgeTime F} {E : List (ℕ × ℕ)}
variable (K : Type) [Field K]

/-- The 2-cells present at time `t`. -/
def twoCellsAt (n : ℕ) (time : ℕ → ℕ → Option F) (t : F) : Set PathHom2Cell := {τ | ∃ u ≤ t, TwoCellAt n time τ u}

/-- The 2-paths present at time `t`. -/
def pathsAt (n : ℕ) (time : ℕ → ℕ → Option F) (t : F) : Set (ℕ × ℕ × ℕ) :=
  {p | (p.1, p.2.1) ∈ arrows n time t ∧ (p.2.1, p.2.2) ∈ arrows n time t}

theorem mem_pathsAt {t : F} {a b c : ℕ} : (a, b, c) ∈ pathsAt n time t ↔ ∃ m ≤ t, IsTwoPath n time a b c m := by
  constructor
  · rintro ⟨⟨h1, h2, x, hx, hxt⟩, ⟨_, h3, y, hy, hyt⟩⟩
    exact ⟨max x y, max_le hxt hyt, h1, h2, h3, x, y, hx, hy, rfl⟩
  · rintro ⟨m, hm, h1, h2, h3, x, y, hx, hy, rfl⟩
    exact ⟨⟨h1, h2, x, hx, (le_max_left _ _).trans hm⟩, ⟨h2, h3, y, hy, (le_max_right _ _).trans hm⟩⟩

theorem boundary_path {t : F} {p : ℕ × ℕ × ℕ} (hp : p ∈ pathsAt n time t) (hac : p.1 = p.2.2 ∨ (p.1, p.2.2) ∈ arrows n time t) :
    twoPathBoundary K p ∈ supported K K (arrows n time t) := by
  unfold twoPathBoundary
  refine Submodule.add_mem _ (Submodule.sub_mem _ (Finsupp.single_mem_supported K _ hp.2) ?_) (Finsupp.single_mem_supported K _ hp.1)
  split
  · exact Submodule.zero_mem _
  · rename_i hne
    exact Finsupp.single_mem_supported K _ (hac.resolve_left hne)

/-- The chain of a 2-cell present at time `t` is ∂-invariant. -/
theorem cellChain_mem {t : F} {τ : PathHom2Cell} (hτ : τ ∈ twoCellsAt n time t) : cellChain K τ ∈ omega2 K n time t := by
  obtain ⟨u, hut, hτ⟩ := hτ
  have good : ∀ {p : ℕ × ℕ × ℕ}, p ∈ pathsAt n time t → (p.1 = p.2.2 ∨ (p.1, p.2.2) ∈ arrows n time t) → single p (1 : K) ∈ omega2 K n time t := by
    intro p hp hac
    refine ⟨Finsupp.single_mem_supported K _ hp, ?_⟩
    show linearCombination K (twoPathBoundary K) (single p 1) ∈ supported K K (arrows n time t)
    rw [linearCombination_single, one_smul]
    exact boundary_path K hp hac
  cases τ with
  | doubleEdge a b => exact good (mem_pathsAt.2 ⟨u, hut, hτ⟩) (Or.inl rfl)
  | directedTriangle a b c =>
    obtain ⟨_, m, v, hp, hv, _, rfl⟩ := hτ
    refine good (mem_pathsAt.2 ⟨m, (le_max_left _ _).trans hut, hp⟩) (Or.inr ⟨hp.1, hp.2.2.1, v, hv, (le_max_right _ _).trans hut⟩)
  | longSquare a b c d =>
    obtain ⟨hne, ⟨m, hp, _, h3⟩, _, hp', _⟩ := hτ
    have hm : m ≤ u := by
      rcases h3 c u hp' with e | ⟨e, _⟩
      · exact e.le
      · exact e.le
    have q1 : (a, c, d) ∈ pathsAt n time t := mem_pathsAt.2 ⟨u, hut, hp'⟩
    have q2 : (a, b, d) ∈ pathsAt n time t := mem_pathsAt.2 ⟨m, hm.trans hut, hp⟩
    refine ⟨Submodule.sub_mem _ (Finsupp.single_mem_supported K _ q1) (Finsupp.single_mem_supported K _ q2), ?_⟩
    show linearCombination K (twoPathBoundary K) (single (a, c, d) 1 - single (a, b, d) 1) ∈ supported K K (arrows n time t)
    rw [map_sub, linearCombination_single, linearCombination_single, one_smul, one_smul]
    have : twoPathBoundary K (a, c, d) - twoPathBoundary K (a, b, d) =
        single (c, d) 1 + single (a, c) 1 - single (b, d) 1 - single (a, b) 1 := by
      unfold twoPathBoundary
      simp only [if_neg hne]
      abel
    rw [this]
    exact Submodule.sub_mem _ (Submodule.sub_mem _ (Submodule.add_mem _ (Finsupp.single_mem_supported K _ q1.2)
      (Finsupp.single_mem_supported K _ q1.1)) (Finsupp.single_mem_supported K _ q2.2)) (Finsupp.single_mem_supported K _ q2.1)

open Classical in
/-- Sends an edge that is not an arrow at time `t` to the path over its primary bridge. -/
noncomputable def bridgeLift (n : ℕ) (time : ℕ → ℕ → Option F) (t : F) (e : ℕ × ℕ) : ℕ × ℕ × ℕ →₀ K :=
  if e ∈ arrows n time t then 0
  else if h : ∃ b, IsPrimaryBridge n time e.1 e.2 b then single (e.1, h.choose, e.2) 1 else 0

/-- The ∂-invariant 2-chains at time `t` are spanned by the 2-cells present at time `t`. -/
theorem omega2_eq_span (n : ℕ) (time : ℕ → ℕ → Option F) (t : F) :
    omega2 K n time t = Submodule.span K (cellChain K '' twoCellsAt n time t) := by
  classical
  refine le_antisymm ?_ (Submodule.span_le.2 ?_)
  · intro x hx
    set W := Submodule.span K (cellChain K '' twoCellsAt n time t) with hW
    set G : (ℕ × ℕ →₀ K) →ₗ[K] (ℕ × ℕ × ℕ →₀ K) := linearCombination K (bridgeLift K n time t) with hG
    have hGa : ∀ e ∈ arrows n time t, G (single e 1) = 0 := by
      intro e he
      rw [hG, linearCombination_single, one_smul, bridgeLift, if_pos he]
    have inW : ∀ {τ u}, u ≤ t → TwoCellAt n time τ u → cellChain K τ ∈ W := fun hu hτ => Submodule.subset_span ⟨_, ⟨_, hu, hτ⟩, rfl⟩
    have key : ∀ p ∈ pathsAt n time t, single p (1 : K) + G (twoPathBoundary K p) ∈ W := by
      rintro ⟨a, b, c⟩ hp
      obtain ⟨m, hm, hp'⟩ := mem_pathsAt.1 hp
      have hb : G (twoPathBoundary K (a, b, c)) = - (if a = c then 0 else G (single (a, c) 1)) := by
        unfold twoPathBoundary
        rw [map_add, map_sub, hGa _ hp.1, hGa _ hp.2, zero_sub, add_zero]
        split
        · rw [map_zero]
        · rfl
      rw [hb]
      by_cases hac : a = c
      · subst hac
        rw [if_pos rfl, neg_zero, add_zero]
        exact inW (τ := .doubleEdge a b) hm hp'
      rw [if_neg hac]
      by_cases harr : (a, c) ∈ arrows n time t
      · rw [hGa _ harr, neg_zero, add_zero]
        obtain ⟨_, _, u, hu, hut⟩ := harr
        by_cases hmu : u ≤ m
        · exact inW (τ := .directedTriangle a b c) (max_le hm hut) ⟨hac, m, u, hp', hu, Or.inl hmu, rfl⟩
        · have hlt : ∀ v, time a c = some v → m < v := by
            intro v hv
            rw [hu] at hv; cases hv
            exact not_le.1 hmu
          obtain ⟨pb, hpb⟩ := exists_bridge hp' hlt
          obtain ⟨m', h1, h2, _⟩ := id hpb
          have htri : cellChain K (.directedTriangle a pb c) ∈ W :=
            inW (max_le ((h2 u hu).le.trans hut) hut) ⟨hac, m', u, h1, hu, Or.inr hpb, rfl⟩
          by_cases hbp : b = pb
          · subst hbp; exact htri
          · have hsq : cellChain K (.longSquare a pb b c) ∈ W := inW hm ⟨hac, hpb, hbp, hp', hlt⟩
            have := Submodule.add_mem _ hsq htri
            simp only [cellChain, sub_add_cancel] at this
            exact this
      · have hlt : ∀ v, time a c = some v → m < v := by
          intro v hv
          by_contra hvm
          exact harr ⟨hp'.1, hp'.2.2.1, v, hv, (not_lt.1 hvm).trans hm⟩
        have hex := exists_bridge hp' hlt
        have hpb := hex.choose_spec
        have hGe : G (single (a, c) 1) = single (a, hex.choose, c) 1 := by
          rw [hG, linearCombination_single, one_smul, bridgeLift, if_neg harr]
          rw [dif_pos hex]
        rw [hGe, ← sub_eq_add_neg]
        by_cases hbp : b = hex.choose
        · rw [← hbp, sub_self]; exact Submodule.zero_mem _
        · exact inW (τ := .longSquare a hex.choose b c) hm ⟨hac, hpb, hbp, hp', hlt⟩
    have h1 : linearCombination K (fun p => single p (1 : K) + G (twoPathBoundary K p)) x ∈ W := lc_mem_of_supported _ _ key hx.1
    have h2 : linearCombination K (fun p => single p (1 : K) + G (twoPathBoundary K p)) x = x + G (linearCombination K (twoPathBoundary K) x) := by
      have : linearCombination K (fun p => single p (1 : K) + G (twoPathBoundary K p)) =
          LinearMap.id + G ∘ₗ linearCombination K (twoPathBoundary K) := by
        refine Finsupp.lhom_ext fun p k => ?_
        rw [linearCombination_single, LinearMap.add_apply, LinearMap.id_apply, LinearMap.comp_apply, linearCombination_single, map_smul, smul_add,
          Finsupp.smul_single, smul_eq_mul, mul_one]
      rw [this]; rfl
    have h3 : G (linearCombination K (twoPathBoundary K) x) = 0 := by
      have hx2 : linearCombination K (twoPathBoundary K) x ∈ supported K K (arrows n time t) := hx.2
      have : G (linearCombination K (twoPathBoundary K) x) ∈ (⊥ : Submodule K (ℕ × ℕ × ℕ →₀ K)) := by
        refine lc_mem_of_supported _ _ ?_ hx2
        intro e he
        rw [Submodule.mem_bot, bridgeLift, if_pos he]
      exact (Submodule.mem_bot K).1 this
    rw [h2, h3, add_zero] at h1
    exact h1
  · rintro _ ⟨τ, hτ, rfl⟩
    exact cellChain_mem K hτ

/-- The chains of the 2-cells of the filtration are linearly independent. -/
theorem cellChain_independent (n : ℕ) (time : ℕ → ℕ → Option F) :
    LinearIndepOn K (cellChain K) {τ | ∃ u, TwoCellAt n time τ u} := by
  classical
  rw [linearIndepOn_iff]
  intro l hl h0
  have hcell : ∀ τ, l τ ≠ 0 → ∃ u, TwoCellAt n time τ u := fun τ hτ => hl (Finsupp.mem_support_iff.2 hτ)
  have ev : ∀ p, l.sum (fun τ k => k * cellChain K τ p) = 0 := by
    intro p
    have := DFunLike.congr_fun h0 p
    rw [Finsupp.linearCombination_apply, Finsupp.sum, Finsupp.finsetSum_apply] at this
    exact this
  -- the coefficient of a long square is read off its second path
  have hLS : ∀ a b c d, l (.longSquare a b c d) = 0 := by
    intro a b c d
    by_contra hne
    obtain ⟨u, hac, hb, hcb, hp, hlt⟩ := hcell _ hne
    have := ev (a, c, d)
    rw [Finsupp.sum, Finset.sum_eq_single (PathHom2Cell.longSquare a b c d)] at this
    · rw [cellChain, Finsupp.sub_apply, Finsupp.single_eq_same, Finsupp.single_eq_of_ne (by simpa using hcb), sub_zero, mul_one] at this
      exact hne this
    · intro τ hτ hτne
      obtain ⟨v, hτc⟩ := hcell τ (Finsupp.mem_support_iff.1 hτ)
      have : cellChain K τ (a, c, d) = 0 := by
        by_contra hh
        have hpath := hasPath_of_ne hh
        cases τ with
        | doubleEdge x y =>
          simp only [HasPath, Prod.mk.injEq] at hpath
          exact hac (hpath.1.trans hpath.2.2.symm)
        | directedTriangle x y z =>
          simp only [HasPath, Prod.mk.injEq] at hpath
          obtain ⟨rfl, rfl, rfl⟩ := hpath
          obtain ⟨_, m, w, q1, q2, q3, _⟩ := hτc
          rcases q3 with q3 | q3
          · exact absurd (hlt w q2) (not_lt.2 ((hp.unique q1) ▸ q3))
          · exact hcb (q3.unique hb)
        | longSquare x y z w =>
          obtain ⟨_, q2, q3, q4, _⟩ := hτc
          simp only [HasPath, Prod.mk.injEq] at hpath
          rcases hpath with ⟨rfl, rfl, rfl⟩ | ⟨rfl, rfl, rfl⟩
          · have := q2.unique hb
            subst this
            exact hτne rfl
          · exact hcb (q2.unique hb)
      rw [this, mul_zero]
    · intro hns
      rw [Finsupp.notMem_support_iff.1 hns, zero_mul]
  -- the other cells are single paths
  have single_path : ∀ τ p, l τ ≠ 0 → cellChain K τ = single p 1 → False := by
    intro τ p hne hτp
    have := ev p
    rw [Finsupp.sum, Finset.sum_eq_single τ] at this
    · rw [hτp, Finsupp.single_eq_same, mul_one] at this
      exact hne this
    · intro σ hσ hσne
      have hσ' := Finsupp.mem_support_iff.1 hσ
      obtain ⟨v, hσc⟩ := hcell σ hσ'
      obtain ⟨u, hτc⟩ := hcell τ hne
      have : cellChain K σ p = 0 := by
        by_contra hh
        have h1 := hasPath_of_ne hh
        have h2 : HasPath τ p := hasPath_of_ne (K := K) (by rw [hτp]; simp)
        cases σ with
        | longSquare x y z w => exact hσ' (hLS x y z w)
        | doubleEdge x y =>
          cases τ with
          | longSquare x y z w => exact hne (hLS x y z w)
          | doubleEdge x' y' =>
            simp only [HasPath] at h1 h2
            rw [h1] at h2
            simp only [Prod.mk.injEq] at h2
            obtain ⟨rfl, rfl, _⟩ := h2
            exact hσne rfl
          | directedTriangle x' y' z' =>
            simp only [HasPath] at h1 h2
            rw [h1] at h2
            simp only [Prod.mk.injEq] at h2
            exact hτc.1 (h2.1.symm.trans h2.2.2)
        | directedTriangle x y z =>
          cases τ with
          | longSquare x y z w => exact hne (hLS x y z w)
          | doubleEdge x' y' =>
            simp only [HasPath] at h1 h2
            rw [h1] at h2
            simp only [Prod.mk.injEq] at h2
            exact hσc.1 (h2.1.trans h2.2.2.symm)
          | directedTriangle x' y' z' =>
            simp only [HasPath] at h1 h2
            rw [h1] at h2
            simp only [Prod.mk.injEq] at h2
            obtain ⟨rfl, rfl, rfl⟩ := h2
            exact hσne rfl
      rw [this, mul_zero]
    · intro hns
      exact absurd (Finsupp.notMem_support_iff.1 hns) hne
  ext τ
  rw [Finsupp.coe_zero, Pi.zero_apply]
  by_contra hne
  cases τ with
  | longSquare a b c d => exact hne (hLS a b c d)
  | doubleEdge a b => exact single_path _ (a, b, a) hne rfl
  | directedTriangle a b c => exact single_path _ (a, b, c) hne rfl

/-! ### Homology -/

/-- Edges as cells. -/
noncomputable def edgeMap : (ℕ × ℕ →₀ K) →ₗ[K] (PathHomCell →₀ K) := Finsupp.lmapDomain K K fun e => .edge e.1 e.2

/-- Nodes as cells. -/
noncomputable def nodeMap : (ℕ →₀ K) →ₗ[K] (PathHomCell →₀ K) := Finsupp.lmapDomain K K .node

theorem edgeMap_injective : Function.Injective (edgeMap K) := by
  refine Finsupp.mapDomain_injective ?_
  rintro ⟨a, b⟩ ⟨a', b'⟩ e
  simpa using e

theorem nodeMap_injective : Function.Injective (nodeMap K) := by
  refine Finsupp.mapDomain_injective ?_
  intro a b e
  simpa using e

theorem edgeMap_single (e : ℕ × ℕ) (k : K) : edgeMap K (single e k) = single (.edge e.1 e.2) k := Finsupp.mapDomain_single
theorem nodeMap_single (s : ℕ) (k : K) : nodeMap K (single s k) = single (.node s) k := Finsupp.mapDomain_single

theorem bdry_edgeMap (x : ℕ × ℕ →₀ K) : bdry (grpphM K) (edgeMap K x) = nodeMap K (linearCombination K (arrowBoundary K) x) := by
  have : (bdry (grpphM K)) ∘ₗ edgeMap K = nodeMap K ∘ₗ linearCombination K (arrowBoundary K) := by
    refine Finsupp.lhom_ext fun e k => ?_
    rw [LinearMap.comp_apply, LinearMap.comp_apply, edgeMap_single, linearCombination_single, map_smul, bdry, linearCombination_single, arrowBoundary,
      map_sub, nodeMap_single, nodeMap_single]
    rfl
  exact LinearMap.congr_fun this x

theorem bdry_cell {τ : PathHom2Cell} {x : F} (hτ : TwoCellAt n time τ x) :
    grpphM K (.twoCell τ) = edgeMap K (linearCombination K (twoPathBoundary K) (cellChain K τ)) := by
  cases τ with
  | doubleEdge a b =>
    rw [cellChain, linearCombination_single, one_smul, twoPathBoundary, if_pos rfl, sub_zero, map_add, edgeMap_single, edgeMap_single, grpphM, add_comm]
  | directedTriangle a b c =>
    rw [cellChain, linearCombination_single, one_smul, twoPathBoundary, if_neg hτ.1, map_add, map_sub, edgeMap_single, edgeMap_single, edgeMap_single,
      grpphM]
  | longSquare a b c d =>
    rw [cellChain, map_sub, linearCombination_single, linearCombination_single, one_smul, one_smul, twoPathBoundary, twoPathBoundary, if_neg hτ.1,
      grpphM]
    simp only [map_sub, map_add, edgeMap_single]
    abel

theorem sublevel1 (h : IsDigraphFiltration et n time) {t : F} (ht : 0 ≤ t) :
    sublevel (grpphF et E) (grpphCells et n time E) 1 t = (fun e : ℕ × ℕ => PathHomCell.edge e.1 e.2) '' groundedEdges {e | e ∈ E} n time t := by
  ext c
  constructor
  · rintro ⟨hc, hf⟩
    obtain ⟨e, rfl, he⟩ := mem_cells1.1 hc
    refine ⟨e, ?_, rfl⟩
    by_cases hE : e ∈ E
    · exact Or.inl hE
    · obtain ⟨h1, h2, h3⟩ := he.resolve_left hE
      obtain ⟨x, hx⟩ := Option.isSome_iff_exists.1 h3
      rw [grpphF_edge_time h hE h1 h2 hx] at hf
      exact Or.inr ⟨h1, h2, x, hx, hf⟩
  · rintro ⟨e, he, rfl⟩
    by_cases hE : e ∈ E
    · exact ⟨mem_cells1.2 ⟨e, rfl, Or.inl hE⟩, by rw [grpphF_edge_mem et hE]; exact ht⟩
    · obtain ⟨h1, h2, x, hx, hxt⟩ := he.resolve_left hE
      exact ⟨mem_cells1.2 ⟨e, rfl, Or.inr ⟨h1, h2, by rw [hx]; rfl⟩⟩, by rw [grpphF_edge_time h hE h1 h2 hx]; exact hxt⟩

theorem sublevel2 (h : IsDigraphFiltration et n time) (t : F) :
    sublevel (grpphF et E) (grpphCells et n time E) 2 t = PathHomCell.twoCell '' twoCellsAt n time t := by
  have hF : ∀ {τ u}, TwoCellAt n time τ u → grpphF et E (.twoCell τ) = u := by
    intro τ u hτ
    unfold grpphF
    rw [hτ.filt h E]; rfl
  ext c
  constructor
  · rintro ⟨hc, hf⟩
    obtain ⟨τ, u, hτ, rfl⟩ := mem_cells2.1 hc
    rw [hF hτ] at hf
    exact ⟨τ, ⟨u, hf, hτ⟩, rfl⟩
  · rintro ⟨τ, ⟨u, hu, hτ⟩, rfl⟩
    exact ⟨mem_cells2.2 ⟨τ, u, hτ, rfl⟩, by rw [hF hτ]; exact hu⟩

theorem sublevel0 {t : F} (ht : 0 ≤ t) :
    sublevel (grpphF et E) (grpphCells et n time E) 0 t = PathHomCell.node '' {v : ℕ | v < n} := by
  ext c
  constructor
  · rintro ⟨hc, hf⟩
    obtain ⟨s, hs, rfl⟩ := mem_cells0.1 hc
    exact ⟨s, hs, rfl⟩
  · rintro ⟨s, hs, rfl⟩
    exact ⟨mem_cells0.2 ⟨s, hs, rfl⟩, ht⟩

theorem edgeMap_supported (X : Set (ℕ × ℕ)) : supported K K ((fun e : ℕ × ℕ => PathHomCell.edge e.1 e.2) '' X) = (supported K K X).map (edgeMap K) := by
  rw [edgeMap, Finsupp.lmapDomain_supported]

theorem nodeMap_supported (X : Set ℕ) : supported K K (PathHomCell.node '' X) = (supported K K X).map (nodeMap K) := by
  rw [nodeMap, Finsupp.lmapDomain_supported]

/-- Cycles at any time (negative times too). -/
theorem cycles1_le (h : IsDigraphFiltration et n time) (t : F) :
    cyclesOn (grpphM K) (sublevel (grpphF et E) (grpphCells et n time E) 1 t) ≤ (groundedZ1 K {e | e ∈ E} n time t).map (edgeMap K) := by
  have hsub : sublevel (grpphF et E) (grpphCells et n time E) 1 t ⊆ (fun e : ℕ × ℕ => PathHomCell.edge e.1 e.2) '' groundedEdges {e | e ∈ E} n time t := by
    rintro c ⟨hc, hf⟩
    obtain ⟨e, rfl, he⟩ := mem_cells1.1 hc
    refine ⟨e, ?_, rfl⟩
    by_cases hE : e ∈ E
    · exact Or.inl hE
    · obtain ⟨h1, h2, h3⟩ := he.resolve_left hE
      obtain ⟨x, hx⟩ := Option.isSome_iff_exists.1 h3
      rw [grpphF_edge_time h hE h1 h2 hx] at hf
      exact Or.inr ⟨h1, h2, x, hx, hf⟩
  rintro w ⟨hw1, hw⟩
  have hw2 := Finsupp.supported_mono (M := K) (R := K) hsub hw1
  rw [edgeMap_supported] at hw2
  obtain ⟨x, hx, rfl⟩ := hw2
  refine ⟨x, ⟨hx, ?_⟩, rfl⟩
  have : bdry (grpphM K) (edgeMap K x) = 0 := hw
  rw [bdry_edgeMap] at this
  exact nodeMap_injective K (by rw [this, map_zero])

theorem cycles1 (h : IsDigraphFiltration et n time) {t : F} (ht : 0 ≤ t) :
    cyclesOn (grpphM K) (sublevel (grpphF et E) (grpphCells et n time E) 1 t) = (groundedZ1 K {e | e ∈ E} n time t).map (edgeMap K) := by
  unfold cyclesOn groundedZ1
  rw [sublevel1 h ht, edgeMap_supported]
  ext w
  constructor
  · rintro ⟨⟨x, hx, rfl⟩, hw⟩
    refine ⟨x, ⟨hx, ?_⟩, rfl⟩
    have : bdry (grpphM K) (edgeMap K x) = 0 := hw
    rw [bdry_edgeMap] at this
    exact nodeMap_injective K (by rw [this, map_zero])
  · rintro ⟨x, ⟨hx, hx'⟩, rfl⟩
    refine ⟨⟨x, hx, rfl⟩, ?_⟩
    have : linearCombination K (arrowBoundary K) x = 0 := hx'
    show bdry (grpphM K) (edgeMap K x) = 0
    rw [bdry_edgeMap, this, map_zero]

theorem boundaries1 (h : IsDigraphFiltration et n time) (t : F) :
    boundariesOn (grpphM K) (sublevel (grpphF et E) (grpphCells et n time E) 2 t) = (groundedB1 K n time t).map (edgeMap K) := by
  unfold boundariesOn groundedB1
  rw [sublevel2 h, omega2_eq_span, Finsupp.supported_eq_span_single, Submodule.map_span, Submodule.map_span, Submodule.map_span]
  congr 1
  rw [Set.image_image, Set.image_image, Set.image_image, Set.image_image]
  refine Set.image_congr ?_
  rintro τ ⟨u, _, hτ⟩
  rw [bdry, linearCombination_single, one_smul, bdry_cell K hτ]

theorem cycles0 {t : F} (ht : 0 ≤ t) :
    cyclesOn (grpphM K) (sublevel (grpphF et E) (grpphCells et n time E) 0 t) = (supported K K {v : ℕ | v < n}).map (nodeMap K) := by
  unfold cyclesOn
  rw [sublevel0 ht, nodeMap_supported, inf_eq_left]
  rintro _ ⟨x, _, rfl⟩
  show bdry (grpphM K) (nodeMap K x) = 0
  have : bdry (grpphM K) ∘ₗ nodeMap K = 0 := by
    refine Finsupp.lhom_ext fun s k => ?_
    rw [LinearMap.comp_apply, nodeMap_single, bdry, linearCombination_single, grpphM, smul_zero]; rfl
  exact LinearMap.congr_fun this x

theorem boundaries0 (h : IsDigraphFiltration et n time) {t : F} (ht : 0 ≤ t) :
    boundariesOn (grpphM K) (sublevel (grpphF et E) (grpphCells et n time E) 1 t) = (groundedB0 K {e | e ∈ E} n time t).map (nodeMap K) := by
  unfold boundariesOn groundedB0
  rw [sublevel1 h ht, edgeMap_supported, ← Submodule.map_comp, ← Submodule.map_comp]
  congr 1
  ext x : 1
  exact LinearMap.ext fun k => bdry_edgeMap K _

theorem groundedEdges_finite (h : ∀ e ∈ E, e.1 < n ∧ e.2 < n) (t : F) : (groundedEdges {e | e ∈ E} n time t).Finite := by
  refine Set.Finite.subset (Finset.finite_toSet (Finset.range n ×ˢ Finset.range n)) ?_
  intro e he
  rw [Finset.mem_coe, Finset.mem_product, Finset.mem_range, Finset.mem_range]
  rcases he with he | he
  · exact h e he
  · exact ⟨he.1, he.2.1⟩

theorem fd_supported {U : Type} (Q : Set U) (hQ : Q.Finite) : FiniteDimensional K (supported K K Q) := by
  rw [Finsupp.supported_eq_span_single]
  exact FiniteDimensional.span_of_finite K (hQ.image _)

/-- Persistent Betti numbers of the cell complex in degree 1 are those of grounded path homology. -/
theorem betti1_grounded (h : IsDigraphFiltration et n time) (hEn : ∀ e ∈ E, e.1 < n ∧ e.2 < n) {s t : F} (hs : 0 ≤ s) (hst : s ≤ t) :
    persistentBetti (grpphM K) (sublevel_mono (grpphF et E) (grpphCells et n time E) 1 hst)
      (sublevel_mono (grpphF et E) (grpphCells et n time E) 2 hst) = groundedBetti1 K {e | e ∈ E} n time hst := by
  have := fd_supported K _ (groundedEdges_finite (time := time) hEn s)
  have : FiniteDimensional K (groundedZ1 K {e | e ∈ E} n time s) := Submodule.finiteDimensional_of_le (inf_le_left : _ ≤ supported K K (groundedEdges {e | e ∈ E} n time s))
  exact quotRank_map (edgeMap K) (edgeMap_injective K) _ _ _ _ (cycles1 K h hs) (boundaries1 K h t)

/-- Persistent Betti numbers of the cell complex in degree 0 are those of grounded path homology. -/
theorem betti0_grounded (h : IsDigraphFiltration et n time) {s t : F} (hs : 0 ≤ s) (hst : s ≤ t) :
    persistentBetti (grpphM K) (sublevel_mono (grpphF et E) (grpphCells et n time E) 0 hst)
      (sublevel_mono (grpphF et E) (grpphCells et n time E) 1 hst) = groundedBetti0 K {e | e ∈ E} n time hst := by
  have := fd_supported K {v : ℕ | v < n} (Set.finite_lt_nat n)
  exact quotRank_map (nodeMap K) (nodeMap_injective K) _ _ _ _ (cycles0 K hs) (boundaries0 K h (hs.trans hst))

end
end Phlite
