/-
Grounded persistent path homology of digraphs whose edges run along a tree.
-/
import Verif.Theory.EnclosingDigraph

set_option linter.unusedSectionVars false
set_option linter.unusedSimpArgs false

namespace Phlite
open Finsupp (single linearCombination linearCombination_single supported)

/-- All edges run between a vertex and its parent, which comes before it. -/
def RunsAlong (parent : ℕ → ℕ) (E : Set (ℕ × ℕ)) : Prop := ∀ e ∈ E, (e.2 < e.1 ∧ parent e.1 = e.2) ∨ (e.1 < e.2 ∧ parent e.2 = e.1)

section
variable {K : Type} [Field K] {F : Type} [LinearOrder F] [Zero F] [OrderTop F] {n : ℕ} {parent : ℕ → ℕ} {E : Set (ℕ × ℕ)}

/-- The vertices with edges from and to their parents. -/
def bothWays (parent : ℕ → ℕ) (E : Set (ℕ × ℕ)) : Set ℕ := {i | parent i < i ∧ (i, parent i) ∈ E ∧ (parent i, i) ∈ E}

/-- The cycle of length 2 between `i` and its parent. -/
noncomputable def backAndForth (K : Type) [Field K] (parent : ℕ → ℕ) (i : ℕ) : ℕ × ℕ →₀ K := single (i, parent i) 1 + single (parent i, i) 1

theorem boundary_along (hE : ∀ e ∈ E, e.1 < n ∧ e.2 < n) (h : RunsAlong parent E) {z : ℕ × ℕ →₀ K} (hz : z ∈ supported K K E) :
    linearCombination K (arrowBoundary K) z =
      ∑ i ∈ (Finset.range n).filter (fun i => parent i < i), (z (i, parent i) - z (parent i, i)) • (single (parent i) (1 : K) - single i 1) := by
  classical
  set Φ : (ℕ × ℕ →₀ K) →ₗ[K] (ℕ →₀ K) := ∑ i ∈ (Finset.range n).filter (fun i => parent i < i),
    (Finsupp.lapply (i, parent i) - Finsupp.lapply (parent i, i) : (ℕ × ℕ →₀ K) →ₗ[K] K).smulRight (single (parent i) (1 : K) - single i 1) with hΦ
  have hval : ∀ z, Φ z = ∑ i ∈ (Finset.range n).filter (fun i => parent i < i), (z (i, parent i) - z (parent i, i)) • (single (parent i) (1 : K) - single i 1) := by
    intro z
    rw [hΦ, LinearMap.sum_apply]
    rfl
  rw [← hval]
  rw [Finsupp.supported_eq_span_single] at hz
  refine sub_eq_zero.1 ((Submodule.span_le (p := LinearMap.ker (linearCombination K (arrowBoundary K) - Φ))).2 ?_ hz)
  rintro _ ⟨⟨a, b⟩, he, rfl⟩
  show (linearCombination K (arrowBoundary K) - Φ) (single (a, b) 1) = 0
  rw [LinearMap.sub_apply, hval, linearCombination_single, one_smul, sub_eq_zero]
  obtain ⟨ha, hb⟩ := hE _ he
  rcases h _ he with ⟨h1, h2⟩ | ⟨h1, h2⟩
  · dsimp only at h1 h2 ha hb
    rw [Finset.sum_eq_single a]
    · rw [h2, Finsupp.single_eq_same, Finsupp.single_eq_of_ne, sub_zero, one_smul]
      · rfl
      · intro e
        have := congrArg Prod.fst e
        dsimp only at this
        omega
    · intro i hi hia
      rw [Finsupp.single_eq_of_ne, Finsupp.single_eq_of_ne, sub_zero, zero_smul]
      · intro e
        obtain ⟨e1, e2⟩ := Prod.mk.inj e
        have := (Finset.mem_filter.1 hi).2
        omega
      · intro e
        exact hia (Prod.mk.inj e).1
    · intro hno
      exact absurd (Finset.mem_filter.2 ⟨Finset.mem_range.2 ha, by omega⟩) hno
  · dsimp only at h1 h2 ha hb
    rw [Finset.sum_eq_single b]
    · rw [h2, Finsupp.single_eq_same, Finsupp.single_eq_of_ne, zero_sub, neg_smul, one_smul, neg_sub]
      · rfl
      · intro e
        have := congrArg Prod.fst e
        dsimp only at this
        omega
    · intro i hi hib
      rw [Finsupp.single_eq_of_ne, Finsupp.single_eq_of_ne, sub_zero, zero_smul]
      · intro e
        exact hib (Prod.mk.inj e).2
      · intro e
        obtain ⟨e1, e2⟩ := Prod.mk.inj e
        have := (Finset.mem_filter.1 hi).2
        subst e1
        omega
    · intro hno
      exact absurd (Finset.mem_filter.2 ⟨Finset.mem_range.2 hb, by omega⟩) hno

/-- A cycle runs along each edge of the tree as often in one direction as in the other. -/
theorem cycle_symmetric (hE : ∀ e ∈ E, e.1 < n ∧ e.2 < n) (h : RunsAlong parent E) {z : ℕ × ℕ →₀ K} (hz : z ∈ edgeCycles K E) {i : ℕ} (hi : parent i < i) :
    z (i, parent i) = z (parent i, i) := by
  classical
  by_cases hin : i < n
  · have hsum := boundary_along hE h hz.1
    rw [LinearMap.mem_ker.1 hz.2] at hsum
    by_contra hne
    obtain ⟨m, hm, hmax⟩ := Finset.exists_max_image ((Finset.range n).filter fun i => parent i < i ∧ z (i, parent i) ≠ z (parent i, i)) id
      ⟨i, Finset.mem_filter.2 ⟨Finset.mem_range.2 hin, hi, hne⟩⟩
    obtain ⟨h1, h2, h3⟩ := Finset.mem_filter.1 hm
    have hat := congrArg (fun c : ℕ →₀ K => c m) hsum
    rw [Finsupp.finsetSum_apply, Finset.sum_eq_single m] at hat
    · rw [Finsupp.smul_apply, Finsupp.sub_apply, Finsupp.single_eq_same, Finsupp.single_eq_of_ne (by omega), zero_sub, smul_eq_mul, mul_neg, mul_one, Finsupp.zero_apply,
        eq_comm, neg_eq_zero, sub_eq_zero] at hat
      exact h3 hat
    · intro j hj hjm
      obtain ⟨g1, g2⟩ := Finset.mem_filter.1 hj
      by_cases hz' : z (j, parent j) = z (parent j, j)
      · rw [hz', sub_self, zero_smul]; rfl
      · have := hmax j (Finset.mem_filter.2 ⟨g1, g2, hz'⟩)
        dsimp only [id] at this
        rw [Finsupp.smul_apply, Finsupp.sub_apply, Finsupp.single_eq_of_ne (by omega), Finsupp.single_eq_of_ne (by omega), sub_zero, smul_zero]
    · intro hno
      exact absurd (Finset.mem_filter.2 ⟨h1, h2⟩ : m ∈ (Finset.range n).filter fun i => parent i < i) hno
  · have hz1 := (Finsupp.mem_supported K z).1 hz.1
    have e1 : z (i, parent i) = 0 := by
      by_contra hne
      exact hin (hE _ (hz1 (Finsupp.mem_support_iff.2 hne))).1
    have e2 : z (parent i, i) = 0 := by
      by_contra hne
      exact hin (hE _ (hz1 (Finsupp.mem_support_iff.2 hne))).2
    rw [e1, e2]

theorem backAndForth_apply {y : ℕ →₀ K} {i : ℕ} (hi : parent i < i) (hy : ∀ j, y j ≠ 0 → parent j < j) :
    linearCombination K (backAndForth K parent) y (i, parent i) = y i ∧ linearCombination K (backAndForth K parent) y (parent i, i) = y i := by
  classical
  rw [Finsupp.linearCombination_apply, Finsupp.sum, Finsupp.finsetSum_apply, Finsupp.finsetSum_apply]
  have hsupp : ∀ j ∈ y.support, parent j < j := fun j hj => hy j (Finsupp.mem_support_iff.1 hj)
  have hother : ∀ j ∈ y.support, j ≠ i → backAndForth K parent j (i, parent i) = 0 ∧ backAndForth K parent j (parent i, i) = 0 := by
    intro j hj hji
    have := hsupp j hj
    unfold backAndForth
    rw [Finsupp.add_apply, Finsupp.add_apply]
    constructor
    · rw [Finsupp.single_eq_of_ne, Finsupp.single_eq_of_ne, add_zero]
      · intro e
        obtain ⟨e1, e2⟩ := Prod.mk.inj e
        subst e1
        omega
      · intro e
        exact hji (Prod.mk.inj e).1.symm
    · rw [Finsupp.single_eq_of_ne, Finsupp.single_eq_of_ne, add_zero]
      · intro e
        exact hji (Prod.mk.inj e).2.symm
      · intro e
        obtain ⟨e1, e2⟩ := Prod.mk.inj e
        omega
  have hself : backAndForth K parent i (i, parent i) = 1 ∧ backAndForth K parent i (parent i, i) = 1 := by
    unfold backAndForth
    rw [Finsupp.add_apply, Finsupp.add_apply]
    constructor
    · rw [Finsupp.single_eq_same, Finsupp.single_eq_of_ne, add_zero]
      intro e
      have := (Prod.mk.inj e).1
      omega
    · rw [Finsupp.single_eq_same, Finsupp.single_eq_of_ne, zero_add]
      intro e
      have := (Prod.mk.inj e).1
      omega
  constructor
  · rw [Finset.sum_eq_single i]
    · rw [Finsupp.smul_apply, hself.1, smul_eq_mul, mul_one]
    · intro j hj hji
      rw [Finsupp.smul_apply, (hother j hj hji).1, smul_zero]
    · intro hno
      rw [Finsupp.smul_apply, Finsupp.notMem_support_iff.1 hno, zero_smul]
  · rw [Finset.sum_eq_single i]
    · rw [Finsupp.smul_apply, hself.2, smul_eq_mul, mul_one]
    · intro j hj hji
      rw [Finsupp.smul_apply, (hother j hj hji).2, smul_zero]
    · intro hno
      rw [Finsupp.smul_apply, Finsupp.notMem_support_iff.1 hno, zero_smul]

/-- The cycles of a digraph along a tree. -/
theorem edgeCycles_along (hE : ∀ e ∈ E, e.1 < n ∧ e.2 < n) (h : RunsAlong parent E) :
    edgeCycles K E = (supported K K (bothWays parent E)).map (linearCombination K (backAndForth K parent)) := by
  classical
  apply le_antisymm
  · intro z hz
    have hz1 := (Finsupp.mem_supported K z).1 hz.1
    have hmem : ∀ e, z e ≠ 0 → e ∈ E := fun e he => hz1 (Finsupp.mem_support_iff.2 he)
    refine ⟨Finsupp.onFinset (Finset.range n) (fun i => if parent i < i then z (i, parent i) else 0) (fun i hi => ?_), ?_, ?_⟩
    · have hne : z (i, parent i) ≠ 0 := fun e => hi (by rw [e]; simp)
      exact Finset.mem_range.2 (hE _ (hmem _ hne)).1
    · rw [SetLike.mem_coe, Finsupp.mem_supported]
      intro i hi
      have hi := Finsupp.mem_support_iff.1 hi
      rw [Finsupp.onFinset_apply] at hi
      by_cases hp : parent i < i
      · rw [if_pos hp] at hi
        exact ⟨hp, hmem _ hi, hmem _ (by rwa [← cycle_symmetric hE h hz hp])⟩
      · rw [if_neg hp] at hi; exact absurd rfl hi
    · have hy : ∀ j, (Finsupp.onFinset (Finset.range n) (fun i => if parent i < i then z (i, parent i) else 0) (fun i hi => by
          have hne : z (i, parent i) ≠ 0 := fun e => hi (by rw [e]; simp)
          exact Finset.mem_range.2 (hE _ (hmem _ hne)).1)) j ≠ 0 → parent j < j := by
        intro j hj
        rw [Finsupp.onFinset_apply] at hj
        by_contra hp
        rw [if_neg hp] at hj; exact hj rfl
      ext ⟨a, b⟩
      by_cases hab : (b < a ∧ parent a = b) ∨ (a < b ∧ parent b = a)
      · rcases hab with ⟨h1, rfl⟩ | ⟨h1, rfl⟩
        · rw [(backAndForth_apply h1 hy).1, Finsupp.onFinset_apply, if_pos h1]
        · rw [(backAndForth_apply h1 hy).2, Finsupp.onFinset_apply, if_pos h1, cycle_symmetric hE h hz h1]
      · have e1 : z (a, b) = 0 := by
          by_contra hne
          exact hab (h _ (hmem _ hne))
        rw [e1, Finsupp.linearCombination_apply, Finsupp.sum, Finsupp.finsetSum_apply]
        refine Finset.sum_eq_zero fun j hj => ?_
        have hj := hy j (Finsupp.mem_support_iff.1 hj)
        unfold backAndForth
        rw [Finsupp.smul_apply, Finsupp.add_apply, Finsupp.single_eq_of_ne, Finsupp.single_eq_of_ne, add_zero, smul_zero]
        · intro e
          obtain ⟨rfl, rfl⟩ := Prod.mk.inj e
          exact hab (.inr ⟨hj, rfl⟩)
        · intro e
          obtain ⟨rfl, rfl⟩ := Prod.mk.inj e
          exact hab (.inl ⟨hj, rfl⟩)
  · rw [Finsupp.supported_eq_span_single, Submodule.map_span_le]
    rintro _ ⟨i, hi, rfl⟩
    rw [linearCombination_single, one_smul]
    refine ⟨Submodule.add_mem _ (Finsupp.single_mem_supported K _ hi.2.1) (Finsupp.single_mem_supported K _ hi.2.2), ?_⟩
    rw [SetLike.mem_coe, LinearMap.mem_ker, backAndForth, map_add, linearCombination_single, linearCombination_single, one_smul, one_smul, arrowBoundary, arrowBoundary]
    abel

theorem finrank_edgeCycles_along (hE : ∀ e ∈ E, e.1 < n ∧ e.2 < n) (h : RunsAlong parent E) : Module.finrank K (edgeCycles K E) = (bothWays parent E).ncard := by
  have hinj : Function.Injective ((linearCombination K (backAndForth K parent)).domRestrict (supported K K (bothWays parent E))) := by
    rw [injective_iff_map_eq_zero]
    rintro ⟨y, hy⟩ h0
    have h0 : linearCombination K (backAndForth K parent) y = 0 := h0
    have hy1 := (Finsupp.mem_supported K y).1 hy
    refine Subtype.ext (Finsupp.ext fun i => ?_)
    by_contra hne
    have hpar : ∀ j, y j ≠ 0 → parent j < j := fun j hj => (hy1 (Finsupp.mem_support_iff.2 hj)).1
    have := (backAndForth_apply (hpar i hne) hpar).1
    rw [h0] at this
    exact hne this.symm
  rw [edgeCycles_along hE h, ← finrank_supported_ncard (K := K), ← LinearMap.finrank_range_of_inj hinj, LinearMap.range_domRestrict]

variable {add : F → F → F} {edges : List (ℕ × ℕ × F)} {sp : ℕ → ℕ → Option F}

/-- In a digraph along a tree there is one class for each pair of opposite edges of which not both are arrows. -/
theorem betti_along (hadd : IsLengthAddition add) (hedges : ∀ e ∈ edges, e.1 < n ∧ e.2.1 < n) (hw : ∀ e ∈ edges, 0 ≤ e.2.2) (hsp : IsShortestPaths add edges sp)
    (h : RunsAlong parent (edgeSet edges)) {s t : F} (hst : s ≤ t) :
    groundedBetti1 K (edgeSet edges) n (spTime sp) hst =
      {i ∈ bothWays parent (edgeSet edges) | ¬ ((i, parent i) ∈ arrows n (spTime sp) t ∧ (parent i, i) ∈ arrows n (spTime sp) t)}.ncard := by
  have hE : ∀ e ∈ edgeSet edges, e.1 < n ∧ e.2 < n := fun e ⟨w, he⟩ => hedges _ he
  set Et : Set (ℕ × ℕ) := {e ∈ edgeSet edges | e ∈ arrows n (spTime sp) t ∧ e.swap ∈ arrows n (spTime sp) t} with hEt
  have hsub : Et ⊆ edgeSet edges := fun e he => he.1
  have hEt' : ∀ e ∈ Et, e.1 < n ∧ e.2 < n := fun e he => hE e (hsub he)
  have ht : RunsAlong parent Et := fun e he => h e (hsub he)
  have h1 := groundedBetti1_edgeCycles (K := K) hadd hedges hw hsp hst
  have h2 : edgeCycles K (edgeSet edges) ⊓ groundedB1 K n (spTime sp) t = edgeCycles K Et := by
    apply le_antisymm
    · rintro z ⟨hz, hb⟩
      refine ⟨?_, hz.2⟩
      rw [SetLike.mem_coe, Finsupp.mem_supported]
      intro e he
      have h3 := (Finsupp.mem_supported K z).1 hz.1 he
      have h4 := (Finsupp.mem_supported K z).1 (groundedB1_supported hb)
      refine ⟨h3, h4 he, h4 ?_⟩
      have he := Finsupp.mem_support_iff.1 he
      obtain ⟨a, b⟩ := e
      rw [Finset.mem_coe, Finsupp.mem_support_iff]
      rcases h _ h3 with ⟨h5, h6⟩ | ⟨h5, h6⟩
      · dsimp only at h5 h6
        subst h6
        rw [cycle_symmetric hE h hz h5] at he; exact he
      · dsimp only at h5 h6
        subst h6
        rw [← cycle_symmetric hE h hz h5] at he; exact he
    · refine le_inf (inf_le_inf_right _ (Finsupp.supported_mono hsub)) ?_
      rw [edgeCycles_along hEt' ht, Finsupp.supported_eq_span_single, Submodule.map_span_le]
      rintro _ ⟨i, ⟨hi, h3, h4⟩, rfl⟩
      rw [linearCombination_single, one_smul]
      have := twoPath_mem_B1 (K := K) h4.2.1 h3.2.1 (.inl rfl)
      rw [twoPathBoundary, if_pos rfl, sub_zero] at this
      exact this
  rw [h2, finrank_edgeCycles_along hE h, finrank_edgeCycles_along hEt' ht] at h1
  have hfin : (bothWays parent (edgeSet edges)).Finite := (Set.finite_lt_nat n).subset fun i hi => (hE _ hi.2.1).1
  have h3 : bothWays parent Et = {i ∈ bothWays parent (edgeSet edges) | (i, parent i) ∈ arrows n (spTime sp) t ∧ (parent i, i) ∈ arrows n (spTime sp) t} := by
    ext i
    constructor
    · rintro ⟨g1, g2, g3⟩
      exact ⟨⟨g1, g2.1, g3.1⟩, g2.2.1, g3.2.1⟩
    · rintro ⟨⟨g1, g2, g3⟩, g4, g5⟩
      exact ⟨g1, ⟨g2, g4, g5⟩, ⟨g3, g5, g4⟩⟩
  have h4 := Set.ncard_inter_add_ncard_sdiff_eq_ncard (bothWays parent (edgeSet edges))
    {i | (i, parent i) ∈ arrows n (spTime sp) t ∧ (parent i, i) ∈ arrows n (spTime sp) t} hfin
  rw [h3] at h1
  have e1 : bothWays parent (edgeSet edges) ∩ {i | (i, parent i) ∈ arrows n (spTime sp) t ∧ (parent i, i) ∈ arrows n (spTime sp) t} =
    {i ∈ bothWays parent (edgeSet edges) | (i, parent i) ∈ arrows n (spTime sp) t ∧ (parent i, i) ∈ arrows n (spTime sp) t} := rfl
  have e2 : bothWays parent (edgeSet edges) \ {i | (i, parent i) ∈ arrows n (spTime sp) t ∧ (parent i, i) ∈ arrows n (spTime sp) t} =
    {i ∈ bothWays parent (edgeSet edges) | ¬ ((i, parent i) ∈ arrows n (spTime sp) t ∧ (parent i, i) ∈ arrows n (spTime sp) t)} := rfl
  rw [e1, e2] at h4
  omega

open Classical in
/-- The intervals of a digraph along a tree. -/
theorem IsGroundedBarcode.along (hadd : IsLengthAddition add) (hedges : ∀ e ∈ edges, e.1 < n ∧ e.2.1 < n) (hw : ∀ e ∈ edges, 0 ≤ e.2.2) (hsp : IsShortestPaths add edges sp)
    (h : RunsAlong parent (edgeSet edges)) {bars : Multiset (F × WithTop F)} (hb : IsGroundedBarcode K (edgeSet edges) n (spTime sp) 1 bars) :
    bars = ((((Finset.range n).filter fun i => parent i < i ∧ (i, parent i) ∈ edgeSet edges ∧ (parent i, i) ∈ edgeSet edges).val.map
      fun i => ((0 : F), max (edgeEnd sp (i, parent i)) (edgeEnd sp (parent i, i)))).filter fun b => ((0 : F) : WithTop F) < b.2) := by
  refine barcode_unique hb.nonempty ?_ fun s t hst => ?_
  · intro b hb
    obtain ⟨h1, h2⟩ := Multiset.mem_filter.1 hb
    obtain ⟨e, he, rfl⟩ := Multiset.mem_map.1 h1
    exact h2
  by_cases hs : 0 ≤ s
  · rw [hb.count s t hs hst, if_neg one_ne_zero, betti_along hadd hedges hw hsp h hst]
    unfold aliveBars
    rw [Multiset.countP_filter, Multiset.countP_map, Finset.filter_val, Multiset.filter_filter]
    have e2 : {i ∈ bothWays parent (edgeSet edges) | ¬ ((i, parent i) ∈ arrows n (spTime sp) t ∧ (parent i, i) ∈ arrows n (spTime sp) t)} =
        ((Finset.filter (fun i => ((0 ≤ s ∧ (t : WithTop F) < max (edgeEnd sp (i, parent i)) (edgeEnd sp (parent i, i))) ∧
          ((0 : F) : WithTop F) < max (edgeEnd sp (i, parent i)) (edgeEnd sp (parent i, i))) ∧
          (parent i < i ∧ (i, parent i) ∈ edgeSet edges ∧ (parent i, i) ∈ edgeSet edges)) (Finset.range n) : Finset ℕ) : Set ℕ) := by
      ext i
      rw [Finset.mem_coe, Finset.mem_filter, Finset.mem_range]
      constructor
      · rintro ⟨⟨g1, ⟨w, g2⟩, g3⟩, g4⟩
        have hlt := hedges _ g2
        dsimp only at hlt
        have g5 : (t : WithTop F) < max (edgeEnd sp (i, parent i)) (edgeEnd sp (parent i, i)) := by
          rw [lt_max_iff, edgeEnd_arrow hlt, edgeEnd_arrow hlt.symm]
          tauto
        exact ⟨hlt.1, ⟨⟨hs, g5⟩, (WithTop.coe_le_coe.2 (hs.trans hst)).trans_lt g5⟩, g1, ⟨w, g2⟩, g3⟩
      · rintro ⟨_, ⟨⟨_, g5⟩, _⟩, g1, ⟨w, g2⟩, g3⟩
        have hlt := hedges _ g2
        dsimp only at hlt
        rw [lt_max_iff, edgeEnd_arrow hlt, edgeEnd_arrow hlt.symm] at g5
        exact ⟨⟨g1, ⟨w, g2⟩, g3⟩, by tauto⟩
    rw [e2, Set.ncard_coe_finset, Finset.card_def, Finset.filter_val]
  · unfold aliveBars
    rw [Multiset.countP_eq_zero.2, Multiset.countP_eq_zero.2]
    · intro b hb g
      obtain ⟨e, he, rfl⟩ := Multiset.mem_map.1 (Multiset.mem_filter.1 hb).1
      exact hs g.1
    · exact fun b hb' g => hs ((hb.nonneg b hb').trans g.1)

/-- A walk that leaves a set which only the edges from `a` to `b` leave is at least as long as one of these. -/
theorem walk_leaves (hadd : IsLengthAddition add) (hw : ∀ e ∈ edges, 0 ≤ e.2.2) {S : Set ℕ} {a b : ℕ} (hS : ∀ e ∈ edges, e.1 ∈ S → e.2.1 ∉ S → e.1 = a ∧ e.2.1 = b)
    {i j : ℕ} {x : F} (hwalk : IsWalk add edges i j x) (hi : i ∈ S) (hj : j ∉ S) : ∃ w, (a, b, w) ∈ edges ∧ w < ⊤ ∧ w ≤ x := by
  induction hwalk with
  | nil => exact absurd hi hj
  | @snoc k j x w h1 h2 h3 ih =>
    by_cases hk : k ∈ S
    · obtain ⟨rfl, rfl⟩ := hS _ h2 hk hj
      exact ⟨w, h2, h3, hadd.le_add_left x w (h1.nonneg hadd hw)⟩
    · obtain ⟨w', g1, g2, g3⟩ := ih hk
      exact ⟨w', g1, g2, g3.trans (hadd.le_add_right x w (hw _ h2))⟩

/-- In a digraph along a tree a walk between a vertex and its parent is at least as long as an edge. -/
theorem walk_along (hadd : IsLengthAddition add) (hw : ∀ e ∈ edges, 0 ≤ e.2.2) (h : RunsAlong parent (edgeSet edges)) {i : ℕ} (hi : parent i < i) {x : F} :
    (IsWalk add edges i (parent i) x → ∃ w, (i, parent i, w) ∈ edges ∧ w < ⊤ ∧ w ≤ x) ∧ (IsWalk add edges (parent i) i x → ∃ w, (parent i, i, w) ∈ edges ∧ w < ⊤ ∧ w ≤ x) := by
  set S : Set ℕ := {j | Relation.ReflTransGen (fun a b => parent a = b ∧ b < a) j i} with hS
  have hle : ∀ j ∈ S, i ≤ j := by
    intro j hj
    induction hj using Relation.ReflTransGen.head_induction_on with
    | refl => exact le_refl i
    | head h1 _ ih => exact ih.trans h1.2.le
  have hiS : i ∈ S := .refl
  have hpS : parent i ∉ S := fun g => absurd (hle _ g) (by omega)
  have hout : ∀ j ∈ S, parent j < j → parent j ∉ S → j = i := by
    intro j hj hlt hno
    rcases hj.cases_head with e | ⟨c, ⟨rfl, _⟩, hc⟩
    · exact e
    · exact absurd hc hno
  have hin : ∀ j, parent j < j → parent j ∈ S → j ∈ S := fun j hlt hj => .head ⟨rfl, hlt⟩ hj
  constructor
  · intro hwalk
    refine walk_leaves hadd hw (S := S) ?_ hwalk hiS hpS
    rintro ⟨a, b, w⟩ he ha hb
    rcases h (a, b) ⟨w, he⟩ with ⟨h1, h2⟩ | ⟨h1, h2⟩
    · dsimp only at h1 h2 ha hb ⊢
      subst h2
      have := hout a ha h1 hb
      exact ⟨this, by rw [this]⟩
    · dsimp only at h1 h2 ha hb ⊢
      subst h2
      exact absurd (hin b h1 ha) hb
  · intro hwalk
    refine walk_leaves hadd hw (S := Sᶜ) ?_ hwalk hpS (fun g => g hiS)
    rintro ⟨a, b, w⟩ he ha hb
    have hb' : b ∈ S := Set.notMem_compl_iff.1 hb
    rcases h (a, b) ⟨w, he⟩ with ⟨h1, h2⟩ | ⟨h1, h2⟩
    · dsimp only at h1 h2 ha hb' ⊢
      subst h2
      exact absurd (hin a h1 hb') ha
    · dsimp only at h1 h2 ha hb' ⊢
      subst h2
      have := hout b hb' h1 ha
      exact ⟨by rw [this], this⟩

/-- If all edges between two vertices of a tree have the same weight then it is the distance. -/
theorem edgeEnd_along (hadd : IsLengthAddition add) (hw : ∀ e ∈ edges, 0 ≤ e.2.2) (hsp : IsShortestPaths add edges sp) (h : RunsAlong parent (edgeSet edges))
    {a b : ℕ} {w : F} (he : (a, b, w) ∈ edges) (hsame : ∀ w', (a, b, w') ∈ edges → w' = w) : edgeEnd sp (a, b) = if w = ⊤ then ⊤ else (w : WithTop F) := by
  have hne : a ≠ b := by rcases h (a, b) ⟨w, he⟩ with ⟨h1, -⟩ | ⟨h1, -⟩ <;> dsimp only at h1 <;> omega
  have hback : ∀ x, IsWalk add edges a b x → ∃ w', (a, b, w') ∈ edges ∧ w' < ⊤ ∧ w' ≤ x := by
    intro x hx
    rcases h (a, b) ⟨w, he⟩ with ⟨h1, h2⟩ | ⟨h1, h2⟩
    · dsimp only at h1 h2
      subst h2
      exact (walk_along hadd hw h h1).1 hx
    · dsimp only at h1 h2
      subst h2
      exact (walk_along hadd hw h h1).2 hx
  unfold edgeEnd
  rw [if_neg hne]
  dsimp only
  split
  · next hnone =>
    rw [if_pos]
    by_contra hfin
    obtain ⟨y, hy⟩ := hsp.reach a b _ (.snoc .nil he (lt_top_iff_ne_top.2 hfin))
    rw [hnone] at hy
    exact absurd hy (by simp)
  · next x hx =>
    have hl := hsp.least a b x hx
    obtain ⟨w', g1, g2, g3⟩ := hback x hl.1
    obtain rfl := hsame w' g1
    rw [if_neg g2.ne, WithTop.coe_inj]
    refine le_antisymm ?_ g3
    have := hl.2 (.snoc .nil g1 g2 : IsWalk add edges a b (add 0 w'))
    rwa [hadd.zero_add] at this

end
end Phlite
