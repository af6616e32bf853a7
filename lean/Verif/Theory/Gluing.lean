/-
Maps of digraphs, and grounded persistent path homology of two digraphs that have at most one vertex in common.
-/
import Verif.Theory.Digraph
import Verif.Theory.GrPPHInvariance
import Verif.Spec.Gluing

set_option linter.unusedSectionVars false

namespace Phlite
open Finsupp (single linearCombination linearCombination_single supported)

section
variable {K : Type} [Field K]

/-- The chain map of a map of vertices, on edges: edges whose ends become equal go to zero. -/
noncomputable def collapseMap (f : ℕ → ℕ) : (ℕ × ℕ →₀ K) →ₗ[K] (ℕ × ℕ →₀ K) :=
  linearCombination K fun e => if f e.1 = f e.2 then 0 else single (f e.1, f e.2) 1

/-- The chain map of a map of vertices, on 2-paths. -/
noncomputable def collapsePaths (f : ℕ → ℕ) : (ℕ × ℕ × ℕ →₀ K) →ₗ[K] (ℕ × ℕ × ℕ →₀ K) :=
  linearCombination K fun p => if f p.1 = f p.2.1 ∨ f p.2.1 = f p.2.2 then 0 else single (f p.1, f p.2.1, f p.2.2) 1

theorem collapseMap_single (f : ℕ → ℕ) (a b : ℕ) : collapseMap (K := K) f (single (a, b) 1) = if f a = f b then 0 else single (f a, f b) 1 := by
  unfold collapseMap; rw [linearCombination_single, one_smul]

theorem arrowBoundary_collapseMap (f : ℕ → ℕ) (z : ℕ × ℕ →₀ K) :
    linearCombination K (arrowBoundary K) (collapseMap f z) = Finsupp.lmapDomain K K f (linearCombination K (arrowBoundary K) z) := by
  have : linearCombination K (arrowBoundary K) ∘ₗ collapseMap (K := K) f = Finsupp.lmapDomain K K f ∘ₗ linearCombination K (arrowBoundary K) := by
    refine Finsupp.lhom_ext' fun ⟨a, b⟩ => LinearMap.ext_ring ?_
    show linearCombination K (arrowBoundary K) (collapseMap f (single (a, b) 1)) = Finsupp.lmapDomain K K f (linearCombination K (arrowBoundary K) (single (a, b) 1))
    rw [collapseMap_single, linearCombination_single, one_smul, arrowBoundary, map_sub, Finsupp.lmapDomain_apply, Finsupp.lmapDomain_apply, Finsupp.mapDomain_single,
      Finsupp.mapDomain_single]
    split
    · rename_i h; rw [map_zero, h, sub_self]
    · rw [linearCombination_single, one_smul, arrowBoundary]
  exact LinearMap.congr_fun this z

theorem twoPathBoundary_collapsePaths (f : ℕ → ℕ) (x : ℕ × ℕ × ℕ →₀ K) :
    linearCombination K (twoPathBoundary K) (collapsePaths f x) = collapseMap f (linearCombination K (twoPathBoundary K) x) := by
  have : linearCombination K (twoPathBoundary K) ∘ₗ collapsePaths (K := K) f = collapseMap f ∘ₗ linearCombination K (twoPathBoundary K) := by
    refine Finsupp.lhom_ext' fun ⟨a, b, c⟩ => LinearMap.ext_ring ?_
    show linearCombination K (twoPathBoundary K) (collapsePaths f (single (a, b, c) 1)) = collapseMap f (linearCombination K (twoPathBoundary K) (single (a, b, c) 1))
    unfold collapsePaths
    rw [linearCombination_single, linearCombination_single, one_smul, one_smul]
    unfold twoPathBoundary
    simp only [map_add, map_sub, collapseMap_single]
    by_cases h1 : f a = f b
    · rw [if_pos (Or.inl h1), map_zero, if_pos h1]
      by_cases hac : a = c
      · subst hac; simp [h1]
      · simp only [if_neg hac, collapseMap_single, h1, sub_self, add_zero]
    · by_cases h2 : f b = f c
      · rw [if_pos (Or.inr h2), map_zero, if_pos h2]
        by_cases hac : a = c
        · subst hac; exact absurd h2.symm h1
        · simp only [if_neg hac, collapseMap_single, h2, if_neg h1, zero_sub]
          rw [if_neg (by rwa [← h2]), neg_add_cancel]
      · rw [if_neg (by tauto), linearCombination_single, one_smul, if_neg h1, if_neg h2]
        by_cases hac : a = c
        · subst hac; simp
        · simp only [if_neg hac, collapseMap_single]
  exact LinearMap.congr_fun this x

section
variable {F G : Type} [LinearOrder F] [LinearOrder G] {n n' : ℕ} {time : ℕ → ℕ → Option F} {time' : ℕ → ℕ → Option G}

/-- A linear combination of basis vectors that go into a submodule. -/
theorem map_supported_le {S V : Type} [AddCommGroup V] [Module K V] {X : Set S} {φ : (S →₀ K) →ₗ[K] V} {P : Submodule K V}
    (h : ∀ e ∈ X, φ (single e 1) ∈ P) {x : S →₀ K} (hx : x ∈ supported K K X) : φ x ∈ P := by
  have : supported K K X ≤ P.comap φ := by
    rw [Finsupp.supported_eq_span_single, Submodule.span_le]
    rintro _ ⟨e, he, rfl⟩
    exact h e he
  exact this hx

/-- A map of digraphs takes boundaries to boundaries. -/
theorem groundedB1_collapseMap (f : ℕ → ℕ) {t : F} {t' : G} (h : ∀ a b, (a, b) ∈ arrows n time t → f a = f b ∨ (f a, f b) ∈ arrows n' time' t') {z : ℕ × ℕ →₀ K}
    (hz : z ∈ groundedB1 K n time t) : collapseMap f z ∈ groundedB1 K n' time' t' := by
  obtain ⟨x, ⟨h1, h2⟩, rfl⟩ := hz
  refine ⟨collapsePaths f x, ⟨?_, ?_⟩, twoPathBoundary_collapsePaths f x⟩
  · refine map_supported_le (φ := collapsePaths f) ?_ h1
    rintro ⟨a, b, c⟩ ⟨p1, p2⟩
    unfold collapsePaths
    rw [linearCombination_single, one_smul]
    split
    · exact Submodule.zero_mem _
    · rename_i hne
      refine Finsupp.single_mem_supported K _ ⟨?_, ?_⟩
      · exact (h a b p1).resolve_left fun e => hne (Or.inl e)
      · exact (h b c p2).resolve_left fun e => hne (Or.inr e)
  · show linearCombination K (twoPathBoundary K) (collapsePaths f x) ∈ supported K K (arrows n' time' t')
    rw [twoPathBoundary_collapsePaths]
    refine map_supported_le (φ := collapseMap f) ?_ h2
    rintro ⟨a, b⟩ hab
    rw [collapseMap_single]
    split
    · exact Submodule.zero_mem _
    · rename_i hne
      exact Finsupp.single_mem_supported K _ ((h a b hab).resolve_left hne)

end

/-- The cycles of a digraph. -/
noncomputable def edgeCycles (K : Type) [Field K] (E : Set (ℕ × ℕ)) : Submodule K (ℕ × ℕ →₀ K) :=
  supported K K E ⊓ LinearMap.ker (linearCombination K (arrowBoundary K))

/-- The vertex map on edges, loops included. -/
noncomputable def placeEdges (K : Type) [Field K] (f : ℕ → ℕ) : (ℕ × ℕ →₀ K) →ₗ[K] (ℕ × ℕ →₀ K) := Finsupp.lmapDomain K K (Prod.map f f)

theorem placeEdges_single (f : ℕ → ℕ) (a b : ℕ) : placeEdges K f (single (a, b) 1) = single (f a, f b) 1 := by
  unfold placeEdges; rw [Finsupp.lmapDomain_apply, Finsupp.mapDomain_single]; rfl

theorem arrowBoundary_placeEdges (f : ℕ → ℕ) (z : ℕ × ℕ →₀ K) :
    linearCombination K (arrowBoundary K) (placeEdges K f z) = Finsupp.lmapDomain K K f (linearCombination K (arrowBoundary K) z) := by
  refine lc_perm (Prod.map f f) (Finsupp.lmapDomain K K f) (fun e => ?_) z
  unfold arrowBoundary
  rw [map_sub, Finsupp.lmapDomain_apply, Finsupp.lmapDomain_apply, Finsupp.mapDomain_single, Finsupp.mapDomain_single]; rfl

/-- Two linear maps that agree on the basis vectors of `X`. -/
theorem eq_on_supported {S V : Type} [AddCommGroup V] [Module K V] {X : Set S} {φ ψ : (S →₀ K) →ₗ[K] V} (h : ∀ e ∈ X, φ (single e 1) = ψ (single e 1)) {x : S →₀ K}
    (hx : x ∈ supported K K X) : φ x = ψ x := by
  have := map_supported_le (φ := φ - ψ) (P := ⊥) (fun e he => by
    rw [LinearMap.sub_apply, h e he, sub_self]; exact Submodule.zero_mem _) hx
  rw [Submodule.mem_bot, LinearMap.sub_apply, sub_eq_zero] at this
  exact this

theorem mem_supported_nonzero {S : Type} {X : Set S} {x : S →₀ K} (hx : x ∈ supported K K X) {e : S} (he : x e ≠ 0) : e ∈ X :=
  (Finsupp.mem_supported K x).1 hx (Finsupp.mem_support_iff.2 he)


section
variable {EA EB : Set (ℕ × ℕ)} {iA iB fA fB : ℕ → ℕ}

/-- What is needed of one side. -/
structure GluingSide (EA EB : Set (ℕ × ℕ)) (iA iB fA : ℕ → ℕ) : Prop where
  back : ∀ a b, (a, b) ∈ EA → fA (iA a) = a ∧ fA (iA b) = b
  away : ∀ a b, (a, b) ∈ EB → fA (iB a) = fA (iB b)
  disj : ∀ e ∈ EA, ∀ e' ∈ EB, Prod.map iA iA e ≠ Prod.map iB iB e'

theorem GluingSide.boundary_back (h : GluingSide EA EB iA iB fA) {x : ℕ × ℕ →₀ K} (hx : x ∈ supported K K EA) :
    linearCombination K (arrowBoundary K) (collapseMap fA (placeEdges K iA x)) = linearCombination K (arrowBoundary K) x := by
  refine eq_on_supported (φ := linearCombination K (arrowBoundary K) ∘ₗ collapseMap fA ∘ₗ placeEdges K iA) ?_ hx
  rintro ⟨a, b⟩ hab
  show linearCombination K (arrowBoundary K) (collapseMap fA (placeEdges K iA (single (a, b) 1))) = _
  obtain ⟨e1, e2⟩ := h.back a b hab
  rw [placeEdges_single, collapseMap_single, e1, e2, linearCombination_single, one_smul]
  split
  · rename_i e; rw [map_zero, e, arrowBoundary, sub_self]
  · rw [linearCombination_single, one_smul]

theorem GluingSide.collapse_back (h : GluingSide EA EB iA iB fA) {x : ℕ × ℕ →₀ K} (hx : x ∈ supported K K EA) (hl : ∀ v, x (v, v) = 0) :
    collapseMap fA (placeEdges K iA x) = x := by
  have hx' : x ∈ supported K K (EA ∩ {e | e.1 ≠ e.2}) := by
    refine (Finsupp.mem_supported K x).2 fun e he => ⟨mem_supported_nonzero hx (Finsupp.mem_support_iff.1 he), fun h' => ?_⟩
    obtain ⟨a, b⟩ := e
    obtain rfl : a = b := h'
    exact Finsupp.mem_support_iff.1 he (hl a)
  refine eq_on_supported (φ := collapseMap fA ∘ₗ placeEdges K iA) (ψ := LinearMap.id) ?_ hx'
  rintro ⟨a, b⟩ ⟨hab, hne⟩
  show collapseMap fA (placeEdges K iA (single (a, b) 1)) = _
  obtain ⟨e1, e2⟩ := h.back a b hab
  rw [placeEdges_single, collapseMap_single, e1, e2, if_neg hne]; rfl

theorem GluingSide.collapse_away (h : GluingSide EA EB iA iB fA) {y : ℕ × ℕ →₀ K} (hy : y ∈ supported K K EB) : collapseMap fA (placeEdges K iB y) = 0 := by
  refine eq_on_supported (φ := collapseMap fA ∘ₗ placeEdges K iB) (ψ := 0) ?_ hy
  rintro ⟨a, b⟩ hab
  show collapseMap fA (placeEdges K iB (single (a, b) 1)) = 0
  rw [placeEdges_single, collapseMap_single, if_pos (h.away a b hab)]

theorem GluingSide.injOn (h : GluingSide EA EB iA iB fA) : Set.InjOn (Prod.map iA iA) EA := by
  rintro ⟨a, b⟩ h1 ⟨a', b'⟩ h2 e
  obtain ⟨e1, e2⟩ := Prod.mk.inj e
  obtain ⟨p1, p2⟩ := h.back a b h1
  obtain ⟨q1, q2⟩ := h.back a' b' h2
  rw [← p1, ← p2, ← q1, ← q2]
  exact Prod.ext (congrArg fA e1) (congrArg fA e2)

theorem GluingSide.place_injective (h : GluingSide EA EB iA iB fA) {x : ℕ × ℕ →₀ K} (hx : x ∈ supported K K EA) (h0 : placeEdges K iA x = 0) : x = 0 :=
  Finsupp.mapDomain_injOn EA h.injOn ((Finsupp.mem_supported K x).1 hx) ((Finsupp.mem_supported K 0).1 (Submodule.zero_mem (supported K K EA)))
    (h0.trans (map_zero (placeEdges K iA)).symm)

theorem place_supported {x : ℕ × ℕ →₀ K} {f : ℕ → ℕ} {X : Set (ℕ × ℕ)} (hx : x ∈ supported K K X) : placeEdges K f x ∈ supported K K (Prod.map f f '' X) := by
  unfold placeEdges
  rw [← Finsupp.lmapDomain_supported]
  exact Submodule.mem_map_of_mem hx

theorem GluingSide.finrank_add (h : GluingSide EA EB iA iB fA) (h' : GluingSide EB EA iB iA fB) {P Q : Submodule K (ℕ × ℕ →₀ K)} [FiniteDimensional K P] [FiniteDimensional K Q]
    (hP : P ≤ supported K K EA) (hQ : Q ≤ supported K K EB) :
    Module.finrank K ↥(P.map (placeEdges K iA) ⊔ Q.map (placeEdges K iB)) = Module.finrank K P + Module.finrank K Q := by
  have hbot : P.map (placeEdges K iA) ⊓ Q.map (placeEdges K iB) = ⊥ := by
    rw [eq_bot_iff]
    rintro _ ⟨⟨x, hx, rfl⟩, ⟨y, hy, e⟩⟩
    ext v
    by_contra hv
    obtain ⟨a, ha, e1⟩ := mem_supported_nonzero (place_supported (f := iA) (hP hx)) hv
    obtain ⟨b, hb, e2⟩ := mem_supported_nonzero (e ▸ place_supported (f := iB) (hQ hy)) hv
    exact h.disj a ha b hb (e1.trans e2.symm)
  have hs := Submodule.finrank_sup_add_finrank_inf_eq (P.map (placeEdges K iA)) (Q.map (placeEdges K iB))
  rw [hbot, finrank_bot, add_zero] at hs
  have d1 := finrank_map_add (placeEdges K iA) P
  have d2 := finrank_map_add (placeEdges K iB) Q
  have z1 : P ⊓ LinearMap.ker (placeEdges K iA) = ⊥ := by
    rw [eq_bot_iff]
    rintro x ⟨hx, h0⟩
    exact h.place_injective (hP hx) h0
  have z2 : Q ⊓ LinearMap.ker (placeEdges K iB) = ⊥ := by
    rw [eq_bot_iff]
    rintro x ⟨hx, h0⟩
    exact h'.place_injective (hQ hx) h0
  rw [z1, finrank_bot] at d1
  rw [z2, finrank_bot] at d2
  rw [hs]; omega

/-- Cycles of the glued digraph are sums of cycles of the parts. -/
theorem edgeCycles_gluing (h : GluingSide EA EB iA iB fA) (h' : GluingSide EB EA iB iA fB) :
    edgeCycles K (Prod.map iA iA '' EA ∪ Prod.map iB iB '' EB) = (edgeCycles K EA).map (placeEdges K iA) ⊔ (edgeCycles K EB).map (placeEdges K iB) := by
  refine le_antisymm ?_ (sup_le ?_ ?_)
  · rintro z ⟨h1, h2⟩
    have h1' : z ∈ supported K K (Prod.map iA iA '' EA ∪ Prod.map iB iB '' EB) := h1
    rw [Finsupp.supported_union, ← Finsupp.lmapDomain_supported, ← Finsupp.lmapDomain_supported] at h1'
    obtain ⟨_, ⟨x, hx, rfl⟩, _, ⟨y, hy, rfl⟩, rfl⟩ := Submodule.mem_sup.1 h1'
    have h2' : linearCombination K (arrowBoundary K) (placeEdges K iA x + placeEdges K iB y) = 0 := h2
    refine Submodule.add_mem_sup ⟨x, ⟨hx, ?_⟩, rfl⟩ ⟨y, ⟨hy, ?_⟩, rfl⟩
    · show linearCombination K (arrowBoundary K) x = 0
      have := arrowBoundary_collapseMap (K := K) fA (placeEdges K iA x + placeEdges K iB y)
      rwa [h2', map_zero, map_add, h.collapse_away hy, add_zero, h.boundary_back hx] at this
    · show linearCombination K (arrowBoundary K) y = 0
      have := arrowBoundary_collapseMap (K := K) fB (placeEdges K iA x + placeEdges K iB y)
      rwa [h2', map_zero, map_add, h'.collapse_away hx, zero_add, h'.boundary_back hy] at this
  · rintro _ ⟨x, ⟨hx, h0⟩, rfl⟩
    refine ⟨Finsupp.supported_mono Set.subset_union_left (place_supported hx), ?_⟩
    show linearCombination K (arrowBoundary K) (placeEdges K iA x) = 0
    rw [arrowBoundary_placeEdges, show linearCombination K (arrowBoundary K) x = 0 from h0, map_zero]
  · rintro _ ⟨x, ⟨hx, h0⟩, rfl⟩
    refine ⟨Finsupp.supported_mono Set.subset_union_right (place_supported hx), ?_⟩
    show linearCombination K (arrowBoundary K) (placeEdges K iB x) = 0
    rw [arrowBoundary_placeEdges, show linearCombination K (arrowBoundary K) x = 0 from h0, map_zero]

/-- Those that bound are sums of those that bound. -/
theorem edgeCycles_inf_gluing (h : GluingSide EA EB iA iB fA) (h' : GluingSide EB EA iB iA fB) {B BA BB : Submodule K (ℕ × ℕ →₀ K)}
    (upA : ∀ z ∈ BA, placeEdges K iA z ∈ B) (upB : ∀ z ∈ BB, placeEdges K iB z ∈ B)
    (downA : ∀ z ∈ B, collapseMap fA z ∈ BA) (downB : ∀ z ∈ B, collapseMap fB z ∈ BB) (hl : ∀ z ∈ B, ∀ v, z (v, v) = 0) :
    edgeCycles K (Prod.map iA iA '' EA ∪ Prod.map iB iB '' EB) ⊓ B =
      (edgeCycles K EA ⊓ BA).map (placeEdges K iA) ⊔ (edgeCycles K EB ⊓ BB).map (placeEdges K iB) := by
  rw [edgeCycles_gluing h h']
  refine le_antisymm ?_ (sup_le ?_ ?_)
  · rintro z ⟨h1, h2⟩
    obtain ⟨_, ⟨x, hx, rfl⟩, _, ⟨y, hy, rfl⟩, rfl⟩ := Submodule.mem_sup.1 h1
    have key : ∀ {EA EB : Set (ℕ × ℕ)} {iA iB fA : ℕ → ℕ} {x y : ℕ × ℕ →₀ K} {BA : Submodule K (ℕ × ℕ →₀ K)}, GluingSide EA EB iA iB fA → x ∈ supported K K EA →
        y ∈ supported K K EB → (∀ v, (placeEdges K iA x + placeEdges K iB y) (v, v) = 0) → collapseMap fA (placeEdges K iA x + placeEdges K iB y) ∈ BA → x ∈ BA := by
      intro EA EB iA iB fA x y BA h hx hy h0 hd
      rw [map_add, h.collapse_away hy, add_zero, h.collapse_back hx] at hd
      · exact hd
      · intro v
        by_contra hv
        have hvA := mem_supported_nonzero hx hv
        have e := h0 (iA v)
        have hz : placeEdges K iB y (iA v, iA v) = 0 := by
          by_contra hne
          obtain ⟨b, hb, e2⟩ := mem_supported_nonzero (place_supported (f := iB) hy) hne
          exact h.disj _ hvA b hb e2.symm
        rw [Finsupp.add_apply, hz, add_zero] at e
        refine hv ?_
        rw [← e]
        refine (Finsupp.mapDomain_apply' EA x ((Finsupp.mem_supported K x).1 hx) h.injOn hvA).symm
    refine Submodule.add_mem_sup ⟨x, ⟨hx, ?_⟩, rfl⟩ ⟨y, ⟨hy, ?_⟩, rfl⟩
    · exact key h hx.1 hy.1 (hl _ h2) (downA _ h2)
    · rw [add_comm] at h2
      exact key h' hy.1 hx.1 (hl _ h2) (downB _ h2)
  · rintro _ ⟨x, ⟨hx, hb⟩, rfl⟩
    exact ⟨Submodule.mem_sup_left ⟨x, hx, rfl⟩, upA x hb⟩
  · rintro _ ⟨x, ⟨hx, hb⟩, rfl⟩
    exact ⟨Submodule.mem_sup_right ⟨x, hx, rfl⟩, upB x hb⟩

theorem edgeCycles_fd {E : Set (ℕ × ℕ)} (hE : E.Finite) : FiniteDimensional K (edgeCycles K E) := by
  have := fd_supported K E hE
  exact Submodule.finiteDimensional_of_le (inf_le_left : _ ≤ supported K K E)

end

/-! ### Weighted digraphs -/

section
variable {F : Type} [LinearOrder F] [Zero F] [OrderTop F] {add : F → F → F} {n : ℕ} {edges : List (ℕ × ℕ × F)} {sp : ℕ → ℕ → Option F}

/-- Grounded Betti numbers of the shortest path filtration in terms of cycles of the digraph. -/
theorem groundedBetti1_edgeCycles (hadd : IsLengthAddition add) (hedges : ∀ e ∈ edges, e.1 < n ∧ e.2.1 < n) (hw : ∀ e ∈ edges, 0 ≤ e.2.2)
    (hsp : IsShortestPaths add edges sp) {s t : F} (hst : s ≤ t) :
    groundedBetti1 K (edgeSet edges) n (spTime sp) hst + Module.finrank K ↥(edgeCycles K (edgeSet edges) ⊓ groundedB1 K n (spTime sp) t) =
      Module.finrank K (edgeCycles K (edgeSet edges)) := by
  have hfin : (edgeSet edges).Finite := by
    refine (grounded_finite (time := spTime sp) (E := edgeSet edges) (fun e ⟨w, he⟩ => hedges _ he) t).subset Set.subset_union_left
  have := edgeCycles_fd (K := K) hfin
  have hle : edgeCycles K (edgeSet edges) ≤ groundedZ1 K (edgeSet edges) n (spTime sp) t := inf_le_inf_right _ (Finsupp.supported_mono Set.subset_union_left)
  have := finrank_quotBy (K := K) hle (bot_le : ⊥ ≤ groundedB1 K n (spTime sp) t)
  rw [← this]
  congr 1
  unfold groundedBetti1
  refine range_quotByMap_congr _ _ _ _ ?_ ?_
  · exact (inf_le_inf_right _ (Finsupp.supported_mono Set.subset_union_left)).trans le_sup_left
  · have h1 : groundedZ1 K (edgeSet edges) n (spTime sp) s ≤ edgeCycles K (edgeSet edges) ⊔ groundedB1 K n (spTime sp) s := by
      refine cycles_replace (fun x hx => groundedB1_cycle hx) ?_
      rintro ⟨a, b⟩ (he | ⟨ha, hb, x, hx, hxt⟩)
      · exact ⟨single (a, b) 1, Finsupp.single_mem_supported K _ he, by rw [sub_self]; exact Submodule.zero_mem _⟩
      · simp only [spTime] at hx
        split at hx
        · cases hx
        · rename_i hab
          exact walk_homologous hadd hedges hw hsp ha (hsp.least a b x hx).1 hxt hab
    exact h1.trans (sup_le_sup_left (groundedB1_mono K n _ hst) _)

theorem groundedB1_supported {time : ℕ → ℕ → Option F} {t : F} {z : ℕ × ℕ →₀ K} (hz : z ∈ groundedB1 K n time t) : z ∈ supported K K (arrows n time t) := by
  obtain ⟨x, ⟨_, h2⟩, rfl⟩ := hz
  exact h2

end

end
end Phlite
