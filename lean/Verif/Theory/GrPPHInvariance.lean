/-
Grounded persistent path homology: renaming of vertices, monotone changes of scale, stability.
-/
import Verif.Theory.RipsInvariance
import Verif.Spec.GrPPHReport
import Verif.Proofs.GrPPHHomology

set_option linter.unusedSectionVars false
set_option linter.unusedSimpArgs false

namespace Phlite
open Finsupp (single linearCombination linearCombination_single supported)

section
variable {K : Type} [Field K]

/-- Renaming of edges, and of 2-paths. -/
def permEdge (π : Equiv.Perm ℕ) : ℕ × ℕ → ℕ × ℕ := Prod.map π π
def permPath (π : Equiv.Perm ℕ) : ℕ × ℕ × ℕ → ℕ × ℕ × ℕ := Prod.map π (Prod.map π π)

theorem permEdge_injective (π : Equiv.Perm ℕ) : Function.Injective (permEdge π) := π.injective.prodMap π.injective
theorem permPath_injective (π : Equiv.Perm ℕ) : Function.Injective (permPath π) := π.injective.prodMap (π.injective.prodMap π.injective)

theorem twoPathBoundary_perm (π : Equiv.Perm ℕ) (p : ℕ × ℕ × ℕ) :
    twoPathBoundary K (permPath π p) = Finsupp.lmapDomain K K (permEdge π) (twoPathBoundary K p) := by
  obtain ⟨a, b, c⟩ := p
  unfold twoPathBoundary permPath
  simp only [Prod.map, π.injective.eq_iff, map_add, map_sub]
  split <;> simp [Finsupp.lmapDomain_apply, Finsupp.mapDomain_single, permEdge]

theorem arrowBoundary_perm (π : Equiv.Perm ℕ) (e : ℕ × ℕ) : arrowBoundary K (permEdge π e) = Finsupp.lmapDomain K K π (arrowBoundary K e) := by
  unfold arrowBoundary permEdge
  rw [map_sub, Finsupp.lmapDomain_apply, Finsupp.lmapDomain_apply, Finsupp.mapDomain_single, Finsupp.mapDomain_single]; rfl

/-- A family of vectors that commutes with a renaming. -/
theorem lc_perm {S S' T T' : Type} (g : S → S') (h : (T →₀ K) →ₗ[K] (T' →₀ K)) {M : S → (T →₀ K)} {M' : S' → (T' →₀ K)} (hM : ∀ x, M' (g x) = h (M x))
    (x : S →₀ K) : linearCombination K M' (Finsupp.lmapDomain K K g x) = h (linearCombination K M x) := by
  rw [Finsupp.lmapDomain_apply, Finsupp.linearCombination_mapDomain, Finsupp.linearCombination_apply, Finsupp.linearCombination_apply, Finsupp.sum, Finsupp.sum,
    map_sum]
  exact Finset.sum_congr rfl fun s _ => by rw [map_smul, ← hM]; rfl

end

section
variable {K : Type} [Field K] {F G : Type} [LinearOrder F] [LinearOrder G] {n n' : ℕ} {time : ℕ → ℕ → Option F} {time' : ℕ → ℕ → Option G}
  {E E' : Set (ℕ × ℕ)} (π : Equiv.Perm ℕ)

theorem groundedB1_perm {t : F} {t' : G} (h : arrows n' time' t' = permEdge π '' arrows n time t) :
    groundedB1 K n' time' t' = (groundedB1 K n time t).map (Finsupp.lmapDomain K K (permEdge π)) := by
  have hi := permEdge_injective π
  have hp : {p : ℕ × ℕ × ℕ | (p.1, p.2.1) ∈ arrows n' time' t' ∧ (p.2.1, p.2.2) ∈ arrows n' time' t'} =
      permPath π '' {p : ℕ × ℕ × ℕ | (p.1, p.2.1) ∈ arrows n time t ∧ (p.2.1, p.2.2) ∈ arrows n time t} := by
    ext ⟨a, b, c⟩
    constructor
    · rintro ⟨h1, h2⟩
      refine ⟨(π.symm a, π.symm b, π.symm c), ⟨?_, ?_⟩, by simp [permPath]⟩
      · rw [h] at h1
        obtain ⟨⟨x, y⟩, hx, e⟩ := h1
        obtain ⟨rfl, rfl⟩ := Prod.mk.inj e
        simpa using hx
      · rw [h] at h2
        obtain ⟨⟨x, y⟩, hx, e⟩ := h2
        obtain ⟨rfl, rfl⟩ := Prod.mk.inj e
        simpa using hx
    · rintro ⟨⟨x, y, z⟩, ⟨h1, h2⟩, e⟩
      simp only [permPath, Prod.map, Prod.mk.injEq] at e
      obtain ⟨rfl, rfl, rfl⟩ := e
      rw [h]
      exact ⟨⟨_, h1, rfl⟩, ⟨_, h2, rfl⟩⟩
  have hO : omega2 K n' time' t' = (omega2 K n time t).map (Finsupp.lmapDomain K K (permPath π)) := by
    unfold omega2
    rw [hp, h, ← Finsupp.lmapDomain_supported, ← Finsupp.lmapDomain_supported]
    ext w
    constructor
    · rintro ⟨⟨x, hx, rfl⟩, h2⟩
      refine ⟨x, ⟨hx, ?_⟩, rfl⟩
      have h2' : linearCombination K (twoPathBoundary K) (Finsupp.lmapDomain K K (permPath π) x) ∈ (supported K K (arrows n time t)).map
        (Finsupp.lmapDomain K K (permEdge π)) := h2
      rw [lc_perm (permPath π) _ (twoPathBoundary_perm π)] at h2'
      obtain ⟨y, hy, e⟩ := h2'
      show linearCombination K (twoPathBoundary K) x ∈ supported K K (arrows n time t)
      rw [← Finsupp.mapDomain_injective hi e]
      exact hy
    · rintro ⟨x, ⟨hx, h2⟩, rfl⟩
      refine ⟨⟨x, hx, rfl⟩, ?_⟩
      show linearCombination K (twoPathBoundary K) (Finsupp.lmapDomain K K (permPath π) x) ∈ (supported K K (arrows n time t)).map
        (Finsupp.lmapDomain K K (permEdge π))
      rw [lc_perm (permPath π) _ (twoPathBoundary_perm π)]
      exact ⟨_, h2, rfl⟩
  unfold groundedB1
  rw [hO]
  ext w
  constructor
  · rintro ⟨_, ⟨x, hx, rfl⟩, rfl⟩
    exact ⟨_, ⟨x, hx, rfl⟩, (lc_perm (permPath π) _ (twoPathBoundary_perm π) x).symm⟩
  · rintro ⟨_, ⟨x, hx, rfl⟩, rfl⟩
    exact ⟨_, ⟨x, hx, rfl⟩, lc_perm (permPath π) _ (twoPathBoundary_perm π) x⟩

theorem groundedZ1_perm {t : F} {t' : G} (h : groundedEdges E' n' time' t' = permEdge π '' groundedEdges E n time t) :
    groundedZ1 K E' n' time' t' = (groundedZ1 K E n time t).map (Finsupp.lmapDomain K K (permEdge π)) := by
  unfold groundedZ1
  rw [h, ← Finsupp.lmapDomain_supported]
  ext w
  constructor
  · rintro ⟨⟨x, hx, rfl⟩, h2⟩
    refine ⟨x, ⟨hx, ?_⟩, rfl⟩
    have h2' : linearCombination K (arrowBoundary K) (Finsupp.lmapDomain K K (permEdge π) x) = 0 := h2
    rw [lc_perm (permEdge π) _ (arrowBoundary_perm π)] at h2'
    exact Finsupp.mapDomain_injective π.injective (h2'.trans (map_zero (Finsupp.lmapDomain K K π)).symm)
  · rintro ⟨x, ⟨hx, h2⟩, rfl⟩
    refine ⟨⟨x, hx, rfl⟩, ?_⟩
    show linearCombination K (arrowBoundary K) (Finsupp.lmapDomain K K (permEdge π) x) = 0
    have h2' : linearCombination K (arrowBoundary K) x = 0 := h2
    rw [lc_perm (permEdge π) _ (arrowBoundary_perm π), h2', map_zero]

theorem groundedB0_perm {t : F} {t' : G} (h : groundedEdges E' n' time' t' = permEdge π '' groundedEdges E n time t) :
    groundedB0 K E' n' time' t' = (groundedB0 K E n time t).map (Finsupp.lmapDomain K K π) := by
  unfold groundedB0
  rw [h, ← Finsupp.lmapDomain_supported]
  ext w
  constructor
  · rintro ⟨_, ⟨x, hx, rfl⟩, rfl⟩
    exact ⟨_, ⟨x, hx, rfl⟩, (lc_perm (permEdge π) _ (arrowBoundary_perm π) x).symm⟩
  · rintro ⟨_, ⟨x, hx, rfl⟩, rfl⟩
    exact ⟨_, ⟨x, hx, rfl⟩, lc_perm (permEdge π) _ (arrowBoundary_perm π) x⟩

theorem grounded_finite (hE : ∀ e ∈ E, e.1 < n ∧ e.2 < n) (t : F) : (groundedEdges E n time t).Finite := by
  refine ((Set.finite_lt_nat n).prod (Set.finite_lt_nat n)).subset ?_
  rintro e (he | he)
  · exact hE e he
  · exact ⟨he.1, he.2.1⟩

/-- Betti numbers in degree 1 only depend on the edges at `s` and the arrows at `t`, up to names. -/
theorem groundedBetti1_perm (hE : ∀ e ∈ E, e.1 < n ∧ e.2 < n) {s t : F} {s' t' : G} (hst : s ≤ t) (hst' : s' ≤ t')
    (h1 : groundedEdges E' n' time' s' = permEdge π '' groundedEdges E n time s) (h2 : arrows n' time' t' = permEdge π '' arrows n time t) :
    groundedBetti1 K E' n' time' hst' = groundedBetti1 K E n time hst := by
  have := fd_supported K _ (grounded_finite (time := time) hE s)
  have : FiniteDimensional K (groundedZ1 K E n time s) := Submodule.finiteDimensional_of_le (inf_le_left : _ ≤ supported K K (groundedEdges E n time s))
  exact quotRank_map (Finsupp.lmapDomain K K (permEdge π)) (Finsupp.mapDomain_injective (permEdge_injective π)) _ _ _ _ (groundedZ1_perm π h1) (groundedB1_perm π h2)

/-- Betti numbers in degree 0 only depend on the edges at `t`, up to names. -/
theorem groundedBetti0_perm {s t : F} {s' t' : G} (hst : s ≤ t) (hst' : s' ≤ t') (hn : {v | v < n'} = π '' {v | v < n})
    (h1 : groundedEdges E' n' time' t' = permEdge π '' groundedEdges E n time t) :
    groundedBetti0 K E' n' time' hst' = groundedBetti0 K E n time hst := by
  have := fd_supported K {v : ℕ | v < n} (Set.finite_lt_nat n)
  refine quotRank_map (Finsupp.lmapDomain K K π) (Finsupp.mapDomain_injective π.injective) _ _ _ _ ?_ (groundedB0_perm π h1)
  rw [hn, Finsupp.lmapDomain_supported]

end

/-! ### Barcodes -/
section
variable {K : Type} [Field K] {F : Type} [LinearOrder F] [Zero F] {n n' : ℕ} {time time' : ℕ → ℕ → Option F} {E E' : Set (ℕ × ℕ)} {p : ℕ}

theorem IsGroundedBarcode.unique {A B : Multiset (F × WithTop F)} (hA : IsGroundedBarcode K E n time p A) (hB : IsGroundedBarcode K E n time p B) : A = B := by
  refine barcode_unique hA.nonempty hB.nonempty fun s t hst => ?_
  by_cases hs : 0 ≤ s
  · rw [hA.count s t hs hst, hB.count s t hs hst]
  · have hz : ∀ {C : Multiset (F × WithTop F)}, IsGroundedBarcode K E n time p C → aliveBars C s t = 0 := by
      intro C hC
      unfold aliveBars
      rw [Multiset.countP_eq_zero]
      rintro b hb ⟨h1, _⟩
      exact hs ((hC.nonneg b hb).trans h1)
    rw [hz hA, hz hB]

/-- Renaming the vertices. -/
theorem IsGroundedBarcode.permute (π : Equiv.Perm ℕ) (hπ : ∀ v, v < n ↔ π v < n) (hE : ∀ e ∈ E, e.1 < n ∧ e.2 < n)
    (hE' : ∀ a b, (π a, π b) ∈ E' ↔ (a, b) ∈ E) (ht : ∀ a < n, ∀ b < n, time' (π a) (π b) = time a b) {bars : Multiset (F × WithTop F)}
    (h : IsGroundedBarcode K E n time p bars) : IsGroundedBarcode K E' n time' p bars := by
  have harr : ∀ t, arrows n time' t = permEdge π '' arrows n time t := by
    intro t
    ext ⟨a, b⟩
    constructor
    · rintro ⟨h1, h2, x, h3, h4⟩
      have ha : π.symm a < n := (hπ _).2 (by simpa using h1)
      have hb : π.symm b < n := (hπ _).2 (by simpa using h2)
      refine ⟨(π.symm a, π.symm b), ⟨ha, hb, x, ?_, h4⟩, by simp [permEdge]⟩
      rw [← ht _ ha _ hb]
      simpa using h3
    · rintro ⟨⟨c, d⟩, ⟨h1, h2, x, h3, h4⟩, e⟩
      obtain ⟨rfl, rfl⟩ := Prod.mk.inj e
      exact ⟨(hπ c).1 h1, (hπ d).1 h2, x, (ht c h1 d h2).trans h3, h4⟩
  have hedge : ∀ t, groundedEdges E' n time' t = permEdge π '' groundedEdges E n time t := by
    intro t
    unfold groundedEdges
    rw [Set.image_union, harr]
    congr 1
    ext ⟨a, b⟩
    constructor
    · intro hm
      exact ⟨(π.symm a, π.symm b), (hE' _ _).1 (by simpa using hm), by simp [permEdge]⟩
    · rintro ⟨⟨c, d⟩, hm, e⟩
      obtain ⟨rfl, rfl⟩ := Prod.mk.inj e
      exact (hE' c d).2 hm
  have hn : {v | v < n} = π '' {v | v < n} := by
    ext v
    constructor
    · intro hv
      exact ⟨π.symm v, (hπ _).2 (by simpa using hv), by simp⟩
    · rintro ⟨w, hw, rfl⟩
      exact (hπ w).1 hw
  refine ⟨h.nonneg, h.nonempty, fun s t hs hst => ?_⟩
  rw [h.count s t hs hst]
  split
  · exact (groundedBetti0_perm π hst hst hn (hedge t)).symm
  · exact (groundedBetti1_perm π hE hst hst (hedge s) (harr t)).symm

/-! ### Change of scale -/
variable {G : Type} [LinearOrder G] [Zero G]

open Classical in
/-- For a monotone map and finitely many values: counting intervals with transformed end points. -/
theorem rescale_levels {φ : F → G} (hφ : Monotone φ) (bars : Multiset (F × WithTop F)) (W₀ : Finset F) {s t : G} (hst : s ≤ t) (hne : ∃ v ∈ W₀, φ v ≤ s) :
    ∃ x y, x ≤ y ∧ (∀ v ∈ W₀, v ≤ x ↔ φ v ≤ s) ∧ (∀ v ∈ W₀, v ≤ y ↔ φ v ≤ t) ∧
      aliveBars ((bars.map (mapInterval φ)).filter fun b : G × WithTop G => (b.1 : WithTop G) < b.2) s t = aliveBars bars x y := by
  let W : Finset F := W₀ ∪ (bars.toFinset.image Prod.fst) ∪ (bars.toFinset.image fun b => b.2.untopD b.1)
  have hW0 : ∀ v ∈ W₀, v ∈ W := fun v hv => Finset.mem_union_left _ (Finset.mem_union_left _ hv)
  have hWb : ∀ b ∈ bars, b.1 ∈ W := fun b hb =>
    Finset.mem_union_left _ (Finset.mem_union_right _ (Finset.mem_image.2 ⟨b, by simpa using hb, rfl⟩))
  have hWe : ∀ b ∈ bars, ∀ e : F, b.2 = (e : WithTop F) → e ∈ W := fun b hb e he =>
    Finset.mem_union_right _ (Finset.mem_image.2 ⟨b, by simpa using hb, by rw [he]; rfl⟩)
  have hal : aliveBars ((bars.map (mapInterval φ)).filter fun b : G × WithTop G => (b.1 : WithTop G) < b.2) s t =
      bars.countP fun b => φ b.1 ≤ s ∧ (t : WithTop G) < b.2.map φ := by
    unfold aliveBars
    rw [Multiset.countP_filter, Multiset.countP_map, Multiset.countP_eq_card_filter]
    congr 1
    apply Multiset.filter_congr
    intro b _
    constructor
    · rintro ⟨h, _⟩; exact h
    · rintro ⟨h1, h2⟩
      refine ⟨⟨h1, h2⟩, lt_of_le_of_lt ?_ h2⟩
      exact WithTop.coe_le_coe.2 (h1.trans hst)
  obtain ⟨v, hv, hvs⟩ := hne
  rcases level_preimage hφ W s with hs | ⟨x, hxW, hxs, hx⟩
  · exact absurd hvs (hs v (hW0 v hv))
  rcases level_preimage hφ W t with ht | ⟨y, hyW, hyt, hy⟩
  · exact absurd (hxs.trans hst) (ht x hxW)
  refine ⟨x, y, (hy x hxW).2 (hxs.trans hst), fun v hv => hx v (hW0 v hv), fun v hv => hy v (hW0 v hv), ?_⟩
  rw [hal]
  unfold aliveBars
  rw [Multiset.countP_eq_card_filter, Multiset.countP_eq_card_filter]
  congr 1
  apply Multiset.filter_congr
  intro b hb
  rw [hx _ (hWb b hb)]
  refine and_congr_right fun _ => ?_
  cases hb2 : b.2 with
  | top => simp
  | coe e =>
    rw [WithTop.map_coe, WithTop.coe_lt_coe, WithTop.coe_lt_coe, ← not_le, ← not_le, hy e (hWe b hb e hb2)]

open Classical in
/-- Transforming times by a monotone function that preserves 0 transforms the intervals, some of which may become empty. -/
theorem IsGroundedBarcode.rescale {φ : F → G} (hφ : Monotone φ) (h0 : φ 0 = 0) (hE : ∀ e ∈ E, e.1 < n ∧ e.2 < n)
    {time' : ℕ → ℕ → Option G} (ht : ∀ a < n, ∀ b < n, time' a b = (time a b).map φ) {bars : Multiset (F × WithTop F)}
    (h : IsGroundedBarcode K E n time p bars) :
    IsGroundedBarcode K E n time' p ((bars.map (mapInterval φ)).filter fun b => (b.1 : WithTop G) < b.2) := by
  refine ⟨?_, fun b hb => (Multiset.mem_filter.1 hb).2, ?_⟩
  · intro b hb
    obtain ⟨c, hc, rfl⟩ := Multiset.mem_map.1 (Multiset.mem_filter.1 hb).1
    show 0 ≤ φ c.1
    rw [← h0]
    exact hφ (h.nonneg c hc)
  intro s t hs hst
  obtain ⟨x, y, hxy, hx, hy, he⟩ := rescale_levels hφ bars
    (insert 0 ((Finset.range n ×ˢ Finset.range n).image fun q => (time q.1 q.2).getD 0)) hst ⟨0, Finset.mem_insert_self _ _, by rw [h0]; exact hs⟩
  have hmem : ∀ a < n, ∀ b < n, ∀ v, time a b = some v →
      v ∈ insert 0 ((Finset.range n ×ˢ Finset.range n).image fun q : ℕ × ℕ => (time q.1 q.2).getD 0) := by
    intro a ha b hb v hv
    exact Finset.mem_insert_of_mem (Finset.mem_image.2 ⟨(a, b), by simp [ha, hb], by simp [hv]⟩)
  have harr : ∀ (x : F) (s : G), (∀ v ∈ insert 0 ((Finset.range n ×ˢ Finset.range n).image fun q : ℕ × ℕ => (time q.1 q.2).getD 0), v ≤ x ↔ φ v ≤ s) →
      arrows n time' s = permEdge (Equiv.refl ℕ) '' arrows n time x := by
    intro x s hx
    have : permEdge (Equiv.refl ℕ) = id := rfl
    rw [this, Set.image_id]
    ext ⟨a, b⟩
    constructor
    · rintro ⟨h1, h2, v, h3, h4⟩
      dsimp only at h1 h2 h3
      rw [ht a h1 b h2] at h3
      obtain ⟨u, hu, rfl⟩ := Option.map_eq_some_iff.1 h3
      exact ⟨h1, h2, u, hu, (hx u (hmem a h1 b h2 u hu)).2 h4⟩
    · rintro ⟨h1, h2, v, h3, h4⟩
      dsimp only at h1 h2 h3
      refine ⟨h1, h2, φ v, ?_, (hx v (hmem a h1 b h2 v h3)).1 h4⟩
      show time' a b = _
      rw [ht a h1 b h2, h3]; rfl
  have hedge : ∀ (x : F) (s : G), (∀ v ∈ insert 0 ((Finset.range n ×ˢ Finset.range n).image fun q : ℕ × ℕ => (time q.1 q.2).getD 0), v ≤ x ↔ φ v ≤ s) →
      groundedEdges E n time' s = permEdge (Equiv.refl ℕ) '' groundedEdges E n time x := by
    intro x s hx
    unfold groundedEdges
    rw [Set.image_union, harr x s hx]
    congr 1
    exact (Set.image_id E).symm
  have hx0 : 0 ≤ x := (hx 0 (Finset.mem_insert_self _ _)).2 (by rw [h0]; exact hs)
  rw [he, h.count x y hx0 hxy]
  split
  · exact (groundedBetti0_perm (Equiv.refl ℕ) hxy hst (Set.image_id _).symm (hedge y t hy)).symm
  · exact (groundedBetti1_perm (Equiv.refl ℕ) hE hxy hst (hedge x s hx) (harr y t hy)).symm

/-! ### Stability -/

/-- The rank of a composition. -/
theorem quotRank_nested {V : Type} [AddCommGroup V] [Module K V] {Z₁ Z₂ Z₃ Z₄ B₁ B₂ B₃ B₄ : Submodule K V} [FiniteDimensional K Z₂] (h12 : Z₁ ≤ Z₂) (h23 : Z₂ ≤ Z₃)
    (h34 : Z₃ ≤ Z₄) (k12 : B₁ ≤ B₂) (k23 : B₂ ≤ B₃) (k34 : B₃ ≤ B₄) (h14 : Z₁ ≤ Z₄) (k14 : B₁ ≤ B₄) :
    Module.finrank K (LinearMap.range (quotByMap h14 k14)) ≤ Module.finrank K (LinearMap.range (quotByMap h23 k23)) := by
  have hcomp : quotByMap h14 k14 = (quotByMap h34 k34).comp ((quotByMap h23 k23).comp (quotByMap h12 k12)) := by
    apply LinearMap.ext
    intro x
    induction x using Submodule.Quotient.induction_on with | H x => rfl
  rw [hcomp, LinearMap.range_comp, LinearMap.range_comp]
  have : FiniteDimensional K (QuotBy Z₂ B₂) := inferInstance
  have : FiniteDimensional K (LinearMap.range (quotByMap h23 k23)) := inferInstance
  have hle : (LinearMap.range (quotByMap h12 k12)).map (quotByMap h23 k23) ≤ LinearMap.range (quotByMap h23 k23) := LinearMap.map_le_range
  have := Submodule.finiteDimensional_of_le hle
  exact (Submodule.finrank_map_le _ _).trans (Submodule.finrank_mono hle)

theorem omega2_le {s t : F} (h : arrows n time s ⊆ arrows n time' t) : omega2 K n time s ≤ omega2 K n time' t := by
  refine inf_le_inf (Finsupp.supported_mono ?_) (Submodule.comap_mono (Finsupp.supported_mono h))
  rintro p ⟨h1, h2⟩
  exact ⟨h h1, h h2⟩

/-- The barcodes of two filtrations of the same digraph that are interleaved. -/
theorem IsGroundedBarcode.stable (hE : ∀ e ∈ E, e.1 < n ∧ e.2 < n) {bars bars' : Multiset (F × WithTop F)} (h : IsGroundedBarcode K E n time p bars)
    (h' : IsGroundedBarcode K E n time' p bars') {s₀ s t t₀ : F} (h1 : s₀ ≤ s) (h2 : s ≤ t) (h3 : t ≤ t₀)
    (hs : ∀ i < n, ∀ j < n, ∀ x, time' i j = some x → x ≤ s₀ → ∃ y, time i j = some y ∧ y ≤ s)
    (ht : ∀ i < n, ∀ j < n, ∀ x, time i j = some x → x ≤ t → ∃ y, time' i j = some y ∧ y ≤ t₀) : aliveBars bars' s₀ t₀ ≤ aliveBars bars s t := by
  by_cases h0 : 0 ≤ s₀
  · have a1 : arrows n time' s₀ ⊆ arrows n time s := by
      rintro ⟨i, j⟩ ⟨hi, hj, x, hx, hx'⟩
      exact ⟨hi, hj, hs i hi j hj x hx hx'⟩
    have a2 : arrows n time t ⊆ arrows n time' t₀ := by
      rintro ⟨i, j⟩ ⟨hi, hj, x, hx, hx'⟩
      exact ⟨hi, hj, ht i hi j hj x hx hx'⟩
    have b1 : groundedEdges E n time' s₀ ⊆ groundedEdges E n time s := Set.union_subset_union_right _ a1
    have b2 : groundedEdges E n time t ⊆ groundedEdges E n time' t₀ := Set.union_subset_union_right _ a2
    rw [h.count s t (h0.trans h1) h2, h'.count s₀ t₀ h0 (h1.trans (h2.trans h3))]
    have := fd_supported K _ (grounded_finite (time := time) hE s)
    have : FiniteDimensional K (groundedZ1 K E n time s) := Submodule.finiteDimensional_of_le (inf_le_left : _ ≤ supported K K (groundedEdges E n time s))
    have := fd_supported K {v : ℕ | v < n} (Set.finite_lt_nat n)
    split
    · exact quotRank_nested le_rfl le_rfl le_rfl (Submodule.map_mono (Finsupp.supported_mono b1)) (groundedB0_mono K E n time h2)
        (Submodule.map_mono (Finsupp.supported_mono b2)) _ _
    · exact quotRank_nested (inf_le_inf_right _ (Finsupp.supported_mono b1)) (groundedZ1_mono K E n time h2)
        (inf_le_inf_right _ (Finsupp.supported_mono b2)) (Submodule.map_mono (omega2_le a1)) (groundedB1_mono K n time h2) (Submodule.map_mono (omega2_le a2)) _ _
  · have : aliveBars bars' s₀ t₀ = 0 := by
      unfold aliveBars
      rw [Multiset.countP_eq_zero]
      rintro b hb ⟨q, _⟩
      exact h0 ((h'.nonneg b hb).trans q)
    omega

end
end Phlite
