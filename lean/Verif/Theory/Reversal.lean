/-
Grounded persistent path homology of the opposite digraph; walks against the arrows; walks that replace edges.
-/
import Verif.Theory.GrPPHInvariance
import Verif.Spec.Digraph

set_option linter.unusedSectionVars false
set_option linter.unusedSimpArgs false

namespace Phlite
open Finsupp (single linearCombination linearCombination_single supported)

section
variable {K : Type} [Field K]

/-- A 2-path against the arrows. -/
def flipPath (p : ℕ × ℕ × ℕ) : ℕ × ℕ × ℕ := (p.2.2, p.2.1, p.1)

theorem flipPath_flipPath (p : ℕ × ℕ × ℕ) : flipPath (flipPath p) = p := rfl

theorem twoPathBoundary_flip (p : ℕ × ℕ × ℕ) : twoPathBoundary K (flipPath p) = Finsupp.lmapDomain K K Prod.swap (twoPathBoundary K p) := by
  obtain ⟨a, b, c⟩ := p
  unfold twoPathBoundary flipPath
  simp only [map_add, map_sub, eq_comm (a := c) (b := a)]
  split
  · simp only [map_zero, Finsupp.lmapDomain_apply, Finsupp.mapDomain_single, Prod.swap]; abel
  · simp only [Finsupp.lmapDomain_apply, Finsupp.mapDomain_single, Prod.swap]; abel

theorem arrowBoundary_flip (e : ℕ × ℕ) : arrowBoundary K e.swap = (-LinearMap.id : (ℕ →₀ K) →ₗ[K] (ℕ →₀ K)) (arrowBoundary K e) := by
  unfold arrowBoundary
  simp

end

section
variable {K : Type} [Field K] {F G : Type} [LinearOrder F] [LinearOrder G] {n n' : ℕ} {time : ℕ → ℕ → Option F} {time' : ℕ → ℕ → Option G}
  {E E' : Set (ℕ × ℕ)}

theorem groundedB1_flip {t : F} {t' : G} (h : arrows n' time' t' = Prod.swap '' arrows n time t) :
    groundedB1 K n' time' t' = (groundedB1 K n time t).map (Finsupp.lmapDomain K K Prod.swap) := by
  have hi : Function.Injective (Prod.swap : ℕ × ℕ → ℕ × ℕ) := Prod.swap_injective
  have hmem : ∀ a b, (a, b) ∈ arrows n' time' t' ↔ (b, a) ∈ arrows n time t := by
    intro a b
    rw [h]
    constructor
    · rintro ⟨⟨x, y⟩, hx, e⟩
      obtain ⟨rfl, rfl⟩ := Prod.mk.inj e
      exact hx
    · exact fun hx => ⟨_, hx, rfl⟩
  have hp : {p : ℕ × ℕ × ℕ | (p.1, p.2.1) ∈ arrows n' time' t' ∧ (p.2.1, p.2.2) ∈ arrows n' time' t'} =
      flipPath '' {p : ℕ × ℕ × ℕ | (p.1, p.2.1) ∈ arrows n time t ∧ (p.2.1, p.2.2) ∈ arrows n time t} := by
    ext ⟨a, b, c⟩
    constructor
    · rintro ⟨h1, h2⟩
      exact ⟨(c, b, a), ⟨(hmem _ _).1 h2, (hmem _ _).1 h1⟩, rfl⟩
    · rintro ⟨⟨x, y, z⟩, ⟨h1, h2⟩, e⟩
      obtain ⟨rfl, e'⟩ := Prod.mk.inj e
      obtain ⟨rfl, rfl⟩ := Prod.mk.inj e'
      exact ⟨(hmem _ _).2 h2, (hmem _ _).2 h1⟩
  have hO : omega2 K n' time' t' = (omega2 K n time t).map (Finsupp.lmapDomain K K flipPath) := by
    unfold omega2
    rw [hp, h, ← Finsupp.lmapDomain_supported, ← Finsupp.lmapDomain_supported]
    ext w
    constructor
    · rintro ⟨⟨x, hx, rfl⟩, h2⟩
      refine ⟨x, ⟨hx, ?_⟩, rfl⟩
      have h2' : linearCombination K (twoPathBoundary K) (Finsupp.lmapDomain K K flipPath x) ∈ (supported K K (arrows n time t)).map
        (Finsupp.lmapDomain K K Prod.swap) := h2
      rw [lc_perm flipPath _ twoPathBoundary_flip] at h2'
      obtain ⟨y, hy, e⟩ := h2'
      show linearCombination K (twoPathBoundary K) x ∈ supported K K (arrows n time t)
      rw [← Finsupp.mapDomain_injective hi e]
      exact hy
    · rintro ⟨x, ⟨hx, h2⟩, rfl⟩
      refine ⟨⟨x, hx, rfl⟩, ?_⟩
      show linearCombination K (twoPathBoundary K) (Finsupp.lmapDomain K K flipPath x) ∈ (supported K K (arrows n time t)).map
        (Finsupp.lmapDomain K K Prod.swap)
      rw [lc_perm flipPath _ twoPathBoundary_flip]
      exact ⟨_, h2, rfl⟩
  unfold groundedB1
  rw [hO]
  ext w
  constructor
  · rintro ⟨_, ⟨x, hx, rfl⟩, rfl⟩
    exact ⟨_, ⟨x, hx, rfl⟩, (lc_perm flipPath _ twoPathBoundary_flip x).symm⟩
  · rintro ⟨_, ⟨x, hx, rfl⟩, rfl⟩
    exact ⟨_, ⟨x, hx, rfl⟩, lc_perm flipPath _ twoPathBoundary_flip x⟩

theorem groundedZ1_flip {t : F} {t' : G} (h : groundedEdges E' n' time' t' = Prod.swap '' groundedEdges E n time t) :
    groundedZ1 K E' n' time' t' = (groundedZ1 K E n time t).map (Finsupp.lmapDomain K K Prod.swap) := by
  unfold groundedZ1
  rw [h, ← Finsupp.lmapDomain_supported]
  ext w
  constructor
  · rintro ⟨⟨x, hx, rfl⟩, h2⟩
    refine ⟨x, ⟨hx, ?_⟩, rfl⟩
    have h2' : linearCombination K (arrowBoundary K) (Finsupp.lmapDomain K K Prod.swap x) = 0 := h2
    rw [lc_perm Prod.swap _ arrowBoundary_flip] at h2'
    exact neg_eq_zero.1 h2'
  · rintro ⟨x, ⟨hx, h2⟩, rfl⟩
    refine ⟨⟨x, hx, rfl⟩, ?_⟩
    show linearCombination K (arrowBoundary K) (Finsupp.lmapDomain K K Prod.swap x) = 0
    have h2' : linearCombination K (arrowBoundary K) x = 0 := h2
    rw [lc_perm Prod.swap _ arrowBoundary_flip, h2', map_zero]

theorem groundedB0_flip {t : F} {t' : G} (h : groundedEdges E' n' time' t' = Prod.swap '' groundedEdges E n time t) :
    groundedB0 K E' n' time' t' = groundedB0 K E n time t := by
  unfold groundedB0
  rw [h, ← Finsupp.lmapDomain_supported]
  ext w
  constructor
  · rintro ⟨_, ⟨x, hx, rfl⟩, rfl⟩
    refine ⟨-x, Submodule.neg_mem _ hx, ?_⟩
    rw [lc_perm Prod.swap _ arrowBoundary_flip, map_neg]; rfl
  · rintro ⟨x, hx, rfl⟩
    refine ⟨_, ⟨-x, Submodule.neg_mem _ hx, rfl⟩, ?_⟩
    rw [lc_perm Prod.swap _ arrowBoundary_flip, map_neg]
    exact neg_neg _

end

section
variable {K : Type} [Field K] {F : Type} [LinearOrder F] [Zero F] {n : ℕ} {time time' : ℕ → ℕ → Option F} {E E' : Set (ℕ × ℕ)} {p : ℕ}

/-- The opposite digraph has the same barcode. -/
theorem IsGroundedBarcode.opposite (hE : ∀ e ∈ E, e.1 < n ∧ e.2 < n) (hE' : ∀ a b, (b, a) ∈ E' ↔ (a, b) ∈ E)
    (ht : ∀ a < n, ∀ b < n, time' b a = time a b) {bars : Multiset (F × WithTop F)} (h : IsGroundedBarcode K E n time p bars) :
    IsGroundedBarcode K E' n time' p bars := by
  have harr : ∀ t, arrows n time' t = Prod.swap '' arrows n time t := by
    intro t
    ext ⟨a, b⟩
    constructor
    · rintro ⟨h1, h2, x, h3, h4⟩
      exact ⟨(b, a), ⟨h2, h1, x, (ht b h2 a h1).symm.trans h3, h4⟩, rfl⟩
    · rintro ⟨⟨c, d⟩, ⟨h1, h2, x, h3, h4⟩, e⟩
      obtain ⟨rfl, rfl⟩ := Prod.mk.inj e
      exact ⟨h2, h1, x, (ht c h1 d h2).trans h3, h4⟩
  have hedge : ∀ t, groundedEdges E' n time' t = Prod.swap '' groundedEdges E n time t := by
    intro t
    unfold groundedEdges
    rw [Set.image_union, harr]
    congr 1
    ext ⟨a, b⟩
    constructor
    · exact fun hm => ⟨(b, a), (hE' b a).1 hm, rfl⟩
    · rintro ⟨⟨c, d⟩, hm, e⟩
      obtain ⟨rfl, rfl⟩ := Prod.mk.inj e
      exact (hE' c d).2 hm
  refine ⟨h.nonneg, h.nonempty, fun s t hs hst => ?_⟩
  rw [h.count s t hs hst]
  split
  · have := fd_supported K {v : ℕ | v < n} (Set.finite_lt_nat n)
    refine (quotRank_map LinearMap.id Function.injective_id _ _ _ _ ?_ ?_).symm
    · rw [Submodule.map_id]
    · rw [Submodule.map_id, groundedB0_flip (hedge t)]
  · have := fd_supported K _ (grounded_finite (time := time) hE s)
    have : FiniteDimensional K (groundedZ1 K E n time s) := Submodule.finiteDimensional_of_le (inf_le_left : _ ≤ supported K K (groundedEdges E n time s))
    exact (quotRank_map (Finsupp.lmapDomain K K Prod.swap) (Finsupp.mapDomain_injective Prod.swap_injective) _ _ _ _ (groundedZ1_flip (hedge s))
      (groundedB1_flip (harr t))).symm

/-- The barcode only depends on the pairs that are joined and the times of the arrows. -/
theorem IsGroundedBarcode.congr (hE : ∀ e ∈ E, e.1 < n ∧ e.2 < n) (hE' : ∀ a b, (a, b) ∈ E' ↔ (a, b) ∈ E)
    (ht : ∀ a < n, ∀ b < n, time' a b = time a b) {bars : Multiset (F × WithTop F)} (h : IsGroundedBarcode K E n time p bars) :
    IsGroundedBarcode K E' n time' p bars := h.permute (Equiv.refl ℕ) (fun _ => Iff.rfl) hE hE' ht

end

/-! ### Walks -/
section
variable {F : Type} [LinearOrder F] [Zero F] [OrderTop F] {add : F → F → F} {edges edges' : List (ℕ × ℕ × F)}

/-- An edge in front of a walk. -/
theorem IsWalk.cons (h0 : ∀ w, add w 0 = w) (hz : ∀ w, add 0 w = w) (hassoc : ∀ x y z, add (add x y) z = add x (add y z)) {i k j : ℕ} {x w : F}
    (he : (i, k, w) ∈ edges) (ht : w < ⊤) (h : IsWalk add edges k j x) : IsWalk add edges i j (add w x) := by
  induction h with
  | nil =>
    rw [h0]
    have := IsWalk.snoc (add := add) (IsWalk.nil (i := i)) he ht
    rwa [hz] at this
  | snoc _ he' ht' ih => rw [← hassoc]; exact .snoc ih he' ht'

/-- A walk after a walk. -/
theorem IsWalk.append (h0 : ∀ w, add w 0 = w) (hassoc : ∀ x y z, add (add x y) z = add x (add y z)) {i k j : ℕ} {x y : F}
    (h : IsWalk add edges i k x) (h' : IsWalk add edges k j y) : IsWalk add edges i j (add x y) := by
  induction h' with
  | nil => rwa [h0]
  | snoc _ he ht ih => rw [← hassoc]; exact .snoc ih he ht

/-- The same walk in the opposite digraph. -/
theorem IsWalk.opposite (hz : ∀ w, add 0 w = w) (hassoc : ∀ x y z, add (add x y) z = add x (add y z)) (hcomm : ∀ x y, add x y = add y x)
    (h : ∀ a b w, (a, b, w) ∈ edges → (b, a, w) ∈ edges') {i j : ℕ} {x : F} (hw : IsWalk add edges i j x) : IsWalk add edges' j i x := by
  induction hw with
  | nil => exact .nil
  | snoc _ he ht ih =>
    rw [hcomm]
    exact ih.cons (fun w => (hcomm w 0).trans (hz w)) hz hassoc (h _ _ _ he) ht

/-- Every edge replaced by a walk that is not longer. -/
theorem IsWalk.shortcut (hadd : IsLengthAddition add) (h0 : ∀ w, add w 0 = w) (hassoc : ∀ x y z, add (add x y) z = add x (add y z))
    (hmono : ∀ x y w, x ≤ y → add w x ≤ add w y) (h : ∀ a b w, (a, b, w) ∈ edges → w < ⊤ → ∃ y ≤ w, IsWalk add edges' a b y) {i j : ℕ} {x : F}
    (hw : IsWalk add edges i j x) : ∃ y ≤ x, IsWalk add edges' i j y := by
  induction hw with
  | nil => exact ⟨0, le_rfl, .nil⟩
  | snoc _ he ht ih =>
    obtain ⟨y, hy, hy'⟩ := ih
    obtain ⟨z, hz, hz'⟩ := h _ _ _ he ht
    exact ⟨add y z, (hmono _ _ _ hz).trans (hadd.mono _ _ _ hy), hy'.append h0 hassoc hz'⟩

/-- Two tables of shortest path lengths agree if each walk of either digraph has a counterpart in the other that is not longer. -/
theorem IsShortestPaths.eq_of_walks {i j i' j' : ℕ} {sp sp' : ℕ → ℕ → Option F} (hsp : IsShortestPaths add edges sp) (hsp' : IsShortestPaths add edges' sp')
    (h : ∀ x, IsWalk add edges i j x → ∃ y ≤ x, IsWalk add edges' i' j' y) (h' : ∀ x, IsWalk add edges' i' j' x → ∃ y ≤ x, IsWalk add edges i j y) :
    sp' i' j' = sp i j := by
  cases e : sp i j with
  | some x =>
    have hx := hsp.least _ _ _ e
    obtain ⟨y, hy, hw⟩ := h x hx.1
    obtain ⟨z, hz⟩ := hsp'.reach _ _ _ hw
    have hz' := hsp'.least _ _ _ hz
    obtain ⟨u, hu, hw'⟩ := h' z hz'.1
    rw [hz]
    congr 1
    exact le_antisymm ((hz'.2 hw).trans hy) ((hx.2 hw').trans hu)
  | none =>
    cases e' : sp' i' j' with
    | none => rfl
    | some z =>
      obtain ⟨u, _, hw⟩ := h' z (hsp'.least _ _ _ e').1
      obtain ⟨v, hv⟩ := hsp.reach _ _ _ hw
      rw [e] at hv; cases hv

end
end Phlite
