/-
Grounded path homology of the shortest path filtration of a weighted digraph.
-/
import Verif.Spec.GrPPH
import Verif.Spec.Digraph
import Verif.Theory.Components
import Verif.Proofs.GrPPHHomology

set_option linter.unusedSectionVars false
set_option linter.unusedSimpArgs false

namespace Phlite
open Finsupp (single linearCombination linearCombination_single supported)

section
variable {F : Type} [LinearOrder F] [Zero F] [OrderTop F] {n : ℕ} {time : ℕ → ℕ → Option F}
variable {K : Type} [Field K]

theorem arrowBoundary_twoPath (p : ℕ × ℕ × ℕ) : linearCombination K (arrowBoundary K) (twoPathBoundary K p) = 0 := by
  unfold twoPathBoundary
  split
  · rename_i h
    rw [map_add, map_sub, map_zero, linearCombination_single, linearCombination_single, one_smul, one_smul, arrowBoundary, arrowBoundary]
    simp only [h]; abel
  · rw [map_add, map_sub, linearCombination_single, linearCombination_single, linearCombination_single, one_smul, one_smul, one_smul, arrowBoundary,
      arrowBoundary, arrowBoundary]
    abel

theorem groundedB1_cycle {t : F} {x : ℕ × ℕ →₀ K} (hx : x ∈ groundedB1 K n time t) : linearCombination K (arrowBoundary K) x = 0 := by
  obtain ⟨y, _, rfl⟩ := hx
  have : linearCombination K (arrowBoundary K) ∘ₗ linearCombination K (twoPathBoundary K) = 0 := by
    refine Finsupp.lhom_ext fun p k => ?_
    rw [LinearMap.comp_apply, linearCombination_single, map_smul, arrowBoundary_twoPath, smul_zero]; rfl
  exact LinearMap.congr_fun this y

/-- A path whose ends are equal or joined by an arrow bounds. -/
theorem twoPath_mem_B1 {t : F} {a b c : ℕ} (h1 : (a, b) ∈ arrows n time t) (h2 : (b, c) ∈ arrows n time t)
    (h3 : a = c ∨ (a, c) ∈ arrows n time t) : twoPathBoundary K (a, b, c) ∈ groundedB1 K n time t := by
  refine ⟨single (a, b, c) 1, ⟨Finsupp.single_mem_supported K _ ⟨h1, h2⟩, ?_⟩, by rw [linearCombination_single, one_smul]⟩
  show linearCombination K (twoPathBoundary K) (single (a, b, c) 1) ∈ supported K K (arrows n time t)
  rw [linearCombination_single, one_smul]
  exact boundary_path K (p := (a, b, c)) ⟨h1, h2⟩ h3

/-- Cycles can be moved into `S` if every edge can. -/
theorem cycles_replace {X Y : Set (ℕ × ℕ)} {B : Submodule K (ℕ × ℕ →₀ K)} (hB : ∀ x ∈ B, linearCombination K (arrowBoundary K) x = 0)
    (h : ∀ e ∈ X, ∃ y ∈ supported K K Y, single e 1 - y ∈ B) :
    supported K K X ⊓ LinearMap.ker (linearCombination K (arrowBoundary K)) ≤
      (supported K K Y ⊓ LinearMap.ker (linearCombination K (arrowBoundary K))) ⊔ B := by
  intro z hz
  have h1 : z ∈ supported K K Y ⊔ B := by
    have : supported K K X ≤ supported K K Y ⊔ B := by
      rw [Finsupp.supported_eq_span_single, Submodule.span_le]
      rintro _ ⟨e, he, rfl⟩
      obtain ⟨y, hy, hb⟩ := h e he
      have := Submodule.add_mem_sup hy hb
      rwa [add_sub_cancel] at this
    exact this hz.1
  obtain ⟨y, hy, b, hb, rfl⟩ := Submodule.mem_sup.1 h1
  refine Submodule.add_mem_sup ⟨hy, ?_⟩ hb
  have h2 : linearCombination K (arrowBoundary K) (y + b) = 0 := hz.2
  rw [map_add, hB b hb, add_zero] at h2
  exact h2

theorem range_quotByMap_congr {W : Type} [AddCommGroup W] [Module K W] {Z₀ Z Z' B₀ B B' : Submodule K W} (h0 : Z₀ ≤ Z') (hb0 : B₀ ≤ B')
    (hZ : Z ≤ Z') (hB : B ≤ B') (hle : Z₀ ≤ Z ⊔ B') (hle' : Z ≤ Z₀ ⊔ B') :
    Module.finrank K (LinearMap.range (quotByMap hZ hB)) = Module.finrank K (LinearMap.range (quotByMap h0 hb0)) := by
  have key : ∀ {Z₁ Z₂ B₁ B₂ : Submodule K W} (h1 : Z₁ ≤ Z') (h2 : Z₂ ≤ Z') (b1 : B₁ ≤ B') (b2 : B₂ ≤ B'), Z₁ ≤ Z₂ ⊔ B' →
      LinearMap.range (quotByMap h1 b1) ≤ LinearMap.range (quotByMap h2 b2) := by
    intro Z₁ Z₂ B₁ B₂ h1 h2 b1 b2 hle
    rintro _ ⟨x, rfl⟩
    obtain ⟨⟨w, hw⟩, rfl⟩ := Submodule.mkQ_surjective _ x
    obtain ⟨a, ha, b, hb, rfl⟩ := Submodule.mem_sup.1 (hle hw)
    refine ⟨Submodule.mkQ _ ⟨a, ha⟩, ?_⟩
    show Submodule.mkQ _ (Submodule.inclusion h2 ⟨a, ha⟩) = Submodule.mkQ _ (Submodule.inclusion h1 ⟨a + b, hw⟩)
    rw [← sub_eq_zero, ← map_sub, Submodule.mkQ_apply, Submodule.Quotient.mk_eq_zero, Submodule.mem_comap]
    show a - (a + b) ∈ B'
    rw [sub_add_cancel_left]
    exact Submodule.neg_mem _ hb
  rw [le_antisymm (key hZ h0 hB hb0 hle') (key h0 hZ hb0 hB hle)]

end

/-! ### Degree 0 -/
section
variable {F : Type} [LinearOrder F] [Zero F] [OrderTop F] {n : ℕ} {time : ℕ → ℕ → Option F}
variable {K : Type} [Field K]

theorem groundedB0_eq {E : Set (ℕ × ℕ)} {t : F} : groundedB0 K E n time t =
    Submodule.span K (diffs K fun a b => (a, b) ∈ groundedEdges E n time t) := by
  unfold groundedB0
  rw [Finsupp.supported_eq_span_single, Submodule.map_span, Set.image_image]
  congr 1
  ext v
  constructor
  · rintro ⟨e, he, rfl⟩
    refine ⟨e.1, e.2, he, ?_⟩
    simp only [linearCombination_single, one_smul, arrowBoundary]
  · rintro ⟨a, b, he, rfl⟩
    refine ⟨(a, b), he, ?_⟩
    simp only [linearCombination_single, one_smul, arrowBoundary]

theorem groundedBetti0_eq {E : Set (ℕ × ℕ)} (hE : ∀ e ∈ E, e.1 < n ∧ e.2 < n) {s t : F} (hst : s ≤ t) :
    groundedBetti0 K E n time hst = componentCount n fun a b => (a, b) ∈ groundedEdges E n time t := by
  have hG : ∀ e ∈ groundedEdges E n time t, e.1 < n ∧ e.2 < n := by
    intro e he
    rcases he with he | he
    · exact hE e he
    · exact ⟨he.1, he.2.1⟩
  have hc := components_ncard (n := n) (R := fun a b => (a, b) ∈ groundedEdges E n time t) (r := fun a b => (a, b) ∈ groundedEdges E n time t)
    (ι := id) (fun a _ b _ h => h) fun x y => by
      constructor
      · intro h; exact ⟨x, y, (hG _ h).1, (hG _ h).2, h, rfl, rfl⟩
      · rintro ⟨a, b, _, _, h, rfl, rfl⟩; exact h
  rw [← hc]
  have e1 : {x : ℕ | ∃ a < n, x = id a} = {v | v < n} := by ext x; simp
  rw [e1, ← finrank_components (K := K)]
  unfold groundedBetti0
  rw [range_quotByMap_same _ _ le_sup_left, groundedB0_eq]

/-- Relations with the same connectivity have as many components. -/
theorem componentCount_congr {R R' : ℕ → ℕ → Prop} (h : ∀ a b, a < n → b < n → R a b → R' a b)
    (h' : ∀ a b, a < n → b < n → R' a b → Relation.EqvGen (fun x y => x < n ∧ y < n ∧ R x y) a b) :
    componentCount n R = componentCount n R' := by
  unfold componentCount
  have key : ∀ x y : Fin n, (SimpleGraph.fromRel fun a b : Fin n => R a b).Reachable x y ↔ (SimpleGraph.fromRel fun a b : Fin n => R' a b).Reachable x y := by
    intro x y
    constructor
    · intro h1
      refine h1.mono ?_
      intro a b hab
      rw [SimpleGraph.fromRel_adj] at hab ⊢
      exact ⟨hab.1, hab.2.imp (h _ _ a.2 b.2) (h _ _ b.2 a.2)⟩
    · rintro ⟨w⟩
      have step : ∀ {a b : ℕ}, Relation.EqvGen (fun x y => x < n ∧ y < n ∧ R x y) a b → ∀ (ha : a < n) (hb : b < n),
          (SimpleGraph.fromRel fun a b : Fin n => R a b).Reachable ⟨a, ha⟩ ⟨b, hb⟩ := by
        intro a b hab
        have hlt : ∀ {a b : ℕ}, Relation.EqvGen (fun x y => x < n ∧ y < n ∧ R x y) a b → (a < n ↔ b < n) := by
          intro a b hab
          induction hab with
          | rel _ _ h => exact ⟨fun _ => h.2.1, fun _ => h.1⟩
          | refl => exact Iff.rfl
          | symm _ _ _ ih => exact ih.symm
          | trans _ _ _ _ _ ih1 ih2 => exact ih1.trans ih2
        induction hab with
        | rel x y h =>
          intro ha hb
          by_cases hxy : x = y
          · subst hxy; exact SimpleGraph.Reachable.refl _
          · exact SimpleGraph.Adj.reachable ((SimpleGraph.fromRel_adj _ _ _).2 ⟨fun e => hxy (by simpa using e), Or.inl h.2.2⟩)
        | refl => intro _ _; exact SimpleGraph.Reachable.refl _
        | symm _ _ _ ih => intro ha hb; exact (ih hb ha).symm
        | trans x y z h1 h2 ih1 ih2 => intro ha hb; exact (ih1 ha ((hlt h1).1 ha)).trans (ih2 ((hlt h1).1 ha) hb)
      induction w with
      | nil => exact SimpleGraph.Reachable.refl _
      | cons hadj _ ih =>
        refine SimpleGraph.Reachable.trans ?_ ih
        rcases ((SimpleGraph.fromRel_adj _ _ _).1 hadj).2 with h2 | h2
        · exact step (h' _ _ (Fin.is_lt _) (Fin.is_lt _) h2) _ _
        · exact (step (h' _ _ (Fin.is_lt _) (Fin.is_lt _) h2) _ _).symm
  refine Nat.card_congr (Quot.congr (Equiv.refl _) ?_)
  intro a b
  exact key a b

end

/-! ### The shortest path filtration -/
section
variable {F : Type} [LinearOrder F] [Zero F] [OrderTop F] {n : ℕ} {add : F → F → F} {edges : List (ℕ × ℕ × F)} {sp : ℕ → ℕ → Option F}
variable {K : Type} [Field K]

/-- The edges of a weighted digraph. -/
def edgeSet (edges : List (ℕ × ℕ × F)) : Set (ℕ × ℕ) := {e | ∃ w, (e.1, e.2, w) ∈ edges}

/-- The times at which arrows appear: shortest path lengths between distinct vertices. -/
def spTime (sp : ℕ → ℕ → Option F) (i j : ℕ) : Option F := if i = j then none else sp i j

theorem IsWalk.lt_n (hedges : ∀ e ∈ edges, e.1 < n ∧ e.2.1 < n) {i j : ℕ} {x : F} (h : IsWalk add edges i j x) (hi : i < n) : j < n := by
  cases h with
  | nil => exact hi
  | snoc _ he _ => exact (hedges _ he).2

theorem IsWalk.connected (hedges : ∀ e ∈ edges, e.1 < n ∧ e.2.1 < n) {i j : ℕ} {x : F} (h : IsWalk add edges i j x) :
    Relation.EqvGen (fun x y => x < n ∧ y < n ∧ (x, y) ∈ edgeSet edges) i j := by
  induction h with
  | nil => exact Relation.EqvGen.refl _
  | snoc _ he _ ih => exact Relation.EqvGen.trans _ _ _ ih (Relation.EqvGen.rel _ _ ⟨(hedges _ he).1, (hedges _ he).2, _, he⟩)

theorem IsWalk.trans {i j k : ℕ} {x y : F} (h : IsWalk add edges i j x) (h' : IsWalk add edges j k y) : ∃ z, IsWalk add edges i k z := by
  induction h' with
  | nil => exact ⟨x, h⟩
  | snoc _ he hw ih =>
    obtain ⟨z, hz⟩ := ih
    exact ⟨_, hz.snoc he hw⟩

/-- Shortest path lengths, including those that overflow. -/
theorem IsShortestPaths.topClosed (hsp : IsShortestPaths add edges sp) : TopClosed n sp := by
  intro a _ b _ c _ _ x y hx hy _
  obtain ⟨z, hz⟩ := (hsp.least a b x hx).1.trans (hsp.least b c y hy).1
  exact hsp.reach a c z hz

theorem IsWalk.nonneg (hadd : IsLengthAddition add) (hw : ∀ e ∈ edges, 0 ≤ e.2.2) {i j : ℕ} {x : F} (h : IsWalk add edges i j x) : 0 ≤ x := by
  induction h with
  | nil => exact le_rfl
  | snoc _ he _ ih => exact ih.trans (hadd.le_add_right _ _ (hw _ he))

theorem IsWalk.arrow (hsp : IsShortestPaths add edges sp) {i j : ℕ} {x t : F} (h : IsWalk add edges i j x) (hi : i < n) (hj : j < n)
    (hij : i ≠ j) (hxt : x ≤ t) : (i, j) ∈ arrows n (spTime sp) t := by
  obtain ⟨y, hy⟩ := hsp.reach i j x h
  exact ⟨hi, hj, y, by simp only [spTime, if_neg hij, hy], ((hsp.least i j y hy).2 h).trans hxt⟩

/-- At each time the components are those of the digraph. -/
theorem components_const (hedges : ∀ e ∈ edges, e.1 < n ∧ e.2.1 < n) (hsp : IsShortestPaths add edges sp) (t : F) :
    (componentCount n fun a b => (a, b) ∈ groundedEdges (edgeSet edges) n (spTime sp) t) = componentCount n fun a b => ∃ w, (a, b, w) ∈ edges := by
  refine (componentCount_congr (fun a b _ _ h => Or.inl h) ?_).symm
  intro a b ha hb h
  rcases h with h | ⟨_, _, x, hx, _⟩
  · exact Relation.EqvGen.rel _ _ ⟨ha, hb, h⟩
  · simp only [spTime] at hx
    split at hx
    · cases hx
    · exact (hsp.least a b x hx).1.connected hedges

/-- Each arrow is homologous to a sum of edges of the digraph. -/
theorem walk_homologous (hadd : IsLengthAddition add) (hedges : ∀ e ∈ edges, e.1 < n ∧ e.2.1 < n) (hw : ∀ e ∈ edges, 0 ≤ e.2.2)
    (hsp : IsShortestPaths add edges sp) {i j : ℕ} {x t : F} (hi : i < n) (h : IsWalk add edges i j x) (hxt : x ≤ t) (hij : i ≠ j) :
    ∃ y ∈ supported K K (edgeSet edges), single (i, j) 1 - y ∈ groundedB1 K n (spTime sp) t := by
  induction h with
  | nil => exact absurd rfl hij
  | @snoc k j x w h he hfin ih =>
    have hxt' : x ≤ t := (hadd.le_add_right _ _ (hw _ he)).trans hxt
    have hwt : w ≤ t := (hadd.le_add_left _ _ (h.nonneg hadd hw)).trans hxt
    have hk := (hedges _ he).1
    have hj := (hedges _ he).2
    by_cases hik : i = k
    · subst hik
      exact ⟨single (i, j) 1, Finsupp.single_mem_supported K _ ⟨w, he⟩, by rw [sub_self]; exact Submodule.zero_mem _⟩
    by_cases hkj : k = j
    · subst hkj
      exact ih hxt' hij
    obtain ⟨y, hy, hb⟩ := ih hxt' hik
    refine ⟨y + single (k, j) 1, Submodule.add_mem _ hy (Finsupp.single_mem_supported K _ ⟨w, he⟩), ?_⟩
    have a1 := h.arrow hsp hi hk hik hxt'
    have a2 : (k, j) ∈ arrows n (spTime sp) t := IsWalk.arrow hsp (x := w) (by
      have := IsWalk.snoc (IsWalk.nil (add := add) (edges := edges) (i := k)) he hfin
      rwa [hadd.zero_add] at this) hk hj hkj hwt
    have a3 := (IsWalk.snoc h he hfin).arrow hsp hi hj hij hxt
    have hp := twoPath_mem_B1 (K := K) a1 a2 (Or.inr a3)
    have hp' : single (i, j) 1 - single (i, k) 1 - single (k, j) 1 ∈ groundedB1 K n (spTime sp) t := by
      have := Submodule.neg_mem _ hp
      unfold twoPathBoundary at this
      rw [if_neg hij] at this
      convert this using 1
      abel
    have := Submodule.add_mem _ hp' hb
    convert this using 1
    abel

theorem cycles_from_zero (hadd : IsLengthAddition add) (hedges : ∀ e ∈ edges, e.1 < n ∧ e.2.1 < n) (hw : ∀ e ∈ edges, 0 ≤ e.2.2)
    (hsp : IsShortestPaths add edges sp) (s t : F) :
    groundedZ1 K (edgeSet edges) n (spTime sp) t ≤ groundedZ1 K (edgeSet edges) n (spTime sp) s ⊔ groundedB1 K n (spTime sp) t := by
  have h1 : groundedZ1 K (edgeSet edges) n (spTime sp) t ≤
      (supported K K (edgeSet edges) ⊓ LinearMap.ker (linearCombination K (arrowBoundary K))) ⊔ groundedB1 K n (spTime sp) t := by
    refine cycles_replace (fun x hx => groundedB1_cycle hx) ?_
    rintro ⟨a, b⟩ (he | ⟨ha, hb, x, hx, hxt⟩)
    · exact ⟨single (a, b) 1, Finsupp.single_mem_supported K _ he, by rw [sub_self]; exact Submodule.zero_mem _⟩
    · simp only [spTime] at hx
      split at hx
      · cases hx
      · rename_i hab
        exact walk_homologous hadd hedges hw hsp ha (hsp.least a b x hx).1 hxt hab
  refine h1.trans (sup_le_sup_right (inf_le_inf_right _ (Finsupp.supported_mono ?_)) _)
  exact Set.subset_union_left

/-- Degree-1 homology classes all come from time 0. -/
theorem groundedBetti1_const (hadd : IsLengthAddition add) (hedges : ∀ e ∈ edges, e.1 < n ∧ e.2.1 < n) (hw : ∀ e ∈ edges, 0 ≤ e.2.2)
    (hsp : IsShortestPaths add edges sp) {r s t : F} (hrs : r ≤ s) (hst : s ≤ t) :
    groundedBetti1 K (edgeSet edges) n (spTime sp) hst = groundedBetti1 K (edgeSet edges) n (spTime sp) (hrs.trans hst) := by
  unfold groundedBetti1
  refine range_quotByMap_congr _ _ _ _ ?_ ?_
  · exact (groundedZ1_mono K _ _ _ hrs).trans le_sup_left
  · exact (cycles_from_zero hadd hedges hw hsp r s).trans (sup_le_sup_left (groundedB1_mono K n _ hst) _)

/-- With positive weights there are no arrows at time 0. -/
theorem arrows_zero (hadd : IsLengthAddition add) (hw : ∀ e ∈ edges, 0 < e.2.2) (hsp : IsShortestPaths add edges sp) :
    arrows n (spTime sp) 0 = ∅ := by
  rw [Set.eq_empty_iff_forall_notMem]
  rintro ⟨a, b⟩ ⟨ha, hb, x, hx, hx0⟩
  simp only [spTime] at hx
  split at hx
  · cases hx
  · rename_i hab
    have h := (hsp.least a b x hx).1
    cases h with
    | nil => exact hab rfl
    | snoc h he _ =>
      exact absurd ((hadd.le_add_left _ _ (h.nonneg hadd fun e he => (hw e he).le)).trans hx0) (not_le.2 (hw _ he))

theorem groundedB1_bot {time : ℕ → ℕ → Option F} {t : F} (h : arrows n time t = ∅) : groundedB1 K n time t = ⊥ := by
  rw [eq_bot_iff]
  rintro _ ⟨x, ⟨hx, _⟩, rfl⟩
  have : x = 0 := by
    rw [h] at hx
    have hx := (Finsupp.mem_supported K x).1 hx
    ext p
    by_contra hp
    exact (hx (Finsupp.mem_support_iff.2 hp)).1
  rw [this, map_zero]
  exact Submodule.zero_mem _

/-- The circuit rank. -/
theorem circuit_rank {E : Set (ℕ × ℕ)} (hE : ∀ e ∈ E, e.1 < n ∧ e.2 < n) :
    Module.finrank K ↥(supported K K E ⊓ LinearMap.ker (linearCombination K (arrowBoundary K))) + n =
      E.ncard + componentCount n fun a b => (a, b) ∈ E := by
  have hfin : E.Finite := Set.Finite.subset (Finset.finite_toSet (Finset.range n ×ˢ Finset.range n)) fun e he => by
    rw [Finset.mem_coe, Finset.mem_product, Finset.mem_range, Finset.mem_range]; exact hE e he
  have := fd_supported K E hfin
  have := fd_supported K {v : ℕ | v < n} (Set.finite_lt_nat n)
  obtain ⟨φ, hφ⟩ : ∃ φ : supported K K E →ₗ[K] (ℕ →₀ K), φ = (linearCombination K (arrowBoundary K)).comp (supported K K E).subtype := ⟨_, rfl⟩
  have h1 := LinearMap.finrank_range_add_finrank_ker (K := K) (V := supported K K E) (V₂ := ℕ →₀ K) φ
  have h2 : Module.finrank K (LinearMap.ker φ) =
      Module.finrank K ↥(supported K K E ⊓ LinearMap.ker (linearCombination K (arrowBoundary K))) := by
    rw [hφ, LinearMap.ker_comp]
    have := Submodule.finrank_map_subtype_eq (supported K K E) ((LinearMap.ker (linearCombination K (arrowBoundary K))).comap (supported K K E).subtype)
    rw [← this, Submodule.map_comap_subtype]
  set r : ℕ → ℕ → Prop := fun a b => (a, b) ∈ E with hr
  have h3 : LinearMap.range φ = Submodule.span K (diffs K r) := by
    rw [hφ, LinearMap.range_comp, Submodule.range_subtype, Finsupp.supported_eq_span_single, Submodule.map_span, Set.image_image]
    congr 1
    ext v
    constructor
    · rintro ⟨e, he, rfl⟩
      refine ⟨e.1, e.2, he, ?_⟩
      simp only [linearCombination_single, one_smul, arrowBoundary]
    · rintro ⟨a, b, he, rfl⟩
      refine ⟨(a, b), he, ?_⟩
      simp only [linearCombination_single, one_smul, arrowBoundary]
  have hc := components_ncard (n := n) (R := r) (r := r) (ι := id) (fun a _ b _ h => h) fun x y => by
      constructor
      · intro h; exact ⟨x, y, (hE _ h).1, (hE _ h).2, h, rfl, rfl⟩
      · rintro ⟨a, b, _, _, h, rfl, rfl⟩; exact h
  have e1 : {x : ℕ | ∃ a < n, x = id a} = {v | v < n} := by ext x; simp
  rw [e1, ← finrank_components (K := K)] at hc
  have hle : Submodule.span K (diffs K r) ≤ supported K K {v : ℕ | v < n} := by
    rw [Submodule.span_le]
    rintro _ ⟨a, b, h, rfl⟩
    exact Submodule.sub_mem _ (Finsupp.single_mem_supported K _ (hE _ h).2) (Finsupp.single_mem_supported K _ (hE _ h).1)
  have h4 : Module.finrank K ((Submodule.span K (diffs K r)).comap (supported K K {v : ℕ | v < n}).subtype) =
      Module.finrank K (Submodule.span K (diffs K r)) := by
    have := Submodule.finrank_map_subtype_eq (supported K K {v : ℕ | v < n}) ((Submodule.span K (diffs K r)).comap (supported K K {v : ℕ | v < n}).subtype)
    rw [← this, Submodule.map_comap_subtype, inf_eq_right.2 hle]
  have h5 := Submodule.finrank_quotient_add_finrank (R := K) (M := supported K K {v : ℕ | v < n}) ((Submodule.span K (diffs K r)).comap (supported K K {v : ℕ | v < n}).subtype)
  have h6 : Module.finrank K (supported K K {v : ℕ | v < n}) = n := by
    rw [finrank_supported_ncard]
    rw [Set.ncard_eq_toFinset_card' {v : ℕ | v < n}]
    simp
  have h7 : Module.finrank K (supported K K E) = E.ncard := finrank_supported_ncard
  rw [h3] at h1
  unfold QuotBy at hc
  omega

/-- If each edge differs from the difference of a potential by a boundary, cycles are boundaries. -/
theorem cycles_potential {X : Set (ℕ × ℕ)} {B : Submodule K (ℕ × ℕ →₀ K)} (g : ℕ → (ℕ × ℕ →₀ K)) (h : ∀ e ∈ X, single e 1 - (g e.2 - g e.1) ∈ B) :
    supported K K X ⊓ LinearMap.ker (linearCombination K (arrowBoundary K)) ≤ B := by
  intro z hz
  have h1 : linearCombination K (fun e => single e 1 - (g e.2 - g e.1)) z ∈ B := lc_mem_of_supported _ _ h hz.1
  have h2 : linearCombination K (fun e => single e (1 : K) - (g e.2 - g e.1)) =
      LinearMap.id - linearCombination K g ∘ₗ linearCombination K (arrowBoundary K) := by
    refine Finsupp.lhom_ext fun p k => ?_
    rw [linearCombination_single, LinearMap.sub_apply, LinearMap.id_apply, LinearMap.comp_apply, linearCombination_single, map_smul, smul_sub,
      Finsupp.smul_single, smul_eq_mul, mul_one, arrowBoundary, map_sub, linearCombination_single, linearCombination_single, one_smul, one_smul]
  have h3 : linearCombination K (arrowBoundary K) z = 0 := hz.2
  rw [h2, LinearMap.sub_apply, LinearMap.comp_apply, h3, map_zero, sub_zero] at h1
  exact h1

/-- If a vertex has arrows to all others and all edges are arrows, all cycles are boundaries. -/
theorem rooted_cycles {E : Set (ℕ × ℕ)} {time : ℕ → ℕ → Option F} {t : F} (hloop : ∀ a, time a a = none) {r : ℕ} (hr : ∀ v < n, v ≠ r → (r, v) ∈ arrows n time t)
    (hE : E ⊆ arrows n time t) : groundedZ1 K E n time t ≤ groundedB1 K n time t := by
  classical
  set g : ℕ → (ℕ × ℕ →₀ K) := fun v => if v = r then 0 else single (r, v) 1 with hg
  have hG : groundedEdges E n time t = arrows n time t := Set.union_eq_right.2 hE
  unfold groundedZ1
  rw [hG]
  refine cycles_potential g ?_
  · rintro ⟨i, j⟩ he
    have hij : i ≠ j := by
      rintro rfl
      obtain ⟨_, _, x, hx, _⟩ := he
      rw [show time i i = none from hloop i] at hx
      cases hx
    show single (i, j) 1 - (g j - g i) ∈ groundedB1 K n time t
    by_cases hir : i = r
    · subst hir
      have e2 : g i = 0 := if_pos rfl
      have e3 : g j = single (i, j) 1 := if_neg fun h => hij h.symm
      rw [e2, e3, sub_zero, sub_self]
      exact Submodule.zero_mem _
    have e2 : g i = single (r, i) 1 := if_neg hir
    by_cases hjr : j = r
    · subst hjr
      have e3 : g j = 0 := if_pos rfl
      have := twoPath_mem_B1 (K := K) (hr i he.1 hir) he (Or.inl rfl)
      rw [twoPathBoundary, if_pos rfl, sub_zero] at this
      rw [e2, e3, zero_sub, sub_neg_eq_add]
      exact this
    · have e3 : g j = single (r, j) 1 := if_neg hjr
      have := twoPath_mem_B1 (K := K) (hr i he.1 hir) he (Or.inr (hr j he.2.1 hjr))
      rw [twoPathBoundary, if_neg (fun h => hjr h.symm)] at this
      rw [e2, e3]
      convert this using 1
      abel

end
end Phlite
