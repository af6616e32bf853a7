/-
Minimum spanning trees and the components of the graphs of short edges.
-/
import Verif.Spec.SpanningTree
import Verif.Theory.Digraph
import Verif.Theory.Cone
import Verif.Theory.Unique
import Verif.Spec.RipsReport
import Mathlib.Algebra.BigOperators.Group.Finset.Basic
import Mathlib.Algebra.Order.Monoid.Unbundled.Basic

set_option linter.unusedSectionVars false
set_option linter.unusedSimpArgs false

namespace Phlite
open Finsupp (single linearCombination linearCombination_single supported)

section
variable {n : ℕ}

/-- The relation of an edge set. -/
def edgeRel (E : Finset (ℕ × ℕ)) : ℕ → ℕ → Prop := fun a b => (a, b) ∈ E

theorem diff_mem_iff (K : Type) [Field K] (r : ℕ → ℕ → Prop) (a b : ℕ) :
    (single b 1 - single a 1 : ℕ →₀ K) ∈ Submodule.span K (diffs K r) ↔ (Quot.mk r a : Quot r) = Quot.mk r b := by
  rw [← ker_components, LinearMap.mem_ker, map_sub, Finsupp.lmapDomain_apply, Finsupp.lmapDomain_apply, Finsupp.mapDomain_single, Finsupp.mapDomain_single,
    sub_eq_zero]
  constructor
  · intro h
    exact (Finsupp.single_left_injective one_ne_zero h).symm
  · intro h; rw [h]

theorem span_diffs (K : Type) [Field K] (E : Set (ℕ × ℕ)) : Submodule.span K (diffs K fun a b => (a, b) ∈ E) =
    (supported K K E).map (linearCombination K (arrowBoundary K)) := by
  rw [Finsupp.supported_eq_span_single, Submodule.map_span, Set.image_image]
  congr 1
  ext v
  constructor
  · rintro ⟨a, b, he, rfl⟩
    refine ⟨(a, b), he, ?_⟩
    simp only [linearCombination_single, one_smul, arrowBoundary]
  · rintro ⟨e, he, rfl⟩
    refine ⟨e.1, e.2, he, ?_⟩
    simp only [linearCombination_single, one_smul, arrowBoundary]

/-- In a connected graph any two vertices differ by a combination of edges. -/
theorem connected_diff {E : Finset (ℕ × ℕ)} (hE : ∀ e ∈ E, e.1 < n ∧ e.2 < n) (hc : componentCount n (fun a b => (a, b) ∈ E) = 1) {a b : ℕ}
    (ha : a < n) (hb : b < n) : (Quot.mk (fun a b => (a, b) ∈ E) a : Quot _) = Quot.mk _ b := by
  have h := components_ncard (n := n) (R := fun a b => (a, b) ∈ E) (r := fun a b => (a, b) ∈ E) (ι := id) (fun a _ b _ h => h) fun x y => by
      constructor
      · intro h; exact ⟨x, y, (hE _ h).1, (hE _ h).2, h, rfl, rfl⟩
      · rintro ⟨a, b, _, _, h, rfl, rfl⟩; exact h
  rw [hc] at h
  obtain ⟨c, h⟩ := Set.ncard_eq_one.1 h
  have h1 : ∀ v < n, (Quot.mk (fun a b => (a, b) ∈ E) v : Quot _) = c := by
    intro v hv
    have : (Quot.mk (fun a b => (a, b) ∈ E) v : Quot _) ∈ ({c} : Set _) := by
      rw [← h]; exact ⟨v, ⟨v, hv, rfl⟩, rfl⟩
    simpa using this
  rw [h1 a ha, h1 b hb]

theorem IsSpanningTree.lt {E : Finset (ℕ × ℕ)} (h : IsSpanningTree n E) : ∀ e ∈ E, e.1 < n ∧ e.2 < n :=
  fun e he => ⟨(h.edges e he).1.trans (h.edges e he).2, (h.edges e he).2⟩

/-- A spanning tree has no cycles. -/
theorem IsSpanningTree.acyclic {E : Finset (ℕ × ℕ)} (h : IsSpanningTree n E) {z : ℕ × ℕ →₀ ℚ} (hz : z ∈ supported ℚ ℚ (E : Set (ℕ × ℕ)))
    (hb : linearCombination ℚ (arrowBoundary ℚ) z = 0) : z = 0 := by
  have hr := circuit_rank (K := ℚ) (E := (E : Set (ℕ × ℕ))) h.lt
  have hc := h.connected
  simp only [Set.ncard_coe_finset, Finset.mem_coe, hc] at hr
  have h0 : Module.finrank ℚ ↥(supported ℚ ℚ (E : Set (ℕ × ℕ)) ⊓ LinearMap.ker (linearCombination ℚ (arrowBoundary ℚ))) = 0 := by
    have := h.card; omega
  have := fd_supported ℚ (E : Set (ℕ × ℕ)) E.finite_toSet
  have hfd : Module.Finite ℚ ↥(supported ℚ ℚ (E : Set (ℕ × ℕ)) ⊓ LinearMap.ker (linearCombination ℚ (arrowBoundary ℚ))) :=
    Submodule.finiteDimensional_of_le inf_le_left
  have hbot := Submodule.finrank_eq_zero.1 h0
  have : z ∈ (⊥ : Submodule ℚ (ℕ × ℕ →₀ ℚ)) := hbot ▸ ⟨hz, hb⟩
  simpa using this

/-- The components of a graph without cycles. -/
theorem forest_components {E S : Finset (ℕ × ℕ)} (h : IsSpanningTree n E) (hS : S ⊆ E) : componentCount n (fun a b => (a, b) ∈ S) + S.card = n := by
  have hr := circuit_rank (K := ℚ) (E := (S : Set (ℕ × ℕ))) fun e he => h.lt e (hS he)
  have h0 : supported ℚ ℚ (S : Set (ℕ × ℕ)) ⊓ LinearMap.ker (linearCombination ℚ (arrowBoundary ℚ)) = ⊥ := by
    rw [eq_bot_iff]
    rintro z ⟨h1, h2⟩
    exact h.acyclic (Finsupp.supported_mono (Finset.coe_subset.2 hS) h1) h2
  rw [h0] at hr
  simp only [finrank_bot, Set.ncard_coe_finset, Finset.mem_coe] at hr
  omega

/-- A graph with `n - 1` edges and without cycles is a spanning tree. -/
theorem spanning_of_acyclic {E : Finset (ℕ × ℕ)} (hE : ∀ e ∈ E, e.1 < e.2 ∧ e.2 < n) (hc : E.card + 1 = n)
    (h : ∀ z ∈ supported ℚ ℚ (E : Set (ℕ × ℕ)), linearCombination ℚ (arrowBoundary ℚ) z = 0 → z = 0) : IsSpanningTree n E := by
  refine ⟨hE, hc, ?_⟩
  have hr := circuit_rank (n := n) (K := ℚ) (E := (E : Set (ℕ × ℕ))) fun e he => ⟨(hE e he).1.trans (hE e he).2, (hE e he).2⟩
  have h0 : supported ℚ ℚ (E : Set (ℕ × ℕ)) ⊓ LinearMap.ker (linearCombination ℚ (arrowBoundary ℚ)) = ⊥ := by
    rw [eq_bot_iff]
    rintro z ⟨h1, h2⟩
    exact h z h1 h2
  rw [h0] at hr
  simp only [finrank_bot, Set.ncard_coe_finset, Finset.mem_coe] at hr
  omega

/-- The exchange property: an edge outside of the tree can replace some edge of the tree on the path between its ends, in particular one outside of a given set of edges of
the tree that does not connect its ends. -/
theorem exchange {E S : Finset (ℕ × ℕ)} (h : IsSpanningTree n E) {a b : ℕ} (hab : a < b) (hb : b < n) (hf : (a, b) ∉ E)
    (hS : (Quot.mk (fun a b => (a, b) ∈ S) a : Quot _) ≠ Quot.mk _ b) :
    ∃ e ∈ E, e ∉ S ∧ IsSpanningTree n (insert (a, b) (E.erase e)) := by
  have h1 := (diff_mem_iff ℚ _ a b).2 (connected_diff h.lt h.connected (hab.trans hb) hb)
  rw [show (fun a b => (a, b) ∈ E) = fun a b => (a, b) ∈ (E : Set (ℕ × ℕ)) from rfl, span_diffs] at h1
  obtain ⟨c, hc, hcb⟩ := h1
  obtain ⟨e, hce, heS⟩ : ∃ e, c e ≠ 0 ∧ e ∉ S := by
    by_contra hno
    push Not at hno
    apply hS
    rw [← diff_mem_iff ℚ, show (fun a b => (a, b) ∈ S) = fun a b => (a, b) ∈ (S : Set (ℕ × ℕ)) from rfl, span_diffs]
    refine ⟨c, ?_, hcb⟩
    rw [SetLike.mem_coe, Finsupp.mem_supported]
    intro e he
    exact hno e (Finsupp.mem_support_iff.1 he)
  have heE : e ∈ E := (Finsupp.mem_supported ℚ c).1 hc (Finsupp.mem_support_iff.2 hce)
  have hfe : (a, b) ∉ E.erase e := fun h => hf (Finset.mem_of_mem_erase h)
  refine ⟨e, heE, heS, spanning_of_acyclic ?_ ?_ ?_⟩
  · intro g hg
    rcases Finset.mem_insert.1 hg with rfl | hg
    · exact ⟨hab, hb⟩
    · exact h.edges g (Finset.mem_of_mem_erase hg)
  · rw [Finset.card_insert_of_notMem hfe, Finset.card_erase_of_mem heE]
    have := h.card
    have := Finset.card_pos.2 ⟨e, heE⟩
    omega
  · intro z hz hzb
    have hz' := (Finsupp.mem_supported ℚ z).1 hz
    have hze : z e = 0 := by
      by_contra hne
      rcases Finset.mem_insert.1 (hz' (Finsupp.mem_support_iff.2 hne)) with h1 | h1
      · exact hf (h1 ▸ heE)
      · exact Finset.notMem_erase e E h1
    -- a cycle in the tree
    have hw : z - single (a, b) (z (a, b)) + z (a, b) • c = 0 := by
      apply h.acyclic
      · refine Submodule.add_mem _ ?_ (Submodule.smul_mem _ _ hc)
        rw [Finsupp.mem_supported]
        intro g hg
        have hg := Finsupp.mem_support_iff.1 hg
        by_cases hgf : g = (a, b)
        · subst hgf; simp at hg
        · rw [Finsupp.sub_apply, Finsupp.single_apply, if_neg (fun e => hgf e.symm), sub_zero] at hg
          rcases Finset.mem_insert.1 (hz' (Finsupp.mem_support_iff.2 hg)) with h1 | h1
          · exact absurd h1 hgf
          · exact Finset.mem_of_mem_erase h1
      · rw [map_add, map_sub, map_smul, hzb, hcb, linearCombination_single, arrowBoundary]
        simp
    have h0 : z (a, b) = 0 := by
      have := DFunLike.congr_fun hw e
      rw [Finsupp.add_apply, Finsupp.sub_apply, Finsupp.smul_apply, hze, Finsupp.single_apply, if_neg, sub_self, zero_add, smul_eq_mul, Finsupp.zero_apply] at this
      · exact (mul_eq_zero.1 this).resolve_right hce
      · intro h1; exact hf (h1 ▸ heE)
    rw [h0, Finsupp.single_zero, sub_zero, zero_smul, add_zero] at hw
    exact hw

variable {F : Type} [LinearOrder F] {d : ℕ → ℕ → F}

open Classical in
/-- The edges of length at most `t` and those of a minimum spanning tree have the same components. -/
theorem mst_components {E : Finset (ℕ × ℕ)} (h : IsMinimumSpanningTree n d E) (hsymm : ∀ i < n, ∀ j < n, d i j = d j i) (t : F) :
    componentCount n (fun a b => d a b ≤ t) + (E.filter fun e => d e.1 e.2 ≤ t).card = n := by
  have hforest := forest_components h.toIsSpanningTree (Finset.filter_subset (fun e => d e.1 e.2 ≤ t) E)
  suffices hcongr : componentCount n (fun a b => (a, b) ∈ E.filter fun e => d e.1 e.2 ≤ t) = componentCount n fun a b => d a b ≤ t by
    rw [← hcongr]; exact hforest
  apply componentCount_congr
  · intro a b _ _ hab
    exact (Finset.mem_filter.1 hab).2
  · have key : ∀ a b, a < b → b < n → d a b ≤ t →
        Relation.EqvGen (fun x y => x < n ∧ y < n ∧ (x, y) ∈ E.filter fun e => d e.1 e.2 ≤ t) a b := by
      intro a b hab hb hd
      have e1 : (fun x y => x < n ∧ y < n ∧ (x, y) ∈ E.filter fun e => d e.1 e.2 ≤ t) = fun x y => (x, y) ∈ E.filter fun e => d e.1 e.2 ≤ t := by
        funext x y
        exact propext ⟨fun h => h.2.2, fun h1 => ⟨(h.lt _ (Finset.mem_of_mem_filter _ h1)).1, (h.lt _ (Finset.mem_of_mem_filter _ h1)).2, h1⟩⟩
      rw [e1, ← Quot.eq]
      by_cases hf : (a, b) ∈ E
      · exact Quot.sound (Finset.mem_filter.2 ⟨hf, hd⟩)
      by_contra hne
      obtain ⟨e, heE, heS, htree⟩ := exchange h.toIsSpanningTree hab hb hf hne
      have := h.minimal e heE (a, b) htree
      exact heS (Finset.mem_filter.2 ⟨heE, this.trans hd⟩)
    intro a b ha hb hd
    rcases lt_trichotomy a b with h1 | rfl | h1
    · exact key a b h1 hb hd
    · exact Relation.EqvGen.refl _
    · exact Relation.EqvGen.symm _ _ (key b a h1 ha (by rw [hsymm b hb a ha]; exact hd))

/-- The bars of a minimum spanning tree: one infinite bar, and one for each edge of positive length. -/
noncomputable def treeBars [Zero F] (d : ℕ → ℕ → F) (E : Finset (ℕ × ℕ)) : Multiset (F × WithTop F) :=
  (0, ⊤) ::ₘ (E.filter fun e => 0 < d e.1 e.2).val.map fun e => (0, (d e.1 e.2 : WithTop F))

variable [Zero F]

theorem treeBars_alive {E : Finset (ℕ × ℕ)} (hE : E.card + 1 = n) {s t : F} (hs : 0 ≤ s) (hst : s ≤ t) :
    aliveBars (treeBars d E) s t + (E.filter fun e => d e.1 e.2 ≤ t).card = n := by
  classical
  unfold treeBars
  rw [aliveBars_cons, aliveBars, countP_map_val, Finset.filter_filter, if_pos ⟨hs, WithTop.coe_lt_top _⟩, ← hE]
  have h1 : (E.filter fun e => 0 < d e.1 e.2 ∧ 0 ≤ s ∧ ((t : F) : WithTop F) < (d e.1 e.2 : WithTop F)) = E.filter fun e => ¬ d e.1 e.2 ≤ t := by
    apply Finset.filter_congr
    intro e _
    rw [WithTop.coe_lt_coe, not_le]
    exact ⟨fun h => h.2.2, fun h => ⟨lt_of_le_of_lt (hs.trans hst) h, hs, h⟩⟩
  rw [h1]
  have := Finset.card_filter_add_card_filter_not (s := E) (fun e => d e.1 e.2 ≤ t)
  omega

/-- The barcode of degree 0 of the Vietoris-Rips filtration. -/
theorem mst_barcode (K : Type) [Field K] {E : Finset (ℕ × ℕ)} (h : IsMinimumSpanningTree n d E) (hdiag : ∀ i < n, d i i = 0)
    (hsymm : ∀ i < n, ∀ j < n, d i j = d j i) : IsRipsBarcode K n d 0 (treeBars d E) := by
  constructor
  · intro b hb
    rcases Multiset.mem_cons.1 hb with rfl | hb
    · exact WithTop.coe_lt_top _
    · obtain ⟨e, he, rfl⟩ := Multiset.mem_map.1 hb
      exact WithTop.coe_lt_coe.2 (Finset.mem_filter.1 he).2
  · intro s t hst
    by_cases hs : 0 ≤ s
    · have h1 := treeBars_alive (d := d) h.card hs hst
      have h2 := mst_components h hsymm t
      show aliveBars (treeBars d E) s t = persistentBetti (simplexBoundary K) _ _
      rw [rips_components hdiag hsymm hs hst]
      have h3 : (E.filter fun e => d e.1 e.2 ≤ t).card = (open Classical in E.filter fun e => d e.1 e.2 ≤ t).card := by
        congr
      omega
    · have h1 : aliveBars (treeBars d E) s t = 0 := by
        unfold aliveBars
        rw [Multiset.countP_eq_zero]
        intro b hb hlt
        rcases Multiset.mem_cons.1 hb with rfl | hb
        · exact hs hlt.1
        · obtain ⟨e, he, rfl⟩ := Multiset.mem_map.1 hb
          exact hs hlt.1
      rw [h1]
      have h2 : vietorisRips n d 0 s = ∅ := by
        rw [Set.eq_empty_iff_forall_notMem]
        rintro σ ⟨h2, h3, h4⟩
        obtain ⟨a, rfl⟩ := Finset.card_eq_one.1 h3
        have := h4 a (by simp) a (by simp)
        rw [hdiag a (by simpa using h2)] at this
        exact hs this
      symm
      show Module.finrank K (LinearMap.range _) = 0
      have h3 : ∀ x : QuotBy (cyclesOn (simplexBoundary K) (vietorisRips n d 0 s)) (boundariesOn (simplexBoundary K) (vietorisRips n d 1 s)), x = 0 := by
        intro x
        obtain ⟨⟨w, hw⟩, rfl⟩ := Submodule.mkQ_surjective _ x
        have : w = 0 := by
          have h4 := (Finsupp.mem_supported K w).1 hw.1
          rw [h2, Set.subset_empty_iff, Finset.coe_eq_empty, Finsupp.support_eq_empty] at h4
          exact h4
        subst this
        exact map_zero _
      rw [show LinearMap.range _ = ⊥ from ?_, finrank_bot]
      rw [eq_bot_iff]
      rintro _ ⟨x, rfl⟩
      rw [h3 x, map_zero]
      exact Submodule.zero_mem _
end

/-! ### Existence, and minimal total weight -/
section
variable {n : ℕ}

/-- The star at 0. -/
theorem exists_spanningTree (hn : 1 ≤ n) : ∃ E, IsSpanningTree n E := by
  refine ⟨(Finset.range (n - 1)).image fun v => (0, v + 1), ?_, ?_, ?_⟩
  · intro e he
    obtain ⟨v, hv, rfl⟩ := Finset.mem_image.1 he
    rw [Finset.mem_range] at hv
    dsimp only
    omega
  · rw [Finset.card_image_of_injective _ fun a b h => by simpa using h, Finset.card_range]
    omega
  · unfold componentCount
    rw [Nat.card_eq_one_iff_unique]
    refine ⟨⟨?_⟩, ⟨SimpleGraph.connectedComponentMk _ ⟨0, hn⟩⟩⟩
    have key : ∀ x : Fin n, (SimpleGraph.fromRel fun a b : Fin n => ((a : ℕ), (b : ℕ)) ∈ (Finset.range (n - 1)).image fun v => (0, v + 1)).Reachable ⟨0, hn⟩ x := by
      intro x
      by_cases hx : (x : ℕ) = 0
      · have : x = ⟨0, hn⟩ := Fin.ext hx
        rw [this]
      · refine SimpleGraph.Adj.reachable ((SimpleGraph.fromRel_adj _ _ _).2 ⟨fun e => hx (by rw [← e]), Or.inl ?_⟩)
        have := x.2
        exact Finset.mem_image.2 ⟨x - 1, by rw [Finset.mem_range]; omega, by rw [Nat.sub_add_cancel (by omega)]⟩
    intro c c'
    induction c using Quot.ind with | mk x =>
    induction c' using Quot.ind with | mk y =>
    exact Quot.sound ((key x).symm.trans (key y))

/-- What an exchange does to a total. -/
theorem exchange_sum {M : Type} [AddCommMonoid M] (w : ℕ × ℕ → M) {E : Finset (ℕ × ℕ)} (h : IsSpanningTree n E) {e f : ℕ × ℕ} (he : e ∈ E)
    (hf : IsSpanningTree n (insert f (E.erase e))) :
    ∑ x ∈ insert f (E.erase e), w x = w f + ∑ x ∈ E.erase e, w x ∧ ∑ x ∈ E, w x = w e + ∑ x ∈ E.erase e, w x := by
  refine ⟨Finset.sum_insert fun hmem => ?_, (Finset.add_sum_erase E w he).symm⟩
  have h1 := hf.card
  rw [Finset.insert_eq_of_mem hmem, Finset.card_erase_of_mem he] at h1
  have := h.card
  have := Finset.card_pos.2 ⟨e, he⟩
  omega

/-- A spanning tree with the least total. -/
theorem exists_least {M : Type} [AddCommMonoid M] [LinearOrder M] (w : ℕ × ℕ → M) (hn : 1 ≤ n) :
    ∃ E, IsSpanningTree n E ∧ ∀ E', IsSpanningTree n E' → ∑ x ∈ E, w x ≤ ∑ x ∈ E', w x := by
  classical
  obtain ⟨E₀, h₀⟩ := exists_spanningTree hn
  have hsub : ∀ E, IsSpanningTree n E → E ∈ (Finset.range n ×ˢ Finset.range n).powerset := by
    intro E h
    rw [Finset.mem_powerset]
    intro e he
    rw [Finset.mem_product, Finset.mem_range, Finset.mem_range]
    exact h.lt e he
  obtain ⟨E, hE, hmin⟩ := Finset.exists_min_image ((Finset.range n ×ˢ Finset.range n).powerset.filter fun E => IsSpanningTree n E) (fun E => ∑ x ∈ E, w x)
    ⟨E₀, Finset.mem_filter.2 ⟨hsub E₀ h₀, h₀⟩⟩
  exact ⟨E, (Finset.mem_filter.1 hE).2, fun E' h' => hmin E' (Finset.mem_filter.2 ⟨hsub E' h', h'⟩)⟩

theorem minimum_of_sum {M : Type} [AddCommMonoid M] [LinearOrder M] [IsOrderedCancelAddMonoid M] {d : ℕ → ℕ → M} {E : Finset (ℕ × ℕ)} (h : IsSpanningTree n E)
    (hmin : ∀ E', IsSpanningTree n E' → ∑ e ∈ E, d e.1 e.2 ≤ ∑ e ∈ E', d e.1 e.2) : IsMinimumSpanningTree n d E := by
  refine ⟨h, fun e he f hf => ?_⟩
  obtain ⟨h1, h2⟩ := exchange_sum (fun e => d e.1 e.2) h he hf
  have := hmin _ hf
  rw [h1, h2] at this
  exact le_of_add_le_add_right this

variable {F : Type} [LinearOrder F] {d : ℕ → ℕ → F}

/-- Minimum spanning trees exist. -/
theorem exists_minimum (d : ℕ → ℕ → F) (hn : 1 ≤ n) : ∃ E, IsMinimumSpanningTree n d E := by
  classical
  -- the rank of a weight among the weights
  let φ : F → ℕ := fun x => ((Finset.range n ×ˢ Finset.range n).filter fun p => d p.1 p.2 < x).card
  obtain ⟨E, h, hmin⟩ := exists_least (fun e => φ (d e.1 e.2)) hn
  have h' := minimum_of_sum (d := fun a b => φ (d a b)) h hmin
  refine ⟨E, h, fun e he f hf => ?_⟩
  have h1 := h'.minimal e he f hf
  by_contra hlt
  rw [not_le] at hlt
  have hfn := hf.lt f (Finset.mem_insert_self _ _)
  refine absurd h1 (not_le.2 (Finset.card_lt_card ?_))
  rw [Finset.ssubset_iff_of_subset]
  · exact ⟨f, Finset.mem_filter.2 ⟨by rw [Finset.mem_product, Finset.mem_range, Finset.mem_range]; exact hfn, hlt⟩, fun h => lt_irrefl _ (Finset.mem_filter.1 h).2⟩
  · intro p hp
    obtain ⟨hp1, hp2⟩ := Finset.mem_filter.1 hp
    exact Finset.mem_filter.2 ⟨hp1, hp2.trans hlt⟩

/-- Multisets with as many elements up to each bound are equal. -/
theorem multiset_eq_of_counts {A B : Multiset F} (hc : A.card = B.card) (h : ∀ t, A.countP (fun x => t < x) = B.countP fun x => t < x) : A = B := by
  have hinj : Function.Injective fun x : F => (((⊥ : WithBot F), (((x : WithBot F)) : WithTop (WithBot F))) : WithBot F × WithTop (WithBot F)) := by
    intro x y h
    have := congrArg Prod.snd h
    exact WithBot.coe_injective (WithTop.coe_injective this)
  have hal : ∀ (C : Multiset F) (s t : WithBot F), aliveBars (C.map fun x : F => (((⊥ : WithBot F), (((x : WithBot F)) : WithTop (WithBot F))))) s t =
      C.countP fun x : F => t < (x : WithBot F) := by
    intro C s t
    unfold aliveBars
    rw [Multiset.countP_map, Multiset.countP_eq_card_filter]
    congr 1
    apply Multiset.filter_congr
    intro x _
    simp
  apply Multiset.map_injective hinj
  apply barcode_unique
  · intro b hb
    obtain ⟨x, _, rfl⟩ := Multiset.mem_map.1 hb
    exact WithTop.coe_lt_coe.2 (WithBot.bot_lt_coe x)
  · intro b hb
    obtain ⟨x, _, rfl⟩ := Multiset.mem_map.1 hb
    exact WithTop.coe_lt_coe.2 (WithBot.bot_lt_coe x)
  · intro s t _
    rw [hal, hal]
    induction t using WithBot.recBotCoe with
    | bot =>
      rw [Multiset.countP_eq_card_filter, Multiset.countP_eq_card_filter, Multiset.filter_eq_self.2, Multiset.filter_eq_self.2, hc]
      · intro x _; exact WithBot.bot_lt_coe x
      · intro x _; exact WithBot.bot_lt_coe x
    | coe t =>
      have := h t
      simpa using this

/-- All minimum spanning trees have the same weights. -/
theorem minimum_weights {E E' : Finset (ℕ × ℕ)} (h : IsMinimumSpanningTree n d E) (h' : IsMinimumSpanningTree n d E') :
    (E.val.map fun e => d e.1 e.2) = E'.val.map fun e => d e.1 e.2 := by
  classical
  -- only the entries above the diagonal matter
  have hsym : ∀ {E}, IsMinimumSpanningTree n d E → IsMinimumSpanningTree n (fun a b => d (min a b) (max a b)) E := by
    intro E h
    refine ⟨h.toIsSpanningTree, fun e he f hf => ?_⟩
    have h1 := (h.edges e he).1
    have h2 := (hf.edges f (Finset.mem_insert_self _ _)).1
    simp only [min_eq_left h1.le, max_eq_right h1.le, min_eq_left h2.le, max_eq_right h2.le]
    exact h.minimal e he f hf
  have hcount : ∀ {E}, IsMinimumSpanningTree n d E → ∀ t, (E.val.map fun e => d e.1 e.2).countP (fun x => t < x) + n =
      E.card + componentCount n fun a b => d (min a b) (max a b) ≤ t := by
    intro E h t
    have h1 := mst_components (hsym h) (fun i _ j _ => by rw [min_comm, max_comm]) t
    have h2 : (E.filter fun e => d (min e.1 e.2) (max e.1 e.2) ≤ t) = E.filter fun e => d e.1 e.2 ≤ t := by
      apply Finset.filter_congr
      intro e he
      have h1 := (h.edges e he).1
      rw [min_eq_left h1.le, max_eq_right h1.le]
    have h3 := countP_map_val E (fun e => d e.1 e.2) fun x => t < x
    have h4 := Finset.card_filter_add_card_filter_not (s := E) (fun e => d e.1 e.2 ≤ t)
    rw [h2] at h1
    simp only [not_le] at h4
    rw [h3]
    omega
  have hcard := h.card
  have hcard' := h'.card
  apply multiset_eq_of_counts
  · rw [Multiset.card_map, Multiset.card_map]
    show E.card = E'.card
    omega
  · intro t
    have := hcount h t
    have := hcount h' t
    omega

/-- The meaning of the definition: minimum spanning trees are the spanning trees with the least total weight. -/
theorem minimum_iff_sum {M : Type} [AddCommMonoid M] [LinearOrder M] [IsOrderedCancelAddMonoid M] {d : ℕ → ℕ → M} {E : Finset (ℕ × ℕ)} :
    IsMinimumSpanningTree n d E ↔ IsSpanningTree n E ∧ ∀ E', IsSpanningTree n E' → ∑ e ∈ E, d e.1 e.2 ≤ ∑ e ∈ E', d e.1 e.2 := by
  constructor
  · intro h
    refine ⟨h.toIsSpanningTree, fun E' h' => ?_⟩
    obtain ⟨E₁, h1, hmin⟩ := exists_least (n := n) (fun e => d e.1 e.2) (by have := h.card; omega)
    have := minimum_weights h (minimum_of_sum h1 hmin)
    have h2 : ∑ e ∈ E, d e.1 e.2 = ∑ e ∈ E₁, d e.1 e.2 := congrArg Multiset.sum this
    rw [h2]
    exact hmin E' h'
  · rintro ⟨h, hmin⟩
    exact minimum_of_sum h hmin

end
end Phlite
