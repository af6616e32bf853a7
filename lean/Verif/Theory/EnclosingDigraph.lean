/-
Grounded persistent path homology from the time on at which a vertex has arrows to (or from) all others.
-/
import Verif.Theory.Gluing
import Verif.Theory.Reversal
import Verif.Theory.Unique
import Verif.Theory.Components

set_option linter.unusedSectionVars false
set_option linter.unusedSimpArgs false

namespace Phlite
open Finsupp (single linearCombination linearCombination_single supported)

section
variable {K : Type} [Field K] {F : Type} [LinearOrder F] [Zero F] [OrderTop F] {n : ℕ}

/-- If a vertex has arrows from all others and all edges are arrows, all cycles are boundaries. -/
theorem corooted_cycles {E : Set (ℕ × ℕ)} {time : ℕ → ℕ → Option F} {t : F} (hloop : ∀ a, time a a = none) {r : ℕ} (hr : ∀ v < n, v ≠ r → (v, r) ∈ arrows n time t)
    (hE : E ⊆ arrows n time t) : groundedZ1 K E n time t ≤ groundedB1 K n time t := by
  have harr : arrows n (fun a b => time b a) t = Prod.swap '' arrows n time t := by
    ext ⟨a, b⟩
    constructor
    · rintro ⟨h1, h2, h3⟩
      exact ⟨(b, a), ⟨h2, h1, h3⟩, rfl⟩
    · rintro ⟨⟨c, d⟩, ⟨h1, h2, h3⟩, e⟩
      obtain ⟨rfl, rfl⟩ := Prod.mk.inj e
      exact ⟨h2, h1, h3⟩
  have hedge : groundedEdges (Prod.swap '' E) n (fun a b => time b a) t = Prod.swap '' groundedEdges E n time t := by
    unfold groundedEdges
    rw [Set.image_union, harr]
  have key := rooted_cycles (K := K) (E := Prod.swap '' E) (time := fun a b => time b a) (t := t) hloop (r := r)
    (fun v hv hvr => by obtain ⟨h1, h2, h3⟩ := hr v hv hvr; exact ⟨h2, h1, h3⟩) (by rw [harr]; exact Set.image_mono hE)
  rw [groundedZ1_flip hedge, groundedB1_flip harr] at key
  exact (Submodule.map_le_map_iff_of_injective (Finsupp.mapDomain_injective Prod.swap_injective) _ _).1 key

end

section
variable {K : Type} [Field K] {F : Type} [LinearOrder F] [Zero F] [OrderTop F] {add : F → F → F} {n : ℕ} {edges : List (ℕ × ℕ × F)} {sp : ℕ → ℕ → Option F}

/-- The vertices of a walk of length at most `t` are joined by edges of weight at most `t`. -/
theorem walk_short (hadd : IsLengthAddition add) (hedges : ∀ e ∈ edges, e.1 < n ∧ e.2.1 < n) (hw : ∀ e ∈ edges, 0 ≤ e.2.2) (hsp : IsShortestPaths add edges sp) {t : F}
    {i j : ℕ} {x : F} (h : IsWalk add edges i j x) (hxt : x ≤ t) :
    Relation.EqvGen (fun a b => a < n ∧ b < n ∧ (a, b) ∈ edgeSet edges ∩ arrows n (spTime sp) t) i j := by
  induction h with
  | nil => exact .refl _
  | @snoc k j x w hx he hwt ih =>
    have hw0 := hw _ he
    have hx0 := hx.nonneg hadd hw
    have ih := ih ((hadd.le_add_right x w hw0).trans hxt)
    by_cases hkj : k = j
    · subst hkj; exact ih
    · have hk := hedges _ he
      refine .trans _ _ _ ih (.rel _ _ ⟨hk.1, hk.2, ⟨w, he⟩, ?_⟩)
      have hstep : IsWalk add edges k j (add 0 w) := .snoc .nil he hwt
      refine hstep.arrow hsp hk.1 hk.2 hkj ?_
      rw [hadd.zero_add]
      exact (hadd.le_add_left x w hx0).trans hxt

/-- From the time on at which a vertex has arrows to all others, or all others have arrows to it, there is one class for each edge whose ends have no arrow. -/
theorem betti_beyond (hadd : IsLengthAddition add) (hedges : ∀ e ∈ edges, e.1 < n ∧ e.2.1 < n) (hw : ∀ e ∈ edges, 0 ≤ e.2.2) (hsp : IsShortestPaths add edges sp)
    {r : ℕ} (hr : r < n) {s t : F} (hst : s ≤ t) (hreach : (∀ v < n, ∃ x ≤ t, IsWalk add edges r v x) ∨ ∀ v < n, ∃ x ≤ t, IsWalk add edges v r x) :
    groundedBetti1 K (edgeSet edges) n (spTime sp) hst = (edgeSet edges \ arrows n (spTime sp) t).ncard := by
  have hE : ∀ e ∈ edgeSet edges, e.1 < n ∧ e.2 < n := fun e ⟨w, he⟩ => hedges _ he
  have hfin : (edgeSet edges).Finite := (grounded_finite (time := spTime sp) hE t).subset Set.subset_union_left
  have h1 := groundedBetti1_edgeCycles (K := K) hadd hedges hw hsp hst
  have hcyc : groundedZ1 K ∅ n (spTime sp) t ≤ groundedB1 K n (spTime sp) t := by
    rcases hreach with hreach | hreach
    · refine rooted_cycles (r := r) (fun a => if_pos rfl) (fun v hv hvr => ?_) (Set.empty_subset _)
      obtain ⟨x, hx, hwalk⟩ := hreach v hv
      exact hwalk.arrow hsp hr hv (fun e => hvr e.symm) hx
    · refine corooted_cycles (r := r) (fun a => if_pos rfl) (fun v hv hvr => ?_) (Set.empty_subset _)
      obtain ⟨x, hx, hwalk⟩ := hreach v hv
      exact hwalk.arrow hsp hv hr hvr hx
  have h2 : edgeCycles K (edgeSet edges) ⊓ groundedB1 K n (spTime sp) t = edgeCycles K (edgeSet edges ∩ arrows n (spTime sp) t) := by
    apply le_antisymm
    · rintro z ⟨⟨ha, hb⟩, hc⟩
      refine ⟨?_, hb⟩
      rw [SetLike.mem_coe, Finsupp.mem_supported, Set.subset_inter_iff]
      exact ⟨(Finsupp.mem_supported K z).1 ha, (Finsupp.mem_supported K z).1 (groundedB1_supported hc)⟩
    · refine le_inf (inf_le_inf_right _ (Finsupp.supported_mono Set.inter_subset_left)) (le_trans ?_ hcyc)
      refine inf_le_inf_right _ (Finsupp.supported_mono ?_)
      exact fun e he => .inr he.2
  have c1 := circuit_rank (K := K) (n := n) (E := edgeSet edges) hE
  have c2 := circuit_rank (K := K) (n := n) (E := edgeSet edges ∩ arrows n (spTime sp) t) fun e he => hE e he.1
  have hone : ∀ X : Set (ℕ × ℕ), edgeSet edges ∩ arrows n (spTime sp) t ⊆ X → componentCount n (fun a b => (a, b) ∈ X) = 1 := by
    intro X hX
    rw [componentCount_congr (R' := fun _ _ => True) (fun _ _ _ _ _ => trivial), componentCount_complete (by omega) fun _ _ _ _ _ => trivial]
    intro a b ha hb _
    have hmono : ∀ i j, Relation.EqvGen (fun a b => a < n ∧ b < n ∧ (a, b) ∈ edgeSet edges ∩ arrows n (spTime sp) t) i j →
        Relation.EqvGen (fun a b => a < n ∧ b < n ∧ (a, b) ∈ X) i j := fun i j h =>
      Relation.EqvGen.mono (r := fun a b => a < n ∧ b < n ∧ (a, b) ∈ edgeSet edges ∩ arrows n (spTime sp) t) (p := fun a b => a < n ∧ b < n ∧ (a, b) ∈ X)
        (fun _ _ h => ⟨h.1, h.2.1, hX h.2.2⟩) _ _ h
    rcases hreach with hreach | hreach
    · obtain ⟨x, hx, hwalk⟩ := hreach a ha
      obtain ⟨y, hy, hwalk'⟩ := hreach b hb
      exact .trans _ _ _ (.symm _ _ (hmono _ _ (walk_short hadd hedges hw hsp hwalk hx))) (hmono _ _ (walk_short hadd hedges hw hsp hwalk' hy))
    · obtain ⟨x, hx, hwalk⟩ := hreach a ha
      obtain ⟨y, hy, hwalk'⟩ := hreach b hb
      exact .trans _ _ _ (hmono _ _ (walk_short hadd hedges hw hsp hwalk hx)) (.symm _ _ (hmono _ _ (walk_short hadd hedges hw hsp hwalk' hy)))
  rw [hone _ Set.inter_subset_left] at c1
  rw [hone _ subset_rfl] at c2
  rw [h2] at h1
  have c3 := Set.ncard_inter_add_ncard_sdiff_eq_ncard (edgeSet edges) (arrows n (spTime sp) t) hfin
  unfold edgeCycles at h1
  omega

theorem edgeEnd_arrow {e : ℕ × ℕ} (he : e.1 < n ∧ e.2 < n) {t : F} : (t : WithTop F) < edgeEnd sp e ↔ e ∉ arrows n (spTime sp) t := by
  unfold edgeEnd arrows spTime
  simp only [Set.mem_ofPred_eq, he.1, he.2, true_and]
  split
  · simp [WithTop.coe_lt_top]
  · cases sp e.1 e.2 with
    | none => simp [WithTop.coe_lt_top]
    | some x => simp

open Classical in
/-- The intervals that end after the enclosing radius. -/
theorem IsGroundedBarcode.beyond (hadd : IsLengthAddition add) (hedges : ∀ e ∈ edges, e.1 < n ∧ e.2.1 < n) (hw : ∀ e ∈ edges, 0 ≤ e.2.2) (hsp : IsShortestPaths add edges sp)
    {v : ℕ} (hv : v < n) {r : F} (hreach : (∀ u < n, ∃ x ≤ r, IsWalk add edges v u x) ∨ ∀ u < n, ∃ x ≤ r, IsWalk add edges u v x)
    {bars : Multiset (F × WithTop F)} (h : IsGroundedBarcode K (edgeSet edges) n (spTime sp) 1 bars) :
    bars.filter (fun b => (r : WithTop F) < b.2) =
      ((edges.map fun e => (e.1, e.2.1)).toFinset.filter fun e => (r : WithTop F) < edgeEnd sp e).val.map fun e => ((0 : F), edgeEnd sp e) := by
  have hr0 : 0 ≤ r := by
    rcases hreach with hreach | hreach
    all_goals
      obtain ⟨x, hx, hwalk⟩ := hreach v hv
      exact (hwalk.nonneg hadd hw).trans hx
  refine barcode_unique (fun b hb => h.nonempty b (Multiset.mem_of_mem_filter hb)) ?_ fun s t hst => ?_
  · intro b hb
    obtain ⟨e, he, rfl⟩ := Multiset.mem_map.1 hb
    rw [Finset.mem_val, Finset.mem_filter] at he
    exact (WithTop.coe_le_coe.2 hr0).trans_lt he.2
  unfold aliveBars
  rw [Multiset.countP_map, ← Multiset.countP_eq_card_filter, Multiset.countP_filter]
  by_cases hs : 0 ≤ s
  · have hc := h.count s (max t r) hs (hst.trans (le_max_left _ _))
    rw [if_neg one_ne_zero, betti_beyond hadd hedges hw hsp hv _ (hreach.imp (fun g u hu => ?_) fun g u hu => ?_)] at hc
    · unfold aliveBars at hc
      have e1 : ∀ x : WithTop F, ((max t r : F) : WithTop F) < x ↔ (t : WithTop F) < x ∧ (r : WithTop F) < x := fun x => by
        rw [← max_lt_iff]; rcases le_total t r with e | e
        · rw [max_eq_right e, max_eq_right (WithTop.coe_le_coe.2 e)]
        · rw [max_eq_left e, max_eq_left (WithTop.coe_le_coe.2 e)]
      simp only [e1] at hc
      rw [Multiset.countP_eq_card_filter] at hc
      rw [Multiset.countP_eq_card_filter]
      simp only [and_assoc]
      refine hc.trans ?_
      rw [Finset.filter_val, Multiset.countP_filter, Multiset.countP_eq_card_filter]
      have e2 : edgeSet edges \ arrows n (spTime sp) (max t r) =
          (((edges.map fun e => (e.1, e.2.1)).toFinset.filter fun e => ((max t r : F) : WithTop F) < edgeEnd sp e : Finset (ℕ × ℕ)) : Set (ℕ × ℕ)) := by
        ext e
        rw [Finset.mem_coe, Finset.mem_filter, List.mem_toFinset, List.mem_map, Set.mem_sdiff]
        constructor
        · rintro ⟨⟨w, he⟩, hn⟩
          exact ⟨⟨_, he, rfl⟩, (edgeEnd_arrow (hedges _ he)).2 hn⟩
        · rintro ⟨⟨⟨a, b, w⟩, he, rfl⟩, hn⟩
          exact ⟨⟨w, he⟩, (edgeEnd_arrow (hedges _ he)).1 hn⟩
      rw [e2, Set.ncard_coe_finset, Finset.card_def, Finset.filter_val]
      congr 1
      refine Multiset.filter_congr fun e _ => ?_
      rw [e1]
      exact ⟨fun g => ⟨⟨hs, g.1⟩, g.2⟩, fun g => ⟨g.1.2, g.2⟩⟩
    · obtain ⟨x, hx, hwalk⟩ := g u hu
      exact ⟨x, hx.trans (le_max_right _ _), hwalk⟩
    · obtain ⟨x, hx, hwalk⟩ := g u hu
      exact ⟨x, hx.trans (le_max_right _ _), hwalk⟩
  · rw [Multiset.countP_eq_zero.2, Multiset.countP_eq_zero.2]
    · exact fun _ _ g => hs g.1
    · exact fun b hb g => hs ((h.nonneg b hb).trans g.1.1)

end
end Phlite
