/-
Property theorems C48, C49, C50: what `grpph` and `grpph_with_involution` report for complete digraphs and directed cycles (the assertions of
phlite_grpph/examples/example.py and phlite_grpph/src/bin/main.rs), and that representatives are closed.
-/
import Verif.Props.GrPPHShape
import Verif.Theory.CycleGraph

set_option linter.unusedSectionVars false
set_option linter.unusedSimpArgs false

namespace Phlite
open Finsupp (single linearCombination linearCombination_single supported)

section
variable {F : Type} [LinearOrder F] [Zero F] [OrderTop F] [StdHeap]
variable {add : F → F → F} {n : ℕ} {edges : List (ℕ × ℕ × F)} {sp : ℕ → ℕ → Option F} {E : List (ℕ × ℕ)}
variable {CF : Type} [NonZeroCoeff CF]

/-- C48: for the complete digraph on `n ≥ 1` vertices with equal positive weights `w`, `grpph` reports one essential bar, in degree 0, and in degree 1
`n (n - 1) - n + 1` finite bars, from 0 to `w`. -/
theorem C48_complete (K : Type) [Field K] [LawfulCoeff CF K] (hn : n < 65536) (hn1 : 1 ≤ n) (hadd : IsLengthAddition add) {w : F} (hw : 0 < w) (hw' : w < ⊤)
    (hedges : ∀ a b x, (a, b, x) ∈ edges → x = w) (hcomplete : ∀ a b, (a, b, w) ∈ edges ↔ a < n ∧ b < n ∧ a ≠ b)
    (hsp : IsShortestPaths add edges sp) (hperm : E.Perm (buildEdgeSet edges)) :
    ∃ enough, ∀ fuel ≥ enough, ∀ enumE enumP, Enumerates enumE → Enumerates enumP →
      grpph CF enumE enumP n sp E fuel = some ([[0], []], [[], List.replicate (n * (n - 1) + 1 - n) (0, w)]) := by
  classical
  have hed : ∀ e ∈ edges, e.1 < n ∧ e.2.1 < n := by
    rintro ⟨a, b, x⟩ he
    have := hedges a b x he
    subst this
    have := (hcomplete a b).1 he
    exact ⟨this.1, this.2.1⟩
  have hpos : ∀ e ∈ edges, 0 < e.2.2 := by
    rintro ⟨a, b, x⟩ he
    rw [hedges a b x he]; exact hw
  have hw0 : ∀ e ∈ edges, 0 ≤ e.2.2 := fun e he => (hpos e he).le
  have hset : ∀ a b, (∃ x, (a, b, x) ∈ edges) ↔ a < n ∧ b < n ∧ a ≠ b := by
    intro a b
    constructor
    · rintro ⟨x, hx⟩
      have := hedges a b x hx
      subst this
      exact (hcomplete a b).1 hx
    · intro h; exact ⟨w, (hcomplete a b).2 h⟩
  have hwalk : ∀ a b, a < n → b < n → a ≠ b → IsWalk add edges a b w := by
    intro a b ha hb hab
    have := IsWalk.snoc (IsWalk.nil (add := add) (edges := edges) (i := a)) ((hcomplete a b).2 ⟨ha, hb, hab⟩) hw'
    rwa [hadd.zero_add] at this
  have hlong : ∀ a b x, IsWalk add edges a b x → (a = b ∧ x = 0) ∨ w ≤ x := by
    intro a b x h
    cases h with
    | nil => exact Or.inl ⟨rfl, rfl⟩
    | snoc h he _ =>
      right
      have := hedges _ _ _ he
      rw [← this]
      exact hadd.le_add_left _ _ (h.nonneg hadd hw0)
  have hval : ∀ a b x, sp a b = some x → (a = b ∧ x = 0) ∨ (a < n ∧ b < n ∧ a ≠ b ∧ x = w) := by
    intro a b x hx
    have hle := hsp.least a b x hx
    by_cases hab : a = b
    · subst hab
      exact Or.inl ⟨rfl, le_antisymm (hle.2 IsWalk.nil) (hle.1.nonneg hadd hw0)⟩
    · right
      have h1 := hle.1
      have ha : a < n := by
        clear hle hx
        induction h1 with
        | nil => exact absurd rfl hab
        | @snoc k j x y h he _ ih =>
          by_cases hak : a = k
          · rw [hak]; exact (hed _ he).1
          · exact ih hak
      have hb := h1.lt_n hed ha
      rcases hlong a b x h1 with h | h
      · exact absurd h.1 hab
      · exact ⟨ha, hb, hab, le_antisymm (hle.2 (hwalk a b ha hb hab)) h⟩
  obtain ⟨enough, h⟩ := grpph_bars (CF := CF) K hn hadd hed hw0 hsp hperm
  refine ⟨enough, fun fuel hf enumE enumP hE hP => ?_⟩
  obtain ⟨e1, p1, h1, q1, q3, hb⟩ := h fuel hf enumE enumP hE hP
  have hcomp : (componentCount n fun a b => ∃ x, (a, b, x) ∈ edges) = 1 :=
    componentCount_complete hn1 fun a ha b hb hab => (hset a b).2 ⟨ha, hb, hab⟩
  -- all cycles are dead at time `w`
  have hz : groundedZ1 K (edgeSet edges) n (spTime sp) w ≤ groundedB1 K n (spTime sp) w := by
    refine cycles_rooted K hadd hed hsp ?_ (r := 0) hn1 ?_ ?_
    · rintro ⟨a, b, x⟩ he
      obtain ⟨h1, h2, h3⟩ := (hset a b).1 ⟨x, he⟩
      exact ⟨h3, w, hwalk a b h1 h2 h3⟩
    · intro v hv
      by_cases h0 : 0 = v
      · rw [← h0]; exact ⟨0, IsWalk.nil⟩
      · exact ⟨w, hwalk 0 v hn1 hv h0⟩
    · intro i _ j _ x hx
      rcases hval i j x hx with h | h
      · rw [h.2]; exact hw.le
      · rw [h.2.2.2]
  have c1 := hb w hw.le
  have c2 : groundedBetti1 K (edgeSet edges) n (spTime sp) hw.le = 0 := finrank_range_eq_zero _ _ hz
  rw [c2] at c1
  have he1 : e1 = [] := List.length_eq_zero_iff.1 (by omega)
  have hd1 : ∀ b ∈ p1, b.2 ≤ w := by
    intro b hb'
    have := List.countP_eq_zero.1 (by omega : p1.countP (fun b => w < b.2) = 0) b hb'
    simpa using this
  -- no arrows before `w`
  have hd2 : ∀ b ∈ p1, w ≤ b.2 := by
    intro b hb'
    by_contra hlt
    rw [not_le] at hlt
    have harr : arrows n (spTime sp) b.2 = ∅ := by
      rw [Set.eq_empty_iff_forall_notMem]
      rintro ⟨i, j⟩ ⟨_, _, x, hx, hxt⟩
      simp only [spTime] at hx
      split at hx
      · cases hx
      · rename_i hij
        rcases hval i j x hx with h | h
        · exact hij h.1
        · rw [h.2.2.2] at hxt
          exact absurd hlt (not_lt.2 hxt)
    have harr0 : arrows n (spTime sp) (0 : F) = ∅ := arrows_zero hadd hpos hsp
    have c3 := hb b.2 (q3 b hb').2.le
    have c4 := hb 0 le_rfl
    have c5 : groundedBetti1 K (edgeSet edges) n (spTime sp) (q3 b hb').2.le = groundedBetti1 K (edgeSet edges) n (spTime sp) (le_refl (0 : F)) := by
      unfold groundedBetti1
      rw [range_quotByMap_same _ _ (by unfold groundedZ1 groundedEdges; rw [harr, harr0]; exact le_sup_left), range_quotByMap_same _ _ le_sup_left]
      unfold groundedZ1 groundedEdges
      rw [groundedB1_bot harr, groundedB1_bot harr0, harr, harr0]
    have := countP_lt (p := fun y : F × F => decide (b.2 < y.2)) (q := fun y : F × F => decide (0 < y.2)) (l := p1) (fun y _ hy => by
      simp only [decide_eq_true_eq] at hy ⊢; exact (q3 b hb').2.trans hy) hb' (by simp) (by simpa using (q3 b hb').2)
    omega
  have hcount := betti_circuit K hadd hed hpos hsp (n := n)
  have hcard : (edgeSet edges).ncard = n * (n - 1) := by
    have : edgeSet edges = ((Finset.range n).offDiag : Set (ℕ × ℕ)) := by
      ext ⟨a, b⟩
      rw [Finset.mem_coe, Finset.mem_offDiag, Finset.mem_range, Finset.mem_range]
      exact hset a b
    rw [this, Set.ncard_coe_finset, Finset.offDiag_card, Finset.card_range, Nat.mul_sub, mul_one]
  have c4 := hb 0 le_rfl
  rw [List.countP_eq_length.2 fun b hb => by simp [(q3 b hb).2]] at c4
  rw [hcomp, hcard] at hcount
  have hp1 : p1 = List.replicate (n * (n - 1) + 1 - n) (0, w) := by
    refine List.eq_replicate_iff.2 ⟨?_, fun b hb' => Prod.ext (q3 b hb').1 (le_antisymm (hd1 b hb') (hd2 b hb'))⟩
    rw [he1, List.length_nil, zero_add] at c4
    omega
  rw [h1, hcomp, he1, hp1]
  rfl

/-! ### Directed cycles -/

theorem cycle_setup {N : ℕ} {w : F} (hadd : IsLengthAddition add) (hw : 0 < w) (hw' : w < ⊤) (hN : 2 ≤ N) :
    (∀ e ∈ cycleEdges N w, e.1 < N ∧ e.2.1 < N) ∧ (∀ e ∈ cycleEdges N w, 0 < e.2.2) ∧
    (componentCount N fun a b => ∃ x, (a, b, x) ∈ cycleEdges N w) = 1 ∧ (edgeSet (cycleEdges N w)).ncard = N := by
  have hed : ∀ e ∈ cycleEdges N w, e.1 < N ∧ e.2.1 < N := by
    rintro ⟨a, b, x⟩ he
    obtain ⟨h1, rfl, rfl⟩ := mem_cycleEdges.1 he
    exact ⟨h1, Nat.mod_lt _ (by omega)⟩
  refine ⟨hed, ?_, ?_, ?_⟩
  · rintro ⟨a, b, x⟩ he
    obtain ⟨_, _, rfl⟩ := mem_cycleEdges.1 he
    exact hw
  · rw [componentCount_congr (R' := fun _ _ => True) (fun _ _ _ _ _ => trivial), componentCount_complete (by omega) fun _ _ _ _ _ => trivial]
    intro a b ha hb _
    have := walk_cycle (add := add) hw' ha (cycleDist N a b)
    rw [cycleDist_add ha hb] at this
    exact this.connected hed
  · have : edgeSet (cycleEdges N w) = ((Finset.range N).image fun i => (i, (i + 1) % N) : Finset (ℕ × ℕ)) := by
      ext ⟨a, b⟩
      rw [mem_edgeSet_cycle, Finset.mem_coe, Finset.mem_image]
      constructor
      · rintro ⟨h1, rfl⟩; exact ⟨a, Finset.mem_range.2 h1, rfl⟩
      · rintro ⟨i, hi, e⟩
        obtain ⟨rfl, rfl⟩ := Prod.mk.inj e
        exact ⟨Finset.mem_range.1 hi, rfl⟩
    rw [this, Set.ncard_coe_finset, Finset.card_image_of_injective _ fun i j h => (Prod.mk.inj h).1, Finset.card_range]

/-- C49: for the directed cycle on `2 ≤ N` vertices with weights `w > 0`, `grpph` reports one
essential bar, in degree 0, and one finite bar, in degree 1, from 0 to the length of a walk along `⌈N / 2⌉` edges; `grpph_with_involution` reports
the same bars and one representative, the edges of the cycle in some order. -/
theorem C49_cycle (K : Type) [Field K] [LawfulCoeff CF K] {N : ℕ} {w : F} (hn : N < 65536) (hN : 2 ≤ N) (hadd : IsLengthAddition add) (hw : 0 < w) (hw' : w < ⊤)
    (hsp : IsShortestPaths add (cycleEdges N w) sp)
    (hperm : E.Perm (buildEdgeSet (cycleEdges N w))) :
    ∃ enough, ∀ fuel ≥ enough, ∀ fuelB : ℕ → ℕ, (∀ i, i + 1 ≤ fuelB i) → ∀ enumE enumP enumB, Enumerates enumE → Enumerates enumP → Enumerates enumB →
      grpph CF enumE enumP N sp E fuel = some ([[0], []], [[], [(0, cycleLength add w ((N + 1) / 2))]]) ∧
      ∃ rep, grpphWithInvolution CF enumE enumP enumB N sp E fuel fuelB =
          some ([[0], []], [[], [(0, cycleLength add w ((N + 1) / 2))]], [rep]) ∧
        rep.Perm ((List.range N).map fun i => (i, (i + 1) % N)) := by
  classical
  obtain ⟨hed, hpos, hcomp, hcard⟩ := cycle_setup (add := add) hadd hw hw' hN
  have hw0 : ∀ e ∈ cycleEdges N w, 0 ≤ e.2.2 := fun e he => (hpos e he).le
  set D := cycleLength add w ((N + 1) / 2) with hD
  have hD0 : 0 < D := by
    have h1 : cycleLength add w 1 ≤ D := cycleLength_mono hadd hw.le (by omega)
    have h2 : cycleLength add w 1 = w := by rw [cycleLength_succ]; exact hadd.zero_add w
    rw [h2] at h1
    exact hw.trans_le h1
  obtain ⟨enough, h⟩ := grpph_bars (CF := CF) K hn hadd hed hw0 hsp hperm
  obtain ⟨enough', h'⟩ := C38_involution (CF := CF) (K := K) hn hed hperm hsp.topClosed
  refine ⟨max enough enough', fun fuel hf fuelB hfB enumE enumP enumB hE hP hB => ?_⟩
  obtain ⟨e1, p1, h1, q1, q3, hb⟩ := h fuel ((le_max_left _ _).trans hf) enumE enumP hE hP
  have harr0 : arrows N (spTime sp) (0 : F) = ∅ := arrows_zero hadd hpos hsp
  have hG0 : groundedEdges (edgeSet (cycleEdges N w)) N (spTime sp) (0 : F) = edgeSet (cycleEdges N w) := by rw [groundedEdges, harr0, Set.union_empty]
  have hcyc : cycleChain K N ∈ groundedZ1 K (edgeSet (cycleEdges N w)) N (spTime sp) 0 := by
    unfold groundedZ1
    rw [hG0]
    exact ⟨cycleChain_supported, cycleChain_cycle (by omega)⟩
  -- dead from `D` on
  have c1 := hb D hD0.le
  have c2 : groundedBetti1 K (edgeSet (cycleEdges N w)) N (spTime sp) hD0.le = 0 := by
    unfold groundedBetti1
    have : quotByMap (groundedZ1_mono K (edgeSet (cycleEdges N w)) N (spTime sp) hD0.le) (groundedB1_mono K N (spTime sp) hD0.le) = 0 := by
      ext ⟨z, hz⟩
      show Submodule.mkQ _ (Submodule.inclusion _ ⟨z, hz⟩) = 0
      rw [Submodule.mkQ_apply, Submodule.Quotient.mk_eq_zero, Submodule.mem_comap]
      unfold groundedZ1 at hz
      rw [hG0] at hz
      exact cycle_dead hadd hw.le hw' hsp hN le_rfl hz
    rw [this, LinearMap.range_zero, finrank_bot]
  rw [c2] at c1
  have he1 : e1 = [] := List.length_eq_zero_iff.1 (by omega)
  have hd1 : ∀ b ∈ p1, b.2 ≤ D := by
    intro b hb'
    have := List.countP_eq_zero.1 (by omega : p1.countP (fun b => D < b.2) = 0) b hb'
    simpa using this
  have hcount := betti_circuit K hadd hed hpos hsp (n := N)
  have c4 := hb 0 le_rfl
  rw [List.countP_eq_length.2 fun b hb => by simp [(q3 b hb).2], he1, List.length_nil, zero_add] at c4
  rw [hcomp, hcard] at hcount
  have hlen1 : p1.length = 1 := by omega
  obtain ⟨b, rfl⟩ := List.length_eq_one_iff.1 hlen1
  -- alive before `D`
  have hd2 : D ≤ b.2 := by
    by_contra hlt
    rw [not_le] at hlt
    have hb0 := (q3 b (by simp)).2
    have c5 := hb b.2 hb0.le
    rw [he1] at c5
    simp only [List.length_nil, List.countP_singleton, lt_self_iff_false, decide_false, Bool.false_eq_true, if_false, add_zero] at c5
    have := cycle_alive (K := K) hadd hw.le hw' hsp hN hlt
    apply this
    have := fd_supported K _ (groundedEdges_finite (E := E) (time := spTime sp) (edge_set_perm hn hed hperm).2.1 (0 : F))
    rw [show {e | e ∈ E} = edgeSet (cycleEdges N w) from (edge_set_perm hn hed hperm).2.2] at this
    have : FiniteDimensional K (groundedZ1 K (edgeSet (cycleEdges N w)) N (spTime sp) 0) :=
      Submodule.finiteDimensional_of_le (inf_le_left : _ ≤ supported K K (groundedEdges (edgeSet (cycleEdges N w)) N (spTime sp) 0))
    unfold groundedBetti1 at c5
    have hbot := Submodule.finrank_eq_zero.1 c5
    have hq : quotByMap (groundedZ1_mono K (edgeSet (cycleEdges N w)) N (spTime sp) hb0.le) (groundedB1_mono K N (spTime sp) hb0.le)
        (Submodule.mkQ _ ⟨_, hcyc⟩) = 0 := by
      have : quotByMap (groundedZ1_mono K (edgeSet (cycleEdges N w)) N (spTime sp) hb0.le) (groundedB1_mono K N (spTime sp) hb0.le)
        (Submodule.mkQ _ ⟨_, hcyc⟩) ∈ LinearMap.range (quotByMap (groundedZ1_mono K (edgeSet (cycleEdges N w)) N (spTime sp) hb0.le) (groundedB1_mono K N (spTime sp) hb0.le)) := ⟨_, rfl⟩
      rw [hbot] at this
      exact (Submodule.mem_bot K).1 this
    have hq : Submodule.mkQ _ (Submodule.inclusion (groundedZ1_mono K (edgeSet (cycleEdges N w)) N (spTime sp) hb0.le) ⟨_, hcyc⟩) =
      (0 : QuotBy (groundedZ1 K (edgeSet (cycleEdges N w)) N (spTime sp) b.2) (groundedB1 K N (spTime sp) b.2)) := hq
    rw [Submodule.mkQ_apply, Submodule.Quotient.mk_eq_zero, Submodule.mem_comap] at hq
    exact hq
  have hbD : b = (0, D) := Prod.ext (q3 b (by simp)).1 (le_antisymm (hd1 b (by simp)) hd2)
  rw [hcomp, he1, hbD] at h1
  refine ⟨h1, ?_⟩
  obtain ⟨ess, p0, p1, reps, r1, r2, bar, z, r3, r4, r5⟩ := h' fuel ((le_max_right _ _).trans hf) fuelB hfB enumE enumP enumB hE hP hB
  rw [h1] at r1
  simp only [Option.some.injEq, Prod.mk.injEq, List.cons.injEq, and_true] at r1
  obtain ⟨rfl, rfl, rfl⟩ := r1
  have hl : reps.length = 1 := by have := r3.length_eq; simpa using this
  obtain ⟨rep, rfl⟩ := List.length_eq_one_iff.1 hl
  refine ⟨rep, r2, ?_⟩
  obtain ⟨s1, s2, e, s3, _⟩ := r5 0 rep rfl
  have hbar : bar 0 = (0, D) := by
    have := r3.mem_iff (a := bar 0)
    simpa using this
  have hz0 := r4.cycle 0 (by simp)
  rw [hbar] at hz0
  -- cycles are multiples of the cycle
  have hdim : Module.finrank K ↥(supported K K (edgeSet (cycleEdges N w)) ⊓ LinearMap.ker (linearCombination K (arrowBoundary K))) = 1 := by
    have := circuit_rank (K := K) (n := N) (E := edgeSet (cycleEdges N w)) fun e he => hed _ he.choose_spec
    rw [hcard, show (componentCount N fun a b => (a, b) ∈ edgeSet (cycleEdges N w)) = 1 from hcomp] at this
    omega
  have hz0' : z 0 ∈ supported K K (edgeSet (cycleEdges N w)) ⊓ LinearMap.ker (linearCombination K (arrowBoundary K)) := by
    have : z 0 ∈ groundedZ1 K (edgeSet (cycleEdges N w)) N (spTime sp) 0 := hz0
    unfold groundedZ1 at this
    rwa [hG0] at this
  have hc' : cycleChain K N ∈ supported K K (edgeSet (cycleEdges N w)) ⊓ LinearMap.ker (linearCombination K (arrowBoundary K)) :=
    ⟨cycleChain_supported, cycleChain_cycle (by omega)⟩
  obtain ⟨c, hc⟩ := (finrank_eq_one_iff_of_nonzero' (K := K) (⟨_, hc'⟩ : ↥(supported K K (edgeSet (cycleEdges N w)) ⊓ LinearMap.ker (linearCombination K (arrowBoundary K)))) (by
    intro h
    have h : cycleChain K N = 0 := congrArg Subtype.val h
    have := crossing_cycle (K := K) hN
    rw [h, map_zero] at this
    exact zero_ne_one this)).1 hdim ⟨_, hz0'⟩
  have hc : c • cycleChain K N = z 0 := congrArg Subtype.val hc
  have hc0 : c ≠ 0 := by
    rintro rfl
    rw [zero_smul] at hc
    have := (s2 e).1 (List.mem_of_mem_head? s3)
    rw [← hc] at this
    exact this rfl
  refine (List.perm_ext_iff_of_nodup s1 ?_).2 ?_
  · exact List.nodup_range.map fun i j h => (Prod.mk.inj h).1
  · rintro ⟨a, b⟩
    rw [s2, ← hc, Finsupp.smul_apply, cycleChain_apply, smul_eq_mul]
    have : (a, b) ∈ (List.range N).map (fun i => (i, (i + 1) % N)) ↔ a < N ∧ b = (a + 1) % N := by
      rw [List.mem_map]
      constructor
      · rintro ⟨i, hi, e⟩
        obtain ⟨rfl, rfl⟩ := Prod.mk.inj e
        exact ⟨List.mem_range.1 hi, rfl⟩
      · rintro ⟨h1, rfl⟩; exact ⟨a, List.mem_range.2 h1, rfl⟩
    rw [this]
    split
    · rename_i h; simp [hc0, h]
    · rename_i h; simp [h]

/-! ### Representatives -/

/-- C50: over `Z2`, which the library uses, and for positive weights, `grpph_with_involution(n, edges)` returns one representative for each finite bar of
degree 1; each is a non-empty list, without repetitions, of edges of the digraph, in which every vertex has even degree. -/
theorem C50_closed_representatives (hn : n < 65536) (hadd : IsLengthAddition add) (hedges : ∀ e ∈ edges, e.1 < n ∧ e.2.1 < n)
    (hpos : ∀ e ∈ edges, 0 < e.2.2) (hsp : IsShortestPaths add edges sp) (hperm : E.Perm (buildEdgeSet edges)) :
    ∃ enough, ∀ fuel ≥ enough, ∀ fuelB : ℕ → ℕ, (∀ i, i + 1 ≤ fuelB i) → ∀ enumE enumP enumB, Enumerates enumE → Enumerates enumP → Enumerates enumB →
      ∃ ess p0 p1 reps, grpphWithInvolution Z2 enumE enumP enumB n sp E fuel fuelB = some (ess, [p0, p1], reps) ∧ reps.length = p1.length ∧
        ∀ rep ∈ reps, rep ≠ [] ∧ rep.Nodup ∧ (∀ e ∈ rep, ∃ w, (e.1, e.2, w) ∈ edges) ∧
          ∀ v, Even ((rep.countP fun e => e.1 = v) + rep.countP fun e => e.2 = v) := by
  classical
  have hw0 : ∀ e ∈ edges, 0 ≤ e.2.2 := fun e he => (hpos e he).le
  obtain ⟨enough, h⟩ := grpph_bars (CF := Z2) (ZMod 2) hn hadd hedges hw0 hsp hperm
  obtain ⟨enough', h'⟩ := C38_involution (CF := Z2) (K := ZMod 2) hn hedges hperm hsp.topClosed
  refine ⟨max enough enough', fun fuel hf fuelB hfB enumE enumP enumB hE hP hB => ?_⟩
  obtain ⟨e1, p1', h1, q1, q3, hb⟩ := h fuel ((le_max_left _ _).trans hf) enumE enumP hE hP
  obtain ⟨ess, p0, p1, reps, r1, r2, bar, z, r3, r4, r5⟩ := h' fuel ((le_max_right _ _).trans hf) fuelB hfB enumE enumP enumB hE hP hB
  rw [h1] at r1
  simp only [Option.some.injEq, Prod.mk.injEq, List.cons.injEq, and_true] at r1
  obtain ⟨rfl, rfl, rfl⟩ := r1
  refine ⟨_, _, _, reps, r2, by have := r3.length_eq; simpa using this, ?_⟩
  intro rep hrep
  obtain ⟨i, hi, hri⟩ := List.mem_iff_getElem.1 hrep
  obtain ⟨s1, s2, e, s3, _⟩ := r5 i rep (by rw [List.getElem?_eq_getElem hi, hri])
  have hbar : (bar i).1 = 0 := (q3 _ (r3.mem_iff.1 (List.mem_map.2 ⟨i, List.mem_range.2 hi, rfl⟩))).1
  have hz := r4.cycle i hi
  rw [hbar] at hz
  have hz' : z i ∈ supported (ZMod 2) (ZMod 2) (edgeSet edges) ⊓ LinearMap.ker (linearCombination (ZMod 2) (arrowBoundary (ZMod 2))) := by
    have : z i ∈ groundedZ1 (ZMod 2) (edgeSet edges) n (spTime sp) 0 := hz
    unfold groundedZ1 groundedEdges at this
    rwa [arrows_zero hadd hpos hsp, Set.union_empty] at this
  refine ⟨fun h0 => by rw [h0] at s3; simp at s3, s1, fun e he => hz'.1 (Finsupp.mem_support_iff.2 ((s2 e).1 he)), ?_⟩
  have hzsum : z i = (rep.map fun e => single e (1 : ZMod 2)).sum := by
    have hone : ∀ x : ZMod 2, x ≠ 0 → x = 1 := by decide
    have : z i = ∑ e ∈ rep.toFinset, single e 1 := by
      rw [← Finsupp.sum_single (z i), Finsupp.sum]
      have hs : (z i).support = rep.toFinset := by
        ext e; rw [Finsupp.mem_support_iff, List.mem_toFinset, s2]
      rw [hs]
      refine Finset.sum_congr rfl fun e he => ?_
      rw [hone _ ((s2 e).1 (List.mem_toFinset.1 he))]
    rw [this, List.sum_toFinset _ s1]
  have hbd : linearCombination (ZMod 2) (arrowBoundary (ZMod 2)) (z i) = 0 := hz'.2
  intro v
  have hv := DFunLike.congr_fun hbd v
  rw [hzsum] at hv
  have key : ∀ l : List (ℕ × ℕ), linearCombination (ZMod 2) (arrowBoundary (ZMod 2)) (l.map fun e => single e (1 : ZMod 2)).sum v =
      (((l.countP fun e => e.1 = v) + l.countP fun e => e.2 = v : ℕ) : ZMod 2) := by
    intro l
    induction l with
    | nil => simp
    | cons e l ih =>
      rw [List.map_cons, List.sum_cons, map_add, Finsupp.add_apply, ih, linearCombination_single, one_smul, arrowBoundary, List.countP_cons, List.countP_cons,
        Finsupp.sub_apply, Finsupp.single_apply, Finsupp.single_apply]
      have hneg : ∀ x : ZMod 2, -x = x := by decide
      rw [sub_eq_add_neg, hneg]
      by_cases a1 : e.1 = v <;> by_cases a2 : e.2 = v <;> simp [a1, a2] <;> ring
  rw [key] at hv
  exact (ZMod.natCast_eq_zero_iff_even).1 hv

end
/-! ### The hypotheses can be met -/

/-- Addition of natural numbers with infinity is an addition of lengths. -/
theorem natTop_add : IsLengthAddition (fun x y : WithTop ℕ => x + y) where
  zero_add w := zero_add w
  mono x y w h := by gcongr
  le_add_right x w _ := le_self_add
  le_add_left x w _ := le_add_self

theorem natTop_walk {edges : List (ℕ × ℕ × WithTop ℕ)} {i j : ℕ} {x : WithTop ℕ} (h : IsWalk (fun x y => x + y) edges i j x) : x < ⊤ := by
  induction h with
  | nil => exact WithTop.coe_lt_top 0
  | snoc _ _ hw ih => exact WithTop.add_lt_top.2 ⟨ih, hw⟩

/-- Every weighted digraph with weights in the natural numbers or infinite has a table as required in C46, C47 and C50. -/
theorem natTop_shortestPaths (edges : List (ℕ × ℕ × WithTop ℕ)) :
    ∃ sp, IsShortestPaths (fun x y => x + y) edges sp ∧ ∀ i j x, sp i j = some x → x < ⊤ := by
  obtain ⟨sp, h⟩ := exists_shortestPaths natTop_add fun e (_ : e ∈ edges) => bot_le
  exact ⟨sp, h, fun i j x hx => natTop_walk (h.least i j x hx).1⟩

namespace GraphExample

/-- The input of phlite_grpph/examples/infinite_weights.py. -/
def edges : List (ℕ × ℕ × WithTop ℕ) := [(0, 1, 1), (1, 0, 1), (1, 2, ⊤), (3, 4, 10), (4, 3, 10)]

/-- Its shortest path lengths. -/
def sp (i j : ℕ) : Option (WithTop ℕ) :=
  if i = j then some 0
  else if (i, j) = (0, 1) ∨ (i, j) = (1, 0) then some ((1 : ℕ) : WithTop ℕ)
  else if (i, j) = (3, 4) ∨ (i, j) = (4, 3) then some ((10 : ℕ) : WithTop ℕ)
  else none

theorem shortest : IsShortestPaths (fun x y => x + y) edges sp := by
  have low : ∀ i j x, IsWalk (fun x y => x + y) edges i j x → ∃ y, sp i j = some y ∧ y ≤ x := by
    intro i j x h
    induction h with
    | nil => exact ⟨0, if_pos rfl, le_rfl⟩
    | @snoc k j x w _ he hw ih =>
      obtain ⟨y, hy, hyx⟩ := ih
      by_cases hij : i = j
      · exact ⟨0, if_pos hij, bot_le⟩
      have hone : ∀ w' : WithTop ℕ, (i = k → w' ≤ w) → (i ≠ k → w' ≤ y) → w' ≤ x + w := by
        intro w' h1 h2
        by_cases hik : i = k
        · exact (h1 hik).trans le_add_self
        · exact (h2 hik).trans (hyx.trans le_self_add)
      simp only [edges, List.mem_cons, Prod.mk.injEq, List.not_mem_nil, or_false] at he
      rcases he with ⟨rfl, rfl, rfl⟩ | ⟨rfl, rfl, rfl⟩ | ⟨rfl, rfl, rfl⟩ | ⟨rfl, rfl, rfl⟩ | ⟨rfl, rfl, rfl⟩
      · by_cases h0 : i = 0
        · subst h0; exact ⟨1, rfl, le_add_self⟩
        · simp [sp, h0, hij] at hy
      · by_cases h0 : i = 1
        · subst h0; exact ⟨1, rfl, le_add_self⟩
        · simp [sp, h0, hij] at hy
      · exact absurd rfl hw.ne
      · by_cases h0 : i = 3
        · subst h0; exact ⟨10, rfl, le_add_self⟩
        · simp [sp, h0, hij] at hy
      · by_cases h0 : i = 4
        · subst h0; exact ⟨10, rfl, le_add_self⟩
        · simp [sp, h0, hij] at hy
  constructor
  · intro i j x hx
    constructor
    · unfold sp at hx
      have one : ∀ a b w, (a, b, w) ∈ edges → w < ⊤ → IsWalk (fun x y => x + y) edges a b w := by
        intro a b w he hw
        have := IsWalk.snoc (IsWalk.nil (add := fun x y : WithTop ℕ => x + y) (edges := edges) (i := a)) he hw
        rwa [zero_add] at this
      split at hx
      · rename_i h; subst h; cases hx; exact IsWalk.nil
      split at hx
      · rename_i h
        cases hx
        rcases h with h | h <;> obtain ⟨rfl, rfl⟩ := Prod.mk.inj h
        · exact one _ _ _ (by simp [edges]) (WithTop.coe_lt_top 1)
        · exact one _ _ _ (by simp [edges]) (WithTop.coe_lt_top 1)
      split at hx
      · rename_i h
        cases hx
        rcases h with h | h <;> obtain ⟨rfl, rfl⟩ := Prod.mk.inj h
        · exact one _ _ _ (by simp [edges]) (WithTop.coe_lt_top 10)
        · exact one _ _ _ (by simp [edges]) (WithTop.coe_lt_top 10)
      · cases hx
    · intro y hy
      obtain ⟨y', h1, h2⟩ := low i j y hy
      rw [hx] at h1; cases h1
      exact h2
  · intro i j x hx
    obtain ⟨y, hy, _⟩ := low i j x hx
    exact ⟨y, hy⟩

/-- The hypotheses of C46, C47 and C50 hold of this input. -/
example : (∀ e ∈ edges, e.1 < 6 ∧ e.2.1 < 6) ∧ (∀ e ∈ edges, 0 < e.2.2) ∧ IsShortestPaths (fun x y => x + y) edges sp :=
  ⟨by decide, by decide, shortest⟩

set_option synthInstance.maxSize 2000 in
set_option synthInstance.maxHeartbeats 200000 in
/-- The run: three components `{0, 1, 2}`, `{3, 4}` and `{5}`, and the circuit rank is 5 - 6 + 3 = 2. -/
example : (letI := listHeap; grpphWithInvolution Z2 GrPPHExample.enumE GrPPHExample.enumP GrPPHExample.enumB 6 sp (buildEdgeSet edges) 100 (fun i => i + 1)) =
    some ([[0, 0, 0], []], [[], [(0, 10), (0, 1)]], [[(1, 0), (0, 1)], [(4, 3), (3, 4)]]) := by
  decide +kernel

/-- The hypotheses of C48 hold of the complete digraph on three vertices, and those of C49 of cycles of any length. -/
example : ∃ edges : List (ℕ × ℕ × WithTop ℕ), (∀ a b x, (a, b, x) ∈ edges → x = 2) ∧ (∀ a b, (a, b, 2) ∈ edges ↔ a < 3 ∧ b < 3 ∧ a ≠ b) ∧
    ∃ sp, IsShortestPaths (fun x y => x + y) edges sp := by
  refine ⟨[(0, 1, 2), (0, 2, 2), (1, 0, 2), (1, 2, 2), (2, 0, 2), (2, 1, 2)], ?_, ?_, (natTop_shortestPaths _).imp fun _ h => h.1⟩
  · intro a b x h
    simp only [List.mem_cons, Prod.mk.injEq, List.not_mem_nil, or_false] at h
    rcases h with h | h | h | h | h | h <;> exact h.2.2
  · intro a b
    simp only [List.mem_cons, Prod.mk.injEq, List.not_mem_nil, or_false, and_true]
    omega

example (N : ℕ) : ∃ sp, IsShortestPaths (fun x y => x + y) (cycleEdges N (1 : WithTop ℕ)) sp := (natTop_shortestPaths _).imp fun _ h => h.1

end GraphExample
end Phlite
