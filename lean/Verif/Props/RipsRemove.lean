/-
C96: a point can be removed if all others are at least as near to its nearest neighbour.
C97: trees, the four-point condition, ultrametrics.
-/
import Verif.Theory.Dominated
import Verif.Props.RipsEnclosing
import Verif.Props.RipsCorrespondence

set_option linter.unusedSectionVars false
set_option linter.unusedSimpArgs false

namespace Phlite
open OrderDual (toDual ofDual)

/-- C96: let `y` be a nearest neighbour of the point `x`, and all points other than `x` at least as near to `y` as to `x`. Then the matrix of the points other than `x` (in any order)
gives the same intervals in each dimension, without one `[0, d x y)` in dimension 0. -/
theorem C96_remove (K : Type) [Field K] (H H' : StdHeap) {CF CF' : Type} [NonZeroCoeff CF] [LawfulCoeff CF K] [NonZeroCoeff CF'] [LawfulCoeff CF' K]
    {F : Type} [LinearOrder F] [Zero F] {distances distances' : List (List F)} {d d' : ℕ → ℕ → F} (hD : IsDistanceMatrix distances d) (hD' : IsDistanceMatrix distances' d')
    {x y : ℕ} (hx : x < distances.length) (hy : y < distances.length) (hxy : y ≠ x)
    (hnear : ∀ a < distances.length, a ≠ x → d x y ≤ d x a ∧ d y a ≤ d x a)
    (f : ℕ → ℕ) (hf : ∀ i < distances'.length, f i < distances.length ∧ f i ≠ x) (hinj : ∀ i < distances'.length, ∀ j < distances'.length, f i = f j → i = j)
    (hall : ∀ a < distances.length, a ≠ x → ∃ i < distances'.length, f i = a)
    (hd : ∀ i < distances'.length, ∀ j < distances'.length, d' i j = d (f i) (f j)) {max_dim max_dim' : ℕ}
    (h1 : 1 ≤ max_dim ∨ distances.length ≤ 1) (h1' : 1 ≤ max_dim' ∨ distances'.length ≤ 1) {p : ℕ} (hp : p ≤ max_dim) (hp' : p ≤ max_dim')
    {fuel fuel' : ℕ} {bars bars' : Multiset (F × WithTop F)} (h : ripsIntervals H CF distances max_dim fuel p = some bars)
    (h' : ripsIntervals H' CF' distances' max_dim' fuel' p = some bars') :
    bars = if p = 0 ∧ 0 < d x y then (0, (d x y : WithTop F)) ::ₘ bars' else bars' :=
  IsBarcode.unique ((C53_intervals K H hD h1 hp).2 fuel bars h)
    (((C53_intervals K H' hD' h1' hp').2 fuel' bars' h').adjoin hD.diag hD.symm hx hy hxy (hD.nonneg x hx y hy) (fun a ha e => (hnear a ha e).1)
      (fun a ha e => (hnear a ha e).2) hf hinj hall hd)

section
variable {F : Type} [LinearOrder F] [Zero F] {distances : List (List F)} {d : ℕ → ℕ → F}

/-- C97: let each point but the first one have, among the earlier ones, a nearest point `parent i` to which the others are at least as near as to `i`. Then the Rips program prints the
distances from the points to their parents as the ends of the finite intervals of dimension 0 (those that its filter lets through), and nothing in higher dimensions. -/
theorem C97_attached [StdHeap] (CF K : Type) [Field K] [NonZeroCoeff CF] [LawfulCoeff CF K] (hD : IsDistanceMatrix distances d) (arg : Option ℕ)
    (h1 : 1 ≤ arg.getD 1 ∨ distances.length ≤ 1) (hne : distances ≠ [])
    {long : F → F → Bool} (hlong : ∀ b e, long b e = true → b < e) {enumE : Finset RipsIndexᵒᵈ → List RipsIndexᵒᵈ} (hE : Enumerates enumE)
    {enumP : Finset (RipsIndexᵒᵈ × RipsIndexᵒᵈ) → List (RipsIndexᵒᵈ × RipsIndexᵒᵈ)} (hP : Enumerates enumP) {parent : ℕ → ℕ}
    (hpar : ∀ i < distances.length, 1 ≤ i → parent i < i ∧ ∀ a < i, d i (parent i) ≤ d i a ∧ d (parent i) a ≤ d i a) :
    ∃ report, (∃ enough, ∀ fuel ≥ enough, ripsMain CF long enumE enumP distances arg fuel = some report) ∧
      report.intervals 0 = (0, ⊤) ::ₘ
        (((List.range distances.length).filter fun i => 1 ≤ i ∧ long 0 (d i (parent i)) = true).map fun i => ((0 : F), (d i (parent i) : WithTop F)) : List _) ∧
      ∀ p ≤ arg.getD 1, 1 ≤ p → report.intervals p = 0 := by
  classical
  obtain ⟨report, hrun, -, hint, -⟩ := C52_rips_report CF K hD arg h1 hlong hE hP
  have hbars := ripsBarcode_attached (K := K) hD.diag hD.symm hD.nonneg hpar (List.length_pos_iff.2 hne)
  refine ⟨report, hrun, ?_, fun p hp hp1 => ?_⟩
  · obtain ⟨bars, hb, hi⟩ := hint 0 (Nat.zero_le _)
    have hbar := (hb bars).2 rfl
    rw [hi, IsBarcode.unique hbar (hbars 0), if_pos rfl, Multiset.filter_cons_of_pos _ (by
      intro e he
      exact absurd he (WithTop.coe_ne_top (a := e)).symm)]
    congr 1
    rw [Multiset.filter_coe, List.filter_map, List.filter_filter]
    congr 2
    refine List.filter_congr fun i _ => ?_
    rw [Bool.eq_iff_iff]
    simp only [Function.comp, Bool.and_eq_true, decide_eq_true_eq, WithTop.coe_inj, forall_eq']
    constructor
    · rintro ⟨h2, h3, -⟩; exact ⟨h3, h2⟩
    · rintro ⟨h2, h3⟩; exact ⟨h3, h2, hlong _ _ h3⟩
  · obtain ⟨bars, hb, hi⟩ := hint p hp
    have hbar := (hb bars).2 rfl
    rw [hi, IsBarcode.unique hbar (hbars p), if_neg (by omega)]
    rfl

/-- C97: if in every set of points there is one whose neighbours at every scale are neighbours of each other, the Rips program prints nothing in dimensions above 0. -/
theorem C97_simplicial [StdHeap] (CF K : Type) [Field K] [NonZeroCoeff CF] [LawfulCoeff CF K] (hD : IsDistanceMatrix distances d) (arg : Option ℕ)
    (h1 : 1 ≤ arg.getD 1 ∨ distances.length ≤ 1)
    {long : F → F → Bool} (hlong : ∀ b e, long b e = true → b < e) {enumE : Finset RipsIndexᵒᵈ → List RipsIndexᵒᵈ} (hE : Enumerates enumE)
    {enumP : Finset (RipsIndexᵒᵈ × RipsIndexᵒᵈ) → List (RipsIndexᵒᵈ × RipsIndexᵒᵈ)} (hP : Enumerates enumP)
    (h : ∀ S ⊆ Finset.range distances.length, S.Nonempty → ∃ x ∈ S, ∀ a ∈ S, ∀ b ∈ S, a ≠ x → b ≠ x → d a b ≤ max (d x a) (d x b)) :
    ∃ report, (∃ enough, ∀ fuel ≥ enough, ripsMain CF long enumE enumP distances arg fuel = some report) ∧ ∀ p ≤ arg.getD 1, 1 ≤ p → report.intervals p = 0 := by
  classical
  obtain ⟨report, hrun, -, hint, -⟩ := C52_rips_report CF K hD arg h1 hlong hE hP
  refine ⟨report, hrun, fun p hp hp1 => ?_⟩
  obtain ⟨bars, hb, hi⟩ := hint p hp
  rw [hi, IsBarcode.unique ((hb bars).2 rfl) (ripsBarcode_simplicial (K := K) hD.diag hD.symm hD.nonneg h hp1)]
  rfl

/-- C97: ultrametrics. -/
theorem C97_ultrametric [StdHeap] (CF K : Type) [Field K] [NonZeroCoeff CF] [LawfulCoeff CF K] (hD : IsDistanceMatrix distances d) (arg : Option ℕ)
    (h1 : 1 ≤ arg.getD 1 ∨ distances.length ≤ 1)
    {long : F → F → Bool} (hlong : ∀ b e, long b e = true → b < e) {enumE : Finset RipsIndexᵒᵈ → List RipsIndexᵒᵈ} (hE : Enumerates enumE)
    {enumP : Finset (RipsIndexᵒᵈ × RipsIndexᵒᵈ) → List (RipsIndexᵒᵈ × RipsIndexᵒᵈ)} (hP : Enumerates enumP)
    (h : ∀ i < distances.length, ∀ j < distances.length, ∀ k < distances.length, d i k ≤ max (d i j) (d j k)) :
    ∃ report, (∃ enough, ∀ fuel ≥ enough, ripsMain CF long enumE enumP distances arg fuel = some report) ∧ ∀ p ≤ arg.getD 1, 1 ≤ p → report.intervals p = 0 := by
  refine C97_simplicial CF K hD arg h1 hlong hE hP fun S hS ⟨x, hx⟩ => ⟨x, hx, fun a ha b hb _ _ => ?_⟩
  have hlt : ∀ a ∈ S, a < distances.length := fun a ha => Finset.mem_range.1 (hS ha)
  rw [hD.symm x (hlt x hx) a (hlt a ha)]
  exact h a (hlt a ha) x (hlt x hx) b (hlt b hb)

end

section
variable {F : Type} [AddCommMonoid F] [LinearOrder F] {distances : List (List F)} {d : ℕ → ℕ → F}

/-- C97: distances in a tree with weighted edges, each point but the first being joined to an earlier one: the program prints the weights of the edges as the ends of the finite intervals of
dimension 0 (those that its filter lets through), and nothing in higher dimensions. -/
theorem C97_tree [IsOrderedAddMonoid F] [StdHeap] (CF K : Type) [Field K] [NonZeroCoeff CF] [LawfulCoeff CF K] (hD : IsDistanceMatrix distances d) (arg : Option ℕ)
    (h1 : 1 ≤ arg.getD 1 ∨ distances.length ≤ 1) (hne : distances ≠ [])
    {long : F → F → Bool} (hlong : ∀ b e, long b e = true → b < e) {enumE : Finset RipsIndexᵒᵈ → List RipsIndexᵒᵈ} (hE : Enumerates enumE)
    {enumP : Finset (RipsIndexᵒᵈ × RipsIndexᵒᵈ) → List (RipsIndexᵒᵈ × RipsIndexᵒᵈ)} (hP : Enumerates enumP) {parent : ℕ → ℕ} {weight : ℕ → F}
    (htree : ∀ i < distances.length, 1 ≤ i → parent i < i ∧ 0 ≤ weight i ∧ ∀ a < i, d i a = weight i + d (parent i) a) :
    ∃ report, (∃ enough, ∀ fuel ≥ enough, ripsMain CF long enumE enumP distances arg fuel = some report) ∧
      report.intervals 0 = (0, ⊤) ::ₘ
        (((List.range distances.length).filter fun i => 1 ≤ i ∧ long 0 (weight i) = true).map fun i => ((0 : F), (weight i : WithTop F)) : List _) ∧
      ∀ p ≤ arg.getD 1, 1 ≤ p → report.intervals p = 0 := by
  have hw : ∀ i < distances.length, 1 ≤ i → d i (parent i) = weight i := fun i hi h1 => by
    obtain ⟨h2, -, h3⟩ := htree i hi h1
    rw [h3 _ h2, hD.diag _ (h2.trans hi), add_zero]
  obtain ⟨report, hrun, h2, h3⟩ := C97_attached CF K hD arg h1 hne hlong hE hP (parent := parent) fun i hi h1 => by
    obtain ⟨h2, h3, h4⟩ := htree i hi h1
    refine ⟨h2, fun a ha => ?_⟩
    rw [hw i hi h1, h4 a ha]
    exact ⟨le_add_of_nonneg_right (hD.nonneg _ (h2.trans hi) _ (ha.trans hi)), le_add_of_nonneg_left h3⟩
  refine ⟨report, hrun, ?_, h3⟩
  rw [h2]
  congr 2
  have hf : (List.range distances.length).filter (fun i => 1 ≤ i ∧ long 0 (d i (parent i)) = true) = (List.range distances.length).filter fun i => 1 ≤ i ∧ long 0 (weight i) = true := by
    refine List.filter_congr fun i hi => ?_
    by_cases h : 1 ≤ i
    · rw [hw i (List.mem_range.1 hi) h]
    · simp [h]
  rw [hf]
  refine List.map_congr_left fun i hi => ?_
  obtain ⟨h4, h5⟩ := List.mem_filter.1 hi
  rw [hw i (List.mem_range.1 h4) (of_decide_eq_true h5).1]

theorem simplicial_of_four_points [IsOrderedCancelAddMonoid F] {n : ℕ} (h : ∀ i < n, ∀ j < n, ∀ k < n, ∀ l < n, d i j + d k l ≤ max (d i k + d j l) (d i l + d j k)) :
    ∀ S ⊆ Finset.range n, S.Nonempty → ∃ x ∈ S, ∀ a ∈ S, ∀ b ∈ S, a ≠ x → b ≠ x → d a b ≤ max (d x a) (d x b) := by
  intro S hS ⟨w, hw⟩
  obtain ⟨x, hx, hmax⟩ := Finset.exists_max_image S (fun a => d w a) ⟨w, hw⟩
  refine ⟨x, hx, fun a ha b hb _ _ => ?_⟩
  have hlt : ∀ a ∈ S, a < n := fun a ha => Finset.mem_range.1 (hS ha)
  have h2 := h w (hlt w hw) x (hlt x hx) a (hlt a ha) b (hlt b hb)
  have h3 : d w x + d a b ≤ d w x + max (d x a) (d x b) := by
    refine h2.trans (max_le ?_ ?_)
    · exact add_le_add (hmax a ha) (le_max_right _ _)
    · exact add_le_add (hmax b hb) (le_max_left _ _)
  exact le_of_add_le_add_left h3

/-- C97: the four-point condition. -/
theorem C97_four_points [IsOrderedCancelAddMonoid F] [StdHeap] (CF K : Type) [Field K] [NonZeroCoeff CF] [LawfulCoeff CF K] (hD : IsDistanceMatrix distances d) (arg : Option ℕ)
    (h1 : 1 ≤ arg.getD 1 ∨ distances.length ≤ 1)
    {long : F → F → Bool} (hlong : ∀ b e, long b e = true → b < e) {enumE : Finset RipsIndexᵒᵈ → List RipsIndexᵒᵈ} (hE : Enumerates enumE)
    {enumP : Finset (RipsIndexᵒᵈ × RipsIndexᵒᵈ) → List (RipsIndexᵒᵈ × RipsIndexᵒᵈ)} (hP : Enumerates enumP)
    (h : ∀ i < distances.length, ∀ j < distances.length, ∀ k < distances.length, ∀ l < distances.length, d i j + d k l ≤ max (d i k + d j l) (d i l + d j k)) :
    ∃ report, (∃ enough, ∀ fuel ≥ enough, ripsMain CF long enumE enumP distances arg fuel = some report) ∧ ∀ p ≤ arg.getD 1, 1 ≤ p → report.intervals p = 0 := by
  exact C97_simplicial CF K hD arg h1 hlong hE hP (simplicial_of_four_points h)

end

section
variable {F : Type} [Field F] [LinearOrder F] [IsStrictOrderedRing F] {distances : List (List F)} {d e : ℕ → ℕ → F}

/-- C97: nearly tree-like distances. If the entries are within `ε` of distances `e` that satisfy the four-point condition, all intervals that the program prints in dimensions above 0 are
finite and have length at most `2 * ε`. -/
theorem C97_nearly [StdHeap] (CF K : Type) [Field K] [NonZeroCoeff CF] [LawfulCoeff CF K] (hD : IsDistanceMatrix distances d) (arg : Option ℕ)
    (h1 : 1 ≤ arg.getD 1 ∨ distances.length ≤ 1)
    {long : F → F → Bool} (hlong : ∀ b e, long b e = true → b < e) {enumE : Finset RipsIndexᵒᵈ → List RipsIndexᵒᵈ} (hE : Enumerates enumE)
    {enumP : Finset (RipsIndexᵒᵈ × RipsIndexᵒᵈ) → List (RipsIndexᵒᵈ × RipsIndexᵒᵈ)} (hP : Enumerates enumP) {ε : F} (hε : 0 ≤ ε)
    (hclose : ∀ i < distances.length, ∀ j < distances.length, |d i j - e i j| ≤ ε)
    (hdiag : ∀ i < distances.length, e i i = 0) (hsymm : ∀ i < distances.length, ∀ j < distances.length, e i j = e j i)
    (hnonneg : ∀ i < distances.length, ∀ j < distances.length, 0 ≤ e i j)
    (h : ∀ i < distances.length, ∀ j < distances.length, ∀ k < distances.length, ∀ l < distances.length, e i j + e k l ≤ max (e i k + e j l) (e i l + e j k)) :
    ∃ report, (∃ enough, ∀ fuel ≥ enough, ripsMain CF long enumE enumP distances arg fuel = some report) ∧
      ∀ p ≤ arg.getD 1, 1 ≤ p → ∀ b ∈ report.intervals p, ∃ u : F, b.2 = u ∧ u - b.1 ≤ 2 * ε := by
  classical
  obtain ⟨report, hrun, -, hint, -⟩ := C52_rips_report CF K hD arg h1 hlong hE hP
  refine ⟨report, hrun, fun p hp hp1 b hb => ?_⟩
  obtain ⟨bars, hb', hi⟩ := hint p hp
  have h0 : IsRipsBarcode K distances.length e p 0 := ripsBarcode_simplicial hdiag hsymm hnonneg (simplicial_of_four_points h) hp1
  obtain ⟨pairs, A, B, e1, e2, -, hA, -⟩ := ((hb' bars).2 rfl).bottleneck h0 hε hclose
  have hp0 : pairs = 0 := by
    have := congrArg Multiset.card e2
    rw [Multiset.card_zero, Multiset.card_add, Multiset.card_map] at this
    exact Multiset.card_eq_zero.1 (by omega)
  rw [hp0, Multiset.map_zero, zero_add] at e1
  rw [hi] at hb
  exact hA b (e1 ▸ Multiset.mem_of_mem_filter hb)

end

namespace TreeExample

/-- Distances in a tree: the point 1 is joined to 0 by an edge of weight 2, the point 2 to 0 (weight 3), the point 3 to 1 (weight 1), the point 4 to 1 (weight 4). -/
def branches : List (List ℕ) := [[0, 2, 3, 3, 6], [2, 0, 5, 1, 4], [3, 5, 0, 6, 9], [3, 1, 6, 0, 5], [6, 4, 9, 5, 0]]
/-- The tree without the point 3. -/
def cut : List (List ℕ) := [[0, 2, 3, 6], [2, 0, 5, 4], [3, 5, 0, 9], [6, 4, 9, 0]]
def entry (m : List (List ℕ)) (i j : ℕ) : ℕ := (m.getD i []).getD j 0
def parent (i : ℕ) : ℕ := [0, 0, 0, 1, 1].getD i 0
def weight (i : ℕ) : ℕ := [0, 2, 3, 1, 4].getD i 0
/-- The places of the points that are left. -/
def place (i : ℕ) : ℕ := [0, 1, 2, 4].getD i 0

/-- The hypotheses of C97 for trees. -/
example : IsDistanceMatrix branches (entry branches) ∧
    (∀ i < branches.length, 1 ≤ i → parent i < i ∧ 0 ≤ weight i ∧ ∀ a < i, entry branches i a = weight i + entry branches (parent i) a) ∧
    ∀ i < branches.length, ∀ j < branches.length, ∀ k < branches.length, ∀ l < branches.length,
      entry branches i j + entry branches k l ≤ max (entry branches i k + entry branches j l) (entry branches i l + entry branches j k) :=
  ⟨⟨by decide, by decide, by decide, by decide⟩, by decide, by decide +kernel⟩

/-- The hypotheses of C96: the point 3 and its nearest neighbour 1. -/
example : IsDistanceMatrix cut (entry cut) ∧ (∀ a < branches.length, a ≠ 3 → entry branches 3 1 ≤ entry branches 3 a ∧ entry branches 1 a ≤ entry branches 3 a) ∧
    (∀ i < cut.length, place i < branches.length ∧ place i ≠ 3) ∧ (∀ i < cut.length, ∀ j < cut.length, place i = place j → i = j) ∧
    (∀ a < branches.length, a ≠ 3 → ∃ i < cut.length, place i = a) ∧ ∀ i < cut.length, ∀ j < cut.length, entry cut i j = entry branches (place i) (place j) :=
  ⟨⟨by decide, by decide, by decide, by decide⟩, by decide, by decide, by decide, by decide, by decide⟩

/-- The same distances with errors of up to a half: the hypotheses of C97 for nearly tree-like distances. -/
def noisy (i j : ℕ) : ℚ := if i = j then 0 else entry branches i j + if (i + j) % 2 = 1 then 1 / 2 else 0
example : IsDistanceMatrix ((List.range 5).map fun i => (List.range 5).map (noisy i)) noisy ∧ (∀ i < 5, ∀ j < 5, |noisy i j - entry branches i j| ≤ 1 / 2) ∧
    ∀ i < 5, ∀ j < 5, ∀ k < 5, ∀ l < 5,
      (entry branches i j + entry branches k l : ℚ) ≤ max (entry branches i k + entry branches j l : ℚ) (entry branches i l + entry branches j k) :=
  ⟨⟨by decide +kernel, by decide +kernel, by decide +kernel, by decide +kernel⟩, by decide +kernel, by decide +kernel⟩

/-- An ultrametric. -/
example : ∀ i < 3, ∀ j < 3, ∀ k < 3, entry [[0, 1, 2], [1, 0, 2], [2, 2, 0]] i k ≤ max (entry [[0, 1, 2], [1, 0, 2], [2, 2, 0]] i j) (entry [[0, 1, 2], [1, 0, 2], [2, 2, 0]] j k) := by decide

/-- The run in the model prints the weights of the edges, and nothing in dimension 1. -/
example : letI := listHeap
    (ripsMain Z2 (fun b e => decide (b < e)) RipsExample.enumE RipsExample.enumP branches none 20).map (fun r => (r.essential.map fun x => (x.1, x.2.2), r.pairings.map fun x => (x.1, x.2.2))) =
      some ([(0, 0)], [(0, 0, 4), (0, 0, 1), (0, 0, 3), (0, 0, 2)]) := by decide +kernel

end TreeExample
end Phlite
