/-
Property theorems C88: repeated points do not matter for Rips barcodes; stability for point sets of different sizes (Gromov-Hausdorff), subsamples.
-/
import Verif.Theory.Twin
import Verif.Theory.RipsBottleneck
import Verif.Props.RipsInvariance

set_option linter.unusedSectionVars false
set_option linter.unusedSimpArgs false

namespace Phlite

/-- C88: repeated points do not matter. If the points of the second matrix are those of the first one, listed in any order and with any repetitions (`f i` is the point of the first
matrix at place `i` of the second), then runs on the two matrices give the same intervals in each dimension. -/
theorem C88_repeated {F : Type} [LinearOrder F] [Zero F] {distances distances' : List (List F)} {d d' : ℕ → ℕ → F}
    (K : Type) [Field K] (H H' : StdHeap) {CF CF' : Type} [NonZeroCoeff CF] [LawfulCoeff CF K] [NonZeroCoeff CF'] [LawfulCoeff CF' K]
    (hD : IsDistanceMatrix distances d) (hD' : IsDistanceMatrix distances' d') (f : ℕ → ℕ) (hf : ∀ i < distances'.length, f i < distances.length)
    (hall : ∀ j < distances.length, ∃ i < distances'.length, f i = j)
    (hd : ∀ i < distances'.length, ∀ j < distances'.length, d' i j = d (f i) (f j)) {max_dim max_dim' : ℕ}
    (h1 : 1 ≤ max_dim ∨ distances.length ≤ 1) (h1' : 1 ≤ max_dim' ∨ distances'.length ≤ 1) {p : ℕ} (hp : p ≤ max_dim) (hp' : p ≤ max_dim')
    {fuel fuel' : ℕ} {bars bars' : Multiset (F × WithTop F)} (h : ripsIntervals H CF distances max_dim fuel p = some bars)
    (h' : ripsIntervals H' CF' distances' max_dim' fuel' p = some bars') : bars' = bars :=
  IsBarcode.unique ((C53_intervals K H' hD' h1' hp').2 fuel' bars' h') (((C53_intervals K H hD h1 hp).2 fuel bars h).pullback f hf hall hd)

section
variable {F : Type} [Field F] [LinearOrder F] [IsStrictOrderedRing F]

/-- Correspondences of barcodes. -/
theorem IsRipsBarcode.correspondence {K : Type} [Field K] {n n' : ℕ} {d d' : ℕ → ℕ → F} {p : ℕ} {bars bars' : Multiset (F × WithTop F)} (h : IsRipsBarcode K n d p bars)
    (h' : IsRipsBarcode K n' d' p bars') {R : ℕ → ℕ → Prop} (hl : ∀ i < n, ∃ j < n', R i j) (hr : ∀ j < n', ∃ i < n, R i j) {ε : F} (hε : 0 ≤ ε)
    (hR : ∀ i < n, ∀ j < n', R i j → ∀ k < n, ∀ l < n', R k l → |d i k - d' j l| ≤ ε) : BottleneckLE ε bars bars' := by
  classical
  -- the list of all pairs of the correspondence
  let L : List (ℕ × ℕ) := ((Finset.range n ×ˢ Finset.range n').filter fun q => R q.1 q.2).toList
  have hL : ∀ q, q ∈ L ↔ (q.1 < n ∧ q.2 < n') ∧ R q.1 q.2 := by
    intro q
    rw [Finset.mem_toList, Finset.mem_filter, Finset.mem_product, Finset.mem_range, Finset.mem_range]
  have hget : ∀ i < L.length, L.getD i (0, 0) ∈ L := by
    intro i hi
    rw [List.getD_eq_getElem?_getD, List.getElem?_eq_getElem hi, Option.getD_some]
    exact List.getElem_mem hi
  have hidx : ∀ q ∈ L, ∃ i < L.length, L.getD i (0, 0) = q := by
    intro q hq
    obtain ⟨i, hi, e⟩ := List.getElem_of_mem hq
    exact ⟨i, hi, by rw [List.getD_eq_getElem?_getD, List.getElem?_eq_getElem hi, Option.getD_some, e]⟩
  have a := h.pullback (m := L.length) (d' := fun i j => d (L.getD i (0, 0)).1 (L.getD j (0, 0)).1) (fun i => (L.getD i (0, 0)).1)
    (fun i hi => ((hL _).1 (hget i hi)).1.1)
    (fun i hi => by
      obtain ⟨j, hj, hij⟩ := hl i hi
      obtain ⟨k, hk, e⟩ := hidx (i, j) ((hL _).2 ⟨⟨hi, hj⟩, hij⟩)
      exact ⟨k, hk, by rw [e]⟩) (fun _ _ _ _ => rfl)
  have a' := h'.pullback (m := L.length) (d' := fun i j => d' (L.getD i (0, 0)).2 (L.getD j (0, 0)).2) (fun i => (L.getD i (0, 0)).2)
    (fun i hi => ((hL _).1 (hget i hi)).1.2)
    (fun j hj => by
      obtain ⟨i, hi, hij⟩ := hr j hj
      obtain ⟨k, hk, e⟩ := hidx (i, j) ((hL _).2 ⟨⟨hi, hj⟩, hij⟩)
      exact ⟨k, hk, by rw [e]⟩) (fun _ _ _ _ => rfl)
  refine a.bottleneck a' hε fun i hi j hj => ?_
  have h1 := (hL _).1 (hget i hi)
  have h2 := (hL _).1 (hget j hj)
  exact hR _ h1.1.1 _ h1.1.2 h1.2 _ h2.1.1 _ h2.1.2 h2.2

/-- C88: stability for point sets of any two sizes. `R` relates every point of either matrix to at least one point of the other one, and distances of related pairs differ by at most `ε`
(so the Gromov-Hausdorff distance is at most `ε / 2`). Then the bottleneck distance of the intervals is at most `ε` in each dimension. -/
theorem C88_correspondence (K : Type) [Field K] (H H' : StdHeap) {CF CF' : Type} [NonZeroCoeff CF] [LawfulCoeff CF K] [NonZeroCoeff CF'] [LawfulCoeff CF' K]
    {distances distances' : List (List F)} {d d' : ℕ → ℕ → F} (hD : IsDistanceMatrix distances d) (hD' : IsDistanceMatrix distances' d') {R : ℕ → ℕ → Prop}
    (hl : ∀ i < distances.length, ∃ j < distances'.length, R i j) (hr : ∀ j < distances'.length, ∃ i < distances.length, R i j) {ε : F} (hε : 0 ≤ ε)
    (hR : ∀ i < distances.length, ∀ j < distances'.length, R i j → ∀ k < distances.length, ∀ l < distances'.length, R k l → |d i k - d' j l| ≤ ε) {max_dim max_dim' : ℕ}
    (h1 : 1 ≤ max_dim ∨ distances.length ≤ 1) (h1' : 1 ≤ max_dim' ∨ distances'.length ≤ 1) {p : ℕ} (hp : p ≤ max_dim) (hp' : p ≤ max_dim')
    {fuel fuel' : ℕ} {bars bars' : Multiset (F × WithTop F)} (h : ripsIntervals H CF distances max_dim fuel p = some bars)
    (h' : ripsIntervals H' CF' distances' max_dim' fuel' p = some bars') : BottleneckLE ε bars bars' :=
  ((C53_intervals K H hD h1 hp).2 fuel bars h).correspondence ((C53_intervals K H' hD' h1' hp').2 fuel' bars' h') hl hr hε hR

/-- C88: subsamples. If `d` satisfies the triangle inequality, the second matrix is that of some of the points (`f i` is the point at place `i`), and every point is at distance at most `r`
from one of these, then the bottleneck distance of the intervals is at most `2 * r` in each dimension. -/
theorem C88_subsample (K : Type) [Field K] (H H' : StdHeap) {CF CF' : Type} [NonZeroCoeff CF] [LawfulCoeff CF K] [NonZeroCoeff CF'] [LawfulCoeff CF' K]
    {distances distances' : List (List F)} {d d' : ℕ → ℕ → F} (hD : IsDistanceMatrix distances d) (hD' : IsDistanceMatrix distances' d')
    (htri : ∀ i < distances.length, ∀ j < distances.length, ∀ k < distances.length, d i k ≤ d i j + d j k) (f : ℕ → ℕ)
    (hf : ∀ i < distances'.length, f i < distances.length) (hd : ∀ i < distances'.length, ∀ j < distances'.length, d' i j = d (f i) (f j)) {r : F} (hr0 : 0 ≤ r)
    (hr : ∀ j < distances.length, ∃ i < distances'.length, d j (f i) ≤ r) {max_dim max_dim' : ℕ}
    (h1 : 1 ≤ max_dim ∨ distances.length ≤ 1) (h1' : 1 ≤ max_dim' ∨ distances'.length ≤ 1) {p : ℕ} (hp : p ≤ max_dim) (hp' : p ≤ max_dim')
    {fuel fuel' : ℕ} {bars bars' : Multiset (F × WithTop F)} (h : ripsIntervals H CF distances max_dim fuel p = some bars)
    (h' : ripsIntervals H' CF' distances' max_dim' fuel' p = some bars') : BottleneckLE (2 * r) bars bars' := by
  refine C88_correspondence K H H' hD hD' (R := fun j i => d j (f i) ≤ r) hr (fun i hi => ⟨f i, hf i hi, ?_⟩) (by linarith) (fun i hi j hj hij k hk l hl hkl => ?_) h1 h1' hp hp' h h'
  · rw [hD.diag _ (hf i hi)]; exact hr0
  · have hfj := hf j hj
    have hfl := hf l hl
    rw [hd j hj l hl, abs_le]
    have e1 := htri i hi (f j) hfj k hk
    have e2 := htri (f j) hfj (f l) hfl k hk
    have e3 := htri (f j) hfj i hi (f l) hfl
    have e4 := htri i hi k hk (f l) hfl
    have e5 := hD.symm k hk (f l) hfl
    have e6 := hD.symm i hi (f j) hfj
    constructor <;> linarith

end

namespace RipsExample

/-- A square, and the same square with the first corner listed once more at the end. -/
def squareTwice : List (List ℕ) := [[0, 1, 2, 1, 0], [1, 0, 1, 2, 1], [2, 1, 0, 1, 2], [1, 2, 1, 0, 1], [0, 1, 2, 1, 0]]
def squareTwiceD (i j : ℕ) : ℕ := ((squareTwice.getD i []).getD j 0)

/-- The hypotheses of C88_repeated, and its conclusion in dimension 1. -/
example : IsDistanceMatrix squareTwice squareTwiceD ∧ (∀ i < squareTwice.length, i % 4 < dist.length) ∧ (∀ j < dist.length, ∃ i < squareTwice.length, i % 4 = j) ∧
    (∀ i < squareTwice.length, ∀ j < squareTwice.length, squareTwiceD i j = d (i % 4) (j % 4)) ∧
    ripsIntervals listHeap Z2 squareTwice 1 30 1 = ripsIntervals listHeap Z2 dist 1 30 1 ∧
    ripsIntervals listHeap Z2 dist 1 30 1 = some {(1, ((2 : ℕ) : WithTop ℕ))} := by
  refine ⟨?_, by decide, by decide, by decide, by decide +kernel, by decide +kernel⟩
  constructor <;> decide

/-- Five points of a circle of length 40, at 0, 10, 20, 30, and 31, and the first four. -/
def fiveQ : List (List ℚ) := [[0, 10, 20, 10, 9], [10, 0, 10, 20, 19], [20, 10, 0, 10, 11], [10, 20, 10, 0, 1], [9, 19, 11, 1, 0]]
def fourQ : List (List ℚ) := [[0, 10, 20, 10], [10, 0, 10, 20], [20, 10, 0, 10], [10, 20, 10, 0]]
def fiveD (i j : ℕ) : ℚ := ((fiveQ.getD i []).getD j 0)
def fourD (i j : ℕ) : ℚ := ((fourQ.getD i []).getD j 0)

/-- The hypotheses of C88_subsample with radius 1, and the intervals in dimension 1: within 2 of one another. -/
example : IsDistanceMatrix fiveQ fiveD ∧ IsDistanceMatrix fourQ fourD ∧
    (∀ i < fiveQ.length, ∀ j < fiveQ.length, ∀ k < fiveQ.length, fiveD i k ≤ fiveD i j + fiveD j k) ∧ (∀ j < fiveQ.length, ∃ i < fourQ.length, fiveD j i ≤ 1) ∧
    (∀ i < fourQ.length, ∀ j < fourQ.length, fourD i j = fiveD i j) ∧
    ripsIntervals listHeap Z2 fiveQ 1 30 1 = some {(10, ((19 : ℚ) : WithTop ℚ))} ∧
    ripsIntervals listHeap Z2 fourQ 1 30 1 = some {(10, ((20 : ℚ) : WithTop ℚ))} := by
  refine ⟨?_, ?_, by decide +kernel, by decide +kernel, by decide +kernel, by decide +kernel, by decide +kernel⟩ <;> constructor <;> decide +kernel

end RipsExample
end Phlite
