/-
C101: few points have no intervals in high dimensions.
-/
import Verif.Theory.Cross
import Verif.Props.RipsRemove

set_option linter.unusedSectionVars false
set_option linter.unusedSimpArgs false

namespace Phlite

section
variable {F : Type} [LinearOrder F] [Zero F] {distances : List (List F)} {d : ℕ → ℕ → F}

/-- C101: a run on fewer than `2 * p + 2` points gives no intervals in the dimension `p ≥ 1`, whatever the distances. -/
theorem C101_few (K : Type) [Field K] (H : StdHeap) {CF : Type} [NonZeroCoeff CF] [LawfulCoeff CF K] (hD : IsDistanceMatrix distances d) {max_dim p : ℕ}
    (hp1 : 1 ≤ p) (hp : p ≤ max_dim) (hn : distances.length < 2 * p + 2) :
    (∃ enough, ∀ fuel ≥ enough, ripsIntervals H CF distances max_dim fuel p = some 0) ∧
    ∀ fuel bars, ripsIntervals H CF distances max_dim fuel p = some bars → bars = 0 := by
  obtain ⟨⟨enough, h1⟩, h2⟩ := C53_intervals K H (CF := CF) hD (Or.inl (hp1.trans hp)) hp
  have h3 : ∀ fuel bars, ripsIntervals H CF distances max_dim fuel p = some bars → bars = 0 := fun fuel bars h => IsBarcode.unique (h2 fuel bars h) (IsRipsBarcode.few hp1 hn)
  refine ⟨⟨enough, fun fuel hf => ?_⟩, h3⟩
  obtain ⟨bars, hb⟩ := Option.isSome_iff_exists.1 (h1 fuel hf)
  rw [hb, h3 fuel bars hb]

/-- C101: so an interval of dimension `p ≥ 1` needs at least `2 * p + 2` points. -/
theorem C101_needs (K : Type) [Field K] (H : StdHeap) {CF : Type} [NonZeroCoeff CF] [LawfulCoeff CF K] (hD : IsDistanceMatrix distances d) {max_dim p : ℕ}
    (hp1 : 1 ≤ p) (hp : p ≤ max_dim) {fuel : ℕ} {bars : Multiset (F × WithTop F)} (h : ripsIntervals H CF distances max_dim fuel p = some bars) {b : F × WithTop F} (hb : b ∈ bars) :
    2 * p + 2 ≤ distances.length := by
  by_contra hn
  rw [(C101_few K H hD hp1 hp (by omega)).2 fuel bars h] at hb
  exact Multiset.notMem_zero b hb

/-- C101: the program prints nothing in the dimensions `p ≥ 1` with `distances.length < 2 * p + 2`. -/
theorem C101_report [StdHeap] (CF K : Type) [Field K] [NonZeroCoeff CF] [LawfulCoeff CF K] (hD : IsDistanceMatrix distances d) (arg : Option ℕ)
    (h1 : 1 ≤ arg.getD 1 ∨ distances.length ≤ 1)
    {long : F → F → Bool} (hlong : ∀ b e, long b e = true → b < e) {enumE : Finset RipsIndexᵒᵈ → List RipsIndexᵒᵈ} (hE : Enumerates enumE)
    {enumP : Finset (RipsIndexᵒᵈ × RipsIndexᵒᵈ) → List (RipsIndexᵒᵈ × RipsIndexᵒᵈ)} (hP : Enumerates enumP) :
    ∃ report, (∃ enough, ∀ fuel ≥ enough, ripsMain CF long enumE enumP distances arg fuel = some report) ∧
      ∀ p ≤ arg.getD 1, 1 ≤ p → distances.length < 2 * p + 2 → report.intervals p = 0 := by
  classical
  obtain ⟨report, hrun, -, hint, -⟩ := C52_rips_report CF K hD arg h1 hlong hE hP
  refine ⟨report, hrun, fun p hp hp1 hn => ?_⟩
  obtain ⟨bars, hb, hi⟩ := hint p hp
  rw [hi, IsBarcode.unique ((hb bars).2 rfl) (IsRipsBarcode.few (K := K) hp1 hn)]
  rfl

end

/-- C101: the bound is sharp in all dimensions: any run on the `2 * p + 2` points in opposite pairs, with the distance 2 between opposite points and 1 between others, gives the one
interval `[1, 2)` in dimension `p`. -/
theorem C101_sharp (K : Type) [Field K] (H : StdHeap) {CF : Type} [NonZeroCoeff CF] [LawfulCoeff CF K] {distances : List (List ℕ)} {p max_dim : ℕ}
    (hlen : distances.length = 2 * p + 2)
    (hd : ∀ i < distances.length, ∀ j < distances.length, (distances[i]?.bind fun row => row[j]?) = some (if i = j then 0 else if i / 2 = j / 2 then 2 else 1))
    (hp1 : 1 ≤ p) (hp : p ≤ max_dim) :
    (∃ enough, ∀ fuel ≥ enough, ripsIntervals H CF distances max_dim fuel p = some {(1, 2)}) ∧
    ∀ fuel bars, ripsIntervals H CF distances max_dim fuel p = some bars → bars = {(1, 2)} := by
  have hD : IsDistanceMatrix distances crossDist := ⟨hd, fun i _ j _ => by unfold crossDist; simp only [eq_comm], fun i _ => if_pos rfl, fun _ _ _ _ => Nat.zero_le _⟩
  obtain ⟨⟨enough, h1⟩, h2⟩ := C53_intervals K H (CF := CF) hD (Or.inl (hp1.trans hp)) hp
  have h3 : ∀ fuel bars, ripsIntervals H CF distances max_dim fuel p = some bars → bars = {(1, 2)} := fun fuel bars h => by
    have := h2 fuel bars h
    rw [hlen] at this
    exact IsBarcode.unique this (IsRipsBarcode.cross hp1)
  refine ⟨⟨enough, fun fuel hf => ?_⟩, h3⟩
  obtain ⟨bars, hb⟩ := Option.isSome_iff_exists.1 (h1 fuel hf)
  rw [hb, h3 fuel bars hb]

namespace FewExample

/-- Six points in three opposite pairs: all distances are 1 but those of opposite points, which are 2. -/
def octahedron : List (List ℕ) := (List.range 6).map fun i => (List.range 6).map fun j => if i = j then 0 else if i / 2 = j / 2 then 2 else 1
def entry (i j : ℕ) : ℕ := if i = j then 0 else if i / 2 = j / 2 then 2 else 1

/-- The hypotheses of C101: six points, so nothing in dimension 3. -/
example : IsDistanceMatrix octahedron entry ∧ octahedron.length < 2 * 3 + 2 := ⟨⟨by decide, by decide, by decide, by decide⟩, by decide⟩

/-- The hypotheses of `C101_sharp`. -/
example : octahedron.length = 2 * 2 + 2 ∧ ∀ i < octahedron.length, ∀ j < octahedron.length,
    (octahedron[i]?.bind fun row => row[j]?) = some (if i = j then 0 else if i / 2 = j / 2 then 2 else 1) := ⟨by decide, by decide⟩

/-- Runs in the model: four points have an interval in dimension 1, six points one in dimension 2. -/
example : ripsIntervals listHeap Z2 RipsExample.dist 2 20 1 = some {(1, 2)} ∧ ripsIntervals listHeap Z2 RipsExample.dist 2 20 2 = some 0 := by
  constructor <;> decide +kernel
example : ripsIntervals listHeap Z2 octahedron 2 60 2 = some {(1, 2)} ∧ ripsIntervals listHeap Z2 octahedron 2 60 1 = some 0 := by
  constructor <;> decide +kernel

end FewExample
end Phlite
