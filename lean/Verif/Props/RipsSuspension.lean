/-
C102: two more points, far from each other and near to all others, move the intervals up one dimension.
-/
import Verif.Theory.Suspension
import Verif.Props.RipsFew

set_option linter.unusedSectionVars false
set_option linter.unusedSimpArgs false

namespace Phlite

section
variable {F : Type} [LinearOrder F] [Zero F] {distances distances' : List (List F)} {d d' : ℕ → ℕ → F}

/-- C102: let all distances between different points be between `r` and `L`, and add two points at the distance `r` from these points and `L` from each other. A run on the larger matrix
gives in dimension `p + 1` the intervals that a run on the smaller one gives in dimension `p ≥ 1`. -/
theorem C102_suspension (K : Type) [Field K] (H H' : StdHeap) {CF CF' : Type} [NonZeroCoeff CF] [LawfulCoeff CF K] [NonZeroCoeff CF'] [LawfulCoeff CF' K]
    (hD : IsDistanceMatrix distances d) (hD' : IsDistanceMatrix distances' d') (hn : distances'.length = distances.length + 2) {r L : F} (hr : 0 ≤ r) (hrL : r ≤ L)
    (hbase : ∀ i < distances.length, ∀ j < distances.length, i ≠ j → r ≤ d i j ∧ d i j ≤ L)
    (hd : ∀ i < distances.length, ∀ j < distances.length, d' i j = d i j)
    (hnear : ∀ i < distances.length, d' distances.length i = r ∧ d' (distances.length + 1) i = r) (hfar : d' distances.length (distances.length + 1) = L)
    {max_dim max_dim' p : ℕ} (hp1 : 1 ≤ p) (hp : p ≤ max_dim) (hp' : p + 1 ≤ max_dim') :
    (∃ bars, ∃ enough, ∀ fuel ≥ enough, ripsIntervals H CF distances max_dim fuel p = some bars ∧ ripsIntervals H' CF' distances' max_dim' fuel (p + 1) = some bars) ∧
    ∀ fuel fuel' bars bars', ripsIntervals H CF distances max_dim fuel p = some bars → ripsIntervals H' CF' distances' max_dim' fuel' (p + 1) = some bars' → bars' = bars := by
  have hS : IsSuspension distances.length d' r L := by
    refine ⟨fun i hi => hD'.diag i (by omega), hr, hrL, fun i hi j hj hij => by rw [hd i hi j hj]; exact hbase i hi j hj hij, fun i hi v hv => ?_, hfar, ?_⟩
    · rw [hD'.symm i (by omega) v (by omega)]
      rcases hv with rfl | rfl
      · exact ⟨(hnear i hi).1, (hnear i hi).1⟩
      · exact ⟨(hnear i hi).2, (hnear i hi).2⟩
    · rw [hD'.symm _ (by omega) _ (by omega)]
      exact hfar
  obtain ⟨⟨e, h1⟩, h2⟩ := C53_intervals K H (CF := CF) hD (Or.inl (hp1.trans hp)) hp
  obtain ⟨⟨e', h1'⟩, h2'⟩ := C53_intervals K H' (CF := CF') hD' (Or.inl ((Nat.le_add_left 1 p).trans hp')) hp'
  have key : ∀ fuel fuel' bars bars', ripsIntervals H CF distances max_dim fuel p = some bars → ripsIntervals H' CF' distances' max_dim' fuel' (p + 1) = some bars' → bars' = bars := by
    intro fuel fuel' bars bars' h h'
    have g' := h2' fuel' bars' h'
    rw [hn] at g'
    have g := (h2 fuel bars h).permute (d' := d') (Equiv.refl ℕ) (fun _ => Iff.rfl) hd
    exact IsBarcode.unique g' ((IsRipsBarcode.suspension hS hp1).1 g)
  refine ⟨?_, key⟩
  obtain ⟨bars, hb⟩ := Option.isSome_iff_exists.1 (h1 (max e e') (le_max_left _ _))
  obtain ⟨bars', hb'⟩ := Option.isSome_iff_exists.1 (h1' (max e e') (le_max_right _ _))
  refine ⟨bars, max e e', fun fuel hf => ?_⟩
  obtain ⟨x, hx⟩ := Option.isSome_iff_exists.1 (h1 fuel ((le_max_left _ _).trans hf))
  obtain ⟨x', hx'⟩ := Option.isSome_iff_exists.1 (h1' fuel ((le_max_right _ _).trans hf))
  rw [hx, hx', ← key fuel fuel x x' hx hx', key (max e e') fuel bars x' hb hx']
  exact ⟨rfl, rfl⟩

end

namespace SuspensionExample

/-- A path around five points, and two more points. -/
def five : List (List ℕ) := [[0, 1, 2, 3, 2], [1, 0, 1, 2, 3], [2, 1, 0, 1, 3], [3, 2, 1, 0, 2], [2, 3, 3, 2, 0]]
def seven : List (List ℕ) := [[0, 1, 2, 3, 2, 1, 1], [1, 0, 1, 2, 3, 1, 1], [2, 1, 0, 1, 3, 1, 1], [3, 2, 1, 0, 2, 1, 1], [2, 3, 3, 2, 0, 1, 1], [1, 1, 1, 1, 1, 0, 4], [1, 1, 1, 1, 1, 4, 0]]
def entry (m : List (List ℕ)) (i j : ℕ) : ℕ := (m.getD i []).getD j 0

/-- The hypotheses of C102. -/
example : IsDistanceMatrix five (entry five) ∧ IsDistanceMatrix seven (entry seven) ∧ seven.length = five.length + 2 ∧
    (∀ i < five.length, ∀ j < five.length, i ≠ j → 1 ≤ entry five i j ∧ entry five i j ≤ 4) ∧
    (∀ i < five.length, ∀ j < five.length, entry seven i j = entry five i j) ∧
    (∀ i < five.length, entry seven five.length i = 1 ∧ entry seven (five.length + 1) i = 1) ∧ entry seven five.length (five.length + 1) = 4 :=
  ⟨⟨by decide, by decide, by decide, by decide⟩, ⟨by decide, by decide, by decide, by decide⟩, by decide, by decide, by decide, by decide, by decide⟩

/-- Runs in the model: an interval in dimension 1 of the five points is there in dimension 2 of the seven. -/
example : ripsIntervals listHeap Z2 five 1 60 1 = some {(2, 3)} ∧ ripsIntervals listHeap Z2 seven 2 60 2 = some {(2, 3)} := by
  constructor <;> decide +kernel

end SuspensionExample
end Phlite
