/-
Property theorems C53, C54: Rips barcodes do not depend on the order of the points, follow monotone changes of scale, and are stable.
-/
import Verif.Theory.RipsInvariance
import Verif.Props.RipsShape
import Mathlib.Algebra.Order.Group.Abs

set_option linter.unusedSectionVars false
set_option linter.unusedSimpArgs false

namespace Phlite
open OrderDual (toDual ofDual)

section
variable {F : Type} [LinearOrder F] [Zero F] {distances distances' : List (List F)} {d d' : ℕ → ℕ → F}

/-- C53: the intervals of a run are the barcode of the Vietoris-Rips filtration (and there is a run). -/
theorem C53_intervals (K : Type) [Field K] (H : StdHeap) {CF : Type} [NonZeroCoeff CF] [LawfulCoeff CF K] (hD : IsDistanceMatrix distances d) {max_dim : ℕ}
    (h1 : 1 ≤ max_dim ∨ distances.length ≤ 1) {p : ℕ} (hp : p ≤ max_dim) :
    (∃ enough, ∀ fuel ≥ enough, (ripsIntervals H CF distances max_dim fuel p).isSome) ∧
    ∀ fuel bars, ripsIntervals H CF distances max_dim fuel p = some bars → IsRipsBarcode K distances.length d p bars := by
  constructor
  · obtain ⟨D, B, hb, rc, dgm, ⟨enough, hrun⟩, -⟩ := C33_rips_cohomology (CF := CF) (K := K) hD h1
    refine ⟨enough, fun fuel hf => ?_⟩
    unfold ripsIntervals
    rw [hb, Option.bind_some]
    dsimp only
    rw [hrun fuel hf]; rfl
  · intro fuel bars h
    unfold ripsIntervals at h
    obtain ⟨⟨D, B⟩, hb, h⟩ := Option.bind_eq_some_iff.1 h
    obtain ⟨⟨rc, dgm⟩, hrun, rfl⟩ := Option.map_eq_some_iff.1 h
    obtain ⟨hfilt, hbetti, -⟩ := rips_run_betti (K := K) hD h1 hb hrun
    refine ⟨diagramBarsRev_nonempty _ _ _ _, fun s t hst => ?_⟩
    rw [aliveBars_diagramBarsRev _ _ _ _ hst]
    have hff : (fun c => (D.filt c).getD 0) = ripsF distances := by rw [hfilt]; rfl
    dsimp only
    rw [hff]
    exact (hbetti p hp s t hst).symm

/-- C53: the order of the points is immaterial. Runs on two distance matrices that differ by a permutation of the points give the same
intervals in each dimension, whatever the maximum dimensions, the coefficient types for the field `K` and the tie-breaking of the heaps. -/
theorem C53_permute (K : Type) [Field K] (H H' : StdHeap) {CF CF' : Type} [NonZeroCoeff CF] [LawfulCoeff CF K] [NonZeroCoeff CF'] [LawfulCoeff CF' K]
    (hD : IsDistanceMatrix distances d) (hD' : IsDistanceMatrix distances' d') (hn : distances'.length = distances.length)
    (π : Equiv.Perm ℕ) (hπ : ∀ i, i < distances.length ↔ π i < distances.length)
    (hd : ∀ i < distances.length, ∀ j < distances.length, d' i j = d (π i) (π j)) {max_dim max_dim' : ℕ}
    (h1 : 1 ≤ max_dim ∨ distances.length ≤ 1) (h1' : 1 ≤ max_dim' ∨ distances'.length ≤ 1) {p : ℕ} (hp : p ≤ max_dim) (hp' : p ≤ max_dim')
    {fuel fuel' : ℕ} {bars bars' : Multiset (F × WithTop F)} (h : ripsIntervals H CF distances max_dim fuel p = some bars)
    (h' : ripsIntervals H' CF' distances' max_dim' fuel' p = some bars') : bars' = bars := by
  have a := (C53_intervals K H hD h1 hp).2 fuel bars h
  have a' := (C53_intervals K H' hD' h1' hp').2 fuel' bars' h'
  rw [hn] at a'
  exact IsBarcode.unique a' (a.permute π hπ hd)

open Classical in
/-- C53: transforming all distances by a monotone function with `φ 0 = 0` (a change of units, rounding, ...) transforms the end points of the
intervals by that function; intervals that become empty disappear. -/
theorem C53_rescale {G : Type} [LinearOrder G] [Zero G] (K : Type) [Field K] (H H' : StdHeap) {CF CF' : Type} [NonZeroCoeff CF] [LawfulCoeff CF K]
    [NonZeroCoeff CF'] [LawfulCoeff CF' K] (hD : IsDistanceMatrix distances d) {φ : F → G} (hφ : Monotone φ) (h0 : φ 0 = 0) {max_dim : ℕ}
    (h1 : 1 ≤ max_dim ∨ distances.length ≤ 1) {p : ℕ} (hp : p ≤ max_dim)
    {fuel fuel' : ℕ} {bars : Multiset (F × WithTop F)} {bars' : Multiset (G × WithTop G)} (h : ripsIntervals H CF distances max_dim fuel p = some bars)
    (h' : ripsIntervals H' CF' (distances.map fun row => row.map φ) max_dim fuel' p = some bars') :
    bars' = (bars.map fun b => (φ b.1, b.2.map φ)).filter fun b => (b.1 : WithTop G) < b.2 := by
  have hD' : IsDistanceMatrix (distances.map fun row => row.map φ) (fun i j => φ (d i j)) := by
    constructor <;> simp only [List.length_map]
    · intro i hi j hj
      have := hD.entry i hi j hj
      rw [List.getElem?_map]
      obtain ⟨row, h2, h3⟩ := Option.bind_eq_some_iff.1 this
      rw [h2, Option.map_some, Option.bind_some, List.getElem?_map, h3]; rfl
    · intro i hi j hj
      rw [hD.symm i hi j hj]
    · intro i hi
      rw [hD.diag i hi, h0]
    · intro i hi j hj
      rw [← h0]
      exact hφ (hD.nonneg i hi j hj)
  have a := (C53_intervals K H hD h1 hp).2 fuel bars h
  have a' := (C53_intervals K H' hD' (by simpa using h1) hp).2 fuel' bars' h'
  rw [List.length_map] at a'
  exact IsBarcode.unique a' (a.rescale hφ fun _ _ _ _ => rfl)

/-- C53: in dimension 0 the intervals do not depend on the field. -/
theorem C53_field_zero (K K' : Type) [Field K] [Field K'] (H H' : StdHeap) {CF CF' : Type} [NonZeroCoeff CF] [LawfulCoeff CF K]
    [NonZeroCoeff CF'] [LawfulCoeff CF' K'] (hD : IsDistanceMatrix distances d) {max_dim max_dim' : ℕ}
    (h1 : 1 ≤ max_dim ∨ distances.length ≤ 1) (h1' : 1 ≤ max_dim' ∨ distances.length ≤ 1)
    {fuel fuel' : ℕ} {bars bars' : Multiset (F × WithTop F)} (h : ripsIntervals H CF distances max_dim fuel 0 = some bars)
    (h' : ripsIntervals H' CF' distances max_dim' fuel' 0 = some bars') : bars' = bars := by
  have a := (C53_intervals K H hD h1 (Nat.zero_le _)).2 fuel bars h
  have a' := (C53_intervals K' H' hD h1' (Nat.zero_le _)).2 fuel' bars' h'
  refine barcode_unique a'.1 a.1 fun s t hst => ?_
  rw [a.2 s t hst, a'.2 s t hst]
  dsimp only
  by_cases hs : 0 ≤ s
  · have e := rips_components (K := K) (n := distances.length) hD.diag hD.symm hs hst
    have e' := rips_components (K := K') (n := distances.length) hD.diag hD.symm hs hst
    exact e'.trans e.symm
  · have hemp : vietorisRips distances.length d 0 s = ∅ := by
      rw [Set.eq_empty_iff_forall_notMem]
      rintro σ ⟨b1, b2, b3⟩
      obtain ⟨a, ha⟩ := Finset.card_pos.1 (by omega : 0 < σ.card)
      have := b3 a ha a ha
      rw [hD.diag a (by simpa using b1 ha)] at this
      exact hs this
    rw [betti_empty _ _ hemp, betti_empty _ _ hemp]

end

/-! ### C54 -/
section
variable {F : Type} [AddCommGroup F] [LinearOrder F] [IsOrderedAddMonoid F] {distances distances' : List (List F)} {d d' : ℕ → ℕ → F}

/-- C54: stability. If the entries of two distance matrices differ by at most `ε`, then every interval of the one that contains `[s - ε, t + ε]`
is matched by an interval of the other that contains `[s, t]`, in number. -/
theorem C54_stability (K : Type) [Field K] (H H' : StdHeap) {CF CF' : Type} [NonZeroCoeff CF] [LawfulCoeff CF K] [NonZeroCoeff CF'] [LawfulCoeff CF' K]
    (hD : IsDistanceMatrix distances d) (hD' : IsDistanceMatrix distances' d') (hn : distances'.length = distances.length) {ε : F} 
    (hd : ∀ i < distances.length, ∀ j < distances.length, |d i j - d' i j| ≤ ε) (hε : 0 ≤ ε) {max_dim max_dim' : ℕ}
    (h1 : 1 ≤ max_dim ∨ distances.length ≤ 1) (h1' : 1 ≤ max_dim' ∨ distances'.length ≤ 1) {p : ℕ} (hp : p ≤ max_dim) (hp' : p ≤ max_dim')
    {fuel fuel' : ℕ} {bars bars' : Multiset (F × WithTop F)} (h : ripsIntervals H CF distances max_dim fuel p = some bars)
    (h' : ripsIntervals H' CF' distances' max_dim' fuel' p = some bars') {s t : F} (hst : s ≤ t) :
    aliveBars bars' (s - ε) (t + ε) ≤ aliveBars bars s t := by
  have a := (C53_intervals K H hD h1 hp).2 fuel bars h
  have a' := (C53_intervals K H' hD' h1' hp').2 fuel' bars' h'
  rw [hn] at a'
  refine a.stable a' (sub_le_self s hε) hst (le_add_of_nonneg_right hε) ?_ ?_
  · intro i hi j hj hle
    have := (abs_le.1 (hd i hi j hj)).2
    rw [sub_le_iff_le_add] at this
    exact this.trans (by rw [add_comm]; exact le_sub_iff_add_le.1 hle)
  · intro i hi j hj hle
    have := (abs_le.1 (hd i hi j hj)).1
    rw [neg_le_sub_iff_le_add] at this
    exact this.trans (by gcongr)

end

namespace RipsExample

/-- The square with its points in another order (points 1 and 2 exchanged). -/
def dist' : List (List ℕ) := [[0, 2, 1, 1], [2, 0, 1, 1], [1, 1, 0, 2], [1, 1, 2, 0]]
def d' (i j : ℕ) : ℕ := ((dist'.getD i []).getD j 0)

theorem isDist' : IsDistanceMatrix dist' d' := by
  constructor <;> decide

/-- The hypotheses of C53_permute, and the common value. -/
example : (∀ i, i < dist.length ↔ Equiv.swap 1 2 i < dist.length) ∧
    (∀ i < dist.length, ∀ j < dist.length, d' i j = d (Equiv.swap 1 2 i) (Equiv.swap 1 2 j)) ∧
    ripsIntervals listHeap (ZP 3) dist 1 20 1 = some {(1, ((2 : ℕ) : WithTop ℕ))} ∧ ripsIntervals listHeap Z2 dist' 2 20 1 = some {(1, ((2 : ℕ) : WithTop ℕ))} := by
  refine ⟨?_, by decide, by decide +kernel, by decide +kernel⟩
  intro i
  show i < 4 ↔ _ < 4
  rw [Equiv.swap_apply_def]
  split
  · omega
  · split <;> omega

/-- The hypotheses of C53_rescale: distances rounded down to multiples of 2; the loop from 1 to 2 becomes a loop from 0 to 2. Components that
died at 1 disappear. -/
example : (Monotone fun x : ℕ => x / 2 * 2) ∧ (0 : ℕ) / 2 * 2 = 0 ∧
    ripsIntervals listHeap Z2 dist 1 20 0 = some {(0, ⊤), (0, ((1 : ℕ) : WithTop ℕ)), (0, ((1 : ℕ) : WithTop ℕ)), (0, ((1 : ℕ) : WithTop ℕ))} ∧
    ripsIntervals listHeap Z2 (dist.map fun row => row.map fun x => x / 2 * 2) 1 20 0 = some {(0, ⊤)} ∧
    ripsIntervals listHeap Z2 (dist.map fun row => row.map fun x => x / 2 * 2) 1 20 1 = some {(0, ((2 : ℕ) : WithTop ℕ))} := by
  refine ⟨fun a b h => ?_, rfl, by decide +kernel, by decide +kernel, by decide +kernel⟩
  exact Nat.mul_le_mul_right _ (Nat.div_le_div_right h)

/-- The hypotheses of C54: the square and a perturbed square, which has a shorter loop. -/
def distZ : List (List ℤ) := [[0, 10, 20, 10], [10, 0, 10, 20], [20, 10, 0, 10], [10, 20, 10, 0]]
def distZ' : List (List ℤ) := [[0, 11, 19, 10], [11, 0, 9, 20], [19, 9, 0, 10], [10, 20, 10, 0]]
def dZ (i j : ℕ) : ℤ := ((distZ.getD i []).getD j 0)
def dZ' (i j : ℕ) : ℤ := ((distZ'.getD i []).getD j 0)

example : IsDistanceMatrix distZ dZ ∧ IsDistanceMatrix distZ' dZ' ∧ (∀ i < distZ.length, ∀ j < distZ.length, |dZ i j - dZ' i j| ≤ 1) ∧
    ripsIntervals listHeap Z2 distZ 1 20 1 = some {(10, ((20 : ℤ) : WithTop ℤ))} ∧
    ripsIntervals listHeap Z2 distZ' 1 20 1 = some {(11, ((19 : ℤ) : WithTop ℤ))} := by
  refine ⟨?_, ?_, by decide +kernel, by decide +kernel, by decide +kernel⟩ <;> constructor <;> decide +kernel

end RipsExample
end Phlite
