/-
Specification: the barcode of the Vietoris-Rips filtration, and the intervals printed in a report.
-/
import Verif.Model.RipsMain
import Verif.Spec.Intervals
import Verif.Spec.Rips

namespace Phlite

section
variable {F : Type} [LinearOrder F] [Zero F]

/-- `bars` is the barcode of degree `p` of the Vietoris-Rips filtration of `d` on `n` points, with coefficients in `K`: for all `s ≤ t` it has
as many intervals containing `s` and `t` as the rank of `H_p(VR_s) → H_p(VR_t)`. -/
def IsRipsBarcode (K : Type) [Field K] (n : ℕ) (d : ℕ → ℕ → F) (p : ℕ) (bars : Multiset (F × WithTop F)) : Prop :=
  IsBarcode (fun _ _ h => persistentBetti (simplexBoundary K) (vietorisRips_mono n d p h) (vietorisRips_mono n d (p + 1) h)) bars

/-- The intervals printed in dimension `p`. -/
def RipsReport.intervals (r : RipsReport F) (p : ℕ) : Multiset (F × WithTop F) :=
  (((r.essential.filter fun x => x.1 = p).map fun x => (x.2.2, ⊤)) ++
    (r.pairings.filter fun x => x.1 = p).map fun x => (x.2.2.1, (x.2.2.2 : WithTop F)) : List (F × WithTop F))

/-- The library as used by the command line program: build the Rips coboundary matrix, reverse it, run clearing in the dimensions `0..=max_dim`,
and read off the intervals of dimension `p` with `dimension` and `filtration_value`. -/
def ripsIntervals (H : StdHeap) (CF : Type) [NonZeroCoeff CF] (distances : List (List F)) (max_dim fuel p : ℕ) : Option (Multiset (F × WithTop F)) :=
  (buildRipsCoboundaryMatrix CF distances max_dim).bind fun d =>
    (buildWithDiagram d.1.reverse.ref d.2.reverse fuel (List.range (max_dim + 1))).map fun r =>
      diagramBarsRev (fun c => (((ripsDimension distances.length c).getD 0 : ℕ) : ℤ)) (fun c => (d.1.filt c).getD 0) r.2 p

/-- The diameter of `σ` is `x`: the greatest distance between its points. -/
def IsDiameter (d : ℕ → ℕ → F) (σ : Finset ℕ) (x : F) : Prop := (∀ a ∈ σ, ∀ b ∈ σ, d a b ≤ x) ∧ ∃ a ∈ σ, ∃ b ∈ σ, d a b = x

end
end Phlite
