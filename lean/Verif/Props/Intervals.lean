/-
Property theorems C51: the intervals of a diagram are the unique barcode of the persistent homology.
-/
import Verif.Theory.Unique
import Verif.Props.Homology

set_option linter.unusedSectionVars false
set_option linter.unusedSimpArgs false

namespace Phlite
open Finsupp (single linearCombination linearCombination_single)
open OrderDual (toDual ofDual)

/-! ### C51 -/
section
variable {CF T F K : Type} [NonZeroCoeff CF] [Field K] [LawfulCoeff CF K] [LinearOrder F] [LinearOrder T]
variable {D : FOracle CF T T F} {f : T → F} {M N : T → (T →₀ K)} {deg : T → ℤ} {ε : ℤ} [StdHeap]

theorem isBarcode_iff {β : ∀ s t : F, s ≤ t → ℕ} {bars : Multiset (F × WithTop F)} (h : IsBarcode β bars) (bars' : Multiset (F × WithTop F)) :
    IsBarcode β bars' ↔ bars' = bars :=
  ⟨fun h' => h'.unique h, fun e => e ▸ h⟩

/-- C51 for the clearing algorithm: the intervals of degree `p` of the diagram are the one and only barcode of the persistent homology in degree
`p`: the only multiset of non-empty intervals `[b, d)` that has, for all `s ≤ t`, as many intervals containing `s` and `t` as the rank of
`H_p(s) → H_p(t)`. Hence it does not depend on the order of cells with the same filtration value, on the heap, or on the algorithm. -/
theorem C51_clearing {B : SplitBasis T} {dims : List ℕ} {els : ℕ → List T} (hC : SplitComplex K D B f M deg ε dims els)
    {fuel : Nat} {rc : T → Option (RedCol CF T)} {dgm : Diagram T} (h : buildWithDiagram D B fuel dims = some (rc, dgm))
    {p : ℕ} (hp : p ∈ dims) {q : ℤ} (hpq : (p : ℤ) = q + ε) (bars : Multiset (F × WithTop F)) :
    IsBarcode (fun _ _ hst => persistentBetti M (sublevel_mono f (cellsOf deg (dims.flatMap els)) p hst)
        (sublevel_mono f (cellsOf deg (dims.flatMap els)) q hst)) bars ↔ bars = diagramBars deg f dgm p :=
  isBarcode_iff ⟨diagramBars_nonempty _ _ _ _, fun s t hst => by
    rw [aliveBars_diagramBars _ _ _ _ hst]; exact (C25_clearing hC h hp hpq hst).symm⟩ bars

/-- C51 for the standard algorithm. -/
theorem C51_standard {B : Basis T} {all : List T} (hF : FiniteMatrix K D B f M all)
    (hdeg : ∀ c ∈ all, ∀ r, M c r ≠ 0 → deg r = deg c + ε)
    (hsort : ∀ d : ℤ, (all.filter fun x => deg x = d).Pairwise fun a b => rowKey f a < rowKey f b)
    (hfull : ∀ c ∈ all, ∀ r, M c r ≠ 0 → r ∈ all) (hsq : ∀ c ∈ all, linearCombination K M (M c) = 0) (hrows : RowsBefore all M)
    {fuel : Nat → Nat} {v : T → Option (List (CF × T))} {dgm : Diagram T} (h : standardAlgoWithDiagram D B fuel false = some (v, dgm))
    {p q : ℤ} (hpq : p = q + ε) (bars : Multiset (F × WithTop F)) :
    IsBarcode (fun _ _ hst => persistentBetti M (sublevel_mono f (cellsOf deg all) p hst) (sublevel_mono f (cellsOf deg all) q hst)) bars ↔
      bars = diagramBars deg f dgm p :=
  isBarcode_iff ⟨diagramBars_nonempty _ _ _ _, fun s t hst => by
    rw [aliveBars_diagramBars _ _ _ _ hst]; exact (C25_standard hF hdeg hsort hfull hsq hrows h hpq hst).symm⟩ bars

/-- C51 for the clearing algorithm on the reversed coboundary matrix. -/
theorem C51_cohomology {cells : ℤ → List T} (hX : CellComplex K f deg cells M N) {B' : SplitBasis T} {D' : FOracle CF T T F}
    {dims' : List ℕ} (hC' : SplitComplex K D' B' f N deg 1 dims' fun d => cells d)
    {fuel' : Nat} {rc' : Tᵒᵈ → Option (RedCol CF Tᵒᵈ)}
    {dgm' : Diagram Tᵒᵈ} (h' : buildWithDiagram D'.reverse B'.reverse fuel' dims' = some (rc', dgm')) {p : ℕ} (hp : p ∈ dims')
    (hprev : cells (p - 1) = [] ∨ ∃ p' ∈ dims', (p' : ℤ) = p - 1) (bars : Multiset (F × WithTop F)) :
    IsBarcode (fun _ _ hst => persistentBetti M (sublevel_mono f cells p hst) (sublevel_mono f cells (p + 1) hst)) bars ↔
      bars = diagramBarsRev deg f dgm' p :=
  isBarcode_iff ⟨diagramBarsRev_nonempty _ _ _ _, fun s t hst => by
    rw [aliveBars_diagramBarsRev _ _ _ _ hst]; exact (C26_betti hX hC' h' hp hprev hst).symm⟩ bars

end

/-- The hypotheses of C51_clearing and C51_cohomology hold of the filtered triangle of C25 and C26; its intervals are those expected:
three components, two of which die, and a loop that is filled. -/
example : letI := listHeap
    (buildWithDiagram Example.D Example.B 4 [2, 1, 0]).map (fun r => (diagramBars Example.deg Example.fv r.2 0, diagramBars Example.deg Example.fv r.2 1)) =
      some ({(0, ⊤), (0, ((1 : ℕ) : WithTop ℕ)), (0, ((2 : ℕ) : WithTop ℕ))}, {(3, ((5 : ℕ) : WithTop ℕ))}) ∧
    (buildWithDiagram Example.coD.reverse Example.B.reverse 4 [0, 1]).map
        (fun r => (diagramBarsRev Example.deg Example.fv r.2 0, diagramBarsRev Example.deg Example.fv r.2 1)) =
      some ({(0, ⊤), (0, ((1 : ℕ) : WithTop ℕ)), (0, ((2 : ℕ) : WithTop ℕ))}, {(3, ((5 : ℕ) : WithTop ℕ))}) := by decide +kernel

end Phlite
