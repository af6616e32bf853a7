/-
Property theorem C58: stability of the computed barcodes in the bottleneck distance.
-/
import Verif.Theory.RipsBottleneck
import Verif.Props.RipsInvariance
import Verif.Props.Intervals

set_option linter.unusedSectionVars false
set_option linter.unusedSimpArgs false

namespace Phlite
open Finsupp (single linearCombination linearCombination_single)

section
variable {F : Type} [Field F] [LinearOrder F] [IsStrictOrderedRing F]

/-- C58 for Vietoris-Rips: if the entries of two distance matrices differ by at most `ε`, then the intervals of a run on the first can be matched with those of
a run on the second, so that matched intervals have end points within `ε` of each other (infinite ones matched with infinite ones) and the unmatched ones have
length at most `2 * ε`; whatever the maximum dimensions, the coefficient types for the field `K` and the tie-breaking of the heaps. -/
theorem C58_rips (K : Type) [Field K] (H H' : StdHeap) {CF CF' : Type} [NonZeroCoeff CF] [LawfulCoeff CF K] [NonZeroCoeff CF'] [LawfulCoeff CF' K]
    {distances distances' : List (List F)} {d d' : ℕ → ℕ → F}
    (hD : IsDistanceMatrix distances d) (hD' : IsDistanceMatrix distances' d') (hn : distances'.length = distances.length) {ε : F} (hε : 0 ≤ ε)
    (hd : ∀ i < distances.length, ∀ j < distances.length, |d i j - d' i j| ≤ ε) {max_dim max_dim' : ℕ}
    (h1 : 1 ≤ max_dim ∨ distances.length ≤ 1) (h1' : 1 ≤ max_dim' ∨ distances'.length ≤ 1) {p : ℕ} (hp : p ≤ max_dim) (hp' : p ≤ max_dim')
    {fuel fuel' : ℕ} {bars bars' : Multiset (F × WithTop F)} (h : ripsIntervals H CF distances max_dim fuel p = some bars)
    (h' : ripsIntervals H' CF' distances' max_dim' fuel' p = some bars') : BottleneckLE ε bars bars' := by
  have a := (C53_intervals K H hD h1 hp).2 fuel bars h
  have a' := (C53_intervals K H' hD' h1' hp').2 fuel' bars' h'
  rw [hn] at a'
  exact a.bottleneck a' hε hd

variable {T K CF CF' : Type} [LinearOrder T] [Field K] [NonZeroCoeff CF] [LawfulCoeff CF K] [NonZeroCoeff CF'] [LawfulCoeff CF' K]
  {D : FOracle CF T T F} {D' : FOracle CF' T T F} {f g : T → F} {M : T → (T →₀ K)} {deg : T → ℤ}

theorem betti_congr_sets {M : T → (T →₀ K)} {X X' Y Y' U U' W W' : Set T} (h1 : X = U) (h2 : X' = U') (h3 : Y = W) (h4 : Y' = W')
    (hX : X ⊆ X') (hY : Y ⊆ Y') (hU : U ⊆ U') (hW : W ⊆ W') : persistentBetti M hX hY = persistentBetti M hU hW := by
  subst h1; subst h2; subst h3; subst h4; rfl

theorem levelBarcode_cellsOf {f : T → F} {all : List T} {p : ℤ} {bars : Multiset (F × WithTop F)} {X Y : Finset T} (hX : ∀ x, x ∈ X ↔ x ∈ cellsOf deg all p)
    (hY : ∀ x, x ∈ Y ↔ x ∈ cellsOf deg all (p + 1))
    (h : IsBarcode (fun _ _ hst => persistentBetti M (sublevel_mono f (cellsOf deg all) p hst) (sublevel_mono f (cellsOf deg all) (p + 1) hst)) bars) :
    levelBarcode K M X Y f bars := by
  refine ⟨h.1, fun s t hst => ?_⟩
  rw [h.2 s t hst]
  have e1 : ∀ u, sublevel f (cellsOf deg all) p u = level f X u := by
    intro u; ext x; simp only [sublevel, level, hX]
  have e2 : ∀ u, sublevel f (cellsOf deg all) (p + 1) u = level f Y u := by
    intro u; ext x; simp only [sublevel, level, hY]
  exact betti_congr_sets (e1 _) (e1 _) (e2 _) (e2 _) _ _ _ _

/-- C58 for the standard algorithm: runs on the same boundary matrix with two filtrations that differ by at most `δ`. -/
theorem C58_standard (H H' : StdHeap) {B B' : Basis T} {all all' : List T} (hF : FiniteMatrix K D B f M all) (hF' : FiniteMatrix K D' B' g M all')
    (hall : ∀ x, x ∈ all' ↔ x ∈ all) (hdeg : ∀ c ∈ all, ∀ r, M c r ≠ 0 → deg r = deg c + (-1))
    (hsort : ∀ d : ℤ, (all.filter fun x => deg x = d).Pairwise fun a b => rowKey f a < rowKey f b)
    (hsort' : ∀ d : ℤ, (all'.filter fun x => deg x = d).Pairwise fun a b => rowKey g a < rowKey g b)
    (hfull : ∀ c ∈ all, ∀ r, M c r ≠ 0 → r ∈ all) (hsq : ∀ c ∈ all, linearCombination K M (M c) = 0)
    (hrows : RowsBefore all M) (hrows' : RowsBefore all' M) {δ : F} (hδ : 0 ≤ δ) (hfg : ∀ x ∈ all, |f x - g x| ≤ δ)
    {fuel fuel' : Nat → Nat} {v : T → Option (List (CF × T))} {v' : T → Option (List (CF' × T))} {dgm dgm' : Diagram T}
    (h : (letI := H; standardAlgoWithDiagram D B fuel false) = some (v, dgm))
    (h' : (letI := H'; standardAlgoWithDiagram D' B' fuel' false) = some (v', dgm')) (p : ℤ) :
    BottleneckLE δ (diagramBars deg f dgm p) (diagramBars deg g dgm' p) := by
  have b := (letI := H; C51_standard hF hdeg hsort hfull hsq hrows h (p := p) (q := p + 1) (by ring) _).2 rfl
  have b' := (letI := H'; C51_standard (D := D') (f := g) hF' (fun c hc => hdeg c ((hall c).1 hc)) hsort' (fun c hc r hr => (hall r).2 (hfull c ((hall c).1 hc) r hr))
    (fun c hc => hsq c ((hall c).1 hc)) hrows' h' (p := p) (q := p + 1) (by ring) _).2 rfl
  have hmem : ∀ q x, x ∈ (cellsOf deg all q).toFinset ↔ x ∈ all ∧ deg x = q := by intro q x; simp [cellsOf]
  have hmem' : ∀ q x, x ∈ (cellsOf deg all q).toFinset ↔ x ∈ cellsOf deg all' q := by intro q x; simp [cellsOf, hall]
  have hT : TwoDegrees M deg (cellsOf deg all p).toFinset (cellsOf deg all (p + 1)).toFinset p := by
    constructor
    · intro x hx; exact ((hmem _ x).1 hx).2
    · intro x hx; exact ((hmem _ x).1 hx).2
    · intro x hx r hr
      obtain ⟨h1, h2⟩ := (hmem _ x).1 hx
      rw [hdeg x h1 r hr, h2]; ring
    · intro y hy r hr
      obtain ⟨h1, h2⟩ := (hmem _ y).1 hy
      exact (hmem _ r).2 ⟨hfull y h1 r hr, by rw [hdeg y h1 r hr, h2]; ring⟩
    · intro y hy; exact hsq y ((hmem _ y).1 hy).1
  exact hT.bottleneck hδ (fun x hx => hfg x ((hmem _ x).1 hx).1) (fun x hx => hfg x ((hmem _ x).1 hx).1)
    (levelBarcode_cellsOf (fun x => List.mem_toFinset) (fun x => List.mem_toFinset) b) (levelBarcode_cellsOf (hmem' p) (hmem' (p + 1)) b')

/-- C58 for the clearing algorithm. -/
theorem C58_clearing (H H' : StdHeap) {B B' : SplitBasis T} {dims : List ℕ} {els els' : ℕ → List T} (hC : SplitComplex K D B f M deg (-1) dims els)
    (hC' : SplitComplex K D' B' g M deg (-1) dims els') (hels : ∀ d ∈ dims, ∀ x, x ∈ els' d ↔ x ∈ els d) {δ : F} (hδ : 0 ≤ δ)
    (hfg : ∀ d ∈ dims, ∀ x ∈ els d, |f x - g x| ≤ δ) {fuel fuel' : Nat} {rc : T → Option (RedCol CF T)} {rc' : T → Option (RedCol CF' T)} {dgm dgm' : Diagram T}
    (h : (letI := H; buildWithDiagram D B fuel dims) = some (rc, dgm)) (h' : (letI := H'; buildWithDiagram D' B' fuel' dims) = some (rc', dgm'))
    {p : ℕ} (hp : p ∈ dims) : BottleneckLE δ (diagramBars deg f dgm p) (diagramBars deg g dgm' p) := by
  have b := (letI := H; C51_clearing hC h hp (q := p + 1) (by ring) _).2 rfl
  have b' := (letI := H'; C51_clearing hC' h' hp (q := p + 1) (by ring) _).2 rfl
  have hmem : ∀ q x, x ∈ (cellsOf deg (dims.flatMap els) q).toFinset ↔ (∃ d ∈ dims, x ∈ els d) ∧ deg x = q := by intro q x; simp [cellsOf]
  have hmem' : ∀ q x, x ∈ (cellsOf deg (dims.flatMap els) q).toFinset ↔ x ∈ cellsOf deg (dims.flatMap els') q := by
    intro q x
    rw [hmem]
    simp only [cellsOf, List.mem_filter, List.mem_flatMap, decide_eq_true_eq]
    exact and_congr_left fun _ => exists_congr fun d => and_congr_right fun hd => (hels d hd x).symm
  have hT : TwoDegrees M deg (cellsOf deg (dims.flatMap els) p).toFinset (cellsOf deg (dims.flatMap els) (p + 1)).toFinset p := by
    constructor
    · intro x hx; exact ((hmem _ x).1 hx).2
    · intro x hx; exact ((hmem _ x).1 hx).2
    · intro x hx r hr
      obtain ⟨⟨d, hd, h1⟩, h2⟩ := (hmem _ x).1 hx
      rw [(hC.row_of_ne hd h1 hr).1, ← hC.deg_els d hd x h1, h2]; ring
    · intro y hy r hr
      obtain ⟨⟨d, hd, h1⟩, h2⟩ := (hmem _ y).1 hy
      have e := hC.deg_els d hd y h1
      exact (hmem _ r).2 ⟨⟨p, hp, (hC.row_of_ne hd h1 hr).2 p hp (by omega)⟩, by rw [(hC.row_of_ne hd h1 hr).1]; omega⟩
    · intro y hy
      obtain ⟨⟨d, hd, h1⟩, h2⟩ := (hmem _ y).1 hy
      have e := hC.deg_els d hd y h1
      exact hC.sq d hd p hp (by omega) y h1
  have hcl : ∀ q, ∀ x ∈ (cellsOf deg (dims.flatMap els) q).toFinset, |f x - g x| ≤ δ := by
    intro q x hx
    obtain ⟨⟨d, hd, h1⟩, h2⟩ := (hmem _ x).1 hx
    exact hfg d hd x h1
  exact hT.bottleneck hδ (hcl _) (hcl _)
    (levelBarcode_cellsOf (fun x => List.mem_toFinset) (fun x => List.mem_toFinset) b) (levelBarcode_cellsOf (hmem' p) (hmem' (p + 1)) b')

end

/-- The elements of a basis given by a list. -/
theorem vecBasis_elems {E : Type} (l : List E) : (vecBasis l).elems = some l := by
  rw [Basis.elems, mapOpt_eq_some, List.forall₂_iff_get]
  refine ⟨by simp [vecBasis], fun i h1 h2 => ?_⟩
  simp only [List.get_eq_getElem, List.getElem_range, vecBasis]
  exact List.getElem?_eq_getElem h2

namespace Example

/-- The filled triangle with a filtration `g` by rational numbers, and the basis `els'`. -/
abbrev DQ (g : Nat → ℚ) : FOracle (ZP 3) Nat Nat ℚ := (vecVecMatrix cols).withFunc fun i => some (g i)
abbrev BQ (els' : ℕ → List Nat) : SplitBasis Nat := { toBasis := vecVecBasis cols, inDim := fun d => some (vecBasis (els' d)) }

theorem splitQ {g : Nat → ℚ} {els' : ℕ → List Nat} (hels : ∀ d ∈ [2, 1, 0], ∀ x, x ∈ els' d ↔ x ∈ els d)
    (hsort : ∀ d ∈ [2, 1, 0], (els' d).Pairwise fun a b => rowKey g a < rowKey g b) :
    SplitComplex (ZMod 3) (DQ g) (BQ els') g (fun c => lcOf (ZMod 3) (cols.getD c [])) deg (-1) [2, 1, 0] els' where
  basis d _ := ⟨_, rfl, vecBasis_elems _⟩
  deg_els d hd c hc := split.deg_els d hd c ((hels d hd c).1 hc)
  sorted := hsort
  good d hd c hc := by
    refine (vecVec_finiteMatrix cols g).reads c ?_
    have h := (hels d hd c).1 hc
    clear hc hels hsort
    revert h; revert c; revert hd; revert d; decide
  rows d hd c hc l hl t ht := by
    have h := split.rows d hd c ((hels d hd c).1 hc) l hl t ht
    exact ⟨h.1, fun d' hd' e => (hels d' hd' t.2).2 (h.2 d' hd' e)⟩
  nodup := split.nodup
  order := split.order
  shift := split.shift
  sq d hd d' hd' e c hc := split.sq d hd d' hd' e c ((hels d hd c).1 hc)

/-- Two filtrations at distance 1 that order the edges 3 and 4 differently. -/
abbrev fQ : Nat → ℚ := fun i => [0, 0, 0, 1, 2, 3, 5].getD i 0
abbrev gQ : Nat → ℚ := fun i => [0, 0, 0, 2, 1, 4, 4].getD i 0
abbrev elsG : ℕ → List Nat := fun d => if d = 0 then [0, 1, 2] else if d = 1 then [4, 3, 5] else if d = 2 then [6] else []

/-- The hypotheses of C58_clearing hold of the two filtrations; the loop, of length 2, of the first one is not matched. -/
example : SplitComplex (ZMod 3) (DQ fQ) (BQ els) fQ (fun c => lcOf (ZMod 3) (cols.getD c [])) deg (-1) [2, 1, 0] els ∧
    SplitComplex (ZMod 3) (DQ gQ) (BQ elsG) gQ (fun c => lcOf (ZMod 3) (cols.getD c [])) deg (-1) [2, 1, 0] elsG ∧
    (∀ d ∈ [2, 1, 0], ∀ x ∈ els d, |fQ x - gQ x| ≤ 1) ∧
    letI := listHeap
    (buildWithDiagram (DQ fQ) (BQ els) 4 [2, 1, 0]).map (fun r => (diagramBars deg fQ r.2 0, diagramBars deg fQ r.2 1)) =
      some ({(0, ⊤), (0, ((1 : ℚ) : WithTop ℚ)), (0, ((2 : ℚ) : WithTop ℚ))}, {(3, ((5 : ℚ) : WithTop ℚ))}) ∧
    (buildWithDiagram (DQ gQ) (BQ elsG) 4 [2, 1, 0]).map (fun r => (diagramBars deg gQ r.2 0, diagramBars deg gQ r.2 1)) =
      some ({(0, ⊤), (0, ((1 : ℚ) : WithTop ℚ)), (0, ((2 : ℚ) : WithTop ℚ))}, {}) := by
  refine ⟨splitQ (fun _ _ _ => Iff.rfl) (by decide +kernel), splitQ ?_ (by decide +kernel), by decide +kernel, by decide +kernel, by decide +kernel⟩
  intro d hd x
  simp only [List.mem_cons, List.not_mem_nil, or_false] at hd
  rcases hd with rfl | rfl | rfl <;> simp [elsG, els]
  tauto

/-- The distance of the two barcodes of degree 1 is not less than 1. -/
example : ¬ BottleneckLE (1 / 2 : ℚ) {(3, ((5 : ℚ) : WithTop ℚ))} 0 := by
  rintro ⟨m, A, B, h1, h2, h3, h4, h5⟩
  have hm : m = 0 := by
    have := congrArg Multiset.card h2
    rw [Multiset.card_zero, Multiset.card_add, Multiset.card_map] at this
    exact Multiset.card_eq_zero.1 (by omega)
  subst hm
  rw [Multiset.map_zero, zero_add] at h1
  obtain ⟨u, hu, hl⟩ := h4 (3, ((5 : ℚ) : WithTop ℚ)) (by rw [← h1]; simp)
  have : (5 : ℚ) = u := WithTop.coe_injective hu
  subst this
  norm_num at hl

end Example

namespace RipsExample

/-- The square and a perturbed square, with rational distances. -/
def distQ : List (List ℚ) := [[0, 10, 20, 10], [10, 0, 10, 20], [20, 10, 0, 10], [10, 20, 10, 0]]
def distQ' : List (List ℚ) := [[0, 11, 19, 10], [11, 0, 9, 20], [19, 9, 0, 10], [10, 20, 10, 0]]
def dQ (i j : ℕ) : ℚ := ((distQ.getD i []).getD j 0)
def dQ' (i j : ℕ) : ℚ := ((distQ'.getD i []).getD j 0)

/-- The hypotheses of C58_rips. -/
example : IsDistanceMatrix distQ dQ ∧ IsDistanceMatrix distQ' dQ' ∧ (∀ i < distQ.length, ∀ j < distQ.length, |dQ i j - dQ' i j| ≤ 1) ∧
    ripsIntervals listHeap Z2 distQ 1 20 1 = some {(10, ((20 : ℚ) : WithTop ℚ))} ∧
    ripsIntervals listHeap Z2 distQ' 1 20 1 = some {(11, ((19 : ℚ) : WithTop ℚ))} := by
  refine ⟨?_, ?_, by decide +kernel, by decide +kernel, by decide +kernel⟩ <;> constructor <;> decide +kernel

end RipsExample
end Phlite
