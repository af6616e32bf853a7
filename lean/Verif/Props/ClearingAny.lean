/-
Property theorems C74: the clearing algorithm on matrices that are not chain complexes.
-/
import Verif.Proofs.ClearingAny
import Verif.Props.ClearingOrder

set_option linter.unusedSectionVars false
set_option linter.unusedSimpArgs false

namespace Phlite
open Finsupp (single linearCombination linearCombination_single)

section
variable [StdHeap] {CF T F K : Type} [NonZeroCoeff CF] [Field K] [LawfulCoeff CF K] [LinearOrder F] [LinearOrder T]
variable {D : FOracle CF T T F} {B : SplitBasis T} {f : T → F} {M : T → (T →₀ K)} {deg : T → ℤ} {ε : ℤ} {dims : List ℕ}
  {els : ℕ → List T}

theorem DimensionedMatrix.restrict (h : DimensionedMatrix K D B f M dims els) :
    DimensionedMatrix K (D.restrict (dims.flatMap els)) B f M dims els :=
  ⟨h.basis, h.nodup, fun d hd c hc => (h.good d hd c hc).restrict (List.mem_flatMap.2 ⟨d, hd, hc⟩), h.rows⟩

/-- A chain complex with any list of dimensions is a special case. -/
theorem GradedComplex.dimensioned (h : GradedComplex K D B f M deg ε dims els) : DimensionedMatrix K D B f M dims els := by
  refine ⟨h.basis, fun d hd => (h.sorted d hd).imp fun h e => by subst e; exact lt_irrefl _ h, h.good, ?_⟩
  intro d hd c hc r hr
  by_contra hne
  have h1 := (h.row_of_ne hd hc hne).1
  rw [h.deg_els d hd r hr] at h1
  exact h.shift (by omega)

/-- C74: on every matrix whose columns of dimension `d` have no rows of dimension `d`, and for every list of dimensions, `build_with_diagram` returns,
having requested columns of listed cells only. Its result does not depend on the (sufficient) fuel. The diagram is what `clearingStep` describes,
dimension by dimension; every listed cell occurs in it. The reduction matrix has, for every cell of the diagram that is not the birth of a
pair, a column with non-zero diagonal entry whose image under `D` has the cell's partner as pivot, or vanishes if the cell is essential. -/
theorem C74_any_matrix (hC : DimensionedMatrix K D B f M dims els) :
    ∃ rc dgm, (∀ fuel, (∀ d ∈ dims, (els d).length < fuel) →
        buildWithDiagram (D.restrict (dims.flatMap els)) B fuel dims = some (rc, dgm) ∧ buildWithDiagram D B fuel dims = some (rc, dgm)) ∧
      (({p | p ∈ dgm.pairings}, {c | c ∈ dgm.essential}) : Set (T × T) × Set T) = dims.foldl (fun g d => clearingStep f M g (els d)) (∅, ∅) ∧
      (∀ d ∈ dims, ∀ c ∈ els d, c ∈ dgm.essential ∨ ∃ p ∈ dgm.pairings, p.1 = c ∨ p.2 = c) ∧
      ∀ c, (c ∈ dgm.essential ∨ ∃ r, (r, c) ∈ dgm.pairings) → (∀ c', (c, c') ∉ dgm.pairings) → ∃ w : T →₀ K, w c ≠ 0 ∧
        (∀ depth, HasCol K (crmMatrix D.toOracle rc (depth + 1)) c w) ∧
        (∀ r, (r, c) ∈ dgm.pairings ↔ IsPivot f (linearCombination K M w) r) ∧ (c ∈ dgm.essential ↔ linearCombination K M w = 0) := by
  have run : ∀ fuel, (∀ d ∈ dims, (els d).length < fuel) → ∃ s : CrmState CF T, KeysInv s ∧ StoredInv K f M s ∧
      dgmSets s.diagram = dims.foldl (fun g d => clearingStep f M g (els d)) (∅, ∅) ∧ (∀ d ∈ dims, ∀ c ∈ els d, (s.rc c).isSome) ∧
      buildWithDiagram (D.restrict (dims.flatMap els)) B fuel dims = some (s.rc, s.diagram) := by
    intro fuel hf
    obtain ⟨s, h1, h2, h3, h4, _, h5⟩ := passAll_spec hC.restrict hf (s := ⟨Diagram.empty, fun _ => none⟩)
      (by intro c; simp [diagramCells, dgmSets, Diagram.empty]) (by intro c hc; simp at hc) dims fun _ h => h
    refine ⟨s, h2, h3, ?_, h5, by simp [buildWithDiagram, h1]⟩
    rw [h4]
    congr 1
    simp [dgmSets, Diagram.empty]
  have hm : ∀ d ∈ dims, (els d).length < (dims.map fun d => (els d).length).sum + 1 := by
    intro d hd
    have : (els d).length ≤ (dims.map fun d => (els d).length).sum := List.le_sum_of_mem (List.mem_map.2 ⟨d, hd, rfl⟩)
    omega
  obtain ⟨s, a1, a2, a3, a4, a5⟩ := run _ hm
  refine ⟨s.rc, s.diagram, ?_, a3, fun d hd c hc => (a1 c).1 (a4 d hd c hc), ?_⟩
  · intro fuel hf
    obtain ⟨s', _, _, _, _, b5⟩ := run fuel hf
    have e : buildWithDiagram (D.restrict (dims.flatMap els)) B fuel dims = some (s.rc, s.diagram) := by
      rcases le_total fuel ((dims.map fun d => (els d).length).sum + 1) with h | h
      · have := buildWithDiagram_mono (DLE.refl _) h b5
        rw [a5] at this
        rw [b5, this]
      · exact buildWithDiagram_mono (DLE.refl _) h a5
    exact ⟨e, buildWithDiagram_mono (restrict_le D _) le_rfl e⟩
  · intro c hc hnb
    have hk : (s.rc c).isSome := (a1 c).2 (by
      rcases hc with hc | ⟨r, hr⟩
      · exact Or.inl hc
      · exact Or.inr ⟨(r, c), hr, Or.inr rfl⟩)
    obtain ⟨⟨l, hl⟩, g2, g3, g4⟩ := a2 c hk hnb
    refine ⟨wred K s.rc c, g2, fun depth => ⟨l ++ [(NonZeroCoeff.one, c)], ?_, ?_⟩, g3, g4⟩
    · simp only [crmMatrix, crmColumn, hl, Option.bind_some]
    · simp only [wred, hl]
      rw [lcOf_append]; simp [LawfulCoeff.val_one]

end

namespace AnyExample
/-- Not a chain complex: the columns of 3, 4 and 5 are `0 + 1`, `1` and `0 + 2·1`, that of 6 is `4`. The bases are not sorted by filtration, and 2 is missing. -/
abbrev cols : List (List (ZP 3 × Nat)) := [[], [], [], [(Example.o, 0), (Example.o, 1)], [(Example.o, 1)], [(Example.o, 0), (Example.t, 1)], [(Example.o, 4)]]
abbrev fv : Nat → Nat := fun i => [0, 1, 2, 5, 4, 6, 7].getD i 0
abbrev D : FOracle (ZP 3) Nat Nat Nat := (vecVecMatrix cols).withFunc fun i => some (fv i)
abbrev els : ℕ → List Nat := fun d => if d = 0 then [1, 0] else if d = 1 then [5, 3, 4] else if d = 2 then [6] else []
abbrev B : SplitBasis Nat := { toBasis := vecVecBasis cols, inDim := fun d => some (vecBasis (els d)) }

theorem dimensioned : DimensionedMatrix (ZMod 3) D B fv (fun c => lcOf (ZMod 3) (cols.getD c [])) [1, 2, 0] els where
  basis := by
    intro d _
    exact ⟨_, rfl, by
      simp only [Basis.elems, vecBasis]
      rename_i h
      revert h; revert d; decide⟩
  nodup := by decide
  good := by
    intro d hd c hc
    refine (vecVec_finiteMatrix cols fv).reads c ?_
    revert hc; revert c; revert hd; revert d; decide
  rows := by
    intro d hd c hc r hr
    have key : ∀ d ∈ [1, 2, 0], ∀ c ∈ els d, ∀ t ∈ cols.getD c [], t.2 ∉ els d := by decide
    by_contra hne
    obtain ⟨t, ht, rfl⟩ := lcOf_support hne
    exact key d hd c hc t ht hr

/-- The run: 5 and 3 are paired with 1 and 0, which are cleared although 4, which depends on 5 and 3, is essential and is also paired with 6. -/
example : letI := listHeap
    (buildWithDiagram D B 4 [1, 2, 0]).map Prod.snd = some ⟨{4}, {(1, 5), (0, 3), (4, 6)}⟩ := by decide +kernel

/-- It is not a complex: the boundary of the boundary of 6 does not vanish. -/
example : linearCombination (ZMod 3) (fun c => lcOf (ZMod 3) (cols.getD c [])) (lcOf (ZMod 3) (cols.getD 6 [])) ≠ 0 := by
  have h : lcOf (ZMod 3) (cols.getD 6 []) = single 4 1 := by simp [lcOf, cols, Example.o, LawfulCoeff.val]
  rw [h, linearCombination_single]
  simp [lcOf, cols, Example.o, LawfulCoeff.val]

end AnyExample
end Phlite
