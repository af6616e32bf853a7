/-
Property theorems C52: what the command line program of phlite_rips prints.
-/
import Verif.Spec.RipsReport
import Verif.Theory.Unique
import Verif.Props.RipsShape
import Verif.Props.GrPPHEnd

set_option linter.unusedSectionVars false
set_option linter.unusedSimpArgs false

namespace Phlite
open Finsupp (single linearCombination linearCombination_single)
open OrderDual (toDual ofDual)

section
variable {F CF K : Type} [LinearOrder F] [Zero F] [Field K] [NonZeroCoeff CF] [LawfulCoeff CF K] [StdHeap]
variable {distances : List (List F)} {d : ℕ → ℕ → F}

theorem ripsF_diameter (hD : IsDistanceMatrix distances d) {σ : Finset ℕ} (hσ : IsSimplex distances.length σ) :
    IsDiameter d σ (ripsF distances (simplexIndex distances.length σ)) := by
  have h1 := (ripsF_le hD.entry hσ _).1 le_rfl
  refine ⟨h1, ?_⟩
  obtain ⟨p, hp, hmax⟩ := Finset.exists_max_image (σ ×ˢ σ) (fun p => d p.1 p.2) (hσ.1.product hσ.1)
  rw [Finset.mem_product] at hp
  refine ⟨p.1, hp.1, p.2, hp.2, le_antisymm (h1 _ hp.1 _ hp.2) ?_⟩
  rw [ripsF_le hD.entry hσ]
  intro a ha b hb
  exact hmax (a, b) (Finset.mem_product.2 ⟨ha, hb⟩)

theorem enum_map_filter {α β : Type} [DecidableEq α] {S : Finset α} {l : List α} (h : l.Nodup ∧ ∀ x, x ∈ l ↔ x ∈ S) (q : α → Prop) [DecidablePred q]
    (g : α → β) : ((l.filter fun x => q x).map g : Multiset β) = (S.filter q).val.map g := by
  have : (l : Multiset α) = S.val := by
    have : S = ⟨l, h.1⟩ := by ext x; rw [← h.2]; rfl
    rw [this]
  rw [Finset.filter_val, ← this]
  simp

theorem dimBasis_length (n : ℕ) (d : ℕ → ℕ → F) (k : ℕ) : (dimBasis n d k).length = n.choose (k + 1) := by
  unfold dimBasis
  rw [List.length_insertionSort, List.length_map, List.length_sublistsLen, List.length_range]

open Classical in
/-- C52: the command line program of phlite_rips. For a symmetric, non-negative distance matrix with zero diagonal and a maximum dimension of
at least 1 (the default), it terminates without panicking. The basis sizes it prints are the numbers of simplices. The lines it prints for
dimension `p ≤ max_dim` are exactly the intervals of the barcode of the Vietoris-Rips filtration in dimension `p` that are infinite or pass the
length filter; there are no lines for other dimensions. Each line shows simplices of the right dimensions, and their diameters. Nothing depends on
the iteration order of the hash sets. -/
theorem C52_rips_report (CF K : Type) [Field K] [NonZeroCoeff CF] [LawfulCoeff CF K] (hD : IsDistanceMatrix distances d) (arg : Option ℕ)
    (h1 : 1 ≤ arg.getD 1 ∨ distances.length ≤ 1)
    {long : F → F → Bool} (hlong : ∀ b e, long b e = true → b < e) {enumE : Finset RipsIndexᵒᵈ → List RipsIndexᵒᵈ} (hE : Enumerates enumE)
    {enumP : Finset (RipsIndexᵒᵈ × RipsIndexᵒᵈ) → List (RipsIndexᵒᵈ × RipsIndexᵒᵈ)} (hP : Enumerates enumP) :
    ∃ report, (∃ enough, ∀ fuel ≥ enough, ripsMain CF long enumE enumP distances arg fuel = some report) ∧
      report.sizes = (List.range (arg.getD 1 + 1)).map (fun k => (k, distances.length.choose (k + 1))) ∧
      (∀ p ≤ arg.getD 1, ∃ bars, (∀ bars', IsRipsBarcode K distances.length d p bars' ↔ bars' = bars) ∧
        report.intervals p = bars.filter fun b => ∀ e : F, b.2 = (e : WithTop F) → long b.1 e = true) ∧
      (∀ x ∈ report.essential, x.1 ≤ arg.getD 1 ∧ ∃ σ, IsSimplex distances.length σ ∧ σ.card = x.1 + 1 ∧
        ofDual x.2.1 = simplexIndex distances.length σ ∧ IsDiameter d σ x.2.2) ∧
      ∀ x ∈ report.pairings, x.1 ≤ arg.getD 1 ∧ ∃ σ τ, IsSimplex distances.length σ ∧ σ.card = x.1 + 1 ∧
        IsSimplex distances.length τ ∧ τ.card = x.1 + 2 ∧
        ofDual x.2.1.1 = simplexIndex distances.length σ ∧ ofDual x.2.1.2 = simplexIndex distances.length τ ∧
        IsDiameter d σ x.2.2.1 ∧ IsDiameter d τ x.2.2.2 := by
  obtain ⟨D, B, hb, rc, dgm, ⟨enough, hrun⟩, -⟩ := C33_rips_cohomology (CF := CF) (K := K) hD h1
  obtain ⟨hfilt, hbetti, hess, hpairs⟩ := rips_run_betti (K := K) hD h1 hb (hrun enough le_rfl)
  have hrev : ∀ x, D.reverse.filt x = some (toDual (ripsF distances (ofDual x))) ∨ D.filt (ofDual x) = none := by
    intro x
    cases hx : D.filt (ofDual x) with
    | none => exact Or.inr rfl
    | some y =>
      left
      show (D.filt (ofDual x)).map toDual = _
      rw [hx, Option.map_some]
      rw [hfilt] at hx
      unfold ripsF
      rw [hx]; rfl
  have hfs : ∀ σ, IsSimplex distances.length σ → ∀ x, ofDual x = simplexIndex distances.length σ →
      D.reverse.filt x = some (toDual (ripsF distances (simplexIndex distances.length σ))) := by
    intro σ hσ x e
    rcases hrev x with h | h
    · rw [h, e]
    · rw [hfilt, e, ripsF_eq hD.entry hσ] at h; cases h
  have hsz : ripsSizes B.reverse (arg.getD 1) = some ((List.range (arg.getD 1 + 1)).map fun k => (k, distances.length.choose (k + 1))) := by
    have hbs := buildRipsBases_spec hD.entry h1
    unfold buildRipsCoboundaryMatrix at hb
    rw [hbs] at hb
    obtain ⟨rfl, rfl⟩ := Prod.mk.inj (Option.some.inj hb)
    refine mapOpt_of_forall fun k hk => ?_
    rw [List.mem_range] at hk
    have : (multiDimBasis ((List.range (arg.getD 1 + 1)).map fun k => dimBasis distances.length d k)).reverse.inDim k =
        some (singleDimBasis (dimBasis distances.length d k)).reverse := by
      simp [SplitBasis.reverse, multiDimBasis, hk]
    rw [this, Option.map_some]
    show some (k, (dimBasis distances.length d k).length) = _
    rw [dimBasis_length]
  have hre : ripsEssential D.reverse.filt distances.length (enumE dgm.essential) =
      some ((enumE dgm.essential).map fun x => ((ripsDimension distances.length (ofDual x)).getD 0, x, ripsF distances (ofDual x))) := by
    refine mapOpt_of_forall fun x hx => ?_
    obtain ⟨σ, hσ, hc, e⟩ := hess x ((hE _).2 x |>.1 hx)
    rw [hfs σ hσ x e, Option.bind_some, e, ripsDimension_simplex hσ]
    rfl
  have hrp : ripsPairings long D.reverse.filt distances.length (enumP dgm.pairings) =
      some ((enumP dgm.pairings).filterMap fun x => if long (ripsF distances (ofDual x.2)) (ripsF distances (ofDual x.1)) then
        some ((ripsDimension distances.length (ofDual x.2)).getD 0, (x.2, x.1), ripsF distances (ofDual x.2), ripsF distances (ofDual x.1)) else none) := by
    refine filterMapOpt_eq _ _ _ fun x hx => ?_
    obtain ⟨σ, τ, ⟨hσ, hc, e⟩, hτ, hc', e'⟩ := hpairs x ((hP _).2 x |>.1 hx)
    rw [hfs σ hσ x.2 e, hfs τ hτ x.1 e', e, e', ripsDimension_simplex hσ]
    rfl
  refine ⟨⟨(List.range (arg.getD 1 + 1)).map fun k => (k, distances.length.choose (k + 1)),
    (enumE dgm.essential).map fun x => ((ripsDimension distances.length (ofDual x)).getD 0, x, ripsF distances (ofDual x)),
    (enumP dgm.pairings).filterMap fun x => if long (ripsF distances (ofDual x.2)) (ripsF distances (ofDual x.1)) then
        some ((ripsDimension distances.length (ofDual x.2)).getD 0, (x.2, x.1), ripsF distances (ofDual x.2), ripsF distances (ofDual x.1)) else none⟩,
    ⟨enough, fun fuel hf => ?_⟩, rfl, ?_, ?_, ?_⟩
  · unfold ripsMain ripsMaxDim
    dsimp only
    rw [hb, Option.bind_some, hsz, Option.bind_some]
    have := hrun fuel hf
    dsimp only
    rw [this, Option.bind_some, hre, Option.bind_some, hrp, Option.map_some]
  · intro p hp
    refine ⟨diagramBarsRev (ripsDeg distances.length) (ripsF distances) dgm p, ?_, ?_⟩
    · have hB : IsRipsBarcode K distances.length d p (diagramBarsRev (ripsDeg distances.length) (ripsF distances) dgm p) :=
        ⟨diagramBarsRev_nonempty _ _ _ _, fun s t hst => by
          rw [aliveBars_diagramBarsRev _ _ _ _ hst]; exact (hbetti p hp s t hst).symm⟩
      exact fun bars' => ⟨fun h' => IsBarcode.unique h' hB, fun e => e ▸ hB⟩
    · unfold RipsReport.intervals diagramBarsRev
      rw [Multiset.filter_add, ← Multiset.coe_add]
      congr 1
      · rw [Multiset.filter_eq_self.2]
        · rw [List.filter_map, List.map_map]
          have := enum_map_filter (hE dgm.essential) (fun x => ripsDeg distances.length (ofDual x) = p) (fun x => (ripsF distances (ofDual x), (⊤ : WithTop F)))
          rw [← this]
          congr 2
          apply List.filter_congr
          intro x _
          simp [ripsDeg]
        · intro b hb
          obtain ⟨x, _, rfl⟩ := Multiset.mem_map.1 hb
          intro e he
          exact absurd he.symm (WithTop.coe_ne_top)
      · rw [Multiset.filter_map]
        have := enum_map_filter (hP dgm.pairings) (fun x => ripsDeg distances.length (ofDual x.2) = p ∧
          long (ripsF distances (ofDual x.2)) (ripsF distances (ofDual x.1)) = true)
          (fun x => (ripsF distances (ofDual x.2), ((ripsF distances (ofDual x.1) : F) : WithTop F)))
        have e2 : Multiset.filter ((fun b : F × WithTop F => ∀ e : F, b.2 = (e : WithTop F) → long b.1 e = true) ∘
            fun x : RipsIndexᵒᵈ × RipsIndexᵒᵈ => (ripsF distances (ofDual x.2), ((ripsF distances (ofDual x.1) : F) : WithTop F)))
              (dgm.pairings.filter fun x => ripsDeg distances.length (ofDual x.2) = p ∧ ripsF distances (ofDual x.2) < ripsF distances (ofDual x.1)).val =
            (dgm.pairings.filter fun x => ripsDeg distances.length (ofDual x.2) = p ∧
              long (ripsF distances (ofDual x.2)) (ripsF distances (ofDual x.1)) = true).val := by
          rw [← Finset.filter_val, Finset.filter_filter]
          congr 1
          apply Finset.filter_congr
          intro x _
          simp only [Function.comp_apply, WithTop.coe_inj, forall_eq']
          constructor
          · rintro ⟨⟨h1, h2⟩, h3⟩; exact ⟨h1, h3⟩
          · rintro ⟨h1, h2⟩; exact ⟨⟨h1, hlong _ _ h2⟩, h2⟩
        rw [e2, ← this]
        congr 1
        generalize enumP dgm.pairings = l
        induction l with
        | nil => rfl
        | cons x l ih =>
          rw [List.filterMap_cons, List.filter_cons]
          by_cases hl : long (ripsF distances (ofDual x.2)) (ripsF distances (ofDual x.1)) = true
          · simp only [hl, if_true, and_true, List.filter_cons]
            have hd : decide ((ripsDimension distances.length (ofDual x.2)).getD 0 = p) =
                decide (ripsDeg distances.length (ofDual x.2) = p) := by
              simp [ripsDeg]
            rw [hd]
            split
            · rw [List.map_cons, List.map_cons, ih]
            · exact ih
          · simp only [hl, Bool.false_eq_true, if_false, and_false, decide_false]
            exact ih
  · intro x hx
    obtain ⟨y, hy, rfl⟩ := List.mem_map.1 hx
    obtain ⟨σ, hσ, hc, e⟩ := hess y ((hE _).2 y |>.1 hy)
    have hpos := hσ.1.card_pos
    dsimp only
    rw [e, ripsDimension_simplex hσ, Option.getD_some]
    exact ⟨by omega, σ, hσ, by omega, rfl, ripsF_diameter hD hσ⟩
  · intro x hx
    obtain ⟨y, hy, hx⟩ := List.mem_filterMap.1 hx
    split at hx
    · cases hx
      obtain ⟨σ, τ, ⟨hσ, hc, e⟩, hτ, hc', e'⟩ := hpairs y ((hP _).2 y |>.1 hy)
      have hpos := hσ.1.card_pos
      dsimp only
      rw [e, e', ripsDimension_simplex hσ, Option.getD_some]
      exact ⟨by omega, σ, τ, hσ, by omega, hτ, by omega, rfl, rfl, ripsF_diameter hD hσ, ripsF_diameter hD hτ⟩
    · cases hx

/-- C52: with maximum dimension 0 the program panics on two or more points. -/
theorem C52_rips_zero (CF : Type) [NonZeroCoeff CF] (hd : ∀ i < distances.length, ∀ j < distances.length, (distances[i]?.bind fun row => row[j]?) = some (d i j))
    (hn : 2 ≤ distances.length) (long : F → F → Bool) (enumE : Finset RipsIndexᵒᵈ → List RipsIndexᵒᵈ)
    (enumP : Finset (RipsIndexᵒᵈ × RipsIndexᵒᵈ) → List (RipsIndexᵒᵈ × RipsIndexᵒᵈ)) (fuel : ℕ) :
    ripsMain CF long enumE enumP distances (some 0) fuel = none := by
  unfold ripsMain buildRipsCoboundaryMatrix
  rw [show ripsMaxDim (some 0) = 0 from rfl]
  dsimp only
  rw [(C31_bases_panic hd 0).2 ⟨rfl, hn⟩]
  rfl

end

namespace RipsExample

def enumE : Finset RipsIndexᵒᵈ → List RipsIndexᵒᵈ := enumBy (fun x => OrderDual.ofDual x) fun _ _ h => h
def enumP : Finset (RipsIndexᵒᵈ × RipsIndexᵒᵈ) → List (RipsIndexᵒᵈ × RipsIndexᵒᵈ) := enumBy toLex toLex.injective

example : Enumerates enumE ∧ Enumerates enumP := ⟨enumBy_enumerates _ _, enumBy_enumerates _ _⟩

/-- The report for the square, with the default maximum dimension: sizes 4 and 6; one component forever, three that die at 1, and a loop
from 1 to 2. -/
example : letI := listHeap
    (ripsMain Z2 (fun b e => decide (b < e)) enumE enumP dist none 20).map (fun r => (r.sizes, r.essential.map fun x => (x.1, x.2.2), r.pairings.map fun x => (x.1, x.2.2))) =
      some ([(0, 4), (1, 6)], [(0, 0)], [(1, 1, 2), (0, 0, 1), (0, 0, 1), (0, 0, 1)]) := by decide +kernel

end RipsExample
end Phlite
