/-
Property theorems C79: which entries of the distance matrix the Rips program depends on.
-/
import Verif.Props.RipsProgram

set_option linter.unusedSectionVars false
set_option linter.unusedSimpArgs false

namespace Phlite
open OrderDual (toDual ofDual)

section
variable {F : Type} [LinearOrder F] [Zero F] {distances distances' : List (List F)} {d : ℕ → ℕ → F}

theorem foldlM_congr {α β : Type} {g g' : β → α → Option β} {l : List α} (h : ∀ a ∈ l, ∀ b, g b a = g' b a) (b : β) : l.foldlM g b = l.foldlM g' b := by
  induction l generalizing b with
  | nil => rfl
  | cons a l ih =>
    rw [List.foldlM_cons, List.foldlM_cons, h a (by simp)]
    congr 1
    funext b'
    exact ih (fun a' ha' => h a' (by simp [ha'])) b'

/-- The bases depend only on the entries above the diagonal. -/
theorem addCofacets_upper (hn : distances'.length = distances.length)
    (hu : ∀ i j, i < j → j < distances.length → distAt distances' i j = distAt distances i j) (max_dim fuel : ℕ) :
    ∀ (bases : List (List (F × RipsIndex))) (simplex : List ℕ) (fil : F), (∀ x ∈ simplex, ∀ m ∈ simplex.getLast?, x ≤ m) →
      addCofacets distances' max_dim fuel bases simplex fil = addCofacets distances max_dim fuel bases simplex fil := by
  induction fuel with
  | zero => intros; rfl
  | succ fuel ih =>
    intro bases simplex fil hs
    unfold addCofacets
    cases hm : simplex.getLast? with
    | none => rfl
    | some m =>
      simp only [Option.bind_some, hn]
      split
      · rfl
      · refine foldlM_congr (fun v hv b => ?_) bases
        rw [List.mem_range'_1] at hv
        have h1 : mapOpt (fun w => distAt distances' w v) simplex = mapOpt (fun w => distAt distances w v) simplex := by
          refine mapOpt_congr fun w hw => hu w v ?_ (by omega)
          have := hs w hw m (by simp [hm])
          omega
        rw [h1]
        congr 1; funext ds
        congr 1; funext x
        congr 1; funext i
        congr 1; funext b'
        split
        · refine ih b' _ _ ?_
          intro x hx y hy
          rw [List.getLast?_concat] at hy
          cases hy
          rw [List.mem_append, List.mem_singleton] at hx
          rcases hx with hx | rfl
          · have := hs x hx m (by simp [hm])
            omega
          · exact le_rfl
        · rfl

theorem buildRipsBases_upper (hn : distances'.length = distances.length)
    (hu : ∀ i j, i < j → j < distances.length → distAt distances' i j = distAt distances i j) (max_dim : ℕ) :
    buildRipsBases distances' max_dim = buildRipsBases distances max_dim := by
  unfold buildRipsBases
  rw [hn]
  congr 1
  refine foldlM_congr (fun v _ b => ?_) _
  congr 1; funext i
  congr 1; funext b'
  exact addCofacets_upper hn hu max_dim _ _ _ _ (by simp)

/-- The filtration value depends on the greater of each pair of opposite entries. -/
theorem filtrationValue_upper {a b : ℕ → ℕ → F} (hn : distances'.length = distances.length)
    (ha : ∀ i < distances.length, ∀ j < distances.length, distAt distances i j = some (a i j))
    (hb : ∀ i < distances.length, ∀ j < distances.length, distAt distances' i j = some (b i j))
    (hab : ∀ i < distances.length, ∀ j < distances.length, max (a i j) (a j i) = max (b i j) (b j i)) :
    ripsFiltrationValue distances' = ripsFiltrationValue distances := by
  funext row
  unfold ripsFiltrationValue
  rw [hn]
  cases hv : toVec distances.length row with
  | none => rfl
  | some l =>
    simp only [Option.bind_some]
    have hl := (toVec_inv hv).2
    by_cases he : l = []
    · subst he; rfl
    · obtain ⟨m, h1, h2⟩ := maxPairwise_spec ha he hl
      obtain ⟨m', h3, h4⟩ := maxPairwise_spec (distances := distances') (d := b) (by rw [hn]; exact hb) he (by rw [hn]; exact hl)
      rw [h1, h3]
      congr 1
      have key : ∀ x, (∀ i ∈ l, ∀ j ∈ l, a i j ≤ x) ↔ ∀ i ∈ l, ∀ j ∈ l, b i j ≤ x := by
        intro x
        constructor
        · intro h i hi j hj
          exact (le_max_left _ (b j i)).trans ((hab i (hl i hi) j (hl j hj)).symm.le.trans (max_le (h i hi j hj) (h j hj i hi)))
        · intro h i hi j hj
          exact (le_max_left _ (a j i)).trans ((hab i (hl i hi) j (hl j hj)).le.trans (max_le (h i hi j hj) (h j hj i hi)))
      refine le_antisymm ?_ ?_
      · rw [h4, ← key, ← h2]
      · rw [h2, key, ← h4]

/-- C79: the output depends only on the number of points, the entries above the diagonal and the greater of each two opposite entries (so, for a given diagonal, a smaller
entry below the diagonal makes no difference). -/
theorem C79_same_run [StdHeap] (CF : Type) [NonZeroCoeff CF] {a b : ℕ → ℕ → F} (hn : distances'.length = distances.length)
    (ha : ∀ i < distances.length, ∀ j < distances.length, (distances[i]?.bind fun row => row[j]?) = some (a i j))
    (hb : ∀ i < distances.length, ∀ j < distances.length, (distances'[i]?.bind fun row => row[j]?) = some (b i j))
    (hupper : ∀ i j, i < j → j < distances.length → a i j = b i j)
    (hab : ∀ i < distances.length, ∀ j < distances.length, max (a i j) (a j i) = max (b i j) (b j i))
    (long : F → F → Bool) (enumE : Finset RipsIndexᵒᵈ → List RipsIndexᵒᵈ)
    (enumP : Finset (RipsIndexᵒᵈ × RipsIndexᵒᵈ) → List (RipsIndexᵒᵈ × RipsIndexᵒᵈ)) (arg : Option ℕ) (fuel : ℕ) :
    ripsMain CF long enumE enumP distances' arg fuel = ripsMain CF long enumE enumP distances arg fuel := by
  have h1 : (ripsCoboundary CF distances').withBasis = (ripsCoboundary CF distances).withBasis := by
    have h2 : (ripsCoboundary CF distances').column = (ripsCoboundary CF distances).column := by
      show ripsCoboundaryColumn distances'.length = ripsCoboundaryColumn distances.length
      rw [hn]
    have h3 : (ripsCoboundary CF distances').filt = (ripsCoboundary CF distances).filt := filtrationValue_upper hn ha hb hab
    have h5 : (ripsCoboundary CF distances').toOracle = (ripsCoboundary CF distances).toOracle := congrArg Oracle.mk h2
    unfold FOracle.withBasis
    rw [h3, h5]
  have h4 : buildRipsCoboundaryMatrix CF distances' (ripsMaxDim arg) = buildRipsCoboundaryMatrix CF distances (ripsMaxDim arg) := by
    unfold buildRipsCoboundaryMatrix
    rw [h1, buildRipsBases_upper hn]
    intro i j hij hj
    exact (hb i (hij.trans hj) j hj).trans ((congrArg some (hupper i j hij hj).symm).trans (ha i (hij.trans hj) j hj).symm)
  unfold ripsMain
  simp only [h4, hn]

/-- The full matrix of a distance. -/
def fullMatrix (n : ℕ) (d : ℕ → ℕ → F) : List (List F) := (List.range n).map fun i => (List.range n).map (d i)

theorem fullMatrix_length (n : ℕ) (d : ℕ → ℕ → F) : (fullMatrix n d).length = n := by simp [fullMatrix]

theorem fullMatrix_spec {n : ℕ} (hsymm : ∀ i < n, ∀ j < n, d i j = d j i) (hdiag : ∀ i < n, d i i = 0) (hnonneg : ∀ i < n, ∀ j < n, 0 ≤ d i j) :
    IsDistanceMatrix (fullMatrix n d) d := by
  refine ⟨?_, ?_, ?_, ?_⟩ <;> rw [fullMatrix_length]
  · intro i hi j hj
    simp [fullMatrix, hi, hj]
  · exact hsymm
  · exact hdiag
  · exact hnonneg

/-- C79: a matrix with the distances above the diagonal, zeros on it and anything not greater below it (such as zeros, or negative numbers) is as good as the full matrix. -/
theorem C79_upper_run [StdHeap] (CF : Type) [NonZeroCoeff CF] (hU : IsUpperMatrix distances d) (hD : IsDistanceMatrix distances' d)
    (hn : distances'.length = distances.length) (long : F → F → Bool) (enumE : Finset RipsIndexᵒᵈ → List RipsIndexᵒᵈ)
    (enumP : Finset (RipsIndexᵒᵈ × RipsIndexᵒᵈ) → List (RipsIndexᵒᵈ × RipsIndexᵒᵈ)) (arg : Option ℕ) (fuel : ℕ) :
    ripsMain CF long enumE enumP distances arg fuel = ripsMain CF long enumE enumP distances' arg fuel := by
  have hD1 := hD.entry
  have hD2 := hD.symm
  have hD3 := hD.diag
  rw [hn] at hD1 hD2 hD3
  let a : ℕ → ℕ → F := fun i j => ((distances[i]?.bind fun row => row[j]?).getD 0)
  have hlow : ∀ i j, i < j → j < distances.length → ∃ x, (distances[j]?.bind fun row => row[i]?) = some x ∧ x ≤ d i j := hU.below
  have ha : ∀ i < distances.length, ∀ j < distances.length, (distances[i]?.bind fun row => row[j]?) = some (a i j) := by
    intro i hi j hj
    rcases lt_trichotomy i j with h | h | h
    · simp only [a]; rw [hU.above i j h hj]; rfl
    · subst h; simp only [a]; rw [hU.diag i hi]; rfl
    · obtain ⟨x, hx, -⟩ := hlow j i h hi
      simp only [a]; rw [hx]; rfl
  have h1 : ∀ i j, i < j → j < distances.length → a i j = d i j := by
    intro i j hij hj
    simp only [a]; rw [hU.above i j hij hj]; rfl
  have h2 : ∀ i j, i < j → j < distances.length → a j i ≤ d i j := by
    intro i j hij hj
    obtain ⟨x, hx, hle⟩ := hlow i j hij hj
    simp only [a]; rw [hx]; exact hle
  have h3 : ∀ i, i < distances.length → a i i = 0 := by
    intro i hi
    simp only [a]; rw [hU.diag i hi]; rfl
  refine (C79_same_run CF hn ha hD1 h1 ?_ long enumE enumP arg fuel).symm
  intro i hi j hj
  rcases lt_trichotomy i j with h | h | h
  · rw [← hD2 i hi j hj, max_self, h1 i j h hj, max_eq_left (h2 i j h hj)]
  · subst h; rw [h3 i hi, hD3 i hi]
  · rw [← hD2 i hi j hj, max_self, h1 j i h hi, max_eq_right (by exact h2 j i h hi), hD2 i hi j hj]

open Classical in
/-- C79: and so the program prints the Vietoris-Rips barcode for it. -/
theorem C79_upper_report [StdHeap] (CF K : Type) [Field K] [NonZeroCoeff CF] [LawfulCoeff CF K] (hU : IsUpperMatrix distances d) (arg : Option ℕ)
    (h1 : 1 ≤ arg.getD 1 ∨ distances.length ≤ 1)
    {long : F → F → Bool} (hlong : ∀ b e, long b e = true → b < e) {enumE : Finset RipsIndexᵒᵈ → List RipsIndexᵒᵈ} (hE : Enumerates enumE)
    {enumP : Finset (RipsIndexᵒᵈ × RipsIndexᵒᵈ) → List (RipsIndexᵒᵈ × RipsIndexᵒᵈ)} (hP : Enumerates enumP) :
    ∃ report, (∃ enough, ∀ fuel ≥ enough, ripsMain CF long enumE enumP distances arg fuel = some report) ∧
      report.sizes = (List.range (arg.getD 1 + 1)).map (fun k => (k, distances.length.choose (k + 1))) ∧
      (∀ p ≤ arg.getD 1, ∃ bars, (∀ bars', IsRipsBarcode K distances.length d p bars' ↔ bars' = bars) ∧
        report.intervals p = bars.filter fun b => ∀ e : F, b.2 = (e : WithTop F) → long b.1 e = true) ∧
      (∀ x ∈ report.essential, x.1 ≤ arg.getD 1 ∧ ∃ σ, IsSimplex distances.length σ ∧ σ.card = x.1 + 1 ∧
        ofDual x.2.1 = simplexIndex distances.length σ ∧ IsDiameter d σ x.2.2) ∧
      ∀ x ∈ report.pairings, x.1 ≤ arg.getD 1 ∧ ∃ σ τ, IsSimplex distances.length σ ∧ σ.card = x.1 + 1 ∧
        IsSimplex distances.length τ ∧ τ.card = x.1 + 2 ∧
        ofDual x.2.1.1 = simplexIndex distances.length σ ∧ ofDual x.2.1.2 = simplexIndex distances.length τ ∧
        IsDiameter d σ x.2.2.1 ∧ IsDiameter d τ x.2.2.2 := by
  have hD := fullMatrix_spec hU.symm hU.zero hU.nonneg
  have hl := fullMatrix_length distances.length d
  obtain ⟨report, ⟨enough, hrun⟩, h⟩ := C52_rips_report CF K hD arg (by rw [hl]; exact h1) hlong hE hP
  rw [hl] at h
  exact ⟨report, ⟨enough, fun fuel hf => (C79_upper_run CF hU hD hl long enumE enumP arg fuel).trans (hrun fuel hf)⟩, h⟩

end

namespace RipsExample

/-- Five points: the full matrix, and the upper and the lower triangle of it (with some junk on the other side). -/
def fiveFull : List (List ℤ) := [[0, 5, 2, 2, 5], [5, 0, 2, 3, 2], [2, 2, 0, 4, 5], [2, 3, 4, 0, 1], [5, 2, 5, 1, 0]]
def fiveUpper : List (List ℤ) := [[0, 5, 2, 2, 5], [0, 0, 2, 3, 2], [-7, 2, 0, 4, 5], [0, 1, 0, 0, 1], [0, 0, 0, 0, 0]]
def fiveLower : List (List ℤ) := [[0, 0, 0, 0, 0], [5, 0, 0, 0, 0], [2, 2, 0, 0, 0], [2, 3, 4, 0, 0], [5, 2, 5, 1, 0]]

def fiveDist (i j : ℕ) : ℤ := (fiveFull.getD i []).getD j 0

example : IsDistanceMatrix fiveFull fiveDist := by refine ⟨?_, ?_, ?_, ?_⟩ <;> decide
example : IsUpperMatrix fiveUpper fiveDist := by
  refine ⟨?_, by decide, ?_, by decide, by decide, by decide⟩
  · intro i j h hj
    replace hj : j < 5 := hj
    interval_cases j <;> interval_cases i <;> decide
  · intro i j h hj
    replace hj : j < 5 := hj
    interval_cases j <;> interval_cases i <;> exact ⟨_, rfl, by decide⟩

def linesOf (distances : List (List ℤ)) : Option (List (ℕ × ℤ) × List (ℕ × ℤ × ℤ)) :=
  letI := listHeap
  (ripsMain Z2 (fun b e => decide (b < e)) enumE enumP distances none 40).map fun r => (r.essential.map fun x => (x.1, x.2.2), r.pairings.map fun x => (x.1, x.2.2))

/-- There is one loop, from 2 to 4. -/
example : linesOf fiveFull = some ([(0, 0)], [(1, 2, 4), (0, 0, 1), (0, 0, 2), (0, 0, 2), (0, 0, 2)]) := by decide +kernel
example : linesOf fiveUpper = linesOf fiveFull := by decide +kernel

/-- The lower triangle is not accepted as well: without an error, the program prints a barcode of another shape. (The bases are sorted by the entries above the diagonal,
phlite_rips/src/lib.rs:154-159, while the filtration values are maxima over all entries, phlite_rips/src/lib.rs:210-224.) -/
example : linesOf fiveLower = some ([(0, 0)], [(1, 2, 3), (1, 3, 4), (0, 0, 1), (0, 0, 2), (0, 0, 2), (0, 0, 2)]) := by decide +kernel

end RipsExample
end Phlite
