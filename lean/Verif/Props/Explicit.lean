/-
Property theorems C60: explicit matrices (`VecVecMatrix`) from the list of columns to the barcode.
-/
import Verif.Props.Intervals
import Verif.Proofs.ListHeap

set_option linter.unusedSectionVars false
set_option linter.unusedSimpArgs false

namespace Phlite
open Finsupp (single linearCombination linearCombination_single)

section
variable {CF K : Type} [NonZeroCoeff CF] [Field K] [LawfulCoeff CF K]

/-- C60, reading: a column request is answered with the listed column, and panics exactly for an index out of range; the basis lists
`0, …, n - 1`. -/
theorem C60_columns {Row : Type} (columns : List (List (CF × Row))) (i : ℕ) :
    (∀ h : i < columns.length, (vecVecMatrix columns).column i = some columns[i]) ∧
    (columns.length ≤ i → (vecVecMatrix columns).column i = none) ∧
    (vecVecBasis columns).elems = some (List.range columns.length) := by
  refine ⟨fun h => by simp [vecVecMatrix, h], fun h => by simp [vecVecMatrix, h], ?_⟩
  have := mapOpt_some (id : Nat → Nat) (List.range columns.length)
  rw [List.map_id] at this
  exact this

theorem lcOf_ones {Row : Type} [DecidableEq Row] (l : List Row) (r : Row) :
    lcOf K (l.map fun row => ((NonZeroCoeff.one : CF), row)) r = (l.count r : K) := by
  induction l with
  | nil => simp [lcOf]
  | cons a l ih =>
    have : lcOf K ((a :: l).map fun row => ((NonZeroCoeff.one : CF), row)) =
        single a (1 : K) + lcOf K (l.map fun row => ((NonZeroCoeff.one : CF), row)) := by
      simp [lcOf, LawfulCoeff.val_one]
    rw [this, Finsupp.add_apply, ih, List.count_cons, Finsupp.single_apply]
    by_cases h : a = r <;> simp [h, add_comm]

/-- C60, `new_all_one`: the coefficient of row `r` in column `i` is the number of times `r` is listed. -/
theorem C60_all_one {Row : Type} [DecidableEq Row] (columns : List (List Row)) (i : ℕ) (h : i < columns.length) :
    ∃ v : Row →₀ K, HasCol K (vecVecAllOne (CF := CF) columns) i v ∧ ∀ r, v r = (columns[i].count r : K) := by
  refine ⟨_, ⟨_, ?_, rfl⟩, fun r => lcOf_ones (CF := CF) columns[i] r⟩
  simp [vecVecAllOne, vecVecMatrix, h]

/-- The hypotheses on the list of columns: cells come after their faces, which are one degree lower, and every face of a face cancels. -/
structure ExplicitComplex (K : Type) [Field K] [LawfulCoeff CF K] (columns : List (List (CF × ℕ))) (deg : ℕ → ℤ) : Prop where
  faces : ∀ c (h : c < columns.length), ∀ t ∈ columns[c], t.2 < c ∧ deg c = deg t.2 + 1
  sq : ∀ c (h : c < columns.length), ∀ x,
    (columns[c].map fun t => LawfulCoeff.val t.1 * lcOf K (columns.getD t.2 []) x).sum = (0 : K)

theorem explicit_support {columns : List (List (CF × ℕ))} {c r : ℕ} (h : lcOf K (columns.getD c []) r ≠ 0) :
    ∃ hc : c < columns.length, ∃ t ∈ columns[c], t.2 = r := by
  by_cases hc : c < columns.length
  · refine ⟨hc, ?_⟩
    rw [show columns.getD c [] = columns[c] by simp [List.getD, hc]] at h
    by_contra hn
    push Not at hn
    apply h
    have : ∀ l : List (CF × ℕ), (∀ t ∈ l, t.2 ≠ r) → lcOf K l r = 0 := by
      intro l
      induction l with
      | nil => simp [lcOf]
      | cons a l ih =>
        intro hl
        have e : lcOf K (a :: l) = single a.2 (LawfulCoeff.val a.1) + lcOf K l := by simp [lcOf]
        rw [e, Finsupp.add_apply, ih fun t ht => hl t (by simp [ht]), Finsupp.single_apply, if_neg (hl a (by simp)), add_zero]
    exact this _ hn
  · simp [List.getD, hc, lcOf] at h

theorem explicit_sq {columns : List (List (CF × ℕ))} {deg : ℕ → ℤ} (hX : ExplicitComplex K columns deg) (c : ℕ)
    (hc : c < columns.length) :
    linearCombination K (fun c => lcOf K (columns.getD c [])) (lcOf K (columns.getD c [])) = 0 := by
  ext x
  have h := hX.sq c hc x
  rw [show columns.getD c [] = columns[c] by simp [List.getD, hc], Finsupp.zero_apply, ← h]
  clear h
  generalize columns[c] = l
  induction l with
  | nil => simp [lcOf]
  | cons a l ih =>
    have e : lcOf K (a :: l) = single a.2 (LawfulCoeff.val a.1) + lcOf K l := by simp [lcOf]
    rw [e, map_add, Finsupp.add_apply, ih, linearCombination_single]
    simp

theorem range_split {n c : ℕ} {pre post : List ℕ} (h : List.range n = pre ++ c :: post) : pre = List.range c := by
  have h1 : pre.length < n := by have := congrArg List.length h; simp at this; omega
  have h2 : c = pre.length := by
    have := congrArg (fun l => l[pre.length]?) h
    simpa [h1] using this.symm
  have h3 := congrArg (List.take pre.length) h
  rw [List.take_left' rfl, List.take_range, min_eq_left h1.le] at h3
  rw [← h3, ← h2]

theorem explicit_rowsBefore {columns : List (List (CF × ℕ))} {deg : ℕ → ℤ} (hX : ExplicitComplex K columns deg) :
    RowsBefore (List.range columns.length) (fun c => lcOf K (columns.getD c [])) := by
  intro pre c post h r hr hne
  obtain ⟨hc, t, ht, rfl⟩ := explicit_support hne
  rw [range_split h]
  exact List.mem_range.2 (hX.faces c hc t ht).1

theorem pair_congr {T L L' : Type} [LinearOrder L] [LinearOrder L'] {key : T → L} {key' : T → L'}
    (h : ∀ a b, key a ≤ key b ↔ key' a ≤ key' b) {els : List T} {M : T → (T →₀ K)} {r c : T} :
    IsPersistencePair key els M r c ↔ IsPersistencePair key' els M r c := by
  have h' : ∀ a b, key a < key b ↔ key' a < key' b := fun a b => by rw [lt_iff_not_ge, lt_iff_not_ge, h]
  simp only [IsPersistencePair, PairRank, h, h']

end

section
variable [StdHeap] {CF K : Type} [NonZeroCoeff CF] [Field K] [LawfulCoeff CF K]
variable {columns : List (List (CF × ℕ))} {deg : ℕ → ℤ}

/-- The cells of degree `d`. -/
abbrev explicitCells (n : ℕ) (deg : ℕ → ℤ) : ℤ → List ℕ := cellsOf deg (List.range n)

theorem rowKey_mono {F : Type} [LinearOrder F] {f : ℕ → F} (hf : Monotone f) (a b : ℕ) : rowKey f a ≤ rowKey f b ↔ a ≤ b := by
  rw [rowKey, rowKey, Prod.Lex.toLex_le_toLex]
  constructor
  · rintro (h | ⟨_, h⟩)
    · exact (hf.reflect_lt h).le
    · exact h
  · intro h
    rcases (hf h).lt_or_eq with h' | h'
    · exact Or.inl h'
    · exact Or.inr ⟨h', h⟩

theorem explicit_diagram {F F' : Type} [LinearOrder F] [LinearOrder F'] {f : ℕ → F} {f' : ℕ → F'} (hf : Monotone f) (hf' : Monotone f')
    (hX : ExplicitComplex K columns deg) {fuel fuel' : ℕ → ℕ} {v v' : ℕ → Option (List (CF × ℕ))} {d d' : Diagram ℕ}
    (h : standardAlgoWithDiagram ((vecVecMatrix columns).withFunc fun i => some (f i)) (vecVecBasis columns) fuel false = some (v, d))
    (h' : standardAlgoWithDiagram ((vecVecMatrix columns).withFunc fun i => some (f' i)) (vecVecBasis columns) fuel' false = some (v', d')) :
    d = d' := by
  have hr := explicit_rowsBefore hX
  have key : ∀ r c, IsPersistencePair (rowKey f) (List.range columns.length) (fun c => lcOf K (columns.getD c [])) r c ↔
      IsPersistencePair (rowKey f') (List.range columns.length) (fun c => lcOf K (columns.getD c [])) r c :=
    fun r c => pair_congr fun a b => by rw [rowKey_mono hf, rowKey_mono hf']
  have a1 := C18_pairings (vecVec_finiteMatrix (K := K) columns f) h
  have b1 := C18_pairings (vecVec_finiteMatrix (K := K) columns f') h'
  have a2 := C19_essential (vecVec_finiteMatrix (K := K) columns f) hr h
  have b2 := C19_essential (vecVec_finiteMatrix (K := K) columns f') hr h'
  cases d; cases d'
  congr 1
  · ext x; rw [a2, b2]; simp only [key]
  · ext ⟨r, c⟩; rw [a1, b1, key]

/-- C60, end to end: for an explicit list of columns of a chain complex (cells after their faces), `standard_algo_with_diagram` with the
trivial filtration, or with any filtration that does not decrease along the list, terminates without panicking, and always returns the same
diagram: for every filtration `g` that does not decrease along the list, and every degree `p`, reading births and deaths with `g` gives the
barcode of the filtered complex, and nothing else is one. -/
theorem C60_barcode (hX : ExplicitComplex K columns deg) :
    ∃ dgm, (∃ v, ∀ fuel : ℕ → ℕ, (∀ i, i < columns.length → i + 1 ≤ fuel i) →
        standardAlgoWithDiagram (vecVecMatrix columns).withTrivial (vecVecBasis columns) fuel false = some (v, dgm)) ∧
      ∀ {F : Type} [LinearOrder F] (g : ℕ → F), Monotone g →
        (∃ v, ∀ fuel : ℕ → ℕ, (∀ i, i < columns.length → i + 1 ≤ fuel i) →
          standardAlgoWithDiagram ((vecVecMatrix columns).withFunc fun i => some (g i)) (vecVecBasis columns) fuel false = some (v, dgm)) ∧
        ∀ p q : ℤ, q = p + 1 → ∀ bars : Multiset (F × WithTop F),
          IsBarcode (fun _ _ hst => persistentBetti (fun c => lcOf K (columns.getD c []))
            (sublevel_mono g (explicitCells columns.length deg) p hst) (sublevel_mono g (explicitCells columns.length deg) q hst)) bars ↔
            bars = diagramBars deg g dgm p := by
  obtain ⟨v, dgm, h0⟩ := C16_standard_terminates (vecVec_finiteMatrix (K := K) columns fun _ => ()) false
  have h0' := fun fuel hfuel => (h0 fuel hfuel).2.2.1
  have hconst : Monotone fun _ : ℕ => () := monotone_const
  refine ⟨dgm, ⟨v, h0'⟩, ?_⟩
  intro F _ g hg
  obtain ⟨v', dgm', h1⟩ := C16_standard_terminates (vecVec_finiteMatrix (K := K) columns g) false
  have h1' := fun fuel hfuel => (h1 fuel hfuel).2.2.1
  have e : dgm = dgm' := explicit_diagram hconst hg hX (h0' (fun i => i + 1) fun _ _ => le_rfl) (h1' (fun i => i + 1) fun _ _ => le_rfl)
  subst e
  refine ⟨⟨v', h1'⟩, ?_⟩
  intro p q hpq bars
  refine C51_standard (ε := -1) (vecVec_finiteMatrix (K := K) columns g) ?_ ?_ ?_ ?_ (explicit_rowsBefore hX)
    (h1' (fun i => i + 1) fun _ _ => le_rfl) (by omega) bars
  · intro c _ r hr
    obtain ⟨hc, t, ht, rfl⟩ := explicit_support hr
    have := (hX.faces c hc t ht).2
    omega
  · intro d
    refine List.Pairwise.filter _ ?_
    have := List.pairwise_lt_range (n := columns.length)
    refine this.imp ?_
    intro a b hab
    rw [lt_iff_not_ge, rowKey_mono hg]; omega
  · intro c _ r hr
    obtain ⟨hc, t, ht, rfl⟩ := explicit_support hr
    exact List.mem_range.2 ((hX.faces c hc t ht).1.trans hc)
  · intro c hc
    exact explicit_sq hX c (List.mem_range.1 hc)

theorem aliveBars_unit (dgm : Diagram ℕ) (p : ℤ) :
    aliveBars (diagramBars deg (fun _ => ()) dgm p) () () = (dgm.essential.filter fun x => deg x = p).card := by
  have h0 : (dgm.pairings.filter fun x => deg x.1 = p ∧ (() : Unit) < ()) = ∅ := by
    ext x; simp
  rw [aliveBars, diagramBars, h0]
  rw [Multiset.countP_add, Multiset.countP_map, Multiset.filter_eq_self.2]
  · simp; rfl
  · intro x _; exact ⟨le_rfl, WithTop.coe_lt_top ()⟩

/-- The persistent Betti number of equal complexes is the Betti number. -/
theorem persistentBetti_self {T : Type} (M : T → (T →₀ K)) {X Y : Set T} (hX : X ⊆ X) (hY : Y ⊆ Y) :
    persistentBetti M hX hY = Module.finrank K (QuotBy (cyclesOn M X) (boundariesOn M Y)) := by
  have : LinearMap.range (quotByMap (cyclesOn_mono M hX) (boundariesOn_mono M hY)) = ⊤ := by
    rw [LinearMap.range_eq_top]
    rintro ⟨z⟩
    exact ⟨Submodule.Quotient.mk z, rfl⟩
  rw [persistentBetti, this, finrank_top]

/-- C60, "if you have no filtration and just want to compute homology": the number of essential cells of degree `p` is the dimension of the
homology in degree `p`. -/
theorem C60_homology (hX : ExplicitComplex K columns deg) {fuel : ℕ → ℕ} {v : ℕ → Option (List (CF × ℕ))} {dgm : Diagram ℕ}
    (h : standardAlgoWithDiagram (vecVecMatrix columns).withTrivial (vecVecBasis columns) fuel false = some (v, dgm)) (p q : ℤ) (hpq : q = p + 1) :
    (dgm.essential.filter fun x => deg x = p).card =
      Module.finrank K (QuotBy (cyclesOn (fun c => lcOf K (columns.getD c [])) {x | x < columns.length ∧ deg x = p})
        (boundariesOn (fun c => lcOf K (columns.getD c [])) {x | x < columns.length ∧ deg x = q})) := by
  obtain ⟨dgm', ⟨v', h1⟩, h2⟩ := C60_barcode hX
  have e : dgm = dgm' := explicit_diagram (f := fun _ => ()) (f' := fun _ => ()) monotone_const monotone_const hX h
    (h1 (fun i => i + 1) fun _ _ => le_rfl)
  subst e
  have h3 := (((h2 (fun _ => ()) monotone_const).2 p q hpq _).2 rfl).2 () () le_rfl
  rw [aliveBars_unit] at h3
  have hs : ∀ d, sublevel (fun _ => ()) (explicitCells columns.length deg) d () = {x | x < columns.length ∧ deg x = d} := by
    intro d; ext x; simp [sublevel, explicitCells, cellsOf]
  rw [h3]
  dsimp only
  rw [persistentBetti_self, hs, hs]

end

section
variable {columns : List (List ℕ)} {deg : ℕ → ℤ}

/-- For a matrix over `Z2` given by lists of rows it is enough that every cell occurs an even number of times among the faces of the faces. -/
theorem explicit_z2 (hfaces : ∀ c (h : c < columns.length), ∀ r ∈ columns[c], r < c ∧ deg c = deg r + 1)
    (hsq : ∀ c (h : c < columns.length), ∀ x, Even ((columns[c].flatMap fun r => columns.getD r []).count x)) :
    ExplicitComplex (CF := Z2) (ZMod 2) (columns.map fun col => col.map fun row => (NonZeroCoeff.one, row)) deg := by
  constructor
  · intro c h t ht
    simp only [List.length_map] at h
    simp only [List.getElem_map, List.mem_map] at ht
    obtain ⟨r, hr, rfl⟩ := ht
    exact hfaces c h r hr
  · intro c h x
    simp only [List.length_map] at h
    have h1 := hsq c h x
    rw [← ZMod.natCast_eq_zero_iff_even] at h1
    rw [← h1]
    simp only [List.getElem_map, List.map_map]
    generalize columns[c] = l
    induction l with
    | nil => simp
    | cons a l ih =>
      rw [List.map_cons, List.sum_cons, ih, List.flatMap_cons, List.count_append, Nat.cast_add]
      congr 1
      have e : (columns.map fun col => col.map fun row => ((NonZeroCoeff.one : Z2), row)).getD a [] =
          (columns.getD a []).map fun row => ((NonZeroCoeff.one : Z2), row) := by
        simp only [List.getD, List.getElem?_map]
        cases columns[a]? <;> simp
      simp only [Function.comp, e, lcOf_ones, LawfulCoeff.val_one, one_mul]

/-- C60 for `SimpleZ2Matrix::new_all_one`: cells after their faces, one degree lower, and every cell occurs an even number of times among the
faces of the faces of each cell. -/
theorem C60_simple_z2 [StdHeap] (hfaces : ∀ c (h : c < columns.length), ∀ r ∈ columns[c], r < c ∧ deg c = deg r + 1)
    (hsq : ∀ c (h : c < columns.length), ∀ x, Even ((columns[c].flatMap fun r => columns.getD r []).count x)) :
    ∃ dgm v, (∀ fuel : ℕ → ℕ, (∀ i, i < columns.length → i + 1 ≤ fuel i) →
        standardAlgoWithDiagram (vecVecAllOne (CF := Z2) columns).withTrivial (standardBasis columns.length) fuel false = some (v, dgm)) ∧
      ∃ M : ℕ → (ℕ →₀ ZMod 2), (∀ c x, M c x = ((columns.getD c []).count x : ZMod 2)) ∧
        ∀ {F : Type} [LinearOrder F] (g : ℕ → F), Monotone g → ∀ p q : ℤ, q = p + 1 → ∀ bars : Multiset (F × WithTop F),
          IsBarcode (fun _ _ hst => persistentBetti M (sublevel_mono g (explicitCells columns.length deg) p hst)
            (sublevel_mono g (explicitCells columns.length deg) q hst)) bars ↔ bars = diagramBars deg g dgm p := by
  have hX := explicit_z2 hfaces hsq
  obtain ⟨dgm, ⟨v, h1⟩, h2⟩ := C60_barcode hX
  refine ⟨dgm, v, ?_, fun c => lcOf (ZMod 2) ((columns.getD c []).map fun row => ((NonZeroCoeff.one : Z2), row)), ?_,
    fun g hg p q hpq bars => ?_⟩
  · intro fuel hfuel
    have := h1 fuel (by simpa using hfuel)
    rwa [vecVecBasis, List.length_map] at this
  · intro c x
    exact lcOf_ones _ _
  · have := (h2 g hg).2 p q hpq bars
    simp only [List.length_map] at this
    rw [← this]
    have e : ∀ c, (columns.map fun col => col.map fun row => ((NonZeroCoeff.one : Z2), row)).getD c [] =
        (columns.getD c []).map fun row => ((NonZeroCoeff.one : Z2), row) := by
      intro c
      simp only [List.getD, List.getElem?_map]
      cases columns[c]? <;> simp
    simp only [e]

end

/-! ### A concrete case: the projective plane with 6 vertices, 15 edges and 10 triangles -/
namespace ExplicitExample

def edges : List (ℕ × ℕ) := [(0,1),(0,2),(0,3),(0,4),(0,5),(1,2),(1,3),(1,4),(1,5),(2,3),(2,4),(2,5),(3,4),(3,5),(4,5)]
def tris : List (ℕ × ℕ × ℕ) := [(0,1,2),(0,2,3),(0,3,4),(0,4,5),(0,1,5),(1,2,4),(2,3,5),(1,3,4),(2,4,5),(1,3,5)]
def edgeIdx (a b : ℕ) : ℕ := 6 + edges.idxOf (a, b)

/-- The boundary matrix over `Z2`. -/
def colsZ2 : List (List ℕ) := List.replicate 6 [] ++ edges.map (fun e => [e.1, e.2]) ++
  tris.map fun t => [edgeIdx t.1 t.2.1, edgeIdx t.1 t.2.2, edgeIdx t.2.1 t.2.2]

/-- The boundary matrix over `Z3`. -/
def colsZ3 : List (List (ZP 3 × ℕ)) := List.replicate 6 [] ++ edges.map (fun e => [(Example.t, e.1), (Example.o, e.2)]) ++
  tris.map fun t => [(Example.o, edgeIdx t.1 t.2.1), (Example.t, edgeIdx t.1 t.2.2), (Example.o, edgeIdx t.2.1 t.2.2)]

def deg (i : ℕ) : ℤ := if i < 6 then 0 else if i < 21 then 1 else 2

example : ExplicitComplex (CF := Z2) (ZMod 2) (colsZ2.map fun col => col.map fun row => (NonZeroCoeff.one, row)) deg := by
  refine explicit_z2 (by decide +kernel) ?_
  intro c h x
  have hx : ∀ c (h : c < colsZ2.length), ∀ x ∈ (colsZ2[c].flatMap fun r => colsZ2.getD r []),
    Even ((colsZ2[c].flatMap fun r => colsZ2.getD r []).count x) := by decide +kernel
  by_cases hm : x ∈ colsZ2[c].flatMap fun r => colsZ2.getD r []
  · exact hx c h x hm
  · rw [List.count_eq_zero_of_not_mem hm]; exact ⟨0, rfl⟩

/-- Over `Z2` there is one essential cell in each degree 0, 1, 2. -/
example : letI := listHeap
    (standardAlgoWithDiagram (vecVecAllOne (CF := Z2) colsZ2).withTrivial (standardBasis 31) (fun i => i + 1) false).map
      (fun p => (p.2.essential.image deg, p.2.essential.card)) = some ({0, 1, 2}, 3) := by decide +kernel

/-- Over `Z3` there is one essential cell, in degree 0. -/
example : letI := listHeap
    (standardAlgoWithDiagram (vecVecMatrix colsZ3).withTrivial (vecVecBasis colsZ3) (fun i => i + 1) false).map
      (fun p => (p.2.essential, p.2.pairings.card)) = some ({0}, 15) := by decide +kernel

end ExplicitExample

end Phlite
