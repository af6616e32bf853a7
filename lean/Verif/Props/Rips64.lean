/-
Property theorems C57: the Rips program with 64-bit indices.
-/
import Verif.Proofs.Rips64
import Verif.Proofs.ClearingReads

set_option linter.unusedSectionVars false
set_option linter.unusedSimpArgs false

namespace Phlite
open Finsupp (single linearCombination linearCombination_single)
open OrderDual (toDual ofDual)

/-- The release build: `from_indices` wraps around. -/
def fromIndicesRelease : FromIndices := fun n_points indices => some (fromIndicesWrapping n_points indices)

section
variable {F : Type} [LinearOrder F] [Zero F] {distances : List (List F)} {d : ℕ → ℕ → F} {max_dim : ℕ}

/-! ### Single functions -/

/-- C57: `from_indices` on a 64-bit machine: the mathematical value if that is below `2^64`, otherwise a panic. -/
theorem C57_from_indices {n : ℕ} (hn : n + 1 < 2 ^ 64) {l : List ℕ} (hl : ∀ v ∈ l, v < n) {w : RipsIndex} (hw : fromIndices n l = some w) :
    fromIndices64 n l = if w < 2 ^ 64 then some (some w) else none := by
  have hne : l ≠ [] := by rintro rfl; cases hw
  rw [fromIndices_eq n hne] at hw
  rw [fromIndices64_iff l hl hn, fromIndices_eq n hne, Option.some.inj hw]

/-- C57: `build_rips_bases` on a 64-bit machine returns the bases if all indices are below `2^64`, and panics otherwise. -/
theorem C57_bases (hn : distances.length + 1 < 2 ^ 64) (bases : List (List (F × RipsIndex))) :
    buildRipsBasesW fromIndices64 distances max_dim = some bases ↔
      buildRipsBases distances max_dim = some bases ∧ ∀ basis ∈ bases, ∀ x ∈ basis, x.2 < 2 ^ 64 :=
  ⟨fun h => buildRipsBasesW_sound (fromIndices64_agrees hn) (fromIndices64_panics hn) h,
    fun h => buildRipsBasesW_succ (fromIndices64_agrees hn) h.1 h.2⟩

/-- C57: a column of the coboundary on a 64-bit machine is the column if all its row indices are below `2^64`, and a panic otherwise; a column of the
boundary of a simplex whose index is below `2^64` never overflows. -/
theorem C57_columns {CF : Type} [NonZeroCoeff CF] {n : ℕ} (hn : n + 1 < 2 ^ 64) (c : RipsIndex) :
    (∀ l, ripsCoboundaryColumnW (CF := CF) fromIndices64 n c = some l ↔ ripsCoboundaryColumn n c = some l ∧ ∀ t ∈ l, t.2 < 2 ^ 64) ∧
    (c < 2 ^ 64 → ripsBoundaryColumnW (CF := CF) fromIndices64 n c = ripsBoundaryColumn n c) :=
  ⟨fun _ => ⟨fun h => ripsCoboundaryColumnW_sound (fromIndices64_agrees hn) (fromIndices64_panics hn) h,
    fun h => ripsCoboundaryColumnW_succ (fromIndices64_agrees hn) h.1 h.2⟩, fun hc => ripsBoundaryColumnW_eq (fromIndices64_agrees hn) hc⟩

/-! ### The two copies of the model agree -/

theorem addCofacetsW_exact (max_dim fuel : ℕ) : ∀ bases simplex fil,
    addCofacetsW fromIndicesExact distances max_dim fuel bases simplex fil = addCofacets distances max_dim fuel bases simplex fil := by
  induction fuel with
  | zero => intros; rfl
  | succ fuel ih =>
    intro bases simplex fil
    unfold addCofacetsW addCofacets
    simp only [ih]
    rfl

theorem buildRipsBasesW_exact (max_dim : ℕ) : buildRipsBasesW fromIndicesExact distances max_dim = buildRipsBases distances max_dim := by
  unfold buildRipsBasesW buildRipsBases
  simp only [addCofacetsW_exact]
  rfl

theorem collectW_exact {CF : Type} [NonZeroCoeff CF] (fuel : ℕ) : ∀ it : CobIter, CobIter.collectW (CF := CF) fromIndicesExact fuel it = CobIter.collect fuel it := by
  induction fuel with
  | zero => intros; rfl
  | succ fuel ih =>
    intro it
    unfold CobIter.collectW CobIter.collect
    simp only [ih]
    rfl

theorem cobItemsW_exact {CF : Type} [NonZeroCoeff CF] (n : ℕ) (c : RipsIndex) : cobItemsW (CF := CF) fromIndicesExact n c = cobItems n c := by
  unfold cobItemsW cobItems
  congr 1
  funext base
  congr 1
  funext it
  exact collectW_exact _ it

theorem ripsBoundaryColumnW_exact {CF : Type} [NonZeroCoeff CF] (n : ℕ) (c : RipsIndex) : ripsBoundaryColumnW (CF := CF) fromIndicesExact n c = ripsBoundaryColumn n c := by
  unfold ripsBoundaryColumnW ripsBoundaryColumn
  cases toVec n c with
  | none => rfl
  | some l =>
    rw [Option.bind_some, Option.map_some]
    exact filterMapOpt_eq _ _ _ fun _ _ => rfl

/-- C57: with unbounded numbers the parametric functions are the functions of the main model: bases, boundary and coboundary (with the override of
`column_with_filtration`), and the program. -/
theorem C57_exact [StdHeap] (CF : Type) [NonZeroCoeff CF] (distances : List (List F)) :
    (∀ max_dim, buildRipsBasesW fromIndicesExact distances max_dim = buildRipsBases distances max_dim) ∧
    ripsBoundaryW fromIndicesExact CF distances = ripsBoundary CF distances ∧
    ripsCoboundaryW fromIndicesExact CF distances = ripsCoboundary CF distances ∧
    (∀ max_dim, buildRipsBoundaryMatrixW fromIndicesExact CF distances max_dim = buildRipsBoundaryMatrix CF distances max_dim) ∧
    (∀ max_dim, buildRipsCoboundaryMatrixW fromIndicesExact CF distances max_dim = buildRipsCoboundaryMatrix CF distances max_dim) ∧
    ∀ long enumE enumP arg fuel, ripsMainW fromIndicesExact CF long enumE enumP distances arg fuel = ripsMain CF long enumE enumP distances arg fuel := by
  have h1 : ripsBoundaryW fromIndicesExact CF distances = ripsBoundary CF distances := by
    unfold ripsBoundaryW ripsBoundary
    rw [funext fun c => ripsBoundaryColumnW_exact (CF := CF) distances.length c]
  have h2 : ripsCoboundaryW fromIndicesExact CF distances = ripsCoboundary CF distances := by
    unfold ripsCoboundaryW ripsCoboundary ripsCoboundaryColumnW ripsCoboundaryColumn ripsCoboundaryColFW ripsCoboundaryColF
    simp only [cobItemsW_exact]
  have h3 : ∀ max_dim, buildRipsCoboundaryMatrixW fromIndicesExact CF distances max_dim = buildRipsCoboundaryMatrix CF distances max_dim := fun max_dim => by
    unfold buildRipsCoboundaryMatrixW buildRipsCoboundaryMatrix
    rw [h2, buildRipsBasesW_exact]
  refine ⟨buildRipsBasesW_exact, h1, h2, fun max_dim => ?_, h3, fun long enumE enumP arg fuel => ?_⟩
  · unfold buildRipsBoundaryMatrixW buildRipsBoundaryMatrix
    rw [h1, buildRipsBasesW_exact]
  · unfold ripsMainW ripsMain
    simp only [h3]

/-! ### The program -/

theorem bases_fit {b : ℕ} {bases : List (List (F × RipsIndex))} (hd : ∀ i < distances.length, ∀ j < distances.length, (distances[i]?.bind fun row => row[j]?) = some (d i j))
    (h1 : 1 ≤ max_dim ∨ distances.length ≤ 1) (hb : buildRipsBases distances max_dim = some bases) :
    FitsIn b bases ↔ ∀ σ, IsSimplex distances.length σ → σ.card ≤ max_dim + 1 → simplexIndex distances.length σ < b := by
  rw [buildRipsBases_spec hd h1] at hb
  cases hb
  have key : ∀ k x, x ∈ (dimBasis distances.length d k).map Prod.snd ↔ ∃ σ, IsSimplex distances.length σ ∧ σ.card = k + 1 ∧ x = simplexIndex distances.length σ :=
    fun k x => mem_ripsCells (d := d) (n := distances.length) (k := k) (x := x)
  constructor
  · intro h σ hσ hc
    have hpos := hσ.1.card_pos
    obtain ⟨x, hx, e⟩ := List.mem_map.1 ((key (σ.card - 1) _).2 ⟨σ, hσ, by omega, rfl⟩)
    rw [← e]
    exact h _ (List.mem_map.2 ⟨σ.card - 1, List.mem_range.2 (by omega), rfl⟩) x hx
  · intro h basis hbm x hx
    obtain ⟨k, hk, rfl⟩ := List.mem_map.1 hbm
    rw [List.mem_range] at hk
    obtain ⟨σ, hσ, hc, e⟩ := (key k x.2).1 (List.mem_map.2 ⟨x, hx, rfl⟩)
    rw [e]
    exact h σ hσ (by omega)

theorem cob_column_fits {CF : Type} [NonZeroCoeff CF] {n b k : ℕ} {fi : FromIndices} (hfi : AgreesBelow fi n b)
    (hfit : ∀ σ, IsSimplex n σ → σ.card ≤ k + 1 → simplexIndex n σ < b) {σ : Finset ℕ} (hσ : IsSimplex n σ) (hc : σ.card ≤ k) :
    ripsCoboundaryColumnW (CF := CF) fi n (simplexIndex n σ) = ripsCoboundaryColumn n (simplexIndex n σ) := by
  rw [ripsCoboundaryColumn_eq hσ]
  refine ripsCoboundaryColumnW_succ hfi (ripsCoboundaryColumn_eq hσ) ?_
  intro t ht
  obtain ⟨v, hv, rfl⟩ := List.mem_map.1 ht
  rw [List.mem_filter, List.mem_range] at hv
  exact hfit _ (insert_isSimplex hσ hv.1) ((Finset.card_insert_le _ _).trans (by omega))

/-- With an implementation of `from_indices` that is right below `b`, where all simplices of dimension up to `max_dim + 1` have their indices, the
program does the same. -/
theorem ripsMainW_eq [StdHeap] (CF K : Type) [Field K] [NonZeroCoeff CF] [LawfulCoeff CF K] (hD : IsDistanceMatrix distances d) (arg : Option ℕ)
    (h1 : 1 ≤ arg.getD 1 ∨ distances.length ≤ 1) {fi : FromIndices} {b : ℕ} (hfi : AgreesBelow fi distances.length b)
    (hfit : ∀ σ, IsSimplex distances.length σ → σ.card ≤ arg.getD 1 + 2 → simplexIndex distances.length σ < b)
    (long : F → F → Bool) (enumE : Finset RipsIndexᵒᵈ → List RipsIndexᵒᵈ) (enumP : Finset (RipsIndexᵒᵈ × RipsIndexᵒᵈ) → List (RipsIndexᵒᵈ × RipsIndexᵒᵈ)) :
    ∃ enough, ∀ fuel ≥ enough, ripsMainW fi CF long enumE enumP distances arg fuel = ripsMain CF long enumE enumP distances arg fuel := by
  obtain ⟨bases, hb, -⟩ := C30_bases hD.entry h1
  have hbW : buildRipsBasesW fi distances (arg.getD 1) = some bases :=
    buildRipsBasesW_succ hfi hb ((bases_fit hD.entry h1 hb).2 fun σ hσ hc => hfit σ hσ (by omega))
  have hS := (ripsSplitCob (CF := CF) (K := K) hD hb h1).reverse
  obtain ⟨rc, dgm, hrun⟩ := C20_clearing_terminates hS
  refine ⟨((List.range (arg.getD 1 + 1)).map fun k : ℕ => (ripsCells distances.length d k).length).sum + 1, fun fuel hf => ?_⟩
  have hrun' := hrun fuel (by
    intro k hk
    rw [List.length_map, List.length_reverse]
    have : (ripsCells distances.length d k).length ≤ ((List.range (arg.getD 1 + 1)).map fun k : ℕ => (ripsCells distances.length d k).length).sum :=
      List.le_sum_of_mem (List.mem_map.2 ⟨k, hk, rfl⟩)
    omega)
  have e1 : (ripsCoboundary CF distances).ref.reverse = (ripsCoboundary CF distances).withBasis.reverse.ref := (reverse_ref _).symm
  rw [e1] at hrun'
  have e2 : buildWithDiagram (ripsCoboundaryW fi CF distances).withBasis.reverse.ref (multiDimBasis bases).reverse fuel (List.range (arg.getD 1 + 1)) =
      some (rc, dgm) := by
    refine buildWithDiagram_mono (restrict_ref_le (D := (ripsCoboundary CF distances).withBasis.reverse)
      (els := (List.range (arg.getD 1 + 1)).flatMap fun k : ℕ => (ripsCells distances.length d k).reverse.map toDual) ?_ ?_) le_rfl hrun'.2
    · intro c hc
      obtain ⟨k, hk, hc⟩ := List.mem_flatMap.1 hc
      rw [List.mem_range] at hk
      obtain ⟨x, hx, rfl⟩ := List.mem_map.1 hc
      obtain ⟨σ, hσ, hc, rfl⟩ := mem_ripsCells.1 (List.mem_reverse.1 hx)
      show (ripsCoboundaryColumnW fi distances.length (simplexIndex distances.length σ)).map _ = (ripsCoboundaryColumn distances.length _).map _
      rw [cob_column_fits hfi hfit hσ (by omega)]
      rfl
    · rfl
  unfold ripsMainW ripsMain ripsMaxDim buildRipsCoboundaryMatrixW buildRipsCoboundaryMatrix
  dsimp only
  rw [hb, hbW, Option.map_some, Option.map_some, Option.bind_some, Option.bind_some]
  dsimp only
  rw [e2, hrun'.1]
  rfl

/-- C57: if all simplices with at most `max_dim + 2` of the points have indices below `2^64`, then the command line program on a 64-bit machine, both with
overflow checks (debug build) and without (release build), produces the report of the program with unbounded numbers, for which see C52. -/
theorem C57_report [StdHeap] (CF K : Type) [Field K] [NonZeroCoeff CF] [LawfulCoeff CF K] (hD : IsDistanceMatrix distances d) (arg : Option ℕ)
    (h1 : 1 ≤ arg.getD 1 ∨ distances.length ≤ 1) (hn : distances.length + 1 < 2 ^ 64)
    (hfit : ∀ σ, IsSimplex distances.length σ → σ.card ≤ arg.getD 1 + 2 → simplexIndex distances.length σ < 2 ^ 64)
    {long : F → F → Bool} (hlong : ∀ b e, long b e = true → b < e) {enumE : Finset RipsIndexᵒᵈ → List RipsIndexᵒᵈ} (hE : Enumerates enumE)
    {enumP : Finset (RipsIndexᵒᵈ × RipsIndexᵒᵈ) → List (RipsIndexᵒᵈ × RipsIndexᵒᵈ)} (hP : Enumerates enumP) :
    ∃ report enough, ∀ fuel ≥ enough,
      ripsMain CF long enumE enumP distances arg fuel = some report ∧
      ripsMainW fromIndices64 CF long enumE enumP distances arg fuel = some report ∧
      ripsMainW fromIndicesRelease CF long enumE enumP distances arg fuel = some report := by
  obtain ⟨report, ⟨n0, r0⟩, -⟩ := C52_rips_report CF K hD arg h1 hlong hE hP
  obtain ⟨n1, r1⟩ := ripsMainW_eq CF K hD arg h1 (fromIndices64_agrees hn) hfit long enumE enumP
  obtain ⟨n2, r2⟩ := ripsMainW_eq CF K hD arg h1 (fi := fromIndicesRelease) fromIndicesWrapping_agrees hfit long enumE enumP
  refine ⟨report, max n0 (max n1 n2), fun fuel hf => ?_⟩
  have h0 := r0 fuel (by omega)
  exact ⟨h0, (r1 fuel (by omega)).trans h0, (r2 fuel (by omega)).trans h0⟩

/-- C57: the condition of C57_report holds if `(n_points + 1)^(max_dim + 2) ≤ 2^64`. -/
theorem C57_bound {n k : ℕ} (h : (n + 1) ^ (k + 2) ≤ 2 ^ 64) : ∀ σ, IsSimplex n σ → σ.card ≤ k + 2 → simplexIndex n σ < 2 ^ 64 := by
  intro σ hσ hc
  rw [simplexIndex_eq n hσ.1]
  refine lt_of_lt_of_le (enc_lt_pow hσ.lt) (le_trans ?_ h)
  rw [Finset.length_sort]
  exact Nat.pow_le_pow_right (Nat.succ_pos n) hc

/-- C57: homology. If all simplices with at most `max_dim + 1` of the points have indices below `2^64`, then reducing the Rips boundary matrix on a
64-bit machine gives the same columns and the same diagram. -/
theorem C57_homology [StdHeap] (CF K : Type) [Field K] [NonZeroCoeff CF] [LawfulCoeff CF K] (hD : IsDistanceMatrix distances d)
    (h1 : 1 ≤ max_dim ∨ distances.length ≤ 1) (hn : distances.length + 1 < 2 ^ 64)
    (hfit : ∀ σ, IsSimplex distances.length σ → σ.card ≤ max_dim + 1 → simplexIndex distances.length σ < 2 ^ 64) :
    ∃ D B D64 B64, buildRipsBoundaryMatrix CF distances max_dim = some (D, B) ∧
      buildRipsBoundaryMatrixW fromIndices64 CF distances max_dim = some (D64, B64) ∧
      ∃ x enough, ∀ fuel ≥ enough, buildWithDiagram D.ref B fuel (List.range (max_dim + 1)).reverse = some x ∧
        buildWithDiagram D64.ref B64 fuel (List.range (max_dim + 1)).reverse = some x := by
  obtain ⟨bases, hb, -⟩ := C30_bases hD.entry h1
  have hbW := (C57_bases hn bases).2 ⟨hb, (bases_fit hD.entry h1 hb).2 hfit⟩
  refine ⟨_, _, _, _, by unfold buildRipsBoundaryMatrix; rw [hb]; rfl, by unfold buildRipsBoundaryMatrixW; rw [hbW]; rfl, ?_⟩
  obtain ⟨rc, dgm, hrun⟩ := C20_clearing_terminates (ripsSplitBdry (CF := CF) (K := K) hD hb h1)
  refine ⟨(rc, dgm), ((List.range (max_dim + 1)).map fun k : ℕ => (ripsCells distances.length d k).length).sum + 1, fun fuel hf => ?_⟩
  have hrun' := hrun fuel (by
    intro k hk
    rw [List.mem_reverse] at hk
    have : (ripsCells distances.length d k).length ≤ ((List.range (max_dim + 1)).map fun k : ℕ => (ripsCells distances.length d k).length).sum :=
      List.le_sum_of_mem (List.mem_map.2 ⟨k, hk, rfl⟩)
    omega)
  refine ⟨hrun'.1, ?_⟩
  refine buildWithDiagram_mono (restrict_ref_le (D := (ripsBoundary CF distances).withBasis) (D' := (ripsBoundaryW fromIndices64 CF distances).withBasis)
    (els := (List.range (max_dim + 1)).reverse.flatMap fun k : ℕ => ripsCells distances.length d k) ?_ rfl) le_rfl hrun'.2
  intro c hc
  obtain ⟨k, hk, hc⟩ := List.mem_flatMap.1 hc
  rw [List.mem_reverse, List.mem_range] at hk
  obtain ⟨σ, hσ, hc, rfl⟩ := mem_ripsCells.1 hc
  exact (C57_columns hn _).2 (hfit σ hσ (by omega))

/-! ### Overflow -/

theorem enc_snoc (n : ℕ) (l : List ℕ) (v : ℕ) : enc (n + 1) (l ++ [v]) = enc (n + 1) l + (n + 1) ^ l.length * (v + 1) := by
  induction l with
  | nil => simp [enc]
  | cons a l ih => simp only [List.cons_append, enc, ih, List.length_cons]; ring

/-- The index of a simplex with the last vertex. -/
theorem le_simplexIndex {n k : ℕ} {σ : Finset ℕ} (hσ : IsSimplex n σ) (hc : σ.card = k + 1) (hm : n - 1 ∈ σ) : n * (n + 1) ^ k ≤ simplexIndex n σ := by
  have hn : 0 < n := by have := Finset.mem_range.1 (hσ.2 hm); omega
  have hs : σ.sort (· ≤ ·) = (σ.erase (n - 1)).sort (· ≤ ·) ++ [n - 1] := by
    rw [← sort_toFinset_lt (l := (σ.erase (n - 1)).sort (· ≤ ·) ++ [n - 1])]
    · congr 1
      rw [List.toFinset_append, Finset.sort_toFinset]
      ext x
      simp only [Finset.mem_union, Finset.mem_erase, List.toFinset_cons, List.toFinset_nil, Finset.mem_insert, Finset.notMem_empty, or_false]
      constructor
      · intro hx
        by_cases h : x = n - 1
        · exact Or.inr h
        · exact Or.inl ⟨h, hx⟩
      · rintro (⟨-, h⟩ | rfl)
        · exact h
        · exact hm
    · refine List.pairwise_append.2 ⟨sort_lt _, List.pairwise_singleton _ _, ?_⟩
      intro a ha b hb
      rw [List.mem_singleton.1 hb]
      have h2 := Finset.mem_erase.1 ((Finset.mem_sort _).1 ha)
      have := Finset.mem_range.1 (hσ.2 h2.2)
      omega
  rw [simplexIndex_eq n hσ.1, hs, enc_snoc, Finset.length_sort, Finset.card_erase_of_mem hm, hc, Nat.add_sub_cancel, Nat.sub_add_cancel hn, Nat.mul_comm n]
  omega

/-- C57: overflow. With at least `max_dim + 2` points, if `n_points * (n_points + 1)^(max_dim + 1) ≥ 2^64` then the debug build of the command line program
on a 64-bit machine panics, whatever the distances: it cannot avoid to compute the index of a simplex of dimension `max_dim + 1` with the last point. -/
theorem C57_overflow [StdHeap] (CF K : Type) [Field K] [NonZeroCoeff CF] [LawfulCoeff CF K] (hD : IsDistanceMatrix distances d) (arg : Option ℕ)
    (h1 : 1 ≤ arg.getD 1) (hn : distances.length + 1 < 2 ^ 64) (hmany : arg.getD 1 + 2 ≤ distances.length)
    (hover : 2 ^ 64 ≤ distances.length * (distances.length + 1) ^ (arg.getD 1 + 1)) (long : F → F → Bool)
    (enumE : Finset RipsIndexᵒᵈ → List RipsIndexᵒᵈ) (enumP : Finset (RipsIndexᵒᵈ × RipsIndexᵒᵈ) → List (RipsIndexᵒᵈ × RipsIndexᵒᵈ)) (fuel : ℕ) :
    ripsMainW fromIndices64 CF long enumE enumP distances arg fuel = none := by
  unfold ripsMainW ripsMaxDim buildRipsCoboundaryMatrixW
  dsimp only
  cases hbW : buildRipsBasesW fromIndices64 distances (arg.getD 1) with
  | none => rfl
  | some bases =>
    obtain ⟨hb, -⟩ := (C57_bases hn bases).1 hbW
    have hS := (ripsSplitCob (CF := CF) (K := K) hD hb (Or.inl h1)).reverse
    rw [← reverse_ref, List.range_succ] at hS
    have hnone : ∀ σ, IsSimplex distances.length σ → σ.card = arg.getD 1 + 1 →
        ripsCoboundaryColumnW (CF := CF) fromIndices64 distances.length (simplexIndex distances.length σ) = none := by
      intro σ hσ hc
      by_contra hcon
      obtain ⟨l, hl⟩ := Option.ne_none_iff_exists'.1 hcon
      obtain ⟨hl1, hl2⟩ := ((C57_columns hn _).1 l).1 hl
      rw [ripsCoboundaryColumn_eq hσ] at hl1
      cases hl1
      -- a cofacet with the last vertex
      obtain ⟨v, hv, hvσ, hlast⟩ : ∃ v < distances.length, v ∉ σ ∧ distances.length - 1 ∈ insert v σ := by
        by_cases hm : distances.length - 1 ∈ σ
        · have : ∃ v ∈ Finset.range distances.length, v ∉ σ := by
            by_contra hall
            push Not at hall
            have := Finset.card_le_card (show Finset.range distances.length ⊆ σ from hall)
            rw [Finset.card_range] at this
            omega
          obtain ⟨v, hv, hvσ⟩ := this
          exact ⟨v, Finset.mem_range.1 hv, hvσ, Finset.mem_insert_of_mem hm⟩
        · exact ⟨distances.length - 1, by omega, hm, Finset.mem_insert_self _ _⟩
      have h3 := hl2 (parity (posIn σ v), simplexIndex distances.length (insert v σ)) (List.mem_map.2 ⟨v, List.mem_filter.2 ⟨List.mem_range.2 hv, by simpa using hvσ⟩, rfl⟩)
      have h4 := le_simplexIndex (insert_isSimplex hσ hv) (k := arg.getD 1 + 1) (by rw [Finset.card_insert_of_notMem hvσ, hc]) hlast
      exact absurd (lt_of_le_of_lt (hover.trans h4) h3) (lt_irrefl _)
    have hσ0 : IsSimplex distances.length (Finset.range (arg.getD 1 + 1)) :=
      ⟨⟨0, by simp⟩, by intro x hx; rw [Finset.mem_range] at hx ⊢; omega⟩
    have hsh : IsSimplex distances.length (insert (arg.getD 1 + 1) (Finset.range (arg.getD 1 + 1))) := insert_isSimplex hσ0 (by omega)
    have hrun : buildWithDiagram (ripsCoboundaryW fromIndices64 CF distances).withBasis.reverse.ref (multiDimBasis bases).reverse fuel
        (List.range (arg.getD 1 + 1)) = none := by
      rw [List.range_succ]
      refine clearing_reads_last hS (D' := (ripsCoboundaryW fromIndices64 CF distances).withBasis.reverse.ref) ?_ ?_
        (c := toDual (simplexIndex distances.length (Finset.range (arg.getD 1 + 1)))) ?_ ?_ fuel
      · have hcol : OLE (ripsCoboundaryW fromIndices64 CF distances).withBasis.reverse.column (ripsCoboundary CF distances).reverse.column := by
          intro c l hl
          obtain ⟨l', hl', rfl⟩ := Option.map_eq_some_iff.1 hl
          exact Option.map_eq_some_iff.2 ⟨l', (((C57_columns hn _).1 l').1 hl').1, rfl⟩
        exact ⟨hcol, OLE.refl _, defaultColF_mono hcol (OLE.refl _)⟩
      · intro c hc
        obtain ⟨x, hx, rfl⟩ := List.mem_map.1 hc
        obtain ⟨σ, hσ, hcard, rfl⟩ := mem_ripsCells.1 (List.mem_reverse.1 hx)
        show defaultColF (ripsCoboundaryW fromIndices64 CF distances).withBasis.reverse.toOracle _ _ = none
        unfold defaultColF
        have : (ripsCoboundaryW fromIndices64 CF distances).withBasis.reverse.column (toDual (simplexIndex distances.length σ)) = none := by
          show (ripsCoboundaryColumnW fromIndices64 distances.length (simplexIndex distances.length σ)).map _ = none
          rw [hnone σ hσ hcard]; rfl
        rw [this]; rfl
      · exact List.mem_map.2 ⟨_, List.mem_reverse.2 (mem_ripsCells.2 ⟨_, hσ0, by simp, rfl⟩), rfl⟩
      · intro h0
        have h2 := DFunLike.congr_fun h0 (toDual (simplexIndex distances.length (insert (arg.getD 1 + 1) (Finset.range (arg.getD 1 + 1)))))
        have h3 : ripsN K distances.length (simplexIndex distances.length (Finset.range (arg.getD 1 + 1)))
            (simplexIndex distances.length (insert (arg.getD 1 + 1) (Finset.range (arg.getD 1 + 1)))) = 0 := by
          simpa [dualCols] using h2
        unfold ripsN at h3
        rw [decode_simplex hσ0, mapDomain_index_apply (fun ρ hρ => (cob_isSimplex hσ0 hρ).1) hsh] at h3
        unfold simplexCoboundary at h3
        rw [Finsupp.finsetSum_apply, Finset.sum_eq_single (arg.getD 1 + 1)] at h3
        · rw [Finsupp.single_eq_same] at h3
          exact pow_ne_zero _ (neg_ne_zero.2 one_ne_zero) h3
        · intro v hv hne
          rw [Finset.mem_sdiff] at hv
          rw [Finsupp.single_eq_of_ne]
          intro e
          have : v ∈ insert (arg.getD 1 + 1) (Finset.range (arg.getD 1 + 1)) := by rw [e]; exact Finset.mem_insert_self _ _
          rcases Finset.mem_insert.1 this with h | h
          · exact hne h
          · exact hv.2 h
        · intro hnot
          exfalso
          apply hnot
          simp; omega
    rw [Option.map_some, Option.bind_some]
    dsimp only
    cases ripsSizes (multiDimBasis bases).reverse (arg.getD 1) with
    | none => rfl
    | some sizes =>
      rw [Option.bind_some, hrun]; rfl

end

namespace RipsExample

/-- The hypotheses of C57_report and C57_homology hold of the square, and the 64-bit programs print the report of `ripsMain` (Props/RipsReport). -/
example : letI := listHeap
    (∀ σ, IsSimplex dist.length σ → σ.card ≤ (none : Option ℕ).getD 1 + 2 → simplexIndex dist.length σ < 2 ^ 64) ∧ dist.length + 1 < 2 ^ 64 ∧
    (ripsMainW fromIndices64 Z2 (fun b e => decide (b < e)) enumE enumP dist none 20).map (fun r => (r.sizes, r.pairings.map fun x => (x.1, x.2.2))) =
      some ([(0, 4), (1, 6)], [(1, 1, 2), (0, 0, 1), (0, 0, 1), (0, 0, 1)]) ∧
    (ripsMainW fromIndicesRelease Z2 (fun b e => decide (b < e)) enumE enumP dist none 20).map (fun r => (r.sizes, r.pairings.map fun x => (x.1, x.2.2))) =
      some ([(0, 4), (1, 6)], [(1, 1, 2), (0, 0, 1), (0, 0, 1), (0, 0, 1)]) :=
  ⟨C57_bound (by decide), by decide, by decide +kernel, by decide +kernel⟩

/-- The bound of C57_bound: 2000000 points with the default maximum dimension, 65000 points with maximum dimension 2. -/
example : (2000000 + 1) ^ (1 + 2) ≤ 2 ^ 64 ∧ (65000 + 1) ^ (2 + 2) ≤ 2 ^ 64 := by decide

/-- 16 points at distance 1 from each other. -/
def dist16 : List (List ℕ) := (List.range 16).map fun i => (List.range 16).map fun j => if i = j then 0 else 1
def d16 (i j : ℕ) : ℕ := if i = j then 0 else 1

/-- The hypotheses of C57_overflow: 16 points are enough for an overflow, if the maximum dimension is 14. -/
example : IsDistanceMatrix dist16 d16 ∧ 1 ≤ (some 14 : Option ℕ).getD 1 ∧ (some 14 : Option ℕ).getD 1 + 2 ≤ dist16.length ∧
    2 ^ 64 ≤ dist16.length * (dist16.length + 1) ^ ((some 14 : Option ℕ).getD 1 + 1) := by
  refine ⟨?_, by decide, by decide +kernel, by decide +kernel⟩
  constructor <;> decide +kernel

/-- The index of the simplex of all 16 points: too large. -/
example : fromIndices64 16 (List.range 16) = none ∧ (fromIndices 16 (List.range 16)).isSome ∧ fromIndices64 16 (List.range 15) = fromIndices 16 (List.range 15) := by
  decide +kernel

end RipsExample
end Phlite
