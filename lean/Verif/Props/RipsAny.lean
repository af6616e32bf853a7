/-
Property theorems C75: the Rips program on any matrix of numbers.
-/
import Verif.Props.ClearingAny
import Verif.Props.RipsReport
import Verif.Proofs.ClearingPanics

set_option linter.unusedSectionVars false
set_option linter.unusedSimpArgs false

namespace Phlite
open Finsupp (single linearCombination)
open OrderDual (toDual ofDual)

section
variable {CF T F K : Type} [NonZeroCoeff CF] [Field K] [LawfulCoeff CF K] [LinearOrder F] [LinearOrder T]
variable {D : FOracle CF T T F} {B : SplitBasis T} {f : T → F} {M : T → (T →₀ K)} {dims : List ℕ} {els : ℕ → List T}

theorem DimensionedMatrix.reverse (h : DimensionedMatrix K D B f M dims els) :
    DimensionedMatrix K D.reverse B.reverse (dualFilt f) (dualCols M) dims fun d => (els d).reverse.map toDual where
  basis d hd := by
    obtain ⟨Bd, h1, h2⟩ := h.basis d hd
    exact ⟨Bd.reverse, by simp [SplitBasis.reverse, h1], C14_reverse_elems Bd _ h2⟩
  nodup d hd := (List.nodup_reverse.2 (h.nodup d hd)).map (toDual : T ≃ Tᵒᵈ).injective
  good d hd c hc := by
    obtain ⟨x, hx, rfl⟩ := List.mem_map.1 hc
    exact (h.good d hd x (by simpa using hx)).reverse
  rows d hd c hc r hr := by
    obtain ⟨x, hx, rfl⟩ := List.mem_map.1 hc
    obtain ⟨y, hy, rfl⟩ := List.mem_map.1 hr
    rw [dualCols_apply]
    exact h.rows d hd x (by simpa using hx) y (by simpa using hy)

/-- Where the cells of the diagram come from. -/
theorem clearing_fold_mem (hnd : ∀ d ∈ dims, (els d).Nodup) (g : Set (T × T) × Set T) :
    (∀ p ∈ (dims.foldl (fun g d => clearingStep f M g (els d)) g).1, p ∈ g.1 ∨ ∃ d ∈ dims, p.2 ∈ els d ∧ ∃ x ∈ els d, M x p.1 ≠ 0) ∧
    ∀ c ∈ (dims.foldl (fun g d => clearingStep f M g (els d)) g).2, c ∈ g.2 ∨ ∃ d ∈ dims, c ∈ els d := by
  classical
  induction dims generalizing g with
  | nil => exact ⟨fun p hp => Or.inl hp, fun c hc => Or.inl hc⟩
  | cons d q ih =>
    obtain ⟨h1, h2⟩ := ih (fun d' hd' => hnd d' (by simp [hd'])) (clearingStep f M g (els d))
    have hn : ((els d).filter fun c => decide (c ∉ diagramCells g.1 g.2)).Nodup := (hnd d (by simp)).filter _
    obtain ⟨W, hW⟩ := exists_decomp (K := K) (rowKey_injective f) _ hn M
    constructor
    · intro p hp
      rcases h1 p hp with h | ⟨d', hd', h⟩
      · rcases h with h | h
        · exact Or.inl h
        · obtain ⟨h3, h4⟩ := (hW.pair_iff (rowKey_injective f) p.1 p.2).1 h
          obtain ⟨x, x1, x2⟩ := lc_support h4.1
          exact Or.inr ⟨d, by simp, (List.mem_filter.1 h3).1, x, (List.mem_filter.1 (hW.mem_of_ne h3 x1)).1, x2⟩
      · exact Or.inr ⟨d', by simp [hd'], h⟩
    · intro c hc
      rcases h2 c hc with h | ⟨d', hd', h⟩
      · rcases h with h | h
        · exact Or.inl h
        · exact Or.inr ⟨d, by simp, (List.mem_filter.1 ((hW.zero_iff (rowKey_injective f) c).1 h).1).1⟩
      · exact Or.inr ⟨d', by simp [hd'], h⟩

end

section
variable {F : Type} [LinearOrder F] [Zero F]
variable {distances : List (List F)} {d : ℕ → ℕ → F}

/-- The Rips coboundary matrix of any square matrix. -/
theorem ripsDimensioned (CF K : Type) [Field K] [NonZeroCoeff CF] [LawfulCoeff CF K]
    (hd : ∀ i < distances.length, ∀ j < distances.length, distAt distances i j = some (d i j)) {max_dim : ℕ}
    {bases : List (List (F × RipsIndex))} (hb : buildRipsBases distances max_dim = some bases)
    (h1 : 1 ≤ max_dim ∨ distances.length ≤ 1) :
    DimensionedMatrix K (ripsCoboundary CF distances).ref (multiDimBasis bases) (ripsF distances) (ripsN K distances.length)
      (List.range (max_dim + 1)) fun k => ripsCells distances.length d k where
  basis k hk := ripsBasis hd hb h1 k (by rw [List.mem_range] at hk; omega)
  nodup k _ := dimBasis_nodup _ _
  good k _ c hc := by
    obtain ⟨σ, s1, s2, rfl⟩ := mem_ripsCells.1 hc
    exact reads_ripsCoboundary hd s1
  rows k _ c hc r hr := by
    obtain ⟨σ, s1, s2, rfl⟩ := mem_ripsCells.1 hc
    obtain ⟨τ, t1, t2, rfl⟩ := mem_ripsCells.1 hr
    by_contra hne
    unfold ripsN at hne
    rw [decode_simplex s1] at hne
    obtain ⟨ρ, r1, r2⟩ := mapDomain_index_ne hne
    obtain ⟨k1, k2⟩ := cob_isSimplex s1 r1
    have := simplexIndex_inj k1 t1 r2.symm
    rw [← this] at t2
    omega

variable [StdHeap]

/-- C75: the command line program of phlite_rips on any square matrix of numbers: the matrix need not be symmetric, non-negative or zero on the diagonal. With a
maximum dimension of at least 1 (or at most one point) the program terminates without panicking. It prints the numbers of simplices, and every
line shows simplices of the right dimensions with the greatest matrix entries on their vertices (rows and columns, including the diagonal). -/
theorem C75_rips_any_matrix (CF K : Type) [Field K] [NonZeroCoeff CF] [LawfulCoeff CF K]
    (hd : ∀ i < distances.length, ∀ j < distances.length, (distances[i]?.bind fun row => row[j]?) = some (d i j)) (arg : Option ℕ)
    (h1 : 1 ≤ arg.getD 1 ∨ distances.length ≤ 1) (long : F → F → Bool) {enumE : Finset RipsIndexᵒᵈ → List RipsIndexᵒᵈ} (hE : Enumerates enumE)
    {enumP : Finset (RipsIndexᵒᵈ × RipsIndexᵒᵈ) → List (RipsIndexᵒᵈ × RipsIndexᵒᵈ)} (hP : Enumerates enumP) :
    ∃ report, (∃ enough, ∀ fuel ≥ enough, ripsMain CF long enumE enumP distances arg fuel = some report) ∧
      report.sizes = (List.range (arg.getD 1 + 1)).map (fun k => (k, distances.length.choose (k + 1))) ∧
      (∀ x ∈ report.essential, x.1 ≤ arg.getD 1 ∧ ∃ σ, IsSimplex distances.length σ ∧ σ.card = x.1 + 1 ∧
        ofDual x.2.1 = simplexIndex distances.length σ ∧ IsDiameter d σ x.2.2) ∧
      ∀ x ∈ report.pairings, x.1 ≤ arg.getD 1 ∧ ∃ σ τ, IsSimplex distances.length σ ∧ σ.card = x.1 + 1 ∧
        IsSimplex distances.length τ ∧ τ.card = x.1 + 2 ∧
        ofDual x.2.1.1 = simplexIndex distances.length σ ∧ ofDual x.2.1.2 = simplexIndex distances.length τ ∧
        IsDiameter d σ x.2.2.1 ∧ IsDiameter d τ x.2.2.2 ∧ long x.2.2.1 x.2.2.2 = true := by
  have hbs := buildRipsBases_spec hd h1
  have hS := (ripsDimensioned CF K hd hbs h1).reverse
  obtain ⟨rc, dgm, hrun, hdgm, -, -⟩ := C74_any_matrix hS
  obtain ⟨hfP, hfE⟩ := clearing_fold_mem (f := dualFilt (ripsF distances)) (M := dualCols (ripsN K distances.length))
    hS.nodup (∅, ∅)
  rw [← hdgm] at hfP hfE
  have hess : ∀ x ∈ dgm.essential, ∃ σ, IsSimplex distances.length σ ∧ σ.card ≤ arg.getD 1 + 1 ∧ ofDual x = simplexIndex distances.length σ := by
    intro x hx
    rcases hfE x hx with h | ⟨k, hk, hxk⟩
    · cases h
    · obtain ⟨y, hy, rfl⟩ := List.mem_map.1 hxk
      rw [List.mem_reverse] at hy
      obtain ⟨σ, h3, h4, rfl⟩ := mem_ripsCells.1 hy
      rw [List.mem_range] at hk
      exact ⟨σ, h3, by omega, rfl⟩
  have hpairs : ∀ x ∈ dgm.pairings, ∃ σ τ, (IsSimplex distances.length σ ∧ σ.card ≤ arg.getD 1 + 1 ∧ ofDual x.2 = simplexIndex distances.length σ) ∧
      IsSimplex distances.length τ ∧ τ.card = σ.card + 1 ∧ ofDual x.1 = simplexIndex distances.length τ := by
    rintro ⟨x, y⟩ hx
    rcases hfP (x, y) hx with h | ⟨k, hk, hyk, z, hzk, hzx⟩
    · cases h
    · obtain ⟨y, hy, rfl⟩ := List.mem_map.1 hyk
      rw [List.mem_reverse] at hy
      obtain ⟨σ, h3, h4, rfl⟩ := mem_ripsCells.1 hy
      rw [List.mem_range] at hk
      obtain ⟨z, hz, rfl⟩ := List.mem_map.1 hzk
      rw [List.mem_reverse] at hz
      obtain ⟨ρ, h5, h6, rfl⟩ := mem_ripsCells.1 hz
      rw [dualCols_ne] at hzx
      unfold ripsN at hzx
      simp only [OrderDual.ofDual_toDual] at hzx
      rw [decode_simplex h5] at hzx
      obtain ⟨τ, r1, r2⟩ := mapDomain_index_ne hzx
      obtain ⟨k1, k2⟩ := cob_isSimplex h5 r1
      exact ⟨σ, τ, ⟨h3, by omega, rfl⟩, k1, by omega, r2⟩
  have hdiam : ∀ σ, IsSimplex distances.length σ → IsDiameter d σ (ripsF distances (simplexIndex distances.length σ)) := by
    intro σ hσ
    have hle := ripsF_le hd hσ
    refine ⟨(hle _).1 le_rfl, ?_⟩
    by_contra hne
    push Not at hne
    obtain ⟨m, hm1, hm2⟩ := Finset.exists_max_image (σ ×ˢ σ) (fun p => d p.1 p.2) (by
      obtain ⟨v, hv⟩ := hσ.1
      exact ⟨(v, v), Finset.mk_mem_product hv hv⟩)
    obtain ⟨a, b⟩ := m
    rw [Finset.mem_product] at hm1
    have h5 : ripsF distances (simplexIndex distances.length σ) ≤ d a b :=
      (hle _).2 fun a' ha' b' hb' => hm2 (a', b') (Finset.mk_mem_product ha' hb')
    exact hne a hm1.1 b hm1.2 (le_antisymm ((hle _).1 le_rfl a hm1.1 b hm1.2) h5)
  have hfs : ∀ σ, IsSimplex distances.length σ → ∀ x, ofDual x = simplexIndex distances.length σ →
      (ripsCoboundary CF distances).withBasis.reverse.filt x = some (toDual (ripsF distances (simplexIndex distances.length σ))) := by
    intro σ hσ x e
    show ((ripsFiltrationValue distances (ofDual x)).map toDual) = _
    rw [e, ripsF_eq hd hσ]; rfl
  set B := multiDimBasis ((List.range (arg.getD 1 + 1)).map fun k => dimBasis distances.length d k) with hB
  have hsz : ripsSizes B.reverse (arg.getD 1) = some ((List.range (arg.getD 1 + 1)).map fun k => (k, distances.length.choose (k + 1))) := by
    refine mapOpt_of_forall fun k hk => ?_
    rw [List.mem_range] at hk
    have : B.reverse.inDim k = some (singleDimBasis (dimBasis distances.length d k)).reverse := by
      simp [hB, SplitBasis.reverse, multiDimBasis, hk]
    rw [this, Option.map_some]
    show some (k, (dimBasis distances.length d k).length) = _
    rw [dimBasis_length]
  have hre : ripsEssential (ripsCoboundary CF distances).withBasis.reverse.filt distances.length (enumE dgm.essential) =
      some ((enumE dgm.essential).map fun x => ((ripsDimension distances.length (ofDual x)).getD 0, x, ripsF distances (ofDual x))) := by
    refine mapOpt_of_forall fun x hx => ?_
    obtain ⟨σ, hσ, hc, e⟩ := hess x ((hE _).2 x |>.1 hx)
    rw [hfs σ hσ x e, Option.bind_some, e, ripsDimension_simplex hσ]
    rfl
  have hrp : ripsPairings long (ripsCoboundary CF distances).withBasis.reverse.filt distances.length (enumP dgm.pairings) =
      some ((enumP dgm.pairings).filterMap fun x => if long (ripsF distances (ofDual x.2)) (ripsF distances (ofDual x.1)) then
        some ((ripsDimension distances.length (ofDual x.2)).getD 0, (x.2, x.1), ripsF distances (ofDual x.2), ripsF distances (ofDual x.1)) else none) := by
    refine filterMapOpt_eq _ _ _ fun x hx => ?_
    obtain ⟨σ, τ, ⟨hσ, hc, e⟩, hτ, hc', e'⟩ := hpairs x ((hP _).2 x |>.1 hx)
    rw [hfs σ hσ x.2 e, hfs τ hτ x.1 e', e, e', ripsDimension_simplex hσ]
    rfl
  refine ⟨⟨(List.range (arg.getD 1 + 1)).map fun k => (k, distances.length.choose (k + 1)),
    (enumE dgm.essential).map fun x => ((ripsDimension distances.length (ofDual x)).getD 0, x, ripsF distances (ofDual x)),
    (enumP dgm.pairings).filterMap fun x => if long (ripsF distances (ofDual x.2)) (ripsF distances (ofDual x.1)) then
        some ((ripsDimension distances.length (ofDual x.2)).getD 0, (x.2, x.1), ripsF distances (ofDual x.2), ripsF distances (ofDual x.1)) else none⟩,
    ⟨((List.range (arg.getD 1 + 1)).map fun k : ℕ => (ripsCells distances.length d k).length).sum + 1, fun fuel hf => ?_⟩, rfl, ?_, ?_⟩
  · unfold ripsMain ripsMaxDim buildRipsCoboundaryMatrix
    dsimp only
    rw [hbs, Option.map_some, Option.bind_some]
    dsimp only
    rw [← hB, hsz, Option.bind_some, reverse_ref]
    have := (hrun fuel fun k hk => by
      rw [List.length_map, List.length_reverse]
      have : (ripsCells distances.length d k).length ≤ ((List.range (arg.getD 1 + 1)).map fun k : ℕ => (ripsCells distances.length d k).length).sum :=
        List.le_sum_of_mem (List.mem_map.2 ⟨k, hk, rfl⟩)
      omega).2
    rw [withBasis_ref, this, Option.bind_some, hre, Option.bind_some, hrp, Option.map_some]
  · intro x hx
    obtain ⟨y, hy, rfl⟩ := List.mem_map.1 hx
    obtain ⟨σ, hσ, hc, e⟩ := hess y ((hE _).2 y |>.1 hy)
    have hpos := hσ.1.card_pos
    dsimp only
    rw [e, ripsDimension_simplex hσ, Option.getD_some]
    exact ⟨by omega, σ, hσ, by omega, rfl, hdiam σ hσ⟩
  · intro x hx
    obtain ⟨y, hy, hx⟩ := List.mem_filterMap.1 hx
    split at hx
    · rename_i hlong
      cases hx
      obtain ⟨σ, τ, ⟨hσ, hc, e⟩, hτ, hc', e'⟩ := hpairs y ((hP _).2 y |>.1 hy)
      have hpos := hσ.1.card_pos
      dsimp only
      rw [e, e'] at hlong
      rw [e, e', ripsDimension_simplex hσ, Option.getD_some]
      exact ⟨by omega, σ, τ, hσ, by omega, hτ, by omega, rfl, rfl, hdiam σ hσ, hdiam τ hτ, hlong⟩
    · cases hx

/-! ### Panics -/

omit [StdHeap] in
theorem foldlM_le {α β : Type} {g g' : β → α → Option β} (h : ∀ b a r, g b a = some r → g' b a = some r) (l : List α) :
    ∀ {b r : β}, l.foldlM g b = some r → l.foldlM g' b = some r := by
  induction l with
  | nil => intro b r hr; exact hr
  | cons a l ih =>
    intro b r hr
    rw [List.foldlM_cons] at hr ⊢
    obtain ⟨b', h1, h2⟩ := Option.bind_eq_some_iff.1 hr
    exact Option.bind_eq_some_iff.2 ⟨b', h _ _ _ h1, ih h2⟩

omit [StdHeap] in
theorem mapOpt_le {α β : Type} {g g' : α → Option β} (h : ∀ a r, g a = some r → g' a = some r) {l : List α} {r : List β}
    (hr : mapOpt g l = some r) : mapOpt g' l = some r := by
  rw [mapOpt_eq_some] at hr ⊢
  exact hr.imp fun a b hab => h a b hab

omit [StdHeap] in
/-- More entries in the matrix: the same bases. -/
theorem addCofacets_le {distances' : List (List F)} (hn : distances'.length = distances.length)
    (hle : ∀ v w x, distAt distances v w = some x → distAt distances' v w = some x) (max_dim fuel : ℕ) :
    ∀ {bases : List (List (F × RipsIndex))} {simplex : List ℕ} {fil : F} {r : List (List (F × RipsIndex))},
      addCofacets distances max_dim fuel bases simplex fil = some r → addCofacets distances' max_dim fuel bases simplex fil = some r := by
  induction fuel with
  | zero => intro bases simplex fil r h; cases h
  | succ fuel ih =>
    intro bases simplex fil r h
    unfold addCofacets at h ⊢
    rw [hn]
    obtain ⟨m, h1, h⟩ := Option.bind_eq_some_iff.1 h
    rw [h1, Option.bind_some]
    dsimp only at h ⊢
    split at h
    · rename_i he; rw [if_pos he]; exact h
    · rename_i he
      rw [if_neg he]
      refine foldlM_le ?_ _ h
      intro b v r hr
      obtain ⟨ds, h2, hr⟩ := Option.bind_eq_some_iff.1 hr
      rw [mapOpt_le (fun w x hw => hle w v x hw) h2, Option.bind_some]
      obtain ⟨m', h3, hr⟩ := Option.bind_eq_some_iff.1 hr
      rw [h3, Option.bind_some]
      try dsimp only at hr ⊢
      obtain ⟨i, h4, hr⟩ := Option.bind_eq_some_iff.1 hr
      rw [h4, Option.bind_some]
      obtain ⟨b', h5, hr⟩ := Option.bind_eq_some_iff.1 hr
      rw [h5, Option.bind_some]
      split at hr
      · rename_i hd; rw [if_pos hd]; exact ih hr
      · rename_i hd; rw [if_neg hd]; exact hr

omit [StdHeap] in
theorem buildRipsBases_le {distances' : List (List F)} (hn : distances'.length = distances.length)
    (hle : ∀ v w x, distAt distances v w = some x → distAt distances' v w = some x) {max_dim : ℕ} {bases : List (List (F × RipsIndex))}
    (h : buildRipsBases distances max_dim = some bases) : buildRipsBases distances' max_dim = some bases := by
  unfold buildRipsBases at h ⊢
  rw [hn]
  obtain ⟨b, h1, rfl⟩ := Option.map_eq_some_iff.1 h
  refine Option.map_eq_some_iff.2 ⟨b, foldlM_le ?_ _ h1, rfl⟩
  intro b v r hr
  obtain ⟨i, h2, hr⟩ := Option.bind_eq_some_iff.1 hr
  rw [h2, Option.bind_some]
  obtain ⟨b', h3, hr⟩ := Option.bind_eq_some_iff.1 hr
  rw [h3, Option.bind_some]
  exact addCofacets_le hn hle _ _ hr

/-- The matrix with its rows extended by zeros. -/
def padded (distances : List (List F)) : List (List F) := distances.map fun row => row ++ List.replicate distances.length 0

omit [StdHeap] in
theorem padded_length : (padded distances).length = distances.length := by simp [padded]

omit [StdHeap] in
theorem padded_le (v w : ℕ) (x : F) (h : distAt distances v w = some x) : distAt (padded distances) v w = some x := by
  unfold distAt padded at *
  rw [List.getElem?_map]
  cases hr : distances[v]? with
  | none => rw [hr] at h; cases h
  | some row =>
    rw [hr] at h
    simp only [Option.bind_some, Option.map_some] at h ⊢
    obtain ⟨hlt, _⟩ := List.getElem?_eq_some_iff.1 h
    rw [List.getElem?_append_left hlt]; exact h

omit [StdHeap] in
theorem padded_entry : ∀ i < (padded distances).length, ∀ j < (padded distances).length,
    distAt (padded distances) i j = some ((distAt (padded distances) i j).getD 0) := by
  intro i hi j hj
  rw [padded_length] at hi hj
  have : (distAt (padded distances) i j).isSome := by
    unfold distAt padded
    rw [List.getElem?_map, List.getElem?_eq_getElem hi]
    simp only [Option.map_some, Option.bind_some]
    rw [List.getElem?_eq_getElem (by simp; omega)]
    rfl
  obtain ⟨x, hx⟩ := Option.isSome_iff_exists.1 this
  rw [hx]; rfl

omit [StdHeap] in
/-- The filtration value of a simplex reads all entries on its vertices. -/
theorem filt_reads {σ : Finset ℕ} (h : IsSimplex distances.length σ) {m : F} (hm : ripsFiltrationValue distances (simplexIndex distances.length σ) = some m)
    {a b : ℕ} (ha : a ∈ σ) (hb : b ∈ σ) : (distAt distances a b).isSome := by
  unfold ripsFiltrationValue at hm
  rw [toVec_simplex h, Option.bind_some] at hm
  unfold maxPairwiseDistance at hm
  obtain ⟨l, h1, _⟩ := Option.bind_eq_some_iff.1 hm
  have ha' := (Finset.mem_sort (· ≤ ·)).2 ha
  have hb' := (Finset.mem_sort (· ≤ ·)).2 hb
  obtain ⟨i, hi, ei⟩ := List.getElem_of_mem ha'
  obtain ⟨j, hj, ej⟩ := List.getElem_of_mem hb'
  rw [mapOpt_eq_some] at h1
  have hmem : (i, j) ∈ ((List.range (σ.sort (· ≤ ·)).length).flatMap fun i => (List.range (σ.sort (· ≤ ·)).length).map fun j => (i, j)) :=
    List.mem_flatMap.2 ⟨i, List.mem_range.2 hi, List.mem_map.2 ⟨j, List.mem_range.2 hj, rfl⟩⟩
  obtain ⟨k, hk, ek⟩ := List.getElem_of_mem hmem
  have hk2 : k < l.length := by rw [← h1.length_eq]; exact hk
  have := (List.forall₂_iff_get.1 h1).2 k hk hk2
  simp only [List.get_eq_getElem, ek] at this
  rw [List.getElem?_eq_getElem hi, List.getElem?_eq_getElem hj, Option.bind_some, Option.bind_some, ei, ej] at this
  rw [this]; rfl

omit [StdHeap] in
theorem bases_zero_none (hn : 2 ≤ distances.length) : buildRipsBases distances 0 = none := by
  cases h : buildRipsBases distances 0 with
  | none => rfl
  | some b =>
    have h1 := buildRipsBases_le padded_length padded_le h
    rw [(C31_bases_panic (d := fun i j => (distAt (padded distances) i j).getD 0) padded_entry 0).2 ⟨rfl, by rw [padded_length]; exact hn⟩] at h1
    cases h1

/-- C75: conversely, the program panics, whatever the number of steps, if an entry of the matrix is missing, or if the maximum dimension is 0 and there are two or
more points. -/
theorem C75_rips_panics (CF K : Type) [Field K] [NonZeroCoeff CF] [LawfulCoeff CF K] (arg : Option ℕ)
    (h : (∃ i < distances.length, ∃ j < distances.length, (distances[i]?.bind fun row => row[j]?) = none) ∨ (arg.getD 1 = 0 ∧ 2 ≤ distances.length))
    (long : F → F → Bool) {enumE : Finset RipsIndexᵒᵈ → List RipsIndexᵒᵈ} (hE : Enumerates enumE)
    {enumP : Finset (RipsIndexᵒᵈ × RipsIndexᵒᵈ) → List (RipsIndexᵒᵈ × RipsIndexᵒᵈ)} (hP : Enumerates enumP) (fuel : ℕ) :
    ripsMain CF long enumE enumP distances arg fuel = none := by
  by_contra hne
  obtain ⟨rep, hrep⟩ := Option.ne_none_iff_exists'.1 hne
  unfold ripsMain ripsMaxDim at hrep
  dsimp only at hrep
  obtain ⟨⟨D, B⟩, hb, hrep⟩ := Option.bind_eq_some_iff.1 hrep
  obtain ⟨sizes, -, hrep⟩ := Option.bind_eq_some_iff.1 hrep
  obtain ⟨⟨rc, dgm⟩, hrun, hrep⟩ := Option.bind_eq_some_iff.1 hrep
  obtain ⟨ess, hess, hrep⟩ := Option.bind_eq_some_iff.1 hrep
  obtain ⟨prs, hprs, -⟩ := Option.map_eq_some_iff.1 hrep
  obtain ⟨bases, hbases, hDB⟩ := Option.map_eq_some_iff.1 hb
  obtain ⟨rfl, rfl⟩ := Prod.mk.inj hDB
  have h1 : 1 ≤ arg.getD 1 ∨ distances.length ≤ 1 := by
    by_contra hc
    have : arg.getD 1 = 0 := by omega
    rw [this, bases_zero_none (by omega)] at hbases
    cases hbases
  obtain ⟨i, hi, j, hj, hij⟩ : ∃ i < distances.length, ∃ j < distances.length, distAt distances i j = none := by
    rcases h with h | h
    · exact h
    · omega
  -- the basis of the vertices
  set d' : ℕ → ℕ → F := fun i j => (distAt (padded distances) i j).getD 0 with hd'
  have hbp := buildRipsBases_le padded_length padded_le hbases
  have hbasis := ripsBasis (d := d') padded_entry hbp (by rw [padded_length]; exact h1)
  rw [padded_length] at hbasis
  obtain ⟨Bd, hB1, hB2⟩ := hbasis 0 (Nat.zero_le _)
  have hcol : ∀ σ : Finset ℕ, IsSimplex distances.length σ → ((ripsCoboundary CF distances).ref.colF (simplexIndex distances.length σ)).isSome →
      ∀ v < distances.length, v ∉ σ → ∃ m, ripsFiltrationValue distances (simplexIndex distances.length (insert v σ)) = some m := by
    intro σ hσ hc v hv hvσ
    obtain ⟨es, hes⟩ := Option.isSome_iff_exists.1 hc
    obtain ⟨l, hl, hes⟩ := Option.bind_eq_some_iff.1 hes
    have hl' : ripsCoboundaryColumn (CF := CF) distances.length (simplexIndex distances.length σ) = some l := hl
    rw [ripsCoboundaryColumn_eq hσ, Option.some.injEq] at hl'
    have hmem : ((parity (posIn σ v) : CF), simplexIndex distances.length (insert v σ)) ∈ l := by
      rw [← hl']
      exact List.mem_map.2 ⟨v, List.mem_filter.2 ⟨List.mem_range.2 hv, by simpa using hvσ⟩, rfl⟩
    obtain ⟨k, hk, ek⟩ := List.getElem_of_mem hmem
    rw [mapOpt_eq_some] at hes
    have := (List.forall₂_iff_get.1 hes).2 k hk (by rw [← hes.length_eq]; exact hk)
    simp only [List.get_eq_getElem, ek] at this
    obtain ⟨m, hm, -⟩ := Option.map_eq_some_iff.1 this
    exact ⟨m, hm⟩
  by_cases hn : distances.length ≤ 1
  · -- a single point: its filtration value is printed
    have hi0 : i = 0 := by omega
    have hj0 : j = 0 := by omega
    have hl : distances.length = 1 := by omega
    subst hi0; subst hj0
    have hS0 : IsSimplex distances.length {0} := ⟨⟨0, by simp⟩, by rw [hl]; simp⟩
    have huniq : ∀ σ, IsSimplex distances.length σ → σ = {0} := by
      intro σ hσ
      have h2 := hσ.2
      rw [hl] at h2
      obtain ⟨v, hv⟩ := hσ.1
      ext w
      rw [Finset.mem_singleton]
      constructor
      · intro hw; have := Finset.mem_range.1 (h2 hw); omega
      · rintro rfl
        have := Finset.mem_range.1 (h2 hv)
        have h0 : v = 0 := by omega
        rw [← h0]; exact hv
    have hcol0 : ripsCoboundaryColumn (CF := CF) distances.length (simplexIndex distances.length {0}) = some [] := by
      rw [ripsCoboundaryColumn_eq hS0, hl]; rfl
    have hM : DimensionedMatrix K (ripsCoboundary CF distances).ref (multiDimBasis bases) (fun _ => (0 : F)) (fun _ => 0)
        (List.range (arg.getD 1 + 1)) fun k => ripsCells distances.length d' k := by
      refine ⟨fun k hk => hbasis k (by rw [List.mem_range] at hk; omega), fun k _ => dimBasis_nodup _ _, ?_, fun _ _ _ _ _ _ => rfl⟩
      intro k _ c hc
      obtain ⟨σ, s1, s2, rfl⟩ := mem_ripsCells.1 hc
      rw [huniq σ s1]
      exact readsCol_ref (l := []) hcol0 (by simp) rfl
    obtain ⟨rc', dgm', hrun', -, hocc, -⟩ := C74_any_matrix hM.reverse
    have hd : dgm' = dgm := by
      obtain ⟨n, hn1, hn2⟩ : ∃ n ≥ fuel, ∀ k ∈ List.range (arg.getD 1 + 1), ((ripsCells distances.length d' k).reverse.map toDual).length < n := by
        refine ⟨fuel + ((List.range (arg.getD 1 + 1)).map fun k : ℕ => (ripsCells distances.length d' k).length).sum + 1, by omega, fun k hk => ?_⟩
        rw [List.length_map, List.length_reverse]
        have : (ripsCells distances.length d' k).length ≤ ((List.range (arg.getD 1 + 1)).map fun k : ℕ => (ripsCells distances.length d' k).length).sum :=
          List.le_sum_of_mem (List.mem_map.2 ⟨k, hk, rfl⟩)
        omega
      have e1 := (hrun' n hn2).2
      have e2 := buildWithDiagram_mono (DLE.refl _) hn1 hrun
      rw [reverse_ref, withBasis_ref, e1] at e2
      exact (Prod.mk.inj (Option.some.inj e2)).2
    subst hd
    have hv := hocc 0 (List.mem_range.2 (by omega)) (toDual (simplexIndex distances.length {0})) (List.mem_map.2 ⟨_, List.mem_reverse.2
      (mem_ripsCells.2 ⟨{0}, hS0, by simp, rfl⟩), rfl⟩)
    have key : ∃ m, ripsFiltrationValue distances (simplexIndex distances.length {0}) = some m := by
      rcases hv with hv | ⟨⟨p, q⟩, hp, hv⟩
      · have hmem := ((hE dgm'.essential).2 _).2 hv
        rw [ripsEssential, mapOpt_eq_some] at hess
        obtain ⟨k, hk, ek⟩ := List.getElem_of_mem hmem
        have := (List.forall₂_iff_get.1 hess).2 k hk (by rw [← hess.length_eq]; exact hk)
        simp only [List.get_eq_getElem, ek] at this
        obtain ⟨m, hm, -⟩ := Option.bind_eq_some_iff.1 this
        obtain ⟨m', hm', -⟩ := Option.map_eq_some_iff.1 hm
        exact ⟨m', hm'⟩
      · have hmem := ((hP dgm'.pairings).2 _).2 hp
        have hread : ∀ x ∈ enumP dgm'.pairings, ∃ m m', ripsFiltrationValue distances (ofDual x.1) = some m ∧ ripsFiltrationValue distances (ofDual x.2) = some m' := by
          clear hmem
          generalize enumP dgm'.pairings = l at hprs
          unfold ripsPairings at hprs
          induction l generalizing prs with
          | nil => simp
          | cons x l ih =>
            rw [filterMapOpt] at hprs
            obtain ⟨o, ho, hprs⟩ := Option.bind_eq_some_iff.1 hprs
            obtain ⟨dm, -, ho⟩ := Option.bind_eq_some_iff.1 ho
            obtain ⟨bf, hbf, ho⟩ := Option.bind_eq_some_iff.1 ho
            obtain ⟨df, hdf, -⟩ := Option.map_eq_some_iff.1 ho
            obtain ⟨bf', hbf', -⟩ := Option.map_eq_some_iff.1 hbf
            obtain ⟨df', hdf', -⟩ := Option.map_eq_some_iff.1 hdf
            intro y hy
            rcases List.mem_cons.1 hy with rfl | hy
            · exact ⟨df', bf', hdf', hbf'⟩
            · obtain ⟨r, hr, -⟩ := Option.map_eq_some_iff.1 hprs
              exact ih _ hr y hy
        obtain ⟨m, m', hm, hm'⟩ := hread _ hmem
        rcases hv with hv | hv
        · exact ⟨m, by rw [← hm]; congr 1; show _ = ofDual p; exact (congrArg ofDual hv).symm⟩
        · exact ⟨m', by rw [← hm']; congr 1; show _ = ofDual q; exact (congrArg ofDual hv).symm⟩
    obtain ⟨m, hm⟩ := key
    have := filt_reads hS0 hm (a := 0) (b := 0) (by simp) (by simp)
    rw [hij] at this; cases this
  · -- two or more points: the columns of the vertices are read
    rw [reverse_ref, withBasis_ref] at hrun
    obtain ⟨s, hs, -⟩ := Option.map_eq_some_iff.1 hrun
    rw [List.range_succ_eq_map] at hs
    unfold clrAll at hs
    obtain ⟨s1, hs1, -⟩ := Option.bind_eq_some_iff.1 hs
    have hB1' : (multiDimBasis bases).reverse.inDim 0 = some Bd.reverse := by simp [SplitBasis.reverse, hB1]
    have hB2' := C14_reverse_elems Bd _ hB2
    obtain ⟨hlen, hel⟩ := elems_spec hB2'
    set A : RipsIndexᵒᵈ → Prop := fun c => ∃ v < distances.length, ofDual c = simplexIndex distances.length {v} with hA
    set P : RipsIndexᵒᵈ → Prop := fun c => ∃ σ, IsSimplex distances.length σ ∧ σ.card = 2 ∧ ofDual c = simplexIndex distances.length σ with hPd
    have hsing : ∀ v < distances.length, IsSimplex distances.length {v} := fun v hv => ⟨⟨v, by simp⟩, by simpa using hv⟩
    have hrowA : ∀ b, A b → ∀ l, (ripsCoboundary CF distances).ref.reverse.column b = some l → ∀ t ∈ l, P t.2 := by
      rintro b ⟨v, hv, e⟩ l hl t ht
      obtain ⟨l', hl', rfl⟩ := Option.map_eq_some_iff.1 hl
      have hl'' : ripsCoboundaryColumn (CF := CF) distances.length (ofDual b) = some l' := hl'
      rw [e, ripsCoboundaryColumn_eq (hsing v hv), Option.some.injEq] at hl''
      obtain ⟨t', ht', rfl⟩ := List.mem_map.1 ht
      rw [← hl''] at ht'
      obtain ⟨w, hw, rfl⟩ := List.mem_map.1 ht'
      obtain ⟨hw, hw'⟩ := List.mem_filter.1 hw
      have hwv : w ∉ ({v} : Finset ℕ) := by simpa using hw'
      exact ⟨insert w {v}, insert_isSimplex (hsing v hv) (List.mem_range.1 hw), by rw [Finset.card_insert_of_notMem hwv]; rfl, rfl⟩
    have hAP : ∀ c, A c → ¬ P c := by
      rintro c ⟨v, hv, e⟩ ⟨σ, hσ, hc, e'⟩
      have := simplexIndex_inj (hsing v hv) hσ (e.symm.trans e')
      rw [← this] at hc; simp at hc
    have hBA : ∀ i b, i < Bd.reverse.size → Bd.reverse.element i = some b → A b := by
      intro i b hi hb
      rw [hel i hi] at hb
      obtain ⟨y, hy, rfl⟩ := List.mem_map.1 (List.mem_of_getElem? hb)
      rw [List.mem_reverse] at hy
      obtain ⟨σ, s1, s2, rfl⟩ := mem_ripsCells.1 hy
      obtain ⟨v, rfl⟩ := Finset.card_eq_one.1 s2
      exact ⟨v, Finset.mem_range.1 (s1.2 (by simp)), rfl⟩
    have hBA' : ∀ i b, Bd.reverse.element i = some b → A b := by
      intro i b hb
      refine hBA i b ?_ hb
      by_contra hi
      have : Bd.reverse.element i = none := by
        have hsz : Bd.reverse.size = Bd.size := rfl
        rw [hsz] at hi
        simp only [Basis.reverse]
        rw [if_neg (by omega)]
      rw [this] at hb; cases hb
    have hread := (clrDimension_readF (A := A) (P := P) hrowA (fun b hb es hes e he => by
      rw [← reverse_ref] at hes
      obtain ⟨l, hl, h⟩ := mem_defaultColF (M := (ripsCoboundary CF distances).reverse.toOracle) hes
      obtain ⟨t, ht, h6⟩ := h e he
      rw [← h6]; exact hrowA b hb l hl t ht) hAP hB1' hBA' hs1).1
    have hw : ∃ w < distances.length, w ≠ i ∧ (w = j ∨ j = i) := by
      by_cases hji : j = i
      · by_cases hi0 : i = 0
        · exact ⟨1, by omega, by omega, Or.inr hji⟩
        · exact ⟨0, by omega, by omega, Or.inr hji⟩
      · exact ⟨j, hj, hji, Or.inl rfl⟩
    obtain ⟨w, hwl, hwi, hwj⟩ := hw
    have hmem : toDual (simplexIndex distances.length {i}) ∈ List.map (⇑toDual) (ripsCells distances.length d' ((0 : ℕ) : ℤ)).reverse :=
      List.mem_map.2 ⟨_, List.mem_reverse.2 (mem_ripsCells.2 ⟨{i}, hsing i hi, by simp, rfl⟩), rfl⟩
    obtain ⟨k, hk, ek⟩ := List.getElem_of_mem hmem
    rcases hread k (by omega) _ (by rw [hel k (by omega), List.getElem?_eq_getElem hk, ek]) with h5 | h5
    · cases h5
    · have h6 : ((ripsCoboundary CF distances).ref.colF (simplexIndex distances.length {i})).isSome := by
        simpa [FOracle.reverse] using h5
      obtain ⟨m, hm⟩ := hcol {i} (hsing i hi) h6 w hwl (by simpa using hwi)
      have := filt_reads (insert_isSimplex (hsing i hi) hwl) hm (a := i) (b := j) (by simp) (by
        rcases hwj with rfl | rfl <;> simp)
      rw [hij] at this; cases this

end

namespace RipsExample

/-- The dimensions and values printed with the maximum dimension `a`. -/
def shown (m : List (List ℕ)) (a : Option ℕ) : Option (List (ℕ × ℕ) × List (ℕ × ℕ) × List (ℕ × ℕ × ℕ)) :=
  letI := listHeap
  (ripsMain Z2 (fun b e => decide (b < e)) enumE enumP m a 30).map fun r => (r.sizes, r.essential.map fun x => (x.1, x.2.2), r.pairings.map fun x => (x.1, x.2.2))

/-- A matrix that is not symmetric, and its symmetrisation. -/
abbrev skew : List (List ℕ) := [[0, 1, 15, 9, 3], [2, 0, 7, 9, 11], [18, 8, 0, 9, 19], [13, 11, 10, 0, 7], [8, 15, 1, 8, 0]]
abbrev symm : List (List ℕ) := [[0, 2, 18, 13, 8], [2, 0, 8, 11, 15], [18, 8, 0, 10, 19], [13, 11, 10, 0, 8], [8, 15, 19, 8, 0]]

/-- The hypotheses of C75. -/
example : ∀ i < skew.length, ∀ j < skew.length, (skew[i]?.bind fun row => row[j]?) = some ((skew.getD i []).getD j 0) := by decide

/-- The diameters of all simplices agree, but the bases are sorted by the entries above the diagonal only, so that the interval from 10 to 13 is broken in two. -/
example : (∀ i < 5, ∀ j < 5, (symm.getD i []).getD j 0 = max ((skew.getD i []).getD j 0) ((skew.getD j []).getD i 0)) ∧
    shown skew none = some ([(0, 5), (1, 10)], [(0, 0)], [(1, 10, 11), (1, 11, 13), (0, 0, 8), (0, 0, 8), (0, 0, 8), (0, 0, 2)]) ∧
    shown symm none = some ([(0, 5), (1, 10)], [(0, 0)], [(1, 10, 13), (0, 0, 8), (0, 0, 8), (0, 0, 8), (0, 0, 2)]) := by
  refine ⟨?_, ?_, ?_⟩ <;> decide +kernel

/-- A diagonal that is not zero: the vertices are not sorted, and the answer depends on the numbering of the points. -/
example : shown [[5, 6], [6, 0]] none = some ([(0, 2), (1, 1)], [(0, 5)], [(0, 0, 6)]) ∧
    shown [[0, 6], [6, 5]] none = some ([(0, 2), (1, 1)], [(0, 0)], [(0, 5, 6)]) := by
  refine ⟨?_, ?_⟩ <;> decide +kernel

/-- Panics: short rows, no entry for the only point, or a maximum dimension of 0; but not on a single point or no points. -/
example : shown [[0, 6], [6]] none = none ∧ shown [[]] none = none ∧ shown [[0, 6], [6, 0]] (some 0) = none ∧
    shown [[7]] (some 0) = some ([(0, 1)], [(0, 7)], []) ∧ shown [] (some 0) = some ([(0, 0)], [], []) := by
  refine ⟨?_, ?_, ?_, ?_, ?_⟩ <;> decide +kernel

end RipsExample
end Phlite
