/-
Property theorems C80: the Rips matrices with the standard algorithm, and the numbers of pairs.
-/
import Verif.Props.RipsReport
import Verif.Props.Bottleneck

set_option linter.unusedSectionVars false
set_option linter.unusedSimpArgs false

namespace Phlite
open OrderDual (toDual ofDual)

section
variable {F CF K : Type} [LinearOrder F] [Zero F] [Field K] [NonZeroCoeff CF] [LawfulCoeff CF K] [StdHeap]
variable {distances : List (List F)} {d : ℕ → ℕ → F} {max_dim : ℕ}

/-- All simplices, in the order of the basis. -/
def ripsAll (n : ℕ) (d : ℕ → ℕ → F) (max_dim : ℕ) : List RipsIndex := (List.range (max_dim + 1)).flatMap fun k : ℕ => ripsCells n d k

theorem ripsAll_elems (hd : ∀ i < distances.length, ∀ j < distances.length, distAt distances i j = some (d i j)) {bases : List (List (F × RipsIndex))}
    (hb : buildRipsBases distances max_dim = some bases) (h1 : 1 ≤ max_dim ∨ distances.length ≤ 1) :
    (multiDimBasis bases).toBasis.elems = some (ripsAll distances.length d max_dim) := by
  rw [buildRipsBases_spec hd h1] at hb
  cases hb
  obtain ⟨e1, e2, -⟩ := C39_multi_dim_basis ((List.range (max_dim + 1)).map fun k => dimBasis distances.length d k)
  have e3 : (((List.range (max_dim + 1)).map fun k => dimBasis distances.length d k).flatMap fun b => b.map Prod.snd) = ripsAll distances.length d max_dim := by
    rw [List.flatMap_map]; rfl
  rw [e3] at e1 e2
  unfold Basis.elems
  rw [e1, show (multiDimBasis ((List.range (max_dim + 1)).map fun k => dimBasis distances.length d k)).toBasis.element =
    fun i => (ripsAll distances.length d max_dim)[i]? from funext e2]
  exact vecBasis_elems (ripsAll distances.length d max_dim)

theorem ripsAll_deg {c : RipsIndex} (hc : c ∈ ripsAll distances.length d max_dim) :
    ∃ k ≤ max_dim, ∃ σ, IsSimplex distances.length σ ∧ σ.card = k + 1 ∧ c = simplexIndex distances.length σ ∧ c ∈ ripsCells distances.length d k ∧
      ripsDeg distances.length c = k := by
  obtain ⟨k, hk, hc⟩ := List.mem_flatMap.1 hc
  rw [List.mem_range] at hk
  obtain ⟨σ, h1, h2, rfl⟩ := mem_ripsCells.1 hc
  refine ⟨k, by omega, σ, h1, h2, rfl, hc, ?_⟩
  rw [ripsDeg_simplex h1]; omega

theorem ripsAll_sorted (n : ℕ) (d : ℕ → ℕ → F) (max_dim : ℕ) : (ripsAll n d max_dim).Pairwise fun a b => ripsDeg n a ≤ ripsDeg n b := by
  have hdeg : ∀ (k : ℕ), ∀ c ∈ ripsCells n d k, ripsDeg n c = k := by
    intro k c hc
    obtain ⟨σ, h1, h2, rfl⟩ := mem_ripsCells.1 hc
    rw [ripsDeg_simplex h1]; omega
  unfold ripsAll
  rw [List.pairwise_flatMap]
  constructor
  · intro k _
    exact List.pairwise_of_forall_mem_list fun a ha b hb => by rw [hdeg k a ha, hdeg k b hb]
  · refine List.pairwise_lt_range.imp ?_
    intro a b hab x hx y hy
    rw [hdeg a x hx, hdeg b y hy]
    exact_mod_cast hab.le

theorem rowsBefore_of_sorted {T : Type} {all : List T} {M : T → (T →₀ K)} {deg : T → ℤ} (hs : all.Pairwise fun a b => deg a ≤ deg b)
    (hdeg : ∀ c ∈ all, ∀ r, M c r ≠ 0 → deg r < deg c) : RowsBefore all M := by
  intro pre c post e r hr hne
  have h1 := hdeg c (by rw [e]; simp) r hne
  rw [e] at hs hr
  rcases List.mem_append.1 hr with h | h
  · exact h
  · exfalso
    rcases List.mem_cons.1 h with rfl | h
    · exact lt_irrefl _ h1
    · have := (List.pairwise_cons.1 (List.pairwise_append.1 hs).2.1).1 r h
      omega

/-- A scale at which everything has appeared. -/
theorem exists_top (d : ℕ → ℕ → F) (n : ℕ) : ∃ t : F, ∀ i < n, ∀ j < n, d i j ≤ t := by
  obtain ⟨t, ht⟩ := Finset.exists_le (((Finset.range n) ×ˢ (Finset.range n)).image fun p => d p.1 p.2)
  exact ⟨t, fun i hi j hj => ht _ (Finset.mem_image.2 ⟨(i, j), by simp [hi, hj], rfl⟩)⟩

include K in
/-- The full simplex has the homology of a point. -/
theorem top_betti {n : ℕ} (hdiag : ∀ i < n, d i i = 0) (hsymm : ∀ i < n, ∀ j < n, d i j = d j i) (hn : 1 ≤ n) {t : F} (ht : ∀ i < n, ∀ j < n, d i j ≤ t) (p : ℕ) :
    persistentBetti (simplexBoundary K) (vietorisRips_mono n d p (le_refl t)) (vietorisRips_mono n d (p + 1) (le_refl t)) = if p = 0 then 1 else 0 := by
  have h0t : 0 ≤ t := by
    have := ht 0 hn 0 hn
    rwa [hdiag 0 hn] at this
  split
  · subst p
    rw [rips_components hdiag hsymm h0t le_rfl, componentCount_complete hn fun a ha b hb _ => ht a ha b hb]
  · rename_i hp
    have hvr : ∀ p, vietorisRips n d p t = {σ | σ ⊆ Finset.range n ∧ σ.card = p + 1} := by
      intro p
      ext σ
      refine ⟨fun h => ⟨h.1, h.2.1⟩, fun h => ⟨h.1, h.2, ?_⟩⟩
      intro a ha b hb
      exact ht a (by simpa using h.1 ha) b (by simpa using h.1 hb)
    unfold persistentBetti
    rw [finrank_range_eq_zero]
    have := cone_cycles (K := K) (n := n) (p := p) (by omega) hn
    rw [hvr, hvr]
    exact this

/-- Pascal's rule, as it occurs here. -/
theorem choose_pascal {n : ℕ} (hn : 1 ≤ n) (k : ℕ) : n.choose (k + 1) = (n - 1).choose k + (n - 1).choose (k + 1) := by
  obtain ⟨m, rfl⟩ : ∃ m, n = m + 1 := ⟨n - 1, by omega⟩
  rw [Nat.choose_succ_succ]; rfl

theorem ripsCells_length (n : ℕ) (d : ℕ → ℕ → F) (k : ℕ) : (ripsCells n d k).length = n.choose (k + 1) := by
  show ((dimBasis n d k).map Prod.snd).length = _
  rw [List.length_map, dimBasis_length]

/-- Degrees of simplices. -/
theorem ripsDeg_iff {n : ℕ} {σ : Finset ℕ} (h : IsSimplex n σ) (k : ℕ) : ripsDeg n (simplexIndex n σ) = k ↔ ripsDimension n (simplexIndex n σ) = some k := by
  have := h.1.card_pos
  rw [ripsDeg_simplex h, ripsDimension_simplex h, Option.some.injEq]
  omega

include K in
/-- C80: the coboundary matrix of any distance matrix with the standard algorithm, on the whole basis, and with clearing: both end with the same diagram. It has one essential
index if there is a point, and exactly `C(n - 1, k + 1)` pairs of each dimension `k`. -/
theorem C80_cohomology (hD : IsDistanceMatrix distances d) (h1 : 1 ≤ max_dim ∨ distances.length ≤ 1) :
    ∃ D B, buildRipsCoboundaryMatrix CF distances max_dim = some (D, B) ∧
    ∃ v rc dgm, (∀ fuel : ℕ → ℕ, (∀ i < B.size, i + 1 ≤ fuel i) → standardAlgoWithDiagram D.reverse.ref B.reverse.toBasis fuel false = some (v, dgm)) ∧
      (∃ enough, ∀ fuel ≥ enough, buildWithDiagram D.reverse.ref B.reverse fuel (List.range (max_dim + 1)) = some (rc, dgm)) ∧
      dgm.essential.card = min distances.length 1 ∧
      (∀ k ≤ max_dim, (dgm.pairings.filter fun x => ripsDimension distances.length (ofDual x.2) = some k).card = (distances.length - 1).choose (k + 1)) ∧
      dgm.pairings.card = ∑ k ∈ Finset.range (max_dim + 1), (distances.length - 1).choose (k + 1) := by
  obtain ⟨D, B, hb, rc, dgm, ⟨enough, hrun⟩, -⟩ := C33_rips_cohomology (CF := CF) (K := K) hD h1
  have hr := hrun enough le_rfl
  obtain ⟨-, hone, hnone⟩ := C45_rips_shape K hD h1 hb hr
  obtain ⟨-, -, hess, hpairs⟩ := rips_run_betti (K := K) hD h1 hb hr
  have hbs := buildRipsBases_spec hD.entry h1
  have hS := ripsSplitCob (CF := CF) (K := K) hD hbs h1
  have hel := ripsAll_elems hD.entry hbs h1
  have hb' := hb
  unfold buildRipsCoboundaryMatrix at hb'
  rw [hbs] at hb'
  obtain ⟨rfl, rfl⟩ := Prod.mk.inj (Option.some.inj hb')
  have hF : FiniteMatrix K (ripsCoboundary CF distances).ref (multiDimBasis ((List.range (max_dim + 1)).map fun k => dimBasis distances.length d k)).toBasis
      (ripsF distances) (ripsN K distances.length) (ripsAll distances.length d max_dim) := by
    refine ⟨hel, flatMap_nodup hS, fun c hc => ?_⟩
    obtain ⟨k, hk, σ, s1, -, rfl, -⟩ := ripsAll_deg hc
    exact reads_ripsCoboundary hD.entry s1
  have hF' := hF.reverse
  have hr' := hr
  rw [reverse_ref] at hr'
  obtain ⟨v, dgm', hstd⟩ := C16_standard_terminates hF' false
  have hsize : ∀ fuel : ℕ → ℕ, (∀ i < (multiDimBasis ((List.range (max_dim + 1)).map fun k => dimBasis distances.length d k)).size, i + 1 ≤ fuel i) →
      standardAlgoWithDiagram (ripsCoboundary CF distances).ref.reverse
        (multiDimBasis ((List.range (max_dim + 1)).map fun k => dimBasis distances.length d k)).toBasis.reverse fuel false = some (v, dgm') :=
    fun fuel hf => (hstd fuel hf).2.2.1
  have heq : dgm = dgm' := by
    have hrow : RowsBefore ((ripsAll distances.length d max_dim).reverse.map toDual) (dualCols (ripsN K distances.length)) := by
      refine rowsBefore_of_sorted (deg := fun x => - ripsDeg distances.length (ofDual x)) ?_ ?_
      · rw [List.pairwise_map, List.pairwise_reverse]
        exact (ripsAll_sorted distances.length d max_dim).imp fun h => by simpa using h
      · intro c hc r hne
        have := split_deg hS.reverse c (by
          obtain ⟨x, hx, rfl⟩ := List.mem_map.1 hc
          rw [List.mem_reverse] at hx
          obtain ⟨k, hk, hx⟩ := List.mem_flatMap.1 hx
          exact List.mem_flatMap.2 ⟨k, hk, List.mem_map.2 ⟨x, by simpa using hx, rfl⟩⟩) r hne
        omega
    refine (C22_clearing_eq_standard hS.reverse hr' hF' ?_ ?_ (hsize (fun i => i + 1) fun i _ => le_rfl)).2 rfl hrow
    · intro k hk
      rw [List.filter_map, List.filter_reverse]
      congr 2
      exact flatMap_filter hS.nodup hS.deg_els hk
    · intro c hc
      obtain ⟨x, hx, rfl⟩ := List.mem_map.1 hc
      rw [List.mem_reverse] at hx
      obtain ⟨k, hk, σ, -, -, -, -, e⟩ := ripsAll_deg hx
      exact ⟨k, List.mem_range.2 (by omega), e⟩
  subst heq
  have hecard : dgm.essential.card = min distances.length 1 := by
    rcases Nat.eq_zero_or_pos distances.length with h | h
    · rw [hnone h, h]; rfl
    · obtain ⟨x, _, e, _⟩ := hone h
      rw [e, Finset.card_singleton]; omega
  have hcount : ∀ k ≤ max_dim, (dgm.pairings.filter fun x => ripsDeg distances.length (ofDual x.2) = k).card = (distances.length - 1).choose (k + 1) := by
    rcases Nat.eq_zero_or_pos distances.length with hn | hn
    · intro k hk
      rw [Finset.filter_eq_empty_iff.2, Finset.card_empty, hn]
      · rfl
      · intro x hx
        obtain ⟨σ, -, h2, -⟩ := hpairs x hx
        obtain ⟨v, hv⟩ := h2.1.1
        have := h2.1.2 hv
        simp [hn] at this
    obtain ⟨v, hv, hes, -⟩ := hone hn
    have he : ∀ k : ℕ, (dgm.essential.filter fun x => ripsDeg distances.length (ofDual x) = k).card = if k = 0 then 1 else 0 := by
      intro k
      have hv' : IsSimplex distances.length {v} := ⟨by simp, by simpa using hv⟩
      rw [hes, Finset.filter_singleton, OrderDual.ofDual_toDual, ripsDeg_simplex hv']
      by_cases hk : k = 0
      · subst hk; simp
      · rw [if_neg (by simpa using fun e => hk (by omega)), if_neg hk]; rfl
    have hstep : ∀ k ≤ max_dim, distances.length.choose (k + 1) = (if k = 0 then 1 else 0) +
        (dgm.pairings.filter fun x => ripsDeg distances.length (ofDual x.1) = k).card + (dgm.pairings.filter fun x => ripsDeg distances.length (ofDual x.2) = k).card := by
      intro k hk
      have := C23_count hS.reverse hr' (d := k) (List.mem_range.2 (by omega))
      rw [List.length_map, List.length_reverse, ripsCells_length, he] at this
      exact this
    have hdeg : ∀ k : ℕ, (dgm.pairings.filter fun x => ripsDeg distances.length (ofDual x.1) = ((k + 1 : ℕ) : ℤ)) =
        dgm.pairings.filter fun x => ripsDeg distances.length (ofDual x.2) = k := by
      intro k
      refine Finset.filter_congr fun x hx => ?_
      have := ((C23_clearing hS.reverse hr').2.1 x.1 x.2 hx).2.1
      push_cast
      omega
    intro k
    induction k with
    | zero =>
      intro hk
      have := hstep 0 hk
      have h0 : (dgm.pairings.filter fun x => ripsDeg distances.length (ofDual x.1) = ((0 : ℕ) : ℤ)).card = 0 := by
        rw [Finset.card_eq_zero, Finset.filter_eq_empty_iff]
        intro x hx
        obtain ⟨σ, τ, h2, h3, h4, h5⟩ := hpairs x hx
        rw [h5, ripsDeg_simplex h3]
        have := h2.1.1.card_pos
        push_cast
        omega
      rw [h0, if_pos rfl] at this
      simp only [Nat.choose_one_right, zero_add] at this ⊢
      omega
    | succ k ih =>
      intro hk
      have := hstep (k + 1) hk
      rw [hdeg, ih (by omega), if_neg (by omega), choose_pascal hn] at this
      omega
  refine ⟨_, _, hb, v, rc, dgm, ?_, ⟨enough, hrun⟩, hecard, ?_, ?_⟩
  · intro fuel hf
    rw [reverse_ref]
    exact hsize fuel hf
  · intro k hk
    rw [← hcount k hk]
    congr 1
    refine Finset.filter_congr fun x hx => ?_
    obtain ⟨σ, τ, h2, -⟩ := hpairs x hx
    rw [h2.2.2, ripsDeg_iff h2.1]
  · have hdisj : dgm.pairings = (Finset.range (max_dim + 1)).biUnion fun k => dgm.pairings.filter fun x => ripsDeg distances.length (ofDual x.2) = (k : ℤ) := by
      ext x
      rw [Finset.mem_biUnion]
      constructor
      · intro hx
        obtain ⟨σ, τ, h2, -⟩ := hpairs x hx
        have := h2.1.1.card_pos
        refine ⟨σ.card - 1, Finset.mem_range.2 (by omega), Finset.mem_filter.2 ⟨hx, ?_⟩⟩
        rw [h2.2.2, ripsDeg_simplex h2.1]; omega
      · rintro ⟨k, -, hx⟩
        exact (Finset.mem_filter.1 hx).1
    rw [hdisj, Finset.card_biUnion]
    · exact Finset.sum_congr rfl fun k hk => hcount k (by rw [Finset.mem_range] at hk; omega)
    · intro a _ b _ hab
      rw [Function.onFun, Finset.disjoint_left]
      intro x hx hx'
      have e1 := (Finset.mem_filter.1 hx).2
      have e2 := (Finset.mem_filter.1 hx').2
      rw [e1] at e2
      exact hab (by exact_mod_cast e2)

include K in
/-- C80: the same for the boundary matrix, with `max_dim ≥ 1`: there are `C(n - 1, k + 1)` pairs of each dimension `k < max_dim`, and apart from one component the essential
indices are `C(n - 1, max_dim + 1)` cycles of dimension `max_dim` that are not filled in. -/
theorem C80_homology (hD : IsDistanceMatrix distances d) (h1 : 1 ≤ max_dim) :
    ∃ D B, buildRipsBoundaryMatrix CF distances max_dim = some (D, B) ∧
    ∃ v rc dgm, (∀ fuel : ℕ → ℕ, (∀ i < B.size, i + 1 ≤ fuel i) → standardAlgoWithDiagram D.ref B.toBasis fuel false = some (v, dgm)) ∧
      (∃ enough, ∀ fuel ≥ enough, buildWithDiagram D.ref B fuel (List.range (max_dim + 1)).reverse = some (rc, dgm)) ∧
      (∀ k ≤ max_dim, (dgm.essential.filter fun x => ripsDimension distances.length x = some k).card =
        if k = 0 then min distances.length 1 else if k < max_dim then 0 else (distances.length - 1).choose (max_dim + 1)) ∧
      dgm.essential.card = min distances.length 1 + (distances.length - 1).choose (max_dim + 1) ∧
      (∀ k < max_dim, (dgm.pairings.filter fun x => ripsDimension distances.length x.1 = some k).card = (distances.length - 1).choose (k + 1)) ∧
      dgm.pairings.card = ∑ k ∈ Finset.range max_dim, (distances.length - 1).choose (k + 1) := by
  have h1' : 1 ≤ max_dim ∨ distances.length ≤ 1 := Or.inl h1
  obtain ⟨D, B, hb, rc, dgm, ⟨enough, hrun⟩, hbetti⟩ := C33_rips_homology (CF := CF) (K := K) hD h1'
  have hr := hrun enough le_rfl
  have hbs := buildRipsBases_spec hD.entry h1'
  have hS := ripsSplitBdry (CF := CF) (K := K) hD hbs h1'
  have hSc := ripsSplitCob (CF := CF) (K := K) hD hbs h1'
  have hel := ripsAll_elems hD.entry hbs h1'
  have hb' := hb
  unfold buildRipsBoundaryMatrix at hb'
  rw [hbs] at hb'
  obtain ⟨rfl, rfl⟩ := Prod.mk.inj (Option.some.inj hb')
  have hmem : ∀ c, c ∈ (List.range (max_dim + 1)).reverse.flatMap (fun k : ℕ => ripsCells distances.length d k) ↔ c ∈ ripsAll distances.length d max_dim := by
    intro c
    simp [ripsAll]
  have hF : FiniteMatrix K (ripsBoundary CF distances).ref (multiDimBasis ((List.range (max_dim + 1)).map fun k => dimBasis distances.length d k)).toBasis
      (ripsF distances) (ripsM K distances.length) (ripsAll distances.length d max_dim) := by
    refine ⟨hel, flatMap_nodup hSc, fun c hc => ?_⟩
    obtain ⟨k, hk, σ, s1, -, rfl, -⟩ := ripsAll_deg hc
    exact reads_ripsBoundary hD.entry s1
  obtain ⟨v, dgm', hstd⟩ := C16_standard_terminates hF false
  have heq : dgm = dgm' := by
    have hrow : RowsBefore (ripsAll distances.length d max_dim) (ripsM K distances.length) := by
      refine rowsBefore_of_sorted (ripsAll_sorted distances.length d max_dim) ?_
      intro c hc r hne
      have := split_deg hS c ((hmem c).2 hc) r hne
      omega
    refine (C22_clearing_eq_standard hS hr hF ?_ ?_ (hstd (fun i => i + 1) fun i _ => le_rfl).2.2.1).2 rfl hrow
    · intro k hk
      exact flatMap_filter hSc.nodup hSc.deg_els (List.mem_reverse.1 hk)
    · intro c hc
      obtain ⟨k, hk, σ, -, -, -, -, e⟩ := ripsAll_deg hc
      exact ⟨k, by simpa using by omega, e⟩
  subst heq
  obtain ⟨-, hpair, hess, -⟩ := C23_clearing hS hr
  have hpairs : ∀ x ∈ dgm.pairings, ∃ σ τ, IsSimplex distances.length σ ∧ σ.card ≤ max_dim ∧ x.1 = simplexIndex distances.length σ ∧
      IsSimplex distances.length τ ∧ τ.card = σ.card + 1 ∧ x.2 = simplexIndex distances.length τ := by
    rintro ⟨r, c⟩ hx
    obtain ⟨h2, h3, h4⟩ := hpair r c hx
    obtain ⟨k, hk, τ, t1, t2, rfl, -, e⟩ := ripsAll_deg ((hmem c).1 h2)
    rw [e] at h3
    have hk0 : k ≠ 0 := by
      rintro rfl
      have hp := (clearing_diagram hS hr (flatMap_nodup hS) (fun d hd => flatMap_filter hS.nodup hS.deg_els hd) (split_hdims hS)).1 r (simplexIndex distances.length τ) |>.1 hx
      obtain ⟨-, -, y, hy, hyc, hne, -⟩ := pair_deg (rowKey_injective _) (flatMap_nodup hS) (split_deg hS) hp
      obtain ⟨j, hj, ρ, r1, r2, rfl, r3, r4⟩ := ripsAll_deg ((hmem y).1 hy)
      have hrr := (ripsCellComplex (K := K) hD).rowsM j _ r3 r hne
      rw [r4, e] at hyc
      rw [hyc] at hrr
      obtain ⟨ρ', h5, h6, _⟩ := mem_ripsCells_int.1 hrr
      have := h5.1.card_pos
      push_cast at h6
      omega
    have hrk := h4 (k - 1) (by simpa using by omega) (by push_cast [Nat.cast_sub (Nat.one_le_iff_ne_zero.2 hk0)]; omega)
    obtain ⟨σ, s1, s2, s3⟩ := mem_ripsCells.1 hrk
    exact ⟨σ, τ, s1, by omega, s3, t1, by omega, rfl⟩
  have hesss : ∀ x ∈ dgm.essential, ∃ k ≤ max_dim, ∃ σ, IsSimplex distances.length σ ∧ σ.card = k + 1 ∧ x = simplexIndex distances.length σ := by
    intro x hx
    obtain ⟨k, hk, σ, s1, s2, s3, -⟩ := ripsAll_deg ((hmem x).1 (hess x hx))
    exact ⟨k, hk, σ, s1, s2, s3⟩
  have hstep : ∀ k ≤ max_dim, distances.length.choose (k + 1) = (dgm.essential.filter fun x => ripsDeg distances.length x = k).card +
      (dgm.pairings.filter fun x => ripsDeg distances.length x.1 = k).card + (dgm.pairings.filter fun x => ripsDeg distances.length x.2 = k).card := by
    intro k hk
    have := C23_count hS hr (d := k) (by simpa using by omega)
    rw [ripsCells_length] at this
    exact this
  have hdeg : ∀ k : ℕ, (dgm.pairings.filter fun x => ripsDeg distances.length x.2 = ((k + 1 : ℕ) : ℤ)) =
      dgm.pairings.filter fun x => ripsDeg distances.length x.1 = k := by
    intro k
    refine Finset.filter_congr fun x hx => ?_
    have := (hpair x.1 x.2 hx).2.1
    push_cast
    omega
  have hd0 : (dgm.pairings.filter fun x => ripsDeg distances.length x.2 = ((0 : ℕ) : ℤ)).card = 0 := by
    rw [Finset.card_eq_zero, Finset.filter_eq_empty_iff]
    intro x hx
    obtain ⟨σ, τ, h2, h3, h4, h5, h6, h7⟩ := hpairs x hx
    rw [h7, ripsDeg_simplex h5]
    have := h2.1.card_pos
    push_cast
    omega
  have htop0 : (dgm.pairings.filter fun x => ripsDeg distances.length x.1 = max_dim).card = 0 := by
    rw [Finset.card_eq_zero, Finset.filter_eq_empty_iff]
    intro x hx
    obtain ⟨σ, τ, h2, h3, h4, h5, h6, h7⟩ := hpairs x hx
    rw [h4, ripsDeg_simplex h2]
    omega
  have hmain : (∀ k ≤ max_dim, (dgm.essential.filter fun x => ripsDeg distances.length x = k).card =
        if k = 0 then min distances.length 1 else if k < max_dim then 0 else (distances.length - 1).choose (max_dim + 1)) ∧
      ∀ k < max_dim, (dgm.pairings.filter fun x => ripsDeg distances.length x.1 = k).card = (distances.length - 1).choose (k + 1) := by
    rcases Nat.eq_zero_or_pos distances.length with hn | hn
    · have hz : ∀ k ≤ max_dim, (dgm.essential.filter fun x => ripsDeg distances.length x = k).card = 0 ∧ (dgm.pairings.filter fun x => ripsDeg distances.length x.1 = k).card = 0 := by
        intro k hk
        have := hstep k hk
        rw [hn, Nat.choose_zero_succ] at this
        rw [hn]
        omega
      refine ⟨fun k hk => ?_, fun k hk => ?_⟩
      · rw [(hz k hk).1, hn]; simp
      · rw [(hz k hk.le).2, hn]; simp
    · obtain ⟨t, ht⟩ := exists_top d distances.length
      have hft : ∀ σ, IsSimplex distances.length σ → ripsF distances (simplexIndex distances.length σ) ≤ t := by
        intro σ hσ
        rw [ripsF_le hD.entry hσ]
        intro a ha b hb
        exact ht a (by simpa using hσ.2 ha) b (by simpa using hσ.2 hb)
      have hall : ∀ p : ℕ, barsAlive (ripsDeg distances.length) (ripsF distances) dgm p t t =
          (dgm.essential.filter fun x => ripsDeg distances.length x = p).card := by
        intro p
        unfold barsAlive
        rw [Finset.filter_eq_empty_iff (s := dgm.pairings) |>.2, Finset.card_empty, add_zero]
        · congr 1
          ext x
          rw [Finset.mem_filter, Finset.mem_filter]
          refine and_congr_right fun hx => ?_
          obtain ⟨_, _, σ, hσ, _, e⟩ := hesss x hx
          rw [e]
          simp [hft σ hσ]
        · rintro x hx ⟨_, _, hlt⟩
          obtain ⟨σ, τ, h2, h3, h4, h5, h6, h7⟩ := hpairs x hx
          rw [h7] at hlt
          exact absurd (hft τ h5) (not_le.2 hlt)
      have hlow : ∀ k < max_dim, (dgm.essential.filter fun x => ripsDeg distances.length x = k).card = if k = 0 then 1 else 0 := by
        intro k hk
        have := hbetti k hk t t le_rfl
        rw [top_betti hD.diag hD.symm hn ht] at this
        rw [this, ← hall k]
        rfl
      have hpc : ∀ k < max_dim, (dgm.pairings.filter fun x => ripsDeg distances.length x.1 = k).card = (distances.length - 1).choose (k + 1) := by
        intro k
        induction k with
        | zero =>
          intro hk
          have := hstep 0 hk.le
          rw [hd0, hlow 0 hk, if_pos rfl] at this
          simp only [Nat.choose_one_right, zero_add] at this ⊢
          omega
        | succ k ih =>
          intro hk
          have := hstep (k + 1) hk.le
          rw [hdeg, ih (by omega), hlow _ hk, if_neg (by omega), choose_pascal hn] at this
          omega
      refine ⟨fun k hk => ?_, hpc⟩
      rcases hk.lt_or_eq with h | rfl
      · rw [hlow k h, if_pos h, show min distances.length 1 = 1 by omega]
      · rw [if_neg (by omega), if_neg (by omega)]
        have := hstep k le_rfl
        obtain ⟨j, rfl⟩ : ∃ j, k = j + 1 := ⟨k - 1, by omega⟩
        rw [htop0, hdeg, hpc j (by omega), choose_pascal hn] at this
        omega
  have huni : dgm.essential = (Finset.range (max_dim + 1)).biUnion fun k => dgm.essential.filter fun x => ripsDeg distances.length x = (k : ℤ) := by
    ext x
    rw [Finset.mem_biUnion]
    constructor
    · intro hx
      obtain ⟨k, hk, σ, s1, s2, e⟩ := hesss x hx
      refine ⟨k, Finset.mem_range.2 (by omega), Finset.mem_filter.2 ⟨hx, ?_⟩⟩
      rw [e, ripsDeg_simplex s1]; omega
    · rintro ⟨k, -, hx⟩
      exact (Finset.mem_filter.1 hx).1
  have hunp : dgm.pairings = (Finset.range max_dim).biUnion fun k => dgm.pairings.filter fun x => ripsDeg distances.length x.1 = (k : ℤ) := by
    ext x
    rw [Finset.mem_biUnion]
    constructor
    · intro hx
      obtain ⟨σ, τ, h2, h3, h4, -⟩ := hpairs x hx
      have := h2.1.card_pos
      refine ⟨σ.card - 1, Finset.mem_range.2 (by omega), Finset.mem_filter.2 ⟨hx, ?_⟩⟩
      rw [h4, ripsDeg_simplex h2]; omega
    · rintro ⟨k, -, hx⟩
      exact (Finset.mem_filter.1 hx).1
  refine ⟨_, _, hb, v, rc, dgm, fun fuel hf => (hstd fuel hf).2.2.1, ⟨enough, hrun⟩, ?_, ?_, ?_, ?_⟩
  · intro k hk
    rw [← hmain.1 k hk]
    congr 1
    refine Finset.filter_congr fun x hx => ?_
    obtain ⟨_, _, σ, s1, _, e⟩ := hesss x hx
    rw [e, ripsDeg_iff s1]
  · rw [huni, Finset.card_biUnion]
    · rw [Finset.sum_congr rfl fun k hk => hmain.1 k (by rw [Finset.mem_range] at hk; omega), Finset.sum_range_succ, if_neg (by omega), if_neg (by omega)]
      congr 1
      obtain ⟨m, rfl⟩ : ∃ m, max_dim = m + 1 := ⟨max_dim - 1, by omega⟩
      rw [Finset.sum_range_succ', if_pos rfl, Finset.sum_eq_zero, zero_add]
      intro k hk
      rw [Finset.mem_range] at hk
      rw [if_neg (by omega), if_pos (by omega)]
    · intro a _ b _ hab
      rw [Function.onFun, Finset.disjoint_left]
      intro x hx hx'
      have e1 := (Finset.mem_filter.1 hx).2
      have e2 := (Finset.mem_filter.1 hx').2
      rw [e1] at e2
      exact hab (by exact_mod_cast e2)
  · intro k hk
    rw [← hmain.2 k hk]
    congr 1
    refine Finset.filter_congr fun x hx => ?_
    obtain ⟨σ, τ, h2, h3, h4, -⟩ := hpairs x hx
    rw [h4, ripsDeg_iff h2]
  · rw [hunp, Finset.card_biUnion]
    · exact Finset.sum_congr rfl fun k hk => hmain.2 k (Finset.mem_range.1 hk)
    · intro a _ b _ hab
      rw [Function.onFun, Finset.disjoint_left]
      intro x hx hx'
      have e1 := (Finset.mem_filter.1 hx).2
      have e2 := (Finset.mem_filter.1 hx').2
      rw [e1] at e2
      exact hab (by exact_mod_cast e2)

end

namespace RipsExample

/-- The tests of phlite_rips (phlite_rips/src/cohomology.rs:246-313 and phlite_rips/src/homology.rs:149-180), on four points: 7 pairs in dimensions up to 2, 6 in dimensions up
to 1; with the boundary matrix 6 pairs and 2 essential indices. -/
example : (∑ k ∈ Finset.range (2 + 1), (4 - 1).choose (k + 1)) = 7 ∧ (∑ k ∈ Finset.range (1 + 1), (4 - 1).choose (k + 1)) = 6 ∧
    (∑ k ∈ Finset.range 2, (4 - 1).choose (k + 1)) = 6 ∧ min 4 1 + (4 - 1).choose (2 + 1) = 2 := by decide

end RipsExample
end Phlite
