/-
Property theorems C27-C33, C39: Vietoris-Rips complexes.
-/
import Mathlib.Data.Nat.Digits.Defs
import Verif.Proofs.RipsComplex
import Verif.Props.Homology

set_option linter.unusedSectionVars false
set_option linter.unusedSimpArgs false

namespace Phlite
open Finsupp (single linearCombination linearCombination_single)
open OrderDual (toDual ofDual)

/-! ### C27 -/

/-- C27: `from_indices` of a non-empty list of vertices below `n_points` is defined, `to_vec` recovers the list, and `dimension` is the
number of vertices minus one. -/
theorem C27_roundtrip (n : ℕ) (l : List ℕ) (hne : l ≠ []) (hl : ∀ v ∈ l, v < n) :
    ∃ w, fromIndices n l = some w ∧ toVec n w = some l ∧ ripsDimension n w = some (l.length - 1) := by
  refine ⟨_, fromIndices_eq n hne, toVec_enc n l hl, ?_⟩
  unfold ripsDimension
  rw [toVec_enc n l hl, Option.bind_some, if_neg]
  exact fun h => hne (List.length_eq_zero_iff.1 h)

/-- C27: the index of a list of vertices is the number with digits `v + 1` in base `n_points + 1`, first vertex at the lowest place; for a simplex with its vertices in
ascending order this is `simplexIndex`. The empty list has none. -/
theorem C27_formula (n : ℕ) :
    (∀ l : List ℕ, l ≠ [] → fromIndices n l = some (Nat.ofDigits (n + 1) (l.map (· + 1)))) ∧
    (∀ σ : Finset ℕ, σ.Nonempty → fromIndices n (σ.sort (· ≤ ·)) = some (simplexIndex n σ)) ∧ fromIndices n [] = none := by
  refine ⟨fun l hl => ?_, fun σ h => fromIndices_simplex n h, rfl⟩
  rw [fromIndices_eq n hl]
  congr 1
  clear hl
  induction l with
  | nil => rfl
  | cons v l ih => rw [enc, ih, List.map_cons, Nat.ofDigits_cons]

/-- C27: distinct vertex lists (of any lengths) get distinct indices; the empty list has no index. -/
theorem C27_injective (n : ℕ) {l l' : List ℕ} (hl : ∀ v ∈ l, v < n) (hl' : ∀ v ∈ l', v < n) (h : fromIndices n l = fromIndices n l') : l = l' := by
  by_cases h1 : l = [] <;> by_cases h2 : l' = []
  · rw [h1, h2]
  · rw [h1, fromIndices_nil, fromIndices_eq n h2] at h; cases h
  · rw [h2, fromIndices_nil, fromIndices_eq n h1] at h; cases h
  · rw [fromIndices_eq n h1, fromIndices_eq n h2] at h
    exact enc_inj hl hl' (Option.some.inj h)

/-- C27: every positive number on which `to_vec` does not panic is the index of the list it returns, whose vertices are below `n_points`. -/
theorem C27_to_vec_inverse (n : ℕ) {w : RipsIndex} {l : List ℕ} (hw : 0 < w) (h : toVec n w = some l) :
    fromIndices n l = some w ∧ ∀ v ∈ l, v < n := by
  obtain ⟨h1, h2⟩ := toVec_inv h
  have : l ≠ [] := by rintro rfl; exact absurd h1 hw.ne
  exact ⟨by rw [fromIndices_eq n this, h1], h2⟩

/-- C27: indices of lower-dimensional simplices are smaller. -/
theorem C27_dimension_order (n : ℕ) {l l' : List ℕ} {w w' : RipsIndex} (hl : ∀ v ∈ l, v < n) (hlt : l.length < l'.length)
    (h : fromIndices n l = some w) (h' : fromIndices n l' = some w') : w < w' := by
  have h1 : l ≠ [] := by rintro rfl; cases h
  have h2 : l' ≠ [] := by rintro rfl; simp at hlt
  rw [fromIndices_eq n h1] at h
  rw [fromIndices_eq n h2] at h'
  rw [← Option.some.inj h, ← Option.some.inj h']
  exact enc_lt_of_length hl hlt

/-- C27: if `(n_points + 1)^(number of vertices) ≤ 2^64`, the 64-bit computation of the index does not overflow, in particular it does not wrap
around, and yields the mathematical value, which is below `2^64`. -/
theorem C27_no_overflow (n : ℕ) (l : List ℕ) (hne : l ≠ []) (hl : ∀ v ∈ l, v < n) (hn : n + 1 < 2 ^ 64) (hfit : (n + 1) ^ l.length ≤ 2 ^ 64) :
    ∃ w < 2 ^ 64, fromIndices n l = some w ∧ fromIndices64 n l = some (some w) ∧ fromIndicesWrapping n l = some w := by
  have hlt : enc (n + 1) l < 2 ^ 64 := lt_of_lt_of_le (enc_lt_pow hl) hfit
  refine ⟨_, hlt, fromIndices_eq n hne, ?_, ?_⟩
  · rw [fromIndices64_eq l hl hn hfit, fromIndices_eq n hne]
  · unfold fromIndicesWrapping
    have := enc_sum (n + 1) 0 l
    rw [pow_zero, one_mul] at this
    rw [this, Nat.mod_eq_of_lt hlt, if_pos (enc_pos hne)]

/-- C27: beyond that bound, a debug build panics: as soon as a vertex is added to a list whose power `(n_points + 1)^length` is at least `2^64`. -/
theorem C27_overflow_panics (n : ℕ) (l l' : List ℕ) (e : ℕ) (h : 2 ^ 64 ≤ (n + 1) ^ l.length) : fromIndices64 n (l ++ e :: l') = none := by
  unfold fromIndices64
  rw [List.zipIdx_append, List.foldlM_append, List.zipIdx_cons, Nat.zero_add, Option.map_eq_none_iff, Option.bind_eq_bind]
  refine Option.bind_eq_none_iff.2 fun acc _ => ?_
  · rw [List.foldlM_cons]
    unfold chk64
    by_cases hn : n + 1 < 2 ^ 64
    · rw [if_pos hn, Option.bind_some, pow64_none l.length h]; rfl
    · rw [if_neg hn]; rfl

/-- C27: beyond that bound, a release build (where arithmetic wraps around) lets simplices collide: if `2^64` divides
`(n_points + 1)^(number of vertices)`, all simplices with these first vertices get the same index. -/
theorem C27_wrap_collision (n : ℕ) (l : List ℕ) (e e' : ℕ) (h : 2 ^ 64 ∣ (n + 1) ^ l.length) :
    fromIndicesWrapping n (l ++ [e]) = fromIndicesWrapping n (l ++ [e']) ∧ fromIndicesWrapping n (l ++ [e]) = fromIndicesWrapping n l := by
  have key : ∀ x, fromIndicesWrapping n (l ++ [x]) = fromIndicesWrapping n l := by
    intro x
    obtain ⟨q, hq⟩ := h
    unfold fromIndicesWrapping
    rw [List.zipIdx_append, List.map_append, List.sum_append, Nat.zero_add]
    have : ((List.zipIdx [x] l.length).map fun p => (n + 1) ^ p.2 * (p.1 + 1)).sum = 2 ^ 64 * (q * (x + 1)) := by
      rw [List.zipIdx_cons, List.zipIdx_nil, List.map_cons, List.map_nil, List.sum_cons, List.sum_nil, Nat.add_zero, hq, Nat.mul_assoc]
    rw [this, Nat.add_mul_mod_self_left]
  exact ⟨by rw [key, key], key e⟩

/-- For instance, with 65535 points, the distinct 4-simplices `0 1 2 3 4` and `0 1 2 3 5` collide. -/
example : fromIndicesWrapping 65535 [0, 1, 2, 3, 4] = fromIndicesWrapping 65535 [0, 1, 2, 3, 5] :=
  (C27_wrap_collision 65535 [0, 1, 2, 3] 4 5 (by norm_num)).1

example : fromIndices 4 [0, 2, 3] = some (1 + 5 * 3 + 25 * 4) ∧ toVec 4 116 = some [0, 2, 3] ∧ ripsDimension 4 116 = some 2 := by decide +kernel
example : ([0, 2, 3] : List ℕ) ≠ [] ∧ (∀ v ∈ ([0, 2, 3] : List ℕ), v < 4) ∧ (4 + 1) ^ 3 ≤ 2 ^ 64 := by decide +kernel

/-! ### C28, C29 -/
section
variable {F : Type} [LinearOrder F] [Zero F] {distances : List (List F)} {d : ℕ → ℕ → F}
variable {CF K : Type} [NonZeroCoeff CF] [Field K] [LawfulCoeff CF K]

/-- C28: column `σ` of the Rips boundary can be requested, lists each facet of `σ` exactly once (nothing for a vertex), and is the
alternating sum of the facets. -/
theorem C28_boundary_column {σ : Finset ℕ} (h : IsSimplex distances.length σ) :
    ∃ l, (ripsBoundary CF distances).column (simplexIndex distances.length σ) = some l ∧ (l.map Prod.snd).Nodup ∧
      (∀ r, r ∈ l.map Prod.snd ↔ 1 < σ.card ∧ ∃ v ∈ σ, r = simplexIndex distances.length (σ.erase v)) ∧
      lcOf K l = (simplexBoundary K σ).mapDomain (simplexIndex distances.length) ∧
      ∀ ρ, IsSimplex distances.length ρ → lcOf K l (simplexIndex distances.length ρ) = simplexBoundary K σ ρ := by
  refine ⟨_, ripsBoundaryColumn_eq h, ?_, ?_, ripsBoundary_lcOf _ _, ?_⟩
  · split
    · simp
    · rename_i hc
      rw [List.map_map]
      refine List.Nodup.map_on ?_ (Finset.sort_nodup σ _)
      intro v hv w hw e
      have hv := (Finset.mem_sort _).1 hv
      have hw := (Finset.mem_sort _).1 hw
      have := simplexIndex_inj (erase_isSimplex h hc hv) (erase_isSimplex h hc hw) e
      exact Finset.erase_injOn _ hv hw this
  · intro r
    split
    · rename_i hc
      simp; omega
    · rename_i hc
      rw [List.map_map, List.mem_map]
      constructor
      · rintro ⟨v, hv, rfl⟩
        exact ⟨by omega, v, (Finset.mem_sort _).1 hv, rfl⟩
      · rintro ⟨_, v, hv, rfl⟩
        exact ⟨v, (Finset.mem_sort _).2 hv, rfl⟩
  · intro ρ hρ
    rw [ripsBoundary_lcOf, mapDomain_index_apply (fun ρ hρ => (bdry_isSimplex h hρ).1) hρ]

/-- What the specification of the boundary says about one facet. -/
theorem simplexBoundary_facet {σ : Finset ℕ} (hc : 1 < σ.card) {v : ℕ} (hv : v ∈ σ) :
    simplexBoundary K σ (σ.erase v) = (-1) ^ posIn σ v := by
  unfold simplexBoundary
  rw [if_neg (by omega), Finsupp.finsetSum_apply, Finset.sum_eq_single v, Finsupp.single_eq_same]
  · intro w hw hne
    exact Finsupp.single_eq_of_ne fun e => hne (Finset.erase_injOn _ hw hv e.symm)
  · intro h; exact absurd hv h

/-- C28: multiplying the Rips boundary matrix by itself (with the library's `product`) gives zero columns. -/
theorem C28_boundary_sq {σ : Finset ℕ} (h : IsSimplex distances.length σ) :
    HasCol K (product (ripsBoundary CF distances).toOracle (ripsBoundary CF distances).toOracle) (simplexIndex distances.length σ) 0 := by
  obtain ⟨l, h1, _, h3, h4, _⟩ := C28_boundary_column (K := K) (CF := CF) h
  have := C08_product (ripsBoundary CF distances).toOracle (ripsBoundary CF distances).toOracle (simplexIndex distances.length σ)
    (ripsM K distances.length) l h1 ?_
  · have e : linearCombination K (ripsM K distances.length) (lcOf K l) = 0 := by
      rw [h4]
      have e1 : (simplexBoundary K σ).mapDomain (simplexIndex distances.length) = ripsM K distances.length (simplexIndex distances.length σ) := by
        unfold ripsM; rw [decode_simplex h]
      rw [e1]
      exact ripsM_sq h
    rwa [e] at this
  · intro t ht
    obtain ⟨hc, v, hv, e⟩ := (h3 t.2).1 (List.mem_map.2 ⟨t, ht, rfl⟩)
    have hs := erase_isSimplex h (by omega) hv
    obtain ⟨l', a1, _, _, a4, _⟩ := C28_boundary_column (K := K) (CF := CF) hs
    refine ⟨l', by rw [e]; exact a1, ?_⟩
    rw [a4, e, ripsM, decode_simplex hs]

/-- C29: column `σ` of the Rips coboundary can be requested, lists each cofacet of `σ` exactly once, and its coefficient at `τ` is the
coefficient of `σ` in the boundary column of `τ`. -/
theorem C29_coboundary_column {σ : Finset ℕ} (h : IsSimplex distances.length σ) :
    ∃ l, (ripsCoboundary CF distances).column (simplexIndex distances.length σ) = some l ∧ (l.map Prod.snd).Nodup ∧
      (∀ r, r ∈ l.map Prod.snd ↔ ∃ v < distances.length, v ∉ σ ∧ r = simplexIndex distances.length (insert v σ)) ∧
      ∀ τ, IsSimplex distances.length τ → ∀ l', (ripsBoundary CF distances).column (simplexIndex distances.length τ) = some l' →
        lcOf K l (simplexIndex distances.length τ) = lcOf K l' (simplexIndex distances.length σ) := by
  refine ⟨_, ripsCoboundaryColumn_eq h, ?_, ?_, ?_⟩
  · rw [List.map_map]
    refine List.Nodup.map_on ?_ (List.nodup_range.filter _)
    intro v hv w hw e
    obtain ⟨hv, hv'⟩ := List.mem_filter.1 hv
    obtain ⟨hw, hw'⟩ := List.mem_filter.1 hw
    have hv' : v ∉ σ := by simpa using hv'
    have := simplexIndex_inj (insert_isSimplex h (List.mem_range.1 hv)) (insert_isSimplex h (List.mem_range.1 hw)) e
    have hm : v ∈ insert w σ := by rw [← this]; exact Finset.mem_insert_self _ _
    rcases Finset.mem_insert.1 hm with h | h
    · exact h
    · exact absurd h hv'
  · intro r
    rw [List.map_map, List.mem_map]
    constructor
    · rintro ⟨v, hv, rfl⟩
      obtain ⟨hv, hv'⟩ := List.mem_filter.1 hv
      exact ⟨v, List.mem_range.1 hv, by simpa using hv', rfl⟩
    · rintro ⟨v, hv, hv', rfl⟩
      exact ⟨v, List.mem_filter.2 ⟨List.mem_range.2 hv, by simpa using hv'⟩, rfl⟩
  · intro τ hτ l' hl'
    obtain ⟨l'', b1, _, _, _, b5⟩ := C28_boundary_column (K := K) (CF := CF) hτ
    have : l' = l'' := Option.some.inj (hl'.symm.trans b1)
    subst this
    rw [b5 σ h, ripsCoboundary_lcOf, mapDomain_index_apply (fun ρ hρ => (cob_isSimplex h hρ).1) hτ, simplex_transpose h hτ]

/-! ### C30, C31 -/

/-- C30: the basis in dimension `k ≤ max_dim` lists every `(k+1)`-subset of the points exactly once (with its index), sorted by
(stored value, index). Only the distances `d i j` with `i < j` matter for the values: `stored ≤ x` iff `0 ≤ x` and all those are `≤ x`. -/
theorem C30_bases (hd : ∀ i < distances.length, ∀ j < distances.length, (distances[i]?.bind fun row => row[j]?) = some (d i j)) {max_dim : ℕ}
    (h1 : 1 ≤ max_dim ∨ distances.length ≤ 1) :
    ∃ bases, buildRipsBases distances max_dim = some bases ∧ bases.length = max_dim + 1 ∧
      ∀ k (hk : k < bases.length),
        (∀ r, r ∈ (bases[k]).map Prod.snd ↔ ∃ σ, σ ⊆ Finset.range distances.length ∧ σ.card = k + 1 ∧ r = simplexIndex distances.length σ) ∧
        ((bases[k]).map Prod.snd).Nodup ∧
        (bases[k]).Pairwise (fun a b => toLex a < toLex b) ∧
        ∀ σ, σ ⊆ Finset.range distances.length → ∀ v, (v, simplexIndex distances.length σ) ∈ bases[k] → ∀ x,
          (v ≤ x ↔ 0 ≤ x ∧ ∀ a ∈ σ, ∀ b ∈ σ, a < b → d a b ≤ x) := by
  refine ⟨_, buildRipsBases_spec hd h1, by simp, ?_⟩
  intro k hk
  simp only [List.getElem_map, List.getElem_range]
  have hnd : ((dimBasis distances.length d k).map Prod.snd).Nodup := dimBasis_nodup _ k
  refine ⟨?_, hnd, ?_, ?_⟩
  · intro r
    have := mem_ripsCells (d := d) (n := distances.length) (k := k) (x := r)
    rw [show ripsCells distances.length d (k : ℤ) = (dimBasis distances.length d k).map Prod.snd from rfl] at this
    rw [this]
    constructor
    · rintro ⟨σ, a, b, c⟩; exact ⟨σ, a.2, b, c⟩
    · rintro ⟨σ, a, b, c⟩; exact ⟨σ, ⟨Finset.card_pos.1 (by omega), a⟩, b, c⟩
  · have p1 : (dimBasis distances.length d k).Pairwise tupleLe := List.pairwise_insertionSort _ _
    have p2 : (dimBasis distances.length d k).Pairwise fun a b => a.2 ≠ b.2 := List.pairwise_map.1 hnd
    refine (p1.and p2).imp ?_
    rintro a b ⟨hab, hne⟩
    exact lt_of_le_of_ne hab fun e => hne (congrArg (fun x => (ofLex x).2) e)
  · intro σ hσ v hv x
    obtain ⟨τ, t1, t2, e⟩ := mem_dimBasis.1 hv
    obtain ⟨e1, e2⟩ := Prod.mk.inj e
    have hne : σ.Nonempty := by
      rw [Finset.nonempty_iff_ne_empty]
      rintro rfl
      have h0 : simplexIndex distances.length ∅ = 0 := by simp [simplexIndex]
      rw [h0, simplexIndex_eq _ t1.1] at e2
      exact absurd e2 (enc_pos (sort_ne_nil t1.1)).ne
    have := simplexIndex_inj ⟨hne, hσ⟩ t1 e2
    subst this
    rw [e1, stored_le d (sort_ne_nil hne)]
    refine and_congr_right fun _ => ?_
    constructor
    · intro hp a ha b hb hab
      have ha := (Finset.mem_sort (· ≤ ·)).2 ha
      have hb := (Finset.mem_sort (· ≤ ·)).2 hb
      obtain ⟨i, hi, rfl⟩ := List.getElem_of_mem ha
      obtain ⟨j, hj, rfl⟩ := List.getElem_of_mem hb
      refine List.pairwise_iff_getElem.1 hp i j hi hj ?_
      by_contra hij
      rcases Nat.lt_or_ge j i with h | h
      · have := List.pairwise_iff_getElem.1 (sort_lt σ) j i hj hi h; omega
      · have : i = j := by omega
        subst this; omega
    · intro hp
      refine List.Pairwise.imp_of_mem ?_ (sort_lt σ)
      intro a b ha hb hab
      exact hp a ((Finset.mem_sort _).1 ha) b ((Finset.mem_sort _).1 hb) hab

/-- C30: for a symmetric, non-negative matrix with zero diagonal the values stored in the basis are those returned by `filtration_value`. -/
theorem C30_stored_eq_filtration (hD : IsDistanceMatrix distances d) {max_dim : ℕ} {bases : List (List (F × RipsIndex))}
    (hb : buildRipsBases distances max_dim = some bases) (h1 : 1 ≤ max_dim ∨ distances.length ≤ 1) :
    ∀ basis ∈ bases, ∀ x ∈ basis, (ripsCoboundary CF distances).filt x.2 = some x.1 ∧ (ripsBoundary CF distances).filt x.2 = some x.1 := by
  rw [buildRipsBases_spec hD.entry h1] at hb
  cases hb
  intro basis hbasis x hx
  obtain ⟨k, _, rfl⟩ := List.mem_map.1 hbasis
  obtain ⟨σ, s1, s2, rfl⟩ := mem_dimBasis.1 hx
  rw [stored_eq hD s1]
  exact ⟨ripsF_eq hD.entry s1, ripsF_eq hD.entry s1⟩

/-- C30: `filtration_value` of a simplex is the maximum of all pairwise distances of its vertices; so it does not decrease from faces
to cofaces. -/
theorem C30_filtration_monotone (hd : ∀ i < distances.length, ∀ j < distances.length, (distances[i]?.bind fun row => row[j]?) = some (d i j)) {σ τ : Finset ℕ}
    (hσ : IsSimplex distances.length σ) (hτ : IsSimplex distances.length τ) :
    ∃ fσ fτ, (ripsCoboundary CF distances).filt (simplexIndex distances.length σ) = some fσ ∧
      (ripsCoboundary CF distances).filt (simplexIndex distances.length τ) = some fτ ∧
      (∀ x, fσ ≤ x ↔ ∀ a ∈ σ, ∀ b ∈ σ, d a b ≤ x) ∧ (σ ⊆ τ → fσ ≤ fτ) := by
  refine ⟨_, _, ripsF_eq hd hσ, ripsF_eq hd hτ, ripsF_le hd hσ, fun h => ?_⟩
  rw [ripsF_le hd hσ]
  intro a ha b hb
  exact (ripsF_le hd hτ _).1 le_rfl a (h ha) b (h hb)

/-- C31: for a square matrix, `build_rips_bases` succeeds if `max_dim ≥ 1` or there is at most one point, and panics if `max_dim = 0` and
there are at least two points. -/
theorem C31_bases_panic (hd : ∀ i < distances.length, ∀ j < distances.length, (distances[i]?.bind fun row => row[j]?) = some (d i j)) (max_dim : ℕ) :
    buildRipsBases distances max_dim = none ↔ max_dim = 0 ∧ 2 ≤ distances.length := by
  constructor
  · intro h
    by_contra hc
    have h1 : 1 ≤ max_dim ∨ distances.length ≤ 1 := by omega
    rw [buildRipsBases_spec hd h1] at h
    cases h
  · rintro ⟨rfl, hn⟩
    unfold buildRipsBases
    rw [Option.map_eq_none_iff]
    have hr : List.range distances.length = 0 :: List.range' 1 (distances.length - 1) := by
      rw [List.range_eq_range']
      conv_lhs => rw [show distances.length = (distances.length - 1) + 1 by omega]
      rw [List.range'_succ]
    rw [hr, List.foldlM_cons, fromIndices_eq _ (by simp : [0] ≠ []), Option.bind_some]
    have hp : pushAt (List.replicate (0 + 1) []) 0 ((0 : F), enc (distances.length + 1) [0]) = some [[((0 : F), enc (distances.length + 1) [0])]] := rfl
    rw [hp, Option.bind_some]
    have : addCofacets distances 0 (0 + 1) [[((0 : F), enc (distances.length + 1) [0])]] [0] 0 = none := by
      unfold addCofacets
      simp only [List.getLast?_singleton, Option.bind_some]
      rw [if_neg (by omega)]
      have e : distances.length - (0 + 1) = (distances.length - 2) + 1 := by omega
      rw [e, List.range'_succ, List.foldlM_cons]
      have e1 : mapOpt (fun w => distAt distances w (0 + 1)) [0] = some [d 0 1] := by
        have h01 : distAt distances 0 1 = some (d 0 1) := hd 0 (by omega) 1 (by omega)
        simp [mapOpt, h01]
      rw [e1, Option.bind_some]
      simp only [maxOpt, List.foldl_nil, Option.bind_some]
      rw [fromIndices_eq _ (by simp), Option.bind_some]
      rfl
    rw [this]; rfl

/-! ### C32 -/

/-- C32: the override of `column_with_filtration` of `RipsCoboundary` itself reads the distances to the vertex *after* the inserted one:
it panics on every simplex that does not contain the last point; on one that does, the entry of `σ ∪ {v}` gets the value
`max (filtration_value σ) (max_{w ∈ σ} d w (v + 1))`. -/
theorem C32_rips_override (hd : ∀ i < distances.length, ∀ j < distances.length, (distances[i]?.bind fun row => row[j]?) = some (d i j))
    (hsq : ∀ row ∈ distances, row.length = distances.length) {σ : Finset ℕ}
    (h : IsSimplex distances.length σ) :
    (distances.length - 1 ∉ σ → (ripsCoboundary CF distances).colF (simplexIndex distances.length σ) = none) ∧
    (distances.length - 1 ∈ σ → ∃ l l', (ripsCoboundary CF distances).column (simplexIndex distances.length σ) = some l ∧
      (ripsCoboundary CF distances).colF (simplexIndex distances.length σ) = some l' ∧
      l'.map (fun e => (e.coeff, e.row)) = l ∧
      ∀ e ∈ l', ∃ v < distances.length - 1, v ∉ σ ∧ e.row = simplexIndex distances.length (insert v σ) ∧
        ∀ x, e.filt ≤ x ↔ (∀ a ∈ σ, ∀ b ∈ σ, d a b ≤ x) ∧ ∀ a ∈ σ, d a (v + 1) ≤ x) := by
  have hpos : 0 < distances.length := by
    obtain ⟨v, hv⟩ := h.1
    have := Finset.mem_range.1 (h.2 hv); omega
  obtain ⟨m, m1, m2⟩ := maxPairwise_spec hd (sort_ne_nil h.1) h.lt
  have hcf : (ripsCoboundary CF distances).colF (simplexIndex distances.length σ) =
      mapOpt (fun t : CF × RipsIndex × Nat =>
      (mapOpt (fun v => distAt distances v t.2.2) (σ.sort (· ≤ ·))).bind fun ds =>
      (maxOpt ds).map fun max_to_inserted => (⟨max m max_to_inserted, t.2.1, t.1⟩ : Entry F RipsIndex CF))
      (((List.range distances.length).filter (· ∉ σ)).map fun v => (parity (posIn σ v), simplexIndex distances.length (insert v σ), v + 1)) := by
    show ripsCoboundaryColF distances _ = _
    unfold ripsCoboundaryColF
    rw [cobItems_eq h, Option.bind_some, toVec_simplex h, Option.bind_some, m1, Option.bind_some]
  constructor
  · intro hn
    rw [hcf, mapOpt_eq_none]
    refine ⟨_, List.mem_map.2 ⟨distances.length - 1, List.mem_filter.2 ⟨List.mem_range.2 (by omega), by simpa using hn⟩, rfl⟩, ?_⟩
    have : mapOpt (fun v => distAt distances v (distances.length - 1 + 1)) (σ.sort (· ≤ ·)) = none := by
      rw [mapOpt_eq_none]
      obtain ⟨w, hw⟩ := h.1
      refine ⟨w, (Finset.mem_sort _).2 hw, ?_⟩
      have hw' := Finset.mem_range.1 (h.2 hw)
      unfold distAt
      rw [List.getElem?_eq_getElem hw', Option.bind_some, List.getElem?_eq_none]
      rw [hsq _ (List.getElem_mem hw')]; omega
    rw [this]; rfl
  · intro hn
    have hlt : ∀ v ∈ (List.range distances.length).filter (· ∉ σ), v < distances.length - 1 ∧ v ∉ σ := by
      intro v hv
      obtain ⟨hv, hv'⟩ := List.mem_filter.1 hv
      have hv := List.mem_range.1 hv
      have hv' : v ∉ σ := by simpa using hv'
      refine ⟨?_, hv'⟩
      have : v ≠ distances.length - 1 := by rintro rfl; exact hv' hn
      omega
    have e2 : (ripsCoboundary CF distances).colF (simplexIndex distances.length σ) =
        some (((List.range distances.length).filter (· ∉ σ)).map fun v =>
          (⟨max m (maxTo d (σ.sort (· ≤ ·)) (v + 1)), simplexIndex distances.length (insert v σ), parity (posIn σ v)⟩ : Entry F RipsIndex CF)) := by
      rw [hcf, mapOpt_map]
      refine mapOpt_eq_map _ _ _ fun v hv => ?_
      obtain ⟨h1, _⟩ := hlt v hv
      have : mapOpt (fun w => distAt distances w (v + 1)) (σ.sort (· ≤ ·)) = some ((σ.sort (· ≤ ·)).map fun w => d w (v + 1)) :=
        mapOpt_eq_map _ _ _ fun w hw => hd w (h.lt w hw) (v + 1) (by omega)
      simp only [this, Option.bind_some, maxTo_eq d (sort_ne_nil h.1), Option.map_some]
    refine ⟨_, _, ripsCoboundaryColumn_eq h, e2, ?_, ?_⟩
    · rw [List.map_map]; rfl
    · intro e he
      obtain ⟨v, hv, rfl⟩ := List.mem_map.1 he
      obtain ⟨h1, h2⟩ := hlt v hv
      refine ⟨v, h1, h2, rfl, ?_⟩
      intro x
      simp only [max_le_iff, m2, maxTo_le d (sort_ne_nil h.1), Finset.mem_sort]

/-- C32: the Rips boundary, and the matrices returned by `build_rips_boundary_matrix` and `build_rips_coboundary_matrix` (and references
to and reverses of them) do list the entries of `column` with `filtration_value` of each row: they do not use the override. -/
theorem C32_rips_wrapped (distances : List (List F)) (max_dim : ℕ) :
    Enriches (ripsBoundary CF distances) ∧
    (∀ D B, buildRipsBoundaryMatrix CF distances max_dim = some (D, B) →
      D.toOracle = (ripsBoundary CF distances).toOracle ∧ Enriches D ∧ Enriches D.ref ∧ Enriches D.reverse ∧ Enriches D.reverse.ref) ∧
    (∀ D B, buildRipsCoboundaryMatrix CF distances max_dim = some (D, B) →
      D.toOracle = (ripsCoboundary CF distances).toOracle ∧ Enriches D ∧ Enriches D.ref ∧ Enriches D.reverse ∧ Enriches D.reverse.ref) := by
  refine ⟨fun _ => rfl, ?_, ?_⟩
  · intro D B h
    obtain ⟨b, _, e⟩ := Option.map_eq_some_iff.1 h
    obtain ⟨rfl, rfl⟩ := Prod.mk.inj e
    refine ⟨rfl, fun _ => rfl, fun _ => rfl, ?_, fun _ => rfl⟩
    have : Enriches (ripsBoundary CF distances).withBasis.ref.reverse := by rw [← reverse_ref]; exact fun _ => rfl
    exact this
  · intro D B h
    obtain ⟨b, _, e⟩ := Option.map_eq_some_iff.1 h
    obtain ⟨rfl, rfl⟩ := Prod.mk.inj e
    refine ⟨rfl, fun _ => rfl, fun _ => rfl, ?_, fun _ => rfl⟩
    have : Enriches (ripsCoboundary CF distances).withBasis.ref.reverse := by rw [← reverse_ref]; exact fun _ => rfl
    exact this

/-! ### C33 -/

variable [StdHeap]

/-- C33: the program of phlite_rips/src/main.rs. For a symmetric, non-negative distance matrix with zero diagonal, building the Rips
coboundary matrix up to `max_dim`, reversing it and running clearing in the dimensions `0..=max_dim` terminates without panicking, and in
every dimension `p ≤ max_dim` the number of bars born by `s` and alive after `t` is the persistent Betti number of the Vietoris-Rips
filtration: the rank of `H_p(VR_s) → H_p(VR_t)`. Bars carry `dimension` and `filtration_value` of their cells. -/
theorem C33_rips_cohomology (hD : IsDistanceMatrix distances d) {max_dim : ℕ} (h1 : 1 ≤ max_dim ∨ distances.length ≤ 1) :
    ∃ D B, buildRipsCoboundaryMatrix CF distances max_dim = some (D, B) ∧
    ∃ rc dgm, (∃ enough, ∀ fuel ≥ enough, buildWithDiagram D.reverse.ref B.reverse fuel (List.range (max_dim + 1)) = some (rc, dgm)) ∧
      ∀ p ≤ max_dim, ∀ (s t : F) (hst : s ≤ t),
        persistentBetti (simplexBoundary K) (vietorisRips_mono distances.length d p hst) (vietorisRips_mono distances.length d (p + 1) hst) =
          barsAliveRev (fun c => (((ripsDimension distances.length c).getD 0 : ℕ) : ℤ)) (fun c => (D.filt c).getD 0) dgm p s t := by
  have hb := buildRipsBases_spec hD.entry h1
  have hS := ripsSplitCob (CF := CF) (K := K) hD hb h1
  refine ⟨_, _, by unfold buildRipsCoboundaryMatrix; rw [hb]; rfl, ?_⟩
  obtain ⟨rc, dgm, hrun⟩ := C20_clearing_terminates hS.reverse
  refine ⟨rc, dgm, ?_, ?_⟩
  · refine ⟨((List.range (max_dim + 1)).map fun k : ℕ => (ripsCells distances.length d k).length).sum + 1, fun fuel hf => ?_⟩
    rw [reverse_ref]
    refine (hrun fuel fun k hk => ?_).1
    rw [List.length_map, List.length_reverse]
    have : (ripsCells distances.length d k).length ≤ ((List.range (max_dim + 1)).map fun k : ℕ => (ripsCells distances.length d k).length).sum :=
      List.le_sum_of_mem (List.mem_map.2 ⟨k, hk, rfl⟩)
    omega
  · intro p hp s t hst
    rw [← betti_rips hD.entry p hst]
    obtain ⟨fuel, hf⟩ : ∃ fuel, ∀ k ∈ List.range (max_dim + 1), ((ripsCells distances.length d k).reverse.map toDual).length < fuel := by
      refine ⟨((List.range (max_dim + 1)).map fun k : ℕ => (ripsCells distances.length d k).length).sum + 1, fun k hk => ?_⟩
      rw [List.length_map, List.length_reverse]
      have : (ripsCells distances.length d k).length ≤ ((List.range (max_dim + 1)).map fun k : ℕ => (ripsCells distances.length d k).length).sum :=
        List.le_sum_of_mem (List.mem_map.2 ⟨k, hk, rfl⟩)
      omega
    refine C26_betti (ripsCellComplex hD) hS (hrun fuel hf).1 (List.mem_range.2 (by omega)) ?_ hst
    rcases Nat.eq_zero_or_pos p with rfl | h0
    · exact Or.inl rfl
    · exact Or.inr ⟨p - 1, List.mem_range.2 (by omega), by omega⟩

theorem persistentBetti_congr {T : Type} {M : T → (T →₀ K)} {X X' Y Y' U U' W W' : Set T} (h1 : X = U) (h2 : X' = U') (h3 : Y = W) (h4 : Y' = W')
    (hX : X ⊆ X') (hY : Y ⊆ Y') (hU : U ⊆ U') (hW : W ⊆ W') : persistentBetti M hX hY = persistentBetti M hU hW := by
  subst h1; subst h2; subst h3; subst h4; rfl

/-- C33: the same for the boundary matrix, reduced in the dimensions `max_dim, ..., 0`, in every dimension below `max_dim`. -/
theorem C33_rips_homology (hD : IsDistanceMatrix distances d) {max_dim : ℕ} (h1 : 1 ≤ max_dim ∨ distances.length ≤ 1) :
    ∃ D B, buildRipsBoundaryMatrix CF distances max_dim = some (D, B) ∧
    ∃ rc dgm, (∃ enough, ∀ fuel ≥ enough, buildWithDiagram D.ref B fuel (List.range (max_dim + 1)).reverse = some (rc, dgm)) ∧
      ∀ p < max_dim, ∀ (s t : F) (hst : s ≤ t),
        persistentBetti (simplexBoundary K) (vietorisRips_mono distances.length d p hst) (vietorisRips_mono distances.length d (p + 1) hst) =
          barsAlive (fun c => (((ripsDimension distances.length c).getD 0 : ℕ) : ℤ)) (fun c => (D.filt c).getD 0) dgm p s t := by
  have hb := buildRipsBases_spec hD.entry h1
  have hS := ripsSplitBdry (CF := CF) (K := K) hD hb h1
  refine ⟨_, _, by unfold buildRipsBoundaryMatrix; rw [hb]; rfl, ?_⟩
  obtain ⟨rc, dgm, hrun⟩ := C20_clearing_terminates hS
  have hfuel : ∀ fuel, ((List.range (max_dim + 1)).map fun k : ℕ => (ripsCells distances.length d k).length).sum + 1 ≤ fuel →
      ∀ k ∈ (List.range (max_dim + 1)).reverse, (ripsCells distances.length d k).length < fuel := by
    intro fuel hf k hk
    rw [List.mem_reverse] at hk
    have : (ripsCells distances.length d k).length ≤ ((List.range (max_dim + 1)).map fun k : ℕ => (ripsCells distances.length d k).length).sum :=
      List.le_sum_of_mem (List.mem_map.2 ⟨k, hk, rfl⟩)
    omega
  refine ⟨rc, dgm, ⟨_, fun fuel hf => (hrun fuel (hfuel fuel hf)).1⟩, ?_⟩
  intro p hp s t hst
  rw [← betti_rips hD.entry p hst]
  have hc := C25_clearing hS (hrun _ (hfuel _ le_rfl)).1 (p := p) (by simp; omega) (q := (p : ℤ) + 1) (by omega) hst
  refine Eq.trans ?_ hc
  have e1 : cellsOf (ripsDeg distances.length) ((List.range (max_dim + 1)).reverse.flatMap fun k : ℕ => ripsCells distances.length d k) (p : ℤ) =
      ripsCells distances.length d p := flatMap_filter hS.nodup hS.deg_els (by simp; omega)
  have e2 : cellsOf (ripsDeg distances.length) ((List.range (max_dim + 1)).reverse.flatMap fun k : ℕ => ripsCells distances.length d k) ((p : ℤ) + 1) =
      ripsCells distances.length d ((p : ℤ) + 1) := by
    have := flatMap_filter hS.nodup hS.deg_els (d := p + 1) (by simp; omega)
    rwa [Nat.cast_add, Nat.cast_one] at this
  refine persistentBetti_congr ?_ ?_ ?_ ?_ _ _ _ _ <;> unfold sublevel <;> (try rw [e1]) <;> (try rw [e2])

end

/-! ### C39 -/
section
variable {F I : Type} [LinearOrder F] [Zero F]

/-- C39: the multi-dimensional basis is the concatenation of the bases in each dimension: `size` is the total, `element i` is the `i`-th
element of the concatenation, and panics from the size on; `in_dimension d` is the basis of dimension `d`, and panics if there is none. -/
theorem C39_multi_dim_basis (bases : List (List (F × I))) :
    (multiDimBasis bases).size = (bases.flatMap fun b => b.map Prod.snd).length ∧
    (∀ i, (multiDimBasis bases).element i = (bases.flatMap fun b => b.map Prod.snd)[i]?) ∧
    ∀ dim, (multiDimBasis bases).inDim dim = (bases[dim]?).map fun b => vecBasis (b.map Prod.snd) := by
  refine ⟨?_, ?_, ?_⟩
  · show (bases.map fun b => b.length).sum = _
    rw [List.length_flatMap]; simp
  · show ∀ i, multiElement bases i = _
    induction bases with
    | nil => intro i; rfl
    | cons b bases ih =>
      intro i
      rw [List.flatMap_cons, multiElement]
      show (if i ≥ b.length then multiElement bases (i - b.length) else (b[i]?).map Prod.snd) = _
      split
      · rename_i h
        rw [ih, List.getElem?_append_right (by simpa using h), List.length_map]
      · rename_i h
        rw [List.getElem?_append_left (by simpa using h), List.getElem?_map]
  · intro dim
    show (bases[dim]?).map singleDimBasis = _
    congr 1
    funext b
    unfold singleDimBasis vecBasis
    congr 1
    · simp
    · funext i; rw [List.getElem?_map]

end

/-! ### A square of side 1 with diagonals 2 meets the hypotheses -/
namespace RipsExample

def dist : List (List ℕ) := [[0, 1, 2, 1], [1, 0, 1, 2], [2, 1, 0, 1], [1, 2, 1, 0]]
def d (i j : ℕ) : ℕ := ((dist.getD i []).getD j 0)

theorem isDist : IsDistanceMatrix dist d := by
  constructor <;> decide

example : IsSimplex dist.length {0, 2, 3} := ⟨by decide, by decide⟩
example : (1 ≤ 1 ∨ dist.length ≤ 1) ∧ ∀ row ∈ dist, row.length = dist.length := by decide

/-- The override panics on the edge `01` (index 11); on the edge `03` (index 21), whose cofacets `013` (index 1 + 5 * 2 + 25 * 4) and
`023` both have filtration value 2, it returns the values 2 (from `d 0 2`) and 1 (from `d 0 3` and `d 3 3`). -/
example : (ripsCoboundary (ZP 3) dist).colF (1 + 5 * 2) = none ∧
    ((ripsCoboundary (ZP 3) dist).colF (1 + 5 * 4)).map (fun l => l.map fun e => (e.row, e.filt)) =
      some [(1 + 5 * 2 + 25 * 4, 2), (1 + 5 * 3 + 25 * 4, 1)] ∧
    (ripsCoboundary (ZP 3) dist).filt (1 + 5 * 3 + 25 * 4) = some 2 := by decide +kernel

/-- The pipeline on the square: one component, one loop from 1 to 2. -/
example : letI := listHeap
    ((buildRipsCoboundaryMatrix (ZP 3) dist 1).bind fun p => (buildWithDiagram p.1.reverse.ref p.2.reverse 20 [0, 1]).map fun r =>
      (r.2.essential.image fun x => (ripsDimension 4 (ofDual x), p.1.filt (ofDual x)),
       (r.2.pairings.filter fun x => p.1.filt (ofDual x.2) ≠ p.1.filt (ofDual x.1)).image fun x =>
         (ripsDimension 4 (ofDual x.2), p.1.filt (ofDual x.2), p.1.filt (ofDual x.1)))) =
      some ({(some 0, some 0)}, {(some 0, some 0, some 1), (some 1, some 1, some 2)}) := by decide +kernel

end RipsExample
end Phlite
