/-
Correctness of the standard algorithm (model: Verif/Model/Reduction.lean).
-/
import Verif.Proofs.Reduction

set_option linter.unusedSectionVars false
set_option linter.unusedSimpArgs false

namespace Phlite
open Finsupp (single linearCombination linearCombination_single)

section
variable {CF T F K L : Type} [NonZeroCoeff CF] [Field K] [LawfulCoeff CF K] [LinearOrder L]

theorem snoc_eq_split {pre p q : List T} {b c : T} (h : pre ++ [b] = p ++ c :: q) :
    (q = [] ∧ p = pre ∧ c = b) ∨ ∃ q', q = q' ++ [b] ∧ pre = p ++ c :: q' := by
  rcases List.eq_nil_or_concat q with rfl | ⟨q', x, rfl⟩
  · have := List.append_inj' h (by simp)
    exact Or.inl ⟨rfl, this.1.symm, by simpa using this.2.symm⟩
  · right
    have h' : pre ++ [b] = (p ++ c :: q') ++ [x] := by simpa using h
    have := List.append_inj' h' (by simp)
    have hb : b = x := by simpa using this.2
    exact ⟨q', by rw [hb]; simp, this.1⟩

theorem Decomp.snoc {key : T → L} {pre : List T} {M : T → (T →₀ K)} {W W' : T → (T →₀ K)} {b : T}
    (h : Decomp key pre M W) (hb : b ∉ pre) (hag : ∀ c ∈ pre, W' c = W c) (hd : W' b b ≠ 0)
    (htri : ∀ d, W' b d ≠ 0 → d = b ∨ d ∈ pre)
    (hred : ∀ c ∈ pre, ∀ r, IsLead key (linearCombination K M (W c)) r → ¬ IsLead key (linearCombination K M (W' b)) r) :
    Decomp key (pre ++ [b]) M W' where
  nodup := by
    rw [List.nodup_append]
    refine ⟨h.nodup, by simp, ?_⟩
    intro a ha c hc hac
    rw [List.mem_singleton] at hc; subst hc; subst hac; exact hb ha
  diag c hc := by
    rcases List.mem_append.1 hc with hc | hc
    · rw [hag c hc]; exact h.diag c hc
    · rw [List.mem_singleton.1 hc]; exact hd
  tri p c q hq d hdc := by
    rcases snoc_eq_split hq with ⟨_, rfl, rfl⟩ | ⟨q', _, hp⟩
    · exact htri d hdc
    · rw [hag c (by rw [hp]; simp)] at hdc
      exact h.tri p c q' hp d hdc
  reduced c hc c' hc' r hl hl' := by
    rcases List.mem_append.1 hc with hc | hc <;> rcases List.mem_append.1 hc' with hc' | hc'
    · rw [hag c hc] at hl; rw [hag c' hc'] at hl'; exact h.reduced c hc c' hc' r hl hl'
    · rw [List.mem_singleton.1 hc'] at hl' ⊢; rw [hag c hc] at hl; exact absurd hl' (hred c hc r hl)
    · rw [List.mem_singleton.1 hc] at hl ⊢; rw [hag c' hc'] at hl'; exact absurd hl (hred c' hc' r hl')
    · rw [List.mem_singleton.1 hc, List.mem_singleton.1 hc']

theorem Decomp.mem_of_ne {key : T → L} {pre : List T} {M : T → (T →₀ K)} {W : T → (T →₀ K)} (h : Decomp key pre M W)
    {c d : T} (hc : c ∈ pre) (hd : W c d ≠ 0) : d ∈ pre := by
  obtain ⟨p, q, hpq⟩ := List.append_of_mem hc
  rcases h.tri p c q hpq d hd with rfl | hp
  · exact hc
  · rw [hpq]; simp [hp]

/-- Combining combinations. -/
theorem lc_lc (M : T → (T →₀ K)) (W : T → (T →₀ K)) (a : T →₀ K) :
    linearCombination K M (linearCombination K W a) = linearCombination K (fun j => linearCombination K M (W j)) a := by
  induction a using Finsupp.induction_linear with
  | zero => simp
  | add a b ha hb => simp [ha, hb]
  | single j k => simp

theorem lc_support {W : T → (T →₀ K)} {a : T →₀ K} {d : T} (h : linearCombination K W a d ≠ 0) :
    ∃ j, a j ≠ 0 ∧ W j d ≠ 0 := by
  by_contra hc
  push Not at hc
  apply h
  rw [Finsupp.linearCombination_apply, Finsupp.sum, Finsupp.finset_sum_apply]
  apply Finset.sum_eq_zero
  intro j hj
  rw [Finsupp.smul_apply, hc j (by simpa using hj), smul_zero]

end

section
variable [StdHeap] {CF T F K : Type} [NonZeroCoeff CF] [Field K] [LawfulCoeff CF K] [LinearOrder F] [LinearOrder T]

theorem genReduce_mono {get : BHCol F T CF → Option (Entry F T CF) × BHCol F T CF}
    {rcol : T → Option (List (Entry F T CF))} {vcol : T → Option (List (Entry Unit T CF))} {low : T → Option (T × CF)}
    {n m : Nat} (hnm : n ≤ m) {r : BHCol F T CF} {vi : BHCol Unit T CF} {x : BHCol F T CF × BHCol Unit T CF}
    (h : genReduce get rcol vcol low n r vi = some x) : genReduce get rcol vcol low m r vi = some x := by
  induction n generalizing m r vi with
  | zero => simp [genReduce] at h
  | succ n ih =>
    obtain ⟨m, rfl⟩ : ∃ k, m = k + 1 := ⟨m - 1, by omega⟩
    unfold genReduce at h ⊢
    rcases hg : get r with ⟨o, r1⟩
    rw [hg] at h
    cases o with
    | none => exact h
    | some e =>
      simp only at h ⊢
      cases hl : low e.row with
      | none => rw [hl] at h; exact h
      | some q =>
        rw [hl] at h
        simp only [Option.bind_eq_some_iff] at h ⊢
        obtain ⟨re, h1, ve, h2, h3⟩ := h
        exact ⟨re, h1, ve, h2, ih (by omega) h3⟩

/-- The columns of `V` stored in a map. -/
noncomputable def Wof (K : Type) [Field K] [LawfulCoeff CF K] (v : T → Option (List (CF × T))) (c : T) : T →₀ K :=
  lcOf K ((v c).getD [])

/-- Loop invariant of the standard algorithm after the basis elements `pre`. -/
structure StdInv (K : Type) [Field K] [LawfulCoeff CF K] (f : T → F) (M : T → (T →₀ K)) (pre : List T)
    (s : StdState CF T) : Prop where
  dom : ∀ c, (s.v c).isSome ↔ c ∈ pre
  sparse : ∀ c l, s.v c = some l → IsSparseList (lcOf K l) l
  dec : Decomp (rowKey f) pre M (Wof K s.v)
  diag : ∀ c ∈ pre, Wof K s.v c c = 1
  low : ∀ r j jc, s.low r = some (j, jc) ↔
    j ∈ pre ∧ IsPivot f (linearCombination K M (Wof K s.v j)) r ∧
      linearCombination K M (Wof K s.v j) r = LawfulCoeff.val jc
  homog : ∀ (deg : T → ℤ) (ε : ℤ), (∀ c ∈ pre, ∀ r, M c r ≠ 0 → deg r = deg c + ε) →
    ∀ c ∈ pre, ∀ x, Wof K s.v c x ≠ 0 → deg x = deg c

theorem IsSparseList.mem_ne {v : T →₀ K} {l : List (CF × T)} (h : IsSparseList v l) {t : CF × T} (ht : t ∈ l) :
    v t.2 ≠ 0 := ((h.2 t).1 ht).1

/-- Pivot rows of finitely many columns: at most one each. -/
theorem pivots_card [DecidableEq T] (f : T → F) (pre : List T) (Rv : T → (T →₀ K)) :
    ∃ S : Finset T, S.card ≤ pre.length ∧ ∀ j ∈ pre, ∀ r, IsPivot f (Rv j) r → r ∈ S := by
  induction pre with
  | nil => exact ⟨∅, by simp, by simp⟩
  | cons x l ih =>
    obtain ⟨S, h1, h2⟩ := ih
    by_cases hx : ∃ r, IsPivot f (Rv x) r
    · obtain ⟨r, hr⟩ := hx
      refine ⟨insert r S, (Finset.card_insert_le _ _).trans (by simp [h1]), ?_⟩
      intro j hj r' hr'
      rcases List.mem_cons.1 hj with rfl | hj
      · rw [IsLead.unique (rowKey_injective f) hr' hr]; simp
      · exact Finset.mem_insert_of_mem (h2 j hj r' hr')
    · refine ⟨S, by simp; omega, ?_⟩
      intro j hj r' hr'
      rcases List.mem_cons.1 hj with rfl | hj
      · exact absurd ⟨r', hr'⟩ hx
      · exact h2 j hj r' hr'

theorem stdColumn_spec {D : FOracle CF T T F} {f : T → F} {M : T → (T →₀ K)} {pre : List T} {s : StdState CF T} {b : T}
    (hinv : StdInv K f M pre s) (hg : ∀ c ∈ pre, ReadsCol K D f M c) (hgb : ReadsCol K D f M b) (hb : b ∉ pre) {fuel : Nat}
    (hfuel : pre.length < fuel) : ∃ s', stdColumn D fuel s b = some s' ∧ StdInv K f M (pre ++ [b]) s' := by
  classical
  set W := Wof K s.v with hW
  set Rv : T → (T →₀ K) := fun j => linearCombination K M (W j) with hRv
  obtain ⟨lb, g1, g2, g3, g4⟩ := hgb
  -- the starting column
  have hbuild : D.buildBhcol b = some (BHCol.empty.addEntries (lb.map fun t => (⟨f t.2, t.2, t.1⟩ : Entry F T CF))) := by
    simp [FOracle.buildBhcol, g2]
  set r0 : BHCol F T CF := BHCol.empty.addEntries (lb.map fun t => (⟨f t.2, t.2, t.1⟩ : Entry F T CF)) with hr0
  obtain ⟨hc0, hv0⟩ := build_spec (K := K) f (lb.map fun t => (⟨f t.2, t.2, t.1⟩ : Entry F T CF)) (by
    intro e he; obtain ⟨t, _, rfl⟩ := List.mem_map.1 he; rfl)
  rw [← hr0] at hc0 hv0
  have hv0' : BHCol.vec K r0 = M b := by
    rw [hv0, ← g4, List.map_map]
    congr 1
    conv_rhs => rw [← List.map_id lb]
    rfl
  set v0 : BHCol Unit T CF := BHCol.empty.addTuple (NonZeroCoeff.one, b, ()) with hv0d
  have hvv0 : BHCol.vec K v0 = single b 1 := by
    rw [hv0d, BHCol.addTuple, BHCol.vec_addEntry, BHCol.vec_empty]
    simp [Entry.vec, Entry.ofTuple, LawfulCoeff.val_one]
  -- stored columns
  have hstore : ∀ j ∈ pre, ∃ l, s.v j = some l ∧ lcOf K l = W j ∧ ∀ t ∈ l, t.2 ∈ pre := by
    intro j hj
    obtain ⟨l, hl⟩ := Option.isSome_iff_exists.1 ((hinv.dom j).2 hj)
    have hlW : lcOf K l = W j := by rw [hW, Wof, hl]; rfl
    refine ⟨l, hl, hlW, ?_⟩
    intro t ht
    have := (hinv.sparse j l hl).mem_ne ht
    rw [hlW] at this
    exact hinv.dec.mem_of_ne hj this
  have hlow : LowSpec K f (productF D.ref (mapVecMatrix s.v).withTrivial.toOracle).colF
      (mapVecMatrix s.v).withTrivial.colF s.low Rv W := by
    intro r j jc hlj
    obtain ⟨hj, hp, hval⟩ := (hinv.low r j jc).1 hlj
    obtain ⟨l, hl, hlW, hlp⟩ := hstore j hj
    have hcol : (mapVecMatrix s.v).withTrivial.toOracle.column j = some l := hl
    refine ⟨?_, ?_, hp, hval⟩
    · obtain ⟨es, e1, e2, e3⟩ := prod_colF (K := K) (D := D.ref) (f := f) (M := M) hcol
        (fun t ht => (hg t.2 (hlp t ht)).ref)
      exact ⟨es, e1, e2, by rw [e3, hlW]⟩
    · rw [withTrivial_colF]
      have : (mapVecMatrix s.v).column j = some l := hl
      rw [this]
      refine ⟨_, rfl, ?_⟩
      rw [entLc, List.map_map, ← hlW]
      congr 1
      conv_rhs => rw [← List.map_id l]
      rfl
  obtain ⟨S, hS1, hS2⟩ := pivots_card f pre Rv
  have hS : ∀ r, s.low r ≠ none → r ∈ S := by
    intro r hr
    obtain ⟨⟨j, jc⟩, hq⟩ := Option.ne_none_iff_exists'.1 hr
    obtain ⟨hj, hp, _⟩ := (hinv.low r j jc).1 hq
    exact hS2 j hj r hp
  obtain ⟨r', vi', e1, e2, e3, _, a, e5, e6, e7⟩ := genReduce_spec (K := K) (getSpec_popPush f) hlow S hS fuel r0 v0 hc0
    (lt_of_le_of_lt ((Finset.card_le_card (Finset.filter_subset _ _)).trans hS1) hfuel)
  rw [hv0'] at e6
  rw [hvv0] at e7
  have hred : stdReduce D s.v s.low fuel r0 v0 = some (r', vi') := by rw [stdReduce_eq]; exact e1
  -- the stored column of V
  have hcv : Coherent (fun _ => ()) (StdHeap.bag vi') := fun _ _ => rfl
  obtain ⟨vs, hvs1, hvs2⟩ := BHCol.toSortedVec_spec (K := K) (fun _ => ()) vi' hcv
  have hsp := hvs2.sparse
  have ha : ∀ j, a j ≠ 0 → j ∈ pre := by
    intro j hj
    obtain ⟨p, jc, hq, _⟩ := e5 j hj
    exact ((hinv.low p j jc).1 hq).1
  set wb : T →₀ K := single b 1 + linearCombination K W a with hwb
  have hlcb : lcOf K (vs.map fun e => (e.coeff, e.row)) = wb := by rw [hsp.lcOf_eq, e7]
  have hRb : linearCombination K M wb = BHCol.vec K r' := by
    rw [hwb, map_add, linearCombination_single, one_smul, lc_lc, e6]
  -- pivot after the loop
  set low' : T → Option (T × CF) := match (BHCol.popPivot r').1 with
    | some e => mapInsert s.low e.row (b, e.coeff)
    | none => s.low with hlow'
  refine ⟨⟨mapInsert s.v b (vs.map fun e => (e.coeff, e.row)), low'⟩, ?_, ?_⟩
  · simp only [stdColumn, hbuild, Option.bind_some]
    rw [← hv0d, hred]
    simp only [Option.bind_some, hvs1, Option.map_some]
    rfl
  · have hWne : ∀ c, c ≠ b → Wof K (mapInsert s.v b (vs.map fun e => (e.coeff, e.row))) c = W c := by
      intro c hc; simp only [Wof, mapInsert, if_neg hc]; rfl
    have hWb : Wof K (mapInsert s.v b (vs.map fun e => (e.coeff, e.row))) b = wb := by
      simp only [Wof, mapInsert, if_true, Option.getD_some]; exact hlcb
    have hnb : ∀ c ∈ pre, c ≠ b := fun c hc h => hb (h ▸ hc)
    have hWbb : wb b = 1 := by
      have : linearCombination K W a b = 0 := by
        by_contra hne
        obtain ⟨j, h1, h2⟩ := lc_support hne
        exact hb (hinv.dec.mem_of_ne (ha j h1) h2)
      rw [hwb, Finsupp.add_apply, this]; simp
    refine ⟨?_, ?_, ?_, ?_, ?_, ?_⟩
    · intro c
      simp only [mapInsert, List.mem_append, List.mem_singleton]
      split
      · rename_i h; simp [h]
      · rename_i h; rw [hinv.dom]; simp [h]
    · intro c l hl
      simp only [mapInsert] at hl
      split at hl
      · cases hl; rw [hlcb]; rw [e7] at hsp; exact hsp
      · exact hinv.sparse c l hl
    · refine hinv.dec.snoc hb (fun c hc => hWne c (hnb c hc)) ?_ ?_ ?_
      · rw [hWb, hWbb]; exact one_ne_zero
      · intro d hd
        rw [hWb, hwb, Finsupp.add_apply] at hd
        by_cases hdb : d = b
        · exact Or.inl hdb
        · rw [Finsupp.single_eq_of_ne hdb, zero_add] at hd
          obtain ⟨j, h1, h2⟩ := lc_support hd
          exact Or.inr (hinv.dec.mem_of_ne (ha j h1) h2)
      · intro c hc r hl hl'
        rw [hWb, hRb] at hl'
        have h1 := e3 r hl'
        obtain ⟨k, hk⟩ := LawfulCoeff.val_surj (CF := CF) _ hl.1
        have := (hinv.low r c k).2 ⟨hc, hl, hk.symm⟩
        rw [h1] at this; cases this
    · intro c hc
      rcases List.mem_append.1 hc with hc | hc
      · rw [hWne c (hnb c hc)]; exact hinv.diag c hc
      · rw [List.mem_singleton.1 hc, hWb, hWbb]
    · intro r j jc
      have base : (j ∈ pre ++ [b] ∧ IsPivot f (linearCombination K M (Wof K (mapInsert s.v b (vs.map fun e => (e.coeff, e.row))) j)) r ∧
          linearCombination K M (Wof K (mapInsert s.v b (vs.map fun e => (e.coeff, e.row))) j) r = LawfulCoeff.val jc) ↔
          (s.low r = some (j, jc) ∨ (j = b ∧ IsPivot f (BHCol.vec K r') r ∧ BHCol.vec K r' r = LawfulCoeff.val jc)) := by
        rw [hinv.low r j jc]
        by_cases hj : j = b
        · subst hj
          rw [hWb, hRb]; simp [hb]
        · rw [hWne j hj]; simp [hj, hW]
      refine Iff.trans ?_ base.symm
      rw [hlow']
      rcases hpp : BHCol.popPivot r' with ⟨o, r''⟩
      cases o with
      | none =>
        have hz := (BHCol.popPivot_none (K := K) e2 hpp).1
        simp only
        constructor
        · exact Or.inl
        · rintro (h | ⟨_, h, _⟩)
          · exact h
          · exact absurd (by rw [hz]; rfl) h.1
      | some e =>
        obtain ⟨_, _, _, p4, p5, _, _⟩ := BHCol.popPivot_some (K := K) e2 hpp
        simp only [mapInsert]
        split
        · rename_i hr
          subst hr
          rw [e3 e.row p5]
          simp only [Option.some.injEq, Prod.mk.injEq, reduceCtorEq, false_or]
          constructor
          · rintro ⟨rfl, rfl⟩; exact ⟨rfl, p5, p4⟩
          · rintro ⟨rfl, _, h⟩
            exact ⟨rfl, LawfulCoeff.val_inj (K := K) _ _ (p4.symm.trans h)⟩
        · rename_i hr
          constructor
          · exact Or.inl
          · rintro (h | ⟨_, h, _⟩)
            · exact h
            · exact absurd (IsLead.unique (rowKey_injective f) h p5) hr
    · intro deg ε hdeg
      have hpre := hinv.homog deg ε fun c hc => hdeg c (by simp [hc])
      have hlead : ∀ j ∈ pre, ∀ x, Rv j x ≠ 0 → deg x = deg j + ε := by
        intro j hj x hx
        obtain ⟨y, y1, y2⟩ := lc_support hx
        rw [hdeg y (by simp [hinv.dec.mem_of_ne hj y1]) x y2, hpre j hj y y1]
      have hadeg : ∀ j, a j ≠ 0 → deg j = deg b := by
        intro j hj
        obtain ⟨p, jc, hq, hQ⟩ := e5 j hj
        obtain ⟨h1, h2, _⟩ := (hinv.low p j jc).1 hq
        have h3 := hQ (fun x => deg x = deg b + ε) (fun x hx => hdeg b (by simp) x (by rwa [hv0'] at hx)) (by
          intro p j jc hq hp x hx
          obtain ⟨h1, h2, _⟩ := (hinv.low p j jc).1 hq
          have h3 := hlead j h1 p h2.1
          have h4 := hlead j h1 x hx
          omega)
        have h4 := hlead j h1 p h2.1
        omega
      intro c hc x hx
      rcases List.mem_append.1 hc with hc | hc
      · rw [hWne c (hnb c hc)] at hx; exact hpre c hc x hx
      · rw [List.mem_singleton] at hc
        subst hc
        rw [hWb, hwb, Finsupp.add_apply] at hx
        by_cases hxb : x = c
        · rw [hxb]
        · rw [Finsupp.single_eq_of_ne hxb, zero_add] at hx
          obtain ⟨j, h1, h2⟩ := lc_support hx
          rw [hpre j (ha j h1) x h2, hadeg j h1]

/-- `elems` lists the elements of the basis. -/
theorem elems_spec {E : Type} {B : Basis E} {els : List E} (h : B.elems = some els) :
    els.length = B.size ∧ ∀ i, i < B.size → B.element i = els[i]? := by
  unfold Basis.elems at h
  rw [mapOpt_eq_some] at h
  have hl := h.length_eq
  rw [List.length_range] at hl
  refine ⟨hl.symm, ?_⟩
  intro i hi
  rw [List.forall₂_iff_get] at h
  have := h.2 i (by simpa using hi) (by omega)
  simp only [List.get_eq_getElem, List.getElem_range] at this
  rw [this, List.getElem?_eq_getElem]

theorem stdLoop_spec {D : FOracle CF T T F} {f : T → F} {M : T → (T →₀ K)} {B : Basis T} {els : List T}
    (hB : B.elems = some els) (hnd : els.Nodup) (hg : ∀ c ∈ els, ReadsCol K D f M c) (fuel : Nat → Nat)
    (hfuel : ∀ i, i < B.size → i < fuel i) (pre rest : List T) (hpr : pre ++ rest = els) (s : StdState CF T)
    (hinv : StdInv K f M pre s) :
    ∃ s', stdLoop D B fuel (List.range' pre.length rest.length) s = some s' ∧ StdInv K f M els s' := by
  induction rest generalizing pre s with
  | nil =>
    refine ⟨s, by simp [stdLoop], ?_⟩
    rw [← hpr]; simpa using hinv
  | cons b rest ih =>
    obtain ⟨hlen, hel⟩ := elems_spec hB
    have hlt : pre.length < B.size := by rw [← hlen, ← hpr]; simp
    have hbe : B.element pre.length = some b := by
      rw [hel _ hlt, ← hpr]; simp
    have hbn : b ∉ pre := by
      intro hbp
      rw [← hpr, List.nodup_append] at hnd
      exact hnd.2.2 b hbp b (by simp) rfl
    obtain ⟨s1, h1, h2⟩ := stdColumn_spec (K := K) (D := D) hinv (fun c hc => hg c (by rw [← hpr]; simp [hc]))
      (hg b (by rw [← hpr]; simp)) hbn (hfuel _ hlt)
    obtain ⟨s', h3, h4⟩ := ih (pre ++ [b]) (by rw [← hpr]; simp) s1 h2
    refine ⟨s', ?_, h4⟩
    rw [List.length_cons, List.range'_succ, stdLoop, hbe, Option.bind_some, h1, Option.bind_some]
    rw [List.length_append, List.length_singleton] at h3
    exact h3

theorem stdInv_init (f : T → F) (M : T → (T →₀ K)) : StdInv K f M [] (⟨fun _ => none, fun _ => none⟩ : StdState CF T) where
  dom := by simp
  sparse := by simp
  dec := ⟨by simp, by simp, by simp, by simp⟩
  diag := by simp
  low := by simp
  homog := by simp

theorem standardAlgo_spec {D : FOracle CF T T F} {f : T → F} {M : T → (T →₀ K)} {B : Basis T} {els : List T}
    (hB : B.elems = some els) (hnd : els.Nodup) (hg : ∀ c ∈ els, ReadsCol K D f M c) (fuel : Nat → Nat)
    (hfuel : ∀ i, i < B.size → i < fuel i) :
    ∃ s, standardAlgo D B fuel = some s.v ∧ StdInv K f M els s := by
  obtain ⟨s, h1, h2⟩ := stdLoop_spec (K := K) hB hnd hg fuel hfuel [] els rfl ⟨fun _ => none, fun _ => none⟩ (stdInv_init f M)
  refine ⟨s, ?_, h2⟩
  unfold standardAlgo
  rw [List.range_eq_range', ← (elems_spec hB).1]
  simp only [List.length_nil] at h1
  rw [h1]; rfl

theorem stdReduce_mono {D : FOracle CF T T F} {v : T → Option (List (CF × T))} {low : T → Option (T × CF)}
    {n m : Nat} (hnm : n ≤ m) {r : BHCol F T CF} {vi : BHCol Unit T CF} {x : BHCol F T CF × BHCol Unit T CF}
    (h : stdReduce D v low n r vi = some x) : stdReduce D v low m r vi = some x := by
  rw [stdReduce_eq] at h ⊢; exact genReduce_mono hnm h

theorem stdLoop_mono {D : FOracle CF T T F} {B : Basis T} {fuel fuel' : Nat → Nat} {is : List Nat}
    (hf : ∀ i ∈ is, fuel i ≤ fuel' i) {s s' : StdState CF T} (h : stdLoop D B fuel is s = some s') :
    stdLoop D B fuel' is s = some s' := by
  induction is generalizing s with
  | nil => exact h
  | cons i is ih =>
    simp only [stdLoop, Option.bind_eq_some_iff] at h ⊢
    obtain ⟨b, h1, s1, h2, h3⟩ := h
    refine ⟨b, h1, s1, ?_, ih (fun i hi => hf i (List.mem_cons_of_mem _ hi)) h3⟩
    simp only [stdColumn, Option.bind_eq_some_iff, Option.map_eq_some_iff] at h2 ⊢
    obtain ⟨r0, a1, p, a2, a3⟩ := h2
    exact ⟨r0, a1, p, stdReduce_mono (hf i List.mem_cons_self) a2, a3⟩

theorem standardAlgo_mono {D : FOracle CF T T F} {B : Basis T} {fuel fuel' : Nat → Nat}
    (hf : ∀ i, i < B.size → fuel i ≤ fuel' i) {v : T → Option (List (CF × T))} (h : standardAlgo D B fuel = some v) :
    standardAlgo D B fuel' = some v := by
  simp only [standardAlgo, Option.map_eq_some_iff] at h ⊢
  obtain ⟨s, h1, h2⟩ := h
  exact ⟨s, stdLoop_mono (fun i hi => hf i (by simpa using hi)) h1, h2⟩

/-! ### Reading off the diagram -/

theorem readLoop_spec {R : FOracle CF T T F} {f : T → F} {Rv : T → (T →₀ K)} {B : Basis T} {els : List T}
    (is : List Nat) (hels : List.Forall₂ (fun i b => B.element i = some b) is els)
    (hR : ∀ c ∈ els, ∃ es, R.colF c = some es ∧ (∀ e ∈ es, e.filt = f e.row) ∧ entLc K es = Rv c) (d : Diagram T) :
    ∃ d', readLoop R B is d = some d' ∧
      (∀ r c, (r, c) ∈ d'.pairings ↔ (r, c) ∈ d.pairings ∨ (c ∈ els ∧ IsPivot f (Rv c) r)) ∧
      (∀ x, x ∈ d'.essential ↔ ((x ∈ d.essential ∧ ∀ c ∈ els, ¬ IsPivot f (Rv c) x) ∨
        ∃ p q, els = p ++ x :: q ∧ Rv x = 0 ∧ ∀ c ∈ q, ¬ IsPivot f (Rv c) x)) := by
  induction hels generalizing d with
  | nil => exact ⟨d, rfl, by simp, by simp⟩
  | @cons i b is els hib hrest ih =>
    obtain ⟨es, h1, h2, h3⟩ := hR b (by simp)
    have hbuild : R.buildBhcol b = some (BHCol.empty.addEntries es) := by simp [FOracle.buildBhcol, h1]
    obtain ⟨hc, hv⟩ := build_spec (K := K) f es h2
    have hv : BHCol.vec K (BHCol.empty.addEntries es : BHCol F T CF) = Rv b := hv.trans h3
    rcases hpp : BHCol.popPivot (BHCol.empty.addEntries es : BHCol F T CF) with ⟨o, r'⟩
    cases o with
    | none =>
      have hz := (BHCol.popPivot_none (K := K) hc hpp).1
      rw [hv] at hz
      obtain ⟨d', i1, i2, i3⟩ := ih (fun c hc => hR c (by simp [hc])) { d with essential := insert b d.essential }
      refine ⟨d', ?_, ?_, ?_⟩
      · simp only [readLoop, hib, hbuild, hpp, Option.bind_some]; exact i1
      · intro r c
        rw [i2]
        simp only [List.mem_cons]
        constructor
        · rintro (h | ⟨h, h'⟩)
          · exact Or.inl h
          · exact Or.inr ⟨Or.inr h, h'⟩
        · rintro (h | ⟨rfl | h, h'⟩)
          · exact Or.inl h
          · rw [hz] at h'; exact absurd rfl h'.1
          · exact Or.inr ⟨h, h'⟩
      · intro x
        rw [i3]
        simp only [Finset.mem_insert, List.mem_cons, forall_eq_or_imp]
        have hnp : ¬ IsPivot f (Rv b) x := by rw [hz]; intro h; exact h.1 rfl
        constructor
        · rintro (⟨rfl | h, h'⟩ | ⟨p, q, rfl, h', h''⟩)
          · exact Or.inr ⟨[], els, rfl, hz, h'⟩
          · exact Or.inl ⟨h, hnp, h'⟩
          · exact Or.inr ⟨b :: p, q, rfl, h', h''⟩
        · rintro (⟨h, _, h'⟩ | ⟨p, q, hpq, h', h''⟩)
          · exact Or.inl ⟨Or.inr h, h'⟩
          · cases p with
            | nil =>
              simp only [List.nil_append, List.cons.injEq] at hpq
              obtain ⟨rfl, rfl⟩ := hpq
              exact Or.inl ⟨Or.inl rfl, h''⟩
            | cons y p =>
              simp only [List.cons_append, List.cons.injEq] at hpq
              obtain ⟨rfl, rfl⟩ := hpq
              exact Or.inr ⟨p, q, rfl, h', h''⟩
    | some e =>
      obtain ⟨_, _, _, p4, p5, _, _⟩ := BHCol.popPivot_some (K := K) hc hpp
      rw [hv] at p5
      have hpu : ∀ r, IsPivot f (Rv b) r ↔ r = e.row :=
        fun r => ⟨fun h => IsLead.unique (rowKey_injective f) h p5, fun h => h ▸ p5⟩
      obtain ⟨d', i1, i2, i3⟩ := ih (fun c hc => hR c (by simp [hc]))
        { essential := d.essential.erase e.row, pairings := insert (e.row, b) d.pairings }
      refine ⟨d', ?_, ?_, ?_⟩
      · simp only [readLoop, hib, hbuild, hpp, Option.bind_some]; exact i1
      · intro r c
        rw [i2]
        simp only [Finset.mem_insert, Prod.mk.injEq, List.mem_cons]
        constructor
        · rintro ((⟨rfl, rfl⟩ | h) | ⟨h, h'⟩)
          · exact Or.inr ⟨Or.inl rfl, p5⟩
          · exact Or.inl h
          · exact Or.inr ⟨Or.inr h, h'⟩
        · rintro (h | ⟨rfl | h, h'⟩)
          · exact Or.inl (Or.inr h)
          · exact Or.inl (Or.inl ⟨(hpu r).1 h', rfl⟩)
          · exact Or.inr ⟨h, h'⟩
      · intro x
        rw [i3]
        simp only [Finset.mem_erase, List.mem_cons, forall_eq_or_imp, hpu]
        constructor
        · rintro (⟨⟨h0, h⟩, h'⟩ | ⟨p, q, rfl, h', h''⟩)
          · exact Or.inl ⟨h, h0, h'⟩
          · exact Or.inr ⟨b :: p, q, rfl, h', h''⟩
        · rintro (⟨h, h0, h'⟩ | ⟨p, q, hpq, h', h''⟩)
          · exact Or.inl ⟨⟨h0, h⟩, h'⟩
          · cases p with
            | nil =>
              simp only [List.nil_append, List.cons.injEq] at hpq
              obtain ⟨rfl, rfl⟩ := hpq
              rw [h'] at p5; exact absurd rfl p5.1
            | cons y p =>
              simp only [List.cons_append, List.cons.injEq] at hpq
              obtain ⟨rfl, rfl⟩ := hpq
              exact Or.inr ⟨p, q, rfl, h', h''⟩

theorem readOff_spec {D : FOracle CF T T F} {f : T → F} {M : T → (T →₀ K)} {B : Basis T} {els : List T}
    (hB : B.elems = some els) (hg : ∀ c ∈ els, ReadsCol K D f M c) {s : StdState CF T}
    (hinv : StdInv K f M els s) (rev : Bool) :
    ∃ d, readOffDiagram D B s.v rev = some d ∧
      (∀ r c, (r, c) ∈ d.pairings ↔ c ∈ els ∧ IsPivot f (linearCombination K M (Wof K s.v c)) r) ∧
      (∀ x, x ∈ d.essential ↔ ∃ p q, (if rev then els.reverse else els) = p ++ x :: q ∧
        linearCombination K M (Wof K s.v x) = 0 ∧ ∀ c ∈ q, ¬ IsPivot f (linearCombination K M (Wof K s.v c)) x) := by
  have hall : List.Forall₂ (fun i b => B.element i = some b) (List.range B.size) els := by
    have h := hB
    unfold Basis.elems at h
    rwa [mapOpt_eq_some] at h
  have hord : List.Forall₂ (fun i b => B.element i = some b)
      (if rev then (List.range B.size).reverse else List.range B.size) (if rev then els.reverse else els) := by
    cases rev
    · exact hall
    · exact List.rel_reverse hall
  have hmem : ∀ c, c ∈ (if rev then els.reverse else els) ↔ c ∈ els := by intro c; cases rev <;> simp
  obtain ⟨d, h1, h2, h3⟩ := readLoop_spec (K := K) (R := productF D.ref (mapVecMatrix s.v)) (f := f)
    (Rv := fun c => linearCombination K M (Wof K s.v c)) _ hord (by
      intro c hc
      rw [hmem] at hc
      obtain ⟨l, hl⟩ := Option.isSome_iff_exists.1 ((hinv.dom c).2 hc)
      have hlW : lcOf K l = Wof K s.v c := by rw [Wof, hl]; rfl
      obtain ⟨es, e1, e2, e3⟩ := prod_colF (K := K) (D := D.ref) (f := f) (M := M) (V := mapVecMatrix s.v) hl
        (fun t ht => by
          have h0 := (hinv.sparse c l hl).mem_ne ht
          rw [hlW] at h0
          exact (hg t.2 (hinv.dec.mem_of_ne hc h0)).ref)
      exact ⟨es, e1, e2, by rw [e3, hlW]⟩) Diagram.empty
  refine ⟨d, h1, ?_, ?_⟩
  · intro r c; rw [h2, hmem]; simp [Diagram.empty]
  · intro x; rw [h3]; simp [Diagram.empty]

end
end Phlite
