/-
Property theorems C20-C24: the clearing algorithm, and its agreement with the standard algorithm.
-/
import Verif.Props.Standard
import Verif.Props.Matrices

set_option linter.unusedSectionVars false
set_option linter.unusedSimpArgs false

namespace Phlite
open Finsupp (single linearCombination linearCombination_single)

section
variable [StdHeap] {CF T F K : Type} [NonZeroCoeff CF] [Field K] [LawfulCoeff CF K] [LinearOrder F] [LinearOrder T]
variable {D : FOracle CF T T F} {B : SplitBasis T} {f : T → F} {M : T → (T →₀ K)} {deg : T → ℤ} {ε : ℤ} {dims : List ℕ}
  {els : ℕ → List T}

theorem clearing_run (hC : SplitComplex K D B f M deg ε dims els) :
    ∃ s : CrmState CF T, (ClrInv K f M deg (fun _ _ => True) (dims.flatMap els) [] s fun _ => none) ∧
      ∀ fuel, (∀ d ∈ dims, (els d).length < fuel) →
        buildWithDiagram (D.restrict (dims.flatMap els)) B fuel dims = some (s.rc, s.diagram) ∧
        buildWithDiagram D B fuel dims = some (s.rc, s.diagram) := by
  have hex : ∃ m, ∀ d ∈ dims, (els d).length < m := by
    clear hC
    induction dims with
    | nil => exact ⟨0, by simp⟩
    | cons d ds ih =>
      obtain ⟨m, hm⟩ := ih
      refine ⟨max m ((els d).length + 1), ?_⟩
      intro d' hd'
      rcases List.mem_cons.1 hd' with rfl | h
      · omega
      · have := hm d' h; omega
  obtain ⟨m, hm⟩ := hex
  obtain ⟨s, h1, h2⟩ := buildWithDiagram_spec hC.restrict hm
  refine ⟨s, h2, ?_⟩
  intro fuel hf
  obtain ⟨s', h3, _⟩ := buildWithDiagram_spec hC.restrict hf
  have e1 := buildWithDiagram_mono (DLE.refl _) (le_max_left m fuel) h1
  have e2 := buildWithDiagram_mono (DLE.refl _) (le_max_right m fuel) h3
  rw [e1] at e2
  rw [← Option.some.inj e2] at h3
  exact ⟨h3, buildWithDiagram_mono (restrict_le _ _) (Nat.le_refl _) h3⟩

theorem clearing_unique (hC : SplitComplex K D B f M deg ε dims els) {fuel : Nat} {rc : T → Option (RedCol CF T)} {dgm : Diagram T}
    (h : buildWithDiagram D B fuel dims = some (rc, dgm)) :
    ∃ s : CrmState CF T, s.rc = rc ∧ s.diagram = dgm ∧ ClrInv K f M deg (fun _ _ => True) (dims.flatMap els) [] s fun _ => none := by
  obtain ⟨s, h1, h2⟩ := clearing_run hC
  have hex : ∃ m, fuel ≤ m ∧ ∀ d ∈ dims, (els d).length < m := by
    refine ⟨fuel + ((dims.map fun d => (els d).length).sum + 1), by omega, ?_⟩
    intro d hd
    have : (els d).length ≤ (dims.map fun d => (els d).length).sum := List.le_sum_of_mem (List.mem_map.2 ⟨d, hd, rfl⟩)
    omega
  obtain ⟨m, hm1, hm2⟩ := hex
  have e := buildWithDiagram_mono (DLE.refl D) hm1 h
  rw [(h2 m hm2).2] at e
  obtain ⟨e1, e2⟩ := Prod.mk.inj (Option.some.inj e)
  exact ⟨s, e1, e2, h1⟩

/-! ### C20 -/

/-- C20: on a chain complex split by dimension, clearing succeeds with one and the same result for every fuel larger than the number of
cells in each dimension (so it terminates), even on the matrix that panics on every cell outside the listed dimensions. -/
theorem C20_clearing_terminates (hC : SplitComplex K D B f M deg ε dims els) :
    ∃ rc dgm, ∀ fuel, (∀ d ∈ dims, (els d).length < fuel) →
      buildWithDiagram D B fuel dims = some (rc, dgm) ∧
      buildWithDiagram (D.restrict (dims.flatMap els)) B fuel dims = some (rc, dgm) := by
  obtain ⟨s, _, h⟩ := clearing_run hC
  exact ⟨s.rc, s.diagram, fun fuel hf => ⟨(h fuel hf).2, (h fuel hf).1⟩⟩

/-! ### C21 -/

theorem flatMap_filter {deg : T → ℤ} {els : ℕ → List T} {dims : List ℕ} (hnd : dims.Nodup) (hdeg : ∀ d ∈ dims, ∀ c ∈ els d, deg c = d)
    {d : ℕ} (hd : d ∈ dims) : (dims.flatMap els).filter (fun x => deg x = (d : ℤ)) = els d := by
  induction dims with
  | nil => simp at hd
  | cons e ds ih =>
    rw [List.flatMap_cons, List.filter_append]
    rw [List.nodup_cons] at hnd
    by_cases hde : d = e
    · subst hde
      have h1 : (els d).filter (fun x => deg x = (d : ℤ)) = els d := by
        rw [List.filter_eq_self]
        intro c hc; simpa using hdeg d (by simp) c hc
      have h2 : (ds.flatMap els).filter (fun x => deg x = (d : ℤ)) = [] := by
        rw [List.filter_eq_nil_iff]
        intro c hc
        obtain ⟨d', h3, h4⟩ := List.mem_flatMap.1 hc
        have := hdeg d' (by simp [h3]) c h4
        simp only [decide_eq_true_eq]
        intro h5
        rw [this] at h5
        exact hnd.1 (by rwa [← (Int.ofNat_inj.1 h5)])
      rw [h1, h2, List.append_nil]
    · have h1 : (els e).filter (fun x => deg x = (d : ℤ)) = [] := by
        rw [List.filter_eq_nil_iff]
        intro c hc
        have := hdeg e (by simp) c hc
        simp only [decide_eq_true_eq]
        intro h5
        rw [this] at h5
        exact hde (Int.ofNat_inj.1 h5).symm
      rw [h1, List.nil_append]
      exact ih hnd.2 (fun d' h => hdeg d' (List.mem_cons_of_mem _ h)) ((List.mem_cons.1 hd).resolve_left hde)

theorem crm_col_any (hC : GradedComplex K D B f M deg ε dims els) {early : ℤ → ℤ → Prop} {proc : List T}
    (hpm : ∀ x, x ∈ proc ↔ x ∈ dims.flatMap els) {s : CrmState CF T} (hs : ClrInv K f M deg early proc [] s fun _ => none) {depth : Nat} (hdepth : 2 ≤ depth) {d : ℕ} (hd : d ∈ dims) {c : T}
    (hc : c ∈ els d) :
    ∃ l, (crmMatrix D.toOracle s.rc depth).column c = some l ∧ lcOf K l = Wc K M s.rc c ∧ ∀ t ∈ l, t.2 ∈ dims.flatMap els := by
  obtain ⟨n, rfl⟩ : ∃ n, depth = n + 2 := ⟨depth - 2, by omega⟩
  have hcp : c ∈ proc := (hpm c).2 (List.mem_flatMap.2 ⟨d, hd, hc⟩)
  have hgood : ∀ x ∈ dims.flatMap els, ReadsCol K D f M x := by
    intro x hx
    obtain ⟨d', h1, h2⟩ := List.mem_flatMap.1 hx
    exact hC.good d' h1 x h2
  have hred : ∀ (n : Nat) j l, s.rc j = some (.reduced l) → crmColumn D.toOracle s.rc (n + 1) j = some (l ++ [(NonZeroCoeff.one, j)]) := by
    intro n j l hl
    simp only [crmColumn, hl, Option.bind_some]
  cases hrc : s.rc c with
  | none =>
    exfalso
    by_cases h : ∃ j ∈ proc, IsPivot f (linearCombination K M (Wc K M s.rc j)) c
    · obtain ⟨j, hj, hp⟩ := h
      have := (hs.cleared c j).2 ⟨hj, hp⟩
      rw [hrc] at this; cases this
    · push Not at h
      obtain ⟨l, hl⟩ := (hs.reduced c).2 ⟨hcp, h⟩
      rw [hrc] at hl; cases hl
  | some x =>
    cases x with
    | reduced l =>
      refine ⟨_, hred (n + 1) c l hrc, ?_, ?_⟩
      · rw [lcOf_append]; simp only [Wc, hrc]; simp [LawfulCoeff.val_one]
      · intro t ht
        rcases List.mem_append.1 ht with ht | ht
        · exact (hpm _).1 (hs.red_entries hrc t ht)
        · rw [List.mem_singleton.1 ht]; exact (hpm _).1 hcp
    | cleared j =>
      obtain ⟨hj, hp⟩ := (hs.cleared c j).1 hrc
      obtain ⟨l, h1, h2, h3⟩ := hs.red_of_pivot hj hp
      have hent : ∀ t ∈ l ++ [((NonZeroCoeff.one : CF), j)], t.2 ∈ dims.flatMap els := by
        intro t ht
        rcases List.mem_append.1 ht with ht | ht
        · exact (hpm _).1 (hs.red_entries h1 t ht)
        · rw [List.mem_singleton.1 ht]; exact (hpm _).1 hj
      obtain ⟨l', p1, p2, p3⟩ := prod_col (K := K) (D := D) (f := f) (M := M) (V := ⟨crmColumn D.toOracle s.rc (n + 1)⟩) (j := j)
        (hred n j l h1) (fun t ht => hgood t.2 (hent t ht))
      refine ⟨l', ?_, ?_, ?_⟩
      · simp only [crmMatrix, crmColumn, hrc, Option.bind_some]; exact p1
      · rw [p2, hs.cleared_W hrc, h2, lcOf_append]; simp [LawfulCoeff.val_one]
      · intro t ht
        obtain ⟨u, hu, lu, hlu, w, hw, hwt⟩ := p3 t ht
        obtain ⟨du, d1, d2⟩ := List.mem_flatMap.1 (hent u hu)
        obtain ⟨r1, r2⟩ := hC.rows du d1 u.2 d2 lu hlu w hw
        rw [hwt] at r1 r2
        -- degree bookkeeping: the target degree is listed because it is the degree of `c`
        obtain ⟨dj, e1, e2⟩ := List.mem_flatMap.1 ((hpm _).1 hj)
        have hudeg : deg u.2 = deg j := by
          rcases List.mem_append.1 hu with hu' | hu'
          · obtain ⟨q1, q2⟩ := hs.sparse j l h1
            have hne := q1.mem_ne hu'
            refine hs.degW j hj u.2 ?_
            rw [h2, Finsupp.add_apply]
            by_cases hju : u.2 = j
            · rw [hju, q2] at hne; exact absurd rfl hne
            · rw [Finsupp.single_eq_of_ne hju, add_zero]; exact hne
          · rw [List.mem_singleton.1 hu']
        have hdudj : (du : ℤ) = dj := by
          rw [← hC.deg_els du d1 u.2 d2, hudeg, hC.deg_els dj e1 j e2]
        have hcd : deg c = dj + ε := by
          obtain ⟨x, x1, x2⟩ := lc_support hp.1
          have hxp := hs.dec.mem_of_ne hj x1
          obtain ⟨dx, g1, g2⟩ := List.mem_flatMap.1 ((hpm _).1 hxp)
          have := (hC.row_of_ne g1 g2 x2).1
          rw [this, ← hC.deg_els dx g1 x g2, hs.degW j hj x x1, hC.deg_els dj e1 j e2]
        have hdd := hC.deg_els d hd c hc
        exact List.mem_flatMap.2 ⟨d, hd, r2 d hd (by rw [hdudj, ← hcd, hdd])⟩

theorem crm_col (hC : SplitComplex K D B f M deg ε dims els) {s : CrmState CF T}
    (hs : ClrInv K f M deg (fun _ _ => True) (dims.flatMap els) [] s fun _ => none) {depth : Nat} (hdepth : 2 ≤ depth) {d : ℕ} (hd : d ∈ dims) {c : T}
    (hc : c ∈ els d) :
    ∃ l, (crmMatrix D.toOracle s.rc depth).column c = some l ∧ lcOf K l = Wc K M s.rc c ∧ ∀ t ∈ l, t.2 ∈ dims.flatMap els :=
  crm_col_any hC.graded (fun _ => Iff.rfl) hs hdepth hd hc

/-- C21: the matrix `V` represented by the result of clearing has for every listed basis element a column that can be requested, with a
non-zero diagonal coefficient and other entries only in earlier elements of the same dimension; the columns of `product(D, V)` are those
of `R = D V`; distinct columns of `R` have distinct pivots; and every cleared column (the birth of a pair) vanishes in `R`. -/
theorem C21_clearing_rdv (hC : SplitComplex K D B f M deg ε dims els) {fuel : Nat} {rc : T → Option (RedCol CF T)} {dgm : Diagram T}
    (h : buildWithDiagram D B fuel dims = some (rc, dgm)) :
    ∃ V : T → (T →₀ K),
      (∀ depth, 2 ≤ depth → ∀ d ∈ dims, ∀ c ∈ els d, HasCol K (crmMatrix D.toOracle rc depth) c (V c) ∧
        HasCol K (product D.toOracle (crmMatrix D.toOracle rc depth)) c (linearCombination K M (V c))) ∧
      (∀ d ∈ dims, ∀ c ∈ els d, V c c ≠ 0) ∧
      (∀ d ∈ dims, ∀ pre c post, els d = pre ++ c :: post → ∀ x, V c x ≠ 0 → x = c ∨ x ∈ pre) ∧
      (∀ c ∈ dims.flatMap els, ∀ c' ∈ dims.flatMap els, ∀ r, IsPivot f (linearCombination K M (V c)) r →
        IsPivot f (linearCombination K M (V c')) r → c = c') ∧
      (∀ c ∈ dims.flatMap els, ∀ j, (c, j) ∈ dgm.pairings → linearCombination K M (V c) = 0) := by
  obtain ⟨s, rfl, rfl, hs⟩ := clearing_unique hC h
  refine ⟨Wc K M s.rc, ?_, ?_, ?_, hs.dec.reduced, ?_⟩
  · intro depth hdepth d hd c hc
    obtain ⟨l, h1, h2, h3⟩ := crm_col hC hs hdepth hd hc
    refine ⟨⟨l, h1, h2⟩, ?_⟩
    obtain ⟨l', p1, p2, _⟩ := prod_col (K := K) (D := D) (f := f) (M := M) (V := crmMatrix D.toOracle s.rc depth) h1 (fun t ht => by
      obtain ⟨d', e1, e2⟩ := List.mem_flatMap.1 (h3 t ht)
      exact hC.good d' e1 t.2 e2)
    exact ⟨l', p1, by rw [p2, h2]⟩
  · intro d hd c hc
    exact hs.dec.diag c (List.mem_flatMap.2 ⟨d, hd, hc⟩)
  · intro d hd pre c post hpq x hx
    have hf := hs.dec.filterDeg (deg := deg) hs.degW d
    rw [flatMap_filter hC.nodup hC.deg_els hd] at hf
    exact hf.tri pre c post hpq x hx
  · intro c hc j hp
    exact hs.clearedZero c hc j ((hs.cleared c j).2 ((hs.pairs c j).1 hp))

/-! ### C22 -/

/-- The diagram of clearing in algorithm-independent terms, for any list `all` with the same cells that has the same order in each
dimension. -/
theorem clearing_diagram (hC : SplitComplex K D B f M deg ε dims els) {fuel : Nat} {rc : T → Option (RedCol CF T)} {dgm : Diagram T}
    (h : buildWithDiagram D B fuel dims = some (rc, dgm)) {all : List T} (hnd : all.Nodup)
    (hall : ∀ d ∈ dims, all.filter (fun x => deg x = (d : ℤ)) = els d) (hdims : ∀ c ∈ all, ∃ d ∈ dims, deg c = (d : ℤ)) :
    (∀ r c, (r, c) ∈ dgm.pairings ↔ IsPersistencePair (rowKey f) all M r c) ∧
    (∀ x, x ∈ dgm.essential ↔ IsDependent all M x ∧ ∀ c, ¬ IsPersistencePair (rowKey f) all M x c) := by
  obtain ⟨s, rfl, rfl, hs⟩ := clearing_unique hC h
  have hk := rowKey_injective f
  have hdec : Decomp (rowKey f) all M (Wc K M s.rc) := by
    refine hs.dec.reorder (deg := deg) hs.degW hnd ?_
    intro c hc
    obtain ⟨d, hd, e⟩ := hdims c hc
    rw [e, hall d hd, flatMap_filter hC.nodup hC.deg_els hd]
  have hmem : ∀ c, c ∈ dims.flatMap els ↔ c ∈ all := by
    intro c
    constructor
    · intro hc
      obtain ⟨d, hd, h2⟩ := List.mem_flatMap.1 hc
      rw [← hall d hd] at h2
      exact (List.mem_filter.1 h2).1
    · intro hc
      obtain ⟨d, hd, e⟩ := hdims c hc
      refine List.mem_flatMap.2 ⟨d, hd, ?_⟩
      rw [← hall d hd]; simp [hc, e]
  refine ⟨?_, ?_⟩
  · intro r c
    rw [hs.pairs, hdec.pair_iff hk, hmem]; rfl
  · intro x
    rw [hs.ess, hdec.zero_iff hk, hmem]
    constructor
    · rintro ⟨h1, h2, h3⟩
      refine ⟨⟨h1, h2⟩, ?_⟩
      intro c hp
      rw [hdec.pair_iff hk] at hp
      exact h3 c ((hmem c).2 hp.1) hp.2 trivial
    · rintro ⟨⟨h1, h2⟩, h3⟩
      refine ⟨h1, h2, ?_⟩
      intro c hc hp _
      exact h3 c ((hdec.pair_iff hk x c).2 ⟨(hmem c).1 hc, hp⟩)

/-- C22: on a chain complex the diagram of clearing is the diagram of the standard algorithm on the same matrix, for a column basis that
lists the cells of all dimensions in any order that is the given one in each dimension. Pairings always agree; the essential sets agree
when the standard diagram is read off in an order in which rows come before columns. -/
theorem C22_clearing_eq_standard (hC : SplitComplex K D B f M deg ε dims els) {fuel : Nat} {rc : T → Option (RedCol CF T)}
    {dgm : Diagram T} (h : buildWithDiagram D B fuel dims = some (rc, dgm)) {B' : Basis T} {all : List T}
    (hF : FiniteMatrix K D B' f M all)
    (hall : ∀ d ∈ dims, all.filter (fun x => deg x = (d : ℤ)) = els d) (hdims : ∀ c ∈ all, ∃ d ∈ dims, deg c = (d : ℤ))
    {fuel' : Nat → Nat} {rev : Bool} {v : T → Option (List (CF × T))} {dgm' : Diagram T}
    (h' : standardAlgoWithDiagram D B' fuel' rev = some (v, dgm')) :
    dgm.pairings = dgm'.pairings ∧ (rev = false → RowsBefore all M → dgm = dgm') := by
  obtain ⟨a1, a2⟩ := clearing_diagram hC h hF.nodup hall hdims
  have hp : dgm.pairings = dgm'.pairings := by
    ext ⟨r, c⟩; rw [a1, C18_pairings hF h']
  refine ⟨hp, ?_⟩
  rintro rfl hrows
  cases dgm; cases dgm'
  simp only at hp
  congr 1
  ext x
  exact (a2 x).trans (C19_essential hF hrows h' x).symm

/-! ### C23 -/

/-- In the diagram `d` the cell `c` is essential and in no pair, or the birth of exactly one pair and nothing else, or the death of
exactly one pair and nothing else. -/
def HasOneRole (d : Diagram T) (c : T) : Prop :=
  (c ∈ d.essential ∧ (∀ y, (c, y) ∉ d.pairings) ∧ ∀ r, (r, c) ∉ d.pairings) ∨
  (c ∉ d.essential ∧ (∃! y, (c, y) ∈ d.pairings) ∧ ∀ r, (r, c) ∉ d.pairings) ∨
  (c ∉ d.essential ∧ (∀ y, (c, y) ∉ d.pairings) ∧ ∃! r, (r, c) ∈ d.pairings)

theorem hasOneRole_of {all : List T} (hnd : all.Nodup) {d : Diagram T}
    (hp : ∀ r c, (r, c) ∈ d.pairings ↔ IsPersistencePair (rowKey f) all M r c)
    (he : ∀ x, x ∈ d.essential ↔ IsDependent all M x ∧ ∀ c, ¬ IsPersistencePair (rowKey f) all M x c)
    {c : T} (hbirth : ∀ y, IsPersistencePair (rowKey f) all M c y → IsDependent all M c) (hc : c ∈ all) : HasOneRole d c := by
  have hk := rowKey_injective f
  obtain ⟨u1, u2⟩ := pair_unique (K := K) hk hnd M
  have hd := death_iff (K := K) hk hnd M hc
  by_cases h1 : ∃ r, IsPersistencePair (rowKey f) all M r c
  · have h2 : ¬ IsDependent all M c := fun h => hd.1 h h1
    obtain ⟨r, hr⟩ := h1
    right; right
    refine ⟨fun h => h2 ((he c).1 h).1, fun y hy => h2 (hbirth y ((hp c y).1 hy)), r, (hp r c).2 hr, ?_⟩
    intro r' hr'
    exact u1 _ _ _ ((hp r' c).1 hr') hr
  · have h2 : IsDependent all M c := hd.2 h1
    have h3 : ∀ r, (r, c) ∉ d.pairings := fun r hr => h1 ⟨r, (hp r c).1 hr⟩
    by_cases h4 : ∃ y, IsPersistencePair (rowKey f) all M c y
    · obtain ⟨y, hy⟩ := h4
      right; left
      refine ⟨fun h => ((he c).1 h).2 y hy, ⟨y, (hp c y).2 hy, ?_⟩, h3⟩
      intro y' hy'
      exact u2 _ _ _ ((hp c y').1 hy') hy
    · left
      refine ⟨(he c).2 ⟨h2, fun y hy => h4 ⟨y, hy⟩⟩, fun y hy => h4 ⟨y, (hp c y).1 hy⟩, h3⟩

theorem pair_key_lt {all : List T} (hnd : all.Nodup) (hdeg : ∀ c ∈ all, ∀ r, M c r ≠ 0 → deg r = deg c + ε)
    (hsort : ∀ d : ℤ, (all.filter fun x => deg x = d).Pairwise fun a b => rowKey f a < rowKey f b)
    (hkey : ∀ c ∈ all, ∀ r, M c r ≠ 0 → rowKey f r < rowKey f c) {r c : T} (h : IsPersistencePair (rowKey f) all M r c) :
    rowKey f r < rowKey f c := by
  obtain ⟨_, _, x, hx, hxc, hne, p, q, hpq, hor⟩ := pair_deg (rowKey_injective f) hnd hdeg h
  refine lt_of_lt_of_le (hkey x hx r hne) ?_
  rcases hor with rfl | hxp
  · exact le_refl _
  · have hs := hsort (deg c)
    rw [hpq] at hs
    simp only [List.filter_append, List.filter_cons, decide_true, if_true] at hs
    exact ((List.pairwise_append.1 hs).2.2 x (by simp [hxp, hxc]) c (by simp)).le

/-- The cells of all listed dimensions. -/
theorem flatMap_nodup (hC : SplitComplex K D B f M deg ε dims els) : (dims.flatMap els).Nodup := by
  obtain ⟨s, hs, _⟩ := clearing_run hC
  exact hs.dec.nodup

theorem split_sorted (hC : SplitComplex K D B f M deg ε dims els) (d : ℤ) :
    ((dims.flatMap els).filter fun x => deg x = d).Pairwise fun a b => rowKey f a < rowKey f b := by
  by_cases h : ∃ c ∈ dims.flatMap els, deg c = d
  · obtain ⟨c, hc, hd⟩ := h
    obtain ⟨e, he, hce⟩ := List.mem_flatMap.1 hc
    rw [hC.deg_els e he c hce] at hd
    subst hd
    rw [flatMap_filter hC.nodup hC.deg_els he]
    exact hC.sorted e he
  · have : (dims.flatMap els).filter (fun x => deg x = d) = [] := by
      rw [List.filter_eq_nil_iff]
      intro c hc; simp only [decide_eq_true_eq]
      exact fun e => h ⟨c, hc, e⟩
    rw [this]; exact List.Pairwise.nil

theorem split_deg (hC : SplitComplex K D B f M deg ε dims els) : ∀ c ∈ dims.flatMap els, ∀ r, M c r ≠ 0 → deg r = deg c + ε := by
  intro c hc r hr
  obtain ⟨d, hd, h2⟩ := List.mem_flatMap.1 hc
  rw [(hC.row_of_ne hd h2 hr).1, hC.deg_els d hd c h2]

theorem split_hdims (hC : SplitComplex K D B f M deg ε dims els) : ∀ c ∈ dims.flatMap els, ∃ d ∈ dims, deg c = (d : ℤ) := by
  intro c hc
  obtain ⟨d, hd, h2⟩ := List.mem_flatMap.1 hc
  exact ⟨d, hd, hC.deg_els d hd c h2⟩

/-- C23 (clearing): every listed cell has exactly one role in the diagram (also if some rows belong to a dimension that is not listed); if moreover rows have
smaller (filtration value, index) than their columns, births come strictly before deaths. -/
theorem C23_clearing (hC : SplitComplex K D B f M deg ε dims els)
    {fuel : Nat} {rc : T → Option (RedCol CF T)} {dgm : Diagram T} (h : buildWithDiagram D B fuel dims = some (rc, dgm)) :
    (∀ c ∈ dims.flatMap els, HasOneRole dgm c) ∧
    (∀ r c, (r, c) ∈ dgm.pairings → c ∈ dims.flatMap els ∧ deg r = deg c + ε ∧ ∀ d ∈ dims, deg r = d → r ∈ els d) ∧
    (∀ c ∈ dgm.essential, c ∈ dims.flatMap els) ∧
    ((∀ c ∈ dims.flatMap els, ∀ r, M c r ≠ 0 → rowKey f r < rowKey f c) → ∀ r c, (r, c) ∈ dgm.pairings → rowKey f r < rowKey f c) := by
  have hnd := flatMap_nodup hC
  obtain ⟨hp, he⟩ := clearing_diagram hC h hnd (fun d hd => flatMap_filter hC.nodup hC.deg_els hd) (split_hdims hC)
  have hrows : ∀ r c, IsPersistencePair (rowKey f) (dims.flatMap els) M r c → c ∈ dims.flatMap els ∧ deg r = deg c + ε ∧ ∀ d ∈ dims, deg r = d → r ∈ els d := by
    intro r c hrc
    obtain ⟨hc, hdr, x, hx, hxc, hne, _⟩ := pair_deg (rowKey_injective f) hnd (split_deg hC) hrc
    refine ⟨hc, hdr, fun d hd e => ?_⟩
    obtain ⟨d', hd', hx'⟩ := List.mem_flatMap.1 hx
    refine (hC.row_of_ne hd' hx' hne).2 d hd ?_
    rw [← e, hdr, ← hxc, hC.deg_els d' hd' x hx']
  have hbirth : ∀ r c, r ∈ dims.flatMap els → IsPersistencePair (rowKey f) (dims.flatMap els) M r c → IsDependent (dims.flatMap els) M r := by
    intro r c hr hrc
    obtain ⟨hc, hdr, -⟩ := hrows r c hrc
    obtain ⟨d', hd', hr'⟩ := List.mem_flatMap.1 hr
    have hdd : (d' : ℤ) = deg c + ε := by rw [← hdr, hC.deg_els d' hd' r hr']
    refine (birth_dependent (rowKey_injective f) hnd (split_deg hC) (split_sorted hC) ?_ ?_ hrc).2
    · intro x hx hxc y hy
      obtain ⟨d, hd, hxd⟩ := List.mem_flatMap.1 hx
      refine List.mem_flatMap.2 ⟨d', hd', (hC.row_of_ne hd hxd hy).2 d' hd' ?_⟩
      rw [hdd, ← hxc, hC.deg_els d hd x hxd]
    · intro y hy hyc
      obtain ⟨d, hd, hyd⟩ := List.mem_flatMap.1 hy
      refine hC.sq d hd d' hd' ?_ y hyd
      rw [hdd, ← hyc, hC.deg_els d hd y hyd]
  refine ⟨?_, ?_, ?_, ?_⟩
  · intro c hc
    exact hasOneRole_of hnd hp he (fun y h => hbirth c y hc h) hc
  · intro r c hrc
    exact hrows r c ((hp r c).1 hrc)
  · intro c hc
    exact ((he c).1 hc).1.mem
  · intro hkey r c hrc
    exact pair_key_lt hnd (split_deg hC) (split_sorted hC) hkey ((hp r c).1 hrc)

/-- C23 (clearing): so the cells of a listed dimension are counted by the essential cells of that dimension and the pairs with their birth or their death in it. -/
theorem C23_count (hC : SplitComplex K D B f M deg ε dims els)
    {fuel : Nat} {rc : T → Option (RedCol CF T)} {dgm : Diagram T} (h : buildWithDiagram D B fuel dims = some (rc, dgm)) {d : ℕ} (hd : d ∈ dims) :
    (els d).length = (dgm.essential.filter fun x => deg x = d).card + (dgm.pairings.filter fun x => deg x.1 = d).card +
      (dgm.pairings.filter fun x => deg x.2 = d).card := by
  classical
  obtain ⟨hrole, hpair, hess, -⟩ := C23_clearing hC h
  have hnd : (els d).Nodup := by
    have := (flatMap_filter hC.nodup hC.deg_els hd)
    rw [← this]
    exact (flatMap_nodup hC).filter _
  have hmem : ∀ c ∈ dims.flatMap els, deg c = d → c ∈ els d := by
    intro c hc e
    rw [← flatMap_filter hC.nodup hC.deg_els hd]
    simp [hc, e]
  have hin : ∀ c ∈ els d, c ∈ dims.flatMap els := fun c hc => List.mem_flatMap.2 ⟨d, hd, hc⟩
  have e1 : (dgm.pairings.filter fun x => deg x.1 = d).card = ((els d).toFinset.filter fun c => ∃ y, (c, y) ∈ dgm.pairings).card := by
    refine Finset.card_bij (fun x _ => x.1) ?_ ?_ ?_
    · rintro ⟨r, c⟩ hx
      rw [Finset.mem_filter] at hx
      rw [Finset.mem_filter, List.mem_toFinset]
      exact ⟨(hpair r c hx.1).2.2 d hd hx.2, c, hx.1⟩
    · rintro ⟨r, c⟩ hx ⟨r', c'⟩ hx' e
      rw [Finset.mem_filter] at hx hx'
      obtain rfl : r = r' := e
      rcases hrole r (hin r ((hpair r c hx.1).2.2 d hd hx.2)) with h1 | h1 | h1
      · exact absurd hx.1 (h1.2.1 c)
      · rw [h1.2.1.unique hx.1 hx'.1]
      · exact absurd hx.1 (h1.2.1 c)
    · intro c hc
      rw [Finset.mem_filter, List.mem_toFinset] at hc
      obtain ⟨hc, y, hy⟩ := hc
      exact ⟨(c, y), Finset.mem_filter.2 ⟨hy, hC.deg_els d hd c hc⟩, rfl⟩
  have e2 : (dgm.pairings.filter fun x => deg x.2 = d).card = ((els d).toFinset.filter fun c => ∃ r, (r, c) ∈ dgm.pairings).card := by
    refine Finset.card_bij (fun x _ => x.2) ?_ ?_ ?_
    · rintro ⟨r, c⟩ hx
      rw [Finset.mem_filter] at hx
      rw [Finset.mem_filter, List.mem_toFinset]
      exact ⟨hmem c (hpair r c hx.1).1 hx.2, r, hx.1⟩
    · rintro ⟨r, c⟩ hx ⟨r', c'⟩ hx' e
      rw [Finset.mem_filter] at hx hx'
      obtain rfl : c = c' := e
      rcases hrole c (hpair r c hx.1).1 with h1 | h1 | h1
      · exact absurd hx.1 (h1.2.2 r)
      · exact absurd hx.1 (h1.2.2 r)
      · rw [h1.2.2.unique hx.1 hx'.1]
    · intro c hc
      rw [Finset.mem_filter, List.mem_toFinset] at hc
      obtain ⟨hc, y, hy⟩ := hc
      exact ⟨(y, c), Finset.mem_filter.2 ⟨hy, hC.deg_els d hd c hc⟩, rfl⟩
  have e3 : (dgm.essential.filter fun x => deg x = d).card = ((els d).toFinset.filter fun c => c ∈ dgm.essential).card := by
    congr 1
    ext c
    rw [Finset.mem_filter, Finset.mem_filter, List.mem_toFinset]
    exact ⟨fun h => ⟨hmem c (hess c h.1) h.2, h.1⟩, fun h => ⟨h.2, hC.deg_els d hd c h.1⟩⟩
  rw [e1, e2, e3, ← List.toFinset_card_of_nodup hnd, ← Finset.card_union_of_disjoint, ← Finset.card_union_of_disjoint]
  · congr 1
    ext c
    simp only [Finset.mem_union, Finset.mem_filter, List.mem_toFinset]
    constructor
    · intro hc
      rcases hrole c (hin c hc) with h1 | h1 | h1
      · exact Or.inl (Or.inl ⟨hc, h1.1⟩)
      · exact Or.inl (Or.inr ⟨hc, h1.2.1.exists⟩)
      · exact Or.inr ⟨hc, h1.2.2.exists⟩
    · rintro ((h1 | h1) | h1) <;> exact h1.1
  · rw [Finset.disjoint_left]
    intro c hc hc'
    simp only [Finset.mem_union, Finset.mem_filter, List.mem_toFinset] at hc hc'
    obtain ⟨hm, r, hr⟩ := hc'
    rcases hrole c (hin c hm) with h1 | h1 | h1
    · exact h1.2.2 r hr
    · exact h1.2.2 r hr
    · rcases hc with hc | ⟨_, y, hy⟩
      · exact h1.1 hc.2
      · exact h1.2.1 y hy
  · rw [Finset.disjoint_left]
    intro c hc hc'
    simp only [Finset.mem_filter, List.mem_toFinset] at hc hc'
    obtain ⟨hm, y, hy⟩ := hc'
    rcases hrole c (hin c hm) with h1 | h1 | h1
    · exact h1.2.1 y hy
    · exact h1.1 hc.2
    · exact h1.1 hc.2

/-- C23 (standard algorithm): the same for a graded matrix with `D² = 0` whose cells are sorted in each degree and whose rows all occur
before their columns in the basis. -/
theorem C23_standard {B : Basis T} {all : List T} (hF : FiniteMatrix K D B f M all)
    (hdeg : ∀ c ∈ all, ∀ r, M c r ≠ 0 → deg r = deg c + ε)
    (hsort : ∀ d : ℤ, (all.filter fun x => deg x = d).Pairwise fun a b => rowKey f a < rowKey f b)
    (hfull : ∀ c ∈ all, ∀ r, M c r ≠ 0 → r ∈ all) (hsq : ∀ c ∈ all, linearCombination K M (M c) = 0) (hrows : RowsBefore all M)
    {fuel : Nat → Nat} {v : T → Option (List (CF × T))} {dgm : Diagram T} (h : standardAlgoWithDiagram D B fuel false = some (v, dgm)) :
    (∀ c ∈ all, HasOneRole dgm c) ∧ (∀ r c, (r, c) ∈ dgm.pairings → r ∈ all ∧ c ∈ all) ∧ (∀ c ∈ dgm.essential, c ∈ all) ∧
    ((∀ c ∈ all, ∀ r, M c r ≠ 0 → rowKey f r < rowKey f c) → ∀ r c, (r, c) ∈ dgm.pairings → rowKey f r < rowKey f c) := by
  have hp := C18_pairings hF h
  have he := C19_essential hF hrows h
  have hbirth : ∀ r c, IsPersistencePair (rowKey f) all M r c → r ∈ all ∧ IsDependent all M r := fun r c hrc =>
    birth_dependent (rowKey_injective f) hF.nodup hdeg hsort (fun x hx _ => hfull x hx) (fun x hx _ => hsq x hx) hrc
  refine ⟨fun c hc => hasOneRole_of hF.nodup hp he (fun y h => (hbirth c y h).2) hc, ?_, ?_, ?_⟩
  · intro r c hrc
    rw [hp] at hrc
    exact ⟨(hbirth r c hrc).1, (pair_deg (rowKey_injective f) hF.nodup hdeg hrc).1⟩
  · intro c hc
    exact ((he c).1 hc).1.mem
  · intro hkey r c hrc
    exact pair_key_lt hF.nodup hdeg hsort hkey ((hp r c).1 hrc)

/-! ### C24 -/

theorem col_is_cycle_any (hC : GradedComplex K D B f M deg ε dims els) {early : ℤ → ℤ → Prop} {proc : List T}
    (hpm : ∀ x, x ∈ proc ↔ x ∈ dims.flatMap els) {s : CrmState CF T} (hs : ClrInv K f M deg early proc [] s fun _ => none) {depth : Nat} (hdepth : 2 ≤ depth) {d : ℕ} (hd : d ∈ dims) {c : T} (hc : c ∈ els d)
    {w : T →₀ K} (hw : HasCol K (product D.toOracle (crmMatrix D.toOracle s.rc depth)) c w) :
    ∃ b, colIsCycle D s.rc depth c = some b ∧ (b = true ↔ w = 0) := by
  obtain ⟨l, h1, h2, h3⟩ := crm_col_any hC hpm hs hdepth hd hc
  have hg : ∀ t ∈ l, ReadsCol K D f M t.2 := fun t ht => by
      obtain ⟨d', e1, e2⟩ := List.mem_flatMap.1 (h3 t ht)
      exact hC.good d' e1 t.2 e2
  have hwv : w = linearCombination K M (Wc K M s.rc c) := by
    obtain ⟨l', p1, p2, _⟩ := prod_col (K := K) (D := D) (f := f) (M := M) (V := crmMatrix D.toOracle s.rc depth) h1 hg
    obtain ⟨l'', q1, q2⟩ := hw
    have : some l' = some l'' := p1.symm.trans q1
    rw [← q2, ← Option.some.inj this, p2, h2]
  have hcp : c ∈ proc := (hpm c).2 <| List.mem_flatMap.2 ⟨d, hd, hc⟩
  cases hrc : s.rc c with
  | none =>
    obtain ⟨n, rfl⟩ : ∃ n, depth = n + 1 := ⟨depth - 1, by omega⟩
    simp [crmMatrix, crmColumn, hrc] at h1
  | some x =>
    cases x with
    | cleared j =>
      refine ⟨true, by simp [colIsCycle, hrc], ?_⟩
      rw [hwv, hs.clearedZero c hcp j hrc]; simp
    | reduced lr =>
      obtain ⟨es, e1, e2, e3⟩ := prod_colF (K := K) (D := D.ref) (f := f) (M := M) (V := crmMatrix D.toOracle s.rc depth) h1
        (fun t ht => (hg t ht).ref)
      have hb : (productF D.ref (crmMatrix D.toOracle s.rc depth)).buildBhcol c = some (BHCol.empty.addEntries es) := by
        simp only [FOracle.buildBhcol, e1, Option.map_some]
      refine ⟨(BHCol.popPivot (BHCol.empty.addEntries es)).1.isNone, ?_, ?_⟩
      · simp only [colIsCycle, hrc, Option.bind_some, hb, Option.map_some]
      · have hco : Coherent f (StdHeap.bag (BHCol.empty.addEntries es : BHCol F T CF)) := (build_spec (K := K) f es e2).1
        have hv : BHCol.vec K (BHCol.empty.addEntries es : BHCol F T CF) = w := by
          rw [hwv, ← h2, ← e3]; exact (build_spec (K := K) f es e2).2
        rw [← hv]
        rcases hpp : BHCol.popPivot (BHCol.empty.addEntries es : BHCol F T CF) with ⟨o, r1⟩
        cases o with
        | none =>
          simp only [Option.isNone_none, true_iff]
          exact (BHCol.popPivot_none (K := K) hco hpp).1
        | some e =>
          simp only [Option.isNone_some, Bool.false_eq_true, false_iff]
          intro h0
          have := BHCol.popPivot_some (K := K) hco hpp
          have hp : IsPivot f (BHCol.vec K (BHCol.empty.addEntries es : BHCol F T CF)) e.row := by tauto
          rw [h0] at hp
          exact hp.1 rfl

/-- C24: for every listed cell `c`, `col_is_cycle(c)` does not panic and is true iff column `c` of `R = product(D, V)` is zero. -/
theorem C24_col_is_cycle (hC : SplitComplex K D B f M deg ε dims els) {fuel : Nat} {rc : T → Option (RedCol CF T)} {dgm : Diagram T}
    (h : buildWithDiagram D B fuel dims = some (rc, dgm)) {depth : Nat} (hdepth : 2 ≤ depth) {d : ℕ} (hd : d ∈ dims) {c : T} (hc : c ∈ els d)
    {w : T →₀ K} (hw : HasCol K (product D.toOracle (crmMatrix D.toOracle rc depth)) c w) :
    ∃ b, colIsCycle D rc depth c = some b ∧ (b = true ↔ w = 0) := by
  obtain ⟨s, rfl, rfl, hs⟩ := clearing_unique hC h
  exact col_is_cycle_any hC.graded (fun _ => Iff.rfl) hs hdepth hd hc hw

end

/-! ### The filled triangle meets the hypotheses of C20-C24 -/
namespace Example
/-- The cells of the filled triangle by dimension. -/
abbrev els : ℕ → List Nat := fun d => if d = 0 then [0, 1, 2] else if d = 1 then [3, 4, 5] else if d = 2 then [6] else []
abbrev deg : Nat → ℤ := fun i => [0, 0, 0, 1, 1, 1, 2].getD i 7
abbrev B : SplitBasis Nat := { toBasis := vecVecBasis cols, inDim := fun d => some (vecBasis (els d)) }

set_option maxHeartbeats 1000000 in
theorem sq_zero (c : Nat) (hc : c < 7) : linearCombination (ZMod 3) (fun c => lcOf (ZMod 3) (cols.getD c [])) (lcOf (ZMod 3) (cols.getD c [])) = 0 := by
  letI := listHeap
  have key : ∀ c < 7, (product (vecVecMatrix cols) (vecVecMatrix cols)).eqOnCol (vecVecMatrix (List.replicate 7 ([] : List (ZP 3 × Nat)))) c = some true := by
    decide +kernel
  have rows : ∀ c < 7, ∀ t ∈ cols.getD c [], t.2 < 7 := by decide
  have hcol : ∀ c < 7, (vecVecMatrix cols).column c = some (cols.getD c []) := by decide
  have h1 : HasCol (ZMod 3) (product (vecVecMatrix cols) (vecVecMatrix cols)) c
      (linearCombination (ZMod 3) (fun c => lcOf (ZMod 3) (cols.getD c [])) (lcOf (ZMod 3) (cols.getD c []))) :=
    C08_product (vecVecMatrix cols) (vecVecMatrix cols) c _ _ (hcol c hc) (fun t ht => ⟨_, hcol t.2 (rows c hc t ht), rfl⟩)
  have h2 : HasCol (ZMod 3) (vecVecMatrix (List.replicate 7 ([] : List (ZP 3 × Nat)))) c (0 : Nat →₀ ZMod 3) :=
    ⟨[], (by decide : ∀ c < 7, (vecVecMatrix (List.replicate 7 ([] : List (ZP 3 × Nat)))).column c = some []) c hc, rfl⟩
  obtain ⟨r, e1, e2⟩ := (C07_eq_on_col (product (vecVecMatrix cols) (vecVecMatrix cols)) (vecVecMatrix (List.replicate 7 [])) c).1 _ _ h1 h2
  rw [key c hc] at e1
  exact e2.1 (Option.some.inj e1).symm

theorem split : SplitComplex (ZMod 3) D B fv (fun c => lcOf (ZMod 3) (cols.getD c [])) deg (-1) [2, 1, 0] els where
  basis := by
    intro d _
    exact ⟨_, rfl, by
      simp only [Basis.elems, vecBasis]
      rename_i h
      revert h; revert d; decide⟩
  deg_els := by decide
  sorted := by decide
  good := by
    intro d hd c hc
    refine (vecVec_finiteMatrix cols fv).reads c ?_
    revert hc; revert c; revert hd; revert d; decide
  rows := by
    intro d hd c hc l hl t ht
    have key : ∀ d ∈ [2, 1, 0], ∀ c ∈ els d, ∀ t ∈ cols.getD c [], deg t.2 = (d : ℤ) + -1 ∧ ∀ d' ∈ ([2, 1, 0] : List ℕ), (d' : ℤ) = d + -1 → t.2 ∈ els d' := by
      decide
    have : l = cols.getD c [] := by
      have hl : cols[c]? = some l := hl
      simp [List.getD, hl]
    rw [this] at ht
    exact key d hd c hc t ht
  nodup := by decide
  order := by
    intro p d q h d' hd'
    match p, h with
    | [], _ => simp at hd'
    | [a], h => simp only [List.cons_append, List.nil_append, List.cons.injEq] at h; obtain ⟨rfl, rfl, _⟩ := h; simp at hd'; subst hd'; decide
    | [a, b], h =>
      simp only [List.cons_append, List.nil_append, List.cons.injEq] at h; obtain ⟨rfl, rfl, rfl, _⟩ := h
      simp at hd'; rcases hd' with rfl | rfl <;> decide
    | a :: b :: c :: p, h => simp at h
  shift := by decide
  sq := by
    intro d hd d' _ _ c hc
    have key : ∀ d ∈ [2, 1, 0], ∀ c ∈ els d, c < 7 := by decide
    exact sq_zero c (key d hd c hc)

example : letI := listHeap
    (buildWithDiagram D B 4 [2, 1, 0]).map Prod.snd = some ⟨{0}, {(1, 3), (2, 4), (5, 6)}⟩ := by decide +kernel

/-- With the dimensions in the wrong order the algorithm does not clear, and reports births twice: the order hypothesis is needed. -/
example : letI := listHeap
    (buildWithDiagram D B 4 [0, 1, 2]).map Prod.snd = some ⟨{0, 1, 2, 5}, {(1, 3), (2, 4), (5, 6)}⟩ := by decide +kernel

example : letI := listHeap
    (buildWithDiagram D B 4 [2, 1, 0]).bind (fun r => (crmMatrix D.toOracle r.1 2).column 5) = some [(o, 5), (t, 4), (o, 3)] ∧
    (buildWithDiagram D B 4 [2, 1, 0]).bind (fun r => colIsCycle D r.1 2 5) = some true ∧
    (buildWithDiagram D B 4 [2, 1, 0]).bind (fun r => colIsCycle D r.1 2 4) = some false := by decide +kernel

/-- The remaining hypotheses of C22 and C23 for the filled triangle. -/
example : FiniteMatrix (ZMod 3) D B.toBasis fv (fun c => lcOf (ZMod 3) (cols.getD c [])) (List.range 7) ∧
    (∀ d ∈ [2, 1, 0], (List.range 7).filter (fun x => deg x = ((d : ℕ) : ℤ)) = els d) ∧
    (∀ c ∈ List.range 7, ∃ d ∈ [2, 1, 0], deg c = ((d : ℕ) : ℤ)) := by
  refine ⟨vecVec_finiteMatrix cols fv, by decide, by decide⟩

example : ∀ c ∈ [2, 1, 0].flatMap els, ∀ r, lcOf (ZMod 3) (cols.getD c []) r ≠ 0 → r ∈ [2, 1, 0].flatMap els ∧ rowKey fv r < rowKey fv c := by
  have key : ∀ c ∈ [2, 1, 0].flatMap els, ∀ t ∈ cols.getD c [], t.2 ∈ [2, 1, 0].flatMap els ∧ rowKey fv t.2 < rowKey fv c := by decide
  intro c hc r hr
  obtain ⟨t, ht, rfl⟩ := lcOf_support hr
  exact key c hc t ht
end Example

end Phlite
