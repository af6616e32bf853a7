/-
Property theorems C73: the clearing algorithm with dimensions listed in any order.
-/
import Verif.Props.Clearing

set_option linter.unusedSectionVars false
set_option linter.unusedSimpArgs false

namespace Phlite
open Finsupp (single linearCombination linearCombination_single)

section
variable [StdHeap] {CF T F K : Type} [NonZeroCoeff CF] [Field K] [LawfulCoeff CF K] [LinearOrder F] [LinearOrder T]
variable {D : FOracle CF T T F} {B : SplitBasis T} {f : T → F} {M : T → (T →₀ K)} {deg : T → ℤ} {ε : ℤ} {dims : List ℕ}
  {els : ℕ → List T}

theorem GradedComplex.restrict (h : GradedComplex K D B f M deg ε dims els) :
    GradedComplex K (D.restrict (dims.flatMap els)) B f M deg ε dims els := by
  refine ⟨h.basis, h.deg_els, h.sorted, ?_, ?_, h.shift, h.sq⟩
  · intro d hd c hc
    exact (h.good d hd c hc).restrict (List.mem_flatMap.2 ⟨d, hd, hc⟩)
  · intro d hd c hc l hl
    exact h.rows d hd c hc l ((restrict_le D _).col c l hl)

/-- A dimension all of whose cells have a stored column is skipped. -/
theorem clrLoop_skip {Bd : Basis T} {fuel : ℕ} {l : List T} (hB : Bd.elems = some l) {p : CrmState CF T × (T → Option (T × CF))}
    (h : ∀ c ∈ l, (p.1.rc c).isSome) (is : List ℕ) (his : ∀ i ∈ is, i < Bd.size) : clrLoop D Bd fuel is p = some p := by
  induction is with
  | nil => rfl
  | cons i is ih =>
    obtain ⟨hlen, hel⟩ := elems_spec hB
    have hi := his i (by simp)
    have hb := hel i hi
    rw [List.getElem?_eq_getElem (by omega)] at hb
    rw [clrLoop, hb, Option.bind_some, clrColumn, if_pos (h _ (List.getElem_mem _)), Option.bind_some]
    exact ih fun j hj => his j (by simp [hj])

theorem ClrInv.keyed {early : ℤ → ℤ → Prop} {proc pre : List T} {s : CrmState CF T} {low : T → Option (T × CF)}
    (h : ClrInv K f M deg early proc pre s low) {c : T} (hc : c ∈ proc) : (s.rc c).isSome := by
  by_cases hp : ∃ j ∈ proc, IsPivot f (linearCombination K M (Wc K M s.rc j)) c
  · obtain ⟨j, hj, hp⟩ := hp
    rw [(h.cleared c j).2 ⟨hj, hp⟩]; rfl
  · push Not at hp
    obtain ⟨l, hl⟩ := (h.reduced c).2 ⟨hc, hp⟩
    rw [hl]; rfl

theorem prefix_total {p q l : List ℕ} (hp : p <+: l) (hq : q <+: l) : p <+: q ∨ q <+: p := List.prefix_or_prefix_of_prefix hp hq

theorem clrAll_any (hC : GradedComplex K D B f M deg ε dims els) {fuel : Nat} (hfuel : ∀ d ∈ dims, (els d).length < fuel)
    (before q : List ℕ) (hdims : dims = before ++ q) (dn : List ℕ) (hdn : dn.Nodup) (hmem : ∀ d, d ∈ dn ↔ d ∈ before) (s : CrmState CF T)
    (hinv : ClrInv K f M deg (ListedBefore dims) (dn.flatMap els) [] s fun _ => none) :
    ∃ (s' : CrmState CF T) (dn' : List ℕ), clrAll D B fuel q s = some s' ∧ dn'.Nodup ∧ (∀ d, d ∈ dn' ↔ d ∈ dims) ∧
      ClrInv K f M deg (ListedBefore dims) (dn'.flatMap els) [] s' fun _ => none := by
  induction q generalizing before dn s with
  | nil => exact ⟨s, dn, rfl, hdn, fun d => by rw [hmem, hdims]; simp, hinv⟩
  | cons d q ih =>
    have hdd : d ∈ dims := by rw [hdims]; simp
    have hsub : ∀ d' ∈ dn, d' ∈ dims := fun d' h => by rw [hdims]; simp [(hmem d').1 h]
    have hbp : before <+: dims := ⟨d :: q, hdims.symm⟩
    by_cases hin : d ∈ dn
    · -- repeated dimension
      obtain ⟨Bd, hB1, hB2⟩ := hC.basis d hdd
      have hskip : clrDimension D B fuel s d = some s := by
        simp only [clrDimension, hB1, Option.bind_some]
        rw [clrLoop_skip hB2 (p := (s, fun _ => none)) (fun c hc => hinv.keyed (List.mem_flatMap.2 ⟨d, hin, hc⟩)) _
          (fun i hi => List.mem_range.1 hi)]
        rfl
      obtain ⟨s', dn', h1, h2⟩ := ih (before ++ [d]) (by rw [hdims]; simp) dn hdn (fun d' => by
        rw [hmem, List.mem_append, List.mem_singleton]
        refine ⟨Or.inl, ?_⟩
        rintro (h | rfl)
        · exact h
        · exact (hmem _).1 hin) s hinv
      exact ⟨s', dn', by simp only [clrAll, hskip, Option.bind_some, h1], h2⟩
    · have hnb : d ∉ before := fun h => hin ((hmem d).2 h)
      have cast_mem : ∀ (l : List ℕ) (x : ℕ), (x : ℤ) ∈ l.map (fun d : ℕ => (d : ℤ)) ↔ x ∈ l := by
        intro l x
        rw [List.mem_map]
        constructor
        · rintro ⟨y, hy, e⟩
          have : y = x := by exact_mod_cast e
          exact this ▸ hy
        · intro h; exact ⟨x, h, rfl⟩
      obtain ⟨s1, h1, h2⟩ := clrDimension_spec hC (dn := dn) (d := d) hsub hdd hdn hin (early := ListedBefore dims)
        (fun d' hd' => ⟨before, hbp, (cast_mem _ _).2 ((hmem d').1 hd'), fun h => hnb ((cast_mem _ _).1 h)⟩)
        (by
          rintro d' hd' _ ⟨p, hp, h3, h4⟩
          rw [cast_mem] at h3 h4
          rcases prefix_total hp hbp with h | h
          · exact hnb (h.subset h3)
          · exact h4 (h.subset ((hmem d').1 hd')))
        (hfuel d hdd) s hinv
      obtain ⟨s', dn', h3, h4⟩ := ih (before ++ [d]) (by rw [hdims]; simp) (dn ++ [d]) (by
          rw [List.nodup_append]
          refine ⟨hdn, by simp, ?_⟩
          intro a ha b hb e
          rw [List.mem_singleton] at hb; subst hb; subst e; exact hin ha)
        (fun d' => by simp only [List.mem_append, hmem]) s1 h2
      exact ⟨s', dn', by simp only [clrAll, h1, Option.bind_some, h3], h4⟩

theorem clearing_run_any (hC : GradedComplex K D B f M deg ε dims els) :
    ∃ (s : CrmState CF T) (dn : List ℕ), dn.Nodup ∧ (∀ d, d ∈ dn ↔ d ∈ dims) ∧
      (ClrInv K f M deg (ListedBefore dims) (dn.flatMap els) [] s fun _ => none) ∧
      ∀ fuel, (∀ d ∈ dims, (els d).length < fuel) →
        buildWithDiagram (D.restrict (dims.flatMap els)) B fuel dims = some (s.rc, s.diagram) ∧
        buildWithDiagram D B fuel dims = some (s.rc, s.diagram) := by
  have run : ∀ fuel, (∀ d ∈ dims, (els d).length < fuel) → ∃ (s : CrmState CF T) (dn : List ℕ), dn.Nodup ∧ (∀ d, d ∈ dn ↔ d ∈ dims) ∧
      (ClrInv K f M deg (ListedBefore dims) (dn.flatMap els) [] s fun _ => none) ∧
      buildWithDiagram (D.restrict (dims.flatMap els)) B fuel dims = some (s.rc, s.diagram) := by
    intro fuel hf
    obtain ⟨s, dn, h1, h2, h3, h4⟩ := clrAll_any hC.restrict hf [] dims rfl [] List.nodup_nil (by simp) _ (clrInv_init f M deg _)
    exact ⟨s, dn, h2, h3, h4, by simp [buildWithDiagram, h1]⟩
  have hm : ∀ d ∈ dims, (els d).length < (dims.map fun d => (els d).length).sum + 1 := by
    intro d hd
    have : (els d).length ≤ (dims.map fun d => (els d).length).sum := List.le_sum_of_mem (List.mem_map.2 ⟨d, hd, rfl⟩)
    omega
  obtain ⟨m, hm⟩ : ∃ m, ∀ d ∈ dims, (els d).length < m := ⟨_, hm⟩
  obtain ⟨s, dn, a1, a2, a3, a4⟩ := run m hm
  refine ⟨s, dn, a1, a2, a3, ?_⟩
  intro fuel hf
  obtain ⟨s', _, _, _, _, h3⟩ := run fuel hf
  have e1 := buildWithDiagram_mono (DLE.refl _) (le_max_left m fuel) a4
  have e2 := buildWithDiagram_mono (DLE.refl _) (le_max_right m fuel) h3
  rw [e1] at e2
  rw [← Option.some.inj e2] at h3
  exact ⟨h3, buildWithDiagram_mono (restrict_le _ _) (Nat.le_refl _) h3⟩

theorem clearing_unique_any (hC : GradedComplex K D B f M deg ε dims els) {fuel : Nat} {rc : T → Option (RedCol CF T)} {dgm : Diagram T}
    (h : buildWithDiagram D B fuel dims = some (rc, dgm)) :
    ∃ (s : CrmState CF T) (dn : List ℕ), s.rc = rc ∧ s.diagram = dgm ∧ dn.Nodup ∧ (∀ d, d ∈ dn ↔ d ∈ dims) ∧
      ClrInv K f M deg (ListedBefore dims) (dn.flatMap els) [] s fun _ => none := by
  obtain ⟨s, dn, h1, h2, h3, h4⟩ := clearing_run_any hC
  have hex : ∃ m, fuel ≤ m ∧ ∀ d ∈ dims, (els d).length < m := by
    refine ⟨fuel + ((dims.map fun d => (els d).length).sum + 1), by omega, ?_⟩
    intro d hd
    have : (els d).length ≤ (dims.map fun d => (els d).length).sum := List.le_sum_of_mem (List.mem_map.2 ⟨d, hd, rfl⟩)
    omega
  obtain ⟨m, hm1, hm2⟩ := hex
  have e := buildWithDiagram_mono (DLE.refl D) hm1 h
  rw [(h4 m hm2).2] at e
  obtain ⟨e1, e2⟩ := Prod.mk.inj (Option.some.inj e)
  exact ⟨s, dn, e1, e2, h1, h2, h3⟩

theorem flatMap_same {dn dims : List ℕ} (h : ∀ d, d ∈ dn ↔ d ∈ dims) (x : T) : x ∈ dn.flatMap els ↔ x ∈ dims.flatMap els := by
  simp only [List.mem_flatMap, h]

/-! ### C73 -/

/-- C73: whatever dimensions of a chain complex are listed, in whatever order and however often, clearing succeeds with one and the same
result for every fuel larger than the number of cells in each dimension, and reads only columns of the listed dimensions. -/
theorem C73_terminates (hC : GradedComplex K D B f M deg ε dims els) :
    ∃ rc dgm, ∀ fuel, (∀ d ∈ dims, (els d).length < fuel) →
      buildWithDiagram D B fuel dims = some (rc, dgm) ∧
      buildWithDiagram (D.restrict (dims.flatMap els)) B fuel dims = some (rc, dgm) := by
  obtain ⟨s, _, _, _, _, h⟩ := clearing_run_any hC
  exact ⟨s.rc, s.diagram, fun fuel hf => ⟨(h fuel hf).2, (h fuel hf).1⟩⟩

/-- C73: the matrix `V` that it returns is as in C21 for every order of the dimensions: every listed basis element has a column that can
be requested, with a non-zero diagonal coefficient and other entries only in earlier elements of the same dimension; the columns of
`product(D, V)` are those of `R = D V`; distinct columns of `R` have distinct pivots; births of pairs vanish in `R`. -/
theorem C73_rdv (hC : GradedComplex K D B f M deg ε dims els) {fuel : Nat} {rc : T → Option (RedCol CF T)} {dgm : Diagram T}
    (h : buildWithDiagram D B fuel dims = some (rc, dgm)) :
    ∃ V : T → (T →₀ K),
      (∀ depth, 2 ≤ depth → ∀ d ∈ dims, ∀ c ∈ els d, HasCol K (crmMatrix D.toOracle rc depth) c (V c) ∧
        HasCol K (product D.toOracle (crmMatrix D.toOracle rc depth)) c (linearCombination K M (V c))) ∧
      (∀ d ∈ dims, ∀ c ∈ els d, V c c ≠ 0) ∧
      (∀ d ∈ dims, ∀ pre c post, els d = pre ++ c :: post → ∀ x, V c x ≠ 0 → x = c ∨ x ∈ pre) ∧
      (∀ c ∈ dims.flatMap els, ∀ c' ∈ dims.flatMap els, ∀ r, IsPivot f (linearCombination K M (V c)) r →
        IsPivot f (linearCombination K M (V c')) r → c = c') ∧
      (∀ c ∈ dims.flatMap els, ∀ j, (c, j) ∈ dgm.pairings → linearCombination K M (V c) = 0) := by
  obtain ⟨s, dn, rfl, rfl, hdn, hmem, hs⟩ := clearing_unique_any hC h
  have hpm := flatMap_same (els := els) hmem
  have hdeg' : ∀ d ∈ dn, ∀ c ∈ els d, deg c = d := fun d hd => hC.deg_els d ((hmem d).1 hd)
  refine ⟨Wc K M s.rc, ?_, ?_, ?_, ?_, ?_⟩
  · intro depth hdepth d hd c hc
    obtain ⟨l, h1, h2, h3⟩ := crm_col_any hC hpm hs hdepth hd hc
    refine ⟨⟨l, h1, h2⟩, ?_⟩
    obtain ⟨l', p1, p2, _⟩ := prod_col (K := K) (D := D) (f := f) (M := M) (V := crmMatrix D.toOracle s.rc depth) h1 (fun t ht => by
      obtain ⟨d', e1, e2⟩ := List.mem_flatMap.1 (h3 t ht)
      exact hC.good d' e1 t.2 e2)
    exact ⟨l', p1, by rw [p2, h2]⟩
  · intro d hd c hc
    exact hs.dec.diag c ((hpm c).2 (List.mem_flatMap.2 ⟨d, hd, hc⟩))
  · intro d hd pre c post hpq x hx
    have hf := hs.dec.filterDeg (deg := deg) hs.degW d
    rw [flatMap_filter hdn hdeg' ((hmem d).2 hd)] at hf
    exact hf.tri pre c post hpq x hx
  · intro c hc c' hc'
    exact hs.dec.reduced c ((hpm c).2 hc) c' ((hpm c').2 hc')
  · intro c hc j hp
    exact hs.clearedZero c ((hpm c).2 hc) j ((hs.cleared c j).2 ((hs.pairs c j).1 hp))

/-- C73: for every order of the dimensions the pairings are the persistence pairs among the listed dimensions; a cell is reported as
essential iff its column depends on earlier ones and it is not the birth of a pair whose death lies in a dimension listed before the
dimension of the cell. Births in listed dimensions are dependent, so each of them is reported as essential too unless the dimension of its
death is listed before its own. -/
theorem C73_diagram (hC : GradedComplex K D B f M deg ε dims els) {fuel : Nat} {rc : T → Option (RedCol CF T)} {dgm : Diagram T}
    (h : buildWithDiagram D B fuel dims = some (rc, dgm)) {all : List T} (hnd : all.Nodup)
    (hall : ∀ d ∈ dims, all.filter (fun x => deg x = (d : ℤ)) = els d) (hdims : ∀ c ∈ all, ∃ d ∈ dims, deg c = (d : ℤ)) :
    (∀ r c, (r, c) ∈ dgm.pairings ↔ IsPersistencePair (rowKey f) all M r c) ∧
    (∀ x, x ∈ dgm.essential ↔ IsDependent all M x ∧
      ∀ c, IsPersistencePair (rowKey f) all M x c → ¬ ListedBefore dims (deg c) (deg x)) ∧
    (∀ r ∈ all, ∀ c, (r, c) ∈ dgm.pairings → IsDependent all M r) := by
  obtain ⟨s, dn, rfl, rfl, hdn, hmem', hs⟩ := clearing_unique_any hC h
  have hk := rowKey_injective f
  have hdeg' : ∀ d ∈ dn, ∀ c ∈ els d, deg c = d := fun d hd => hC.deg_els d ((hmem' d).1 hd)
  have hdec : Decomp (rowKey f) all M (Wc K M s.rc) := by
    refine hs.dec.reorder (deg := deg) hs.degW hnd ?_
    intro c hc
    obtain ⟨d, hd, e⟩ := hdims c hc
    rw [e, hall d hd, flatMap_filter hdn hdeg' ((hmem' d).2 hd)]
  have hmem : ∀ c, c ∈ dn.flatMap els ↔ c ∈ all := by
    intro c
    rw [flatMap_same hmem']
    constructor
    · intro hc
      obtain ⟨d, hd, h2⟩ := List.mem_flatMap.1 hc
      rw [← hall d hd] at h2
      exact (List.mem_filter.1 h2).1
    · intro hc
      obtain ⟨d, hd, e⟩ := hdims c hc
      refine List.mem_flatMap.2 ⟨d, hd, ?_⟩
      rw [← hall d hd]; simp [hc, e]
  refine ⟨?_, ?_, fun r hr c hp => (hdec.zero_iff hk r).2 ⟨hr, hs.clearedZero r ((hmem r).2 hr) c ((hs.cleared r c).2 ((hs.pairs r c).1 hp))⟩⟩
  · intro r c
    rw [hs.pairs, hdec.pair_iff hk, hmem]; rfl
  · intro x
    rw [hs.ess, hdec.zero_iff hk, hmem]
    constructor
    · rintro ⟨h1, h2, h3⟩
      refine ⟨⟨h1, h2⟩, ?_⟩
      intro c hp
      rw [hdec.pair_iff hk] at hp
      exact h3 c ((hmem c).2 hp.1) hp.2
    · rintro ⟨⟨h1, h2⟩, h3⟩
      refine ⟨h1, h2, ?_⟩
      intro c hc hp
      exact h3 c ((hdec.pair_iff hk x c).2 ⟨(hmem c).1 hc, hp⟩)

/-- C73: `col_is_cycle` is right for every order of the dimensions. -/
theorem C73_col_is_cycle (hC : GradedComplex K D B f M deg ε dims els) {fuel : Nat} {rc : T → Option (RedCol CF T)} {dgm : Diagram T}
    (h : buildWithDiagram D B fuel dims = some (rc, dgm)) {depth : Nat} (hdepth : 2 ≤ depth) {d : ℕ} (hd : d ∈ dims) {c : T} (hc : c ∈ els d)
    {w : T →₀ K} (hw : HasCol K (product D.toOracle (crmMatrix D.toOracle rc depth)) c w) :
    ∃ b, colIsCycle D rc depth c = some b ∧ (b = true ↔ w = 0) := by
  obtain ⟨s, dn, rfl, rfl, _, hmem, hs⟩ := clearing_unique_any hC h
  exact col_is_cycle_any hC (flatMap_same hmem) hs hdepth hd hc hw

/-- C73: the order of the dimensions and repetitions do not matter for the pairings. -/
theorem C73_same_pairings {dims' : List ℕ} (hsame : ∀ d, d ∈ dims' ↔ d ∈ dims) (hC : GradedComplex K D B f M deg ε dims els)
    {fuel fuel' : Nat} {rc rc' : T → Option (RedCol CF T)} {dgm dgm' : Diagram T}
    (h : buildWithDiagram D B fuel dims = some (rc, dgm)) (h' : buildWithDiagram D B fuel' dims' = some (rc', dgm')) :
    dgm.pairings = dgm'.pairings := by
  have hC' : GradedComplex K D B f M deg ε dims' els := by
    refine ⟨fun d hd => hC.basis d ((hsame d).1 hd), fun d hd => hC.deg_els d ((hsame d).1 hd), fun d hd => hC.sorted d ((hsame d).1 hd),
      fun d hd => hC.good d ((hsame d).1 hd), fun d hd c hc l hl t ht => ?_, hC.shift, fun d hd d' hd' => hC.sq d ((hsame d).1 hd) d' ((hsame d').1 hd')⟩
    obtain ⟨h1, h2⟩ := hC.rows d ((hsame d).1 hd) c hc l hl t ht
    exact ⟨h1, fun d' hd' => h2 d' ((hsame d').1 hd')⟩
  obtain ⟨s, dn, rfl, rfl, hdn, hmem, hs⟩ := clearing_unique_any hC h
  obtain ⟨hall, hnd⟩ : (∀ d ∈ dims, (dn.flatMap els).filter (fun x => deg x = (d : ℤ)) = els d) ∧ (dn.flatMap els).Nodup :=
    ⟨fun d hd => flatMap_filter hdn (fun d hd => hC.deg_els d ((hmem d).1 hd)) ((hmem d).2 hd), hs.dec.nodup⟩
  have hdims : ∀ c ∈ dn.flatMap els, ∃ d ∈ dims, deg c = (d : ℤ) := by
    intro c hc
    obtain ⟨d, h1, h2⟩ := List.mem_flatMap.1 hc
    exact ⟨d, (hmem d).1 h1, hC.deg_els d ((hmem d).1 h1) c h2⟩
  ext ⟨r, c⟩
  rw [(C73_diagram hC h hnd hall hdims).1, (C73_diagram hC' h' hnd (fun d hd => hall d ((hsame d).1 hd)) (fun c hc => by
    obtain ⟨d, h1, h2⟩ := hdims c hc
    exact ⟨d, (hsame d).2 h1, h2⟩)).1]

/-- C73: dropping the births of pairs from the reported essential cells gives the unpaired cells for every order of the dimensions. -/
theorem C73_repair (hC : GradedComplex K D B f M deg ε dims els) {fuel : Nat} {rc : T → Option (RedCol CF T)} {dgm : Diagram T}
    (h : buildWithDiagram D B fuel dims = some (rc, dgm)) {all : List T} (hnd : all.Nodup)
    (hall : ∀ d ∈ dims, all.filter (fun x => deg x = (d : ℤ)) = els d) (hdims : ∀ c ∈ all, ∃ d ∈ dims, deg c = (d : ℤ)) (x : T) :
    (x ∈ dgm.essential ∧ ∀ y, (x, y) ∉ dgm.pairings) ↔ IsDependent all M x ∧ ∀ c, ¬ IsPersistencePair (rowKey f) all M x c := by
  obtain ⟨h1, h2, _⟩ := C73_diagram hC h hnd hall hdims
  simp only [h1, h2]
  constructor
  · rintro ⟨⟨a, _⟩, b⟩; exact ⟨a, b⟩
  · rintro ⟨a, b⟩; exact ⟨⟨a, fun c hc => absurd hc (b c)⟩, b⟩

/-- C73: the reported essential cells are the unpaired ones exactly if every birth in a listed dimension has the dimension of its death
listed before its own. -/
theorem C73_exact (hC : GradedComplex K D B f M deg ε dims els) {fuel : Nat} {rc : T → Option (RedCol CF T)} {dgm : Diagram T}
    (h : buildWithDiagram D B fuel dims = some (rc, dgm)) {all : List T} (hnd : all.Nodup)
    (hall : ∀ d ∈ dims, all.filter (fun x => deg x = (d : ℤ)) = els d) (hdims : ∀ c ∈ all, ∃ d ∈ dims, deg c = (d : ℤ)) :
    (∀ x, x ∈ dgm.essential ↔ IsDependent all M x ∧ ∀ c, ¬ IsPersistencePair (rowKey f) all M x c) ↔
      ∀ r c, (r, c) ∈ dgm.pairings → r ∈ all → ListedBefore dims (deg c) (deg r) := by
  obtain ⟨h1, h2, h3⟩ := C73_diagram hC h hnd hall hdims
  obtain ⟨u1, u2⟩ := pair_unique (K := K) (rowKey_injective f) hnd M
  constructor
  · intro he r c hp hr
    by_contra hb
    have : r ∈ dgm.essential := (h2 r).2 ⟨h3 r hr c hp, fun c' hc' => by
      have : c' = c := u2 _ _ _ hc' ((h1 r c).1 hp)
      rw [this]; exact hb⟩
    exact ((he r).1 this).2 c ((h1 r c).1 hp)
  · intro hl x
    rw [h2 x]
    constructor
    · rintro ⟨a, b⟩
      refine ⟨a, fun c hc => b c hc (hl x c ((h1 x c).2 hc) ?_)⟩
      obtain ⟨p, q, e, _⟩ := a
      rw [e]; simp
    · rintro ⟨a, b⟩; exact ⟨a, fun c hc => absurd hc (b c)⟩

end

/-! ### The filled triangle, with the dimensions in the wrong order, with repetitions and with a gap -/
namespace Example

theorem graded (dims : List ℕ) (h : ∀ d ∈ dims, d ∈ [2, 1, 0]) :
    GradedComplex (ZMod 3) D B fv (fun c => lcOf (ZMod 3) (cols.getD c [])) deg (-1) dims els where
  basis d hd := split.basis d (h d hd)
  deg_els d hd := split.deg_els d (h d hd)
  sorted d hd := split.sorted d (h d hd)
  good d hd := split.good d (h d hd)
  rows d hd c hc l hl t ht := ⟨(split.rows d (h d hd) c hc l hl t ht).1, fun d' hd' => (split.rows d (h d hd) c hc l hl t ht).2 d' (h d' hd')⟩
  shift := split.shift
  sq d hd d' hd' := split.sq d (h d hd) d' (h d' hd')

example : GradedComplex (ZMod 3) D B fv (fun c => lcOf (ZMod 3) (cols.getD c [])) deg (-1) [1, 2, 1, 0] els ∧
    GradedComplex (ZMod 3) D B fv (fun c => lcOf (ZMod 3) (cols.getD c [])) deg (-1) [0, 2] els :=
  ⟨graded _ (by decide), graded _ (by decide)⟩

/-- The edge 5 is the birth of the pair (5, 6): it is reported as essential, since dimension 1 is listed before dimension 2, but the
vertices 1 and 2 are not, since dimension 1 is listed before dimension 0. -/
example : letI := listHeap
    (buildWithDiagram D B 4 [1, 2, 1, 0]).map Prod.snd = some ⟨{0, 5}, {(1, 3), (2, 4), (5, 6)}⟩ ∧
    (buildWithDiagram D B 4 [0, 2]).map Prod.snd = some ⟨{0, 1, 2}, {(5, 6)}⟩ ∧
    (buildWithDiagram D B 4 [0, 1, 2]).bind (fun r => (crmMatrix D.toOracle r.1 2).column 5) = some [(o, 5), (t, 4), (o, 3)] := by decide +kernel

example : ListedBefore [1, 2, 1, 0] (deg 3) (deg 1) ∧ ¬ ListedBefore [1, 2, 1, 0] (deg 6) (deg 5) := by
  refine ⟨⟨[1], ⟨[2, 1, 0], rfl⟩, by decide, by decide⟩, ?_⟩
  rintro ⟨p, ⟨q, e⟩, h1, h2⟩
  match p, e with
  | [], _ => simp at h1
  | a :: p, e => simp only [List.cons_append, List.cons.injEq] at e; rw [e.1] at h2; exact h2 (by simp [deg])

/-- The hypotheses of C73_diagram, C73_repair and C73_exact about the list of all cells. -/
example : (List.range 7).Nodup ∧ (∀ d ∈ [1, 2, 1, 0], (List.range 7).filter (fun x => deg x = ((d : ℕ) : ℤ)) = els d) ∧
    (∀ c ∈ List.range 7, ∃ d ∈ [1, 2, 1, 0], deg c = ((d : ℕ) : ℤ)) := by
  refine ⟨by decide, by decide, by decide⟩

end Example
end Phlite
