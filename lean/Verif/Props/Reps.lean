/-
Property theorems C44: the columns of V and of R = D V are representatives of the bars.
-/
import Verif.Theory.Interval
import Verif.Props.Homology
import Verif.Props.Clearing

set_option linter.unusedSectionVars false
set_option linter.unusedSimpArgs false

namespace Phlite
open Finsupp (single linearCombination linearCombination_single)

section
variable {CF T F K : Type} [NonZeroCoeff CF] [Field K] [LawfulCoeff CF K] [LinearOrder F] [LinearOrder T]
variable {D : FOracle CF T T F} {f : T → F} {M N : T → (T →₀ K)} {deg : T → ℤ} {ε : ℤ}

/-- The columns of a homogeneous reduction represent the bars. -/
theorem interval_decomp {all : List T} (hdeg : ∀ c ∈ all, ∀ r, M c r ≠ 0 → deg r = deg c + ε)
    (hsort : ∀ d : ℤ, (all.filter fun x => deg x = d).Pairwise fun a b => rowKey f a < rowKey f b) {p q : ℤ} (hpq : p = q + ε)
    (hrows : ∀ y ∈ all, deg y = q → ∀ r, M y r ≠ 0 → r ∈ all) (hsq : ∀ y ∈ all, deg y = q → linearCombination K M (M y) = 0)
    {dgm : Diagram T} (hp : ∀ r c, (r, c) ∈ dgm.pairings ↔ IsPersistencePair (rowKey f) all M r c)
    (he : ∀ x, x ∈ dgm.essential ↔ IsDependent all M x ∧ ∀ c, ¬ IsPersistencePair (rowKey f) all M x c)
    {W : T → (T →₀ K)} (hW : Decomp (rowKey f) all M W) (hH : Homog deg W all) {z : T × Option T → (T →₀ K)}
    (hz0 : ∀ σ ∈ dgm.essential, z (σ, none) = W σ) (hz1 : ∀ σ τ, (σ, τ) ∈ dgm.pairings → z (σ, some τ) = linearCombination K M (W τ)) :
    IsPersistenceBasis (fun t => cyclesOn M (sublevel f (cellsOf deg all) p t)) (fun t => boundariesOn M (sublevel f (cellsOf deg all) q t))
      (barsOf deg dgm p) z (fun i => f i.1) (barDeath f) := by
  have hk := rowKey_injective f
  have hnd := hW.nodup
  -- pairs of degree p
  have hpair : ∀ σ τ, (σ, some τ) ∈ barsOf deg dgm p ↔ deg σ = p ∧ (σ, τ) ∈ dgm.pairings := fun σ τ => Iff.rfl
  have hess : ∀ σ, (σ, none) ∈ barsOf deg dgm p ↔ deg σ = p ∧ σ ∈ dgm.essential := fun σ => Iff.rfl
  have hpq' : ∀ σ τ, (σ, some τ) ∈ barsOf deg dgm p → IsPersistencePair (rowKey f) all M σ τ ∧ τ ∈ all ∧ deg τ = q := by
    intro σ τ h
    obtain ⟨h1, h2⟩ := (hpair σ τ).1 h
    have h3 := (hp σ τ).1 h2
    have h4 := pair_deg hk hnd hdeg h3
    exact ⟨h3, h4.1, by omega⟩
  have hWq := hW.filterDeg hH q
  have hWp := hW.filterDeg hH p
  -- support of a column of W
  have hWlead : ∀ d : ℤ, ∀ c ∈ all, deg c = d → ∀ x, W c x ≠ 0 → x ∈ cellsOf deg all d ∧ rowKey f x ≤ rowKey f c := by
    intro d c hc hcd x hx
    have hxd := hH c hc x hx
    have hxm : x ∈ cellsOf deg all d := mem_cellsOf.2 ⟨hW.mem_of_ne hc hx, by rw [hxd, hcd]⟩
    refine ⟨hxm, ?_⟩
    obtain ⟨pre, post, hpre⟩ := List.append_of_mem (mem_cellsOf.2 ⟨hc, hcd⟩ : c ∈ cellsOf deg all d)
    rcases (hW.filterDeg hH d).tri pre c post hpre x hx with h | h
    · rw [h]
    · have hs := hsort d
      rw [show (all.filter fun x => deg x = d) = pre ++ c :: post from hpre] at hs
      exact ((List.pairwise_append.1 hs).2.2 x h c (by simp)).le
  have hrsupp : ∀ τ ∈ all, deg τ = q → ∀ x, linearCombination K M (W τ) x ≠ 0 → x ∈ cellsOf deg all p := by
    intro τ hτ hτq x hx
    obtain ⟨y, y1, y2⟩ := lc_support hx
    obtain ⟨h1, h2⟩ := mem_cellsOf.1 (hWlead q τ hτ hτq y y1).1
    exact mem_cellsOf.2 ⟨hrows y h1 h2 x y2, by rw [hdeg y h1 x y2, h2, hpq]⟩
  have e1 : ∀ d t, sublevel f (cellsOf deg all) d t = {x | x ∈ cellsOf deg all d ∧ f x ≤ t} := fun _ _ => rfl
  simp only [e1]
  refine interval_core (hsort p) ?_ ?_ ?_ ?_ ?_ ?_ ?_
  · rintro ⟨σ, o⟩ hi
    cases o with
    | none =>
      obtain ⟨h1, h2⟩ := (hess σ).1 hi
      have hσ := ((he σ).1 h2).1.mem
      rw [hz0 σ h2]
      exact ⟨hW.diag σ hσ, fun x hx => (hWlead p σ hσ h1 x hx).2⟩
    | some τ =>
      rw [hz1 σ τ ((hpair σ τ).1 hi).2]
      exact ((hW.pair_iff hk σ τ).1 (hpq' σ τ hi).1).2
  · rintro ⟨σ, o⟩ hi ⟨σ', o'⟩ hi' e
    obtain rfl : σ = σ' := e
    cases o with
    | none =>
      cases o' with
      | none => rfl
      | some τ =>
        exact absurd (hpq' σ τ hi').1 (((he σ).1 ((hess σ).1 hi).2).2 τ)
    | some τ =>
      cases o' with
      | none => exact absurd (hpq' σ τ hi).1 (((he σ).1 ((hess σ).1 hi').2).2 τ)
      | some τ' => rw [(pair_unique (K := K) hk hnd M).2 σ τ τ' (hpq' σ τ hi).1 (hpq' σ τ' hi').1]
  · rintro ⟨σ, o⟩ hi x hx
    cases o with
    | none =>
      obtain ⟨h1, h2⟩ := (hess σ).1 hi
      rw [hz0 σ h2] at hx
      exact (hWlead p σ ((he σ).1 h2).1.mem h1 x hx).1
    | some τ =>
      rw [hz1 σ τ ((hpair σ τ).1 hi).2] at hx
      obtain ⟨_, h2, h3⟩ := hpq' σ τ hi
      exact hrsupp τ h2 h3 x hx
  · rintro ⟨σ, o⟩ hi
    cases o with
    | none =>
      have h2 := ((hess σ).1 hi).2
      rw [hz0 σ h2]
      exact ((hW.zero_iff hk σ).1 ((he σ).1 h2).1).2
    | some τ =>
      rw [hz1 σ τ ((hpair σ τ).1 hi).2]
      obtain ⟨_, h2, h3⟩ := hpq' σ τ hi
      rw [bdry, lc_lc, Finsupp.linearCombination_apply, Finsupp.sum]
      apply Finset.sum_eq_zero
      intro x hx
      obtain ⟨h4, h5⟩ := mem_cellsOf.1 (hWlead q τ h2 h3 x (by simpa using hx)).1
      rw [hsq x h4 h5, smul_zero]
  · intro c hc
    obtain ⟨h1, h2⟩ := mem_cellsOf.1 hc.mem
    have hc' := (dependent_filter hk hnd hdeg h2).2 hc
    by_cases h : ∃ τ, IsPersistencePair (rowKey f) all M c τ
    · obtain ⟨τ, hτ⟩ := h
      exact ⟨(c, some τ), (hpair c τ).2 ⟨h2, (hp c τ).2 hτ⟩, rfl⟩
    · exact ⟨(c, none), (hess c).2 ⟨h2, (he c).2 ⟨hc', fun τ hτ => h ⟨τ, hτ⟩⟩⟩, rfl⟩
  · intro σ τ hi
    rw [hz1 σ τ ((hpair σ τ).1 hi).2]
    obtain ⟨_, h2, h3⟩ := hpq' σ τ hi
    rw [Finsupp.mem_span_image_iff_linearCombination]
    refine ⟨W τ, (Finsupp.mem_supported K _).2 ?_, rfl⟩
    intro x hx
    obtain ⟨h4, h5⟩ := hWlead q τ h2 h3 x (by simpa using hx)
    exact ⟨h4, (Prod.Lex.le_iff.1 h5).elim (fun h => h.le) fun h => h.1.le⟩
  · intro t
    have s2 := sorted_split _ (hsort q) t
    have hW' : Decomp (rowKey f) ((cellsOf deg all q).filter fun x => f x ≤ t) M W := by
      have := hWq
      rw [s2] at this
      exact this.of_prefix
    have h3 := hW'.span_prefix LinearMap.id
    simp only [LinearMap.id_coe, id_eq] at h3
    have e2 : {y | y ∈ cellsOf deg all q ∧ f y ≤ t} = {y | y ∈ (cellsOf deg all q).filter fun x => f x ≤ t} := by ext x; simp
    rw [e2, h3]
    apply Submodule.span_le.2
    rintro _ ⟨c, hc, rfl⟩
    by_cases hzero : linearCombination K M (W c) = 0
    · simp only [hzero]; exact Submodule.zero_mem _
    · obtain ⟨r, hr⟩ := exists_lead (rowKey f) hzero
      obtain ⟨hc1, hc2⟩ := List.mem_filter.1 hc
      obtain ⟨h4, h5⟩ := mem_cellsOf.1 hc1
      have hpr := (hp r c).2 ((hW.pair_iff hk r c).2 ⟨h4, hr⟩)
      refine Submodule.subset_span ⟨(r, some c), ⟨(hpair r c).2 ⟨?_, hpr⟩, ?_⟩, hz1 r c hpr⟩
      · exact (mem_cellsOf.1 (hrsupp c h4 h5 r hr.1)).2
      · simpa [barDeath] using hc2

variable [StdHeap]

/-- C44 for the standard algorithm: the column of `v` of an essential cell and the column of `product(D, v)` of the death cell of a pair
represent the bars of the diagram: in each degree they are cycles from the birth on and boundaries from the death on, and at any
filtration value `t` the classes of the bars alive at `t` are a basis of homology. -/
theorem C44_standard {B : Basis T} {all : List T} (hF : FiniteMatrix K D B f M all)
    (hdeg : ∀ c ∈ all, ∀ r, M c r ≠ 0 → deg r = deg c + ε)
    (hsort : ∀ d : ℤ, (all.filter fun x => deg x = d).Pairwise fun a b => rowKey f a < rowKey f b)
    (hfull : ∀ c ∈ all, ∀ r, M c r ≠ 0 → r ∈ all) (hsq : ∀ c ∈ all, linearCombination K M (M c) = 0) (hrows : RowsBefore all M)
    {fuel : Nat → Nat} {v : T → Option (List (CF × T))} {dgm : Diagram T} (h : standardAlgoWithDiagram D B fuel false = some (v, dgm)) :
    ∃ z : T × Option T → (T →₀ K),
      (∀ σ ∈ dgm.essential, HasCol K (mapVecMatrix v) σ (z (σ, none))) ∧
      (∀ σ τ, (σ, τ) ∈ dgm.pairings → HasCol K (product D.toOracle (mapVecMatrix v)) τ (z (σ, some τ))) ∧
      ∀ p q, p = q + ε →
        IsPersistenceBasis (fun t => cyclesOn M (sublevel f (cellsOf deg all) p t))
          (fun t => boundariesOn M (sublevel f (cellsOf deg all) q t)) (barsOf deg dgm p) z (fun b => f b.1) (barDeath f) := by
  have hv : standardAlgo D.ref B fuel = some v := by
    simp only [standardAlgoWithDiagram, Option.bind_eq_some_iff, Option.map_eq_some_iff] at h
    obtain ⟨v', h1, d', h2, h3⟩ := h
    cases h3; exact h1
  have hF' : FiniteMatrix K D.ref B f M all := ⟨hF.basis, hF.nodup, fun c hc => (hF.reads c hc).ref⟩
  obtain ⟨s, rfl, hs⟩ := std_unique hF' hv
  have hp := C18_pairings hF h
  have he := C19_essential hF hrows h
  refine ⟨fun b => match b.2 with | none => Wof K s.v b.1 | some τ => linearCombination K M (Wof K s.v τ), ?_, ?_, ?_⟩
  · intro σ hσ
    obtain ⟨l, hl⟩ := Option.isSome_iff_exists.1 ((hs.dom σ).2 ((he σ).1 hσ).1.mem)
    exact ⟨l, hl, by simp only [Wof, hl]; rfl⟩
  · intro σ τ hτ
    have hc : τ ∈ all := ((hs.dec.pair_iff (rowKey_injective f) σ τ).1 ((hp σ τ).1 hτ)).1
    obtain ⟨l, hl⟩ := Option.isSome_iff_exists.1 ((hs.dom τ).2 hc)
    have hlW : lcOf K l = Wof K s.v τ := by rw [Wof, hl]; rfl
    obtain ⟨l', p1, p2, _⟩ := prod_col (K := K) (D := D) (f := f) (M := M) (V := mapVecMatrix s.v) hl (fun t ht => by
      have h0 := (hs.sparse τ l hl).mem_ne ht
      rw [hlW] at h0
      exact hF.reads t.2 (hs.dec.mem_of_ne hc h0))
    exact ⟨l', p1, by rw [p2, hlW]⟩
  · intro p q hpq
    exact interval_decomp hdeg hsort hpq (fun y hy _ => hfull y hy) (fun y hy _ => hsq y hy) hp he hs.dec (hs.homog deg ε hdeg)
      (fun _ _ => rfl) fun _ _ _ => rfl

/-- C44 for the clearing algorithm: the column of the returned `V` of the birth cell of any bar (essential or not) represents it; for a
finite bar it is the column of `product(D, V)` of the death cell. -/
theorem C44_clearing {B : SplitBasis T} {dims : List ℕ} {els : ℕ → List T} (hC : SplitComplex K D B f M deg ε dims els)
    {fuel : Nat} {rc : T → Option (RedCol CF T)} {dgm : Diagram T} (h : buildWithDiagram D B fuel dims = some (rc, dgm))
    {depth : ℕ} (hdepth : 2 ≤ depth) {p : ℕ} (hp : p ∈ dims) {q : ℤ} (hpq : (p : ℤ) = q + ε) :
    ∃ z : T × Option T → (T →₀ K),
      (∀ b ∈ barsOf deg dgm p, HasCol K (crmMatrix D.toOracle rc depth) b.1 (z b)) ∧
      (∀ σ τ, (σ, some τ) ∈ barsOf deg dgm p → HasCol K (product D.toOracle (crmMatrix D.toOracle rc depth)) τ (z (σ, some τ))) ∧
      IsPersistenceBasis (fun t => cyclesOn M (sublevel f (cellsOf deg (dims.flatMap els)) p t))
        (fun t => boundariesOn M (sublevel f (cellsOf deg (dims.flatMap els)) q t)) (barsOf deg dgm p) z (fun b => f b.1) (barDeath f) := by
  have hk := rowKey_injective f
  have hnd := flatMap_nodup hC
  obtain ⟨hP, hE⟩ := clearing_diagram hC h hnd (fun d hd => flatMap_filter hC.nodup hC.deg_els hd) (split_hdims hC)
  obtain ⟨s, rfl, rfl, hs⟩ := clearing_unique hC h
  have hrows : ∀ y ∈ dims.flatMap els, deg y = q → ∀ r, M y r ≠ 0 → r ∈ dims.flatMap els := by
    intro y hy hyq r hr
    obtain ⟨d, hd, hyd⟩ := List.mem_flatMap.1 hy
    have e := hC.deg_els d hd y hyd
    exact List.mem_flatMap.2 ⟨p, hp, (hC.row_of_ne hd hyd hr).2 p hp (by omega)⟩
  have hsq : ∀ y ∈ dims.flatMap els, deg y = q → linearCombination K M (M y) = 0 := by
    intro y hy hyq
    obtain ⟨d, hd, hyd⟩ := List.mem_flatMap.1 hy
    have e := hC.deg_els d hd y hyd
    exact hC.sq d hd p hp (by omega) y hyd
  have hmem : ∀ σ τ, (σ, some τ) ∈ barsOf deg s.diagram (p : ℤ) → σ ∈ dims.flatMap els ∧ τ ∈ dims.flatMap els := by
    rintro σ τ ⟨h1, h2⟩
    have h3 := (hP σ τ).1 h2
    have h4 := pair_deg hk hnd (split_deg hC) h3
    obtain ⟨h5, h6, x, h7, h8, h9, _⟩ := h4
    simp only at h1
    exact ⟨hrows x h7 (by rw [h8]; omega) σ h9, h5⟩
  refine ⟨fun b => match b.2 with | none => Wc K M s.rc b.1 | some τ => linearCombination K M (Wc K M s.rc τ), ?_, ?_, ?_⟩
  · rintro ⟨σ, o⟩ hb
    cases o with
    | none =>
      have hσ := ((hE σ).1 hb.2).1.mem
      obtain ⟨d, hd, hc⟩ := List.mem_flatMap.1 hσ
      obtain ⟨l, h1, h2, h3⟩ := crm_col hC hs hdepth hd hc
      exact ⟨l, h1, h2⟩
    | some τ =>
      obtain ⟨hσ, hτ⟩ := hmem σ τ hb
      obtain ⟨d, hd, hc⟩ := List.mem_flatMap.1 hσ
      obtain ⟨l, h1, h2, h3⟩ := crm_col hC hs hdepth hd hc
      refine ⟨l, h1, ?_⟩
      rw [h2]
      exact hs.cleared_W ((hs.cleared σ τ).2 ((hs.pairs σ τ).1 hb.2))
  · intro σ τ hb
    obtain ⟨hσ, hτ⟩ := hmem σ τ hb
    obtain ⟨d, hd, hc⟩ := List.mem_flatMap.1 hτ
    obtain ⟨l, h1, h2, h3⟩ := crm_col hC hs hdepth hd hc
    obtain ⟨l', p1, p2, _⟩ := prod_col (K := K) (D := D) (f := f) (M := M) (V := crmMatrix D.toOracle s.rc depth) h1 (fun t ht => by
      obtain ⟨d', e1, e2⟩ := List.mem_flatMap.1 (h3 t ht)
      exact hC.good d' e1 t.2 e2)
    exact ⟨l', p1, by rw [p2, h2]⟩
  · exact interval_decomp (split_deg hC) (split_sorted hC) hpq hrows hsq hP hE hs.dec hs.degW (fun _ _ => rfl) fun _ _ _ => rfl

end

namespace Example

/-- The hypotheses of C44_standard for the filled triangle. -/
example : letI := listHeap
    ∀ {fuel v dgm}, standardAlgoWithDiagram D (vecVecBasis cols) fuel false = some (v, dgm) →
      ∃ z : ℕ × Option ℕ → (ℕ →₀ ZMod 3),
        (∀ σ ∈ dgm.essential, HasCol (ZMod 3) (mapVecMatrix v) σ (z (σ, none))) ∧
        (∀ σ τ, (σ, τ) ∈ dgm.pairings → HasCol (ZMod 3) (product D.toOracle (mapVecMatrix v)) τ (z (σ, some τ))) ∧
        ∀ p q, p = q + (-1) →
          IsPersistenceBasis (fun t => cyclesOn (fun c => lcOf (ZMod 3) (cols.getD c [])) (sublevel fv (cellsOf deg (List.range 7)) p t))
            (fun t => boundariesOn (fun c => lcOf (ZMod 3) (cols.getD c [])) (sublevel fv (cellsOf deg (List.range 7)) q t))
            (barsOf deg dgm p) z (fun b => fv b.1) (barDeath fv) := by
  letI := listHeap
  intro fuel v dgm h
  have key : ∀ c ∈ List.range 7, ∀ t ∈ cols.getD c [], t.2 < c ∧ deg t.2 = deg c + (-1) := by decide
  refine C44_standard (vecVec_finiteMatrix cols fv) ?_ ?_ ?_ ?_ ?_ h
  · intro c hc r hr
    obtain ⟨t, ht, rfl⟩ := lcOf_support hr
    exact (key c hc t ht).2
  · intro d
    by_cases h : d = 0 ∨ d = 1 ∨ d = 2
    · rcases h with rfl | rfl | rfl <;> decide
    · rw [List.filter_eq_nil_iff.2]
      · exact List.Pairwise.nil
      · intro x hx
        have : ∀ x ∈ List.range 7, deg x = 0 ∨ deg x = 1 ∨ deg x = 2 := by decide
        have := this x hx
        simp only [decide_eq_true_eq]
        rintro rfl
        exact h this
  · intro c hc r hr
    obtain ⟨t, ht, rfl⟩ := lcOf_support hr
    have := (key c hc t ht).1
    rw [List.mem_range] at hc ⊢
    omega
  · intro c hc
    exact sq_zero c (by simpa using hc)
  · intro pre c post (hpq : List.range 7 = _) r (hr : r ∈ List.range 7) hne
    obtain ⟨t, ht, rfl⟩ := lcOf_support hne
    have h1 : c ∈ List.range 7 := by rw [hpq]; simp
    have := (key c h1 t ht).1
    have hs : (List.range 7).Pairwise (· < ·) := List.pairwise_lt_range
    rw [hpq] at hr hs
    rcases List.mem_append.1 hr with h | h
    · exact h
    · rcases List.mem_cons.1 h with h | h
      · omega
      · have := (List.pairwise_cons.1 (List.pairwise_append.1 hs).2.1).1 _ h
        omega

/-- The representative of the loop that is born with the edge 5 and filled by the triangle 6. -/
example : letI := listHeap
    (standardAlgoWithDiagram D (vecVecBasis cols) (fun i => i + 1) false).bind
      (fun r => (product D.toOracle (mapVecMatrix r.1)).column 6) = some [(o, 5), (t, 4), (o, 3)] := by decide +kernel

example : letI := listHeap
    ∀ {fuel rc dgm}, buildWithDiagram D B fuel [2, 1, 0] = some (rc, dgm) →
      ∃ z : ℕ × Option ℕ → (ℕ →₀ ZMod 3),
        (∀ b ∈ barsOf deg dgm ((1 : ℕ) : ℤ), HasCol (ZMod 3) (crmMatrix D.toOracle rc 2) b.1 (z b)) ∧
        (∀ σ τ, (σ, some τ) ∈ barsOf deg dgm ((1 : ℕ) : ℤ) → HasCol (ZMod 3) (product D.toOracle (crmMatrix D.toOracle rc 2)) τ (z (σ, some τ))) ∧
        IsPersistenceBasis
          (fun t => cyclesOn (fun c => lcOf (ZMod 3) (cols.getD c [])) (sublevel fv (cellsOf deg ([2, 1, 0].flatMap els)) ((1 : ℕ) : ℤ) t))
          (fun t => boundariesOn (fun c => lcOf (ZMod 3) (cols.getD c [])) (sublevel fv (cellsOf deg ([2, 1, 0].flatMap els)) 2 t))
          (barsOf deg dgm ((1 : ℕ) : ℤ)) z (fun b => fv b.1) (barDeath fv) := by
  letI := listHeap
  intro fuel rc dgm h
  exact C44_clearing split h le_rfl (by decide) (by decide)

end Example
end Phlite
