/-
Property theorem C67: the reductions with the coefficient types as they are, whose operations may panic (`ZP<P>`) or overflow (`Q`).
-/
import Verif.Proofs.Checked
import Verif.Props.Standard
import Verif.Props.Clearing
import Verif.Props.Fields

set_option linter.unusedSectionVars false
set_option linter.unusedSimpArgs false

namespace Phlite

/-- The operations of `ZP<P>` on its proper values, phlite/src/fields.rs:113-251, with their panics. (A result that is not a proper value would be `none`, too.) -/
def zpOps (P : ℕ) [ProvidedPrime P] : PanicOps (ZP P) where
  add a b := (zpAdd P a.n b.n).bind fun
    | none => some none
    | some c => if h : IsRes P c then some (some ⟨c, h⟩) else none
  mul a b := (zpMul P a.n b.n).bind fun c => if h : IsRes P c then some ⟨c, h⟩ else none
  one := ⟨zpOne, by rcases ProvidedPrime.cases (P := P) with h | h | h | h | h <;> subst h <;> decide⟩
  neg a := (zpNeg P a.n).bind fun c => if h : IsRes P c then some ⟨c, h⟩ else none
  inv a := (zpInv P a.n).bind fun c => if h : IsRes P c then some ⟨c, h⟩ else none

/-- The operations of `Q` on its proper values (non-zero, lowest terms), phlite/src/fields.rs:263-305, where `none` means that some integer of the operation leaves the
range of its 64-bit type. -/
def qOps : PanicOps QV where
  add a b := (Q64.add a.q b.q).bind fun
    | none => some none
    | some c => if h : c.num ≠ 0 ∧ 0 < c.den ∧ c.num.natAbs.gcd c.den = 1 then some (some ⟨c, h⟩) else none
  mul a b := (Q64.mul a.q b.q).bind fun c => if h : c.num ≠ 0 ∧ 0 < c.den ∧ c.num.natAbs.gcd c.den = 1 then some ⟨c, h⟩ else none
  one := ⟨Q64.one, Q.one_ok.1⟩
  neg a := (Q64.neg a.q).bind fun c => if h : c.num ≠ 0 ∧ 0 < c.den ∧ c.num.natAbs.gcd c.den = 1 then some ⟨c, h⟩ else none
  inv a := (Q64.inv a.q).bind fun c => if h : c.num ≠ 0 ∧ 0 < c.den ∧ c.num.natAbs.gcd c.den = 1 then some ⟨c, h⟩ else none

theorem zpOps_exact (P : ℕ) [ProvidedPrime P] : zpOps P = PanicOps.exact (ZP P) := by
  unfold zpOps PanicOps.exact
  congr 1
  · funext a b
    obtain ⟨r, h1, h2, -⟩ := zp_add_ok a.res b.res
    rw [h1, Option.bind_some]
    have key : ∀ (hs : (zpAdd P a.n b.n).isSome), (zpAdd P a.n b.n).get hs = r := by intro hs; simp [h1]
    cases r with
    | none =>
      simp only [NonZeroCoeff.add]
      split
      · rfl
      · rename_i c hc; rw [key] at hc; cases hc
    | some c =>
      simp only [NonZeroCoeff.add, dif_pos (h2 c rfl)]
      split
      · rename_i hc; rw [key] at hc; cases hc
      · rename_i c' hc; rw [key] at hc; cases hc; rfl
  · funext a b
    obtain ⟨r, h1, h2, -⟩ := zp_mul_ok a.res b.res
    rw [h1, Option.bind_some, dif_pos h2]
    congr 1; apply ZP.ext'; simp [NonZeroCoeff.mul, h1]
  · funext a
    obtain ⟨r, h1, h2, -⟩ := zp_neg_ok a.res
    rw [h1, Option.bind_some, dif_pos h2]
    congr 1; apply ZP.ext'; simp [NonZeroCoeff.neg, h1]
  · funext a
    obtain ⟨r, h1, h2, -⟩ := zp_inv_ok a.res
    rw [h1, Option.bind_some, dif_pos h2]
    congr 1; apply ZP.ext'; simp [NonZeroCoeff.inv, h1]

theorem qOps_le : qOps.LE (PanicOps.exact QV) := by
  refine ⟨?_, ?_, rfl, ?_, ?_⟩
  · intro a b r h
    simp only [qOps, Option.bind_eq_some_iff] at h
    obtain ⟨c, h1, h2⟩ := h
    have e := (C03_no_overflow_agree a.q b.q).1 c h1
    show some (NonZeroCoeff.add a b) = some r
    congr 1
    simp only [NonZeroCoeff.add]
    cases c with
    | none =>
      simp only [Option.some.injEq] at h2
      split
      · exact h2
      · rename_i c hc; rw [e] at hc; cases hc
    | some c =>
      simp only at h2
      split at h2
      · rename_i hc
        cases h2
        split
        · rename_i hc; rw [e] at hc; cases hc
        · rename_i c' hc'; rw [e] at hc'; cases hc'; rfl
      · cases h2
  · intro a b r h
    simp only [qOps, Option.bind_eq_some_iff] at h
    obtain ⟨c, h1, h2⟩ := h
    have e := (C03_no_overflow_agree a.q b.q).2.1 c h1
    split at h2
    · cases h2
      show some (NonZeroCoeff.mul a b) = some _
      exact congrArg some (QV.ext' e)
    · cases h2
  · intro a r h
    simp only [qOps, Option.bind_eq_some_iff] at h
    obtain ⟨c, h1, h2⟩ := h
    have e := (C03_no_overflow_agree a.q a.q).2.2.1 c h1
    split at h2
    · rw [← h2]
      show some (NonZeroCoeff.neg a) = some _
      exact congrArg some (QV.ext' e)
    · exact absurd h2 (by simp)
  · intro a r h
    simp only [qOps, Option.bind_eq_some_iff] at h
    obtain ⟨c, h1, h2⟩ := h
    have e := (C03_no_overflow_agree a.q a.q).2.2.2 c h1
    split at h2
    · rw [← h2]
      show some (NonZeroCoeff.inv a) = some _
      exact congrArg some (QV.ext' e)
    · exact absurd h2 (by simp)

section
variable [StdHeap] {T F : Type} [LinearOrder F] [LinearOrder T]

/-- C67: over `Z3, Z5, Z7, Z11, Z13` the standard algorithm and the reading of the diagram never panic in a coefficient operation: on every finite filtered matrix they
return, for every reading order, exactly the persistence pairs over the field with `P` elements. -/
theorem C67_zp_standard {P : ℕ} [ProvidedPrime P] {D : FOracle (ZP P) T T F} {f : T → F} {M : T → (T →₀ ZMod P)} {B : Basis T} {els : List T}
    (h : FiniteMatrix (ZMod P) D B f M els) (rev : Bool) (fuel : ℕ → ℕ) (hfuel : ∀ i, i < B.size → i < fuel i) :
    ∃ v d, Ck.standardAlgoWithDiagram (zpOps P) D B fuel rev = some (v, d) ∧
      ∀ r c, (r, c) ∈ d.pairings ↔ IsPersistencePair (rowKey f) els M r c := by
  obtain ⟨s, h1, h2⟩ := standard_run h
  obtain ⟨-, -, h3⟩ := h2 fuel hfuel
  obtain ⟨d, -, h4, -⟩ := h3 rev
  refine ⟨s.v, d, ?_, (std_diagram h h4).1⟩
  rw [zpOps_exact, Ck.standardAlgoWithDiagram_exact]
  exact h4

/-- C67: the same for the clearing algorithm on a chain complex. -/
theorem C67_zp_clearing {P : ℕ} [ProvidedPrime P] {D : FOracle (ZP P) T T F} {f : T → F} {M : T → (T →₀ ZMod P)} {B : SplitBasis T} {deg : T → ℤ} {ε : ℤ}
    {dims : List ℕ} {els : ℕ → List T} (hC : SplitComplex (ZMod P) D B f M deg ε dims els) (fuel : ℕ) (hfuel : ∀ d ∈ dims, (els d).length < fuel)
    {all : List T} (hnd : all.Nodup)
    (hall : ∀ d ∈ dims, all.filter (fun x => deg x = (d : ℤ)) = els d) (hdims : ∀ c ∈ all, ∃ d ∈ dims, deg c = (d : ℤ)) :
    ∃ rc dgm, Ck.buildWithDiagram (zpOps P) D B fuel dims = some (rc, dgm) ∧
      (∀ r c, (r, c) ∈ dgm.pairings ↔ IsPersistencePair (rowKey f) all M r c) ∧
      (∀ x, x ∈ dgm.essential ↔ IsDependent all M x ∧ ∀ c, ¬ IsPersistencePair (rowKey f) all M x c) := by
  obtain ⟨s, -, h2⟩ := clearing_run hC
  have h3 := (h2 fuel hfuel).2
  refine ⟨s.rc, s.diagram, ?_, clearing_diagram hC h3 hnd hall hdims⟩
  rw [zpOps_exact, Ck.buildWithDiagram_exact]
  exact h3

/-- C67: over `Q`, a run of the standard algorithm in which no 64-bit integer overflows returns the persistence pairs over the rational numbers. -/
theorem C67_q_standard {D : FOracle QV T T F} {f : T → F} {M : T → (T →₀ ℚ)} {B : Basis T} {els : List T}
    (h : FiniteMatrix ℚ D B f M els) {rev : Bool} {fuel : ℕ → ℕ} {v : T → Option (List (QV × T))} {d : Diagram T}
    (hv : Ck.standardAlgoWithDiagram qOps D B fuel rev = some (v, d)) :
    standardAlgoWithDiagram D B fuel rev = some (v, d) ∧
    (∀ r c, (r, c) ∈ d.pairings ↔ IsPersistencePair (rowKey f) els M r c) ∧
    (∀ x, x ∈ d.essential ↔ IsDependent els M x ∧ ∃ p q, (if rev then els.reverse else els) = p ++ x :: q ∧
        ∀ c ∈ q, ¬ IsPersistencePair (rowKey f) els M x c) := by
  have hv' := Ck.standardAlgoWithDiagram_mono qOps_le D B fuel _ _ hv
  rw [Ck.standardAlgoWithDiagram_exact] at hv'
  exact ⟨hv', std_diagram h hv'⟩

/-- C67: the same for the clearing algorithm on a chain complex. -/
theorem C67_q_clearing {D : FOracle QV T T F} {f : T → F} {M : T → (T →₀ ℚ)} {B : SplitBasis T} {deg : T → ℤ} {ε : ℤ}
    {dims : List ℕ} {els : ℕ → List T} (hC : SplitComplex ℚ D B f M deg ε dims els) {fuel : ℕ} {rc : T → Option (RedCol QV T)} {dgm : Diagram T}
    (h : Ck.buildWithDiagram qOps D B fuel dims = some (rc, dgm)) {all : List T} (hnd : all.Nodup)
    (hall : ∀ d ∈ dims, all.filter (fun x => deg x = (d : ℤ)) = els d) (hdims : ∀ c ∈ all, ∃ d ∈ dims, deg c = (d : ℤ)) :
    buildWithDiagram D B fuel dims = some (rc, dgm) ∧
    (∀ r c, (r, c) ∈ dgm.pairings ↔ IsPersistencePair (rowKey f) all M r c) ∧
    (∀ x, x ∈ dgm.essential ↔ IsDependent all M x ∧ ∀ c, ¬ IsPersistencePair (rowKey f) all M x c) := by
  have h' := Ck.buildWithDiagram_mono qOps_le D B fuel _ _ h
  rw [Ck.buildWithDiagram_exact] at h'
  exact ⟨h', clearing_diagram hC h' hnd hall hdims⟩

/-- C67: columns. Over `Q`, products, consolidated columns, pivots, sorted columns and column comparisons computed without overflow are those of the exact computation. -/
theorem C67_q_columns {Col Row : Type} [LinearOrder Row] (A : Oracle QV T Row) (V : Oracle QV Col T) (M N : Oracle QV Col Row) (c : Col) (b : BHCol F Row QV) :
    (∀ l, Ck.prodColumn qOps A V c = some l → (product A V).column c = some l) ∧
    (∀ l, (Ck.consolidate qOps M).column c = some l → M.consolidate.column c = some l) ∧
    (∀ t, Ck.eqOnCol qOps M N c = some t → M.eqOnCol N c = some t) ∧
    (∀ p, Ck.popPivot qOps b = some p → BHCol.popPivot b = p) ∧
    (∀ l, Ck.toSortedVec qOps b = some l → BHCol.toSortedVec b = some l) := by
  refine ⟨?_, ?_, ?_, ?_, ?_⟩
  · intro l h
    have := Ck.prodColumn_mono qOps_le A (OLE.refl V.column) _ _ h
    rwa [Ck.prodColumn_exact] at this
  · intro l h
    have := Ck.consolidate_mono qOps_le M _ _ h
    rwa [Ck.consolidate_exact] at this
  · intro l h
    have := Ck.eqOnCol_mono qOps_le M N _ _ h
    rwa [Ck.eqOnCol_exact] at this
  · intro p h
    have := Ck.popPivot_mono qOps_le _ _ h
    rw [Ck.popPivot_exact] at this
    exact Option.some.inj this
  · intro p h
    have := Ck.toSortedVec_mono qOps_le _ _ h
    rwa [Ck.toSortedVec_exact] at this

/-- C67: the stored reduction matrix as an oracle, and `col_is_cycle`, over `Q`. -/
theorem C67_q_crm (D : FOracle QV T T F) (rc : T → Option (RedCol QV T)) (n : ℕ) (c : T) :
    (∀ l, Ck.crmColumn qOps D.toOracle rc n c = some l → crmColumn D.toOracle rc n c = some l) ∧
    (∀ t, Ck.colIsCycle qOps D rc n c = some t → colIsCycle D rc n c = some t) := by
  constructor
  · intro l h
    have := Ck.crmColumn_mono qOps_le D.toOracle rc n _ _ h
    rwa [Ck.crmColumn_exact] at this
  · intro l h
    have := Ck.colIsCycle_mono qOps_le D rc n _ _ h
    rwa [Ck.colIsCycle_exact] at this

end

namespace CheckedExample
attribute [local instance] listHeap
/-- The coefficient `n/d`. -/
abbrev qv (n : ℤ) (d : ℕ) (h : n ≠ 0 ∧ 0 < d ∧ n.natAbs.gcd d = 1 := by decide) : QV := ⟨⟨n, d⟩, h⟩

/-- The columns of a matrix over `Q` (rows 0, 1; columns 2, 3, 4): `(1/2, 3), (3, -5/6), (-3/2, 5/12)`; column 4 is reduced by column 3 to zero. -/
abbrev cols : List (List (QV × Nat)) := [[], [], [(qv 1 2, 0), (qv 3 1, 1)], [(qv 3 1, 0), (qv (-5) 6, 1)], [(qv (-3) 2, 0), (qv 5 12, 1)]]
abbrev D : FOracle QV Nat Nat Nat := (vecVecMatrix cols).withFunc fun i => some i

/-- No overflow: the hypotheses of `C67_q_standard` are met. -/
example : FiniteMatrix ℚ D (vecVecBasis cols) id (fun c => lcOf ℚ (cols.getD c [])) (List.range 5) ∧
    (Ck.standardAlgoWithDiagram qOps D (vecVecBasis cols) (fun _ => 9) false).map Prod.snd = some ⟨{4}, {(1, 2), (0, 3)}⟩ :=
  ⟨vecVec_finiteMatrix cols id, by decide +kernel⟩

/-- With the large coefficients `2^40`, `1/2^40` the reduction overflows, although the exact computation is fine: in a debug build the program panics. -/
abbrev big : List (List (QV × Nat)) :=
  [[], [], [(qv 1 1, 0), (qv 1 1099511627776, 1)], [(qv 1 1, 0), (qv 1099511627776 1, 1)]]
abbrev D' : FOracle QV Nat Nat Nat := (vecVecMatrix big).withFunc fun i => some i
example : (standardAlgoWithDiagram D' (vecVecBasis big) (fun _ => 9) false).map Prod.snd = some ⟨∅, {(1, 2), (0, 3)}⟩ ∧
    (Ck.standardAlgoWithDiagram qOps D' (vecVecBasis big) (fun _ => 9) false).map Prod.snd = none := by decide +kernel

/-- Over Z3 the hypotheses of `C67_zp_standard` are met by the filled triangle. -/
example : FiniteMatrix (ZMod 3) Example.D (vecVecBasis Example.cols) Example.fv (fun c => lcOf (ZMod 3) (Example.cols.getD c [])) (List.range 7) ∧
    (Ck.standardAlgoWithDiagram (zpOps 3) Example.D (vecVecBasis Example.cols) (fun _ => 9) false).map Prod.snd = some ⟨{0}, {(1, 3), (2, 4), (5, 6)}⟩ :=
  ⟨vecVec_finiteMatrix Example.cols Example.fv, by decide +kernel⟩
end CheckedExample
end Phlite
