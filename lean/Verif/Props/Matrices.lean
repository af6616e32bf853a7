/-
Property theorems C07-C10, C13-C15, C32 (core part), C40 (matrices, adaptors, bases).
-/
import Verif.Spec.Reduction
import Verif.Proofs.Matrices
import Verif.Proofs.ListHeap
import Verif.Proofs.Fields

set_option linter.unusedSectionVars false
set_option linter.unusedVariables false

namespace Phlite
open Finsupp

variable {CF Col Row Mid Mid' F K : Type} [NonZeroCoeff CF] [Field K] [LawfulCoeff CF K]

/-! ### C07 -/
section
variable [LinearOrder Row] [StdHeap] [DecidableEq CF]

theorem toTuple_inj : Function.Injective (Entry.toTuple : Entry F Row CF → _) := by
  intro a b h; cases a; cases b; simp [Entry.toTuple] at h; simp [h]

/-- C07: if both columns can be requested, `eq_on_col` returns true exactly when they are the same vector; it panics exactly
when one of the columns panics. -/
theorem C07_eq_on_col (a b : Oracle CF Col Row) (c : Col) :
    (∀ v w : Row →₀ K, HasCol K a c v → HasCol K b c w → ∃ r, a.eqOnCol b c = some r ∧ (r = true ↔ v = w)) ∧
    (a.eqOnCol b c = none ↔ a.column c = none ∨ b.column c = none) := by
  have main : ∀ la lb, a.column c = some la → b.column c = some lb →
      ∃ r, a.eqOnCol b c = some r ∧ (r = true ↔ lcOf K la = lcOf K lb) := by
    intro la lb ha hb
    obtain ⟨hca, hva⟩ := trivial_build_spec (K := K) la
    obtain ⟨hcb, hvb⟩ := trivial_build_spec (K := K) lb
    obtain ⟨ea, h1, h2⟩ := BHCol.toSortedVec_spec (K := K) _ _ hca
    obtain ⟨eb, h3, h4⟩ := BHCol.toSortedVec_spec (K := K) _ _ hcb
    rw [hva] at h2; rw [hvb] at h4
    refine ⟨decide (ea.map Entry.toTuple = eb.map Entry.toTuple), ?_, ?_⟩
    · simp [Oracle.eqOnCol, FOracle.buildBhcol, withTrivial_colF, ha, hb, h1, h3]
    · rw [decide_eq_true_iff, (List.map_injective_iff.2 toTuple_inj).eq_iff]
      constructor
      · intro h; subst h; exact h2.vec_eq h4
      · intro h; rw [h] at h2; exact h2.unique h4
  refine ⟨?_, ?_⟩
  · rintro v w ⟨la, ha, rfl⟩ ⟨lb, hb, rfl⟩
    exact main la lb ha hb
  · constructor
    · intro h
      cases ha : a.column c with
      | none => exact Or.inl rfl
      | some la =>
        cases hb : b.column c with
        | none => exact Or.inr rfl
        | some lb =>
          obtain ⟨r, hr, _⟩ := main la lb ha hb
          rw [h] at hr; cases hr
    · rintro (h | h)
      · simp [Oracle.eqOnCol, FOracle.buildBhcol, withTrivial_colF, h]
      · cases ha : a.column c <;> simp [Oracle.eqOnCol, FOracle.buildBhcol, withTrivial_colF, ha, h]

/-- Two different lists for the same column `row 0 + row 1` over `Z3`, one with repetition and cancellation. -/
example : letI := listHeap
    let o : ZP 3 := ⟨1, by decide⟩
    let t : ZP 3 := ⟨2, by decide⟩
    let a : Oracle (ZP 3) Nat Nat := vecVecMatrix [[(o, 0), (o, 1)]]
    let b : Oracle (ZP 3) Nat Nat := vecVecMatrix [[(t, 1), (o, 7), (o, 0), (t, 7), (t, 1)]]
    let c : Oracle (ZP 3) Nat Nat := vecVecMatrix [[(t, 1), (o, 0)]]
    a.eqOnCol b 0 = some true ∧ a.eqOnCol c 0 = some false ∧ a.eqOnCol b 1 = none := by decide +kernel
end

/-! ### C08 -/

theorem lcOf_flatMap {α : Type} (g : α → List (CF × Row)) (l : List α) :
    lcOf K (l.flatMap g) = (l.map fun a => lcOf K (g a)).sum := by
  induction l with
  | nil => simp
  | cons x l ih => simp [ih]

/-- C08: column `c` of `product(a, b)` is `Σ_m b(m,c) · (column m of a)`, i.e. the matrix `A` applied to `b`'s column,
whenever `A m` is the vector of column `m` of `a` for every row `m` that `b`'s column lists. -/
theorem C08_product (a : Oracle CF Mid Row) (b : Oracle CF Col Mid) (c : Col) (A : Mid → (Row →₀ K)) (l : List (CF × Mid))
    (hb : b.column c = some l) (ha : ∀ t ∈ l, HasCol K a t.2 (A t.2)) :
    HasCol K (product a b) c (Finsupp.linearCombination K A (lcOf K l)) := by
  induction l generalizing b with
  | nil => exact ⟨[], by simp [product, prodColumn, hb, flatMapOpt], by simp⟩
  | cons x l ih =>
    obtain ⟨l', h1, h2⟩ := ih ⟨fun _ => some l⟩ rfl (fun t ht => ha t (List.mem_cons_of_mem _ ht))
    obtain ⟨m, h3, h4⟩ := ha x List.mem_cons_self
    refine ⟨(m.map fun u => (NonZeroCoeff.mul u.1 x.1, u.2)) ++ l', ?_, ?_⟩
    · simp only [product, prodColumn, Option.bind_some] at h1
      simp only [product, prodColumn, hb, Option.bind_some, flatMapOpt, h3, Option.map_some, h1]
    · rw [lcOf_append, lcOf_scale, h4, h2, lcOf_cons, map_add, Finsupp.linearCombination_single]

/-- C08: requesting a column of a product panics exactly when the right column or one of the needed left columns does. -/
theorem C08_product_panics (a : Oracle CF Mid Row) (b : Oracle CF Col Mid) (c : Col) :
    (product a b).column c = none ↔
      b.column c = none ∨ ∃ l, b.column c = some l ∧ ∃ t ∈ l, a.column t.2 = none := by
  simp only [product, prodColumn]
  cases h : b.column c with
  | none => simp
  | some l => simp [flatMapOpt_eq_none]

/-- C08: `product` is associative (the very same entry lists, panics included). -/
theorem C08_assoc (K : Type) [Field K] [LawfulCoeff CF K] (a : Oracle CF Mid' Row) (b : Oracle CF Mid Mid')
    (d : Oracle CF Col Mid) : product (product a b) d = product a (product b d) := by
  unfold product
  congr 1
  funext c
  simp only [prodColumn]
  cases d.column c with
  | none => rfl
  | some l =>
    simp only [Option.bind_some]
    rw [flatMapOpt_bind_flatMapOpt]
    apply flatMapOpt_congr
    rintro ⟨k, m⟩ -
    simp only
    cases b.column m with
    | none => rfl
    | some l2 =>
      simp only [Option.bind_some, Option.map_some]
      rw [flatMapOpt_map_out, flatMapOpt_map]
      apply flatMapOpt_congr
      rintro ⟨k2, m2⟩ -
      simp only
      cases a.column m2 with
      | none => rfl
      | some l3 => simp [coeff_mul_assoc K]

/-- C08: product distributes over sums on the left factor (as vectors) and on the right factor (entry lists). -/
theorem C08_sum_compat (a a' : Oracle CF Mid Row) (b b' : Oracle CF Col Mid) (c : Col) :
    (∀ v w : Row →₀ K, HasCol K (product a b) c v → HasCol K (product a' b) c w →
      HasCol K (product (sumOracle a a') b) c (v + w)) ∧
    (product a (sumOracle b b')).column c = (sumOracle (product a b) (product a b')).column c := by
  refine ⟨?_, ?_⟩
  · rintro v w ⟨lv, h1, rfl⟩ ⟨lw, h2, rfl⟩
    simp only [HasCol, product, prodColumn] at *
    cases hb : b.column c with
    | none => rw [hb] at h1; simp at h1
    | some l =>
      rw [hb] at h1 h2
      simp only [Option.bind_some] at *
      clear hb
      induction l generalizing lv lw with
      | nil =>
        simp only [flatMapOpt, Option.some.injEq] at h1 h2
        subst h1; subst h2; exact ⟨[], rfl, by simp⟩
      | cons x l ih =>
        simp only [flatMapOpt] at h1 h2 ⊢
        cases ha : a.column x.2 with
        | none => rw [ha] at h1; simp at h1
        | some la =>
          cases ha' : a'.column x.2 with
          | none => rw [ha'] at h2; simp at h2
          | some la' =>
            rw [ha] at h1; rw [ha'] at h2
            simp only [Option.map_some, Option.bind_some, Option.map_eq_some_iff] at h1 h2
            obtain ⟨p, hp, rfl⟩ := h1
            obtain ⟨q, hq, rfl⟩ := h2
            obtain ⟨r, hr, hrv⟩ := ih p q hq hp
            refine ⟨((la ++ la').map fun u => (NonZeroCoeff.mul u.1 x.1, u.2)) ++ r, ?_, ?_⟩
            · simp only [sumOracle] at hr ⊢
              simp only [ha, ha', Option.map_some, Option.bind_some, hr]
            · rw [lcOf_append, hrv, List.map_append, lcOf_append, lcOf_append, lcOf_append]
              abel
  · simp only [product, prodColumn, sumOracle]
    cases b.column c with
    | none => simp
    | some l =>
      cases b'.column c with
      | none =>
        simp only [Option.bind_some, Option.map_none, Option.bind_none]
        generalize flatMapOpt _ l = z
        cases z <;> rfl
      | some l' =>
        simp only [Option.bind_some, Option.map_some, flatMapOpt_append]

/-- `column_with_filtration` lists the entries of `column`, in order, each with the filtration value of its row (and panics
exactly when `column` or one of these filtration values does). -/
def Enriches (M : FOracle CF Col Row F) : Prop :=
  ∀ c, M.colF c = (M.column c).bind (mapOpt fun t => (M.filt t.2).map fun v => ⟨v, t.2, t.1⟩)

/-- C08/C32: the product's `column_with_filtration` is its column enriched by the left factor's filtration. -/
theorem C08_product_filtration (a : FOracle CF Mid Row F) (b : Oracle CF Col Mid) (ha : Enriches a) :
    Enriches (productF a b) ∧ (productF a b).toOracle = product a.toOracle b ∧ (productF a b).filt = a.filt := by
  refine ⟨?_, rfl, rfl⟩
  intro c
  simp only [productF, prodColumn]
  cases b.column c with
  | none => rfl
  | some l =>
    simp only [Option.bind_some]
    rw [flatMapOpt_bind_mapOpt]
    apply flatMapOpt_congr
    rintro ⟨k, m⟩ -
    simp only [ha m]
    cases a.column m with
    | none => rfl
    | some l2 =>
      simp only [Option.bind_some, Option.map_some, mapOpt_map]
      induction l2 with
      | nil => rfl
      | cons x l2 ih =>
        simp only [mapOpt]
        rw [← ih]
        cases a.filt x.2 with
        | none => rfl
        | some v =>
          simp only [Option.map_some, Option.bind_some]
          cases mapOpt (fun t => Option.map (fun v => (⟨v, t.2, t.1⟩ : Entry F Row CF)) (a.filt t.2)) l2 <;> rfl

example : let a : Oracle Z2 Nat Nat := vecVecMatrix [[(.one, 3)], [(.one, 3), (.one, 4)]]
    let b : Oracle Z2 Nat Nat := vecVecMatrix [[(.one, 0), (.one, 1)]]
    (product a b).column 0 = some [(.one, 3), (.one, 3), (.one, 4)] ∧ (product a b).column 1 = none ∧
    (product b a).column 1 = none := by decide

/-! ### C09 -/

/-- C09: column `c` of `sum(a, b)` is the sum of the two columns; it panics exactly when one of them does. -/
theorem C09_sum (a b : Oracle CF Col Row) (c : Col) :
    (∀ v w : Row →₀ K, HasCol K a c v → HasCol K b c w → HasCol K (sumOracle a b) c (v + w)) ∧
    ((sumOracle a b).column c = none ↔ a.column c = none ∨ b.column c = none) := by
  refine ⟨?_, ?_⟩
  · rintro v w ⟨la, ha, rfl⟩ ⟨lb, hb, rfl⟩
    exact ⟨la ++ lb, by simp [sumOracle, ha, hb], by simp⟩
  · cases ha : a.column c <;> cases hb : b.column c <;> simp [sumOracle, ha, hb]

/-! ### C10 -/
section
variable [LinearOrder Row] [StdHeap]

theorem consolidate_spec (M : Oracle CF Col Row) (c : Col) (l : List (CF × Row)) (h : M.column c = some l) :
    ∃ es : List (Entry Unit Row CF), M.consolidateColumn c = some (es.map fun e => (e.coeff, e.row)) ∧
      BHCol.IsCanonical (K := K) (fun _ => ()) (lcOf K l) es := by
  obtain ⟨hc, hv⟩ := trivial_build_spec (K := K) l
  obtain ⟨es, h1, h2⟩ := BHCol.toSortedVec_spec (K := K) _ _ hc
  rw [hv] at h2
  refine ⟨es, ?_, h2⟩
  simp [Oracle.consolidateColumn, FOracle.buildBhcol, withTrivial_colF, h, h1]

theorem consolidate_sparse (M : Oracle CF Col Row) (c : Col) (v : Row →₀ K) (h : HasCol K M c v) :
    ∃ l, M.consolidate.column c = some l ∧ IsSparseList v l := by
  obtain ⟨l0, h0, rfl⟩ := h
  obtain ⟨es, h1, h2⟩ := consolidate_spec (K := K) M c l0 h0
  exact ⟨_, h1, h2.sparse⟩

/-- C10: a consolidated column is the same vector; it lists exactly the rows with non-zero coefficient, in strictly decreasing
row order (so each row at most once); consolidating again changes nothing; panics are unchanged. -/
theorem C10_consolidate (M : Oracle CF Col Row) (c : Col) :
    (∀ v : Row →₀ K, HasCol K M c v →
      ∃ l, M.consolidate.column c = some l ∧ lcOf K l = v ∧ l.Pairwise (fun s t => t.2 < s.2) ∧
        ∀ t : CF × Row, t ∈ l ↔ v t.2 ≠ 0 ∧ LawfulCoeff.val t.1 = v t.2) ∧
    M.consolidate.consolidate.column c = M.consolidate.column c ∧
    (M.consolidate.column c = none ↔ M.column c = none) := by
  refine ⟨?_, ?_, ?_⟩
  · intro v h
    obtain ⟨l, h1, h2⟩ := consolidate_sparse M c v h
    exact ⟨l, h1, h2.lcOf_eq, h2.1, h2.2⟩
  · cases h : M.column c with
    | none =>
      have : M.consolidate.column c = none := by
        simp [Oracle.consolidate, Oracle.consolidateColumn, FOracle.buildBhcol, withTrivial_colF, h]
      rw [this]
      simp [Oracle.consolidate, Oracle.consolidateColumn, FOracle.buildBhcol, withTrivial_colF, h]
    | some l0 =>
      obtain ⟨es, h1, h2⟩ := consolidate_spec (K := K) M c l0 h
      obtain ⟨l, h3, h4⟩ := consolidate_sparse (K := K) M c _ ⟨l0, h, rfl⟩
      obtain ⟨es', h5, h6⟩ := consolidate_spec (K := K) M.consolidate c l h3
      rw [h4.lcOf_eq] at h6
      have := h6.unique h2
      change M.consolidate.consolidateColumn c = M.consolidateColumn c
      rw [h5, h1, this]
  · constructor
    · intro h
      cases h' : M.column c with
      | none => rfl
      | some l =>
        obtain ⟨es, h1, _⟩ := consolidate_spec (K := K) M c l h'
        change M.consolidateColumn c = none at h
        rw [h1] at h; cases h
    · intro h
      simp [Oracle.consolidate, Oracle.consolidateColumn, FOracle.buildBhcol, withTrivial_colF, h]

example : letI := listHeap
    let o : ZP 3 := ⟨1, by decide⟩
    let t : ZP 3 := ⟨2, by decide⟩
    (vecVecMatrix [[(t, 1), (o, 7), (o, 0), (t, 7), (t, 1)]]).consolidate.column 0 = some [(o, 1), (o, 0)] := by
  decide +kernel
end

/-! ### C13 -/

/-- C13: `unreverse` of `reverse` is the original matrix: same columns, filtration values and enriched columns. -/
theorem C13_unreverse_reverse (M : FOracle CF Col Row F) : M.reverse.unreverse = M := by
  unfold FOracle.reverse FOracle.unreverse
  simp [Function.comp_def]

/-- C13: and conversely. -/
theorem C13_reverse_unreverse (M : FOracle CF Colᵒᵈ Rowᵒᵈ Fᵒᵈ) : M.unreverse.reverse = M := by
  unfold FOracle.reverse FOracle.unreverse
  simp [Function.comp_def]

/-- C13: a reversed matrix has the same coefficients at the reversed rows and the reversed filtration values. -/
theorem C13_reverse_column (M : FOracle CF Col Row F) (c : Col) (v : Row →₀ K) (h : HasCol K M.toOracle c v) :
    ∃ w : Rowᵒᵈ →₀ K, HasCol K M.reverse.toOracle (OrderDual.toDual c) w ∧
      (∀ r, w (OrderDual.toDual r) = v r) ∧
      ∀ r, M.reverse.filt (OrderDual.toDual r) = (M.filt r).map OrderDual.toDual := by
  obtain ⟨l, h1, rfl⟩ := h
  refine ⟨lcOf K (l.map fun t => (t.1, OrderDual.toDual t.2)), ⟨l.map fun t => (t.1, OrderDual.toDual t.2), by
    simp only [FOracle.reverse, OrderDual.ofDual_toDual, h1, Option.map_some], rfl⟩, ?_, ?_⟩
  · intro r; exact lcOf_map_inj (K := K) OrderDual.toDual OrderDual.toDual.injective l r
  · intro r; rfl

/-- C13: the order of rows is exactly opposite: the pivot in the reversed order is the *smallest* row in the original one. -/
theorem C13_reverse_order [LinearOrder F] [LinearOrder Row] (f : Row → F) (v : Row →₀ K) (w : Rowᵒᵈ →₀ K)
    (hw : ∀ r, w (OrderDual.toDual r) = v r) (r : Row) :
    IsPivot (fun x : Rowᵒᵈ => OrderDual.toDual (f (OrderDual.ofDual x))) w (OrderDual.toDual r) ↔
      v r ≠ 0 ∧ ∀ r', v r' ≠ 0 → toLex (f r, r) ≤ toLex (f r', r') := by
  unfold IsPivot
  rw [hw]
  refine and_congr_right fun _ => ?_
  constructor
  · intro h r' hr'
    have := h (OrderDual.toDual r') (by rwa [hw])
    simp only [rowKey, Prod.Lex.toLex_le_toLex, OrderDual.toDual_lt_toDual, OrderDual.toDual_le_toDual,
      OrderDual.ofDual_toDual, EmbeddingLike.apply_eq_iff_eq] at this ⊢
    rcases this with h | ⟨h, h'⟩
    · exact Or.inl h
    · exact Or.inr ⟨h.symm, h'⟩
  · intro h r' hr'
    have := h (OrderDual.ofDual r') (by rw [← hw]; exact hr')
    simp only [rowKey, Prod.Lex.toLex_le_toLex, OrderDual.ofDual_toDual] at this ⊢
    rcases this with h | ⟨h, h'⟩
    · exact Or.inl h
    · refine Or.inr ⟨by rw [h], h'⟩

/-! ### C14 -/

/-- C14: element `i` of a reversed basis of size `n` is the reversed element `n-1-i`; an index `≥ n` panics; `size` is kept;
the sub-basis in a dimension is the reversed sub-basis; reversing twice (unreverse) gives the original. -/
theorem C14_reverse_element {E : Type} (B : SplitBasis E) :
    B.reverse.size = B.size ∧
    (∀ i < B.size, B.reverse.element i = (B.element (B.size - 1 - i)).map OrderDual.toDual) ∧
    (∀ i, B.size ≤ i → B.reverse.element i = none) ∧
    (∀ d, B.reverse.inDim d = (B.inDim d).map Basis.reverse) ∧
    (∀ i < B.size, B.reverse.unreverse.element i = B.element i) := by
  refine ⟨rfl, ?_, ?_, fun _ => rfl, ?_⟩
  · intro i hi; exact if_pos hi
  · intro i hi; exact if_neg (by omega)
  · intro i hi
    have h1 : B.size - 1 - i < B.size := by omega
    have h2 : B.size - 1 - (B.size - 1 - i) = i := by omega
    simp only [SplitBasis.unreverse, Basis.unreverse, SplitBasis.reverse, Basis.reverse, if_pos hi, if_pos h1, h2]
    cases B.element i <;> rfl

/-- C14: the same for an unreversed basis: element `i` of size `n` is the element `n-1-i` without its wrapper, and so on in each dimension; so unreversing the
reversed basis gives in each dimension (which panics if the original does) the original elements. -/
theorem C14_unreverse_element {E : Type} (B : SplitBasis Eᵒᵈ) :
    B.unreverse.size = B.size ∧
    (∀ i < B.size, B.unreverse.element i = (B.element (B.size - 1 - i)).map OrderDual.ofDual) ∧
    (∀ i, B.size ≤ i → B.unreverse.element i = none) ∧
    (∀ d, (B.unreverse.inDim d = none ↔ B.inDim d = none) ∧ ∀ Bd, B.inDim d = some Bd → ∃ Bd', B.unreverse.inDim d = some Bd' ∧ Bd'.size = Bd.size ∧
      (∀ i < Bd.size, Bd'.element i = (Bd.element (Bd.size - 1 - i)).map OrderDual.ofDual) ∧ ∀ i, Bd.size ≤ i → Bd'.element i = none) :=
  ⟨rfl, fun _ hi => if_pos hi, fun i hi => if_neg (by omega), fun d => ⟨Option.map_eq_none_iff, fun Bd hB =>
    ⟨Bd.unreverse, by simp [SplitBasis.unreverse, hB], rfl, fun _ hi => if_pos hi, fun i hi => if_neg (by omega)⟩⟩⟩

/-- C14: unreversing a reversed basis gives the original elements in each dimension. -/
theorem C14_round_trip {E : Type} (B : SplitBasis E) (d : ℕ) :
    (B.reverse.unreverse.inDim d = none ↔ B.inDim d = none) ∧
    ∀ Bd, B.inDim d = some Bd → ∃ Bd', B.reverse.unreverse.inDim d = some Bd' ∧ Bd'.size = Bd.size ∧ ∀ i < Bd.size, Bd'.element i = Bd.element i := by
  refine ⟨by simp [SplitBasis.unreverse, SplitBasis.reverse], fun Bd hB => ⟨Bd.reverse.unreverse, by simp [SplitBasis.unreverse, SplitBasis.reverse, hB], rfl, fun i hi => ?_⟩⟩
  have h1 : Bd.size - 1 - i < Bd.size := by omega
  have h2 : Bd.size - 1 - (Bd.size - 1 - i) = i := by omega
  simp only [Basis.unreverse, Basis.reverse, if_pos hi, if_pos h1, h2]
  cases Bd.element i <;> rfl

/-- C14: the reversed basis lists the elements backwards. -/
theorem C14_reverse_elems {E : Type} (B : Basis E) (l : List E) (h : B.elems = some l) :
    B.reverse.elems = some (l.reverse.map OrderDual.toDual) := by
  have hf := mapOpt_eq_some.1 h
  have hlen : l.length = B.size := by have := hf.length_eq; simpa using this.symm
  have hget : ∀ i (hi : i < l.length), B.element i = some l[i] := by
    intro i hi
    have := (List.forall₂_iff_get.1 hf).2 i (by simpa [hlen] using hi) hi
    simpa using this
  apply mapOpt_eq_some.2
  rw [List.forall₂_iff_get]
  refine ⟨by simp [Basis.reverse, hlen], ?_⟩
  intro i h1 h2
  have hi : i < B.size := by simpa [Basis.reverse] using h1
  simp only [List.get_eq_getElem, List.getElem_range, List.getElem_map, List.getElem_reverse]
  simp only [Basis.reverse, if_pos hi]
  rw [hget (B.size - 1 - i) (by omega)]
  simp [hlen]

/-- C14: the reversed basis is strictly sorted iff the original one is. -/
theorem C14_reverse_sorted {E : Type} [LinearOrder E] (l : List E) :
    (l.reverse.map OrderDual.toDual).Pairwise (· < ·) ↔ l.Pairwise (· < ·) := by
  rw [List.pairwise_map, List.pairwise_reverse]
  simp only [OrderDual.toDual_lt_toDual]

example : (vecBasis [10, 20, 30]).reverse.elems = some [OrderDual.toDual 30, OrderDual.toDual 20, OrderDual.toDual 10] ∧
    (vecBasis [10, 20, 30]).reverse.element 3 = none := by decide

/-! ### C15 -/

theorem lookupFrom_spec {E : Type} [DecidableEq E] (B : Basis E) (is : List Nat) (m : E → Option Nat)
    (h : ∀ i ∈ is, (B.element i).isSome) :
    ∃ m', lookupFrom B is m = some m' ∧ ∀ e, m' e = ((is.reverse.find? fun i => B.element i = some e).or (m e)) := by
  induction is generalizing m with
  | nil => exact ⟨m, rfl, by intro e; simp⟩
  | cons i is ih =>
    obtain ⟨x, hx⟩ := Option.isSome_iff_exists.1 (h i List.mem_cons_self)
    obtain ⟨m', h1, h2⟩ := ih (mapInsert m x i) (fun j hj => h j (List.mem_cons_of_mem _ hj))
    refine ⟨m', by simp [lookupFrom, hx, h1], ?_⟩
    intro e
    rw [h2, List.reverse_cons, List.find?_append]
    cases List.find? (fun i => decide (B.element i = some e)) is.reverse with
    | some j => simp
    | none =>
      simp only [Option.none_or, List.find?_cons, List.find?_nil, mapInsert, hx, Option.some.injEq]
      by_cases hxe : e = x
      · subst hxe; simp
      · have : ¬ x = e := fun h => hxe h.symm
        simp [hxe, this]

/-- C15: the lookup maps an element to its **last** position in the basis, and contains exactly the basis elements. -/
theorem C15_reverse_lookup {E : Type} [DecidableEq E] (B : Basis E) (hB : ∀ i < B.size, (B.element i).isSome) :
    ∃ m, B.reverseLookup = some m ∧ ∀ e i, m e = some i ↔
      (i < B.size ∧ B.element i = some e ∧ ∀ j, i < j → j < B.size → B.element j ≠ some e) := by
  obtain ⟨m, h1, h2⟩ := lookupFrom_spec B (List.range B.size) (fun _ => none) (by simpa using hB)
  refine ⟨m, h1, ?_⟩
  intro e i
  rw [h2, Option.or_none]
  generalize B.size = n
  clear h1 h2 hB
  induction n with
  | zero => simp
  | succ n ih =>
    rw [List.range_succ, List.reverse_append, List.reverse_singleton, List.singleton_append, List.find?_cons]
    by_cases hn : B.element n = some e
    · simp only [hn, decide_true, Option.some.injEq]
      constructor
      · rintro rfl; exact ⟨by omega, hn, fun j h1 h2 => by omega⟩
      · rintro ⟨h1, h2, h3⟩
        by_contra hne
        exact h3 n (by omega) (by omega) hn
    · simp only [hn, decide_false, ih]
      constructor
      · rintro ⟨h1, h2, h3⟩
        refine ⟨by omega, h2, fun j hj1 hj2 => ?_⟩
        rcases Nat.lt_succ_iff_lt_or_eq.1 hj2 with h | rfl
        · exact h3 j hj1 h
        · exact hn
      · rintro ⟨h1, h2, h3⟩
        refine ⟨?_, h2, fun j hj1 hj2 => h3 j hj1 (by omega)⟩
        rcases Nat.lt_succ_iff_lt_or_eq.1 h1 with h | rfl
        · exact h
        · exact absurd h2 hn

/-- C15: for a basis without repetitions the lookup is the inverse of `element`. -/
theorem C15_reverse_lookup_nodup {E : Type} [DecidableEq E] (B : Basis E) (hB : ∀ i < B.size, (B.element i).isSome)
    (hn : ∀ i j e, i < B.size → j < B.size → B.element i = some e → B.element j = some e → i = j) :
    ∃ m, B.reverseLookup = some m ∧ ∀ e i, m e = some i ↔ (i < B.size ∧ B.element i = some e) := by
  obtain ⟨m, h1, h2⟩ := C15_reverse_lookup B hB
  refine ⟨m, h1, fun e i => ?_⟩
  rw [h2]
  exact ⟨fun h => ⟨h.1, h.2.1⟩, fun h => ⟨h.1, h.2, fun j hj hj2 he => by
    have := hn i j e h.1 hj2 h.2 he; omega⟩⟩

example : ∃ m, (vecBasis [7, 9, 7]).reverseLookup = some m ∧ m 7 = some 2 ∧ m 9 = some 1 ∧ m 8 = none := by
  refine ⟨_, rfl, by decide, by decide, by decide⟩

/-! ### C32 (core library part) and C40 -/

/-- C32: every filtered oracle of the core library whose ingredients satisfy it lists, in `column_with_filtration`, the entries of
`column` in order with the filtration value of each row: references, `with_trivial_filtration`, `with_filtration`,
`with_basis`, `sub_matrix_in_dimension`, `using_col_basis_index`, `consolidate`, `reverse`, `unreverse`, `product`. -/
theorem C32_core [LinearOrder Row] [StdHeap] (M : Oracle CF Col Row) (N : FOracle CF Col Row F) (P : FOracle CF Colᵒᵈ Rowᵒᵈ Fᵒᵈ)
    (f : Row → Option F) (B : Basis Col) (d : Nat) (R : Oracle CF Mid Col) :
    Enriches M.withTrivial ∧ Enriches (M.withFunc f) ∧ Enriches N.ref ∧ Enriches N.withBasis ∧
    Enriches (N.subMatrix d) ∧ Enriches (N.usingColBasisIndex B) ∧ Enriches N.consolidate ∧
    (Enriches N → Enriches N.reverse) ∧ (Enriches P → Enriches P.unreverse) ∧ (Enriches N → Enriches (productF N R)) := by
  refine ⟨fun _ => rfl, fun _ => rfl, fun _ => rfl, fun _ => rfl, fun _ => rfl, fun _ => rfl, fun _ => rfl, ?_, ?_,
    fun h => (C08_product_filtration N R h).1⟩
  · intro h c
    simp only [FOracle.reverse]
    rw [h (OrderDual.ofDual c)]
    cases N.column (OrderDual.ofDual c) with
    | none => rfl
    | some l =>
      simp only [Option.bind_some, Option.map_some, mapOpt_map, OrderDual.ofDual_toDual]
      induction l with
      | nil => rfl
      | cons x l ih =>
        simp only [mapOpt]
        rw [← ih]
        cases N.filt x.2 with
        | none => rfl
        | some v =>
          cases mapOpt (fun t => Option.map (fun v => (⟨v, t.2, t.1⟩ : Entry F Row CF)) (N.filt t.2)) l <;> rfl
  · intro h c
    simp only [FOracle.unreverse]
    rw [h (OrderDual.toDual c)]
    cases P.column (OrderDual.toDual c) with
    | none => rfl
    | some l =>
      simp only [Option.bind_some, Option.map_some, mapOpt_map, OrderDual.toDual_ofDual]
      induction l with
      | nil => rfl
      | cons x l ih =>
        simp only [mapOpt]
        rw [← ih]
        cases P.filt x.2 with
        | none => rfl
        | some v =>
          cases mapOpt (fun t => Option.map (fun v => (⟨v, t.2, t.1⟩ : Entry Fᵒᵈ Rowᵒᵈ CF)) (P.filt t.2)) l <;> rfl

/-- C40: the adaptors do not alter columns and pass the filtration through; `using_col_basis_index` re-indexes through the
basis and panics for an index at which the basis has no element. -/
theorem C40_adaptors (M : Oracle CF Col Row) (N : FOracle CF Col Row F) (f : Row → Option F) (B : Basis Col) (d : Nat) :
    (M.withTrivial.column = M.column ∧ (M.withFunc f).column = M.column ∧ N.ref.column = N.column ∧
      N.withBasis.column = N.column ∧ (N.subMatrix d).column = N.column) ∧
    ((∀ r, M.withTrivial.filt r = some ()) ∧ (M.withFunc f).filt = f ∧ N.ref.filt = N.filt ∧ N.withBasis.filt = N.filt ∧
      (N.subMatrix d).filt = N.filt ∧ (N.usingColBasisIndex B).filt = N.filt) ∧
    (∀ i c, B.element i = some c → (N.usingColBasisIndex B).column i = N.column c) ∧
    (∀ i, B.element i = none → (N.usingColBasisIndex B).column i = none) ∧
    (∀ (l : List Col) i, l.length ≤ i → (N.usingColBasisIndex (vecBasis l)).column i = none) := by
  refine ⟨⟨rfl, rfl, rfl, rfl, rfl⟩, ⟨fun _ => rfl, rfl, rfl, rfl, rfl, rfl⟩, ?_, ?_, ?_⟩
  · intro i c h; simp [FOracle.usingColBasisIndex, Oracle.withFilt, h]
  · intro i h; simp [FOracle.usingColBasisIndex, Oracle.withFilt, h]
  · intro l i h
    have : (vecBasis l).element i = none := List.getElem?_eq_none h
    simp [FOracle.usingColBasisIndex, Oracle.withFilt, this]

end Phlite
