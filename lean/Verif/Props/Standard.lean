/-
Property theorems C16-C19: the standard algorithm.
-/
import Verif.Proofs.Mono
import Verif.Proofs.ListHeap
import Verif.Theory.Duality
import Verif.Proofs.Fields

set_option linter.unusedSectionVars false
set_option linter.unusedSimpArgs false

namespace Phlite
open Finsupp (single linearCombination linearCombination_single)

/-! ### A concrete input: the filled triangle with its faces, over Z3 -/
namespace Example
abbrev o : ZP 3 := ⟨1, by decide⟩
abbrev t : ZP 3 := ⟨2, by decide⟩
/-- Vertices 0, 1, 2, edges 3 = 01, 4 = 02, 5 = 12, triangle 6 = 012 with their boundaries over Z3. -/
abbrev cols : List (List (ZP 3 × Nat)) := [[], [], [], [(o, 1), (t, 0)], [(o, 2), (t, 0)], [(o, 2), (t, 1)], [(o, 5), (t, 4), (o, 3)]]
/-- Filtration values: 0 for vertices, then 1, 2, 3, 5. -/
abbrev fv : Nat → Nat := fun i => [0, 0, 0, 1, 2, 3, 5].getD i 0
abbrev D : FOracle (ZP 3) Nat Nat Nat := (vecVecMatrix cols).withFunc fun i => some (fv i)
end Example

section
variable {CF K F : Type} [NonZeroCoeff CF] [Field K] [LawfulCoeff CF K]

/-- Every `VecVecMatrix` with a filtration function and its own basis is a finite filtered matrix. -/
theorem vecVec_finiteMatrix (columns : List (List (CF × Nat))) (f : Nat → F) :
    FiniteMatrix K ((vecVecMatrix columns).withFunc fun i => some (f i)) (vecVecBasis columns) f
      (fun c => lcOf K (columns.getD c [])) (List.range columns.length) where
  basis := by
    have := mapOpt_some (id : Nat → Nat) (List.range columns.length)
    rw [List.map_id] at this
    exact this
  nodup := List.nodup_range
  reads c hc := by
    have hc : c < columns.length := by simpa using hc
    have hcol : columns[c]? = some columns[c] := by simp [hc]
    refine ⟨columns[c], hcol, ?_, fun _ _ => rfl, by simp [List.getD, hcol]⟩
    simp only [Oracle.withFunc, Oracle.withFilt, defaultColF, vecVecMatrix, hcol, Option.bind_some, Option.map_some]
    exact mapOpt_some _ _
end

section
variable [StdHeap] {CF T F K : Type} [NonZeroCoeff CF] [Field K] [LawfulCoeff CF K] [LinearOrder F] [LinearOrder T]
variable {D : FOracle CF T T F} {f : T → F} {M : T → (T →₀ K)} {B : Basis T} {els : List T}

theorem ref_restrict_le (h : FiniteMatrix K D B f M els) : DLE (D.ref.restrict els) (D.restrict els) := by
  refine ⟨fun c l hl => hl, fun c l hl => hl, ?_⟩
  intro c l hl
  simp only [FOracle.restrict] at hl ⊢
  split at hl
  · rename_i hc
    rw [if_pos hc]
    obtain ⟨l1, a1, a2, _, _⟩ := h.reads c hc
    obtain ⟨l2, b1, b2, _, _⟩ := (h.reads c hc).ref
    rw [b2] at hl
    have : l1 = l2 := by
      have : D.column c = some l2 := b1
      rw [a1] at this; exact Option.some.inj this
    rw [a2, this]; exact hl
  · cases hl

/-- Everything about a run, in one place. -/
theorem standard_run (h : FiniteMatrix K D B f M els) :
    ∃ s : StdState CF T, StdInv K f M els s ∧ ∀ fuel : Nat → Nat, (∀ i, i < B.size → i < fuel i) →
      standardAlgo (D.restrict els) B fuel = some s.v ∧ standardAlgo D B fuel = some s.v ∧
      ∀ rev, ∃ d, standardAlgoWithDiagram (D.restrict els) B fuel rev = some (s.v, d) ∧
        standardAlgoWithDiagram D B fuel rev = some (s.v, d) ∧ readOffDiagram D B s.v rev = some d := by
  have hr : ∀ c ∈ els, ReadsCol K (D.ref.restrict els) f M c := fun c hc => (h.reads c hc).ref.restrict hc
  obtain ⟨s, h1, h2⟩ := standardAlgo_spec (K := K) h.basis h.nodup hr (fun i => i + 1) (fun i _ => Nat.lt_succ_self i)
  refine ⟨s, h2, ?_⟩
  intro fuel hfuel
  have hle : ∀ i, i < B.size → i + 1 ≤ fuel i := fun i hi => hfuel i hi
  have g0 := standardAlgo_mono' (ref_restrict_le h) hle h1
  have g1 := standardAlgo_mono' (restrict_le D els) (fun i _ => Nat.le_refl (fuel i)) g0
  refine ⟨g0, g1, ?_⟩
  intro rev
  obtain ⟨d, d1, _, _⟩ := readOff_spec (K := K) h.basis hr h2 rev
  have d0 := readOff_mono (ref_restrict_le h) d1
  have d2 := readOff_mono (restrict_le D els) d0
  have e1 : standardAlgo (D.restrict els).ref B fuel = some s.v := by
    refine standardAlgo_mono' (D := D.ref.restrict els) (D' := (D.restrict els).ref) ⟨fun c l hl => hl, fun c l hl => hl, ?_⟩ hle h1
    intro c l hl
    simp only [FOracle.restrict] at hl
    split at hl
    · rename_i hc
      simpa [FOracle.restrict, FOracle.ref, Oracle.withFilt, defaultColF, hc] using hl
    · cases hl
  have e2 : standardAlgo D.ref B fuel = some s.v := standardAlgo_mono' (restrict_le D els).ref (fun i _ => Nat.le_refl (fuel i)) e1
  have f1 : readOffDiagram (D.restrict els).ref B s.v rev = some d := d0
  have f2 : readOffDiagram D.ref B s.v rev = some d := d2
  refine ⟨d, ?_, ?_, d2⟩
  · simp only [standardAlgoWithDiagram, e1, Option.bind_some, f1, Option.map_some]
  · simp only [standardAlgoWithDiagram, e2, Option.bind_some, f2, Option.map_some]

/-! ### C16 -/

/-- C16: on a finite matrix the standard algorithm and the reading of the diagram succeed with one and the same result, for every
fuel that allows `i` column additions (plus the final test) in the reduction of the `i`-th column; and they give this result even
on the matrix that panics on every column outside the basis, so no other column is requested. -/
theorem C16_standard_terminates (h : FiniteMatrix K D B f M els) (rev : Bool) :
    ∃ v d, ∀ fuel : Nat → Nat, (∀ i, i < B.size → i + 1 ≤ fuel i) →
      standardAlgo D B fuel = some v ∧ standardAlgo (D.restrict els) B fuel = some v ∧
      standardAlgoWithDiagram D B fuel rev = some (v, d) ∧ standardAlgoWithDiagram (D.restrict els) B fuel rev = some (v, d) := by
  obtain ⟨s, _, h2⟩ := standard_run h
  obtain ⟨d, d1, d2, _⟩ := (h2 (fun i => i + 1) fun i _ => Nat.lt_succ_self i).2.2 rev
  refine ⟨s.v, d, ?_⟩
  intro fuel hfuel
  obtain ⟨a, b, _⟩ := h2 fuel hfuel
  exact ⟨b, a, standardAlgoWithDiagram_mono (DLE.refl _) hfuel d2, standardAlgoWithDiagram_mono (DLE.refl _) hfuel d1⟩

/-! ### C17 -/

theorem std_unique (h : FiniteMatrix K D B f M els) {fuel : Nat → Nat} {v : T → Option (List (CF × T))}
    (hv : standardAlgo D B fuel = some v) : ∃ s : StdState CF T, s.v = v ∧ StdInv K f M els s := by
  obtain ⟨s, h1, h2⟩ := standard_run h
  have a := (h2 (fun i => max (fuel i) (i + 1)) fun i _ => by simp).2.1
  have b := standardAlgo_mono' (DLE.refl D) (fuel' := fun i => max (fuel i) (i + 1)) (fun i _ => le_max_left _ _) hv
  rw [a] at b
  exact ⟨s, Option.some.inj b, h1⟩

/-- C17: the returned `v` has a column exactly for each basis element. As a matrix `V` it is stored as strictly descending lists of
non-zero coefficients, has ones on the diagonal and other entries only in earlier basis elements; the columns of `product(D, v)` are
the columns of `R = D V`, and distinct columns of `R` have distinct pivots. If `D` is graded then `V` only combines elements of equal
degree, even if the basis mixes the degrees. -/
theorem C17_standard_rdv (h : FiniteMatrix K D B f M els) {fuel : Nat → Nat} {v : T → Option (List (CF × T))}
    (hv : standardAlgo D B fuel = some v) :
    (∀ c, (v c).isSome ↔ c ∈ els) ∧
    ∃ V : T → (T →₀ K),
      (∀ c ∈ els, ∃ l, v c = some l ∧ IsSparseList (V c) l) ∧
      (∀ c ∈ els, V c c = 1) ∧
      (∀ pre c post, els = pre ++ c :: post → ∀ d, V c d ≠ 0 → d = c ∨ d ∈ pre) ∧
      (∀ c ∈ els, HasCol K (product D.toOracle (mapVecMatrix v)) c (linearCombination K M (V c))) ∧
      (∀ c ∈ els, ∀ c' ∈ els, ∀ r, IsPivot f (linearCombination K M (V c)) r → IsPivot f (linearCombination K M (V c')) r → c = c') ∧
      (∀ (deg : T → ℤ) (ε : ℤ), (∀ c ∈ els, ∀ r, M c r ≠ 0 → deg r = deg c + ε) → ∀ c ∈ els, ∀ d, V c d ≠ 0 → deg d = deg c) := by
  obtain ⟨s, rfl, hs⟩ := std_unique h hv
  refine ⟨hs.dom, Wof K s.v, ?_, hs.diag, hs.dec.tri, ?_, hs.dec.reduced, hs.homog⟩
  · intro c hc
    obtain ⟨l, hl⟩ := Option.isSome_iff_exists.1 ((hs.dom c).2 hc)
    have := hs.sparse c l hl
    refine ⟨l, hl, ?_⟩
    rw [Wof, hl]; exact this
  · intro c hc
    obtain ⟨l, hl⟩ := Option.isSome_iff_exists.1 ((hs.dom c).2 hc)
    have hlW : lcOf K l = Wof K s.v c := by rw [Wof, hl]; rfl
    obtain ⟨l', p1, p2, _⟩ := prod_col (K := K) (D := D) (f := f) (M := M) (V := mapVecMatrix s.v) hl (fun t ht => by
      have h0 := (hs.sparse c l hl).mem_ne ht
      rw [hlW] at h0
      exact h.reads t.2 (hs.dec.mem_of_ne hc h0))
    exact ⟨l', p1, by rw [p2, hlW]⟩

/-- The hypotheses of C16-C18 hold for the filled triangle over Z3, and the algorithm reduces the edge 12 with two additions... -/
example : FiniteMatrix (ZMod 3) Example.D (vecVecBasis Example.cols) Example.fv
    (fun c => lcOf (ZMod 3) (Example.cols.getD c [])) (List.range 7) := vecVec_finiteMatrix _ _

example : letI := listHeap
    (standardAlgo Example.D (vecVecBasis Example.cols) (fun i => i + 1)).bind (fun v => v 5) =
      some [(Example.o, 5), (Example.t, 4), (Example.o, 3)] := by decide +kernel

/-! ### C18 -/

theorem std_diagram (h : FiniteMatrix K D B f M els) {fuel : Nat → Nat} {rev : Bool} {v : T → Option (List (CF × T))} {d : Diagram T}
    (hv : standardAlgoWithDiagram D B fuel rev = some (v, d)) :
    (∀ r c, (r, c) ∈ d.pairings ↔ IsPersistencePair (rowKey f) els M r c) ∧
    (∀ x, x ∈ d.essential ↔ IsDependent els M x ∧ ∃ p q, (if rev then els.reverse else els) = p ++ x :: q ∧
        ∀ c ∈ q, ¬ IsPersistencePair (rowKey f) els M x c) := by
  obtain ⟨s, h1, h2⟩ := standard_run h
  obtain ⟨_, _, h3⟩ := h2 (fun i => max (fuel i) (i + 1)) fun i _ => by simp
  obtain ⟨d', _, e2, e3⟩ := h3 rev
  have b := standardAlgoWithDiagram_mono (DLE.refl D) (fuel' := fun i => max (fuel i) (i + 1)) (fun i _ => le_max_left _ _) hv
  rw [e2] at b
  obtain ⟨rfl, rfl⟩ := Prod.mk.inj (Option.some.inj b)
  obtain ⟨d', e4, e5, e6⟩ := readOff_spec (K := K) h.basis h.reads h1 rev
  rw [e3] at e4
  obtain rfl := Option.some.inj e4
  have hk := rowKey_injective f
  refine ⟨fun r c => by rw [e5, h1.dec.pair_iff hk]; rfl, ?_⟩
  intro x
  rw [e6, h1.dec.zero_iff hk]
  have hmem : ∀ c, c ∈ (if rev then els.reverse else els) ↔ c ∈ els := by intro c; cases rev <;> simp
  constructor
  · rintro ⟨p, q, a1, a2, a3⟩
    have hx : x ∈ els := by rw [← hmem, a1]; simp
    refine ⟨⟨hx, a2⟩, p, q, a1, ?_⟩
    intro c hc hp
    exact a3 c hc ((h1.dec.pair_iff hk x c).1 hp).2
  · rintro ⟨⟨hx, a2⟩, p, q, a1, a3⟩
    refine ⟨p, q, a1, a2, ?_⟩
    intro c hc hp
    exact a3 c hc ((h1.dec.pair_iff hk x c).2 ⟨by rw [← hmem, a1]; simp [hc], hp⟩)

/-- C18: the pairings returned by `standard_algo_with_diagram` are exactly the persistence pairs, defined by ranks of lower-left
minors. -/
theorem C18_pairings (h : FiniteMatrix K D B f M els) {fuel : Nat → Nat} {rev : Bool} {v : T → Option (List (CF × T))} {d : Diagram T}
    (hv : standardAlgoWithDiagram D B fuel rev = some (v, d)) (r c : T) :
    (r, c) ∈ d.pairings ↔ IsPersistencePair (rowKey f) els M r c := (std_diagram h hv).1 r c

/-- C18: the whole diagram only depends on the vectors and filtration values, not on how the matrix presents its columns. -/
theorem C18_representation (h : FiniteMatrix K D B f M els) {D' : FOracle CF T T F} {B' : Basis T} (h' : FiniteMatrix K D' B' f M els)
    {fuel fuel' : Nat → Nat} {rev : Bool} {v v' : T → Option (List (CF × T))} {d d' : Diagram T}
    (hv : standardAlgoWithDiagram D B fuel rev = some (v, d)) (hv' : standardAlgoWithDiagram D' B' fuel' rev = some (v', d')) :
    d = d' := by
  obtain ⟨a1, a2⟩ := std_diagram h hv
  obtain ⟨b1, b2⟩ := std_diagram h' hv'
  cases d; cases d'
  congr 1
  · ext x; exact (a2 x).trans (b2 x).symm
  · ext ⟨r, c⟩; exact (a1 r c).trans (b1 r c).symm

example : letI := listHeap
    (standardAlgoWithDiagram Example.D (vecVecBasis Example.cols) (fun i => i + 1) false).map Prod.snd =
      some ⟨{0}, {(1, 3), (2, 4), (5, 6)}⟩ := by decide +kernel

/-! ### C19 -/

/-- C19, general form: the essential set consists of the basis elements whose column depends on the previous columns and which are not
the birth of a pair whose death is read off after them. -/
theorem C19_essential_general (h : FiniteMatrix K D B f M els) {fuel : Nat → Nat} {rev : Bool} {v : T → Option (List (CF × T))}
    {d : Diagram T} (hv : standardAlgoWithDiagram D B fuel rev = some (v, d)) (x : T) :
    x ∈ d.essential ↔ IsDependent els M x ∧ ∃ p q, (if rev then els.reverse else els) = p ++ x :: q ∧
        ∀ c ∈ q, ¬ IsPersistencePair (rowKey f) els M x c := (std_diagram h hv).2 x

theorem nodup_split_unique {l p q p' q' : List T} {x : T} (hnd : l.Nodup) (h : l = p ++ x :: q) (h' : l = p' ++ x :: q') :
    p = p' ∧ q = q' := by
  have hx : x ∉ p := by
    rw [h, List.nodup_append] at hnd; intro hx; exact hnd.2.2 x hx x (by simp) rfl
  have hx' : x ∉ p' := by
    rw [h', List.nodup_append] at hnd; intro hx; exact hnd.2.2 x hx x (by simp) rfl
  rw [h] at h'
  clear h hnd
  induction p generalizing p' with
  | nil =>
    cases p' with
    | nil => simpa using h'
    | cons a p' => simp only [List.nil_append, List.cons_append, List.cons.injEq] at h'; exact absurd (by simp [h'.1]) hx'
  | cons a p ih =>
    cases p' with
    | nil => simp only [List.nil_append, List.cons_append, List.cons.injEq] at h'; exact absurd (by simp [h'.1]) hx
    | cons b p' =>
      simp only [List.cons_append, List.cons.injEq] at h'
      obtain ⟨e, h'⟩ := h'
      obtain ⟨e1, e2⟩ := ih h' (fun h => hx (List.mem_cons_of_mem _ h)) (fun h => hx' (List.mem_cons_of_mem _ h))
      exact ⟨by rw [e, e1], e2⟩

/-- The birth of a pair comes before its death in the basis, when rows come before columns. -/
theorem pair_before {f : T → F} {M : T → (T →₀ K)} {els : List T} (hnd : els.Nodup) (hrows : RowsBefore els M) {x c : T} (hx : x ∈ els)
    (hp : IsPersistencePair (rowKey f) els M x c) : ∃ p q, els = p ++ c :: q ∧ x ∈ p := by
  have hk := rowKey_injective f
  obtain ⟨W, hW⟩ := exists_decomp (K := K) hk els hnd M
  obtain ⟨hc, hl⟩ := (hW.pair_iff hk x c).1 hp
  obtain ⟨y, y1, y2⟩ := lc_support hl.1
  obtain ⟨p, q, hpq⟩ := List.append_of_mem hc
  refine ⟨p, q, hpq, ?_⟩
  rcases hW.tri p c q hpq y y1 with rfl | hy
  · exact hrows p y q hpq x hx y2
  · obtain ⟨p1, p2, hp1⟩ := List.append_of_mem hy
    have := hrows p1 y (p2 ++ c :: q) (by rw [hpq, hp1]; simp) x hx y2
    rw [hp1]; simp [this]

/-- C19, `reverse_order = false`: if the rows of each column occur earlier in the basis than the column, the essential set is exactly
the set of basis elements whose column is in the span of the previous columns and which are not the birth of a pair. -/
theorem C19_essential (h : FiniteMatrix K D B f M els) (hrows : RowsBefore els M) {fuel : Nat → Nat}
    {v : T → Option (List (CF × T))} {d : Diagram T} (hv : standardAlgoWithDiagram D B fuel false = some (v, d)) (x : T) :
    x ∈ d.essential ↔ IsDependent els M x ∧ ∀ c, ¬ IsPersistencePair (rowKey f) els M x c := by
  rw [C19_essential_general h hv]
  constructor
  · rintro ⟨hx, p, q, hpq, h2⟩
    refine ⟨hx, ?_⟩
    intro c hc
    simp only [Bool.false_eq_true, if_false] at hpq
    obtain ⟨p', q', h3, h4⟩ := pair_before h.nodup hrows hx.mem hc
    refine h2 c ?_ hc
    obtain ⟨p1, p2, h5⟩ := List.append_of_mem h4
    have := nodup_split_unique h.nodup hpq (show els = p1 ++ x :: (p2 ++ c :: q') by rw [h3, h5]; simp)
    rw [this.2]; simp
  · rintro ⟨hx, h2⟩
    refine ⟨hx, ?_⟩
    obtain ⟨p, q, hpq, _⟩ := hx
    exact ⟨p, q, by simpa using hpq, fun c _ => h2 c⟩

/-- C19, `reverse_order = true`: if the matrix is graded (rows of a column of degree `n` have degree `n + ε`) and every basis element
of degree `n + ε` occurs later in the basis than every one of degree `n`, the essential set is exactly the set of dependent, unpaired
basis elements. -/
theorem C19_essential_reverse (h : FiniteMatrix K D B f M els) {deg : T → ℤ} {ε : ℤ}
    (hdeg : ∀ c ∈ els, ∀ r, M c r ≠ 0 → deg r = deg c + ε)
    (hord : ∀ pre c post, els = pre ++ c :: post → ∀ r ∈ els, deg r = deg c + ε → r ∈ post) {fuel : Nat → Nat}
    {v : T → Option (List (CF × T))} {d : Diagram T} (hv : standardAlgoWithDiagram D B fuel true = some (v, d)) (x : T) :
    x ∈ d.essential ↔ IsDependent els M x ∧ ∀ c, ¬ IsPersistencePair (rowKey f) els M x c := by
  rw [C19_essential_general h hv]
  constructor
  · rintro ⟨hx, p, q, hpq, h2⟩
    refine ⟨hx, ?_⟩
    intro c hc
    simp only [if_true] at hpq
    obtain ⟨h3, h4, _⟩ := pair_deg (rowKey_injective f) h.nodup hdeg hc
    refine h2 c ?_ hc
    obtain ⟨p1, p2, h5⟩ := List.append_of_mem h3
    have hxp := hord p1 c p2 h5 x hx.mem h4
    obtain ⟨p3, p4, h6⟩ := List.append_of_mem hxp
    have e : els.reverse = p4.reverse ++ x :: (p3.reverse ++ c :: p1.reverse) := by rw [h5, h6]; simp
    rw [(nodup_split_unique (List.nodup_reverse.2 h.nodup) hpq e).2]; simp
  · rintro ⟨hx, h2⟩
    refine ⟨hx, ?_⟩
    obtain ⟨p, q, hpq, _⟩ := hx
    exact ⟨q.reverse, p.reverse, by simp [hpq], fun c _ => h2 c⟩

/-- C19, wrong flag: if the rows of each column occur earlier in the basis but the diagram is read off with `reverse_order = true`, every
dependent basis element is reported as essential, also the births of pairs. -/
theorem C19_wrong_flag (h : FiniteMatrix K D B f M els) (hrows : RowsBefore els M) {fuel : Nat → Nat}
    {v : T → Option (List (CF × T))} {d : Diagram T} (hv : standardAlgoWithDiagram D B fuel true = some (v, d)) (x : T) :
    x ∈ d.essential ↔ IsDependent els M x := by
  rw [C19_essential_general h hv]
  constructor
  · exact fun h => h.1
  · intro hx
    refine ⟨hx, ?_⟩
    obtain ⟨p, q, hpq⟩ := List.append_of_mem hx.mem
    refine ⟨q.reverse, p.reverse, by simp [hpq], ?_⟩
    intro c hc hp
    obtain ⟨p', q', h3, h4⟩ := pair_before h.nodup hrows hx.mem hp
    obtain ⟨p1, p2, h5⟩ := List.append_of_mem h4
    have e := nodup_split_unique h.nodup hpq (show els = p1 ++ x :: (p2 ++ c :: q') by rw [h3, h5]; simp)
    have hc' : c ∈ p1 := by rw [← e.1]; simpa using hc
    have hnd := h.nodup
    rw [h3, h5, List.nodup_append] at hnd
    exact hnd.2.2 c (by simp [hc']) c (by simp) rfl

/-- With the wrong flag births are reported twice. -/
example : letI := listHeap
    (standardAlgoWithDiagram Example.D (vecVecBasis Example.cols) (fun i => i + 1) true).map Prod.snd =
      some ⟨{0, 1, 2, 5}, {(1, 3), (2, 4), (5, 6)}⟩ := by decide +kernel

/-- The rows of the example come before the columns. -/
example : RowsBefore (List.range 7) (fun c => lcOf (ZMod 3) (Example.cols.getD c [])) := by
  have key : ∀ c < 7, ∀ t ∈ Example.cols.getD c [], t.2 < c := by decide
  intro pre c post h r _ hr
  obtain ⟨t, ht, rfl⟩ := lcOf_support hr
  have hc : c < 7 := by rw [← List.mem_range, h]; simp
  have hlt := key c hc t ht
  rw [mem_prefix_iff (key := id) h (by decide)]
  exact ⟨List.mem_range.2 (by omega), hlt⟩

/-- It is not enough for `reverse_order = true` that the rows of each column occur later in the basis: here `c' = 0`, `x = 1`, `c = 2`,
`y = 3`, the columns of `c'` and `c` are `x + y` and `y`; the pair `(x, c)` is found, and `x` is also reported as essential. -/
example : letI := listHeap
    (standardAlgoWithDiagram ((vecVecMatrix [[(Z2.one, 1), (Z2.one, 3)], [], [(Z2.one, 3)], []]).withFunc fun i : Nat => some i)
      (standardBasis 4) (fun i => i + 1) true).map Prod.snd = some ⟨{1}, {(3, 0), (1, 2)}⟩ := by decide +kernel

end
end Phlite
