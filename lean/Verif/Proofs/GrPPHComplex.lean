/-
The GrPPH matrices and bases form a cell complex.
-/
import Verif.Proofs.GrPPHColumns
import Verif.Proofs.CellSplit
import Verif.Proofs.RipsComplex

set_option linter.unusedSectionVars false
set_option linter.unusedSimpArgs false

namespace Phlite
open Finsupp (single linearCombination linearCombination_single)
open OrderDual (toDual ofDual)

/-! ### Sorted bases -/
section
variable {F : Type} [LinearOrder F] [Zero F]

theorem elems_singleDim' {I : Type} (l : List (F × I)) : (singleDimBasis l).elems = some (l.map Prod.snd) := by
  unfold Basis.elems singleDimBasis
  simp only
  have key : ∀ (l₁ l₂ : List (F × I)), mapOpt (fun i => ((l₁ ++ l₂)[i]?).map Prod.snd) (List.range' l₁.length l₂.length) = some (l₂.map Prod.snd) := by
    intro l₁ l₂
    induction l₂ generalizing l₁ with
    | nil => rfl
    | cons x l₂ ih =>
      rw [List.length_cons, List.range'_succ, mapOpt]
      have := ih (l₁ ++ [x])
      rw [List.append_assoc, List.singleton_append, List.length_append, List.length_singleton] at this
      rw [this]
      simp
  have := key [] l
  rw [List.nil_append, List.length_nil, ← List.range_eq_range'] at this
  exact this

theorem sort_map_nodup {l : List (F × PathHomCell)} (hl : (l.map Prod.snd).Nodup) : ((l.insertionSort cellTupleLe).map Prod.snd).Nodup :=
  ((List.perm_insertionSort cellTupleLe l).map Prod.snd).nodup_iff.2 hl

theorem mem_sort_map {l : List (F × PathHomCell)} {c : PathHomCell} :
    c ∈ (l.insertionSort cellTupleLe).map Prod.snd ↔ c ∈ l.map Prod.snd :=
  ((List.perm_insertionSort cellTupleLe l).map Prod.snd).mem_iff

instance : Std.Total (cellTupleLe (F := F)) := ⟨fun a b => le_total (toLex a) (toLex b)⟩
instance : IsTrans (F × PathHomCell) cellTupleLe := ⟨fun _ _ _ h h' => le_trans (α := F ×ₗ PathHomCell) h h'⟩

theorem sort_lex {l : List (F × PathHomCell)} (hl : (l.map Prod.snd).Nodup) :
    (l.insertionSort cellTupleLe).Pairwise fun a b => toLex a < toLex b := by
  have h1 : (l.insertionSort cellTupleLe).Pairwise cellTupleLe := List.pairwise_insertionSort _ _
  have h2 := List.pairwise_map.1 (sort_map_nodup hl)
  refine (h1.and h2).imp ?_
  rintro a b ⟨hab, hne⟩
  exact lt_of_le_of_ne hab fun e => hne (congrArg (fun x => (ofLex x).2) e)

theorem sort_sorted {l : List (F × PathHomCell)} (hl : (l.map Prod.snd).Nodup) {f : PathHomCell → F} (hf : ∀ x ∈ l, x.1 = f x.2) :
    ((l.insertionSort cellTupleLe).map Prod.snd).Pairwise fun a b => rowKey f a < rowKey f b := by
  rw [List.pairwise_map]
  refine List.Pairwise.imp_of_mem ?_ (sort_lex hl)
  intro a b ha hb hab
  rw [List.mem_insertionSort] at ha hb
  unfold rowKey
  rw [← hf a ha, ← hf b hb]
  exact hab

end

/-! ### The transpose of a boundary -/
section
variable {T K : Type} [Field K]

/-- The column of the coboundary, read off the boundary columns of the listed cells. -/
noncomputable def transposeCol (M : T → (T →₀ K)) (l : List T) (σ : T) : T →₀ K := (l.map fun τ => single τ (M τ σ)).sum

theorem transposeCol_apply [DecidableEq T] (M : T → (T →₀ K)) {l : List T} (hl : l.Nodup) (σ τ : T) :
    transposeCol M l σ τ = if τ ∈ l then M τ σ else 0 := by
  unfold transposeCol
  induction l with
  | nil => simp
  | cons x l ih =>
    rw [List.nodup_cons] at hl
    rw [List.map_cons, List.sum_cons, Finsupp.add_apply, ih hl.2, Finsupp.single_apply]
    by_cases hx : x = τ
    · subst hx; simp [hl.1]
    · have : τ ≠ x := fun e => hx e.symm
      simp [hx, this]

end

section
variable {F : Type} [LinearOrder F] [Zero F] [OrderTop F] {n : ℕ} {time : ℕ → ℕ → Option F} {et : EdgeTime F} {E : List (ℕ × ℕ)}

/-! ### Edges and bases -/

/-- The edge is an edge of the graph, or appears at some time. -/
def IsEdge (n : ℕ) (time : ℕ → ℕ → Option F) (E : List (ℕ × ℕ)) (e : ℕ × ℕ) : Prop := e ∈ E ∨ (e.1 < n ∧ e.2 < n ∧ (time e.1 e.2).isSome)

instance (n : ℕ) (time : ℕ → ℕ → Option F) (E : List (ℕ × ℕ)) : DecidablePred (IsEdge n time E) := fun e => by unfold IsEdge; infer_instance

/-- The filtration values as a function. -/
def grpphF (et : EdgeTime F) (E : List (ℕ × ℕ)) (c : PathHomCell) : F := (grpphFiltrationValue et E c).getD 0

theorem grpphF_edge (h : IsDigraphFiltration et n time) {e : ℕ × ℕ} (he : IsEdge n time E e) :
    grpphFiltrationValue et E (.edge e.1 e.2) = some (grpphF et E (.edge e.1 e.2)) := by
  unfold grpphF
  have : ∃ x, grpphFiltrationValue et E (.edge e.1 e.2) = some x := by
    show ∃ x, (if (e.1, e.2) ∈ E then some 0 else (et e.1 e.2).bind id) = some x
    by_cases hE : (e.1, e.2) ∈ E
    · rw [if_pos hE]; exact ⟨0, rfl⟩
    · rw [if_neg hE]
      obtain ⟨h1, h2, h3⟩ := he.resolve_left hE
      rw [h.entry _ h1 _ h2]
      exact Option.isSome_iff_exists.1 h3
  obtain ⟨x, hx⟩ := this
  rw [hx]; rfl

theorem grpphF_edge_mem (et : EdgeTime F) {e : ℕ × ℕ} (he : e ∈ E) : grpphF et E (.edge e.1 e.2) = 0 := by
  show (if (e.1, e.2) ∈ E then some 0 else (et e.1 e.2).bind id).getD 0 = 0
  rw [if_pos he]; rfl

theorem grpphF_edge_time (h : IsDigraphFiltration et n time) {e : ℕ × ℕ} (he : e ∉ E) (h1 : e.1 < n) (h2 : e.2 < n) {x : F}
    (hx : time e.1 e.2 = some x) : grpphF et E (.edge e.1 e.2) = x := by
  show (if (e.1, e.2) ∈ E then some 0 else (et e.1 e.2).bind id).getD 0 = x
  rw [if_neg he, h.entry _ h1 _ h2, hx]; rfl

/-- The degree-0 basis before sorting. -/
def raw0 (F : Type) [Zero F] (n : ℕ) : List (F × PathHomCell) := (List.range n).map fun i => (0, .node i)

/-- The degree-1 basis before sorting. -/
def raw1 (n : ℕ) (time : ℕ → ℕ → Option F) (E : List (ℕ × ℕ)) : List (F × PathHomCell) :=
  (E.map fun e => (0, .edge e.1 e.2)) ++
    (pairList n).filterMap fun e => if e ∈ E then none else (time e.1 e.2).map fun x => (x, PathHomCell.edge e.1 e.2)

theorem buildGrpphBasis_spec (h : IsDigraphFiltration et n time) (E : List (ℕ × ℕ)) :
    buildGrpphBasis et E n = some [(raw0 F n).insertionSort cellTupleLe, (raw1 n time E).insertionSort cellTupleLe] := by
  unfold buildGrpphBasis
  have : filterMapOpt (fun e : ℕ × ℕ => if e ∈ E then some none else (et e.1 e.2).map fun o => o.map fun x => (x, PathHomCell.edge e.1 e.2)) (pairList n) =
      some ((pairList n).filterMap fun e => if e ∈ E then none else (time e.1 e.2).map fun x => (x, PathHomCell.edge e.1 e.2)) := by
    refine filterMapOpt_eq _ _ _ fun e he => ?_
    obtain ⟨h1, h2⟩ := mem_pairList.1 he
    rw [h.entry _ h1 _ h2]
    split <;> rfl
  unfold pairList at this
  simp only
  rw [this]
  rfl

theorem mem_raw1 {x : F × PathHomCell} : x ∈ raw1 n time E ↔ ∃ e : ℕ × ℕ, x.2 = .edge e.1 e.2 ∧
    ((e ∈ E ∧ x.1 = 0) ∨ (e ∉ E ∧ e.1 < n ∧ e.2 < n ∧ time e.1 e.2 = some x.1)) := by
  unfold raw1
  rw [List.mem_append, List.mem_map, List.mem_filterMap]
  constructor
  · rintro (⟨e, he, rfl⟩ | ⟨e, he, hx⟩)
    · exact ⟨e, rfl, Or.inl ⟨he, rfl⟩⟩
    · obtain ⟨h1, h2⟩ := mem_pairList.1 he
      split at hx
      · cases hx
      · rename_i hE
        obtain ⟨y, hy, rfl⟩ := Option.map_eq_some_iff.1 hx
        exact ⟨e, rfl, Or.inr ⟨hE, h1, h2, hy⟩⟩
  · rintro ⟨e, he, (⟨h1, h2⟩ | ⟨h1, h2, h3, h4⟩)⟩
    · exact Or.inl ⟨e, h1, Prod.ext h2.symm he.symm⟩
    · refine Or.inr ⟨e, mem_pairList.2 ⟨h2, h3⟩, ?_⟩
      rw [if_neg h1, h4]
      exact congrArg some (Prod.ext rfl he.symm)

theorem mem_raw1_snd {c : PathHomCell} : c ∈ (raw1 n time E).map Prod.snd ↔ ∃ e : ℕ × ℕ, c = .edge e.1 e.2 ∧ IsEdge n time E e := by
  rw [List.mem_map]
  constructor
  · rintro ⟨x, hx, rfl⟩
    obtain ⟨e, he, hh⟩ := mem_raw1.1 hx
    refine ⟨e, he, ?_⟩
    rcases hh with hh | hh
    · exact Or.inl hh.1
    · exact Or.inr ⟨hh.2.1, hh.2.2.1, by rw [hh.2.2.2]; rfl⟩
  · rintro ⟨e, rfl, he⟩
    by_cases hE : e ∈ E
    · exact ⟨(0, .edge e.1 e.2), mem_raw1.2 ⟨e, rfl, Or.inl ⟨hE, rfl⟩⟩, rfl⟩
    · obtain ⟨h1, h2, h3⟩ := he.resolve_left hE
      obtain ⟨x, hx⟩ := Option.isSome_iff_exists.1 h3
      exact ⟨(x, .edge e.1 e.2), mem_raw1.2 ⟨e, rfl, Or.inr ⟨hE, h1, h2, hx⟩⟩, rfl⟩

theorem raw1_nodup (hE : E.Nodup) : ((raw1 n time E).map Prod.snd).Nodup := by
  unfold raw1
  rw [List.map_append, List.map_map, List.nodup_append]
  refine ⟨?_, ?_, ?_⟩
  · refine hE.map ?_
    rintro ⟨a, b⟩ ⟨a', b'⟩ e
    simpa using e
  · refine filterMap_nodup _ _ (pairList_nodup n) ?_
    rintro ⟨a, b⟩ _ ⟨a', b'⟩ _ x y hx hy e
    split at hx
    · cases hx
    · split at hy
      · cases hy
      · obtain ⟨_, _, rfl⟩ := Option.map_eq_some_iff.1 hx
        obtain ⟨_, _, rfl⟩ := Option.map_eq_some_iff.1 hy
        simpa using e
  · intro c hc d hd e
    subst e
    obtain ⟨⟨a, b⟩, hab, rfl⟩ := List.mem_map.1 hc
    obtain ⟨x, hx, e⟩ := List.mem_map.1 hd
    obtain ⟨⟨a', b'⟩, _, hx⟩ := List.mem_filterMap.1 hx
    split at hx
    · cases hx
    · rename_i hn
      obtain ⟨_, _, rfl⟩ := Option.map_eq_some_iff.1 hx
      simp only [Function.comp_apply, PathHomCell.edge.injEq] at e
      obtain ⟨rfl, rfl⟩ := e
      exact hn hab

theorem raw1_filt (h : IsDigraphFiltration et n time) : ∀ x ∈ raw1 n time E, x.1 = grpphF et E x.2 := by
  intro x hx
  obtain ⟨e, he, hh⟩ := mem_raw1.1 hx
  rw [he]
  rcases hh with hh | hh
  · rw [grpphF_edge_mem et hh.1, hh.2]
  · rw [grpphF_edge_time h hh.1 hh.2.1 hh.2.2.1 hh.2.2.2]

theorem mem_raw0_snd {c : PathHomCell} : c ∈ (raw0 F n).map Prod.snd ↔ ∃ s < n, c = .node s := by
  unfold raw0
  rw [List.map_map, List.mem_map]
  constructor
  · rintro ⟨s, hs, rfl⟩; exact ⟨s, List.mem_range.1 hs, rfl⟩
  · rintro ⟨s, hs, rfl⟩; exact ⟨s, List.mem_range.2 hs, rfl⟩

theorem raw0_nodup (n : ℕ) : ((raw0 F n).map Prod.snd).Nodup := by
  unfold raw0
  rw [List.map_map]
  exact List.nodup_range.map fun a b e => by simpa using e

theorem raw0_filt (et : EdgeTime F) (E : List (ℕ × ℕ)) : ∀ x ∈ raw0 F n, x.1 = grpphF et E x.2 := by
  intro x hx
  obtain ⟨s, _, rfl⟩ := List.mem_map.1 hx
  rfl

/-! ### 2-cells -/

/-- All 2-cells on `n` vertices. -/
def allTwoCells (n : ℕ) : Finset PathHom2Cell :=
  (Finset.range n ×ˢ Finset.range n).image (fun p => .doubleEdge p.1 p.2) ∪
  (Finset.range n ×ˢ Finset.range n ×ˢ Finset.range n).image (fun p => .directedTriangle p.1 p.2.1 p.2.2) ∪
  (Finset.range n ×ˢ Finset.range n ×ˢ Finset.range n ×ˢ Finset.range n).image (fun p => .longSquare p.1 p.2.1 p.2.2.1 p.2.2.2)

theorem TwoCellAt.mem_all {τ : PathHom2Cell} {t : F} (hτ : TwoCellAt n time τ t) : τ ∈ allTwoCells n := by
  unfold allTwoCells
  simp only [Finset.mem_union, Finset.mem_image, Finset.mem_product, Finset.mem_range]
  cases τ with
  | doubleEdge a b => exact Or.inl (Or.inl ⟨(a, b), ⟨hτ.1, hτ.2.1⟩, rfl⟩)
  | directedTriangle a b c =>
    obtain ⟨_, m, u, h1, _⟩ := hτ
    exact Or.inl (Or.inr ⟨(a, b, c), ⟨h1.1, h1.2.1, h1.2.2.1⟩, rfl⟩)
  | longSquare a b c d =>
    obtain ⟨_, ⟨m, h1, _⟩, _, h4, _⟩ := hτ
    exact Or.inr ⟨(a, b, c, d), ⟨h1.1, h1.2.1, h4.2.1, h1.2.2.1⟩, rfl⟩

open Classical in
/-- The 2-cells of the filtration, with their times. -/
noncomputable def raw2 (et : EdgeTime F) (n : ℕ) (time : ℕ → ℕ → Option F) (E : List (ℕ × ℕ)) : List (F × PathHomCell) :=
  ((allTwoCells n).filter fun τ => ∃ t, TwoCellAt n time τ t).toList.map fun τ => (grpphF et E (.twoCell τ), .twoCell τ)

theorem mem_raw2_snd {c : PathHomCell} : c ∈ (raw2 et n time E).map Prod.snd ↔ ∃ τ t, TwoCellAt n time τ t ∧ c = .twoCell τ := by
  unfold raw2
  rw [List.map_map, List.mem_map]
  simp only [Finset.mem_toList, Finset.mem_filter, Function.comp_apply]
  constructor
  · rintro ⟨τ, ⟨_, t, ht⟩, rfl⟩; exact ⟨τ, t, ht, rfl⟩
  · rintro ⟨τ, t, ht, rfl⟩; exact ⟨τ, ⟨ht.mem_all, t, ht⟩, rfl⟩

theorem raw2_nodup : ((raw2 et n time E).map Prod.snd).Nodup := by
  unfold raw2
  rw [List.map_map]
  exact (Finset.nodup_toList _).map fun a b e => by simpa using e

theorem raw2_filt : ∀ x ∈ raw2 et n time E, x.1 = grpphF et E x.2 := by
  intro x hx
  obtain ⟨s, _, rfl⟩ := List.mem_map.1 hx
  rfl

/-- The cells in each degree, before sorting. -/
noncomputable def rawCells (et : EdgeTime F) (n : ℕ) (time : ℕ → ℕ → Option F) (E : List (ℕ × ℕ)) : ℤ → List (F × PathHomCell)
  | .ofNat 0 => raw0 F n
  | .ofNat 1 => raw1 n time E
  | .ofNat 2 => raw2 et n time E
  | _ => []

/-- The cells in each degree, sorted. -/
noncomputable def grpphCells (et : EdgeTime F) (n : ℕ) (time : ℕ → ℕ → Option F) (E : List (ℕ × ℕ)) (d : ℤ) : List PathHomCell :=
  ((rawCells et n time E d).insertionSort cellTupleLe).map Prod.snd

theorem rawCells_other {d : ℤ} (h0 : d ≠ 0) (h1 : d ≠ 1) (h2 : d ≠ 2) : rawCells et n time E d = [] := by
  match d, h0, h1, h2 with
  | .ofNat 0, h, _, _ => exact absurd rfl h
  | .ofNat 1, _, h, _ => exact absurd rfl h
  | .ofNat 2, _, _, h => exact absurd rfl h
  | .ofNat (k + 3), _, _, _ => rfl
  | .negSucc k, _, _, _ => rfl

theorem rawCells_cases (P : ℤ → Prop) (hP : ∀ d, rawCells et n time E d = [] → P d) (h0 : P 0) (h1 : P 1) (h2 : P 2) (d : ℤ) : P d := by
  by_cases e0 : d = 0
  · rw [e0]; exact h0
  by_cases e1 : d = 1
  · rw [e1]; exact h1
  by_cases e2 : d = 2
  · rw [e2]; exact h2
  exact hP d (rawCells_other e0 e1 e2)

theorem grpphCells_nodup (hE : E.Nodup) (d : ℤ) : (grpphCells et n time E d).Nodup := by
  refine sort_map_nodup ?_
  revert d
  refine rawCells_cases (et := et) (n := n) (time := time) (E := E) _ ?_ (raw0_nodup n) (raw1_nodup hE) raw2_nodup
  intro d hd; rw [hd]; simp

theorem grpphCells_sorted (h : IsDigraphFiltration et n time) (hE : E.Nodup) (d : ℤ) :
    (grpphCells et n time E d).Pairwise fun a b => rowKey (grpphF et E) a < rowKey (grpphF et E) b := by
  revert d
  refine rawCells_cases (et := et) (n := n) (time := time) (E := E) _ ?_ (sort_sorted (raw0_nodup n) (raw0_filt et E)) (sort_sorted (raw1_nodup hE) (raw1_filt h))
    (sort_sorted raw2_nodup raw2_filt)
  intro d hd; unfold grpphCells; rw [hd]; simp

theorem mem_cells0 {c : PathHomCell} : c ∈ grpphCells et n time E 0 ↔ ∃ s < n, c = .node s := mem_sort_map.trans mem_raw0_snd
theorem mem_cells1 {c : PathHomCell} : c ∈ grpphCells et n time E 1 ↔ ∃ e : ℕ × ℕ, c = .edge e.1 e.2 ∧ IsEdge n time E e :=
  mem_sort_map.trans mem_raw1_snd
theorem mem_cells2 {c : PathHomCell} : c ∈ grpphCells et n time E 2 ↔ ∃ τ t, TwoCellAt n time τ t ∧ c = .twoCell τ := mem_sort_map.trans mem_raw2_snd

theorem cells_other {d : ℤ} (h0 : d ≠ 0) (h1 : d ≠ 1) (h2 : d ≠ 2) : grpphCells et n time E d = [] := by
  unfold grpphCells; rw [rawCells_other h0 h1 h2]; rfl

/-! ### Boundaries -/

variable (K : Type) [Field K]

/-- The boundary columns. -/
noncomputable def grpphM : PathHomCell → (PathHomCell →₀ K)
  | .node _ => 0
  | .edge s t => single (.node t) 1 - single (.node s) 1
  | .twoCell (.doubleEdge a b) => single (.edge a b) 1 + single (.edge b a) 1
  | .twoCell (.directedTriangle a b c) => single (.edge b c) 1 - single (.edge a c) 1 + single (.edge a b) 1
  | .twoCell (.longSquare a b c d) => single (.edge c d) 1 + single (.edge a c) 1 - single (.edge b d) 1 - single (.edge a b) 1

variable {K} {CF : Type} [NonZeroCoeff CF] [LawfulCoeff CF K]

theorem grpphBoundary_lcOf (c : PathHomCell) : lcOf K (grpphBoundaryColumn CF c) = grpphM K c := by
  rcases c with s | ⟨s, t⟩ | (⟨a, b⟩ | ⟨a, b, c⟩ | ⟨a, b, c, d⟩) <;>
    simp only [grpphBoundaryColumn, grpphM, lcOf_cons, lcOf_nil, LawfulCoeff.val_one, LawfulCoeff.val_neg, Finsupp.single_neg, add_zero] <;> abel

theorem grpphM_sq (c : PathHomCell) : linearCombination K (grpphM K) (grpphM K c) = 0 := by
  rcases c with s | ⟨s, t⟩ | (⟨a, b⟩ | ⟨a, b, c⟩ | ⟨a, b, c, d⟩) <;>
    simp only [grpphM, map_add, map_sub, map_zero, linearCombination_single, one_smul] <;> abel

/-- The dimension as an integer. -/
def grpphDeg (c : PathHomCell) : ℤ := c.dimension

theorem twoCell_edges (h : IsDigraphFiltration et n time) (E : List (ℕ × ℕ)) {τ : PathHom2Cell} {t : F} (hτ : TwoCellAt n time τ t) :
    ∀ x ∈ grpphBoundaryColumn CF (.twoCell τ), ∃ e : ℕ × ℕ, x.2 = .edge e.1 e.2 ∧ e.1 < n ∧ e.2 < n ∧ ∃ u ≤ t, time e.1 e.2 = some u := by
  have tp : ∀ {a b c m}, IsTwoPath n time a b c m → m ≤ t → (∃ u ≤ t, time a b = some u) ∧ ∃ u ≤ t, time b c = some u := by
    rintro a b c m ⟨_, _, _, x, y, hx, hy, rfl⟩ hm
    exact ⟨⟨x, (le_max_left _ _).trans hm, hx⟩, ⟨y, (le_max_right _ _).trans hm, hy⟩⟩
  cases τ with
  | doubleEdge a b =>
    obtain ⟨h1, h2⟩ := tp hτ le_rfl
    intro x hx
    simp only [grpphBoundaryColumn, List.mem_cons, List.not_mem_nil, or_false] at hx
    rcases hx with rfl | rfl
    · exact ⟨(a, b), rfl, hτ.1, hτ.2.1, h1⟩
    · exact ⟨(b, a), rfl, hτ.2.1, hτ.1, h2⟩
  | directedTriangle a b c =>
    obtain ⟨_, m, u, hp, hu, _, rfl⟩ := hτ
    obtain ⟨h1, h2⟩ := tp hp (le_max_left _ _)
    intro x hx
    simp only [grpphBoundaryColumn, List.mem_cons, List.not_mem_nil, or_false] at hx
    rcases hx with rfl | rfl | rfl
    · exact ⟨(b, c), rfl, hp.2.1, hp.2.2.1, h2⟩
    · exact ⟨(a, c), rfl, hp.1, hp.2.2.1, u, le_max_right _ _, hu⟩
    · exact ⟨(a, b), rfl, hp.1, hp.2.1, h1⟩
  | longSquare a b c d =>
    obtain ⟨_, ⟨m, hp, h2, h3⟩, _, hp', _⟩ := hτ
    have hm : m ≤ t := by
      rcases h3 c t hp' with e | ⟨e, _⟩
      · exact e.le
      · exact e.le
    obtain ⟨h1, h2⟩ := tp hp hm
    obtain ⟨h3, h4⟩ := tp hp' le_rfl
    intro x hx
    simp only [grpphBoundaryColumn, List.mem_cons, List.not_mem_nil, or_false] at hx
    rcases hx with rfl | rfl | rfl | rfl
    · exact ⟨(c, d), rfl, hp'.2.1, hp.2.2.1, h4⟩
    · exact ⟨(a, c), rfl, hp.1, hp'.2.1, h3⟩
    · exact ⟨(b, d), rfl, hp.2.1, hp.2.2.1, h2⟩
    · exact ⟨(a, b), rfl, hp.1, hp.2.1, h1⟩

/-- Rows of boundary columns belong to the basis. -/
theorem boundary_rows (h : IsDigraphFiltration et n time) (hEn : ∀ e ∈ E, e.1 < n ∧ e.2 < n) {d : ℤ} {c : PathHomCell} (hc : c ∈ grpphCells et n time E d) :
    ∀ x ∈ grpphBoundaryColumn CF c, x.2 ∈ grpphCells et n time E (d - 1) := by
  by_cases e0 : d = 0
  · subst e0
    obtain ⟨s, hs, rfl⟩ := mem_cells0.1 hc
    simp [grpphBoundaryColumn]
  by_cases e1 : d = 1
  · subst e1
    obtain ⟨e, rfl, he⟩ := mem_cells1.1 hc
    have hlt : e.1 < n ∧ e.2 < n := he.elim (hEn e) fun hh => ⟨hh.1, hh.2.1⟩
    intro x hx
    simp only [grpphBoundaryColumn, List.mem_cons, List.not_mem_nil, or_false] at hx
    refine mem_cells0.2 ?_
    rcases hx with rfl | rfl
    · exact ⟨e.2, hlt.2, rfl⟩
    · exact ⟨e.1, hlt.1, rfl⟩
  by_cases e2 : d = 2
  · subst e2
    obtain ⟨τ, t, hτ, rfl⟩ := mem_cells2.1 hc
    intro x hx
    obtain ⟨e, he, h1, h2, u, _, hu⟩ := twoCell_edges (CF := CF) h E hτ x hx
    exact mem_cells1.2 ⟨e, he, Or.inr ⟨h1, h2, by rw [hu]; rfl⟩⟩
  · rw [cells_other e0 e1 e2] at hc; cases hc

theorem deg_of_mem {d : ℤ} {c : PathHomCell} (hc : c ∈ grpphCells et n time E d) : grpphDeg c = d := by
  by_cases e0 : d = 0
  · subst e0
    obtain ⟨s, hs, rfl⟩ := mem_cells0.1 hc; rfl
  by_cases e1 : d = 1
  · subst e1
    obtain ⟨e, rfl, he⟩ := mem_cells1.1 hc; rfl
  by_cases e2 : d = 2
  · subst e2
    obtain ⟨τ, t, hτ, rfl⟩ := mem_cells2.1 hc; rfl
  · rw [cells_other e0 e1 e2] at hc; cases hc

/-- The coboundary columns. -/
noncomputable def grpphN (K : Type) [Field K] (et : EdgeTime F) (n : ℕ) (time : ℕ → ℕ → Option F) (E : List (ℕ × ℕ)) (c : PathHomCell) : PathHomCell →₀ K :=
  transposeCol (grpphM K) (grpphCells et n time E (grpphDeg c + 1)) c

theorem grpphN_apply (hE : E.Nodup) (c τ : PathHomCell) :
    grpphN K et n time E c τ = if τ ∈ grpphCells et n time E (grpphDeg c + 1) then grpphM K τ c else 0 :=
  transposeCol_apply _ (grpphCells_nodup hE _) _ _

theorem grpphCellComplex (h : IsDigraphFiltration et n time) (hE : E.Nodup) (hEn : ∀ e ∈ E, e.1 < n ∧ e.2 < n)
    (CF : Type) [NonZeroCoeff CF] [LawfulCoeff CF K] :
    CellComplex K (grpphF et E) grpphDeg (grpphCells et n time E) (grpphM K) (grpphN K et n time E) where
  deg_cells d c hc := deg_of_mem hc
  sorted := grpphCells_sorted h hE
  rowsM d c hc r hr := by
    rw [← grpphBoundary_lcOf (CF := CF)] at hr
    obtain ⟨x, hx, rfl⟩ := lcOf_support hr
    exact boundary_rows h hEn hc x hx
  rowsN d c hc r hr := by
    rw [grpphN_apply hE] at hr
    rw [← deg_of_mem hc]
    by_contra hne
    rw [if_neg hne] at hr
    exact hr rfl
  transpose d c hc e he := by
    rw [grpphN_apply hE, deg_of_mem hc, if_pos he]
  sq d c _ := grpphM_sq c

end
end Phlite
