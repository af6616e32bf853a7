/-
Property theorems C32 (GrPPH part), C34-C37, C41: the matrices and bases of grounded persistent path homology.
-/
import Verif.Proofs.GrPPHCoboundary

set_option linter.unusedSectionVars false
set_option linter.unusedSimpArgs false

namespace Phlite
open Finsupp (single linearCombination linearCombination_single)

section
variable {F : Type} [LinearOrder F] [Zero F] [OrderTop F] {n : ℕ} {time : ℕ → ℕ → Option F} {et : EdgeTime F} {E : List (ℕ × ℕ)}
variable {CF K : Type} [NonZeroCoeff CF] [Field K] [LawfulCoeff CF K] {bm : BridgeMap}

/-! ### The primary bridge map -/

/-- C35: `build_primary_bridge_map` does not panic, and the bridge stored for `(a, c)` is the primary bridge; there is one iff some path from `a` to `c`
appears before the arrow `a → c`. -/
theorem C35_bridge_map (h : IsDigraphFiltration et n time) :
    ∃ bm, buildPrimaryBridgeMap et n = some bm ∧ (∀ a c b, bm (a, c) = some b ↔ IsPrimaryBridge n time a c b) ∧
      ∀ a c, (bm (a, c)).isSome ↔ ∃ b m, IsTwoPath n time a b c m ∧ ∀ u, time a c = some u → m < u := by
  obtain ⟨bm, h1, h2⟩ := buildPrimaryBridgeMap_spec h
  refine ⟨bm, h1, h2, fun a c => ?_⟩
  rw [Option.isSome_iff_exists]
  constructor
  · rintro ⟨b, hb⟩
    obtain ⟨m, h3, h4, _⟩ := (h2 _ _ _).1 hb
    exact ⟨b, m, h3, h4⟩
  · rintro ⟨b, m, h3, h4⟩
    obtain ⟨pb, hpb⟩ := exists_bridge h3 h4
    exact ⟨pb, (h2 _ _ _).2 hpb⟩

/-! ### C34 -/

/-- C34: the coboundary column of an arrow (or any pair of vertices in range) can be requested, lists exactly the 2-cells of the filtration that have
the edge in their boundary, once each, and with the coefficient of the edge in the boundary. -/
theorem C34_edge_column (h : IsDigraphFiltration et n time) (hbm : buildPrimaryBridgeMap et n = some bm) {s t : ℕ} (hs : s < n) (ht : t < n) :
    ∃ l, (grpphCoboundary CF et bm E n).column (.edge s t) = some l ∧ (l.map Prod.snd).Nodup ∧
      (∀ c, c ∈ l.map Prod.snd ↔ ∃ τ x, c = .twoCell τ ∧ TwoCellAt n time τ x ∧
        ∃ l', (grpphBoundary CF et E).column c = some l' ∧ PathHomCell.edge s t ∈ l'.map Prod.snd) ∧
      ∀ τ x, TwoCellAt n time τ x → ∀ l', (grpphBoundary CF et E).column (.twoCell τ) = some l' →
        lcOf K l (.twoCell τ) = lcOf K l' (.edge s t) := by
  classical
  obtain ⟨bm', h1, h2⟩ := buildPrimaryBridgeMap_spec h
  rw [hbm] at h1
  cases h1
  obtain ⟨l, a1, a2, a3, a4, a5⟩ := edgeTotal_spec (CF := CF) (K := K) h h2 hs ht
  have inj : Function.Injective PathHomCell.twoCell := fun a b e => by injection e
  have e3 : ∀ τ, lcOf K (l.map fun x => (x.1, PathHomCell.twoCell x.2.1)) (.twoCell τ) = lcOf K (l.map fun x => (x.1, x.2.1)) τ := by
    intro τ
    have : lcOf K (l.map fun x => (x.1, PathHomCell.twoCell x.2.1)) = (lcOf K (l.map fun x => (x.1, x.2.1))).mapDomain .twoCell := by
      clear a1 a2 a3 a4 a5
      induction l with
      | nil => simp
      | cons x l ih =>
        rw [List.map_cons, lcOf_cons, ih, List.map_cons, lcOf_cons, Finsupp.mapDomain_add, Finsupp.mapDomain_single]
    rw [this, Finsupp.mapDomain_apply inj]
  refine ⟨l.map fun x => (x.1, PathHomCell.twoCell x.2.1), ?_, ?_, ?_, ?_⟩
  · show (edgeTotalCoboundary CF bm et n s t).map _ = _
    rw [a1]; rfl
  · rw [List.map_map]
    have := a4.map inj
    rw [List.map_map] at this
    exact this
  · intro c
    rw [List.map_map, List.mem_map]
    constructor
    · rintro ⟨x, hx, rfl⟩
      exact ⟨x.2.1, x.2.2, rfl, a2 x hx, _, rfl, a3 x hx⟩
    · rintro ⟨τ, x, rfl, hτ, l', hl', hmem⟩
      cases hl'
      -- the cell is listed: its coefficient is not zero
      have hne : grpphM K (.twoCell τ) (.edge s t) ≠ 0 := by
        obtain ⟨c1, c2, c3, c4⟩ := hτ.sep h (s := s) (t := t)
        have hE : ∀ a b : ℕ, single (PathHomCell.edge a b) (1 : K) (.edge s t) = if a = s ∧ b = t then 1 else 0 := by
          intro a b
          rw [Finsupp.single_apply]
          refine if_congr ?_ rfl rfl
          simp
        cases τ with
        | doubleEdge a b =>
          have := (IsTwoPath.ne h hτ)
          simp only [grpphBoundaryColumn, List.map_cons, List.map_nil, List.mem_cons, PathHomCell.edge.injEq, List.not_mem_nil, or_false] at hmem
          rw [grpphM, Finsupp.add_apply, hE, hE]
          rcases hmem with ⟨rfl, rfl⟩ | ⟨rfl, rfl⟩
          · rw [if_pos ⟨rfl, rfl⟩, if_neg (by omega)]; simp
          · rw [if_neg (by omega), if_pos ⟨rfl, rfl⟩]; simp
        | directedTriangle a b c =>
          obtain ⟨h1, m, u, hp, _⟩ := hτ
          have := hp.ne h
          simp only [grpphBoundaryColumn, List.map_cons, List.map_nil, List.mem_cons, PathHomCell.edge.injEq, List.not_mem_nil, or_false] at hmem
          rw [grpphM, Finsupp.add_apply, Finsupp.sub_apply, hE, hE, hE]
          rcases hmem with ⟨rfl, rfl⟩ | ⟨rfl, rfl⟩ | ⟨rfl, rfl⟩
          · rw [if_pos ⟨rfl, rfl⟩, if_neg (by omega), if_neg (by omega)]; simp
          · rw [if_neg (by omega), if_pos ⟨rfl, rfl⟩, if_neg (by omega)]; simp
          · rw [if_neg (by omega), if_neg (by omega), if_pos ⟨rfl, rfl⟩]; simp
        | longSquare a b c d =>
          obtain ⟨h1, ⟨m, hp, _⟩, h3, hp', _⟩ := hτ
          have q1 := hp.ne h
          have q2 := hp'.ne h
          simp only [grpphBoundaryColumn, List.map_cons, List.map_nil, List.mem_cons, PathHomCell.edge.injEq, List.not_mem_nil, or_false] at hmem
          rw [grpphM, Finsupp.sub_apply, Finsupp.sub_apply, Finsupp.add_apply, hE, hE, hE, hE]
          rcases hmem with ⟨rfl, rfl⟩ | ⟨rfl, rfl⟩ | ⟨rfl, rfl⟩ | ⟨rfl, rfl⟩
          · rw [if_pos ⟨rfl, rfl⟩, if_neg (by omega), if_neg (by omega), if_neg (by omega)]; simp
          · rw [if_neg (by omega), if_pos ⟨rfl, rfl⟩, if_neg (by omega), if_neg (by omega)]; simp
          · rw [if_neg (by omega), if_neg (by omega), if_pos ⟨rfl, rfl⟩, if_neg (by omega)]; simp
          · rw [if_neg (by omega), if_neg (by omega), if_neg (by omega), if_pos ⟨rfl, rfl⟩]; simp
      rw [← a5 τ x hτ] at hne
      obtain ⟨y, hy, rfl⟩ := lcOf_support hne
      obtain ⟨z, hz, rfl⟩ := List.mem_map.1 hy
      exact ⟨z, hz, rfl⟩
  · intro τ x hτ l' hl'
    cases hl'
    rw [e3, a5 τ x hτ, ← grpphBoundary_lcOf (CF := CF)]

/-- C34: the coboundary column of a node can be requested, lists exactly the edges of the graph and the arrows of the filtration that have the node
in their boundary, with the coefficient of the node in the boundary. -/
theorem C34_node_column (h : IsDigraphFiltration et n time) (hEn : ∀ e ∈ E, e.1 < n ∧ e.2 < n) (bm : BridgeMap) {s : ℕ} (hs : s < n) :
    ∃ l, (grpphCoboundary CF et bm E n).column (.node s) = some l ∧
      (∀ c, c ∈ l.map Prod.snd ↔ ∃ a b, c = .edge a b ∧ a < n ∧ b < n ∧ ((a, b) ∈ E ∨ ∃ x, time a b = some x) ∧
        ∃ l', (grpphBoundary CF et E).column c = some l' ∧ PathHomCell.node s ∈ l'.map Prod.snd) ∧
      ∀ a b, a < n → b < n → ((a, b) ∈ E ∨ ∃ x, time a b = some x) → ∀ l', (grpphBoundary CF et E).column (.edge a b) = some l' →
        lcOf K l (.edge a b) = lcOf K l' (.node s) := by
  classical
  obtain ⟨l, a1, a2, a3⟩ := nodeTotal_spec (CF := CF) (K := K) h hEn hs
  have ie : ∀ {a b}, a < n → b < n → ((a, b) ∈ E ∨ ∃ x, time a b = some x) → IsEdge n time E (a, b) := by
    intro a b ha hb he
    rcases he with he | ⟨x, hx⟩
    · exact Or.inl he
    · exact Or.inr ⟨ha, hb, by rw [hx]; rfl⟩
  have ei : ∀ {e : ℕ × ℕ}, IsEdge n time E e → e.1 < n ∧ e.2 < n ∧ (e ∈ E ∨ ∃ x, time e.1 e.2 = some x) := by
    rintro e (he | he)
    · exact ⟨(hEn e he).1, (hEn e he).2, Or.inl he⟩
    · exact ⟨he.1, he.2.1, Or.inr (Option.isSome_iff_exists.1 he.2.2)⟩
  have rows : ∀ x ∈ l, PathHomCell.node s ∈ (grpphBoundaryColumn CF x.2.1).map Prod.snd := by
    intro x hx
    unfold nodeTotalCoboundary at a1
    obtain ⟨l1, b1, b2⟩ := Option.bind_eq_some_iff.1 a1
    obtain ⟨l2, b3, rfl⟩ := Option.map_eq_some_iff.1 b2
    have key : ∀ (L : List ℕ) (g : ℕ → Option (Option (CF × PathHomCell × F))) (l : List (CF × PathHomCell × F)),
        (∀ j y, g j = some (some y) → PathHomCell.node s ∈ (grpphBoundaryColumn CF y.2.1).map Prod.snd) →
        filterMapOpt g L = some l → ∀ y ∈ l, PathHomCell.node s ∈ (grpphBoundaryColumn CF y.2.1).map Prod.snd := by
      intro L g
      induction L with
      | nil => intro l _ e y hy; cases e; cases hy
      | cons j L ih =>
        intro l hg e y hy
        obtain ⟨o, o1, o2⟩ := Option.bind_eq_some_iff.1 e
        obtain ⟨r, r1, rfl⟩ := Option.map_eq_some_iff.1 o2
        cases o with
        | none => exact ih r hg r1 y hy
        | some z =>
          rcases List.mem_cons.1 hy with rfl | hy
          · exact hg j y o1
          · exact ih r hg r1 y hy
    rcases List.mem_append.1 hx with hx | hx
    · refine key _ _ _ ?_ b1 x hx
      intro j y hy
      split at hy
      · cases hy; simp [grpphBoundaryColumn]
      · obtain ⟨o, _, hy⟩ := Option.map_eq_some_iff.1 hy
        obtain ⟨z, _, rfl⟩ := Option.map_eq_some_iff.1 hy
        simp [grpphBoundaryColumn]
    · refine key _ _ _ ?_ b3 x hx
      intro j y hy
      split at hy
      · cases hy; simp [grpphBoundaryColumn]
      · obtain ⟨o, _, hy⟩ := Option.map_eq_some_iff.1 hy
        obtain ⟨z, _, rfl⟩ := Option.map_eq_some_iff.1 hy
        simp [grpphBoundaryColumn]
  refine ⟨l.map fun x => (x.1, x.2.1), ?_, ?_, ?_⟩
  · show (nodeTotalCoboundary CF et E n s).map _ = _
    rw [a1]; rfl
  · intro c
    rw [List.map_map, List.mem_map]
    constructor
    · rintro ⟨x, hx, rfl⟩
      obtain ⟨e, he, he', _⟩ := a2 x hx
      obtain ⟨e1, e2, e3⟩ := ei he'
      exact ⟨e.1, e.2, he, e1, e2, e3, _, rfl, rows x hx⟩
    · rintro ⟨a, b, rfl, ha, hb, hab, l', hl', hmem⟩
      cases hl'
      by_cases hne : grpphM K (.edge a b) (.node s) = 0
      · -- a self-loop of the graph
        have e : a = b := by
          by_contra hab'
          simp only [grpphBoundaryColumn, List.map_cons, List.map_nil, List.mem_cons, PathHomCell.node.injEq, List.not_mem_nil, or_false] at hmem
          rw [grpphM, Finsupp.sub_apply, Finsupp.single_apply, Finsupp.single_apply] at hne
          simp only [PathHomCell.node.injEq] at hne
          rcases hmem with rfl | rfl
          · rw [if_pos rfl, if_neg hab'] at hne; simp at hne
          · rw [if_neg fun e => hab' e.symm, if_pos rfl] at hne; simp at hne
        subst e
        have e : s = a := by
          simpa [grpphBoundaryColumn] using hmem
        subst e
        have hE : (s, s) ∈ E := by
          rcases hab with hab | ⟨x, hx⟩
          · exact hab
          · rw [h.noLoop s ha] at hx; cases hx
        unfold nodeTotalCoboundary at a1
        obtain ⟨l1, b1, b2⟩ := Option.bind_eq_some_iff.1 a1
        obtain ⟨l2, b3, rfl⟩ := Option.map_eq_some_iff.1 b2
        have key : ∀ (L : List ℕ) (g : ℕ → Option (Option (CF × PathHomCell × F))) (l : List (CF × PathHomCell × F)) (y : CF × PathHomCell × F),
            s ∈ L → g s = some (some y) → filterMapOpt g L = some l → y ∈ l := by
          intro L g
          induction L with
          | nil => intro l y hs; cases hs
          | cons j L ih =>
            intro l y hs hy e
            obtain ⟨o, o1, o2⟩ := Option.bind_eq_some_iff.1 e
            obtain ⟨r, r1, rfl⟩ := Option.map_eq_some_iff.1 o2
            rcases List.mem_cons.1 hs with rfl | hs
            · rw [hy] at o1; cases o1; simp
            · have := ih r y hs hy r1
              cases o with
              | none => exact this
              | some z => exact List.mem_cons_of_mem _ this
        exact ⟨_, List.mem_append_left _ (key _ _ _ _ (List.mem_range.2 hs) (by rw [if_pos hE]) b1), rfl⟩
      · rw [← a3 (a, b) (ie ha hb hab)] at hne
        obtain ⟨y, hy, e⟩ := lcOf_support hne
        obtain ⟨z, hz, rfl⟩ := List.mem_map.1 hy
        exact ⟨z, hz, e⟩
  · intro a b ha hb hab l' hl'
    cases hl'
    rw [a3 (a, b) (ie ha hb hab), ← grpphBoundary_lcOf (CF := CF)]

/-! ### C35 -/

/-- C35: the boundary of a boundary is zero: multiplying the GrPPH boundary matrix by itself (with the library's `product`) gives zero columns. -/
theorem C35_boundary_sq (et : EdgeTime F) (E : List (ℕ × ℕ)) (c : PathHomCell) :
    HasCol K (product (grpphBoundary CF et E).toOracle (grpphBoundary CF et E).toOracle) c 0 := by
  have := C08_product (grpphBoundary CF et E).toOracle (grpphBoundary CF et E).toOracle c (grpphM K) (grpphBoundaryColumn CF c) rfl
    fun t _ => ⟨_, rfl, grpphBoundary_lcOf t.2⟩
  rwa [grpphBoundary_lcOf, grpphM_sq] at this

/-- C35: the coboundary of the coboundary of a node is zero, for the library's `product`; in particular none of the columns involved panics. -/
theorem C35_coboundary_sq (h : IsDigraphFiltration et n time) (hE : E.Nodup) (hEn : ∀ e ∈ E, e.1 < n ∧ e.2 < n)
    (hbm : buildPrimaryBridgeMap et n = some bm) {s : ℕ} (hs : s < n) :
    HasCol K (product (grpphCoboundary CF et bm E n).toOracle (grpphCoboundary CF et bm E n).toOracle) (.node s) 0 := by
  obtain ⟨bm', h1, h2⟩ := buildPrimaryBridgeMap_spec h
  rw [hbm] at h1
  cases h1
  have hc : PathHomCell.node s ∈ grpphCells et n time E 0 := mem_cells0.2 ⟨s, hs, rfl⟩
  obtain ⟨l, a1, _, a3, a4⟩ := grpphCoboundary_spec (CF := CF) (K := K) h hE hEn h2 (by decide) hc
  have := C08_product (grpphCoboundary CF et bm E n).toOracle (grpphCoboundary CF et bm E n).toOracle (.node s) (grpphN K et n time E) _ a1 ?_
  · rwa [a4, (grpphCellComplex (K := K) h hE hEn CF).cosq hc] at this
  · intro t ht
    obtain ⟨x, hx, rfl⟩ := List.mem_map.1 ht
    obtain ⟨l', b1, _, _, b4⟩ := grpphCoboundary_spec (CF := CF) (K := K) h hE hEn h2 (d := 0 + 1) (by decide) (a3 x hx).1
    exact ⟨_, b1, b4⟩

/-- C35: the columns of 2-cells of the coboundary are not implemented; and the column of an edge panics if `edge_time` panics on it. -/
theorem C35_panics (et : EdgeTime F) (bm : BridgeMap) (E : List (ℕ × ℕ)) (n : ℕ) :
    (∀ τ, (grpphCoboundary CF et bm E n).column (.twoCell τ) = none) ∧
    ∀ s t, et s t = none → (grpphCoboundary CF et bm E n).column (.edge s t) = none := by
  refine ⟨fun τ => rfl, fun s t h => ?_⟩
  show (edgeTotalCoboundary CF bm et n s t).map _ = none
  unfold edgeTotalCoboundary triangleBaseCoboundary
  rw [h, Option.map_eq_none_iff, Option.bind_eq_none_iff]
  intro l _
  rfl

/-! ### C32, C36 -/

/-- C32, C36: for every cell of the bases (nodes, edges of the graph, arrows of the filtration) the coboundary's own `column_with_filtration` yields
the entries of `column` in order, each with the `filtration_value` of its row, which does not panic. -/
theorem C36_override (K : Type) [Field K] [LawfulCoeff CF K] (h : IsDigraphFiltration et n time) (hE : E.Nodup) (hEn : ∀ e ∈ E, e.1 < n ∧ e.2 < n)
    (hbm : buildPrimaryBridgeMap et n = some bm) (c : PathHomCell)
    (hc : (∃ s < n, c = .node s) ∨ ∃ a b, c = .edge a b ∧ a < n ∧ b < n ∧ ((a, b) ∈ E ∨ ∃ x, time a b = some x)) :
    ∃ l es, (grpphCoboundary CF et bm E n).column c = some l ∧ (grpphCoboundary CF et bm E n).colF c = some es ∧
      es.map (fun e => (e.coeff, e.row)) = l ∧ ∀ e ∈ es, (grpphCoboundary CF et bm E n).filt e.row = some e.filt := by
  obtain ⟨bm', h1, h2⟩ := buildPrimaryBridgeMap_spec h
  rw [hbm] at h1
  cases h1
  have fin : ∀ {d : ℤ}, d < 2 → c ∈ grpphCells et n time E d → ∃ l es, (grpphCoboundary CF et bm E n).column c = some l ∧
      (grpphCoboundary CF et bm E n).colF c = some es ∧
      es.map (fun e => (e.coeff, e.row)) = l ∧ ∀ e ∈ es, (grpphCoboundary CF et bm E n).filt e.row = some e.filt := by
    intro d hd hc
    obtain ⟨l, a1, a2, a3, _⟩ := grpphCoboundary_spec (CF := CF) (K := K) h hE hEn h2 hd hc
    refine ⟨_, _, a1, a2, by rw [List.map_map]; rfl, ?_⟩
    intro e he
    obtain ⟨x, hx, rfl⟩ := List.mem_map.1 he
    exact (a3 x hx).2
  rcases hc with ⟨s, hs, rfl⟩ | ⟨a, b, rfl, ha, hb, hab⟩
  · exact fin (d := 0) (by decide) (mem_cells0.2 ⟨s, hs, rfl⟩)
  · refine fin (d := 1) (by decide) (mem_cells1.2 ⟨(a, b), rfl, ?_⟩)
    rcases hab with hab | ⟨x, hx⟩
    · exact Or.inl hab
    · exact Or.inr ⟨ha, hb, by rw [hx]; rfl⟩

/-- C36: `filtration_value` does not panic on nodes, edges of the graph, arrows and 2-cells of the filtration, returns the times of the
specification, and agrees between the boundary and the coboundary. -/
theorem C36_filtration_values (h : IsDigraphFiltration et n time) (bm : BridgeMap) :
    (grpphCoboundary CF et bm E n).filt = (grpphBoundary CF et E).filt ∧
    (∀ s, (grpphCoboundary CF et bm E n).filt (.node s) = some 0) ∧
    (∀ e ∈ E, (grpphCoboundary CF et bm E n).filt (.edge e.1 e.2) = some 0) ∧
    (∀ e ∉ E, e.1 < n → e.2 < n → ∀ x, time e.1 e.2 = some x → (grpphCoboundary CF et bm E n).filt (.edge e.1 e.2) = some x) ∧
    ∀ τ x, TwoCellAt n time τ x → (grpphCoboundary CF et bm E n).filt (.twoCell τ) = some x := by
  refine ⟨rfl, fun s => rfl, ?_, ?_, fun τ x hτ => hτ.filt h E⟩
  · intro e he
    show (if (e.1, e.2) ∈ E then some 0 else (et e.1 e.2).bind id) = some 0
    rw [if_pos he]
  · intro e he h1 h2 x hx
    show (if (e.1, e.2) ∈ E then some 0 else (et e.1 e.2).bind id) = some x
    rw [if_neg he, h.entry _ h1 _ h2, hx]; rfl

/-- C36: the rows of a boundary column appear no later than the column: for edges of the graph, arrows and 2-cells of the filtration, if no time
is negative. -/
theorem C36_monotone (h : IsDigraphFiltration et n time) (h0 : ∀ a < n, ∀ b < n, ∀ x, time a b = some x → 0 ≤ x) (c : PathHomCell)
    (hc : (∃ a b, c = .edge a b ∧ a < n ∧ b < n ∧ ((a, b) ∈ E ∨ ∃ x, time a b = some x)) ∨ ∃ τ x, c = .twoCell τ ∧ TwoCellAt n time τ x) :
    ∃ l fc, (grpphBoundary CF et E).column c = some l ∧ (grpphBoundary CF et E).filt c = some fc ∧
      ∀ t ∈ l, ∃ fr ≤ fc, (grpphBoundary CF et E).filt t.2 = some fr := by
  have edge : ∀ a b, a < n → b < n → ((a, b) ∈ E ∨ ∃ x, time a b = some x) → ∃ fc, 0 ≤ fc ∧ grpphFiltrationValue et E (.edge a b) = some fc ∧
      ∀ x, time a b = some x → fc ≤ x := by
    intro a b ha hb hab
    by_cases hE : (a, b) ∈ E
    · refine ⟨0, le_rfl, ?_, fun x hx => h0 a ha b hb x hx⟩
      show (if (a, b) ∈ E then some 0 else (et a b).bind id) = some 0
      rw [if_pos hE]
    · obtain ⟨x, hx⟩ := hab.resolve_left hE
      refine ⟨x, h0 a ha b hb x hx, ?_, fun y hy => ?_⟩
      · show (if (a, b) ∈ E then some 0 else (et a b).bind id) = some x
        rw [if_neg hE, h.entry a ha b hb, hx]; rfl
      · rw [hx] at hy; cases hy; exact le_rfl
  rcases hc with ⟨a, b, rfl, ha, hb, hab⟩ | ⟨τ, x, rfl, hτ⟩
  · obtain ⟨fc, q0, h1, _⟩ := edge a b ha hb hab
    refine ⟨_, fc, rfl, h1, ?_⟩
    intro t ht
    simp only [grpphBoundaryColumn, List.mem_cons, List.not_mem_nil, or_false] at ht
    rcases ht with rfl | rfl <;> exact ⟨0, q0, rfl⟩
  · refine ⟨_, x, rfl, hτ.filt h E, ?_⟩
    intro t ht
    obtain ⟨e, he, e1, e2, u, hu, hu'⟩ := twoCell_edges (CF := CF) h E hτ t ht
    obtain ⟨fr, _, h1, h2⟩ := edge e.1 e.2 e1 e2 (Or.inr ⟨u, hu'⟩)
    exact ⟨fr, (h2 u hu').trans hu, by rw [he]; exact h1⟩

/-- C32: the matrices returned by `GrPPHCoboundary::build` and `GrPPHBoundary::build`, and the references and reverses used by the Python
functions, list the entries of `column` with `filtration_value` of each row, for every column. -/
theorem C32_grpph_wrapped (et : EdgeTime F) (E : List (ℕ × ℕ)) (n : ℕ) (basis : List (F × PathHomCell)) :
    Enriches (grpphBoundary CF et E) ∧ Enriches (buildGrpphBoundary CF et E basis).1 ∧ Enriches (buildGrpphBoundary CF et E basis).1.ref ∧
    ∀ D B, buildGrpphCoboundary CF et E n = some (D, B) →
      (∃ bm, buildPrimaryBridgeMap et n = some bm ∧ D.toOracle = (grpphCoboundary CF et bm E n).toOracle) ∧
      Enriches D ∧ Enriches D.ref ∧ Enriches D.ref.reverse ∧ Enriches D.ref.reverse.ref := by
  refine ⟨fun _ => rfl, fun _ => rfl, fun _ => rfl, ?_⟩
  intro D B h
  obtain ⟨bm, h1, h2⟩ := Option.bind_eq_some_iff.1 h
  obtain ⟨b, _, e⟩ := Option.map_eq_some_iff.1 h2
  obtain ⟨rfl, rfl⟩ := Prod.mk.inj e
  refine ⟨⟨bm, h1, rfl⟩, fun _ => rfl, fun _ => rfl, ?_, fun _ => rfl⟩
  rw [← reverse_ref]; exact fun _ => rfl

/-! ### C37 -/

/-- C37: `build_basis` succeeds and returns two lists. The first lists each node once, at time 0; the second lists each edge of the graph once at time
0, and each other arrow of the filtration once at its time, and nothing else. Both are strictly sorted by (time, cell). -/
theorem C37_bases (h : IsDigraphFiltration et n time) (hE : E.Nodup) :
    ∃ b0 b1, buildGrpphBasis et E n = some [b0, b1] ∧
      (∀ x c, (x, c) ∈ b0 ↔ x = 0 ∧ ∃ s < n, c = .node s) ∧
      (∀ x c, (x, c) ∈ b1 ↔ ∃ a b, c = .edge a b ∧ (((a, b) ∈ E ∧ x = 0) ∨ ((a, b) ∉ E ∧ a < n ∧ b < n ∧ time a b = some x))) ∧
      (b0.map Prod.snd).Nodup ∧ (b1.map Prod.snd).Nodup ∧
      b0.Pairwise (fun a b => toLex a < toLex b) ∧ b1.Pairwise fun a b => toLex a < toLex b := by
  refine ⟨_, _, buildGrpphBasis_spec h E, ?_, ?_, sort_map_nodup (raw0_nodup n), sort_map_nodup (raw1_nodup hE), sort_lex (raw0_nodup n),
    sort_lex (raw1_nodup hE)⟩
  · intro x c
    rw [List.mem_insertionSort, raw0, List.mem_map]
    constructor
    · rintro ⟨s, hs, e⟩
      obtain ⟨rfl, rfl⟩ := Prod.mk.inj e
      exact ⟨rfl, s, List.mem_range.1 hs, rfl⟩
    · rintro ⟨rfl, s, hs, rfl⟩
      exact ⟨s, List.mem_range.2 hs, rfl⟩
  · intro x c
    rw [List.mem_insertionSort, mem_raw1]
    constructor
    · rintro ⟨e, he, hh⟩; exact ⟨e.1, e.2, he, hh⟩
    · rintro ⟨a, b, he, hh⟩; exact ⟨(a, b), he, hh⟩

/-- C37: the order of cells: nodes come before edges, edges before 2-cells, and among the 2-cells double edges before triangles before long squares; within a kind the
vertices are compared one after the other. -/
theorem C37_cell_order (a b c d a' b' c' d' : ℕ) (x : PathHom2Cell) :
    (PathHomCell.node a < .edge a' b' ∧ PathHomCell.node a < .twoCell x ∧ PathHomCell.edge a b < .twoCell x) ∧
    (PathHomCell.twoCell (.doubleEdge a b) < .twoCell (.directedTriangle a' b' c') ∧ PathHomCell.twoCell (.doubleEdge a b) < .twoCell (.longSquare a' b' c' d') ∧
      PathHomCell.twoCell (.directedTriangle a b c) < .twoCell (.longSquare a' b' c' d')) ∧
    (PathHomCell.node a < .node a' ↔ a < a') ∧
    (PathHomCell.edge a b < .edge a' b' ↔ a < a' ∨ a = a' ∧ b < b') ∧
    (PathHomCell.twoCell (.doubleEdge a b) < .twoCell (.doubleEdge a' b') ↔ a < a' ∨ a = a' ∧ b < b') ∧
    (PathHomCell.twoCell (.directedTriangle a b c) < .twoCell (.directedTriangle a' b' c') ↔ a < a' ∨ a = a' ∧ (b < b' ∨ b = b' ∧ c < c')) ∧
    (PathHomCell.twoCell (.longSquare a b c d) < .twoCell (.longSquare a' b' c' d') ↔
      a < a' ∨ a = a' ∧ (b < b' ∨ b = b' ∧ (c < c' ∨ c = c' ∧ d < d'))) := by
  have key : ∀ x y : PathHomCell, x < y ↔ x.key < y.key := fun _ _ => Iff.rfl
  simp only [key, PathHomCell.key, PathHom2Cell.key, List.cons_lt_cons_iff, List.not_lt_nil]
  cases x <;> simp [PathHom2Cell.key]

/-- C37: the bases do not depend on the order in which the hash set of edges is iterated. -/
theorem C37_order_independent (h : IsDigraphFiltration et n time) (hE : E.Nodup) {E' : List (ℕ × ℕ)} (hp : E.Perm E') :
    buildGrpphBasis et E n = buildGrpphBasis et E' n := by
  have hE' := hp.nodup_iff.1 hE
  obtain ⟨b0, b1, h1, h2, h3, _, _, h6, h7⟩ := C37_bases h hE
  obtain ⟨b0', b1', h1', h2', h3', _, _, h6', h7'⟩ := C37_bases h hE'
  have key : ∀ {l l' : List (F × PathHomCell)}, (l.Pairwise fun a b => toLex a < toLex b) → (l'.Pairwise fun a b => toLex a < toLex b) →
      (∀ x c, (x, c) ∈ l ↔ (x, c) ∈ l') → l = l' := by
    intro l l' hl hl' hm
    have nd : ∀ {l : List (F × PathHomCell)}, (l.Pairwise fun a b => toLex a < toLex b) → l.Nodup :=
      fun hl => hl.imp fun {a b} hab (e : a = b) => by subst e; exact lt_irrefl _ hab
    have hperm : l.Perm l' := (List.perm_ext_iff_of_nodup (nd hl) (nd hl')).2 fun a => hm a.1 a.2
    exact hperm.eq_of_pairwise (fun a b _ _ hab hba => absurd (hab.trans hba) (lt_irrefl _)) hl hl'
  have e0 : b0 = b0' := key h6 h6' fun x c => (h2 x c).trans (h2' x c).symm
  have e1 : b1 = b1' := key h7 h7' fun x c => by
    rw [h3, h3']
    simp only [hp.mem_iff]
  rw [h1, h1', e0, e1]

/-! ### C41 -/

/-- C41: if all endpoints are below 65536, the stored edge set is exactly the set of edges of the input, without repetitions. -/
theorem C41_edge_set {W : Type} (edges : List (ℕ × ℕ × W)) (h : ∀ e ∈ edges, e.1 < 65536 ∧ e.2.1 < 65536) :
    (buildEdgeSet edges).Nodup ∧ ∀ i j, (i, j) ∈ buildEdgeSet edges ↔ ∃ w, (i, j, w) ∈ edges := by
  refine ⟨List.nodup_dedup _, fun i j => ?_⟩
  unfold buildEdgeSet asU16
  rw [List.mem_dedup, List.mem_map]
  constructor
  · rintro ⟨⟨a, b, w⟩, he, e⟩
    obtain ⟨h1, h2⟩ := h _ he
    simp only [Prod.mk.injEq] at e h1 h2
    rw [Nat.mod_eq_of_lt h1, Nat.mod_eq_of_lt h2] at e
    obtain ⟨rfl, rfl⟩ := e
    exact ⟨w, he⟩
  · rintro ⟨w, he⟩
    obtain ⟨h1, h2⟩ := h _ he
    refine ⟨_, he, ?_⟩
    rw [Nat.mod_eq_of_lt h1, Nat.mod_eq_of_lt h2]

/-- C41: in general it is the set of edges with endpoints reduced modulo 65536; so vertices that differ by a multiple of 65536 are identified. -/
theorem C41_truncation {W : Type} (edges : List (ℕ × ℕ × W)) (i j : ℕ) :
    (i, j) ∈ buildEdgeSet edges ↔ ∃ a b w, (a, b, w) ∈ edges ∧ i = a % 65536 ∧ j = b % 65536 := by
  unfold buildEdgeSet asU16
  rw [List.mem_dedup, List.mem_map]
  constructor
  · rintro ⟨⟨a, b, w⟩, he, e⟩
    obtain ⟨rfl, rfl⟩ := Prod.mk.inj e
    exact ⟨a, b, w, he, rfl, rfl⟩
  · rintro ⟨a, b, w, he, rfl, rfl⟩
    exact ⟨_, he, rfl⟩

/-- The edges `0 → 1` and `65536 → 1` are identified. -/
example : buildEdgeSet [(0, 1, ()), (65536, 1, ())] = [(0, 1)] := by decide +kernel

/-- C41: the filtration built from a table of lengths is a digraph filtration in the sense of the other theorems. (The hypothesis holds of tables of finite lengths, see
`TopClosed.of_finite`, and of all tables of shortest path lengths, see `IsShortestPaths.topClosed`.) -/
theorem C41_filtration (n : ℕ) (sp : ℕ → ℕ → Option F) (h0 : TopClosed n sp) :
    IsDigraphFiltration (vecEdgeTime (buildFiltration n sp)) n fun i j => if i = j then none else sp i j where
  entry a ha b hb := by
    unfold vecEdgeTime buildFiltration
    rw [List.getElem?_map, List.getElem?_range ha, Option.map_some, Option.bind_some, List.getElem?_map, List.getElem?_range hb]
    rfl
  noLoop a _ := if_pos rfl
  top_closed a ha b hb c hc hac x y hx hy hxy := by
    simp only [if_neg hac]
    beta_reduce at hx hy
    split at hx
    · cases hx
    split at hy
    · cases hy
    exact h0 a ha b hb c hc hac x y hx hy hxy

end

/-! ### A filtration with bridges, a collapse and a double edge meets the hypotheses -/
namespace GrPPHExample

/-- Arrow times: `0 → 1 → 3` and `0 → 2 → 3` appear before `0 → 3`, which appears before `2 → 3`'s partner `0 → 4 → 3`; `1 ⇄ 0`. -/
def table : List (List (Option ℕ)) :=
  [[none, some 1, some 2, some 3, some 1], [some 4, none, none, some 1, none], [none, none, none, some 2, none], [none, none, none, none, none],
   [none, none, none, some 5, none]]

def sp (i j : ℕ) : Option (WithTop ℕ) := (((table.getD i []).getD j none)).map fun k => ((k : ℕ) : WithTop ℕ)

theorem sp_ok : ∀ i j x, sp i j = some x → 0 ≤ x ∧ x < ⊤ := by
  intro i j x hx
  obtain ⟨k, _, rfl⟩ := Option.map_eq_some_iff.1 hx
  exact ⟨bot_le, WithTop.coe_lt_top k⟩

def E : List (ℕ × ℕ) := buildEdgeSet [(0, 1, 1), (1, 3, 1), (0, 2, 2), (1, 0, 4)]

def et : EdgeTime (WithTop ℕ) := vecEdgeTime (buildFiltration 5 sp)

/-- All the hypotheses of C34-C37 hold. -/
theorem isFiltration : IsDigraphFiltration et 5 fun i j => if i = j then none else sp i j := C41_filtration 5 sp (TopClosed.of_finite fun i _ j _ x hx => (sp_ok i j x hx).2)

example : E.Nodup ∧ (∀ e ∈ E, e.1 < 5 ∧ e.2 < 5) ∧ E = [(0, 1), (1, 3), (0, 2), (1, 0)] := by decide +kernel

/-- The column of the edge `0 → 1` contains the two double edges, the collapsed triangle `0 → 1 → 3` (at the time 3 of the arrow `0 → 3`), and (with
coefficient -1) the long square over the primary bridge 1; the column of `0 → 3` contains that triangle and the conventional triangle over 4. -/
example : ((buildPrimaryBridgeMap et 5).bind fun bm => (grpphCoboundary (ZP 3) et bm E 5).colF (.edge 0 1)).map
      (fun l => l.map fun e => (e.filt, e.row, e.coeff.1)) =
    some [(4, .twoCell (.doubleEdge 1 0), 1), (4, .twoCell (.doubleEdge 0 1), 1), (3, .twoCell (.directedTriangle 0 1 3), 1),
      (2, .twoCell (.longSquare 0 1 2 3), 2)] ∧
    ((buildPrimaryBridgeMap et 5).bind fun bm => (grpphCoboundary (ZP 3) et bm E 5).colF (.edge 0 3)).map
      (fun l => l.map fun e => (e.filt, e.row, e.coeff.1)) =
    some [(4, .twoCell (.directedTriangle 1 0 3), 1), (3, .twoCell (.directedTriangle 0 1 3), 2), (5, .twoCell (.directedTriangle 0 4 3), 2)] := by
  decide +kernel

end GrPPHExample
end Phlite
