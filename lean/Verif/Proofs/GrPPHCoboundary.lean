/-
The columns of the GrPPH coboundary are those of the transpose of the boundary.
-/
import Verif.Proofs.GrPPHComplex

set_option linter.unusedSectionVars false
set_option linter.unusedSimpArgs false

namespace Phlite
open Finsupp (single linearCombination linearCombination_single)

section
variable {CF K Row : Type} [NonZeroCoeff CF] [Field K] [LawfulCoeff CF K]

theorem lcOf_flatMap_apply {α : Type} (g : α → List (CF × Row)) (l : List α) (r : Row) :
    lcOf K (l.flatMap g) r = (l.map fun a => lcOf K (g a) r).sum := by
  induction l with
  | nil => simp
  | cons x l ih => rw [List.flatMap_cons, lcOf_append, Finsupp.add_apply, ih, List.map_cons, List.sum_cons]

theorem sum_single_fst (K : Type) [Field K] {l : List ℕ} (hl : l.Nodup) (x y z s t : ℕ) :
    (l.map fun i => single (x, y, z) (1 : K) (i, s, t)).sum = if x ∈ l ∧ (y, z) = (s, t) then 1 else 0 := by
  induction l with
  | nil => simp
  | cons i l ih =>
    rw [List.nodup_cons] at hl
    rw [List.map_cons, List.sum_cons, ih hl.2, Finsupp.single_apply]
    by_cases e : (y, z) = (s, t)
    · obtain ⟨rfl, rfl⟩ := Prod.mk.inj e
      by_cases hx : x = i
      · subst hx; simp [hl.1]
      · simp [hx]
    · have e' : ¬ (x, y, z) = (i, s, t) := fun h => e (Prod.mk.inj h).2
      rw [if_neg e', if_neg fun h => e h.2, if_neg fun h => e h.2, add_zero]

theorem sum_single_last (K : Type) [Field K] {l : List ℕ} (hl : l.Nodup) (x y z s t : ℕ) :
    (l.map fun i => single (x, y, z) (1 : K) (s, t, i)).sum = if z ∈ l ∧ (x, y) = (s, t) then 1 else 0 := by
  induction l with
  | nil => simp
  | cons i l ih =>
    rw [List.nodup_cons] at hl
    rw [List.map_cons, List.sum_cons, ih hl.2, Finsupp.single_apply]
    by_cases e : (x, y) = (s, t)
    · obtain ⟨rfl, rfl⟩ := Prod.mk.inj e
      by_cases hx : z = i
      · subst hx; simp [hl.1]
      · simp [hx]
    · have e' : ¬ (x, y, z) = (s, t, i) := by
        intro h
        simp only [Prod.mk.injEq] at h
        exact e (by rw [h.1, h.2.1])
      rw [if_neg e', if_neg fun h => e h.2, if_neg fun h => e h.2, add_zero]

theorem sum_map_sub {α : Type} (l : List α) (f g : α → K) : (l.map fun i => f i - g i).sum = (l.map f).sum - (l.map g).sum := by
  induction l with
  | nil => simp
  | cons x l ih => simp only [List.map_cons, List.sum_cons, ih]; ring

end

section
variable {F : Type} [LinearOrder F] [Zero F] [OrderTop F] {n : ℕ} {time : ℕ → ℕ → Option F} {et : EdgeTime F} {E : List (ℕ × ℕ)}
variable {CF K : Type} [NonZeroCoeff CF] [Field K] [LawfulCoeff CF K] {bm : BridgeMap}

/-! ### Triangles over their base -/

/-- The triangles with base `s → t`, with their times. -/
def triBase (n : ℕ) (time : ℕ → ℕ → Option F) (bm : BridgeMap) (s t : ℕ) (u : F) : List (PathHom2Cell × F) :=
  ((bm (s, t)).toList.map fun pb => (.directedTriangle s pb t, u)) ++
    (((List.range n).filter (s ≠ ·)).filter (t ≠ ·)).filterMap fun b => match ptime time s b t with
      | none => none
      | some m => if m < u then none else some (.directedTriangle s b t, m)

theorem triangleBase_eq (h : IsDigraphFiltration et n time) {s t : ℕ} (hs : s < n) (ht : t < n) (bm : BridgeMap) :
    triangleBaseCoboundary CF bm et n s t = some ((time s t).map fun u =>
      (triBase n time bm s t u).map fun x => (NonZeroCoeff.neg NonZeroCoeff.one, x.1, x.2)) := by
  unfold triangleBaseCoboundary
  rw [h.entry s hs t ht, Option.bind_some]
  cases time s t with
  | none => rfl
  | some u =>
    simp only [Option.map_some]
    rw [filterMapOpt_eq _ (fun b => (match ptime time s b t with
      | none => none
      | some m => if m < u then none else some (NonZeroCoeff.neg (NonZeroCoeff.one : CF), PathHom2Cell.directedTriangle s b t, m)))]
    · rw [Option.map_some]
      congr 2
      unfold triBase
      rw [List.map_append, List.map_map, List.map_filterMap]
      congr 1
      refine List.filterMap_congr fun b _ => ?_
      cases ptime time s b t with
      | none => rfl
      | some m => simp only; split <;> rfl
    · intro b hb
      simp only [List.mem_filter, List.mem_range] at hb
      rw [twoPathTime_eq h hs hb.1.1 ht]
      cases ptime time s b t <;> rfl

theorem mem_triBase (h : IsDigraphFiltration et n time) (hbm : ∀ a c b, bm (a, c) = some b ↔ IsPrimaryBridge n time a c b)
    {s t : ℕ} (hs : s < n) (ht : t < n) {u : F} (hu : time s t = some u) {τ : PathHom2Cell} {x : F} :
    (τ, x) ∈ triBase n time bm s t u ↔ (∃ b, τ = .directedTriangle s b t) ∧ TwoCellAt n time τ x := by
  have hne : s ≠ t := by
    rintro rfl; rw [h.noLoop s hs] at hu; cases hu
  unfold triBase
  rw [List.mem_append, List.mem_map, List.mem_filterMap]
  constructor
  · rintro (⟨pb, hpb, e⟩ | ⟨b, hb, e⟩)
    · have hpb := (hbm _ _ _).1 (Option.mem_toList.1 hpb)
      obtain ⟨rfl, rfl⟩ := Prod.mk.inj e
      refine ⟨⟨pb, rfl⟩, hne, ?_⟩
      obtain ⟨m, h1, h2, _⟩ := id hpb
      exact ⟨m, u, h1, hu, Or.inr hpb, (max_eq_right (h2 u hu).le).symm⟩
    · simp only [List.mem_filter, List.mem_range] at hb
      cases hm : ptime time s b t with
      | none => rw [hm] at e; cases e
      | some m =>
        rw [hm] at e
        simp only at e
        split at e
        · cases e
        · rename_i hlt
          obtain ⟨rfl, rfl⟩ := Prod.mk.inj (Option.some.inj e)
          exact ⟨⟨b, rfl⟩, hne, m, u, (ptime_iff hs hb.1.1 ht m).1 hm, hu, Or.inl (not_lt.1 hlt), (max_eq_left (not_lt.1 hlt)).symm⟩
  · rintro ⟨⟨b, rfl⟩, _, m, u', h1, h2, h3, rfl⟩
    rw [hu] at h2
    cases h2
    by_cases hlt : m < u
    · refine Or.inl ⟨b, Option.mem_toList.2 ((hbm _ _ _).2 (h3.resolve_left (not_le.2 hlt))), ?_⟩
      rw [max_eq_right hlt.le]
    · refine Or.inr ⟨b, ?_, ?_⟩
      · have := h1.ne h
        simp only [List.mem_filter, List.mem_range, ne_eq, decide_not, Bool.not_eq_eq_eq_not, Bool.not_true, decide_eq_false_iff_not]
        exact ⟨⟨h1.2.1, this.1⟩, fun e => this.2 e.symm⟩
      · rw [(ptime_iff hs h1.2.1 ht m).2 h1]
        simp only
        rw [if_neg hlt, max_eq_left (not_lt.1 hlt)]

theorem triBase_nodup (hbm : ∀ a c b, bm (a, c) = some b ↔ IsPrimaryBridge n time a c b)
    {s t : ℕ} (hs : s < n) (ht : t < n) {u : F} (hu : time s t = some u) : ((triBase n time bm s t u).map Prod.fst).Nodup := by
  have key : ∀ {b : ℕ} {y : PathHom2Cell × F}, (match ptime time s b t with
      | none => none
      | some m => if m < u then none else some (PathHom2Cell.directedTriangle s b t, m)) = some y →
      y.1 = .directedTriangle s b t ∧ ∃ m, ptime time s b t = some m ∧ ¬ m < u := by
    intro b y hy
    cases hm : ptime time s b t with
    | none => rw [hm] at hy; cases hy
    | some m =>
      rw [hm] at hy
      simp only at hy
      split at hy
      · cases hy
      · rename_i hlt
        rw [← Option.some.inj hy]; exact ⟨rfl, m, rfl, hlt⟩
  unfold triBase
  rw [List.map_append, List.nodup_append]
  refine ⟨?_, ?_, ?_⟩
  · cases bm (s, t) <;> simp
  · refine filterMap_nodup _ _ ((List.nodup_range.filter _).filter _) ?_
    intro b _ b' _ y y' hy hy' e
    rw [(key hy).1, (key hy').1] at e
    injection e
  · intro x hx y hy e
    subst e
    obtain ⟨z, hz, rfl⟩ := List.mem_map.1 hx
    obtain ⟨pb, hpb, rfl⟩ := List.mem_map.1 hz
    obtain ⟨w, hw, e⟩ := List.mem_map.1 hy
    obtain ⟨b, hb, hw⟩ := List.mem_filterMap.1 hw
    simp only [List.mem_filter, List.mem_range] at hb
    obtain ⟨e1, m, hm, hlt⟩ := key hw
    rw [e1] at e
    injection e with _ e _
    subst e
    obtain ⟨m', h1, h2, _⟩ := (hbm _ _ _).1 (Option.mem_toList.1 hpb)
    rw [h1.unique ((ptime_iff hs hb.1.1 ht m).1 hm)] at h2
    exact hlt (h2 u hu)

theorem triangleBase_spec (h : IsDigraphFiltration et n time) (hbm : ∀ a c b, bm (a, c) = some b ↔ IsPrimaryBridge n time a c b)
    {s t : ℕ} (hs : s < n) (ht : t < n) :
    ∃ o, triangleBaseCoboundary CF bm et n s t = some o ∧ (∀ x ∈ o.getD [], TwoCellAt n time x.2.1 x.2.2) ∧
      (∀ x ∈ o.getD [], ∃ b, x.2.1 = .directedTriangle s b t) ∧ ((o.getD []).map fun x => x.2.1).Nodup ∧
      ∀ τ x, TwoCellAt n time τ x → lcOf K ((o.getD []).map fun x => (x.1, x.2.1)) τ =
        match τ with
        | .directedTriangle a _ c => if (a, c) = (s, t) then -1 else 0
        | _ => 0 := by
  classical
  refine ⟨_, triangleBase_eq h hs ht bm, ?_⟩
  cases hu : time s t with
  | none =>
    refine ⟨by simp, by simp, by simp, ?_⟩
    intro τ x hτ
    simp only [Option.map_none, Option.getD_none, List.map_nil, lcOf_nil, Finsupp.coe_zero, Pi.zero_apply]
    cases τ with
    | directedTriangle a b c =>
      simp only
      rw [if_neg]
      intro e
      obtain ⟨rfl, rfl⟩ := Prod.mk.inj e
      obtain ⟨_, _, u, _, h2, _⟩ := hτ
      rw [hu] at h2; cases h2
    | doubleEdge => rfl
    | longSquare => rfl
  | some u =>
    simp only [Option.map_some, Option.getD_some, List.map_map, Function.comp_def]
    refine ⟨?_, ?_, triBase_nodup hbm hs ht hu, ?_⟩
    · intro x hx
      obtain ⟨y, hy, rfl⟩ := List.mem_map.1 hx
      exact ((mem_triBase h hbm hs ht hu).1 (show (y.1, y.2) ∈ _ from hy)).2
    · intro x hx
      obtain ⟨y, hy, rfl⟩ := List.mem_map.1 hx
      exact ((mem_triBase h hbm hs ht hu).1 (show (y.1, y.2) ∈ _ from hy)).1
    · intro τ x hτ
      have e : (triBase n time bm s t u).map (fun x => ((NonZeroCoeff.neg NonZeroCoeff.one : CF), x.1)) =
          ((triBase n time bm s t u).map Prod.fst).map fun x => (NonZeroCoeff.neg NonZeroCoeff.one, x) := by rw [List.map_map]; rfl
      rw [e, lcOf_const _ _ (triBase_nodup hbm hs ht hu), LawfulCoeff.val_neg, LawfulCoeff.val_one]
      have hmem : τ ∈ (triBase n time bm s t u).map Prod.fst ↔ ∃ b, τ = .directedTriangle s b t := by
        rw [List.mem_map]
        constructor
        · rintro ⟨y, hy, rfl⟩
          exact ((mem_triBase h hbm hs ht hu).1 (show (y.1, y.2) ∈ _ from hy)).1
        · intro hb
          exact ⟨(τ, x), (mem_triBase h hbm hs ht hu).2 ⟨hb, hτ⟩, rfl⟩
      rw [if_congr hmem rfl rfl]
      cases τ with
      | doubleEdge a b => simp
      | longSquare a b c d => simp
      | directedTriangle a b c =>
        simp only
        refine if_congr ?_ rfl rfl
        simp only [PathHom2Cell.directedTriangle.injEq, Prod.mk.injEq]
        constructor
        · rintro ⟨_, h1, _, h2⟩; exact ⟨h1, h2⟩
        · rintro ⟨h1, h2⟩; exact ⟨b, h1, rfl, h2⟩

/-! ### Columns of edges -/

/-- The paths of a 2-cell. -/
def HasPath : PathHom2Cell → ℕ × ℕ × ℕ → Prop
  | .doubleEdge a b, p => p = (a, b, a)
  | .directedTriangle a b c, p => p = (a, b, c)
  | .longSquare a b c d, p => p = (a, c, d) ∨ p = (a, b, d)

theorem hasPath_of_ne {τ : PathHom2Cell} {p : ℕ × ℕ × ℕ} (h : cellChain K τ p ≠ 0) : HasPath τ p := by
  classical
  cases τ with
  | doubleEdge a b =>
    by_contra hne
    exact h (Finsupp.single_eq_of_ne hne)
  | directedTriangle a b c =>
    by_contra hne
    exact h (Finsupp.single_eq_of_ne hne)
  | longSquare a b c d =>
    by_contra hne
    refine h ?_
    rw [cellChain, Finsupp.sub_apply, Finsupp.single_eq_of_ne fun e => hne (Or.inl e), Finsupp.single_eq_of_ne fun e => hne (Or.inr e), sub_zero]

/-- A cell without repeated path vertices has an edge once in the first position, or once in the second, or once as a base. -/
theorem hasPath_edges (CF : Type) [NonZeroCoeff CF] {τ : PathHom2Cell} {a b c : ℕ} (h : HasPath τ (a, b, c)) :
    PathHomCell.edge a b ∈ (grpphBoundaryColumn CF (.twoCell τ)).map Prod.snd ∧
    PathHomCell.edge b c ∈ (grpphBoundaryColumn CF (.twoCell τ)).map Prod.snd := by
  cases τ with
  | doubleEdge x y =>
    cases h
    simp [grpphBoundaryColumn]
  | directedTriangle x y z =>
    cases h
    simp [grpphBoundaryColumn]
  | longSquare x y z w =>
    rcases h with h | h <;> cases h <;> simp [grpphBoundaryColumn]

theorem boundary_edge_cases (CF : Type) [NonZeroCoeff CF] {τ : PathHom2Cell} {s t : ℕ}
    (h : PathHomCell.edge s t ∈ (grpphBoundaryColumn CF (.twoCell τ)).map Prod.snd) :
    (∃ i, HasPath τ (i, s, t)) ∨ (∃ i, HasPath τ (s, t, i)) ∨ ∃ b, τ = .directedTriangle s b t := by
  cases τ with
  | doubleEdge a b =>
    simp only [grpphBoundaryColumn, List.map_cons, List.map_nil, List.mem_cons, PathHomCell.edge.injEq, List.not_mem_nil, or_false] at h
    rcases h with ⟨rfl, rfl⟩ | ⟨rfl, rfl⟩
    · exact Or.inr (Or.inl ⟨s, rfl⟩)
    · exact Or.inl ⟨t, rfl⟩
  | directedTriangle a b c =>
    simp only [grpphBoundaryColumn, List.map_cons, List.map_nil, List.mem_cons, PathHomCell.edge.injEq, List.not_mem_nil, or_false] at h
    rcases h with ⟨rfl, rfl⟩ | ⟨rfl, rfl⟩ | ⟨rfl, rfl⟩
    · exact Or.inl ⟨a, rfl⟩
    · exact Or.inr (Or.inr ⟨b, rfl⟩)
    · exact Or.inr (Or.inl ⟨c, rfl⟩)
  | longSquare a b c d =>
    simp only [grpphBoundaryColumn, List.map_cons, List.map_nil, List.mem_cons, PathHomCell.edge.injEq, List.not_mem_nil, or_false] at h
    rcases h with ⟨rfl, rfl⟩ | ⟨rfl, rfl⟩ | ⟨rfl, rfl⟩ | ⟨rfl, rfl⟩
    · exact Or.inl ⟨a, Or.inl rfl⟩
    · exact Or.inr (Or.inl ⟨d, Or.inl rfl⟩)
    · exact Or.inl ⟨a, Or.inr rfl⟩
    · exact Or.inr (Or.inl ⟨d, Or.inr rfl⟩)

/-- Where an edge occurs in a 2-cell of the filtration. -/
theorem TwoCellAt.sep (h : IsDigraphFiltration et n time) {τ : PathHom2Cell} {x : F} (hτ : TwoCellAt n time τ x) {s t : ℕ} :
    (∀ i j, HasPath τ (i, s, t) → HasPath τ (j, s, t) → i = j) ∧ (∀ i j, HasPath τ (s, t, i) → HasPath τ (s, t, j) → i = j) ∧
    (∀ i j, HasPath τ (i, s, t) → ¬ HasPath τ (s, t, j)) ∧
    ∀ b, τ = .directedTriangle s b t → (∀ i, ¬ HasPath τ (i, s, t)) ∧ ∀ i, ¬ HasPath τ (s, t, i) := by
  cases τ with
  | doubleEdge a b =>
    have := (IsTwoPath.ne h hτ)
    simp only [HasPath, Prod.mk.injEq, reduceCtorEq, false_imp_iff, implies_true, and_true]
    refine ⟨?_, ?_, ?_⟩ <;> grind
  | directedTriangle a b c =>
    obtain ⟨h1, m, u, h2, _⟩ := hτ
    have := h2.ne h
    simp only [HasPath, Prod.mk.injEq, PathHom2Cell.directedTriangle.injEq]
    refine ⟨?_, ?_, ?_, ?_⟩ <;> grind
  | longSquare a b c d =>
    obtain ⟨h1, ⟨m, h2, _⟩, h3, h4, _⟩ := hτ
    have := h2.ne h
    have := h4.ne h
    simp only [HasPath, Prod.mk.injEq, reduceCtorEq, false_imp_iff, implies_true, and_true]
    refine ⟨?_, ?_, ?_⟩ <;> grind

/-- `produce_edge_total_coboundary` does not panic for vertices in range; it lists the 2-cells of the filtration that contain the edge, once each,
with their times, and the coefficients of the edge in their boundaries. -/
theorem edgeTotal_spec (h : IsDigraphFiltration et n time) (hbm : ∀ a c b, bm (a, c) = some b ↔ IsPrimaryBridge n time a c b)
    {s t : ℕ} (hs : s < n) (ht : t < n) :
    ∃ l, edgeTotalCoboundary CF bm et n s t = some l ∧ (∀ x ∈ l, TwoCellAt n time x.2.1 x.2.2) ∧
      (∀ x ∈ l, PathHomCell.edge s t ∈ (grpphBoundaryColumn CF (.twoCell x.2.1)).map Prod.snd) ∧ (l.map fun x => x.2.1).Nodup ∧
      ∀ τ x, TwoCellAt n time τ x → lcOf K (l.map fun x => (x.1, x.2.1)) τ = grpphM K (.twoCell τ) (.edge s t) := by
  classical
  obtain ⟨g1, e1, p1⟩ := flatMapOpt_exists (fun i => twoPathToAllTwoCells CF bm et n i s t) (fun i l => (∀ x ∈ l, TwoCellAt n time x.2.1 x.2.2) ∧
      (∀ τ x, TwoCellAt n time τ x → lcOf K (l.map fun x => (x.1, x.2.1)) τ = cellChain K τ (i, s, t)) ∧
      (∀ x ∈ l, HasPath x.2.1 (i, s, t)) ∧ (l.map fun x => x.2.1).Nodup) ((List.range n).filter (· ≠ s)) (by
    intro i hi
    simp only [List.mem_filter, List.mem_range] at hi
    obtain ⟨l, a1, a2, a3, a4, a5⟩ := twoPathToAll_spec (CF := CF) (K := K) h hbm hi.1 hs ht
    exact ⟨l, a1, a2, a5, fun x hx => hasPath_of_ne (a3 x hx), a4⟩)
  obtain ⟨g3, e3, p3⟩ := flatMapOpt_exists (fun i => twoPathToAllTwoCells CF bm et n s t i) (fun i l => (∀ x ∈ l, TwoCellAt n time x.2.1 x.2.2) ∧
      (∀ τ x, TwoCellAt n time τ x → lcOf K (l.map fun x => (x.1, x.2.1)) τ = cellChain K τ (s, t, i)) ∧
      (∀ x ∈ l, HasPath x.2.1 (s, t, i)) ∧ (l.map fun x => x.2.1).Nodup) ((List.range n).filter (· ≠ t)) (by
    intro i hi
    simp only [List.mem_filter, List.mem_range] at hi
    obtain ⟨l, a1, a2, a3, a4, a5⟩ := twoPathToAll_spec (CF := CF) (K := K) h hbm hs ht hi.1
    exact ⟨l, a1, a2, a5, fun x hx => hasPath_of_ne (a3 x hx), a4⟩)
  obtain ⟨o, e2, p2, r2, n2, q2⟩ := triangleBase_spec (CF := CF) (K := K) h hbm hs ht
  refine ⟨_, by unfold edgeTotalCoboundary; rw [e1, e2, e3]; rfl, ?_, ?_, ?_, ?_⟩
  · intro x hx
    rcases List.mem_append.1 hx with hx | hx
    · rcases List.mem_append.1 hx with hx | hx
      · obtain ⟨i, hi, hx⟩ := List.mem_flatMap.1 hx
        exact (p1 i hi).1 x hx
      · exact p2 x hx
    · obtain ⟨i, hi, hx⟩ := List.mem_flatMap.1 hx
      exact (p3 i hi).1 x hx
  · intro x hx
    rcases List.mem_append.1 hx with hx | hx
    · rcases List.mem_append.1 hx with hx | hx
      · obtain ⟨i, hi, hx⟩ := List.mem_flatMap.1 hx
        exact (hasPath_edges CF ((p1 i hi).2.2.1 x hx)).2
      · obtain ⟨b, hb⟩ := r2 x hx
        rw [hb]; simp [grpphBoundaryColumn]
    · obtain ⟨i, hi, hx⟩ := List.mem_flatMap.1 hx
      exact (hasPath_edges CF ((p3 i hi).2.2.1 x hx)).1
  · rw [List.map_append, List.map_append, List.nodup_append, List.nodup_append, List.map_flatMap, List.map_flatMap]
    refine ⟨⟨?_, n2, ?_⟩, ?_, ?_⟩
    · rw [List.nodup_flatMap]
      refine ⟨fun i hi => (p1 i hi).2.2.2, ?_⟩
      refine List.Pairwise.imp_of_mem ?_ (List.nodup_range.filter _)
      intro i j hi hj hne τ h1 h2
      obtain ⟨x, hx, rfl⟩ := List.mem_map.1 h1
      obtain ⟨y, hy, e⟩ := List.mem_map.1 h2
      have hp := (p1 j hj).2.2.1 y hy
      rw [e] at hp
      exact hne ((((p1 i hi).1 x hx).sep h).1 i j ((p1 i hi).2.2.1 x hx) hp)
    · intro τ h1 τ' h2 e
      subst e
      obtain ⟨i, hi, h1⟩ := List.mem_flatMap.1 h1
      obtain ⟨x, hx, rfl⟩ := List.mem_map.1 h1
      obtain ⟨y, hy, e⟩ := List.mem_map.1 h2
      obtain ⟨b, hb⟩ := r2 y hy
      rw [e] at hb
      exact (((((p1 i hi).1 x hx).sep h).2.2.2 b hb).1 i) ((p1 i hi).2.2.1 x hx)
    · rw [List.nodup_flatMap]
      refine ⟨fun i hi => (p3 i hi).2.2.2, ?_⟩
      refine List.Pairwise.imp_of_mem ?_ (List.nodup_range.filter _)
      intro i j hi hj hne τ h1 h2
      obtain ⟨x, hx, rfl⟩ := List.mem_map.1 h1
      obtain ⟨y, hy, e⟩ := List.mem_map.1 h2
      have hp := (p3 j hj).2.2.1 y hy
      rw [e] at hp
      exact hne ((((p3 i hi).1 x hx).sep h).2.1 i j ((p3 i hi).2.2.1 x hx) hp)
    · intro τ h1 τ' h2 e
      subst e
      obtain ⟨i, hi, h2⟩ := List.mem_flatMap.1 h2
      obtain ⟨x, hx, rfl⟩ := List.mem_map.1 h2
      have hp := (p3 i hi).2.2.1 x hx
      have hsep := ((p3 i hi).1 x hx).sep h (s := s) (t := t)
      rcases List.mem_append.1 h1 with h1 | h1
      · obtain ⟨j, hj, h1⟩ := List.mem_flatMap.1 h1
        obtain ⟨y, hy, e⟩ := List.mem_map.1 h1
        have hp' := (p1 j hj).2.2.1 y hy
        rw [e] at hp'
        exact hsep.2.2.1 j i hp' hp
      · obtain ⟨y, hy, e⟩ := List.mem_map.1 h1
        obtain ⟨b, hb⟩ := r2 y hy
        rw [e] at hb
        exact (hsep.2.2.2 b hb).2 i hp
  · intro τ x hτ
    rw [List.map_append, List.map_append, lcOf_append, lcOf_append, Finsupp.add_apply, Finsupp.add_apply, q2 τ x hτ,
      List.map_flatMap, List.map_flatMap, lcOf_flatMap_apply, lcOf_flatMap_apply]
    rw [List.map_congr_left fun i hi => (p1 i hi).2.1 τ x hτ, List.map_congr_left fun i hi => (p3 i hi).2.1 τ x hτ]
    have nd1 : ((List.range n).filter (· ≠ s)).Nodup := List.nodup_range.filter _
    have nd3 : ((List.range n).filter (· ≠ t)).Nodup := List.nodup_range.filter _
    have s1 : ∀ {a b c m}, IsTwoPath n time a b c m → (((List.range n).filter (· ≠ s)).map fun i => single (a, b, c) (1 : K) (i, s, t)).sum =
        if (b, c) = (s, t) then 1 else 0 := by
      intro a b c m hp
      rw [sum_single_fst K nd1]
      refine if_congr (and_iff_right_of_imp fun e => ?_) rfl rfl
      obtain ⟨rfl, rfl⟩ := Prod.mk.inj e
      simp only [List.mem_filter, List.mem_range, ne_eq, decide_not, Bool.not_eq_eq_eq_not, Bool.not_true, decide_eq_false_iff_not]
      exact ⟨hp.1, (hp.ne h).1⟩
    have s3 : ∀ {a b c m}, IsTwoPath n time a b c m → (((List.range n).filter (· ≠ t)).map fun i => single (a, b, c) (1 : K) (s, t, i)).sum =
        if (a, b) = (s, t) then 1 else 0 := by
      intro a b c m hp
      rw [sum_single_last K nd3]
      refine if_congr (and_iff_right_of_imp fun e => ?_) rfl rfl
      obtain ⟨rfl, rfl⟩ := Prod.mk.inj e
      simp only [List.mem_filter, List.mem_range, ne_eq, decide_not, Bool.not_eq_eq_eq_not, Bool.not_true, decide_eq_false_iff_not]
      exact ⟨hp.2.2.1, fun e => (hp.ne h).2 e.symm⟩
    have se : ∀ a b : ℕ, single (PathHomCell.edge a b) (1 : K) (.edge s t) = if (a, b) = (s, t) then 1 else 0 := by
      intro a b
      rw [Finsupp.single_apply]
      refine if_congr ?_ rfl rfl
      simp
    cases τ with
    | doubleEdge a b =>
      simp only [cellChain, grpphM]
      rw [s1 hτ, s3 hτ, Finsupp.add_apply, se, se]; ring
    | directedTriangle a b c =>
      obtain ⟨_, m, u, hp, _⟩ := hτ
      simp only [cellChain, grpphM]
      rw [s1 hp, s3 hp, Finsupp.add_apply, Finsupp.sub_apply, se, se, se]
      split_ifs <;> ring
    | longSquare a b c d =>
      obtain ⟨_, ⟨m, hp, _⟩, _, hp', _⟩ := hτ
      simp only [cellChain, grpphM, Finsupp.sub_apply]
      rw [sum_map_sub, sum_map_sub, s1 hp, s1 hp', s3 hp, s3 hp', Finsupp.add_apply, se, se, se, se]
      ring

/-! ### Columns of nodes -/

/-- `produce_node_total_coboundary` does not panic for vertices in range; it lists the edges at the node, with their times and the coefficients of
the node in their boundaries. -/
theorem nodeTotal_spec (h : IsDigraphFiltration et n time) (hEn : ∀ e ∈ E, e.1 < n ∧ e.2 < n) {s : ℕ} (hs : s < n) :
    ∃ l, nodeTotalCoboundary CF et E n s = some l ∧
      (∀ x ∈ l, ∃ e : ℕ × ℕ, x.2.1 = .edge e.1 e.2 ∧ IsEdge n time E e ∧ x.2.2 = grpphF et E (.edge e.1 e.2)) ∧
      ∀ e, IsEdge n time E e → lcOf K (l.map fun x => (x.1, x.2.1)) (.edge e.1 e.2) = grpphM K (.edge e.1 e.2) (.node s) := by
  classical
  -- one half of the column
  have half : ∀ (k : CF) (pr : ℕ → ℕ × ℕ), Function.Injective pr → (∀ j < n, (pr j).1 < n ∧ (pr j).2 < n) → ∃ l : List (CF × PathHomCell × F),
      filterMapOpt (fun j => if pr j ∈ E then some (some (k, PathHomCell.edge (pr j).1 (pr j).2, 0))
        else (et (pr j).1 (pr j).2).map fun o => o.map fun time => (k, PathHomCell.edge (pr j).1 (pr j).2, time)) (List.range n) = some l ∧
      (∀ x ∈ l, ∃ e : ℕ × ℕ, x.2.1 = .edge e.1 e.2 ∧ IsEdge n time E e ∧ x.2.2 = grpphF et E (.edge e.1 e.2)) ∧
      ∀ e, IsEdge n time E e → lcOf K (l.map fun x => (x.1, x.2.1)) (.edge e.1 e.2) = if ∃ j < n, pr j = e then LawfulCoeff.val k else 0 := by
    intro k pr hpr hlt
    have e1 := filterMapOpt_eq (fun j => if pr j ∈ E then some (some (k, PathHomCell.edge (pr j).1 (pr j).2, (0 : F)))
        else (et (pr j).1 (pr j).2).map fun o => o.map fun time => (k, PathHomCell.edge (pr j).1 (pr j).2, time))
      (fun j => if IsEdge n time E (pr j) then some (k, PathHomCell.edge (pr j).1 (pr j).2, grpphF et E (.edge (pr j).1 (pr j).2)) else none)
      (List.range n) (by
        intro j hj
        obtain ⟨j1, j2⟩ := hlt j (List.mem_range.1 hj)
        by_cases hE : pr j ∈ E
        · rw [if_pos hE, if_pos (show IsEdge n time E (pr j) from Or.inl hE), grpphF_edge_mem et hE]
        · rw [if_neg hE, h.entry _ j1 _ j2]
          cases hx : time (pr j).1 (pr j).2 with
          | none =>
            rw [if_neg]
            · rfl
            · rintro (he | he)
              · exact hE he
              · rw [hx] at he; simp at he
          | some x =>
            rw [if_pos (show IsEdge n time E (pr j) from Or.inr ⟨j1, j2, by rw [hx]; rfl⟩), grpphF_edge_time h hE j1 j2 hx]
            rfl)
    refine ⟨_, e1, ?_, ?_⟩
    · intro x hx
      obtain ⟨j, hj, hx⟩ := List.mem_filterMap.1 hx
      split at hx
      · rename_i he
        cases hx
        exact ⟨pr j, rfl, he, rfl⟩
      · cases hx
    · intro e he
      have e2 : ((List.range n).filterMap fun j => if IsEdge n time E (pr j) then some (k, PathHomCell.edge (pr j).1 (pr j).2,
          grpphF et E (.edge (pr j).1 (pr j).2)) else none).map (fun x => (x.1, x.2.1)) =
          (((List.range n).filter fun j => IsEdge n time E (pr j)).map fun j => PathHomCell.edge (pr j).1 (pr j).2).map fun r => (k, r) := by
        induction List.range n with
        | nil => rfl
        | cons j l ih =>
          by_cases hj : IsEdge n time E (pr j)
          · rw [List.filterMap_cons, if_pos hj, List.filter_cons, if_pos (by simpa using hj)]
            simp only [List.map_cons]
            rw [ih]
          · rw [List.filterMap_cons, if_neg hj, List.filter_cons, if_neg (by simpa using hj)]
            exact ih
      rw [e2, lcOf_const]
      · refine if_congr ?_ rfl rfl
        simp only [List.mem_map, List.mem_filter, List.mem_range, decide_eq_true_eq, PathHomCell.edge.injEq]
        constructor
        · rintro ⟨j, ⟨hj, _⟩, e3, e4⟩
          exact ⟨j, hj, Prod.ext e3 e4⟩
        · rintro ⟨j, hj, rfl⟩
          exact ⟨j, ⟨hj, he⟩, rfl, rfl⟩
      · refine (List.nodup_range.filter _).map ?_
        intro a b e
        simp only [PathHomCell.edge.injEq] at e
        exact hpr (Prod.ext e.1 e.2)
  obtain ⟨l1, a1, a2, a3⟩ := half (NonZeroCoeff.neg NonZeroCoeff.one) (fun j => (s, j)) (fun a b e => (Prod.mk.inj e).2) fun j hj => ⟨hs, hj⟩
  obtain ⟨l2, b1, b2, b3⟩ := half NonZeroCoeff.one (fun j => (j, s)) (fun a b e => (Prod.mk.inj e).1) fun j hj => ⟨hj, hs⟩
  refine ⟨l1 ++ l2, ?_, ?_, ?_⟩
  · unfold nodeTotalCoboundary
    rw [a1, b1]; rfl
  · intro x hx
    rcases List.mem_append.1 hx with hx | hx
    · exact a2 x hx
    · exact b2 x hx
  · intro e he
    have hlt : e.1 < n ∧ e.2 < n := he.elim (hEn e) fun hh => ⟨hh.1, hh.2.1⟩
    rw [List.map_append, lcOf_append, Finsupp.add_apply, a3 e he, b3 e he, grpphM, Finsupp.sub_apply, Finsupp.single_apply, Finsupp.single_apply,
      LawfulCoeff.val_neg, LawfulCoeff.val_one]
    have c1 : (∃ j < n, (s, j) = e) ↔ PathHomCell.node e.1 = .node s := by
      rw [PathHomCell.node.injEq]
      constructor
      · rintro ⟨j, _, rfl⟩; rfl
      · rintro rfl; exact ⟨e.2, hlt.2, rfl⟩
    have c2 : (∃ j < n, (j, s) = e) ↔ PathHomCell.node e.2 = .node s := by
      rw [PathHomCell.node.injEq]
      constructor
      · rintro ⟨j, _, rfl⟩; rfl
      · rintro rfl; exact ⟨e.1, hlt.1, rfl⟩
    rw [if_congr c1 rfl rfl, if_congr c2 rfl rfl]
    split_ifs <;> ring

/-! ### The coboundary matrix -/

/-- The entries of a column of `GrPPHCoboundary`, with their times. -/
theorem grpphCoboundary_spec (h : IsDigraphFiltration et n time) (hE : E.Nodup) (hEn : ∀ e ∈ E, e.1 < n ∧ e.2 < n)
    (hbm : ∀ a c b, bm (a, c) = some b ↔ IsPrimaryBridge n time a c b) {d : ℤ} (hd : d < 2) {c : PathHomCell} (hc : c ∈ grpphCells et n time E d) :
    ∃ l : List (CF × PathHomCell × F), (grpphCoboundary CF et bm E n).column c = some (l.map fun x => (x.1, x.2.1)) ∧
      (grpphCoboundary CF et bm E n).colF c = some (l.map fun x => ⟨x.2.2, x.2.1, x.1⟩) ∧
      (∀ x ∈ l, x.2.1 ∈ grpphCells et n time E (d + 1) ∧ grpphFiltrationValue et E x.2.1 = some x.2.2) ∧
      lcOf K (l.map fun x => (x.1, x.2.1)) = grpphN K et n time E c := by
  classical
  -- it suffices to compare on the cells of the next degree
  have key : ∀ l : List (CF × PathHomCell × F), (∀ x ∈ l, x.2.1 ∈ grpphCells et n time E (d + 1)) →
      (∀ τ ∈ grpphCells et n time E (d + 1), lcOf K (l.map fun x => (x.1, x.2.1)) τ = grpphM K τ c) →
      lcOf K (l.map fun x => (x.1, x.2.1)) = grpphN K et n time E c := by
    intro l h1 h2
    ext τ
    rw [grpphN_apply hE, deg_of_mem hc]
    by_cases hτ : τ ∈ grpphCells et n time E (d + 1)
    · rw [if_pos hτ, h2 τ hτ]
    · rw [if_neg hτ]
      by_contra hne
      obtain ⟨x, hx, rfl⟩ := lcOf_support hne
      obtain ⟨y, hy, rfl⟩ := List.mem_map.1 hx
      exact hτ (h1 y hy)
  by_cases e0 : d = 0
  · subst e0
    obtain ⟨s, hs, rfl⟩ := mem_cells0.1 hc
    obtain ⟨l, a1, a2, a3⟩ := nodeTotal_spec (CF := CF) (K := K) h hEn hs
    have hmem : ∀ x ∈ l, x.2.1 ∈ grpphCells et n time E (0 + 1) := by
      intro x hx
      obtain ⟨e, he, he', _⟩ := a2 x hx
      exact mem_cells1.2 ⟨e, he, he'⟩
    refine ⟨l, ?_, ?_, fun x hx => ⟨hmem x hx, ?_⟩, key l hmem ?_⟩
    · show (nodeTotalCoboundary CF et E n s).map _ = _
      rw [a1]; rfl
    · show (nodeTotalCoboundary CF et E n s).map _ = _
      rw [a1]; rfl
    · obtain ⟨e, he, he', e2⟩ := a2 x hx
      rw [he, e2, grpphF_edge h he']
    · intro τ hτ
      obtain ⟨e, rfl, he⟩ := mem_cells1.1 hτ
      exact a3 e he
  by_cases e1 : d = 1
  · subst e1
    obtain ⟨e, rfl, he⟩ := mem_cells1.1 hc
    have hlt : e.1 < n ∧ e.2 < n := he.elim (hEn e) fun hh => ⟨hh.1, hh.2.1⟩
    obtain ⟨l, a1, a2, b2, b3, a3⟩ := edgeTotal_spec (CF := CF) (K := K) h hbm hlt.1 hlt.2
    have hl : (l.map fun x => (x.1, PathHomCell.twoCell x.2.1, x.2.2)).map (fun x => (x.1, x.2.1)) = l.map fun x => (x.1, PathHomCell.twoCell x.2.1) := by
      rw [List.map_map]; rfl
    have hmem : ∀ x ∈ l.map (fun x => (x.1, PathHomCell.twoCell x.2.1, x.2.2)), x.2.1 ∈ grpphCells et n time E (1 + 1) := by
      intro x hx
      obtain ⟨y, hy, rfl⟩ := List.mem_map.1 hx
      exact mem_cells2.2 ⟨_, _, a2 y hy, rfl⟩
    refine ⟨l.map fun x => (x.1, PathHomCell.twoCell x.2.1, x.2.2), ?_, ?_, fun x hx => ⟨hmem x hx, ?_⟩, key _ hmem ?_⟩
    · show (edgeTotalCoboundary CF bm et n e.1 e.2).map _ = _
      rw [a1, hl]; rfl
    · show (edgeTotalCoboundary CF bm et n e.1 e.2).map _ = _
      rw [a1, List.map_map]; rfl
    · obtain ⟨y, hy, rfl⟩ := List.mem_map.1 hx
      exact (a2 y hy).filt h E
    · intro τ hτ
      obtain ⟨τ, x, hτ', rfl⟩ := mem_cells2.1 hτ
      rw [hl, ← a3 τ x hτ']
      have inj : Function.Injective PathHomCell.twoCell := fun a b e => by injection e
      have e3 : lcOf K (l.map fun x => (x.1, PathHomCell.twoCell x.2.1)) = (lcOf K (l.map fun x => (x.1, x.2.1))).mapDomain .twoCell := by
        clear a1 a2 a3 hl hmem b2 b3
        induction l with
        | nil => simp
        | cons x l ih =>
          rw [List.map_cons, lcOf_cons, ih, List.map_cons, lcOf_cons, Finsupp.mapDomain_add, Finsupp.mapDomain_single]
      rw [e3, Finsupp.mapDomain_apply inj]
  · have : grpphCells et n time E d = [] := cells_other e0 e1 (by omega)
    rw [this] at hc; cases hc

end
end Phlite
