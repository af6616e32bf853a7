/-
The persistence pairs of the complete digraph.
-/
import Verif.Theory.PairOfLead
import Verif.Proofs.Involution
import Verif.Props.GrPPHEnd

set_option linter.unusedSectionVars false
set_option linter.unusedSimpArgs false

namespace Phlite
open Finsupp (single)
open OrderDual (toDual ofDual)

section
variable {F : Type} [LinearOrder F] [Zero F] [OrderTop F] {n : ℕ} {et : EdgeTime F} {time : ℕ → ℕ → Option F} {E : List (ℕ × ℕ)} {K : Type} [Field K]

/-- A column that needs no reduction: a functional that vanishes on the columns before it, but not on chains with lead `r`. -/
theorem cells_pair_of_lead (h : IsDigraphFiltration et n time) (hE : E.Nodup) {d : ℤ} {c r : PathHomCell} (hc : c ∈ grpphCells et n time E d)
    (hl : IsLead (rowKey (grpphF et E)) (grpphM K c) r) (φ : (PathHomCell →₀ K) →ₗ[K] K) (hφ : ∀ z, IsLead (rowKey (grpphF et E)) z r → φ z ≠ 0)
    (h0 : ∀ x ∈ grpphCells et n time E d, rowKey (grpphF et E) x < rowKey (grpphF et E) c → φ (grpphM K x) = 0) :
    IsPersistencePair (rowKey (grpphF et E)) (grpphCells et n time E d) (grpphM K) r c := by
  obtain ⟨pre, post, hpp⟩ := List.append_of_mem hc
  refine pair_of_lead hpp hl fun z hz hzl => hφ z hzl ?_
  have hs := grpphCells_sorted h hE d
  rw [hpp] at hs
  have hsp : Submodule.span K (grpphM K '' {x | x ∈ pre}) ≤ LinearMap.ker φ := by
    rw [Submodule.span_le]
    rintro _ ⟨x, hx, rfl⟩
    exact h0 x (by rw [hpp]; exact List.mem_append_left _ hx) ((List.pairwise_append.1 hs).2.2 x hx c (by simp))
  exact hsp hz

theorem cell_lt_iff {a b : PathHomCell} : a < b ↔ a.key < b.key := Iff.rfl

theorem rowKey_lt_iff {f : PathHomCell → F} {a b : PathHomCell} (h : f a = f b) : rowKey f a < rowKey f b ↔ a < b := by
  unfold rowKey
  rw [Prod.Lex.toLex_lt_toLex]
  simp [h]

theorem rowKey_le_iff {f : PathHomCell → F} {a b : PathHomCell} (h : f a = f b) : rowKey f a ≤ rowKey f b ↔ a ≤ b := by
  unfold rowKey
  rw [Prod.Lex.toLex_le_toLex]
  simp [h]

theorem edge_lt_edge {a b c d : ℕ} : PathHomCell.edge a b < PathHomCell.edge c d ↔ a < c ∨ (a = c ∧ b < d) := by
  rw [cell_lt_iff]
  simp [PathHomCell.key, List.cons_lt_cons_iff]

theorem node_lt_node {a b : ℕ} : PathHomCell.node a < PathHomCell.node b ↔ a < b := by
  rw [cell_lt_iff]
  simp [PathHomCell.key, List.cons_lt_cons_iff]

variable {w : F}

theorem complete_edge (hm : ∀ e, e ∈ E ↔ e.1 < n ∧ e.2 < n ∧ e.1 ≠ e.2) {a b : ℕ} (ha : a < n) (hb : b < n) (hab : a ≠ b) :
    grpphF et E (.edge a b) = 0 := grpphF_edge_mem (e := (a, b)) et ((hm (a, b)).2 ⟨ha, hb, hab⟩)

/-- The 2-cells of the complete digraph. -/
theorem complete_cell (h : IsDigraphFiltration et n fun i j => if i = j then none else some w) {c : PathHomCell}
    (hc : c ∈ grpphCells et n (fun i j => if i = j then none else some w) E 2) :
    grpphF et E c = w ∧ ((∃ a b, c = .twoCell (.doubleEdge a b) ∧ a < n ∧ b < n ∧ a ≠ b) ∨
      ∃ a b d, c = .twoCell (.directedTriangle a b d) ∧ a < n ∧ b < n ∧ d < n ∧ a ≠ b ∧ b ≠ d ∧ a ≠ d) := by
  obtain ⟨τ, t, hτ, rfl⟩ := mem_cells2.1 hc
  have hf : grpphF et E (.twoCell τ) = t := by unfold grpphF; rw [hτ.filt h E]; rfl
  rw [hf]
  have hne : ∀ {i j : ℕ} {x : F}, (if i = j then none else some w) = some x → i ≠ j ∧ x = w := by
    intro i j x hx
    split at hx
    · cases hx
    · cases hx; exact ⟨by assumption, rfl⟩
  cases τ with
  | doubleEdge a b =>
    obtain ⟨r1, r2, -, x, y, r3, r4, r5⟩ := hτ
    exact ⟨by rw [r5, (hne r3).2, (hne r4).2, max_self], Or.inl ⟨a, b, rfl, r1, r2, (hne r3).1⟩⟩
  | directedTriangle a b c =>
    obtain ⟨r1, m, u, ⟨r2, r3, r4, x, y, r5, r6, r7⟩, r8, -, r9⟩ := hτ
    exact ⟨by rw [r9, r7, (hne r5).2, (hne r6).2, (hne r8).2, max_self, max_self], Or.inr ⟨a, b, c, rfl, r2, r3, r4, (hne r5).1, (hne r6).1, r1⟩⟩
  | longSquare a b c d =>
    obtain ⟨r1, -, -, ⟨-, -, -, x, y, r5, r6, r7⟩, r8⟩ := hτ
    have := r8 w (if_neg r1)
    rw [r7, (hne r5).2, (hne r6).2, max_self] at this
    exact absurd this (lt_irrefl _)

theorem complete_double_mem {a b : ℕ} (ha : a < n) (hb : b < n) (hab : a ≠ b) :
    PathHomCell.twoCell (.doubleEdge a b) ∈ grpphCells et n (fun i j => if i = j then none else some w) E 2 :=
  mem_cells2.2 ⟨.doubleEdge a b, w, ⟨ha, hb, ha, w, w, if_neg hab, if_neg hab.symm, (max_self w).symm⟩, rfl⟩

theorem complete_triangle_mem {a b c : ℕ} (ha : a < n) (hb : b < n) (hc : c < n) (hab : a ≠ b) (hbc : b ≠ c) (hac : a ≠ c) :
    PathHomCell.twoCell (.directedTriangle a b c) ∈ grpphCells et n (fun i j => if i = j then none else some w) E 2 :=
  mem_cells2.2 ⟨.directedTriangle a b c, w, ⟨hac, w, w, ⟨ha, hb, hc, w, w, if_neg hab, if_neg hbc, (max_self w).symm⟩, if_neg hac, Or.inl le_rfl, (max_self w).symm⟩, rfl⟩

/-- An arrow to a smaller vertex is paired with the pair of opposite arrows. -/
theorem complete_double (h : IsDigraphFiltration et n fun i j => if i = j then none else some w) (hE : E.Nodup)
    (hm : ∀ e, e ∈ E ↔ e.1 < n ∧ e.2 < n ∧ e.1 ≠ e.2) {a b : ℕ} (hab : a < b) (hb : b < n) :
    IsPersistencePair (rowKey (grpphF et E)) (grpphCells et n (fun i j => if i = j then none else some w) E 2) (grpphM K) (.edge b a) (.twoCell (.doubleEdge a b)) := by
  have ha : a < n := hab.trans hb
  have hcm : PathHomCell.twoCell (.doubleEdge a b) ∈ grpphCells et n (fun i j => if i = j then none else some w) E 2 := complete_double_mem ha hb hab.ne
  refine cells_pair_of_lead h hE hcm ?_ (Finsupp.lapply (.edge b a)) (fun z hz => hz.1) ?_
  · have e1 := complete_edge (et := et) hm ha hb hab.ne
    have e2 := complete_edge (et := et) hm hb ha hab.ne'
    constructor
    · simp [grpphM, Finsupp.single_apply, hab.ne]
    · intro r hr
      simp only [grpphM, Finsupp.add_apply, Finsupp.single_apply] at hr
      by_cases h1 : PathHomCell.edge a b = r
      · rw [← h1, rowKey_le_iff (e1.trans e2.symm)]
        exact (edge_lt_edge.2 (Or.inl hab)).le
      · by_cases h2 : PathHomCell.edge b a = r
        · rw [h2]
        · rw [if_neg h1, if_neg h2] at hr; simp at hr
  · intro x hx hlt
    obtain ⟨hxf, hxc⟩ := complete_cell h hx
    rw [rowKey_lt_iff (hxf.trans (complete_cell h hcm).1.symm), cell_lt_iff] at hlt
    rcases hxc with ⟨a', b', rfl, -⟩ | ⟨a', b', d', rfl, -⟩
    · simp only [PathHomCell.key, PathHom2Cell.key, List.cons_lt_cons_iff, lt_self_iff_false, true_and, false_or, and_false, or_false, List.not_lt_nil] at hlt
      simp only [grpphM, Finsupp.lapply_apply, Finsupp.add_apply, Finsupp.single_apply, PathHomCell.edge.injEq]
      rw [if_neg (by omega), if_neg (by omega), add_zero]
    · simp [PathHomCell.key, PathHom2Cell.key, List.cons_lt_cons_iff] at hlt

/-- An arrow from a smaller vertex, but not from 0, is paired with the triangle over 0. -/
theorem complete_triangle (h : IsDigraphFiltration et n fun i j => if i = j then none else some w) (hE : E.Nodup)
    (hm : ∀ e, e ∈ E ↔ e.1 < n ∧ e.2 < n ∧ e.1 ≠ e.2) {a b : ℕ} (h0 : 0 < a) (hab : a < b) (hb : b < n) :
    IsPersistencePair (rowKey (grpphF et E)) (grpphCells et n (fun i j => if i = j then none else some w) E 2) (grpphM K) (.edge a b)
      (.twoCell (.directedTriangle 0 a b)) := by
  have ha : a < n := hab.trans hb
  have hcm : PathHomCell.twoCell (.directedTriangle 0 a b) ∈ grpphCells et n (fun i j => if i = j then none else some w) E 2 :=
    complete_triangle_mem (by omega) ha hb h0.ne hab.ne (by omega)
  have e1 := complete_edge (et := et) hm ha hb hab.ne
  have e2 := complete_edge (et := et) hm hb ha hab.ne'
  have e3 := complete_edge (et := et) hm (by omega : 0 < n) ha h0.ne
  have e4 := complete_edge (et := et) hm (by omega : 0 < n) hb (by omega : 0 ≠ b)
  refine cells_pair_of_lead h hE hcm ?_ (Finsupp.lapply (.edge a b) - Finsupp.lapply (.edge b a)) ?_ ?_
  · constructor
    · simp [grpphM, Finsupp.single_apply, h0.ne, h0.ne', hab.ne]
    · intro r hr
      simp only [grpphM, Finsupp.add_apply, Finsupp.sub_apply, Finsupp.single_apply] at hr
      by_cases h1 : PathHomCell.edge a b = r
      · rw [h1]
      · by_cases h2 : PathHomCell.edge 0 b = r
        · rw [← h2, rowKey_le_iff (e4.trans e1.symm)]
          exact (edge_lt_edge.2 (Or.inl h0)).le
        · by_cases h3 : PathHomCell.edge 0 a = r
          · rw [← h3, rowKey_le_iff (e3.trans e1.symm)]
            exact (edge_lt_edge.2 (Or.inl h0)).le
          · rw [if_neg h1, if_neg h2, if_neg h3] at hr; simp at hr
  · intro z hz
    have : z (.edge b a) = 0 := by
      by_contra hne
      have := hz.2 _ hne
      rw [rowKey_le_iff (e2.trans e1.symm)] at this
      exact absurd (edge_lt_edge.2 (Or.inl hab)) (not_lt.2 this)
    simp only [LinearMap.sub_apply, Finsupp.lapply_apply, this, sub_zero]
    exact hz.1
  · intro x hx hlt
    obtain ⟨hxf, hxc⟩ := complete_cell h hx
    rw [rowKey_lt_iff (hxf.trans (complete_cell h hcm).1.symm), cell_lt_iff] at hlt
    rcases hxc with ⟨a', b', rfl, -, -, hne⟩ | ⟨a', b', d', rfl, -, -, -, hne⟩
    · simp only [grpphM, LinearMap.sub_apply, Finsupp.lapply_apply, Finsupp.add_apply, Finsupp.single_apply, PathHomCell.edge.injEq]
      by_cases q1 : a' = a ∧ b' = b
      · obtain ⟨rfl, rfl⟩ := q1
        simp [hab.ne, hab.ne']
      · by_cases q2 : b' = a ∧ a' = b
        · obtain ⟨rfl, rfl⟩ := q2
          simp [hab.ne, hab.ne']
        · rw [if_neg q1, if_neg q2, if_neg (fun q => q2 ⟨q.2, q.1⟩), if_neg (fun q => q1 ⟨q.2, q.1⟩)]; simp
    · simp only [PathHomCell.key, PathHom2Cell.key, List.cons_lt_cons_iff, lt_self_iff_false, true_and, false_or, and_false, or_false, List.not_lt_nil] at hlt
      simp only [grpphM, LinearMap.sub_apply, Finsupp.lapply_apply, Finsupp.add_apply, Finsupp.sub_apply, Finsupp.single_apply, PathHomCell.edge.injEq]
      repeat rw [if_neg (by omega)]
      simp

/-- A vertex other than 0 is paired with the arrow from 0. -/
theorem complete_vertex (h : IsDigraphFiltration et n fun i j => if i = j then none else some w) (hE : E.Nodup)
    (hm : ∀ e, e ∈ E ↔ e.1 < n ∧ e.2 < n ∧ e.1 ≠ e.2) {b : ℕ} (h0 : 0 < b) (hb : b < n) :
    IsPersistencePair (rowKey (grpphF et E)) (grpphCells et n (fun i j => if i = j then none else some w) E 1) (grpphM K) (.node b) (.edge 0 b) := by
  have hcm : PathHomCell.edge 0 b ∈ grpphCells et n (fun i j => if i = j then none else some w) E 1 :=
    mem_cells1.2 ⟨(0, b), rfl, Or.inl ((hm (0, b)).2 ⟨by omega, hb, h0.ne⟩)⟩
  have e1 := complete_edge (et := et) hm (by omega : 0 < n) hb h0.ne
  refine cells_pair_of_lead h hE hcm ?_ (Finsupp.lapply (.node b)) (fun z hz => hz.1) ?_
  · constructor
    · simp [grpphM, Finsupp.single_apply, h0.ne]
    · intro r hr
      simp only [grpphM, Finsupp.sub_apply, Finsupp.single_apply] at hr
      by_cases h1 : PathHomCell.node b = r
      · rw [h1]
      · by_cases h2 : PathHomCell.node 0 = r
        · rw [← h2, rowKey_le_iff (f := grpphF et E) (a := .node 0) (b := .node b) rfl]
          exact (node_lt_node.2 h0).le
        · rw [if_neg h1, if_neg h2] at hr; simp at hr
  · intro x hx hlt
    obtain ⟨e, rfl, he⟩ := mem_cells1.1 hx
    have heE : e ∈ E := by
      rcases he with h1 | ⟨h1, h2, h3⟩
      · exact h1
      · refine (hm e).2 ⟨h1, h2, fun h4 => ?_⟩
        simp [h4] at h3
    obtain ⟨h1, h2, h3⟩ := (hm e).1 heE
    rw [rowKey_lt_iff ((complete_edge hm h1 h2 h3).trans e1.symm), edge_lt_edge] at hlt
    simp only [grpphM, Finsupp.lapply_apply, Finsupp.sub_apply, Finsupp.single_apply, PathHomCell.node.injEq]
    rw [if_neg (by omega), if_neg (by omega), sub_zero]

end
end Phlite
