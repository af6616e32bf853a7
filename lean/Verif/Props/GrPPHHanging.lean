/-
C99: `grpph` of a digraph with a hanging vertex.
-/
import Verif.Props.GrPPHGluing
import Verif.Props.GrPPHTree

set_option linter.unusedSectionVars false
set_option linter.unusedSimpArgs false

namespace Phlite

section
variable {F : Type} [LinearOrder F] [Zero F] [OrderTop F] {n : ℕ} {add : F → F → F} {CF : Type} [NonZeroCoeff CF] [StdHeap]
variable {adj : List (ℕ × ℕ × F) → ℕ → List (ℕ × ℕ × F)} {order : List (ℕ × ℕ) → List (ℕ × ℕ)} {edges edges' : List (ℕ × ℕ × F)}

/-- The interval that a vertex adds that is joined to only one other vertex, by an edge of weight `out` to the new vertex and one of weight `back` from it. -/
def hangingBars : Option F → Option F → Multiset (F × WithTop F)
  | some w, some w' => if w = ⊤ ∨ w' = ⊤ then {(0, ⊤)} else if max w w' = 0 then 0 else {(0, ((max w w' : F) : WithTop F))}
  | _, _ => 0

/-- The digraph on two vertices with the edges `0 → 1` and `1 → 0`. -/
def handleEdges (out back : Option F) : List (ℕ × ℕ × F) := out.toList.map (fun w => (0, 1, w)) ++ back.toList.map fun w => (1, 0, w)

theorem mem_handleEdges {out back : Option F} {x y : ℕ} {w : F} : (x, y, w) ∈ handleEdges out back ↔ (x = 0 ∧ y = 1 ∧ out = some w) ∨ (x = 1 ∧ y = 0 ∧ back = some w) := by
  simp only [handleEdges, List.mem_append, List.mem_map, Option.mem_toList, Option.mem_def, Prod.mk.injEq]
  constructor
  · rintro (⟨w', h, rfl, rfl, rfl⟩ | ⟨w', h, rfl, rfl, rfl⟩)
    · exact .inl ⟨rfl, rfl, h⟩
    · exact .inr ⟨rfl, rfl, h⟩
  · rintro (⟨rfl, rfl, h⟩ | ⟨rfl, rfl, h⟩)
    · exact .inl ⟨w, h, rfl, rfl, rfl⟩
    · exact .inr ⟨w, h, rfl, rfl, rfl⟩

theorem hanging_isGluing {v : ℕ} (hv : v < n) (hedges : ∀ e ∈ edges, e.1 < n ∧ e.2.1 < n) {out back : Option F}
    (h' : ∀ x y w, (x, y, w) ∈ edges' ↔ (x, y, w) ∈ edges ∨ (x = v ∧ y = n ∧ out = some w) ∨ (x = n ∧ y = v ∧ back = some w)) :
    IsGluing (n + 1) n 2 id (fun b => if b = 0 then v else n) edges' edges (handleEdges out back) where
  injA _ _ _ _ e := e
  injB b hb b' hb' e := by
    split_ifs at e <;> omega
  vertices u := by
    constructor
    · intro hu
      by_cases h : u < n
      · exact .inl ⟨u, h, rfl⟩
      · exact .inr ⟨1, by omega, by rw [if_neg one_ne_zero]; omega⟩
    · rintro (⟨a, ha, rfl⟩ | ⟨b, hb, rfl⟩)
      · exact Nat.lt_succ_of_lt ha
      · split_ifs <;> omega
  edge x y w := by
    rw [h']
    refine or_congr ⟨fun h => ⟨x, y, h, rfl, rfl⟩, ?_⟩ ?_
    · rintro ⟨a, b, h, rfl, rfl⟩; exact h
    · constructor
      · rintro (⟨rfl, rfl, h⟩ | ⟨rfl, rfl, h⟩)
        · exact ⟨0, 1, mem_handleEdges.2 (.inl ⟨rfl, rfl, h⟩), by simp, by simp⟩
        · exact ⟨1, 0, mem_handleEdges.2 (.inr ⟨rfl, rfl, h⟩), by simp, by simp⟩
      · rintro ⟨b, b', h, rfl, rfl⟩
        rcases mem_handleEdges.1 h with ⟨rfl, rfl, g⟩ | ⟨rfl, rfl, g⟩
        · exact .inl ⟨by simp, by simp, g⟩
        · exact .inr ⟨by simp, by simp, g⟩
  common a ha b hb a' ha' b' hb' e e' := by
    simp only [id] at e e'
    split_ifs at e e' <;> omega
  loops a b w w' _ _ h := by
    rcases mem_handleEdges.1 h with ⟨h1, h2, _⟩ | ⟨h1, h2, _⟩ <;> omega

/-- C99: a digraph on the vertices `0, ..., n`, in which the vertex `n` is joined to the vertex `v` only, by one edge in either direction or by both. Then `grpph` returns for it what it
returns without the vertex `n`, and in addition, if there are edges in both directions, one interval of degree 1 that starts at 0 and ends at the larger one of their weights (unless both are 0). -/
theorem C99_hanging (K : Type) [Field K] [LawfulCoeff CF K] (hn : n + 1 < 65536) (hadd : IsLengthAddition add) (hadj : IsAdjacency adj) (horder : ∀ l, (order l).Perm l)
    (hedges : ∀ e ∈ edges, e.1 < n ∧ e.2.1 < n) (hw : ∀ e ∈ edges', 0 ≤ e.2.2) {v : ℕ} (hv : v < n) {out back : Option F} (hsome : out ≠ none ∨ back ≠ none)
    (h' : ∀ x y w, (x, y, w) ∈ edges' ↔ (x, y, w) ∈ edges ∨ (x = v ∧ y = n ∧ out = some w) ∨ (x = n ∧ y = v ∧ back = some w)) :
    ∃ enough, ∀ fuel ≥ enough, ∀ enumE enumP, Enumerates enumE → Enumerates enumP →
      ∃ e0 e1 e1' p1 p1', grpphEdges CF add adj order enumE enumP n edges fuel fuel = some ([e0, e1], [[], p1]) ∧
        grpphEdges CF add adj order enumE enumP (n + 1) edges' fuel fuel = some ([e0, e1'], [[], p1']) ∧
        reportIntervals e1' p1' = reportIntervals e1 p1 + hangingBars out back := by
  classical
  have hglue := hanging_isGluing hv hedges h'
  have hB : ∀ e ∈ handleEdges out back, e.1 < 2 ∧ e.2.1 < 2 := by
    rintro ⟨x, y, w⟩ he
    rcases mem_handleEdges.1 he with ⟨rfl, rfl, _⟩ | ⟨rfl, rfl, _⟩ <;> constructor <;> norm_num
  have hwB : ∀ e ∈ handleEdges out back, 0 ≤ e.2.2 := by
    rintro ⟨x, y, w⟩ he
    rcases mem_handleEdges.1 he with ⟨rfl, rfl, h⟩ | ⟨rfl, rfl, h⟩
    · exact hw (v, n, w) ((h' v n w).2 (.inr (.inl ⟨rfl, rfl, h⟩)))
    · exact hw (n, v, w) ((h' n v w).2 (.inr (.inr ⟨rfl, rfl, h⟩)))
  obtain ⟨N1, H1⟩ := C90_glued (CF := CF) (order := order) K hn hadd hadj horder hglue hedges hB hw
  obtain ⟨N2, H2⟩ := C46_edges (CF := CF) (order := order) K (n := 2) (by omega) hadd hadj horder hB hwB
  obtain ⟨N3, H3⟩ := C98_weights (CF := CF) (order := order) K (n := 2) (by omega) hadd hadj horder hB hwB (parent := fun _ => 0)
    (weight := fun i _ => if i = 0 then out.getD 0 else back.getD 0) (by
      rintro ⟨x, y, w⟩ he
      rcases mem_handleEdges.1 he with ⟨rfl, rfl, _⟩ | ⟨rfl, rfl, _⟩
      · exact .inr ⟨by simp, rfl⟩
      · exact .inl ⟨by simp, rfl⟩) (by
      intro i j w he
      rcases mem_handleEdges.1 he with ⟨rfl, rfl, h⟩ | ⟨rfl, rfl, h⟩
      · rw [h]; rfl
      · rw [h]; rfl)
  refine ⟨N1 + N2 + N3 + ((handleEdges out back).length + 2), fun fuel hf enumE enumP hE hP => ?_⟩
  obtain ⟨c, cA, cB, e1, e1A, e1B, p1, p1A, p1B, g1, g2, g3, g4, g5, g6⟩ := H1 fuel (by omega) enumE enumP hE hP
  obtain ⟨e1B', p1B', g7⟩ := H2 fuel (by omega) fuel (by omega) enumE enumP hE hP
  obtain ⟨e0C, e1C, p0C, p1C, g8, g9⟩ := H3 fuel (by omega) fuel (by omega) enumE enumP hE hP
  have hcB : cB = 1 := by
    rw [g3] at g7
    have := congrArg (fun r => r.map fun r => (r.1.headD []).length) g7
    simp only [Option.map_some, List.headD_cons, List.length_replicate, Option.some.injEq] at this
    rw [this, componentCount_congr (R' := fun a b => a ≠ b), componentCount_complete (by omega)]
    · exact fun a _ b _ h => h
    · rintro a b _ _ ⟨w, he⟩
      rcases mem_handleEdges.1 he with ⟨rfl, rfl, _⟩ | ⟨rfl, rfl, _⟩ <;> omega
    · have h01 : Relation.EqvGen (fun x y => x < 2 ∧ y < 2 ∧ ∃ w, (x, y, w) ∈ handleEdges out back) 0 1 := by
        rcases hsome with h | h
        · obtain ⟨w, h⟩ := Option.ne_none_iff_exists'.1 h
          exact .rel _ _ ⟨by omega, by omega, w, mem_handleEdges.2 (.inl ⟨rfl, rfl, h⟩)⟩
        · obtain ⟨w, h⟩ := Option.ne_none_iff_exists'.1 h
          exact .symm _ _ (.rel _ _ ⟨by omega, by omega, w, mem_handleEdges.2 (.inr ⟨rfl, rfl, h⟩)⟩)
      intro a b ha hb hab
      rcases (by omega : (a = 0 ∧ b = 1) ∨ (a = 1 ∧ b = 0)) with ⟨rfl, rfl⟩ | ⟨rfl, rfl⟩
      · exact h01
      · exact .symm _ _ h01
  have hcommon : commonVertices n 2 id (fun b => if b = 0 then v else n) = 1 := by
    unfold commonVertices
    rw [if_pos ⟨v, hv, 0, by omega, by simp⟩]
  have hc : c = cA := by omega
  subst hc
  rw [g3, Option.some.injEq, Prod.mk.injEq] at g8
  obtain ⟨g81, g82⟩ := g8
  simp only [List.cons.injEq, and_true] at g81 g82
  refine ⟨_, e1A, e1, p1A, p1, g2, g1, ?_⟩
  have hsum : reportIntervals e1 p1 = reportIntervals (e1A ++ e1B) (p1A ++ p1B) := by
    unfold reportIntervals
    rw [Multiset.coe_eq_coe]
    exact (g5.map _).append (g6.map _)
  rw [hsum, reportIntervals_append, g81.2, g82.2, g9]
  congr 1
  have hrange : (Finset.range 2).filter (fun i => 0 < i ∧ (i, 0, if i = 0 then out.getD 0 else back.getD 0) ∈ handleEdges out back ∧
      (0, i, if 0 = 0 then out.getD 0 else back.getD 0) ∈ handleEdges out back) = if out = none ∨ back = none then ∅ else {1} := by
    ext i
    rw [Finset.mem_filter, Finset.mem_range, mem_handleEdges, mem_handleEdges]
    cases out with
    | none => simp
    | some w => cases back with
      | none => simp
      | some w' =>
        simp
        omega
  rw [hrange]
  cases out with
  | none => rfl
  | some w => cases back with
    | none => rfl
    | some w' =>
      have h0 : 0 ≤ w := hw (v, n, w) ((h' v n w).2 (.inr (.inl ⟨rfl, rfl, rfl⟩)))
      simp only [reduceCtorEq, or_self, if_false, Finset.singleton_val, Multiset.map_singleton, one_ne_zero, if_true, Option.getD_some, hangingBars]
      by_cases ht : w = ⊤ ∨ w' = ⊤
      · rw [if_pos (ht.symm), if_pos ht]
        exact Multiset.filter_eq_self.2 fun b hb => by rw [Multiset.mem_singleton.1 hb]; exact WithTop.coe_lt_top 0
      · rw [if_neg (fun h => ht h.symm), if_neg ht]
        by_cases hm : max w w' = 0
        · rw [if_pos hm, max_comm, hm]
          exact Multiset.filter_eq_nil.2 fun b hb => by rw [Multiset.mem_singleton.1 hb]; exact lt_irrefl _
        · rw [if_neg hm, max_comm]
          refine Multiset.filter_eq_self.2 fun b hb => ?_
          rw [Multiset.mem_singleton.1 hb]
          exact WithTop.coe_lt_coe.2 (lt_of_le_of_ne (h0.trans (le_max_left _ _)) (Ne.symm hm))

end
namespace GraphExample

/-- The hypotheses of C99, for the triangle with a cycle of length 2 at its last vertex (whose runs in the model are those of the example of C90). -/
example : (∀ e ∈ triangle, e.1 < 3 ∧ e.2.1 < 3) ∧ (∀ e ∈ glued, 0 ≤ e.2.2) ∧ 2 < 3 ∧ (some 1 ≠ none ∨ some 5 ≠ (none : Option (WithTop ℕ))) ∧
    ∀ x y (w : WithTop ℕ), (x, y, w) ∈ glued ↔ (x, y, w) ∈ triangle ∨ (x = 2 ∧ y = 3 ∧ some 1 = some w) ∨ (x = 3 ∧ y = 2 ∧ some 5 = some w) := by
  refine ⟨by decide, by decide, by decide, by decide, fun x y w => ?_⟩
  simp only [glued, triangle, List.mem_cons, List.not_mem_nil, or_false, Prod.mk.injEq, Option.some.injEq]
  constructor
  · rintro (⟨rfl, rfl, rfl⟩ | ⟨rfl, rfl, rfl⟩ | ⟨rfl, rfl, rfl⟩ | ⟨rfl, rfl, rfl⟩ | ⟨rfl, rfl, rfl⟩) <;> simp
  · rintro ((⟨rfl, rfl, rfl⟩ | ⟨rfl, rfl, rfl⟩ | ⟨rfl, rfl, rfl⟩) | ⟨rfl, rfl, rfl⟩ | ⟨rfl, rfl, rfl⟩) <;> simp

/-- The interval that the vertex 3 adds. -/
example : hangingBars (some 1) (some 5) = ({(0, 5)} : Multiset (WithTop ℕ × WithTop (WithTop ℕ))) := by decide

end GraphExample
end Phlite
