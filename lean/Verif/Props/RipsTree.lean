/-
Property theorems C87: the degree-0 intervals of the Rips program are the edge lengths of a minimum spanning tree.
-/
import Verif.Theory.SpanningTree
import Verif.Props.RipsReport
import Verif.Props.RipsText
import Verif.Proofs.Display

set_option linter.unusedSectionVars false
set_option linter.unusedSimpArgs false

namespace Phlite
open OrderDual (toDual ofDual)

section
variable {F : Type} [LinearOrder F] [Zero F]

/-- C87: the barcode of degree 0 of the Vietoris-Rips filtration, in terms of a minimum spanning tree: one infinite interval, and the interval from 0 to the length of the
edge, for each edge of positive length. -/
theorem C87_barcode (K : Type) [Field K] {n : ℕ} {d : ℕ → ℕ → F} {E : Finset (ℕ × ℕ)} (h : IsMinimumSpanningTree n d E) (hdiag : ∀ i < n, d i i = 0)
    (hsymm : ∀ i < n, ∀ j < n, d i j = d j i) (bars : Multiset (F × WithTop F)) :
    IsRipsBarcode K n d 0 bars ↔ bars = (0, ⊤) ::ₘ (E.filter fun e => 0 < d e.1 e.2).val.map fun e => (0, (d e.1 e.2 : WithTop F)) :=
  ⟨fun h' => h'.unique (mst_barcode K h hdiag hsymm), fun e => e ▸ mst_barcode K h hdiag hsymm⟩

/-- C87: there is a minimum spanning tree, for weights in any linear order. -/
theorem C87_exists (n : ℕ) (d : ℕ → ℕ → F) : (∃ E, IsMinimumSpanningTree n d E) ↔ 1 ≤ n := by
  constructor
  · rintro ⟨E, h⟩
    have := h.card
    omega
  · exact exists_minimum d

/-- C87: for weights that can be added, minimum spanning trees are the spanning trees with the least total weight. -/
theorem C87_total {M : Type} [AddCommMonoid M] [LinearOrder M] [IsOrderedCancelAddMonoid M] (n : ℕ) (d : ℕ → ℕ → M) (E : Finset (ℕ × ℕ)) :
    IsMinimumSpanningTree n d E ↔ IsSpanningTree n E ∧ ∀ E', IsSpanningTree n E' → ∑ e ∈ E, d e.1 e.2 ≤ ∑ e ∈ E', d e.1 e.2 :=
  minimum_iff_sum

theorem tree_filter {d : ℕ → ℕ → F} {E : Finset (ℕ × ℕ)} {q : F → Prop} (hq : ∀ x, q x → 0 < x) [DecidablePred q]
    {p : F × WithTop F → Prop} [DecidablePred p] (htop : p (0, ⊤)) (hp : ∀ x : F, p (0, (x : WithTop F)) ↔ q x) :
    (((0, ⊤) ::ₘ (E.filter fun e => 0 < d e.1 e.2).val.map fun e => (0, (d e.1 e.2 : WithTop F))).filter p : Multiset (F × WithTop F)) =
      (0, ⊤) ::ₘ (E.filter fun e => q (d e.1 e.2)).val.map fun e => (0, (d e.1 e.2 : WithTop F)) := by
  rw [Multiset.filter_cons_of_pos _ htop, Multiset.filter_map]
  congr 2
  rw [Finset.filter_val, Finset.filter_val, Multiset.filter_filter]
  apply Multiset.filter_congr
  intro e _
  rw [Function.comp_apply, hp]
  exact ⟨fun h => h.1, fun h => ⟨h, hq _ h⟩⟩

end

section
variable [StdHeap]
variable {enumE : Finset RipsIndexᵒᵈ → List RipsIndexᵒᵈ} {enumP : Finset (RipsIndexᵒᵈ × RipsIndexᵒᵈ) → List (RipsIndexᵒᵈ × RipsIndexᵒᵈ)}

/-- C87: the report of the Rips program for dimension 0, with any ordered distances. -/
theorem C87_report {F : Type} [LinearOrder F] [Zero F] {distances : List (List F)} {d : ℕ → ℕ → F} (CF K : Type) [Field K] [NonZeroCoeff CF] [LawfulCoeff CF K]
    (hD : IsDistanceMatrix distances d) (arg : Option ℕ) (h1 : 1 ≤ arg.getD 1 ∨ distances.length ≤ 1)
    {long : F → F → Bool} (hlong : ∀ b e, long b e = true → b < e) (hE : Enumerates enumE) (hP : Enumerates enumP)
    {E : Finset (ℕ × ℕ)} (hmst : IsMinimumSpanningTree distances.length d E) :
    ∃ report, (∃ enough, ∀ fuel ≥ enough, ripsMain CF long enumE enumP distances arg fuel = some report) ∧
      report.intervals 0 = (0, ⊤) ::ₘ (E.filter fun e => long 0 (d e.1 e.2) = true).val.map fun e => (0, (d e.1 e.2 : WithTop F)) := by
  classical
  obtain ⟨report, hrun, -, hbars, -⟩ := C52_rips_report CF K hD arg h1 hlong hE hP
  refine ⟨report, hrun, ?_⟩
  obtain ⟨bars, hb, hr⟩ := hbars 0 (Nat.zero_le _)
  rw [hr, ← (hb _).1 ((C87_barcode K hmst hD.diag hD.symm _).2 rfl)]
  exact tree_filter (fun x hx => hlong 0 x hx) (fun e he => by simp at he) fun x => ⟨fun h => h x rfl, fun h e he => by rw [← WithTop.coe_injective he]; exact h⟩

open Classical in
/-- C87: the text that the Rips program prints for dimension 0. The input is csv with the decimal numerals `x i j`, `E` is a minimum spanning tree for these numbers, i.e. one with the
least total length. The intervals printed in dimension 0 are `[0, ∞)` and `[0, w)` for each edge of the tree, where `w` is its length as rounded to `f64`, unless it is not greater
than 0.01. -/
theorem C87_text (CF K : Type) [Field K] [NonZeroCoeff CF] [LawfulCoeff CF K] (fmt : NotNan → String)
    (hE : Enumerates enumE) (hP : Enumerates enumP) {stdin : String} {rows : List (List String)} (h : IsCsv stdin.toList rows)
    (hbom : ∀ c ∈ stdin.toList.head?, c.toNat ≠ 0xFEFF) (hsquare : ∀ row ∈ rows, row.length = rows.length) {x : ℕ → ℕ → ℚ}
    (hx : ∀ i < rows.length, ∀ j < rows.length, ∃ row s, rows[i]? = some row ∧ row[j]? = some s ∧ IsDecimal s (x i j))
    (hsymm : ∀ i < rows.length, ∀ j < rows.length, x i j = x j i) (hdiag : ∀ i < rows.length, x i i = 0)
    (hnonneg : ∀ i < rows.length, ∀ j < rows.length, 0 ≤ x i j) {args : List String}
    {max_dim : ℕ} (harg : (args[1]? = none ∧ max_dim = 1) ∨ ∃ arg, args[1]? = some arg ∧ IsNumeral arg max_dim ∧ max_dim < 2 ^ 64)
    (h1 : 1 ≤ max_dim) {E : Finset (ℕ × ℕ)} (hmst : IsSpanningTree rows.length E)
    (hleast : ∀ E', IsSpanningTree rows.length E' → ∑ e ∈ E, x e.1 e.2 ≤ ∑ e ∈ E', x e.1 e.2) :
    ∃ (report : RipsReport NotNan) (d : ℕ → ℕ → NotNan), (∃ enough, ∀ fuel ≥ enough, ripsStdout CF fmt enumE enumP stdin args fuel = (report.text fmt, true)) ∧
      (∀ i < rows.length, ∀ j < rows.length, IsRounded (x i j) (d i j)) ∧
      report.intervals 0 = (0, ⊤) ::ₘ (E.filter fun e => IsLong 0 (d e.1 e.2)).val.map fun e => (0, (d e.1 e.2 : WithTop NotNan)) := by
  obtain ⟨report, d, hrun, hd, -, hbars⟩ := C83_report CF K fmt hE hP h hbom hsquare hx hsymm hdiag hnonneg harg h1
  refine ⟨report, d, hrun, hd, ?_⟩
  have h0 : IsRounded 0 (0 : NotNan) := IsRounded.self ⟨0, rfl, by simp [F64Value.real]⟩
  have hmin := (C87_total rows.length x E).2 ⟨hmst, hleast⟩
  have hmst' : IsMinimumSpanningTree rows.length d E := by
    refine ⟨hmst, fun e he f hf => ?_⟩
    have h2 := hmst.lt e he
    have h3 := hf.lt f (Finset.mem_insert_self _ _)
    exact C82_order (hd _ h2.1 _ h2.2) (hd _ h3.1 _ h3.2) (hmin.minimal e he f hf)
  obtain ⟨bars, hb, hr⟩ := (hbars 0).1 (Nat.zero_le _)
  rw [hr, ← (hb _).1 ((C87_barcode K hmst' (fun i hi => ?_) (fun i hi j hj => ?_) _).2 rfl)]
  · exact tree_filter (q := fun y => IsLong 0 y) (fun y hy => hy.lt) (fun e he => by simp at he)
      fun y => ⟨fun h => h y rfl, fun h e he => by rw [← WithTop.coe_injective he]; exact h⟩
  · have h2 := hd i hi i hi
    rw [hdiag i hi] at h2
    exact h2.unique h0
  · have h2 := hd i hi j hj
    rw [hsymm i hi j hj] at h2
    exact h2.unique (hd j hj i hi)

end

namespace RipsExample

/-- Three points at 0, 1 and 3 on a line. -/
def lineDist : List (List ℕ) := [[0, 1, 3], [1, 0, 2], [3, 2, 0]]
def lineD (i j : ℕ) : ℕ := ((lineDist.getD i []).getD j 0)

theorem isLineDist : IsDistanceMatrix lineDist lineD := by
  constructor <;> decide

theorem line_tree : IsSpanningTree 3 {(0, 1), (1, 2)} := by
  refine ⟨by decide, by decide, ?_⟩
  unfold componentCount
  rw [Nat.card_eq_one_iff_unique]
  refine ⟨⟨?_⟩, ⟨SimpleGraph.connectedComponentMk _ ⟨0, by decide⟩⟩⟩
  have h1 : (SimpleGraph.fromRel fun a b : Fin 3 => ((a : ℕ), (b : ℕ)) ∈ ({(0, 1), (1, 2)} : Finset (ℕ × ℕ))).Reachable 0 1 :=
    SimpleGraph.Adj.reachable ((SimpleGraph.fromRel_adj _ _ _).2 (by decide))
  have h2 : (SimpleGraph.fromRel fun a b : Fin 3 => ((a : ℕ), (b : ℕ)) ∈ ({(0, 1), (1, 2)} : Finset (ℕ × ℕ))).Reachable 1 2 :=
    SimpleGraph.Adj.reachable ((SimpleGraph.fromRel_adj _ _ _).2 (by decide))
  have key : ∀ x : Fin 3, (SimpleGraph.fromRel fun a b : Fin 3 => ((a : ℕ), (b : ℕ)) ∈ ({(0, 1), (1, 2)} : Finset (ℕ × ℕ))).Reachable 0 x := by
    intro x
    fin_cases x
    · exact SimpleGraph.Reachable.refl _
    · exact h1
    · exact h1.trans h2
  intro c c'
  induction c using Quot.ind with | mk x =>
  induction c' using Quot.ind with | mk y =>
  exact Quot.sound ((key x).symm.trans (key y))

theorem line_mst : IsMinimumSpanningTree lineDist.length lineD {(0, 1), (1, 2)} := by
  refine ⟨line_tree, ?_⟩
  rintro e he ⟨a, b⟩ hf
  have h1 := hf.edges (a, b) (Finset.mem_insert_self _ _)
  have h2 : b < 3 := h1.2
  have h3 : a < b := h1.1
  have hc := hf.card
  have key : ∀ e ∈ ({(0, 1), (1, 2)} : Finset (ℕ × ℕ)), ∀ b < 3, ∀ a < b, (insert (a, b) (({(0, 1), (1, 2)} : Finset (ℕ × ℕ)).erase e)).card + 1 = 3 →
      lineD e.1 e.2 ≤ lineD a b := by decide
  exact key e he b h2 a h3 hc

/-- C87 applied: the intervals of dimension 0 of the three points, with a filter that drops intervals of length at most 1. -/
example : ∃ report, (∃ enough, ∀ fuel ≥ enough, (letI := listHeap; ripsMain Z2 (fun b e => decide (b + 1 < e)) enumE enumP lineDist none fuel) = some report) ∧
    report.intervals 0 = {(0, ⊤), (0, ((2 : ℕ) : WithTop ℕ))} := by
  letI := listHeap
  obtain ⟨report, h1, h2⟩ := C87_report Z2 (ZMod 2) isLineDist none (Or.inl le_rfl) (long := fun b e => decide (b + 1 < e)) (fun b e h => by simp at h; omega)
    (enumE := enumE) (enumP := enumP) (enumBy_enumerates _ _) (enumBy_enumerates _ _) line_mst
  exact ⟨report, h1, by rw [h2]; decide⟩

/-- The run of the program itself. -/
example : letI := listHeap
    (ripsMain Z2 (fun b e => decide (b < e)) enumE enumP lineDist none 20).map (fun r => (r.essential.map fun x => (x.1, x.2.2), r.pairings.map fun x => (x.1, x.2.2))) =
      some ([(0, 0)], [(0, 0, 2), (0, 0, 1)]) := by decide +kernel

end RipsExample
end Phlite
