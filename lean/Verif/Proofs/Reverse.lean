/-
Reversed matrices and bases meet the hypotheses of the reduction algorithms if the originals do.
-/
import Verif.Props.Matrices
import Verif.Props.Clearing

set_option linter.unusedSectionVars false
set_option linter.unusedSimpArgs false

namespace Phlite
open Finsupp (single linearCombination linearCombination_single)
open OrderDual (toDual ofDual)

section
variable {CF T F K : Type} [NonZeroCoeff CF] [Field K] [LawfulCoeff CF K] [LinearOrder F] [LinearOrder T]
variable {D : FOracle CF T T F} {f : T → F} {M N : T → (T →₀ K)}

theorem rowKey_dual_le (f : T → F) (a b : T) : rowKey (dualFilt f) (toDual a) ≤ rowKey (dualFilt f) (toDual b) ↔ rowKey f b ≤ rowKey f a := by
  unfold rowKey dualFilt
  rw [Prod.Lex.le_iff, Prod.Lex.le_iff]
  simp only [ofLex_toLex, OrderDual.ofDual_toDual, OrderDual.toDual_lt_toDual, OrderDual.toDual_le_toDual, OrderDual.toDual_inj]
  constructor
  · rintro (h | ⟨h, h'⟩)
    · exact Or.inl h
    · exact Or.inr ⟨h.symm, h'⟩
  · rintro (h | ⟨h, h'⟩)
    · exact Or.inl h
    · exact Or.inr ⟨h.symm, h'⟩

theorem rowKey_dual_lt (f : T → F) (a b : T) : rowKey (dualFilt f) (toDual a) < rowKey (dualFilt f) (toDual b) ↔ rowKey f b < rowKey f a := by
  rw [← not_le, ← not_le, rowKey_dual_le]

theorem lcOf_dual (l : List (CF × T)) :
    lcOf K (l.map fun t => (t.1, toDual t.2)) = (lcOf K l).equivMapDomain (toDual : T ≃ Tᵒᵈ) := by
  induction l with
  | nil => simp [Finsupp.equivMapDomain_zero]
  | cons x l ih =>
    rw [List.map_cons, lcOf_cons, lcOf_cons, ih]
    ext y
    simp only [Finsupp.add_apply, Finsupp.equivMapDomain_apply]
    congr 1

theorem ReadsCol.reverse {c : T} (h : ReadsCol K D f M c) : ReadsCol K D.reverse (dualFilt f) (dualCols M) (toDual c) := by
  obtain ⟨l, h1, h2, h3, h4⟩ := h
  refine ⟨l.map fun t => (t.1, toDual t.2), ?_, ?_, ?_, ?_⟩
  · simp [FOracle.reverse, h1]
  · simp only [FOracle.reverse, OrderDual.ofDual_toDual, h2, Option.map_some, List.map_map]; rfl
  · intro t ht
    obtain ⟨u, hu, rfl⟩ := List.mem_map.1 ht
    simp [FOracle.reverse, h3 u hu, dualFilt]
  · rw [lcOf_dual, h4]; rfl

theorem lc_dual (M : T → (T →₀ K)) (w : T →₀ K) :
    linearCombination K (dualCols M) (w.equivMapDomain (toDual : T ≃ Tᵒᵈ)) = (linearCombination K M w).equivMapDomain (toDual : T ≃ Tᵒᵈ) :=
  lc_relabel (toDual : T ≃ Tᵒᵈ) M w

theorem dualCols_ne {c r : Tᵒᵈ} : dualCols M c r ≠ 0 ↔ M (ofDual c) (ofDual r) ≠ 0 := by
  unfold dualCols; rw [Finsupp.equivMapDomain_apply]; rfl

theorem dualCols_apply (c r : Tᵒᵈ) : dualCols M c r = M (ofDual c) (ofDual r) := by
  unfold dualCols; rw [Finsupp.equivMapDomain_apply]; rfl

/-- Reversing a finite matrix. -/
theorem FiniteMatrix.reverse {B : Basis T} {els : List T} (h : FiniteMatrix K D B f M els) :
    FiniteMatrix K D.reverse B.reverse (dualFilt f) (dualCols M) (els.reverse.map toDual) where
  basis := C14_reverse_elems B els h.basis
  nodup := (List.nodup_reverse.2 h.nodup).map (toDual : T ≃ Tᵒᵈ).injective
  reads c hc := by
    obtain ⟨x, hx, rfl⟩ := List.mem_map.1 hc
    exact (h.reads x (by simpa using hx)).reverse

/-- Reversing a chain complex split by dimension. -/
theorem SplitComplex.reverse {B : SplitBasis T} {deg : T → ℤ} {ε : ℤ} {dims : List ℕ} {els : ℕ → List T}
    (h : SplitComplex K D B f M deg ε dims els) :
    SplitComplex K D.reverse B.reverse (dualFilt f) (dualCols M) (fun c => deg (ofDual c)) ε dims
      (fun d => (els d).reverse.map toDual) where
  basis d hd := by
    obtain ⟨Bd, h1, h2⟩ := h.basis d hd
    exact ⟨Bd.reverse, by simp [SplitBasis.reverse, h1], C14_reverse_elems Bd _ h2⟩
  deg_els d hd c hc := by
    obtain ⟨x, hx, rfl⟩ := List.mem_map.1 hc
    exact h.deg_els d hd x (by simpa using hx)
  sorted d hd := by
    rw [List.pairwise_map, List.pairwise_reverse]
    refine (h.sorted d hd).imp ?_
    intro a b hab
    rwa [rowKey_dual_lt]
  good d hd c hc := by
    obtain ⟨x, hx, rfl⟩ := List.mem_map.1 hc
    exact (h.good d hd x (by simpa using hx)).reverse
  rows d hd c hc l hl t ht := by
    obtain ⟨x, hx, rfl⟩ := List.mem_map.1 hc
    simp only [FOracle.reverse, OrderDual.ofDual_toDual, Option.map_eq_some_iff] at hl
    obtain ⟨l', h1, rfl⟩ := hl
    obtain ⟨u, hu, rfl⟩ := List.mem_map.1 ht
    obtain ⟨r1, r2⟩ := h.rows d hd x (by simpa using hx) l' h1 u hu
    exact ⟨r1, fun d' hd' he => List.mem_map.2 ⟨u.2, by simpa using r2 d' hd' he, rfl⟩⟩
  nodup := h.nodup
  order := h.order
  shift := h.shift
  sq d hd d' hd' he c hc := by
    obtain ⟨x, hx, rfl⟩ := List.mem_map.1 hc
    have := h.sq d hd d' hd' he x (by simpa using hx)
    show linearCombination K (dualCols M) ((M x).equivMapDomain (toDual : T ≃ Tᵒᵈ)) = 0
    rw [lc_dual, this]
    exact Finsupp.equivMapDomain_zero

theorem pair_dual {cols : List T} (hnd : cols.Nodup) (r c : T) :
    IsPersistencePair (rowKey (dualFilt f)) (cols.map toDual) (dualCols N) (toDual r) (toDual c) ↔
      IsPersistencePair (fun x => toDual (rowKey f x)) cols N r c := by
  refine pair_relabel (toDual : T ≃ Tᵒᵈ) (key := fun x => toDual (rowKey f x)) ?_ ?_ hnd r c
  · intro a b h; exact rowKey_injective f (OrderDual.toDual_inj.1 h)
  · intro a b; rw [rowKey_dual_le, OrderDual.toDual_le_toDual]

theorem dependent_dual {cols : List T} (hnd : cols.Nodup) (c : T) :
    IsDependent (cols.map toDual) (dualCols N) (toDual c) ↔ IsDependent cols N c := by
  refine dependent_relabel (toDual : T ≃ Tᵒᵈ) (key := fun x => toDual (rowKey (fun _ : T => ()) x))
    (key' := rowKey (dualFilt fun _ : T => ())) ?_ ?_ hnd c
  · intro a b h; exact rowKey_injective _ (OrderDual.toDual_inj.1 h)
  · intro a b; rw [rowKey_dual_le, OrderDual.toDual_le_toDual]

/-- Duality in a cell complex. -/
theorem CellComplex.dual {deg : T → ℤ} {cells : ℤ → List T} (h : CellComplex K f deg cells M N) {d : ℤ} {σ τ : T} (hσ : σ ∈ cells d)
    (hτ : τ ∈ cells (d + 1)) :
    IsPersistencePair (rowKey (dualFilt f)) ((cells d).reverse.map toDual) (dualCols N) (toDual τ) (toDual σ) ↔
      IsPersistencePair (rowKey f) (cells (d + 1)) M σ τ := by
  have hnd : (cells d).Nodup := (h.sorted d).imp fun h e => by subst e; exact lt_irrefl _ h
  rw [pair_dual (List.nodup_reverse.2 hnd)]
  refine (pair_transpose (rowKey_injective f) (rowKey_injective f) (cols := cells (d + 1)) (rows := cells d) ?_ ?_ ?_ (h.sorted _)
    (h.sorted _) hσ hτ).symm
  · intro c hc r hr; exact h.transpose d r hr c hc
  · intro c hc r hr
    have := h.rowsM (d + 1) c hc r hr
    rwa [add_sub_cancel_right] at this
  · intro r hr c hc; exact h.rowsN d r hr c hc

/-- The pairs of the boundary matrix join cells of consecutive degrees. -/
theorem CellComplex.pair_mem {deg : T → ℤ} {cells : ℤ → List T} (h : CellComplex K f deg cells M N) {d : ℤ} {σ τ : T}
    (hp : IsPersistencePair (rowKey f) (cells d) M σ τ) : τ ∈ cells d ∧ σ ∈ cells (d - 1) := by
  have hnd : (cells d).Nodup := (h.sorted d).imp fun h e => by subst e; exact lt_irrefl _ h
  obtain ⟨W, hW⟩ := exists_decomp (K := K) (rowKey_injective f) _ hnd M
  obtain ⟨h1, h2⟩ := (hW.pair_iff (rowKey_injective f) σ τ).1 hp
  obtain ⟨x, x1, x2⟩ := lc_support h2.1
  exact ⟨h1, h.rowsM d x (hW.mem_of_ne h1 x1) σ x2⟩

theorem CellComplex.copair_mem {deg : T → ℤ} {cells : ℤ → List T} (h : CellComplex K f deg cells M N) {d : ℤ} {σ τ : T}
    (hp : IsPersistencePair (rowKey (dualFilt f)) ((cells d).reverse.map toDual) (dualCols N) (toDual τ) (toDual σ)) :
    σ ∈ cells d ∧ τ ∈ cells (d + 1) := by
  have hnd : (cells d).Nodup := (h.sorted d).imp fun h e => by subst e; exact lt_irrefl _ h
  rw [pair_dual (List.nodup_reverse.2 hnd)] at hp
  have hk : Function.Injective (fun x => toDual (rowKey f x)) := fun a b h => rowKey_injective f (OrderDual.toDual_inj.1 h)
  obtain ⟨W, hW⟩ := exists_decomp (K := K) hk _ (List.nodup_reverse.2 hnd) N
  obtain ⟨h1, h2⟩ := (hW.pair_iff hk τ σ).1 hp
  obtain ⟨x, x1, x2⟩ := lc_support h2.1
  exact ⟨by simpa using h1, h.rowsN d x (by simpa using hW.mem_of_ne h1 x1) τ x2⟩

end
end Phlite
