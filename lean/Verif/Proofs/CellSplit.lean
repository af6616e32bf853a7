/-
Cell complexes as inputs of the clearing algorithm.
-/
import Verif.Proofs.Reverse

set_option linter.unusedSectionVars false
set_option linter.unusedSimpArgs false

namespace Phlite
open Finsupp (single linearCombination linearCombination_single)
open OrderDual (toDual ofDual)

section
variable {CF T F K : Type} [NonZeroCoeff CF] [Field K] [LawfulCoeff CF K] [LinearOrder F] [LinearOrder T]
variable {D : FOracle CF T T F} {f : T → F} {M N : T → (T →₀ K)} {deg : T → ℤ} {cells : ℤ → List T}

/-- The coboundary of a cell complex squares to zero. -/
theorem CellComplex.cosq (h : CellComplex K f deg cells M N) {d : ℤ} {c : T} (hc : c ∈ cells d) : linearCombination K N (N c) = 0 := by
  classical
  ext r
  rw [Finsupp.coe_zero, Pi.zero_apply]
  by_contra hne
  obtain ⟨x, h1, h2⟩ := lc_support hne
  have hx := h.rowsN d c hc x h1
  have hr := h.rowsN _ x hx r h2
  apply hne
  have e1 : linearCombination K N (N c) r = ∑ τ ∈ (cells (d + 1)).toFinset, N c τ * N τ r := by
    rw [Finsupp.linearCombination_apply, Finsupp.sum, Finsupp.finsetSum_apply]
    simp only [Finsupp.smul_apply, smul_eq_mul]
    refine Finset.sum_subset ?_ ?_
    · intro τ hτ
      rw [List.mem_toFinset]
      exact h.rowsN d c hc τ (Finsupp.mem_support_iff.1 hτ)
    · intro τ _ hτ
      rw [Finsupp.notMem_support_iff.1 hτ]; simp
  have e2 : linearCombination K M (M r) c = ∑ τ ∈ (cells (d + 1)).toFinset, M r τ * M τ c := by
    rw [Finsupp.linearCombination_apply, Finsupp.sum, Finsupp.finsetSum_apply]
    simp only [Finsupp.smul_apply, smul_eq_mul]
    refine Finset.sum_subset ?_ ?_
    · intro τ hτ
      rw [List.mem_toFinset]
      have := h.rowsM _ r hr τ (Finsupp.mem_support_iff.1 hτ)
      rwa [add_sub_cancel_right] at this
    · intro τ _ hτ
      rw [Finsupp.notMem_support_iff.1 hτ]; simp
  have e3 := h.sq _ r hr
  rw [e1]
  rw [e3, Finsupp.coe_zero, Pi.zero_apply] at e2
  rw [e2]
  refine Finset.sum_congr rfl fun τ hτ => ?_
  rw [List.mem_toFinset] at hτ
  rw [h.transpose d c hc τ hτ, h.transpose _ τ hτ r hr, mul_comm]

theorem range_order (m : ℕ) (p : List ℕ) (d : ℕ) (q : List ℕ) (h : List.range (m + 1) = p ++ d :: q) : ∀ d' ∈ p, d' < d := by
  intro d' hd'
  have h1 : (List.range (m + 1)).Pairwise (· < ·) := List.pairwise_lt_range
  rw [h] at h1
  exact (List.pairwise_append.1 h1).2.2 d' hd' d (by simp)

/-- The coboundary matrix of a cell complex, in the dimensions `0..=m`, is a valid input. -/
theorem CellComplex.splitCob (h : CellComplex K f deg cells M N) {B : SplitBasis T} {m : ℕ}
    (hB : ∀ d : ℕ, d ≤ m → ∃ Bd, B.inDim d = some Bd ∧ Bd.elems = some (cells d))
    (hread : ∀ d : ℕ, d ≤ m → ∀ c ∈ cells d, ReadsCol K D f N c)
    (hrows : ∀ d : ℕ, d ≤ m → ∀ c ∈ cells d, ∀ l, D.column c = some l → ∀ t ∈ l, t.2 ∈ cells (d + 1)) :
    SplitComplex K D B f N deg 1 (List.range (m + 1)) fun d => cells d where
  basis d hd := hB d (by rw [List.mem_range] at hd; omega)
  deg_els d _ c hc := h.deg_cells _ _ hc
  sorted d _ := h.sorted _
  good d hd := hread d (by rw [List.mem_range] at hd; omega)
  rows d hd c hc l hl t ht := by
    have := hrows d (by rw [List.mem_range] at hd; omega) c hc l hl t ht
    refine ⟨h.deg_cells _ _ this, ?_⟩
    intro d' _ e
    rw [e]; exact this
  nodup := List.nodup_range
  order p d q e d' hd' := by
    have := range_order m p d q e d' hd'
    omega
  shift := one_ne_zero
  sq d _ d' _ _ c hc := h.cosq hc

/-- The boundary matrix of a cell complex, in the dimensions `m, ..., 0`, is a valid input. -/
theorem CellComplex.splitBdry (h : CellComplex K f deg cells M N) {B : SplitBasis T} {m : ℕ}
    (hB : ∀ d : ℕ, d ≤ m → ∃ Bd, B.inDim d = some Bd ∧ Bd.elems = some (cells d))
    (hread : ∀ d : ℕ, d ≤ m → ∀ c ∈ cells d, ReadsCol K D f M c)
    (hrows : ∀ d : ℕ, d ≤ m → ∀ c ∈ cells d, ∀ l, D.column c = some l → ∀ t ∈ l, t.2 ∈ cells (d - 1)) :
    SplitComplex K D B f M deg (-1) (List.range (m + 1)).reverse fun d => cells d where
  basis d hd := hB d (by rw [List.mem_reverse, List.mem_range] at hd; omega)
  deg_els d _ c hc := h.deg_cells _ _ hc
  sorted d _ := h.sorted _
  good d hd := hread d (by rw [List.mem_reverse, List.mem_range] at hd; omega)
  rows d hd c hc l hl t ht := by
    have := hrows d (by rw [List.mem_reverse, List.mem_range] at hd; omega) c hc l hl t ht
    refine ⟨h.deg_cells _ _ this, ?_⟩
    intro d' _ e
    rw [e]; exact this
  nodup := List.nodup_reverse.2 List.nodup_range
  order p d q e d' hd' := by
    have e2 := congrArg List.reverse e
    rw [List.reverse_reverse, List.reverse_append, List.reverse_cons, List.append_assoc] at e2
    have h1 : (List.range (m + 1)).Pairwise (· < ·) := List.pairwise_lt_range
    rw [e2] at h1
    have h2 := (List.pairwise_append.1 h1).2.1
    have := (List.pairwise_append.1 h2).2.2 d (by simp) d' (by simpa using hd')
    omega
  shift := by decide
  sq d _ d' _ _ c hc := h.sq _ _ hc

/-- Taking a reference commutes with reversing. -/
theorem mapOpt_omap {α β γ : Type} (g : β → γ) (f : α → Option β) (l : List α) :
    mapOpt (fun a => (f a).map g) l = (mapOpt f l).map fun l => l.map g := by
  induction l with
  | nil => rfl
  | cons a l ih =>
    simp only [mapOpt, ih]
    cases f a <;> simp
    cases mapOpt f l <;> simp

theorem mapOpt_comp {α β γ : Type} (g : α → β) (f : β → Option γ) (l : List α) : mapOpt f (l.map g) = mapOpt (fun a => f (g a)) l := by
  induction l with
  | nil => rfl
  | cons a l ih => simp only [List.map_cons, mapOpt, ih]

theorem reverse_ref (D : FOracle CF T T F) : D.reverse.ref = D.ref.reverse := by
  have : D.reverse.ref.colF = D.ref.reverse.colF := by
    funext c
    simp only [FOracle.ref, FOracle.reverse, Oracle.withFilt, defaultColF, Option.bind_map, Option.map_bind, Function.comp_def]
    congr 1
    funext l
    rw [mapOpt_comp, ← mapOpt_omap]
    congr 1
    funext t
    simp only [OrderDual.ofDual_toDual]
    cases D.filt t.2 <;> rfl
  unfold FOracle.ref at this ⊢
  unfold FOracle.reverse at this ⊢
  unfold Oracle.withFilt at this ⊢
  simp only at this ⊢
  rw [this]

end
end Phlite
