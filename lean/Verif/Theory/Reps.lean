/-
Reduced columns represent the finite bars.
-/
import Verif.Theory.Restrict
import Verif.Theory.Barcode

set_option linter.unusedSectionVars false
set_option linter.unusedSimpArgs false

namespace Phlite
open Finsupp (single linearCombination linearCombination_single)

variable {K T F : Type} [Field K] [LinearOrder F] [LinearOrder T]

/-- The death columns of a sorted list are sorted. -/
theorem deathsOf_sorted {f : T → F} {cols : List T} {M : T → (T →₀ K)} (h : cols.Pairwise fun a b => rowKey f a < rowKey f b) :
    (deathsOf (rowKey f) cols M).Pairwise fun a b => rowKey f a < rowKey f b := h.filter _

theorem mem_deathsOf {L : Type} [LinearOrder L] {key : T → L} {cols : List T} {M : T → (T →₀ K)} {c : T} :
    c ∈ deathsOf key cols M ↔ ∃ r, IsPersistencePair key cols M r c := by
  unfold deathsOf
  rw [List.mem_filter]
  simp only [decide_eq_true_eq, and_iff_right_iff_imp]
  rintro ⟨r, pre, post, h, _⟩
  rw [h]; simp

/-- The boundaries of the columns that appear by `t` are spanned by the reduced columns of the deaths that appear by `t`. -/
theorem boundaries_eq_reduced {f : T → F} {cols : List T} {M W : T → (T →₀ K)} (hs : cols.Pairwise fun a b => rowKey f a < rowKey f b)
    (hW : Decomp (rowKey f) (deathsOf (rowKey f) cols M) M W) (t : F) :
    Submodule.span K (M '' {x | x ∈ cols ∧ f x ≤ t}) =
      Submodule.span K ((fun c => linearCombination K M (W c)) '' {x | x ∈ deathsOf (rowKey f) cols M ∧ f x ≤ t}) := by
  classical
  have hk := rowKey_injective f
  have e1 : {x | x ∈ cols ∧ f x ≤ t} = {x | x ∈ cols.filter fun x => f x ≤ t} := by ext x; simp [List.mem_filter]
  have e2 : {x | x ∈ deathsOf (rowKey f) cols M ∧ f x ≤ t} = {x | x ∈ (deathsOf (rowKey f) cols M).filter fun x => f x ≤ t} := by
    ext x; simp [List.mem_filter]
  have s1 := sorted_split cols hs t
  have s2 := sorted_split _ (deathsOf_sorted (M := M) hs) t
  have hW' : Decomp (rowKey f) ((deathsOf (rowKey f) cols M).filter fun x => f x ≤ t) M W := by
    rw [s2] at hW; exact hW.of_prefix
  have h3 := hW'.span_prefix LinearMap.id
  simp only [LinearMap.id_coe, id_eq] at h3
  rw [e1, e2, ← h3, ← span_deaths hk (sorted_nodup hs) M s1]
  congr 2
  ext x
  simp only [Set.mem_ofPred_eq, List.mem_filter, mem_deathsOf, decide_eq_true_eq]
  constructor
  · rintro ⟨⟨_, h2⟩, h3⟩; exact ⟨h3, h2⟩
  · rintro ⟨h3, h2⟩
    obtain ⟨r, pre, post, h, _⟩ := id h3
    exact ⟨⟨by rw [h]; simp, h2⟩, h3⟩

section
variable {f : T → F} {cols : List T} {M W : T → (T →₀ K)} (hs : cols.Pairwise fun a b => rowKey f a < rowKey f b)
  (hW : Decomp (rowKey f) (deathsOf (rowKey f) cols M) M W)
include hs hW

/-- The lead of a reduced death column is its birth. -/
theorem reduced_lead {σ τ : T} (h : IsPersistencePair (rowKey f) cols M σ τ) : IsLead (rowKey f) (linearCombination K M (W τ)) σ :=
  ((hW.pair_iff (rowKey_injective f) σ τ).1 ((pairs_restrict (rowKey_injective f) (sorted_nodup hs) M σ τ).2 h)).2

/-- The reduced column of a death is a boundary at its time. -/
theorem reduced_boundary {τ : T} (hτ : τ ∈ deathsOf (rowKey f) cols M) :
    linearCombination K M (W τ) ∈ Submodule.span K (M '' {x | x ∈ cols ∧ f x ≤ f τ}) := by
  rw [boundaries_eq_reduced hs hW]
  exact Submodule.subset_span ⟨τ, ⟨hτ, le_rfl⟩, rfl⟩

/-- A combination of reduced columns with deaths after `t` that is a boundary at time `t` up to a chain `y` involves only births at which `y`
is supported. -/
theorem reduced_independent {t : F} {a y w : T →₀ K} (ha : ∀ τ, a τ ≠ 0 → τ ∈ deathsOf (rowKey f) cols M ∧ t < f τ)
    (hw : w ∈ Submodule.span K (M '' {x | x ∈ cols ∧ f x ≤ t})) (e : linearCombination K (fun c => linearCombination K M (W c)) a = y + w) {σ τ : T}
    (hτ : a τ ≠ 0) (hp : IsPersistencePair (rowKey f) cols M σ τ) : ∃ r, f σ ≤ f r ∧ y r ≠ 0 := by
  classical
  have hk := rowKey_injective f
  rw [boundaries_eq_reduced hs hW] at hw
  rw [Finsupp.mem_span_image_iff_linearCombination] at hw
  obtain ⟨b, hb, rfl⟩ := hw
  choose! lead hlead using fun τ (h : τ ∈ deathsOf (rowKey f) cols M) => mem_deathsOf.1 h
  have hb' : ∀ c, b c ≠ 0 → c ∈ deathsOf (rowKey f) cols M ∧ f c ≤ t := fun c hc => (Finsupp.mem_supported K b).1 hb (Finsupp.mem_support_iff.2 hc)
  have hbτ : b τ = 0 := by
    by_contra hne
    exact absurd ((hb' τ hne).2.trans_lt (ha τ hτ).2) (lt_irrefl _)
  obtain ⟨r, h1, h2⟩ := lead_of_combination (K := K) hk (S := {x | x ∈ deathsOf (rowKey f) cols M}) (R := fun c => linearCombination K M (W c)) (lead := lead)
    (fun c hc => reduced_lead hs hW (hlead c hc))
    (fun c hc c' hc' e => (pair_unique hk (sorted_nodup hs) M).2 (lead c) c c' (hlead c hc) (by have := hlead c' hc'; rwa [← e] at this))
    (a := a - b) (fun c hc => by
      rw [Finsupp.sub_apply] at hc
      by_cases h : a c = 0
      · rw [h, zero_sub, neg_ne_zero] at hc; exact (hb' c hc).1
      · exact (ha c h).1) (c := τ) (by rw [Finsupp.sub_apply, hbτ, sub_zero]; exact hτ)
  rw [map_sub, e, add_sub_cancel_right] at h2
  refine ⟨r, ?_, h2⟩
  rw [← (pair_unique hk (sorted_nodup hs) M).1 _ _ _ hp (hlead τ (ha τ hτ).1)] at h1
  exact (Prod.Lex.le_iff.1 h1).elim (fun h => h.le) fun h => h.1.le

end
end Phlite
