/-
Cells that clearing cannot skip.
-/
import Verif.Props.ClearingAny
import Verif.Proofs.ClearingReads

set_option linter.unusedSectionVars false
set_option linter.unusedSimpArgs false

namespace Phlite
open Finsupp (single linearCombination linearCombination_single)

section
variable [StdHeap] {CF T F K : Type} [NonZeroCoeff CF] [Field K] [LawfulCoeff CF K] [LinearOrder F] [LinearOrder T]
variable {D D' : FOracle CF T T F} {B : SplitBasis T} {f : T → F} {M : T → (T →₀ K)} {dims : List ℕ} {els : ℕ → List T}

omit [StdHeap] in
/-- Births of the diagram are pivots of combinations of listed columns. -/
theorem clearing_fold_pivot (hnd : ∀ d ∈ dims, (els d).Nodup) (g : Set (T × T) × Set T) :
    (∀ p ∈ (dims.foldl (fun g d => clearingStep f M g (els d)) g).1, p ∈ g.1 ∨ ∃ d ∈ dims, p.2 ∈ els d ∧ ∃ w : T →₀ K, (∀ x, w x ≠ 0 → x ∈ els d) ∧
      IsPivot f (linearCombination K M w) p.1) ∧
    ∀ c ∈ (dims.foldl (fun g d => clearingStep f M g (els d)) g).2, c ∈ g.2 ∨ ∃ d ∈ dims, c ∈ els d := by
  classical
  induction dims generalizing g with
  | nil => exact ⟨fun p hp => Or.inl hp, fun c hc => Or.inl hc⟩
  | cons d q ih =>
    obtain ⟨h1, h2⟩ := ih (fun d' hd' => hnd d' (by simp [hd'])) (clearingStep f M g (els d))
    have hn : ((els d).filter fun c => decide (c ∉ diagramCells g.1 g.2)).Nodup := (hnd d (by simp)).filter _
    obtain ⟨W, hW⟩ := exists_decomp (K := K) (rowKey_injective f) _ hn M
    constructor
    · intro p hp
      rcases h1 p hp with h | ⟨d', hd', h⟩
      · rcases h with h | h
        · exact Or.inl h
        · obtain ⟨h3, h4⟩ := (hW.pair_iff (rowKey_injective f) p.1 p.2).1 h
          exact Or.inr ⟨d, by simp, (List.mem_filter.1 h3).1, W p.2, fun x x1 => (List.mem_filter.1 (hW.mem_of_ne h3 x1)).1, h4⟩
      · exact Or.inr ⟨d', by simp [hd'], h⟩
    · intro c hc
      rcases h2 c hc with h | ⟨d', hd', h⟩
      · rcases h with h | h
        · exact Or.inl h
        · exact Or.inr ⟨d, by simp, (List.mem_filter.1 ((hW.zero_iff (rowKey_injective f) c).1 h).1).1⟩
      · exact Or.inr ⟨d', by simp [hd'], h⟩

/-- A cell that is not listed and is not the pivot of any combination of listed columns has no stored column. (`D'` is like `D` but may panic more often.) -/
theorem clearing_unstored (hC : DimensionedMatrix K D B f M dims els) (hle : DLE D' D) {fuel : ℕ} {s : CrmState CF T}
    (h : clrAll D' B fuel dims ⟨Diagram.empty, fun _ => none⟩ = some s) {r : T} (hr : ∀ d ∈ dims, r ∉ els d)
    (hp : ∀ d ∈ dims, ∀ w : T →₀ K, (∀ x, w x ≠ 0 → x ∈ els d) → ¬ IsPivot f (linearCombination K M w) r) : s.rc r = none := by
  set m := max fuel ((dims.map fun d => (els d).length).sum + 1) with hm
  have h1 := clrAll_mono hle (le_max_left fuel ((dims.map fun d => (els d).length).sum + 1)) h
  obtain ⟨s', h2, hk, -, hd, -⟩ := passAll_spec hC (fuel := m) (s := ⟨Diagram.empty, fun _ => none⟩) (by
    intro d hd
    have : (els d).length ≤ (dims.map fun d => (els d).length).sum := List.le_sum_of_mem (List.mem_map.2 ⟨d, hd, rfl⟩)
    omega)
    (by intro c; simp [diagramCells, dgmSets, Diagram.empty]) (by intro c hc; simp at hc) dims fun _ h => h
  rw [hm, h1] at h2
  cases h2
  by_contra hne
  have hk' := (hk r).1 (Option.isSome_iff_ne_none.2 hne)
  rw [hd] at hk'
  have he : dgmSets (⟨Diagram.empty, fun _ => none⟩ : CrmState CF T).diagram = (∅, ∅) := by simp [dgmSets, Diagram.empty]
  rw [he] at hk'
  obtain ⟨f1, f2⟩ := clearing_fold_pivot (f := f) (M := M) hC.nodup (∅, ∅)
  rcases hk' with h3 | ⟨p, h3, h4 | h4⟩
  · rcases f2 r h3 with h | ⟨d, hd, h⟩
    · exact h
    · exact hr d hd h
  · rcases f1 p h3 with h | ⟨d, hd, _, w, hw, hpw⟩
    · exact h
    · exact hp d hd w hw (h4 ▸ hpw)
  · rcases f1 p h3 with h | ⟨d, hd, h, _⟩
    · exact h
    · exact hr d hd (h4 ▸ h)

end
end Phlite
