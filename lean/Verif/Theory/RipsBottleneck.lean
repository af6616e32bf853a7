/-
The Vietoris-Rips filtrations of two metrics on the same points are two filtrations of the same complex.
-/
import Verif.Theory.Bottleneck
import Verif.Theory.RipsInvariance
import Verif.Theory.Simplex

set_option linter.unusedSectionVars false
set_option linter.unusedSimpArgs false

namespace Phlite
open Finsupp (single linearCombination linearCombination_single)

section
variable {K F : Type} [Field K] [Field F] [LinearOrder F] [IsStrictOrderedRing F]

/-- The greatest distance between points of `σ`. -/
def diamOf (d : ℕ → ℕ → F) (σ : Finset ℕ) : F := if h : σ.Nonempty then (σ ×ˢ σ).sup' (h.product h) fun x => d x.1 x.2 else 0

theorem diamOf_le {d : ℕ → ℕ → F} {σ : Finset ℕ} (h : σ.Nonempty) {s : F} : diamOf d σ ≤ s ↔ ∀ a ∈ σ, ∀ b ∈ σ, d a b ≤ s := by
  rw [diamOf, dif_pos h, Finset.sup'_le_iff]
  exact ⟨fun H a ha b hb => H (a, b) (Finset.mk_mem_product ha hb), fun H x hx => H _ (Finset.mem_product.1 hx).1 _ (Finset.mem_product.1 hx).2⟩

theorem diamOf_close {d d' : ℕ → ℕ → F} {σ : Finset ℕ} (h : σ.Nonempty) {ε : F} (hd : ∀ a ∈ σ, ∀ b ∈ σ, |d a b - d' a b| ≤ ε) :
    |diamOf d σ - diamOf d' σ| ≤ ε := by
  have key : ∀ d d' : ℕ → ℕ → F, (∀ a ∈ σ, ∀ b ∈ σ, |d a b - d' a b| ≤ ε) → diamOf d σ ≤ diamOf d' σ + ε := by
    intro d d' hd
    rw [diamOf_le h]
    intro a ha b hb
    have h1 := (diamOf_le (d := d') h).1 le_rfl a ha b hb
    have h2 := (abs_le.1 (hd a ha b hb)).2
    linarith
  have h1 := key d d' hd
  have h2 := key d' d fun a ha b hb => by rw [abs_sub_comm]; exact hd a ha b hb
  rw [abs_le]; constructor <;> linarith

/-- The simplices with `m` vertices on `n` points. -/
def fullSkeleton (n m : ℕ) : Finset (Finset ℕ) := (Finset.range n).powersetCard m

theorem level_rips (n : ℕ) (d : ℕ → ℕ → F) (p : ℕ) (s : F) : level (diamOf d) (fullSkeleton n (p + 1)) s = vietorisRips n d p s := by
  ext σ
  simp only [level, fullSkeleton, vietorisRips, Finset.mem_powersetCard, Set.mem_setOf_eq, and_assoc]
  refine and_congr_right fun _ => and_congr_right fun hc => diamOf_le ?_
  exact Finset.card_pos.1 (by omega)

theorem fullSkeleton_twoDegrees (n p : ℕ) :
    TwoDegrees (simplexBoundary K) (fun σ => (σ.card : ℤ) - 1) (fullSkeleton n (p + 1)) (fullSkeleton n (p + 2)) p where
  degX x hx := by rw [(Finset.mem_powersetCard.1 hx).2]; push_cast; ring
  degY y hy := by rw [(Finset.mem_powersetCard.1 hy).2]; push_cast; ring
  rowsX x hx r hr := by
    obtain ⟨h1, v, hv, rfl⟩ := simplexBoundary_support hr
    have := (Finset.mem_powersetCard.1 hx).2
    rw [Finset.card_erase_of_mem hv, this]; push_cast; ring
  rowsY y hy r hr := by
    obtain ⟨h1, v, hv, rfl⟩ := simplexBoundary_support hr
    obtain ⟨h2, h3⟩ := Finset.mem_powersetCard.1 hy
    exact Finset.mem_powersetCard.2 ⟨(Finset.erase_subset _ _).trans h2, by rw [Finset.card_erase_of_mem hv, h3]; rfl⟩
  sq y _ := simplexBoundary_sq y

theorem levelBarcode_rips {n : ℕ} {d : ℕ → ℕ → F} {p : ℕ} {bars : Multiset (F × WithTop F)} (h : IsRipsBarcode K n d p bars) :
    levelBarcode K (simplexBoundary K) (fullSkeleton n (p + 1)) (fullSkeleton n (p + 2)) (diamOf d) bars := by
  refine ⟨h.1, fun s t hst => ?_⟩
  rw [h.2 s t hst]
  exact betti_congr (level_rips ..).symm (level_rips ..).symm (level_rips ..).symm (level_rips ..).symm _ _ _ _

theorem IsRipsBarcode.bottleneck {n : ℕ} {d d' : ℕ → ℕ → F} {p : ℕ} {bars bars' : Multiset (F × WithTop F)} (h : IsRipsBarcode K n d p bars)
    (h' : IsRipsBarcode K n d' p bars') {ε : F} (hε : 0 ≤ ε) (hd : ∀ i < n, ∀ j < n, |d i j - d' i j| ≤ ε) : BottleneckLE ε bars bars' := by
  have hcl : ∀ m, 1 ≤ m → ∀ σ ∈ fullSkeleton n m, |diamOf d σ - diamOf d' σ| ≤ ε := by
    intro m hm σ hσ
    obtain ⟨h1, h2⟩ := Finset.mem_powersetCard.1 hσ
    exact diamOf_close (Finset.card_pos.1 (by omega)) fun a ha b hb => hd a (by simpa using h1 ha) b (by simpa using h1 hb)
  exact (fullSkeleton_twoDegrees (K := K) n p).bottleneck hε (hcl _ (by omega)) (hcl _ (by omega)) (levelBarcode_rips h) (levelBarcode_rips h')

end
end Phlite
