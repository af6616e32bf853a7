/-
C100: Rips intervals and numbers of simplices.
-/
import Verif.Theory.Euler
import Verif.Props.RipsInvariance

set_option linter.unusedSectionVars false
set_option linter.unusedSimpArgs false

namespace Phlite

section
variable {F : Type} [LinearOrder F] [Zero F] {distances : List (List F)} {d : ℕ → ℕ → F}

/-- C100: the Euler characteristic. If `max_dim` is at least the dimension of the full simplex on all points, then at each scale `t` the alternating sum over the dimensions of the
numbers of intervals that contain `t` is the alternating sum of the numbers of simplices of diameter at most `t`. -/
theorem C100_euler (K : Type) [Field K] (H : StdHeap) {CF : Type} [NonZeroCoeff CF] [LawfulCoeff CF K] (hD : IsDistanceMatrix distances d) {max_dim fuel : ℕ}
    (h1 : 1 ≤ max_dim ∨ distances.length ≤ 1) (hfull : distances.length ≤ max_dim + 1) {bars : ℕ → Multiset (F × WithTop F)}
    (h : ∀ p ≤ max_dim, ripsIntervals H CF distances max_dim fuel p = some (bars p)) (t : F) :
    ∑ p ∈ Finset.range (max_dim + 1), (-1 : ℤ) ^ p * (aliveBars (bars p) t t : ℤ) =
      ∑ p ∈ Finset.range (max_dim + 1), (-1 : ℤ) ^ p * ({σ : Finset ℕ | σ ⊆ Finset.range distances.length ∧ σ.card = p + 1 ∧ ∀ a ∈ σ, ∀ b ∈ σ, d a b ≤ t}.ncard : ℤ) := by
  have hb : ∀ p ∈ Finset.range (max_dim + 1), (aliveBars (bars p) t t : ℤ) =
      persistentBetti (simplexBoundary K) (vietorisRips_mono distances.length d p (le_refl t)) (vietorisRips_mono distances.length d (p + 1) (le_refl t)) := fun p hp => by
    have hp : p ≤ max_dim := Nat.lt_succ_iff.1 (Finset.mem_range.1 hp)
    rw [((C53_intervals (CF := CF) K H hD h1 hp).2 fuel (bars p) (h p hp)).2 t t (le_refl t)]
  have key := alternating_sum K distances.length d t max_dim
  rw [boundaryRank_empty K distances.length d t hfull, Nat.cast_zero, add_zero] at key
  have hsign : ∀ f : ℕ → ℤ, ∑ p ∈ Finset.range (max_dim + 1), (-1 : ℤ) ^ p * f p = (-1) ^ max_dim * ∑ p ∈ Finset.range (max_dim + 1), (-1 : ℤ) ^ (max_dim + p) * f p := by
    intro f
    rw [Finset.mul_sum]
    refine Finset.sum_congr rfl fun p _ => ?_
    rw [← mul_assoc, ← pow_add, ← add_assoc, pow_add, Even.neg_one_pow ⟨max_dim, rfl⟩, one_mul]
  rw [Finset.sum_congr rfl fun p hp => by rw [hb p hp], hsign, key, ← hsign]
  rfl

/-- C100: the Morse inequalities. For any `m ≤ max_dim`, the number of intervals of dimension `m` that contain `t`, minus that of dimension `m - 1`, plus that of dimension `m - 2` and so on,
is at most the same alternating sum of the numbers of simplices of diameter at most `t`. -/
theorem C100_morse (K : Type) [Field K] (H : StdHeap) {CF : Type} [NonZeroCoeff CF] [LawfulCoeff CF K] (hD : IsDistanceMatrix distances d) {max_dim fuel : ℕ}
    (h1 : 1 ≤ max_dim ∨ distances.length ≤ 1) {bars : ℕ → Multiset (F × WithTop F)}
    (h : ∀ p ≤ max_dim, ripsIntervals H CF distances max_dim fuel p = some (bars p)) (t : F) {m : ℕ} (hm : m ≤ max_dim) :
    ∑ p ∈ Finset.range (m + 1), (-1 : ℤ) ^ (m + p) * (aliveBars (bars p) t t : ℤ) ≤
      ∑ p ∈ Finset.range (m + 1), (-1 : ℤ) ^ (m + p) * ({σ : Finset ℕ | σ ⊆ Finset.range distances.length ∧ σ.card = p + 1 ∧ ∀ a ∈ σ, ∀ b ∈ σ, d a b ≤ t}.ncard : ℤ) := by
  have hb : ∀ p ∈ Finset.range (m + 1), (aliveBars (bars p) t t : ℤ) =
      persistentBetti (simplexBoundary K) (vietorisRips_mono distances.length d p (le_refl t)) (vietorisRips_mono distances.length d (p + 1) (le_refl t)) := fun p hp => by
    have hp : p ≤ max_dim := (Nat.lt_succ_iff.1 (Finset.mem_range.1 hp)).trans hm
    rw [((C53_intervals (CF := CF) K H hD h1 hp).2 fuel (bars p) (h p hp)).2 t t (le_refl t)]
  have key := alternating_sum K distances.length d t m
  rw [Finset.sum_congr rfl fun p hp => by rw [hb p hp]]
  have := Nat.cast_nonneg (α := ℤ) (boundaryRank K distances.length d t (m + 1))
  have e : ∀ p, {σ : Finset ℕ | σ ⊆ Finset.range distances.length ∧ σ.card = p + 1 ∧ ∀ a ∈ σ, ∀ b ∈ σ, d a b ≤ t} = vietorisRips distances.length d p t := fun _ => rfl
  simp only [e]
  linarith

/-- C100: in particular no more intervals of a dimension contain `t` than there are simplices of this dimension of diameter at most `t`; and if there are more of these than simplices of the next lower and
the next higher dimension together, at least as many intervals contain `t` as there are more. -/
theorem C100_bounds (K : Type) [Field K] (H : StdHeap) {CF : Type} [NonZeroCoeff CF] [LawfulCoeff CF K] (hD : IsDistanceMatrix distances d) {max_dim fuel : ℕ}
    (h1 : 1 ≤ max_dim ∨ distances.length ≤ 1) {p : ℕ} (hp : p ≤ max_dim) {bars : Multiset (F × WithTop F)}
    (h : ripsIntervals H CF distances max_dim fuel p = some bars) (t : F) {count : ℕ → ℕ}
    (hcount : ∀ q, count q = {σ : Finset ℕ | σ ⊆ Finset.range distances.length ∧ σ.card = q ∧ ∀ a ∈ σ, ∀ b ∈ σ, d a b ≤ t}.ncard) :
    aliveBars bars t t ≤ count (p + 1) ∧ count (p + 1) ≤ aliveBars bars t t + count (p + 2) + (if p = 0 then 0 else count p) := by
  rw [((C53_intervals (CF := CF) K H hD h1 hp).2 fuel bars h).2 t t (le_refl t)]
  beta_reduce
  have e : ∀ q, count (q + 1) = (vietorisRips distances.length d q t).ncard := fun q => hcount (q + 1)
  have h0 := betti_add_ranks K distances.length d t p
  have h2 := betti_add_ranks K distances.length d t (p + 1)
  rw [e p, e (p + 1)]
  refine ⟨by omega, ?_⟩
  cases p with
  | zero =>
    rw [boundaryRank_zero] at h0
    rw [if_pos rfl]
    omega
  | succ p =>
    have h3 := betti_add_ranks K distances.length d t p
    rw [if_neg (Nat.succ_ne_zero p), e p]
    omega

end

namespace RipsExample

/-- The four corners of a square, in all dimensions: the hypotheses of C100. -/
example : IsDistanceMatrix dist d ∧ dist.length ≤ 3 + 1 ∧
    ripsIntervals listHeap Z2 dist 3 20 0 = some {(0, ⊤), (0, ((1 : ℕ) : WithTop ℕ)), (0, ((1 : ℕ) : WithTop ℕ)), (0, ((1 : ℕ) : WithTop ℕ))} ∧
    ripsIntervals listHeap Z2 dist 3 20 1 = some {(1, ((2 : ℕ) : WithTop ℕ))} ∧ ripsIntervals listHeap Z2 dist 3 20 2 = some {} ∧ ripsIntervals listHeap Z2 dist 3 20 3 = some {} := by
  refine ⟨?_, by decide, by decide +kernel, by decide +kernel, by decide +kernel, by decide +kernel⟩
  constructor <;> decide

/-- At scale 1 there are a component and a loop, and four vertices and four edges: both alternating sums are 0. -/
example : aliveBars ({(0, ⊤), (0, ((1 : ℕ) : WithTop ℕ)), (0, ((1 : ℕ) : WithTop ℕ)), (0, ((1 : ℕ) : WithTop ℕ))} : Multiset (ℕ × WithTop ℕ)) 1 1 = 1 ∧
    aliveBars ({(1, ((2 : ℕ) : WithTop ℕ))} : Multiset (ℕ × WithTop ℕ)) 1 1 = 1 := by
  unfold aliveBars
  decide +kernel

end RipsExample
end Phlite
