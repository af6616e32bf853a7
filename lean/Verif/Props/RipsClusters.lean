/-
C93: for two groups of points that are far apart the Rips program prints the intervals of the groups, up to the distance of the groups.
-/
import Verif.Theory.Clusters
import Verif.Props.RipsReport
import Verif.Props.RipsInvariance

set_option linter.unusedSectionVars false
set_option linter.unusedSimpArgs false

namespace Phlite

section
variable {F : Type} [LinearOrder F]

/-- The parts of intervals below `R`. -/
def cutIntervals (R : F) (bars : Multiset (F × WithTop F)) : Multiset (F × WithTop F) :=
  (bars.filter fun b => b.1 < R).map fun b => (b.1, min b.2 (R : WithTop F))

theorem aliveBars_cut (R : F) (bars : Multiset (F × WithTop F)) {s t : F} (hst : s ≤ t) :
    aliveBars (cutIntervals R bars) s t = if t < R then aliveBars bars s t else 0 := by
  unfold aliveBars cutIntervals
  rw [Multiset.countP_map, ← Multiset.countP_eq_card_filter, Multiset.countP_filter]
  split
  · rename_i h
    refine Multiset.countP_congr rfl fun b _ => ?_
    simp only [lt_min_iff, WithTop.coe_lt_coe, h, and_true]
    rw [eq_iff_iff]
    exact ⟨fun h1 => h1.1, fun h1 => ⟨h1, h1.1.trans_lt (hst.trans_lt h)⟩⟩
  · rename_i h
    rw [Multiset.countP_eq_zero]
    rintro b _ ⟨⟨_, h2⟩, _⟩
    exact h (WithTop.coe_lt_coe.1 (lt_min_iff.1 h2).2)

theorem cut_nonempty {R : F} {bars : Multiset (F × WithTop F)} (h : ∀ b ∈ bars, (b.1 : WithTop F) < b.2) : ∀ b ∈ cutIntervals R bars, (b.1 : WithTop F) < b.2 := by
  intro b hb
  obtain ⟨a, ha, rfl⟩ := Multiset.mem_map.1 hb
  rw [Multiset.mem_filter] at ha
  exact lt_min (h a ha.1) (WithTop.coe_lt_coe.2 ha.2)

/-- The intervals that end before `R` are those of the two groups together. -/
theorem short_of_cut {R : F} {bars barsA barsB : Multiset (F × WithTop F)} (h : cutIntervals R bars = cutIntervals R barsA + cutIntervals R barsB)
    (hb : ∀ b ∈ bars + barsA + barsB, (b.1 : WithTop F) < b.2) :
    (bars.filter fun b => b.2 < (R : WithTop F)) = ((barsA + barsB).filter fun b => b.2 < (R : WithTop F)) := by
  classical
  have key : ∀ A : Multiset (F × WithTop F), (∀ b ∈ A, (b.1 : WithTop F) < b.2) →
      (cutIntervals R A).filter (fun b => b.2 < (R : WithTop F)) = A.filter fun b => b.2 < (R : WithTop F) := by
    intro A hA
    unfold cutIntervals
    rw [Multiset.filter_map, Multiset.filter_filter]
    have e : A.filter (fun b => ((fun b : F × WithTop F => b.2 < (R : WithTop F)) ∘ fun b => (b.1, min b.2 (R : WithTop F))) b ∧ b.1 < R) = A.filter fun b => b.2 < (R : WithTop F) := by
      refine Multiset.filter_congr fun b hb => ?_
      simp only [Function.comp, min_lt_iff, lt_irrefl, or_false]
      exact ⟨fun h => h.1, fun h => ⟨h, WithTop.coe_lt_coe.1 ((hA b hb).trans h)⟩⟩
    rw [e]
    conv_rhs => rw [← Multiset.map_id (A.filter fun b => b.2 < (R : WithTop F))]
    refine Multiset.map_congr rfl fun b hb => ?_
    rw [min_eq_left (Multiset.of_mem_filter hb).le]
    rfl
  have := congrArg (Multiset.filter fun b => b.2 < (R : WithTop F)) h
  rw [Multiset.filter_add, key _ fun b hm => hb b (by simp [hm]), key _ fun b hm => hb b (by simp [hm]), key _ fun b hm => hb b (by simp [hm]), ← Multiset.filter_add] at this
  exact this

variable [Zero F] {n nA nB : ℕ} {d dA dB : ℕ → ℕ → F}

/-- The points of a matrix are those of two others, at distance at least `R` of each other. -/
theorem IsRipsBarcode.clusters {K : Type} [Field K] {f g : ℕ → ℕ} (hf : ∀ i < nA, f i < n) (hg : ∀ j < nB, g j < n)
    (hcover : ∀ k < n, (∃ i < nA, f i = k) ∨ ∃ j < nB, g j = k)
    (hA : ∀ i < nA, ∀ j < nA, dA i j = d (f i) (f j)) (hB : ∀ i < nB, ∀ j < nB, dB i j = d (g i) (g j)) {R : F}
    (hfar : ∀ i < nA, ∀ j < nB, R ≤ d (f i) (g j)) {p : ℕ} {bars barsA barsB : Multiset (F × WithTop F)}
    (h : IsRipsBarcode K n d p bars) (hbA : IsRipsBarcode K nA dA p barsA) (hbB : IsRipsBarcode K nB dB p barsB) :
    cutIntervals R bars = cutIntervals R barsA + cutIntervals R barsB := by
  let q : ℕ → ℕ := fun i => if i < nA then f i else g (i - nA)
  have q1 : ∀ i < nA, q i = f i := fun i hi => if_pos hi
  have q2 : ∀ i, q (i + nA) = g i := fun i => by show (if i + nA < nA then _ else _) = _; rw [if_neg (by omega), Nat.add_sub_cancel]
  have h' : IsRipsBarcode K (nA + nB) (fun i j => d (q i) (q j)) p bars := h.pullback q
    (fun i hi => by
      by_cases h1 : i < nA
      · rw [q1 i h1]; exact hf i h1
      · rw [← Nat.sub_add_cancel (not_lt.1 h1), q2]; exact hg _ (by omega))
    (fun k hk => by
      rcases hcover k hk with ⟨i, hi, e⟩ | ⟨j, hj, e⟩
      · exact ⟨i, by omega, by rw [q1 i hi, e]⟩
      · exact ⟨j + nA, by omega, by rw [q2, e]⟩)
    fun i _ j _ => rfl
  refine barcode_unique (cut_nonempty h.1) (fun b hb => ?_) fun s t hst => ?_
  · rcases Multiset.mem_add.1 hb with hb | hb
    exacts [cut_nonempty hbA.1 b hb, cut_nonempty hbB.1 b hb]
  · rw [aliveBars_add, aliveBars_cut R _ hst, aliveBars_cut R _ hst, aliveBars_cut R _ hst]
    split
    · rename_i ht
      have e := betti_clusters (K := K) (n := nA) (m := nB) (d := fun i j => d (q i) (q j)) (dA := dA) (dB := dB)
        (fun i hi j hj => by rw [q1 i hi, q1 j hj]; exact hA i hi j hj) (fun i hi j hj => by rw [q2, q2]; exact hB i hi j hj) (R := R)
        (fun i hi j hj => by rw [q1 i hi, q2]; exact hfar i hi j hj) p hst ht
      rw [h'.2 s t hst, hbA.2 s t hst, hbB.2 s t hst]
      exact e
    · rfl

/-- C93: the points of a distance matrix are those of two others, and points of the two groups are at distance at least `R`. Then up to scale `R` the intervals of each
dimension are those of the two groups; in particular this is so for the intervals that end before `R`. -/
theorem C93_clusters (K : Type) [Field K] (H HA HB : StdHeap) {CF CFA CFB : Type} [NonZeroCoeff CF] [LawfulCoeff CF K] [NonZeroCoeff CFA] [LawfulCoeff CFA K]
    [NonZeroCoeff CFB] [LawfulCoeff CFB K] {distances distancesA distancesB : List (List F)} (hD : IsDistanceMatrix distances d)
    (hDA : IsDistanceMatrix distancesA dA) (hDB : IsDistanceMatrix distancesB dB) {f g : ℕ → ℕ} (hf : ∀ i < distancesA.length, f i < distances.length)
    (hg : ∀ j < distancesB.length, g j < distances.length)
    (hcover : ∀ k < distances.length, (∃ i < distancesA.length, f i = k) ∨ ∃ j < distancesB.length, g j = k)
    (hA : ∀ i < distancesA.length, ∀ j < distancesA.length, dA i j = d (f i) (f j)) (hB : ∀ i < distancesB.length, ∀ j < distancesB.length, dB i j = d (g i) (g j))
    {R : F} (hfar : ∀ i < distancesA.length, ∀ j < distancesB.length, R ≤ d (f i) (g j)) {max_dim max_dimA max_dimB : ℕ}
    (h1 : 1 ≤ max_dim ∨ distances.length ≤ 1) (h1A : 1 ≤ max_dimA ∨ distancesA.length ≤ 1) (h1B : 1 ≤ max_dimB ∨ distancesB.length ≤ 1)
    {p : ℕ} (hp : p ≤ max_dim) (hpA : p ≤ max_dimA) (hpB : p ≤ max_dimB) {fuel fuelA fuelB : ℕ} {bars barsA barsB : Multiset (F × WithTop F)}
    (h : ripsIntervals H CF distances max_dim fuel p = some bars) (hbA : ripsIntervals HA CFA distancesA max_dimA fuelA p = some barsA)
    (hbB : ripsIntervals HB CFB distancesB max_dimB fuelB p = some barsB) :
    cutIntervals R bars = cutIntervals R barsA + cutIntervals R barsB ∧
      (bars.filter fun b => b.2 < (R : WithTop F)) = ((barsA + barsB).filter fun b => b.2 < (R : WithTop F)) := by
  have a := (C53_intervals K H hD h1 hp).2 fuel bars h
  have b := (C53_intervals K HA hDA h1A hpA).2 fuelA barsA hbA
  have c := (C53_intervals K HB hDB h1B hpB).2 fuelB barsB hbB
  have e := IsRipsBarcode.clusters hf hg hcover hA hB hfar a b c
  refine ⟨e, short_of_cut e fun x hx => ?_⟩
  rcases Multiset.mem_add.1 hx with hx | hx
  · rcases Multiset.mem_add.1 hx with hx | hx
    exacts [a.1 x hx, b.1 x hx]
  · exact c.1 x hx

end

namespace ClustersExample

/-- A triangle and a pair of points, interleaved, at distance at least 10. -/
def far : List (List ℕ) := [[0, 12, 1, 10, 3], [12, 0, 11, 4, 15], [1, 11, 0, 13, 2], [10, 4, 13, 0, 14], [3, 15, 2, 14, 0]]
def triangle : List (List ℕ) := [[0, 1, 3], [1, 0, 2], [3, 2, 0]]
def pair : List (List ℕ) := [[0, 4], [4, 0]]
def entry (m : List (List ℕ)) (i j : ℕ) : ℕ := (m.getD i []).getD j 0

/-- The hypotheses of C93. -/
example : IsDistanceMatrix far (entry far) ∧ IsDistanceMatrix triangle (entry triangle) ∧ IsDistanceMatrix pair (entry pair) ∧
    (∀ i < triangle.length, ∀ j < triangle.length, entry triangle i j = entry far (2 * i) (2 * j)) ∧
    (∀ i < pair.length, ∀ j < pair.length, entry pair i j = entry far (2 * i + 1) (2 * j + 1)) ∧
    (∀ k < far.length, (∃ i < triangle.length, 2 * i = k) ∨ ∃ j < pair.length, 2 * j + 1 = k) ∧
    ∀ i < triangle.length, ∀ j < pair.length, 10 ≤ entry far (2 * i) (2 * j + 1) :=
  ⟨⟨by decide, by decide, by decide, by decide⟩, ⟨by decide, by decide, by decide, by decide⟩, ⟨by decide, by decide, by decide, by decide⟩, by decide, by decide, by decide,
    by decide⟩

end ClustersExample
end Phlite
