/-
C65: floating point weights.
-/
import Verif.Proofs.Float64
import Verif.Props.GrPPHEdges
import Verif.Props.Heap
import Mathlib.Data.Nat.Dist

set_option linter.unusedSectionVars false
set_option linter.unusedSimpArgs false

namespace Phlite

/-! ### Rounding is to the nearest, ties to even -/

/-- C65: `roundNat n` has 53 bits, and no number of 53 bits is nearer to `n`; if another one is equally near, then the mantissa of
`roundNat n` is the even one, that is, it fits in 52 bits, and the other one does not. -/
theorem C65_round_nearest (n m : ℕ) (hm : Has53Bits m) :
    Has53Bits (roundNat n) ∧ Nat.dist n (roundNat n) ≤ Nat.dist n m ∧
    (Nat.dist n (roundNat n) = Nat.dist n m → m ≠ roundNat n → (∃ a e, a < 2 ^ 52 ∧ roundNat n = a * 2 ^ e) ∧ ¬ ∃ a e, a < 2 ^ 52 ∧ m = a * 2 ^ e) := by
  refine ⟨has53Bits_round n, ?_⟩
  by_cases hn : n < 2 ^ 53
  · have : roundNat n = n := by unfold roundNat; rw [if_pos hn]
    rw [this, Nat.dist_self]
    exact ⟨Nat.zero_le _, fun h h' => absurd (Nat.eq_of_dist_eq_zero h.symm).symm h'⟩
  · obtain ⟨e, q, r, he, h0, h1, h2, h3, h4⟩ := round_decomp hn
    have hg := has53Bits_gap (e := e) h2 hm
    have hs : (q + 1) * 2 ^ e = q * 2 ^ e + 2 ^ e := by ring
    rw [hs] at hg
    -- a number with an odd mantissa of 53 bits does not fit in 52 bits
    have hodd : ∀ q', 2 ^ 52 ≤ q' → q' % 2 = 1 → ¬ ∃ a e', a < 2 ^ 52 ∧ q' * 2 ^ e = a * 2 ^ e' := by
      rintro q' hq' ho ⟨a, e', ha, hae⟩
      rcases Nat.lt_or_ge e e' with h | h
      · have : 2 ^ e' = 2 ^ e * (2 * 2 ^ (e' - e - 1)) := by
          rw [← pow_succ', ← pow_add]; congr 1; omega
        rw [this, ← mul_assoc, mul_right_comm] at hae
        have := Nat.eq_of_mul_eq_mul_right (by positivity) hae
        rw [this, mul_left_comm, Nat.mul_mod_right] at ho
        omega
      · have h5 : 2 ^ e' ≤ 2 ^ e := Nat.pow_le_pow_right (by norm_num) h
        have h6 : a * 2 ^ e' < 2 ^ 52 * 2 ^ e := Nat.lt_of_lt_of_le (Nat.mul_lt_mul_of_pos_right ha (by positivity)) (Nat.mul_le_mul_left _ h5)
        have h7 : 2 ^ 52 * 2 ^ e ≤ q' * 2 ^ e := Nat.mul_le_mul_right _ hq'
        omega
    have heven : ∀ q', q' ≤ 2 ^ 53 → q' % 2 = 0 → ∃ a e', a < 2 ^ 52 ∧ q' * 2 ^ e = a * 2 ^ e' := by
      intro q' hq' hev
      obtain ⟨a, rfl⟩ := Nat.dvd_of_mod_eq_zero hev
      rcases Nat.lt_or_ge a (2 ^ 52) with h | h
      · exact ⟨a, e + 1, h, by rw [pow_succ]; ring⟩
      · have : a = 2 ^ 52 := by omega
        subst this
        exact ⟨1, 53 + e, by norm_num, by rw [pow_add]; ring⟩
    split at h4
    · rename_i hc
      have hd : Nat.dist n (roundNat n) = 2 ^ e - r := by
        rw [h4, hs, h0, Nat.dist_eq_sub_of_le (by omega)]; omega
      rw [hd]
      rcases hg with hg | hg
      · have : Nat.dist n m = n - m := Nat.dist_eq_sub_of_le_right (by omega)
        refine ⟨by omega, fun h5 h6 => ?_⟩
        have hm' : m = q * 2 ^ e := by omega
        have : 2 * r = 2 ^ e ∧ q % 2 = 1 := by omega
        rw [h4, hm']
        exact ⟨heven _ (by omega) (by omega), hodd q h2 this.2⟩
      · have : Nat.dist n m = m - n := Nat.dist_eq_sub_of_le (by omega)
        refine ⟨by omega, fun h5 h6 => absurd (show m = roundNat n from ?_) h6⟩
        rw [h4, hs]; omega
    · rename_i hc
      have hd : Nat.dist n (roundNat n) = r := by
        rw [h4, h0, Nat.dist_eq_sub_of_le_right (by omega)]; omega
      rw [hd]
      rcases hg with hg | hg
      · have : Nat.dist n m = n - m := Nat.dist_eq_sub_of_le_right (by omega)
        refine ⟨by omega, fun h5 h6 => absurd (show m = roundNat n from ?_) h6⟩
        rw [h4]; omega
      · have : Nat.dist n m = m - n := Nat.dist_eq_sub_of_le (by omega)
        refine ⟨by omega, fun h5 h6 => ?_⟩
        have hm' : m = (q + 1) * 2 ^ e := by rw [hs]; omega
        have : q % 2 = 0 := by omega
        rw [h4, hm']
        exact ⟨heven _ (by omega) this, hodd (q + 1) (by omega) (by omega)⟩

/-- C65: the addition of floating point numbers satisfies what C61 assumes of the addition of weights; it is not associative. -/
theorem C65_length_addition : IsLengthAddition F64.add ∧ ¬ ∀ x y z, F64.add (F64.add x y) z = F64.add x (F64.add y z) := by
  refine ⟨F64.isLengthAddition, fun h => ?_⟩
  have := congrArg Subtype.val (h (F64.round (2 ^ 53)) (F64.round 1) (F64.round 1))
  revert this
  decide +kernel

section
variable [StdHeap] {n : ℕ} {CF : Type} [NonZeroCoeff CF]

/-- C65: `grpph` with floating point weights returns the barcodes of the filtration by the shortest floating point path lengths (computed along a walk from its start,
with rounding after each step; a length that overflows is infinite, and the arrow then appears at infinity). -/
theorem C65_barcode {edges : List (ℕ × ℕ × F64)} {adj : List (ℕ × ℕ × F64) → ℕ → List (ℕ × ℕ × F64)} {order : List (ℕ × ℕ) → List (ℕ × ℕ)}
    (K : Type) [Field K] [LawfulCoeff CF K] (hn : n < 65536) (hadj : IsAdjacency adj) (horder : ∀ l, (order l).Perm l) (hedges : ∀ e ∈ edges, e.1 < n ∧ e.2.1 < n) :
    ∃ dist : ℕ → ℕ → Option F64, IsShortestPaths F64.add edges dist ∧
    ∃ enough, ∀ fuel ≥ enough, ∀ fuelD ≥ edges.length + 2, ∀ enumE enumP, Enumerates enumE → Enumerates enumP →
      ∃ e0 e1 p0 p1, grpphEdges CF F64.add adj order enumE enumP n edges fuelD fuel = some ([e0, e1], [p0, p1]) ∧
        IsGroundedBarcode K {e : ℕ × ℕ | ∃ w, (e.1, e.2, w) ∈ edges} n (fun i j => if i = j then none else dist i j) 0 (reportIntervals e0 p0) ∧
        IsGroundedBarcode K {e : ℕ × ℕ | ∃ w, (e.1, e.2, w) ∈ edges} n (fun i j => if i = j then none else dist i j) 1 (reportIntervals e1 p1) :=
  C61_barcode K hn F64.isLengthAddition hadj horder hedges (fun _ _ => F64.zero_le' _)

end

/-! ### Weights that are multiples of a unit -/

/-- The floating point number nearest to `x` units of size 2^k (in multiples of 2^-1074). -/
def toF64 (k : ℕ) : WithTop ℕ → F64
  | ⊤ => ⊤
  | WithTop.some x => F64.round (x * 2 ^ k)

theorem toF64_mono (k : ℕ) : Monotone (toF64 k) := by
  intro x y h
  cases y with
  | top => exact le_top
  | coe y =>
    cases x with
    | top => exact absurd (top_le_iff.1 h) WithTop.coe_ne_top
    | coe x => exact roundF64_mono (Nat.mul_le_mul_right _ (WithTop.coe_le_coe.1 h))

theorem toF64_zero (k : ℕ) : toF64 k 0 = 0 := by
  show F64.round (0 * 2 ^ k) = F64.round 0
  rw [Nat.zero_mul]

/-- Below 2^53 units the conversion is exact. -/
theorem toF64_val {k x : ℕ} (hk : k ≤ 2045) (hx : x < 2 ^ 53) : (toF64 k (WithTop.some x)).1 = WithTop.some (x * 2 ^ k) := by
  refine roundF64_of_valid ⟨⟨x, k, hx, rfl⟩, ?_⟩
  unfold overflowF64
  calc x * 2 ^ k < 2 ^ 53 * 2 ^ k := Nat.mul_lt_mul_of_pos_right hx (by positivity)
    _ ≤ 2 ^ 53 * 2 ^ 2045 := Nat.mul_le_mul_left _ (Nat.pow_le_pow_right (by norm_num) hk)
    _ = 2 ^ 2098 := by rw [← pow_add]

theorem toF64_lt_top {k x : ℕ} (hk : k ≤ 2045) (hx : x < 2 ^ 53) : toF64 k (WithTop.some x) < ⊤ := by
  refine lt_top_iff_ne_top.2 fun h => ?_
  have := congrArg Subtype.val h
  rw [toF64_val hk hx] at this
  exact absurd this WithTop.coe_ne_top

theorem toF64_strict {k x y : ℕ} (hk : k ≤ 2045) (hx : x < y) (hy : y < 2 ^ 53) : toF64 k (WithTop.some x) < toF64 k (WithTop.some y) := by
  show (toF64 k (WithTop.some x)).1 < (toF64 k (WithTop.some y)).1
  rw [toF64_val hk (hx.trans hy), toF64_val hk hy]
  exact WithTop.coe_lt_coe.2 (Nat.mul_lt_mul_of_pos_right hx (by positivity))

theorem toF64_add {k x y : ℕ} (hk : k ≤ 2045) (hx : x < 2 ^ 53) (hy : y < 2 ^ 53) : F64.add (toF64 k (WithTop.some x)) (toF64 k (WithTop.some y)) = toF64 k (WithTop.some (x + y)) := by
  rw [F64.add_coe (toF64_val hk hx) (toF64_val hk hy), ← Nat.add_mul]
  rfl

/-- The edges with the weights converted to floating point numbers. -/
def edgesToF64 (k : ℕ) (edges : List (ℕ × ℕ × WithTop ℕ)) : List (ℕ × ℕ × F64) := edges.map fun e => (e.1, e.2.1, toF64 k e.2.2)

section
variable {edges : List (ℕ × ℕ × WithTop ℕ)} {k : ℕ}

/-- Walks of length below 2^53 have the same length in floating point numbers. -/
theorem walk_toF64 (hk : k ≤ 2045) {i j : ℕ} {x : WithTop ℕ} (h : IsWalk (fun x y => x + y) edges i j x) (hx : x < WithTop.some (2 ^ 53)) :
    IsWalk F64.add (edgesToF64 k edges) i j (toF64 k x) := by
  induction h with
  | nil => rw [toF64_zero]; exact .nil
  | @snoc u v x w hxw he hw ih =>
    cases x with
    | top => rw [top_add] at hx; exact absurd hx (not_top_lt)
    | coe x =>
      cases w with
      | top => exact absurd hw (lt_irrefl _)
      | coe w =>
        have h1 : x + w < 2 ^ 53 := WithTop.coe_lt_coe.1 hx
        have h2 := ih (WithTop.coe_lt_coe.2 (by omega))
        have h3 := h2.snoc (w := toF64 k (WithTop.some w)) (j := v) (List.mem_map.2 ⟨_, he, rfl⟩) (toF64_lt_top hk (by omega))
        rw [toF64_add hk (by omega) (by omega)] at h3
        exact h3

/-- Every walk in floating point numbers is the walk of an exact length, and is equally long or both are at least 2^53 units long. -/
theorem walk_ofF64 (hk : k ≤ 2045) {i j : ℕ} {y : F64} (h : IsWalk F64.add (edgesToF64 k edges) i j y) :
    ∃ x : ℕ, IsWalk (fun x y => x + y) edges i j (WithTop.some x) ∧ ((x < 2 ^ 53 ∧ y = toF64 k (WithTop.some x)) ∨ (2 ^ 53 ≤ x ∧ toF64 k (WithTop.some (2 ^ 53)) ≤ y)) := by
  induction h with
  | nil => exact ⟨0, .nil, Or.inl ⟨by norm_num, (toF64_zero k).symm⟩⟩
  | @snoc u v y w' hyw he hw ih =>
    obtain ⟨x, h1, h2⟩ := ih
    obtain ⟨⟨a, b, w⟩, h3, h4⟩ := List.mem_map.1 he
    cases h4
    dsimp only at hw ⊢
    cases w with
    | top => exact absurd hw (lt_irrefl _)
    | coe w =>
      refine ⟨x + w, h1.snoc h3 (WithTop.coe_lt_top w), ?_⟩
      have hadd := F64.isLengthAddition
      rcases h2 with ⟨hx, rfl⟩ | ⟨hx, hy⟩
      · rcases Nat.lt_or_ge w (2 ^ 53) with hw' | hw'
        · rw [toF64_add hk hx hw']
          rcases Nat.lt_or_ge (x + w) (2 ^ 53) with hs | hs
          · exact Or.inl ⟨hs, rfl⟩
          · exact Or.inr ⟨hs, toF64_mono k (WithTop.coe_le_coe.2 hs)⟩
        · exact Or.inr ⟨by omega, (toF64_mono k (WithTop.coe_le_coe.2 hw')).trans (hadd.le_add_left _ _ (F64.zero_le' _))⟩
      · exact Or.inr ⟨by omega, hy.trans (hadd.le_add_right _ _ (F64.zero_le' _))⟩

/-- C65: if all weights are multiples of a unit 2^k (from 2^-1074 to 2^971) and all distances are below 2^53 units, then the floating point distances are the exact distances. -/
theorem C65_distances (hk : k ≤ 2045) {sp : ℕ → ℕ → Option (WithTop ℕ)} (hsp : IsShortestPaths (fun x y => x + y) edges sp)
    (hsmall : ∀ i j x, sp i j = some x → x < WithTop.some (2 ^ 53)) :
    IsShortestPaths F64.add (edgesToF64 k edges) fun i j => (sp i j).map (toF64 k) where
  least i j y hy := by
    obtain ⟨x, hx, rfl⟩ := Option.map_eq_some_iff.1 hy
    have hs := hsmall i j x hx
    refine ⟨walk_toF64 hk (hsp.least i j x hx).1 hs, fun z hz => ?_⟩
    obtain ⟨x', h1, h2⟩ := walk_ofF64 hk hz
    rcases h2 with ⟨_, rfl⟩ | ⟨_, h2⟩
    · exact toF64_mono k ((hsp.least i j x hx).2 h1)
    · exact (toF64_mono k hs.le).trans h2
  reach i j y hy := by
    obtain ⟨x, h1, _⟩ := walk_ofF64 hk hy
    obtain ⟨z, hz⟩ := hsp.reach i j _ h1
    exact ⟨_, by rw [hz]; rfl⟩

/-- Cut off at 2^53 - 1. -/
def clip : WithTop ℕ → WithTop ℕ
  | ⊤ => ⊤
  | WithTop.some x => WithTop.some (min x (2 ^ 53 - 1))

theorem clip_mono : Monotone clip := by
  intro x y h
  cases y with
  | top => exact le_top
  | coe y =>
    cases x with
    | top => exact absurd (top_le_iff.1 h) WithTop.coe_ne_top
    | coe x => exact WithTop.coe_le_coe.2 (min_le_min_right _ (WithTop.coe_le_coe.1 h))

theorem clip_of_lt {x : WithTop ℕ} (h : x < WithTop.some (2 ^ 53)) : clip x = x := by
  cases x with
  | top => exact absurd h not_top_lt
  | coe x =>
    have : x < 2 ^ 53 := WithTop.coe_lt_coe.1 h
    show WithTop.some (min x (2 ^ 53 - 1)) = _
    rw [min_eq_left (by omega)]

theorem clip_clip (x : WithTop ℕ) : clip (clip x) = clip x := by
  cases x with
  | top => rfl
  | coe x =>
    show WithTop.some (min (min x (2 ^ 53 - 1)) (2 ^ 53 - 1)) = WithTop.some (min x (2 ^ 53 - 1))
    rw [min_assoc, min_self]

theorem clip_lt_top {x : WithTop ℕ} (h : x < ⊤) : clip x < ⊤ := by
  cases x with
  | top => exact absurd h (lt_irrefl _)
  | coe x => exact WithTop.coe_lt_top _

theorem clip_toF64_lt {x : WithTop ℕ} (hk : k ≤ 2045) (h : x < ⊤) : toF64 k (clip x) < ⊤ := by
  cases x with
  | top => exact absurd h (lt_irrefl _)
  | coe x => exact toF64_lt_top hk (by have := min_le_right x (2 ^ 53 - 1); omega)

theorem clip_toF64_strict {x y : WithTop ℕ} (hk : k ≤ 2045) (h : clip x < clip y) : toF64 k (clip x) < toF64 k (clip y) := by
  cases x with
  | top => exact absurd h not_top_lt
  | coe x =>
    have hx : min x (2 ^ 53 - 1) < 2 ^ 53 := by have := min_le_right x (2 ^ 53 - 1); omega
    cases y with
    | top => exact toF64_lt_top hk hx
    | coe y =>
      have hy : min y (2 ^ 53 - 1) < 2 ^ 53 := by have := min_le_right y (2 ^ 53 - 1); omega
      exact toF64_strict hk (WithTop.coe_lt_coe.1 h) hy

variable {n : ℕ} {CF : Type} [NonZeroCoeff CF]

theorem buildEdgeSet_toF64 : buildEdgeSet (edgesToF64 k edges) = buildEdgeSet edges := by
  unfold buildEdgeSet edgesToF64
  rw [List.map_map]
  rfl

open Classical in
/-- C65: for weights that are multiples of a unit 2^k, with all distances below 2^53 units, `grpph` in floating point numbers returns, in each degree and up to order,
the numbers that it returns in exact arithmetic; in particular for integer weights (k = 1074) and distances below 2^53. -/
theorem C65_exact (K : Type) [Field K] [LawfulCoeff CF K] (hn : n < 65536) (hk : k ≤ 2045) (H H' : StdHeap)
    {adj : List (ℕ × ℕ × WithTop ℕ) → ℕ → List (ℕ × ℕ × WithTop ℕ)} {adj' : List (ℕ × ℕ × F64) → ℕ → List (ℕ × ℕ × F64)}
    {order order' : List (ℕ × ℕ) → List (ℕ × ℕ)} (hadj : IsAdjacency adj) (hadj' : IsAdjacency adj') (horder : ∀ l, (order l).Perm l) (horder' : ∀ l, (order' l).Perm l)
    (hedges : ∀ e ∈ edges, e.1 < n ∧ e.2.1 < n) (hsmall : ∀ i j x, IsLeast {y | IsWalk (fun x y => x + y) edges i j y} x → x < WithTop.some (2 ^ 53)) :
    ∃ enough, ∀ fuel ≥ enough, ∀ fuel' ≥ enough, ∀ fuelD ≥ edges.length + 2, ∀ fuelD' ≥ edges.length + 2, ∀ enumE enumP enumE' enumP', Enumerates enumE → Enumerates enumP →
      Enumerates enumE' → Enumerates enumP' →
      ∃ e0 e1 p0 p1 e0' e1' p0' p1',
        (letI := H; grpphEdges CF (fun x y => x + y) adj order enumE enumP n edges fuelD fuel) = some ([e0, e1], [p0, p1]) ∧
        (letI := H'; grpphEdges CF F64.add adj' order' enumE' enumP' n (edgesToF64 k edges) fuelD' fuel') = some ([e0', e1'], [p0', p1']) ∧
        e0'.Perm (e0.map (toF64 k)) ∧ e1'.Perm (e1.map (toF64 k)) ∧
        p0'.Perm (p0.map fun b => (toF64 k b.1, toF64 k b.2)) ∧ p1'.Perm (p1.map fun b => (toF64 k b.1, toF64 k b.2)) := by
  obtain ⟨sp, hsp⟩ := exists_shortestPaths natTop_add fun e (_ : e ∈ edges) => bot_le
  have hs : ∀ i j x, sp i j = some x → x < WithTop.some (2 ^ 53) := fun i j x hx => hsmall i j x (hsp.least i j x hx)
  have hspF := C65_distances hk hsp hs
  have hclip : (fun i j => (sp i j).map clip) = sp := by
    funext i j
    cases h : sp i j with
    | none => rfl
    | some x => rw [Option.map_some, clip_of_lt (hs i j x h)]
  have hclipF : (fun i j => (sp i j).map (toF64 k ∘ clip)) = fun i j => (sp i j).map (toF64 k) := by
    funext i j
    cases h : sp i j with
    | none => rfl
    | some x => rw [Option.map_some, Option.map_some, Function.comp_apply, clip_of_lt (hs i j x h)]
  obtain ⟨n1, r1⟩ := C56_rescale K H H (CF := CF) (CF' := CF) hn hedges (horder (buildEdgeSet edges)) (horder (buildEdgeSet edges)) (fun _ _ _ _ => bot_le) hsp.topClosed clip_mono rfl fun x hx => clip_lt_top hx
  obtain ⟨n2, r2⟩ := C56_rescale K H H' (CF := CF) (CF' := CF) hn hedges (horder (buildEdgeSet edges)) (horder' (buildEdgeSet edges)) (fun _ _ _ _ => bot_le) hsp.topClosed ((toF64_mono k).comp clip_mono)
    (show toF64 k (clip 0) = 0 from toF64_zero k) fun x hx => clip_toF64_lt hk hx
  have hess : ∀ {e : List (WithTop ℕ)} {e' : List F64}, e.Perm (e.map clip) → e'.Perm (e.map (toF64 k ∘ clip)) → e'.Perm (e.map (toF64 k)) := by
    intro e e' h1 h2
    have : e.map (toF64 k ∘ clip) = e.map (toF64 k) := List.map_congr_left fun x hx => by
      obtain ⟨y, _, rfl⟩ := List.mem_map.1 (h1.mem_iff.1 hx)
      rw [Function.comp_apply, clip_clip]
    rw [← this]; exact h2
  have hpair : ∀ {p : List (WithTop ℕ × WithTop ℕ)} {p' : List (F64 × F64)}, p.Perm ((p.map fun b => (clip b.1, clip b.2)).filter fun b => b.1 < b.2) →
      p'.Perm ((p.map fun b => ((toF64 k ∘ clip) b.1, (toF64 k ∘ clip) b.2)).filter fun b => b.1 < b.2) → p'.Perm (p.map fun b => (toF64 k b.1, toF64 k b.2)) := by
    intro p p' h1 h2
    have h3 : ∀ b ∈ p, ∃ x y, b = (clip x, clip y) ∧ clip x < clip y := by
      intro b hb
      obtain ⟨h4, h5⟩ := List.mem_filter.1 (h1.mem_iff.1 hb)
      obtain ⟨c, _, rfl⟩ := List.mem_map.1 h4
      exact ⟨c.1, c.2, rfl, by simpa using h5⟩
    have h4 : (p.map fun b => ((toF64 k ∘ clip) b.1, (toF64 k ∘ clip) b.2)) = p.map fun b => (toF64 k b.1, toF64 k b.2) := List.map_congr_left fun b hb => by
      obtain ⟨x, y, rfl, _⟩ := h3 b hb
      simp only [Function.comp_apply, clip_clip]
    rw [h4, List.filter_eq_self.2] at h2
    · exact h2
    · intro b hb
      obtain ⟨c, hc, rfl⟩ := List.mem_map.1 hb
      obtain ⟨x, y, rfl, hlt⟩ := h3 c hc
      simpa using clip_toF64_strict hk hlt
  refine ⟨max n1 n2, fun fuel hf fuel' hf' fuelD hfD fuelD' hfD' enumE enumP enumE' enumP' hE hP hE' hP' => ?_⟩
  obtain ⟨e0, e1, p0, p1, e0'', e1'', p0'', p1'', a1, a2, a3, a4, a5, a6⟩ := r1 fuel ((le_max_left _ _).trans hf) fuel ((le_max_left _ _).trans hf) enumE enumP enumE enumP hE hP hE hP
  rw [hclip, a1] at a2
  simp only [Option.some.injEq, Prod.mk.injEq, List.cons.injEq, and_true] at a2
  obtain ⟨⟨rfl, rfl⟩, rfl, rfl⟩ := a2
  obtain ⟨e0', e1', p0', p1', f0, f1, q0, q1, b1, b2, b3, b4, b5, b6⟩ := r2 fuel ((le_max_right _ _).trans hf) fuel' ((le_max_right _ _).trans hf') enumE enumP enumE' enumP' hE hP hE' hP'
  rw [a1] at b1
  simp only [Option.some.injEq, Prod.mk.injEq, List.cons.injEq, and_true] at b1
  obtain ⟨⟨rfl, rfl⟩, rfl, rfl⟩ := b1
  rw [hclipF] at b2
  refine ⟨e0, e1, p0, p1, f0, f1, q0, q1, ?_, ?_, ?_, ?_, ?_, ?_⟩
  · rw [(@C61_runs _ _ _ _ H n _ edges adj order sp CF _ natTop_add hadj (fun e _ => bot_le) hsp fuelD hfD enumE enumP (fun _ => []) fuel fun _ => 0).1]
    exact a1
  · rw [(@C61_runs _ _ _ _ H' n _ (edgesToF64 k edges) adj' order' _ CF _ F64.isLengthAddition hadj' (fun e _ => F64.zero_le' _) hspF fuelD'
      (by rw [edgesToF64, List.length_map]; exact hfD') enumE' enumP' (fun _ => []) fuel' fun _ => 0).1, buildEdgeSet_toF64]
    exact b2
  · exact hess a3 b3
  · exact hess a4 b4
  · exact hpair a5 b5
  · exact hpair a6 b6

end

namespace GraphExample

/-- The hypotheses of C65_exact hold of the input of phlite_grpph/examples/infinite_weights.py (`1.0` is 2^1074). -/
example : (1074 ≤ 2045) ∧ (∀ e ∈ edges, e.1 < 6 ∧ e.2.1 < 6) ∧ ∀ i j x, IsLeast {y | IsWalk (fun x y => x + y) edges i j y} x → x < WithTop.some (2 ^ 53) := by
  refine ⟨by norm_num, by decide, fun i j x hx => ?_⟩
  obtain ⟨y, hy⟩ := shortest.reach i j x hx.1
  have hxy : x = y := hx.unique (shortest.least i j y hy)
  subst hxy
  unfold sp at hy
  split at hy
  · cases hy; exact WithTop.coe_lt_coe.2 (by norm_num)
  · split at hy
    · cases hy; exact WithTop.coe_lt_coe.2 (by norm_num)
    · split at hy
      · cases hy; exact WithTop.coe_lt_coe.2 (by norm_num)
      · cases hy

/-- 0.1, 0.2, 0.3 and 0.30000000000000004 as `f64`. -/
def d1 : F64 := F64.round (7205759403792794 * 2 ^ 1018)
def d2 : F64 := F64.round (7205759403792794 * 2 ^ 1019)
def d3 : F64 := F64.round (5404319552844595 * 2 ^ 1020)
def d3' : F64 := F64.round (5404319552844596 * 2 ^ 1020)

/-- `0.1 + 0.2 == 0.30000000000000004`, which is larger than `0.3`; the greatest finite number plus itself is infinite, plus `1.0` it is unchanged. -/
example : F64.add d1 d2 = d3' ∧ d3 < d3' ∧ F64.add (F64.round ((2 ^ 53 - 1) * 2 ^ 2045)) (F64.round ((2 ^ 53 - 1) * 2 ^ 2045)) = ⊤ ∧
    F64.add (F64.round ((2 ^ 53 - 1) * 2 ^ 2045)) (F64.round (2 ^ 1074)) = F64.round ((2 ^ 53 - 1) * 2 ^ 2045) := by decide +kernel

/-- The adjacency lists in the order of petgraph. -/
def newestFirstF (l : List (ℕ × ℕ × F64)) (u : ℕ) : List (ℕ × ℕ × F64) := (l.filter fun e => e.1 = u).reverse

theorem newestFirstF_adj : IsAdjacency newestFirstF := fun _ _ => List.reverse_perm _

/-- With the weights 0.1, 0.2 and 0.3 the direct edge `0 → 2` is shorter than the walk over `1`. -/
example : (letI := arrayHeap; (dijkstra F64.add (newestFirstF (finiteEdges [(0, 1, d1), (1, 2, d2), (0, 2, d3)])) 0 5).map fun s => (List.range 3).map s) =
    some [some 0, some d1, some d3] := by decide +kernel

/-- A directed triangle whose edges have the weight `f64::MAX`: the length of two of them overflows to infinity, and the bar of the triangle is (0, infinity), as C49 and C65
say: the edges `0 → 2`, `1 → 0`, `2 → 1` appear at infinity. -/
def huge : List (ℕ × ℕ × F64) := [(0, 1, F64.round ((2 ^ 53 - 1) * 2 ^ 2045)), (1, 2, F64.round ((2 ^ 53 - 1) * 2 ^ 2045)), (2, 0, F64.round ((2 ^ 53 - 1) * 2 ^ 2045))]

set_option synthInstance.maxSize 2000 in
set_option synthInstance.maxHeartbeats 200000 in
example : (∀ e ∈ huge, e.1 < 3 ∧ e.2.1 < 3) ∧ (∀ e ∈ huge, 0 < e.2.2 ∧ e.2.2 < ⊤) ∧
    (letI := arrayHeap; grpphWithInvolutionEdges Z2 F64.add newestFirstF id GrPPHExample.enumE GrPPHExample.enumP GrPPHExample.enumB 3 huge 10 100 (fun i => i + 1)) =
      some ([[0], []], [[], [(0, ⊤)]], [[(2, 0), (1, 2), (0, 1)]]) := by
  refine ⟨?_, ?_, ?_⟩ <;> decide +kernel

end GraphExample
end Phlite
