/-
The bottleneck distance of the barcodes of two filtrations of the same complex is at most the distance of the filtrations.
-/
import Verif.Spec.Bottleneck
import Verif.Theory.Unique
import Verif.Theory.Barcode
import Mathlib.Algebra.Order.Ring.Abs
import Mathlib.Algebra.Order.Field.Basic
import Mathlib.Data.Finset.Sort
import Mathlib.Tactic.Linarith
import Mathlib.Tactic.Ring
import Mathlib.Tactic.FieldSimp

set_option linter.unusedSectionVars false
set_option linter.unusedSimpArgs false

namespace Phlite
open Finsupp (single linearCombination linearCombination_single)

/-! ### Composition of matchings -/
section
variable {F : Type} [Field F] [LinearOrder F] [IsStrictOrderedRing F]

theorem BarsClose.trans {δ ε : F} {a b c : F × WithTop F} (h1 : BarsClose δ a b) (h2 : BarsClose ε b c) : BarsClose (δ + ε) a c := by
  refine ⟨(abs_sub_le _ b.1 _).trans (add_le_add h1.1 h2.1), ?_⟩
  rcases h1.2 with ⟨x1, x2⟩ | ⟨u, v, x1, x2, x3⟩
  · rcases h2.2 with ⟨y1, y2⟩ | ⟨u', v', y1, y2, y3⟩
    · exact Or.inl ⟨x1, y2⟩
    · rw [x2] at y1; exact absurd y1 (by simp)
  · rcases h2.2 with ⟨y1, y2⟩ | ⟨u', v', y1, y2, y3⟩
    · rw [x2] at y1; exact absurd y1 (by simp)
    · rw [x2] at y1
      have := WithTop.coe_injective y1
      subst this
      exact Or.inr ⟨u, v', x1, y2, (abs_sub_le _ v _).trans (add_le_add x3 y3)⟩

theorem BarsClose.symm {δ : F} {a b : F × WithTop F} (h : BarsClose δ a b) : BarsClose δ b a := by
  refine ⟨by rw [abs_sub_comm]; exact h.1, ?_⟩
  rcases h.2 with ⟨x1, x2⟩ | ⟨u, v, x1, x2, x3⟩
  · exact Or.inl ⟨x2, x1⟩
  · exact Or.inr ⟨v, u, x2, x1, by rw [abs_sub_comm]; exact x3⟩

theorem BarsClose.short {δ ε : F} {a b : F × WithTop F} (h : BarsClose δ a b) (hb : BarShort ε b) : BarShort (δ + ε) a := by
  obtain ⟨w, hw, hl⟩ := hb
  rcases h.2 with ⟨x1, x2⟩ | ⟨u, v, x1, x2, x3⟩
  · rw [x2] at hw; exact absurd hw (by simp)
  · rw [x2] at hw
    have := WithTop.coe_injective hw
    subst this
    refine ⟨u, x1, ?_⟩
    have h1 := abs_le.1 h.1
    have h2 := abs_le.1 x3
    linarith [h1.1, h1.2, h2.1, h2.2]

theorem BarShort.mono {δ ε : F} (h : δ ≤ ε) {a : F × WithTop F} (ha : BarShort δ a) : BarShort ε a := by
  obtain ⟨u, h1, h2⟩ := ha
  exact ⟨u, h1, by linarith⟩

theorem BottleneckLE.symm {δ : F} {A B : Multiset (F × WithTop F)} (h : BottleneckLE δ A B) : BottleneckLE δ B A := by
  obtain ⟨m, A', B', rfl, rfl, h1, h2, h3⟩ := h
  refine ⟨m.map Prod.swap, B', A', by simp [Multiset.map_map], by simp [Multiset.map_map], ?_, h3, h2⟩
  intro x hx
  obtain ⟨y, hy, rfl⟩ := Multiset.mem_map.1 hx
  exact (h1 y hy).symm

/-- Triangle inequality. -/
theorem BottleneckLE.trans {δ ε : F} (hδ : 0 ≤ δ) (hε : 0 ≤ ε) {A B C : Multiset (F × WithTop F)} (h1 : BottleneckLE δ A B) (h2 : BottleneckLE ε B C) :
    BottleneckLE (δ + ε) A C := by
  classical
  obtain ⟨m, A', B', rfl, hB, c1, s1, s1'⟩ := h1
  obtain ⟨m2, B2, C', hB2, rfl, c2, s2, s2'⟩ := h2
  rw [hB] at hB2
  clear hB
  induction m using Multiset.induction_on generalizing m2 B2 with
  | empty =>
    rw [Multiset.map_zero, zero_add] at hB2
    refine ⟨0, A', m2.map Prod.snd + C', by simp, by simp, by simp, fun a ha => (s1 a ha).mono (by linarith), ?_⟩
    intro c hc
    rcases Multiset.mem_add.1 hc with hc | hc
    · obtain ⟨x, hx, rfl⟩ := Multiset.mem_map.1 hc
      have hb : x.1 ∈ B' := by rw [hB2]; exact Multiset.mem_add.2 (Or.inl (Multiset.mem_map.2 ⟨x, hx, rfl⟩))
      rw [add_comm]
      exact (c2 x hx).symm.short (s1' _ hb)
    · exact (s2' c hc).mono (by linarith)
  | cons x m ih =>
    have hcl := c1 x (Multiset.mem_cons_self ..)
    have hb : x.2 ∈ m2.map Prod.fst + B2 := by rw [← hB2]; simp
    rcases Multiset.mem_add.1 hb with hb | hb
    · obtain ⟨y, hy, e⟩ := Multiset.mem_map.1 hb
      obtain ⟨m2', rfl⟩ := Multiset.exists_cons_of_mem hy
      obtain ⟨k, P, Q, k1, k2, k3, k4, k5⟩ := ih (fun z hz => c1 z (Multiset.mem_cons_of_mem hz)) m2' B2 (by
        rw [Multiset.map_cons, Multiset.map_cons, Multiset.cons_add, Multiset.cons_add, e] at hB2
        exact (Multiset.cons_inj_right _).1 hB2) (fun z hz => c2 z (Multiset.mem_cons_of_mem hz)) s2
      refine ⟨(x.1, y.2) ::ₘ k, P, Q, ?_, ?_, ?_, k4, k5⟩
      · rw [Multiset.map_cons, Multiset.cons_add, k1, Multiset.map_cons, Multiset.cons_add]
      · rw [Multiset.map_cons, Multiset.cons_add, k2, Multiset.map_cons, Multiset.cons_add]
      · intro z hz
        rcases Multiset.mem_cons.1 hz with rfl | hz
        · refine hcl.trans ?_
          rw [← e]
          exact c2 y (Multiset.mem_cons_self ..)
        · exact k3 z hz
    · obtain ⟨B2', rfl⟩ := Multiset.exists_cons_of_mem hb
      obtain ⟨k, P, Q, k1, k2, k3, k4, k5⟩ := ih (fun z hz => c1 z (Multiset.mem_cons_of_mem hz)) m2 B2' (by
        rw [Multiset.map_cons, Multiset.cons_add, Multiset.add_cons] at hB2
        exact (Multiset.cons_inj_right _).1 hB2) c2 (fun z hz => s2 z (Multiset.mem_cons_of_mem hz))
      refine ⟨k, x.1 ::ₘ P, Q, ?_, k2, k3, ?_, k5⟩
      · rw [Multiset.map_cons, Multiset.cons_add, k1, Multiset.add_cons]
      · intro a ha
        rcases Multiset.mem_cons.1 ha with rfl | ha
        · exact hcl.short (s2 _ hb)
        · exact k4 a ha

end

/-! ### Filtrations of the same complex -/
section
variable {T K F : Type} [Field K]

/-- The intervals given by pairs of cells and unpaired cells. -/
def pairBars [LinearOrder F] (f : T → F) (P : Finset (T × T)) (E : Finset T) : Multiset (F × WithTop F) :=
  (E.val.map fun x => (f x, ⊤)) + (P.filter fun x => f x.1 < f x.2).val.map fun x => (f x.1, (f x.2 : WithTop F))

/-- The cells present at `s`. -/
def level [LinearOrder F] (f : T → F) (X : Finset T) (s : F) : Set T := {x | x ∈ X ∧ f x ≤ s}

theorem level_mono [LinearOrder F] (f : T → F) (X : Finset T) {s t : F} (h : s ≤ t) : level f X s ⊆ level f X t := fun _ hx => ⟨hx.1, hx.2.trans h⟩

/-- The persistent homology in the degree of the cells `X`, where `Y` are the cells one degree higher. -/
def levelBarcode (K : Type) [Field K] [LinearOrder F] (M : T → (T →₀ K)) (X Y : Finset T) (f : T → F) (bars : Multiset (F × WithTop F)) : Prop :=
  IsBarcode (fun _ _ h => persistentBetti M (level_mono f X h) (level_mono f Y h)) bars

/-- Two adjacent degrees of a chain complex. -/
structure TwoDegrees (M : T → (T →₀ K)) (deg : T → ℤ) (X Y : Finset T) (p : ℤ) : Prop where
  degX : ∀ x ∈ X, deg x = p
  degY : ∀ y ∈ Y, deg y = p + 1
  rowsX : ∀ x ∈ X, ∀ r, M x r ≠ 0 → deg r = p - 1
  rowsY : ∀ y ∈ Y, ∀ r, M y r ≠ 0 → r ∈ X
  sq : ∀ y ∈ Y, linearCombination K M (M y) = 0

variable {M : T → (T →₀ K)} {deg : T → ℤ} {X Y : Finset T} {p : ℤ}

section
variable [LinearOrder T]

/-- An enumeration sorted by a key. -/
theorem exists_sorted {L : Type} [LinearOrder L] {key : T → L} (hk : Function.Injective key) (X : Finset T) :
    ∃ l : List T, (l.Pairwise fun a b => key a < key b) ∧ ∀ x, x ∈ l ↔ x ∈ X := by
  classical
  refine ⟨((X.image key).sort (· ≤ ·)).filterMap fun k => X.toList.find? fun x => key x = k, ?_, ?_⟩
  · rw [List.pairwise_filterMap]
    refine (Finset.sortedLT_sort (X.image key)).pairwise.imp ?_
    intro k k' hlt a ha b hb
    have h1 := List.find?_some ha
    have h2 := List.find?_some hb
    simp only [decide_eq_true_eq] at h1 h2
    rw [h1, h2]; exact hlt
  · intro x
    rw [List.mem_filterMap]
    constructor
    · rintro ⟨k, -, h⟩
      exact Finset.mem_toList.1 (List.mem_of_find?_eq_some h)
    · intro hx
      refine ⟨key x, (Finset.mem_sort _).2 (Finset.mem_image_of_mem _ hx), ?_⟩
      cases h : X.toList.find? fun y => key y = key x with
      | none =>
        have := List.find?_eq_none.1 h x (Finset.mem_toList.2 hx)
        simp at this
      | some y =>
        have h1 := List.find?_some h
        simp only [decide_eq_true_eq] at h1
        rw [hk h1]

/-- For a fixed order of the cells, all filtrations that respect the order have barcodes given by the same pairs of cells. -/
theorem TwoDegrees.pairs (h : TwoDegrees M deg X Y p) {L : Type} [LinearOrder L] {key : T → L} (hk : Function.Injective key) :
    ∃ P E, (∀ (F : Type) [LinearOrder F] (f : T → F), (∀ a ∈ X, ∀ b ∈ X, key a < key b → f a ≤ f b) →
      (∀ a ∈ Y, ∀ b ∈ Y, key a < key b → f a ≤ f b) → levelBarcode K M X Y f (pairBars f P E)) ∧ P ⊆ X ×ˢ Y ∧ E ⊆ X := by
  classical
  obtain ⟨Xs, hXs, mX⟩ := exists_sorted hk X
  obtain ⟨Ys, hYs, mY⟩ := exists_sorted hk Y
  have hXnd : Xs.Nodup := hXs.imp fun h e => by subst e; exact lt_irrefl _ h
  have hYnd : Ys.Nodup := hYs.imp fun h e => by subst e; exact lt_irrefl _ h
  have hdisj : ∀ x ∈ Xs, x ∉ Ys := fun x hx hy => by
    have h1 := h.degX x ((mX x).1 hx); have h2 := h.degY x ((mY x).1 hy); omega
  have hall : (Xs ++ Ys).Nodup := List.nodup_append.2 ⟨hXnd, hYnd, fun a ha b hb e => hdisj a ha (e ▸ hb)⟩
  have hdeg : ∀ c ∈ Xs ++ Ys, ∀ r, M c r ≠ 0 → deg r = deg c + (-1) := by
    intro c hc r hr
    rcases List.mem_append.1 hc with hc | hc
    · rw [h.rowsX c ((mX c).1 hc) r hr, h.degX c ((mX c).1 hc)]; ring
    · rw [h.degY c ((mY c).1 hc), h.degX r (h.rowsY c ((mY c).1 hc) r hr)]; ring
  have fX : (Xs ++ Ys).filter (fun x => deg x = p) = Xs := by
    rw [List.filter_append, List.filter_eq_self.2 (by intro x hx; simpa using h.degX x ((mX x).1 hx)), List.filter_eq_nil_iff.2, List.append_nil]
    intro y hy; have := h.degY y ((mY y).1 hy); simp; omega
  have fY : (Xs ++ Ys).filter (fun x => deg x = p + 1) = Ys := by
    have z1 : Ys.filter (fun x => deg x = p + 1) = Ys := List.filter_eq_self.2 (by intro x hx; simpa using h.degY x ((mY x).1 hx))
    rw [List.filter_append, z1, List.filter_eq_nil_iff.2, List.nil_append]
    intro y hy; have := h.degX y ((mX y).1 hy); simp; omega
  have hsort : ∀ d : ℤ, ((Xs ++ Ys).filter fun x => deg x = d).Pairwise fun a b => key a < key b := by
    intro d
    by_cases h1 : d = p
    · rw [h1, fX]; exact hXs
    · by_cases h2 : d = p + 1
      · rw [h2, fY]; exact hYs
      · rw [List.filter_eq_nil_iff.2]
        · exact List.Pairwise.nil
        · intro x hx
          rcases List.mem_append.1 hx with hx | hx
          · have := h.degX x ((mX x).1 hx); simp; omega
          · have := h.degY x ((mY x).1 hx); simp; omega
  have hbirth : ∀ x y, IsPersistencePair key Ys M x y → x ∈ Xs ∧ ¬ ∃ ρ, IsPersistencePair key Xs M ρ x := by
    intro x y hxy
    have hy : y ∈ Ys := by obtain ⟨a, b, e, _⟩ := hxy; rw [e]; simp
    have hdy := h.degY y ((mY y).1 hy)
    have h1 : IsPersistencePair key (Xs ++ Ys) M x y := by rw [pair_filter hk hall hdeg hdy, fY]; exact hxy
    have hmem : ∀ z ∈ Xs ++ Ys, deg z = deg y → z ∈ Y := by
      intro z hz e
      rcases List.mem_append.1 hz with hz | hz
      · have := h.degX z ((mX z).1 hz); omega
      · exact (mY z).1 hz
    obtain ⟨h2, h3⟩ := birth_dependent hk hall hdeg hsort (fun z hz e r hr => List.mem_append.2 (Or.inl ((mX r).2 (h.rowsY z (hmem z hz e) r hr))))
      (fun z hz e => h.sq z (hmem z hz e)) h1
    have hdx : deg x = p := by rw [(pair_deg hk hall hdeg h1).2.1, hdy]; ring
    have hx : x ∈ Xs := by rw [← fX]; exact List.mem_filter.2 ⟨h2, by simpa using hdx⟩
    refine ⟨hx, ?_⟩
    rw [dependent_filter hk hall hdeg hdx, fX] at h3
    exact (death_iff hk hXnd M hx).1 h3
  refine ⟨(X ×ˢ Y).filter fun x => IsPersistencePair key Ys M x.1 x.2,
    X.filter fun x => (¬ ∃ ρ, IsPersistencePair key Xs M ρ x) ∧ ¬ ∃ y, IsPersistencePair key Ys M x y, ?_, Finset.filter_subset _ _, Finset.filter_subset _ _⟩
  intro F _ f hfX hfY
  set P := (X ×ˢ Y).filter fun x => IsPersistencePair key Ys M x.1 x.2 with hPdef
  set E := X.filter fun x => (¬ ∃ ρ, IsPersistencePair key Xs M ρ x) ∧ ¬ ∃ y, IsPersistencePair key Ys M x y with hEdef
  have hP : ∀ x y, (x, y) ∈ P ↔ IsPersistencePair key Ys M x y := by
    intro x y
    rw [hPdef, Finset.mem_filter, Finset.mem_product]
    refine ⟨fun h => h.2, fun hxy => ⟨⟨(mX x).1 (hbirth x y hxy).1, ?_⟩, hxy⟩⟩
    obtain ⟨a, b, e, _⟩ := hxy
    exact (mY y).1 (by rw [e]; simp)
  have hE : ∀ x, x ∈ E ↔ x ∈ Xs ∧ (¬ ∃ ρ, IsPersistencePair key Xs M ρ x) ∧ ¬ ∃ y, IsPersistencePair key Ys M x y := by
    intro x
    rw [hEdef, Finset.mem_filter, mX]
  clear_value P E
  clear hPdef hEdef
  constructor
  · intro b hb
    rcases Multiset.mem_add.1 hb with hb | hb
    · obtain ⟨x, _, rfl⟩ := Multiset.mem_map.1 hb
      exact WithTop.coe_lt_top _
    · obtain ⟨x, hx, rfl⟩ := Multiset.mem_map.1 hb
      exact WithTop.coe_lt_coe.2 (Finset.mem_filter.1 hx).2
  · intro s t hst
    have hc := barcode_core_key (K := K) (M := M) (f := f) hk (cells := fun d => if d = p then Xs else Ys) (p := p) (q := p + 1) (by simpa using hXs) (by simpa using hYs)
      (by simp only [if_true]; exact fun a ha b hb => hfX a ((mX a).1 ha) b ((mX b).1 hb))
      (by simp only [add_eq_left, one_ne_zero, if_false]; exact fun a ha b hb => hfY a ((mY a).1 ha) b ((mY b).1 hb))
      (by simp only [add_eq_left, one_ne_zero, if_false, if_true]; exact fun y hy r hr => (mX r).2 (h.rowsY y ((mY y).1 hy) r hr))
      (by simp only [add_eq_left, one_ne_zero, if_false]; exact fun y hy => h.sq y ((mY y).1 hy))
      (by simp only [add_eq_left, one_ne_zero, if_false, if_true]; exact fun x y hxy => (hbirth x y hxy).2)
      (P := P) (E := E) (by simpa using hP) (by simpa using hE) hst
    have e1 : ∀ u, sublevel f (fun d => if d = p then Xs else Ys) p u = level f X u := by
      intro u; ext x; simp [sublevel, level, mX]
    have e2 : ∀ u, sublevel f (fun d => if d = p then Xs else Ys) (p + 1) u = level f Y u := by
      intro u; ext x; simp [sublevel, level, mY]
    have e3 : persistentBetti M (level_mono f X hst) (level_mono f Y hst) =
        persistentBetti M (sublevel_mono f (fun d => if d = p then Xs else Ys) p hst) (sublevel_mono f (fun d => if d = p then Xs else Ys) (p + 1) hst) := by
      congr 1 <;> first | exact (e1 _).symm | exact (e2 _).symm
    show _ = persistentBetti M (level_mono f X hst) (level_mono f Y hst)
    rw [e3, hc]
    unfold pairBars
    rw [aliveBars_add]
    unfold aliveBars
    rw [countP_map_val, countP_map_val, Finset.filter_filter]
    congr 1
    · congr 1
      ext x
      simp [WithTop.coe_lt_top]
    · congr 1
      ext x
      simp only [Finset.mem_filter, WithTop.coe_lt_coe]
      constructor
      · rintro ⟨h0, _, h2, h3⟩; exact ⟨h0, h2, h3⟩
      · rintro ⟨h0, h2, h3⟩; exact ⟨h0, (h2.trans hst).trans_lt h3, h2, h3⟩

end

variable [Field F] [LinearOrder F] [IsStrictOrderedRing F]

theorem filter_split_val {α : Type} (P : Finset α) (a b : α → Prop) [DecidablePred a] [DecidablePred b] :
    (P.filter a).val = (P.filter fun x => a x ∧ b x).val + (P.filter fun x => a x ∧ ¬ b x).val := by
  classical
  rw [← Finset.filter_filter, ← Finset.filter_filter, Finset.filter_val (fun x => b x), Finset.filter_val (fun x => ¬ b x), Multiset.filter_add_not]

/-- The same pairs of cells with two filtrations. -/
theorem pairBars_close {f g : T → F} {P : Finset (T × T)} {E : Finset T} {δ : F} (hE : ∀ x ∈ E, |f x - g x| ≤ δ)
    (hP : ∀ x ∈ P, |f x.1 - g x.1| ≤ δ ∧ |f x.2 - g x.2| ≤ δ) : BottleneckLE δ (pairBars f P E) (pairBars g P E) := by
  classical
  have short : ∀ (f g : T → F), (∀ x ∈ P, |f x.1 - g x.1| ≤ δ ∧ |f x.2 - g x.2| ≤ δ) →
      ∀ a ∈ (P.filter fun x => f x.1 < f x.2 ∧ ¬ g x.1 < g x.2).val.map (fun x => (f x.1, (f x.2 : WithTop F))), BarShort δ a := by
    intro f g hP a ha
    obtain ⟨x, hx, rfl⟩ := Multiset.mem_map.1 ha
    obtain ⟨h0, h1, h2⟩ := Finset.mem_filter.1 hx
    refine ⟨f x.2, rfl, ?_⟩
    have h3 := abs_le.1 (hP x h0).1
    have h4 := abs_le.1 (hP x h0).2
    have h5 := not_lt.1 h2
    show f x.2 - f x.1 ≤ 2 * δ
    linarith [h3.1, h3.2, h4.1, h4.2]
  refine ⟨(E.val.map fun x => ((f x, ⊤), (g x, ⊤))) + (P.filter fun x => f x.1 < f x.2 ∧ g x.1 < g x.2).val.map
      fun x => ((f x.1, (f x.2 : WithTop F)), (g x.1, (g x.2 : WithTop F))), _, _, ?_, ?_, ?_, short f g hP, short g f ?_⟩
  · unfold pairBars
    rw [filter_split_val P (fun x => f x.1 < f x.2) (fun x => g x.1 < g x.2), Multiset.map_add, Multiset.map_add, Multiset.map_map, Multiset.map_map, add_assoc]
    rfl
  · unfold pairBars
    rw [filter_split_val P (fun x => g x.1 < g x.2) (fun x => f x.1 < f x.2), Multiset.map_add, Multiset.map_add, Multiset.map_map, Multiset.map_map, add_assoc]
    congr 3
    congr 1
    ext x; simp only [Finset.mem_filter]; tauto
  · intro x hx
    rcases Multiset.mem_add.1 hx with hx | hx
    · obtain ⟨y, hy, rfl⟩ := Multiset.mem_map.1 hx
      exact ⟨hE y hy, Or.inl ⟨rfl, rfl⟩⟩
    · obtain ⟨y, hy, rfl⟩ := Multiset.mem_map.1 hx
      have h0 := (Finset.mem_filter.1 hy).1
      exact ⟨(hP y h0).1, Or.inr ⟨_, _, rfl, rfl, (hP y h0).2⟩⟩
  · intro x hx
    exact ⟨by rw [abs_sub_comm]; exact (hP x hx).1, by rw [abs_sub_comm]; exact (hP x hx).2⟩

/-- The pairs of cells whose order is different for `f` and `g`. -/
def inversions (f g : T → F) (Q : Finset (T × T)) : Finset (T × T) := Q.filter fun x => f x.1 < f x.2 ∧ g x.2 < g x.1

/-- If `f` and `g` order the cells differently, then up to some point on the segment from `f` to `g` they do not, and the rest of it has fewer inversions. -/
theorem exists_crossing {f g : T → F} {Q : Finset (T × T)} (hne : (inversions f g Q).Nonempty) :
    ∃ t : F, 0 ≤ t ∧ t ≤ 1 ∧ inversions f (fun x => f x + t * (g x - f x)) Q = ∅ ∧
      (inversions (fun x => f x + t * (g x - f x)) g Q).card < (inversions f g Q).card := by
  classical
  obtain ⟨m, hm, hmin⟩ := Finset.exists_min_image (inversions f g Q) (fun x => (f x.2 - f x.1) / ((f x.2 - f x.1) + (g x.1 - g x.2))) hne
  have hpos : ∀ x ∈ inversions f g Q, 0 < f x.2 - f x.1 ∧ 0 < g x.1 - g x.2 := by
    intro x hx
    obtain ⟨-, h1, h2⟩ := Finset.mem_filter.1 hx
    exact ⟨sub_pos.2 h1, sub_pos.2 h2⟩
  obtain ⟨m1, m2⟩ := hpos m hm
  set t := (f m.2 - f m.1) / ((f m.2 - f m.1) + (g m.1 - g m.2)) with ht
  have t0 : 0 ≤ t := div_nonneg m1.le (by linarith)
  have t1 : t < 1 := by rw [ht, div_lt_one (by linarith)]; linarith
  refine ⟨t, t0, t1.le, ?_, ?_⟩
  · rw [inversions, Finset.filter_eq_empty_iff]
    rintro x hx ⟨h1, h2⟩
    by_cases hg : g x.2 < g x.1
    · have hxi : x ∈ inversions f g Q := Finset.mem_filter.2 ⟨hx, h1, hg⟩
      obtain ⟨p1, p2⟩ := hpos x hxi
      have := hmin x hxi
      rw [le_div_iff₀ (by linarith)] at this
      nlinarith
    · have hg' := not_lt.1 hg
      have : 0 < (1 - t) * (f x.2 - f x.1) := mul_pos (by linarith) (by linarith)
      have : 0 ≤ t * (g x.2 - g x.1) := mul_nonneg t0 (by linarith)
      nlinarith
  · refine Finset.card_lt_card ⟨?_, ?_⟩
    · intro x hx
      obtain ⟨h0, h1, h2⟩ := Finset.mem_filter.1 hx
      refine Finset.mem_filter.2 ⟨h0, ?_, h2⟩
      by_contra hc
      have h3 := not_lt.1 hc
      have : 0 ≤ (1 - t) * (f x.1 - f x.2) := mul_nonneg (by linarith) (by linarith)
      have : 0 ≤ t * (g x.1 - g x.2) := mul_nonneg t0 (by linarith)
      nlinarith
    · intro hsub
      obtain ⟨-, h1, -⟩ := Finset.mem_filter.1 (hsub hm)
      have : t * ((f m.2 - f m.1) + (g m.1 - g m.2)) = f m.2 - f m.1 := by rw [ht]; exact div_mul_cancel₀ _ (by linarith)
      nlinarith

/-- Without inversions there is one order of the cells for both filtrations. -/
theorem TwoDegrees.bottleneck_step [DecidableEq T] (h : TwoDegrees M deg X Y p) {f g : T → F} (hinv : inversions f g ((X ×ˢ X) ∪ (Y ×ˢ Y)) = ∅) {δ : F}
    (hX : ∀ x ∈ X, |f x - g x| ≤ δ) (hY : ∀ y ∈ Y, |f y - g y| ≤ δ) {A B : Multiset (F × WithTop F)} (hA : levelBarcode K M X Y f A)
    (hB : levelBarcode K M X Y g B) : BottleneckLE δ A B := by
  classical
  let _ : LinearOrder T := IsWellOrder.linearOrder (WellOrderingRel (α := T))
  let key : T → Lex (F × Lex (F × T)) := fun x => toLex (f x, toLex (g x, x))
  have hk : Function.Injective key := by
    intro a b e
    have := congrArg (fun z => (ofLex (ofLex z).2).2) e
    exact this
  have hf : ∀ a b, key a < key b → f a ≤ f b := by
    intro a b hlt
    rcases Prod.Lex.toLex_lt_toLex.1 hlt with h1 | h1
    · exact h1.le
    · exact h1.1.le
  have hg : ∀ Z : Finset T, (∀ a ∈ Z, ∀ b ∈ Z, ¬ (f a < f b ∧ g b < g a)) → ∀ a ∈ Z, ∀ b ∈ Z, key a < key b → g a ≤ g b := by
    intro Z hZ a ha b hb hlt
    rcases Prod.Lex.toLex_lt_toLex.1 hlt with h1 | ⟨_, h2⟩
    · exact not_lt.1 fun hc => hZ a ha b hb ⟨h1, hc⟩
    · rcases Prod.Lex.toLex_lt_toLex.1 h2 with h1 | h1
      · exact h1.le
      · exact h1.1.le
  have hno := Finset.filter_eq_empty_iff.1 hinv
  obtain ⟨P, E, hPE, hin, hEin⟩ := h.pairs hk
  have h1 := hPE F f (fun a _ b _ => hf a b) (fun a _ b _ => hf a b)
  have h2 := hPE F g (hg X fun a ha b hb => @hno (a, b) (Finset.mem_union_left _ (Finset.mk_mem_product ha hb)))
    (hg Y fun a ha b hb => @hno (a, b) (Finset.mem_union_right _ (Finset.mk_mem_product ha hb)))
  rw [hA.unique h1, hB.unique h2]
  exact pairBars_close (fun x hx => hX x (hEin hx)) fun x hx => by
    have := Finset.mem_product.1 (hin hx)
    exact ⟨hX _ this.1, hY _ this.2⟩

/-- **Stability.** The barcodes of two filtrations of the same complex are at bottleneck distance at most the distance of the filtrations. -/
theorem TwoDegrees.bottleneck (h : TwoDegrees M deg X Y p) {f g : T → F} {δ : F} (hδ : 0 ≤ δ)
    (hX : ∀ x ∈ X, |f x - g x| ≤ δ) (hY : ∀ y ∈ Y, |f y - g y| ≤ δ) {A B : Multiset (F × WithTop F)} (hA : levelBarcode K M X Y f A)
    (hB : levelBarcode K M X Y g B) : BottleneckLE δ A B := by
  classical
  generalize hn : (inversions f g ((X ×ˢ X) ∪ (Y ×ˢ Y))).card = n
  induction n using Nat.strong_induction_on generalizing f δ A with
  | _ n ih =>
  rcases Finset.eq_empty_or_nonempty (inversions f g ((X ×ˢ X) ∪ (Y ×ˢ Y))) with he | hne
  · exact h.bottleneck_step he hX hY hA hB
  · obtain ⟨t, t0, t1, h1, h2⟩ := exists_crossing hne
    have hC : ∃ C, levelBarcode K M X Y (fun x => f x + t * (g x - f x)) C := by
      let _ : LinearOrder T := IsWellOrder.linearOrder (WellOrderingRel (α := T))
      obtain ⟨P, E, hPE, _⟩ := h.pairs (rowKey_injective (fun x => f x + t * (g x - f x)))
      exact ⟨_, hPE F _ (fun _ _ _ _ => le_of_rowKey_lt) (fun _ _ _ _ => le_of_rowKey_lt)⟩
    obtain ⟨C, hC⟩ := hC
    have a1 : ∀ x, |f x - g x| ≤ δ → |f x - (f x + t * (g x - f x))| ≤ t * δ := by
      intro x hx
      have : f x - (f x + t * (g x - f x)) = t * (f x - g x) := by ring
      rw [this, abs_mul, abs_of_nonneg t0]
      exact mul_le_mul_of_nonneg_left hx t0
    have a2 : ∀ x, |f x - g x| ≤ δ → |(f x + t * (g x - f x)) - g x| ≤ (1 - t) * δ := by
      intro x hx
      have : (f x + t * (g x - f x)) - g x = (1 - t) * (f x - g x) := by ring
      rw [this, abs_mul, abs_of_nonneg (by linarith)]
      exact mul_le_mul_of_nonneg_left hx (by linarith)
    have b1 := h.bottleneck_step h1 (δ := t * δ) (fun x hx => a1 x (hX x hx)) (fun x hx => a1 x (hY x hx)) hA hC
    have b2 := ih _ (hn ▸ h2) (δ := (1 - t) * δ) (mul_nonneg (by linarith) hδ) (fun x hx => a2 x (hX x hx)) (fun x hx => a2 x (hY x hx)) hC rfl
    have b3 := b1.trans (mul_nonneg t0 hδ) (mul_nonneg (by linarith) hδ) b2
    have : t * δ + (1 - t) * δ = δ := by ring
    rwa [this] at b3

end
end Phlite
