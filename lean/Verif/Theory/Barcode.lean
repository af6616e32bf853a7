/-
Counting bars: a diagram made of the persistence pairs and the unpaired cells gives all persistent Betti numbers.
-/
import Verif.Theory.Betti
import Verif.Theory.Complex
import Verif.Spec.Reduction
import Verif.Proofs.Columns

set_option linter.unusedSectionVars false
set_option linter.unusedSimpArgs false

namespace Phlite
open Finsupp (single linearCombination linearCombination_single)

section
variable {T F K L : Type} [Field K] [LinearOrder F] [LinearOrder T] [LinearOrder L] {f : T → F} {M : T → (T →₀ K)}

/-- A list sorted by a key for which `f` is monotone splits into the part up to `s` and the rest. -/
theorem key_split {key : T → L} (l : List T) (h : l.Pairwise fun a b => key a < key b) (hf : ∀ a ∈ l, ∀ b ∈ l, key a < key b → f a ≤ f b) (s : F) :
    l = l.filter (fun x => f x ≤ s) ++ l.filter (fun x => ¬ f x ≤ s) := by
  induction l with
  | nil => rfl
  | cons a l ih =>
    rw [List.pairwise_cons] at h
    have ih := ih h.2 fun a ha b hb => hf a (List.mem_cons_of_mem _ ha) b (List.mem_cons_of_mem _ hb)
    by_cases ha : f a ≤ s
    · rw [List.filter_cons_of_pos (by simpa using ha), List.filter_cons_of_neg (by simpa using ha), List.cons_append, ← ih]
    · have hall : ∀ b ∈ l, ¬ f b ≤ s := fun b hb hbs =>
        ha ((hf a (List.mem_cons_self ..) b (List.mem_cons_of_mem _ hb) (h.1 b hb)).trans hbs)
      rw [List.filter_cons_of_neg (by simpa using ha), List.filter_cons_of_pos (by simpa using ha),
        List.filter_eq_nil_iff.2 (by simpa using hall), List.filter_eq_self.2 (by simpa using hall)]
      rfl

open Classical in
theorem barcode_core_key {key : T → L} (hk : Function.Injective key) {cells : ℤ → List T} {p q : ℤ} (hX : (cells p).Pairwise fun a b => key a < key b)
    (hY : (cells q).Pairwise fun a b => key a < key b)
    (hfX : ∀ a ∈ cells p, ∀ b ∈ cells p, key a < key b → f a ≤ f b) (hfY : ∀ a ∈ cells q, ∀ b ∈ cells q, key a < key b → f a ≤ f b)
    (hrows : ∀ y ∈ cells q, ∀ r, M y r ≠ 0 → r ∈ cells p) (hsq : ∀ y ∈ cells q, linearCombination K M (M y) = 0)
    (hbirth : ∀ x y, IsPersistencePair key (cells q) M x y → ¬ ∃ ρ, IsPersistencePair key (cells p) M ρ x)
    {P : Finset (T × T)} {E : Finset T}
    (hP : ∀ x y, (x, y) ∈ P ↔ IsPersistencePair key (cells q) M x y)
    (hE : ∀ x, x ∈ E ↔ x ∈ cells p ∧ (¬ ∃ ρ, IsPersistencePair key (cells p) M ρ x) ∧
      ¬ ∃ y, IsPersistencePair key (cells q) M x y) {s t : F} (hst : s ≤ t) :
    persistentBetti M (sublevel_mono f cells p hst) (sublevel_mono f cells q hst) =
      (E.filter fun x => f x ≤ s).card + (P.filter fun x => f x.1 ≤ s ∧ t < f x.2).card := by
  have hYnd : (cells q).Nodup := hY.imp fun h e => by subst e; exact lt_irrefl _ h
  have hXnd : (cells p).Nodup := hX.imp fun h e => by subst e; exact lt_irrefl _ h
  have e1 : sublevel f cells p s = {x | x ∈ (cells p).filter fun x => f x ≤ s} := by ext x; simp [sublevel]
  have e2 : sublevel f cells q t = {x | x ∈ (cells q).filter fun x => f x ≤ t} := by ext x; simp [sublevel]
  have hcount := betti_count (K := K) (M := M) hk hX hYnd (key_split _ hX hfX s) (key_split _ hY hfY t) hrows hsq (X' := sublevel f cells p t)
    (Y := sublevel f cells q s) (by rw [← e1]; exact sublevel_mono f cells p hst) (by rw [← e2]; exact sublevel_mono f cells q hst)
  have e3 : persistentBetti M (sublevel_mono f cells p hst) (sublevel_mono f cells q hst) =
      persistentBetti M (X := {x | x ∈ (cells p).filter fun x => f x ≤ s}) (X' := sublevel f cells p t) (Y := sublevel f cells q s)
        (Y' := {x | x ∈ (cells q).filter fun x => f x ≤ t}) (by rw [← e1]; exact sublevel_mono f cells p hst)
        (by rw [← e2]; exact sublevel_mono f cells q hst) := by
    congr 1
  rw [e3, hcount, List.countP_eq_length_filter, ← List.toFinset_card_of_nodup ((hXnd.filter _).filter _)]
  have hinj : Set.InjOn Prod.fst (↑(P.filter fun x => f x.1 ≤ s ∧ t < f x.2) : Set (T × T)) := by
    rintro ⟨a, b⟩ h1 ⟨a', b'⟩ h2 h
    simp only [Finset.coe_filter, Set.mem_ofPred_eq] at h1 h2 h
    subst h
    rw [(pair_unique (K := K) hk hYnd M).2 _ _ _ ((hP _ _).1 h1.1) ((hP _ _).1 h2.1)]
  rw [← Finset.card_image_of_injOn hinj, ← Finset.card_union_of_disjoint]
  · congr 1
    ext x
    simp only [List.mem_toFinset, List.mem_filter, decide_eq_true_eq, Finset.mem_union, Finset.mem_filter, Finset.mem_image, Prod.exists,
      exists_and_right, exists_eq_right, hE, hP]
    constructor
    · rintro ⟨⟨h1, h2⟩, h3, h4⟩
      by_cases h : ∃ y, IsPersistencePair key (cells q) M x y
      · right
        obtain ⟨y, hy⟩ := h
        refine ⟨y, hy, h2, ?_⟩
        by_contra hh
        obtain ⟨pre, post, e, _⟩ := id hy
        exact h4 ⟨y, ⟨by rw [e]; simp, not_lt.1 hh⟩, hy⟩
      · exact Or.inl ⟨⟨h1, h3, h⟩, h2⟩
    · rintro (⟨⟨h1, h2, h3⟩, h4⟩ | ⟨y, h1, h2, h3⟩)
      · exact ⟨⟨h1, h4⟩, h2, fun ⟨y, _, hy⟩ => h3 ⟨y, hy⟩⟩
      · refine ⟨⟨?_, h2⟩, hbirth x y h1, ?_⟩
        · obtain ⟨W, hW⟩ := exists_decomp (K := K) hk _ hYnd M
          obtain ⟨g1, g2⟩ := (hW.pair_iff hk x y).1 h1
          obtain ⟨z, z1, z2⟩ := lc_support g2.1
          exact hrows z (hW.mem_of_ne g1 z1) x z2
        · rintro ⟨y', ⟨_, h5⟩, h6⟩
          rw [(pair_unique (K := K) hk hYnd M).2 _ _ _ h6 h1] at h5
          exact not_lt.2 h5 h3
  · rw [Finset.disjoint_left]
    intro x h1 h2
    simp only [Finset.mem_filter, Finset.mem_image, Prod.exists, exists_and_right, exists_eq_right, hE, hP] at h1 h2
    obtain ⟨y, hy, _⟩ := h2
    exact h1.1.2.2 ⟨y, hy⟩


end

section
variable {T F K : Type} [Field K] [LinearOrder F] [LinearOrder T] {f : T → F} {M : T → (T →₀ K)}

theorem le_of_rowKey_lt {a b : T} (h : rowKey f a < rowKey f b) : f a ≤ f b := by
  unfold rowKey at h
  rw [Prod.Lex.lt_iff] at h
  rcases h with h | h
  · exact h.le
  · exact h.1.le

/-- A list sorted by filtration value splits into the part up to `s` and the rest. -/
theorem sorted_split (l : List T) (h : l.Pairwise fun a b => rowKey f a < rowKey f b) (s : F) :
    l = l.filter (fun x => f x ≤ s) ++ l.filter (fun x => ¬ f x ≤ s) :=
  key_split l h (fun _ _ _ _ => le_of_rowKey_lt) s

theorem sorted_nodup {l : List T} (h : l.Pairwise fun a b => rowKey f a < rowKey f b) : l.Nodup :=
  h.imp fun h e => by subst e; exact lt_irrefl _ h

open Classical in
theorem barcode_core {cells : ℤ → List T} {p q : ℤ} (hX : (cells p).Pairwise fun a b => rowKey f a < rowKey f b)
    (hY : (cells q).Pairwise fun a b => rowKey f a < rowKey f b)
    (hrows : ∀ y ∈ cells q, ∀ r, M y r ≠ 0 → r ∈ cells p) (hsq : ∀ y ∈ cells q, linearCombination K M (M y) = 0)
    (hbirth : ∀ x y, IsPersistencePair (rowKey f) (cells q) M x y → ¬ ∃ ρ, IsPersistencePair (rowKey f) (cells p) M ρ x)
    {P : Finset (T × T)} {E : Finset T}
    (hP : ∀ x y, (x, y) ∈ P ↔ IsPersistencePair (rowKey f) (cells q) M x y)
    (hE : ∀ x, x ∈ E ↔ x ∈ cells p ∧ (¬ ∃ ρ, IsPersistencePair (rowKey f) (cells p) M ρ x) ∧
      ¬ ∃ y, IsPersistencePair (rowKey f) (cells q) M x y) {s t : F} (hst : s ≤ t) :
    persistentBetti M (sublevel_mono f cells p hst) (sublevel_mono f cells q hst) =
      (E.filter fun x => f x ≤ s).card + (P.filter fun x => f x.1 ≤ s ∧ t < f x.2).card :=
  barcode_core_key (rowKey_injective f) hX hY (fun _ _ _ _ => le_of_rowKey_lt) (fun _ _ _ _ => le_of_rowKey_lt) hrows hsq hbirth hP hE hst

end
end Phlite
