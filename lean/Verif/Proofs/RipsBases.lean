/-
`build_rips_bases` lists the simplices in each dimension.
-/
import Verif.Proofs.RipsIndex
import Mathlib.Data.List.Sublists

set_option linter.unusedSectionVars false
set_option linter.unusedSimpArgs false

namespace Phlite

section
variable {F : Type} [LinearOrder F] [Zero F]

instance : Std.Total (tupleLe (F := F)) := ⟨fun a b => le_total (toLex a) (toLex b)⟩
instance : IsTrans (F × RipsIndex) tupleLe := ⟨fun a b c (h : toLex a ≤ toLex b) (h' : toLex b ≤ toLex c) => show toLex a ≤ toLex c from h.trans h'⟩
instance : Std.Antisymm (tupleLe (F := F)) := ⟨fun a b (h : toLex a ≤ toLex b) (h' : toLex b ≤ toLex a) => toLex.injective (h.antisymm h')⟩

theorem sort_perm {l l' : List (F × RipsIndex)} (h : l.Perm l') : l.insertionSort tupleLe = l'.insertionSort tupleLe :=
  List.Perm.eq_of_pairwise' (List.pairwise_insertionSort _ _) (List.pairwise_insertionSort _ _)
    ((List.perm_insertionSort _ _).trans (h.trans (List.perm_insertionSort _ _).symm))

/-! ### Maxima -/

theorem foldl_max_le (l : List F) (a x : F) : l.foldl max a ≤ x ↔ a ≤ x ∧ ∀ b ∈ l, b ≤ x := by
  induction l generalizing a with
  | nil => simp
  | cons b l ih => rw [List.foldl_cons, ih, max_le_iff]; simp [and_assoc]

theorem maxOpt_some {l : List F} {m : F} (h : maxOpt l = some m) (x : F) : m ≤ x ↔ ∀ b ∈ l, b ≤ x := by
  cases l with
  | nil => cases h
  | cons a l =>
    simp only [maxOpt, Option.some.injEq] at h
    rw [← h, foldl_max_le]; simp

/-- `max_{a ∈ l} d a v`. -/
def maxTo (d : ℕ → ℕ → F) (l : List ℕ) (v : ℕ) : F := (maxOpt (l.map fun w => d w v)).getD 0

theorem maxTo_eq (d : ℕ → ℕ → F) {l : List ℕ} (hl : l ≠ []) (v : ℕ) : maxOpt (l.map fun w => d w v) = some (maxTo d l v) := by
  cases l with
  | nil => exact absurd rfl hl
  | cons a l => rfl

theorem maxTo_le (d : ℕ → ℕ → F) {l : List ℕ} (hl : l ≠ []) (v : ℕ) (x : F) : maxTo d l v ≤ x ↔ ∀ a ∈ l, d a v ≤ x := by
  rw [maxOpt_some (maxTo_eq d hl v)]; simp

/-- The filtration value `add_cofacets` stores for `simplex ++ ext`. -/
def storedFrom (d : ℕ → ℕ → F) : List ℕ → F → List ℕ → F
  | _, fil, [] => fil
  | simplex, fil, v :: ext => storedFrom d (simplex ++ [v]) (max (maxTo d simplex v) fil) ext

theorem storedFrom_le (d : ℕ → ℕ → F) (ext simplex : List ℕ) (hs : simplex ≠ []) (fil x : F) :
    storedFrom d simplex fil ext ≤ x ↔ fil ≤ x ∧ (∀ a ∈ simplex, ∀ b ∈ ext, d a b ≤ x) ∧ ext.Pairwise fun a b => d a b ≤ x := by
  induction ext generalizing simplex fil with
  | nil => simp [storedFrom]
  | cons v ext ih =>
    rw [storedFrom, ih _ (by simp), max_le_iff, maxTo_le d hs, List.pairwise_cons]
    constructor
    · rintro ⟨⟨h1, h2⟩, h3, h4⟩
      refine ⟨h2, ?_, fun b hb => h3 v (by simp) b hb, h4⟩
      intro a ha b hb
      rcases List.mem_cons.1 hb with rfl | hb
      · exact h1 a ha
      · exact h3 a (by simp [ha]) b hb
    · rintro ⟨h1, h2, h3, h4⟩
      refine ⟨⟨fun a ha => h2 a ha v (by simp), h1⟩, ?_, h4⟩
      intro a ha b hb
      rcases List.mem_append.1 ha with ha | ha
      · exact h2 a ha b (by simp [hb])
      · rw [List.mem_singleton.1 ha]; exact h3 b hb

/-- The filtration value stored for a simplex. -/
def stored (d : ℕ → ℕ → F) : List ℕ → F
  | [] => 0
  | v :: ext => storedFrom d [v] 0 ext

theorem stored_le (d : ℕ → ℕ → F) {l : List ℕ} (hl : l ≠ []) (x : F) : stored d l ≤ x ↔ 0 ≤ x ∧ l.Pairwise fun a b => d a b ≤ x := by
  cases l with
  | nil => exact absurd rfl hl
  | cons v l => rw [stored, storedFrom_le _ _ _ (by simp), List.pairwise_cons]; simp

/-! ### Enumeration -/

theorem mapOpt_eq_map {α β : Type} (f : α → Option β) (g : α → β) (l : List α) (h : ∀ a ∈ l, f a = some (g a)) : mapOpt f l = some (l.map g) := by
  induction l with
  | nil => rfl
  | cons a l ih =>
    rw [mapOpt, h a (by simp), Option.bind_some, ih fun b hb => h b (by simp [hb])]; rfl

theorem pushAt_eq {bases : List (List (F × RipsIndex))} {k : ℕ} (hk : k < bases.length) (x : F × RipsIndex) :
    ∃ b', pushAt bases k x = some b' ∧ b'.length = bases.length ∧ b'.getD k [] = bases.getD k [] ++ [x] ∧
      ∀ e, e ≠ k → b'.getD e [] = bases.getD e [] := by
  refine ⟨_, if_pos hk, by simp, ?_, ?_⟩
  · simp [List.getD, List.getElem?_modify, hk]
  · intro e he
    simp [List.getD, List.getElem?_modify, Ne.symm he]

variable {distances : List (List F)} {d : ℕ → ℕ → F} {max_dim : ℕ}

/-- The entries added for the extensions of a simplex. -/
def extEntries (n : ℕ) (d : ℕ → ℕ → F) (simplex : List ℕ) (fil : F) (vs : List ℕ) (k : ℕ) : List (F × RipsIndex) :=
  (vs.sublistsLen k).map fun ext => (storedFrom d simplex fil ext, enc (n + 1) (simplex ++ ext))

theorem extEntries_cons (n : ℕ) (d : ℕ → ℕ → F) (simplex : List ℕ) (fil : F) (v : ℕ) (vs : List ℕ) (k : ℕ) :
    extEntries n d simplex fil (v :: vs) (k + 1) = extEntries n d simplex fil vs (k + 1) ++
      extEntries n d (simplex ++ [v]) (max (maxTo d simplex v) fil) vs k := by
  unfold extEntries
  rw [List.sublistsLen_succ_cons, List.map_append, List.map_map]
  congr 1
  refine List.map_congr_left fun ext _ => ?_
  simp [storedFrom]

theorem extEntries_zero (n : ℕ) (d : ℕ → ℕ → F) (simplex : List ℕ) (fil : F) (vs : List ℕ) :
    extEntries n d simplex fil vs 0 = [(fil, enc (n + 1) simplex)] := by
  simp [extEntries, storedFrom]

theorem extEntries_nil (n : ℕ) (d : ℕ → ℕ → F) (simplex : List ℕ) (fil : F) (k : ℕ) :
    extEntries n d simplex fil [] (k + 1) = [] := by
  simp [extEntries]

theorem addCofacets_spec (hd : ∀ i < distances.length, ∀ j < distances.length, distAt distances i j = some (d i j))
    (fuel : ℕ) (bases : List (List (F × RipsIndex))) (simplex : List ℕ) (fil : F) (m : ℕ) (hlast : simplex.getLast? = some m)
    (hlt : ∀ v ∈ simplex, v < distances.length) (hk : simplex.length ≤ max_dim) (hfuel : max_dim < fuel + simplex.length)
    (hb : bases.length = max_dim + 1) :
    ∃ bases', addCofacets distances max_dim fuel bases simplex fil = some bases' ∧ bases'.length = max_dim + 1 ∧
      (∀ e, e < simplex.length → bases'.getD e [] = bases.getD e []) ∧
      ∀ e, simplex.length ≤ e → e ≤ max_dim → (bases'.getD e []).Perm (bases.getD e [] ++
        extEntries distances.length d simplex fil (List.range' (m + 1) (distances.length - (m + 1))) (e - simplex.length + 1)) := by
  induction fuel generalizing bases simplex fil m with
  | zero => omega
  | succ fuel ih =>
    have hne : simplex ≠ [] := by rintro rfl; cases hlast
    have hlen : simplex.length - 1 + 1 = simplex.length := by
      have := List.length_pos_of_ne_nil hne; omega
    have hm : m < distances.length := hlt m (List.mem_of_getLast? hlast)
    unfold addCofacets
    rw [hlast, Option.bind_some]
    simp only [hlen]
    split
    · rename_i h
      refine ⟨bases, rfl, hb, fun _ _ => rfl, ?_⟩
      intro e _ _
      have : distances.length - (m + 1) = 0 := by omega
      rw [this, List.range'_zero, extEntries_nil, List.append_nil]
    · -- the loop
      have loop : ∀ (c a : ℕ), a + c = distances.length → ∀ bases : List (List (F × RipsIndex)), bases.length = max_dim + 1 →
          ∃ bases', (List.range' a c).foldlM (fun bases v =>
            (mapOpt (fun w => distAt distances w v) simplex).bind fun ds =>
            (maxOpt ds).bind fun m =>
            (fromIndices distances.length (simplex ++ [v])).bind fun index =>
            (pushAt bases simplex.length (max m fil, index)).bind fun bases =>
              if simplex.length < max_dim then addCofacets distances max_dim fuel bases (simplex ++ [v]) (max m fil) else some bases) bases =
              some bases' ∧ bases'.length = max_dim + 1 ∧
            (∀ e, e < simplex.length → bases'.getD e [] = bases.getD e []) ∧
            ∀ e, simplex.length ≤ e → e ≤ max_dim → (bases'.getD e []).Perm (bases.getD e [] ++
              extEntries distances.length d simplex fil (List.range' a c) (e - simplex.length + 1)) := by
        intro c
        induction c with
        | zero =>
          intro a _ bases hb
          refine ⟨bases, rfl, hb, fun _ _ => rfl, ?_⟩
          intro e _ _
          rw [List.range'_zero, extEntries_nil, List.append_nil]
        | succ c ihc =>
          intro a ha bases hb
          have ha' : a < distances.length := by omega
          rw [List.range'_succ, List.foldlM_cons]
          have e1 : mapOpt (fun w => distAt distances w a) simplex = some (simplex.map fun w => d w a) :=
            mapOpt_eq_map _ _ _ fun w hw => hd w (hlt w hw) a ha'
          have e2 := maxTo_eq d hne a
          have e3 : fromIndices distances.length (simplex ++ [a]) = some (enc (distances.length + 1) (simplex ++ [a])) :=
            fromIndices_eq _ (by simp)
          obtain ⟨b1, p1, p2, p3, p4⟩ := pushAt_eq (bases := bases) (k := simplex.length) (by omega)
            (max (maxTo d simplex a) fil, enc (distances.length + 1) (simplex ++ [a]))
          simp only [e1, e2, e3, p1, Option.bind_some]
          have rec_ : ∃ b2, (if simplex.length < max_dim then
                addCofacets distances max_dim fuel b1 (simplex ++ [a]) (max (maxTo d simplex a) fil) else some b1) = some b2 ∧
              b2.length = max_dim + 1 ∧ (∀ e, e < simplex.length → b2.getD e [] = bases.getD e []) ∧
              ∀ e, simplex.length ≤ e → e ≤ max_dim → (b2.getD e []).Perm (bases.getD e [] ++
                extEntries distances.length d (simplex ++ [a]) (max (maxTo d simplex a) fil) (List.range' (a + 1) c) (e - simplex.length)) := by
            split
            · rename_i hlt'
              obtain ⟨b2, q1, q2, q3, q4⟩ := ih b1 (simplex ++ [a]) (max (maxTo d simplex a) fil) a (by simp)
                (by intro v hv; rcases List.mem_append.1 hv with h | h
                    · exact hlt v h
                    · rw [List.mem_singleton.1 h]; exact ha')
                (by simp; omega) (by simp; omega) (by omega)
              rw [List.length_append, List.length_singleton] at q3 q4
              refine ⟨b2, q1, q2, ?_, ?_⟩
              · intro e he
                rw [q3 e (by omega), p4 e (by omega)]
              · intro e he he'
                rcases Nat.eq_or_lt_of_le he with rfl | he
                · rw [q3 _ (by omega), p3, Nat.sub_self, extEntries_zero]
                · have := q4 e he he'
                  rw [p4 e (by omega)] at this
                  rw [show distances.length - (a + 1) = c by omega, show e - (simplex.length + 1) + 1 = e - simplex.length by omega] at this
                  exact this
            · refine ⟨b1, rfl, by omega, fun e he => p4 e (by omega), ?_⟩
              intro e he he'
              have : e = simplex.length := by omega
              subst this
              rw [p3, Nat.sub_self, extEntries_zero]
          obtain ⟨b2, r1, r2, r3, r4⟩ := rec_
          obtain ⟨b3, s1, s2, s3, s4⟩ := ihc (a + 1) (by omega) b2 r2
          rw [r1]
          refine ⟨b3, s1, s2, ?_, ?_⟩
          · intro e he
            rw [s3 e he, r3 e he]
          · intro e he he'
            rw [extEntries_cons]
            refine (s4 e he he').trans ?_
            refine ((r4 e he he').append_right _).trans ?_
            rw [List.append_assoc]
            exact (List.perm_append_comm).append_left _
      exact loop (distances.length - (m + 1)) (m + 1) (by omega) bases hb

/-- The sorted basis in one dimension. -/
def dimBasis (n : ℕ) (d : ℕ → ℕ → F) (k : ℕ) : List (F × RipsIndex) :=
  (((List.range n).sublistsLen (k + 1)).map fun l => (stored d l, enc (n + 1) l)).insertionSort tupleLe

/-- The entries of dimension `k` on the vertices `vs`. -/
def dimEntries (n : ℕ) (d : ℕ → ℕ → F) (vs : List ℕ) (k : ℕ) : List (F × RipsIndex) :=
  (vs.sublistsLen (k + 1)).map fun l => (stored d l, enc (n + 1) l)

theorem dimEntries_cons (n : ℕ) (d : ℕ → ℕ → F) (v : ℕ) (vs : List ℕ) (k : ℕ) :
    dimEntries n d (v :: vs) k = dimEntries n d vs k ++ extEntries n d [v] 0 vs k := by
  unfold dimEntries extEntries
  rw [List.sublistsLen_succ_cons, List.map_append, List.map_map]
  rfl

theorem buildRipsBases_spec (hd : ∀ i < distances.length, ∀ j < distances.length, distAt distances i j = some (d i j))
    (h1 : 1 ≤ max_dim ∨ distances.length ≤ 1) :
    buildRipsBases distances max_dim = some ((List.range (max_dim + 1)).map fun k => dimBasis distances.length d k) := by
  have loop : ∀ (c a : ℕ), a + c = distances.length → ∀ bases : List (List (F × RipsIndex)), bases.length = max_dim + 1 →
      ∃ bases', (List.range' a c).foldlM (fun bases v =>
        (fromIndices distances.length [v]).bind fun index =>
        (pushAt bases 0 (0, index)).bind fun bases =>
          addCofacets distances max_dim (max_dim + 1) bases [v] 0) bases = some bases' ∧ bases'.length = max_dim + 1 ∧
        ∀ e, e ≤ max_dim → (bases'.getD e []).Perm (bases.getD e [] ++ dimEntries distances.length d (List.range' a c) e) := by
    intro c
    induction c with
    | zero =>
      intro a _ bases hb
      refine ⟨bases, rfl, hb, ?_⟩
      intro e _
      simp [dimEntries]
    | succ c ihc =>
      intro a ha bases hb
      rw [List.range'_succ, List.foldlM_cons]
      rw [fromIndices_eq _ (by simp : [a] ≠ []), Option.bind_some]
      obtain ⟨b1, p1, p2, p3, p4⟩ := pushAt_eq (bases := bases) (k := 0) (by omega) ((0 : F), enc (distances.length + 1) [a])
      rw [p1, Option.bind_some]
      have rec_ : ∃ b2, addCofacets distances max_dim (max_dim + 1) b1 [a] 0 = some b2 ∧ b2.length = max_dim + 1 ∧
          ∀ e, e ≤ max_dim → (b2.getD e []).Perm (bases.getD e [] ++ extEntries distances.length d [a] 0 (List.range' (a + 1) c) e) := by
        rcases Nat.eq_zero_or_pos max_dim with h0 | h0
        · have hn : distances.length ≤ 1 := by omega
          refine ⟨b1, ?_, by omega, ?_⟩
          · unfold addCofacets
            simp only [List.getLast?_singleton, Option.bind_some]
            rw [if_pos (by omega)]
          · intro e he
            have : e = 0 := by omega
            subst this
            rw [p3, extEntries_zero]
        · obtain ⟨b2, q1, q2, q3, q4⟩ := addCofacets_spec (max_dim := max_dim) hd (max_dim + 1) b1 [a] 0 a rfl
            (by intro v hv; rw [List.mem_singleton.1 hv]; omega) (by rw [List.length_singleton]; omega) (by simp) (by omega)
          rw [List.length_singleton] at q3 q4
          refine ⟨b2, q1, q2, ?_⟩
          intro e he
          rcases Nat.eq_zero_or_pos e with rfl | he0
          · rw [q3 0 (by omega), p3, extEntries_zero]
          · have := q4 e he0 he
            rw [p4 e (by omega), show distances.length - (a + 1) = c by omega, show e - 1 + 1 = e by omega] at this
            exact this
      obtain ⟨b2, r1, r2, r3⟩ := rec_
      obtain ⟨b3, s1, s2, s3⟩ := ihc (a + 1) (by omega) b2 r2
      rw [r1]
      refine ⟨b3, s1, s2, ?_⟩
      intro e he
      rw [dimEntries_cons]
      refine (s3 e he).trans (((r3 e he).append_right _).trans ?_)
      rw [List.append_assoc]
      exact (List.perm_append_comm).append_left _
  obtain ⟨b, h2, h3, h4⟩ := loop distances.length 0 (by simp) (List.replicate (max_dim + 1) []) (by simp)
  unfold buildRipsBases
  rw [List.range_eq_range', h2, Option.map_some]
  congr 1
  refine List.ext_getElem (by simp [h3]) ?_
  intro k hk hk'
  have hk : k < b.length := by simpa using hk
  have := h4 k (by omega)
  have e0 : (List.replicate (max_dim + 1) ([] : List (F × RipsIndex))).getD k [] = [] := by
    simp [List.getD, List.getElem?_replicate]; split <;> rfl
  rw [e0, List.nil_append] at this
  have e1 : b.getD k [] = b[k] := by simp [List.getD, hk]
  rw [e1] at this
  simp only [List.getElem_map, List.getElem_range]
  rw [sort_perm this, dimBasis, dimEntries, List.range_eq_range']

end
end Phlite
