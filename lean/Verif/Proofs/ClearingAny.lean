/-
The clearing algorithm on matrices that need not be chain complexes.
-/
import Verif.Proofs.Clearing
import Verif.Proofs.Mono

set_option linter.unusedSectionVars false
set_option linter.unusedSimpArgs false

namespace Phlite
open Finsupp (single linearCombination linearCombination_single)

section
variable [StdHeap] {CF T F K : Type} [NonZeroCoeff CF] [Field K] [LawfulCoeff CF K] [LinearOrder F] [LinearOrder T]
variable {D : FOracle CF T T F} {B : SplitBasis T} {f : T → F} {M : T → (T →₀ K)} {dims : List ℕ} {els : ℕ → List T}

/-- Loop invariant within one dimension: `cells` is its basis, `pre` the processed part, `s0` the state before the dimension, and `fresh` the processed
cells without a stored column in `s0`. -/
structure PassInv (K : Type) [Field K] [LawfulCoeff CF K] (f : T → F) (M : T → (T →₀ K)) (cells : List T) (s0 : CrmState CF T) (fresh pre : List T)
    (s : CrmState CF T) (low : T → Option (T × CF)) : Prop where
  red : ∀ c ∈ fresh, ∃ l, s.rc c = some (.reduced l) ∧ ∀ t ∈ l, t.2 ∈ cells
  dec : Decomp (rowKey f) fresh M (wred K s.rc)
  keys : ∀ c ∈ cells, (s.rc c).isSome ↔ (s0.rc c).isSome ∨ c ∈ pre
  low : ∀ r j jc, low r = some (j, jc) ↔
    j ∈ fresh ∧ IsPivot f (linearCombination K M (wred K s.rc j)) r ∧ linearCombination K M (wred K s.rc j) r = LawfulCoeff.val jc
  pairs : ∀ r c, (r, c) ∈ s.diagram.pairings ↔ (r, c) ∈ s0.diagram.pairings ∨ (c ∈ fresh ∧ IsPivot f (linearCombination K M (wred K s.rc c)) r)
  ess : ∀ x, x ∈ s.diagram.essential ↔ x ∈ s0.diagram.essential ∨ (x ∈ fresh ∧ linearCombination K M (wred K s.rc x) = 0)
  cells : ∀ c, (s.rc c).isSome ↔ c ∈ s.diagram.essential ∨ ∃ p ∈ s.diagram.pairings, p.1 = c ∨ p.2 = c
  keep : ∀ c, c ∉ fresh → (∀ j ∈ fresh, ¬ IsPivot f (linearCombination K M (wred K s.rc j)) c) → s.rc c = s0.rc c

theorem pass_lowSpec {cells fresh pre : List T} {s0 s : CrmState CF T} {low : T → Option (T × CF)} (hinv : PassInv K f M cells s0 fresh pre s low)
    (hfc : ∀ c ∈ fresh, c ∈ cells) (hg : ∀ c ∈ cells, ReadsCol K D f M c) (depth : Nat) :
    LowSpec K f (productF D.ref (crmMatrix D.toOracle s.rc (depth + 1)).withTrivial.toOracle).colF
      (crmMatrix D.toOracle s.rc (depth + 1)).withTrivial.colF low
      (fun j => linearCombination K M (wred K s.rc j)) (wred K s.rc) := by
  intro r j jc hlj
  obtain ⟨hj, hp, hval⟩ := (hinv.low r j jc).1 hlj
  obtain ⟨l, hl, hlc'⟩ := hinv.red j hj
  have hW : wred K s.rc j = lcOf K l + single j 1 := by simp only [wred, hl]
  have hcol : (crmMatrix D.toOracle s.rc (depth + 1)).column j = some (l ++ [(NonZeroCoeff.one, j)]) := by
    simp only [crmMatrix, crmColumn, hl, Option.bind_some]
  have hlc : lcOf K (l ++ [((NonZeroCoeff.one : CF), j)]) = wred K s.rc j := by
    rw [hW, lcOf_append]; simp [LawfulCoeff.val_one]
  have hent : ∀ t ∈ l ++ [((NonZeroCoeff.one : CF), j)], t.2 ∈ cells := by
    intro t ht
    rcases List.mem_append.1 ht with ht | ht
    · exact hlc' t ht
    · rw [List.mem_singleton.1 ht]; exact hfc j hj
  refine ⟨?_, ?_, hp, hval⟩
  · obtain ⟨es, e1, e2, e3⟩ := prod_colF (K := K) (D := D.ref) (f := f) (M := M)
      (V := (crmMatrix D.toOracle s.rc (depth + 1)).withTrivial.toOracle) (j := j) hcol
      (fun t ht => (hg t.2 (hent t ht)).ref)
    exact ⟨es, e1, e2, by rw [e3, hlc]⟩
  · rw [withTrivial_colF, hcol]
    refine ⟨_, rfl, ?_⟩
    rw [entLc, List.map_map, ← hlc]
    congr 1
    conv_rhs => rw [← List.map_id (l ++ [((NonZeroCoeff.one : CF), j)])]
    rfl

/-- One column. -/
theorem passColumn_spec {cells : List T} (hnd : cells.Nodup) (hg : ∀ c ∈ cells, ReadsCol K D f M c) (hrows : ∀ c ∈ cells, ∀ r ∈ cells, M c r = 0)
    {s0 : CrmState CF T} {fresh pre post : List T} {b : T} (hels : cells = pre ++ b :: post) (hfr : ∀ c ∈ fresh, c ∈ pre) (hfl : fresh.length ≤ pre.length)
    {s : CrmState CF T} {low : T → Option (T × CF)} (hinv : PassInv K f M cells s0 fresh pre s low) {fuel : Nat} (hfuel : pre.length < fuel) :
    ∃ p', clrColumn D fuel (s, low) b = some p' ∧
      PassInv K f M cells s0 (if (s0.rc b).isSome then fresh else fresh ++ [b]) (pre ++ [b]) p'.1 p'.2 := by
  classical
  have hbc : b ∈ cells := by rw [hels]; simp
  have hbpre : b ∉ pre := by
    rw [hels, List.nodup_append] at hnd
    exact fun h => hnd.2.2 b h b (by simp) rfl
  have hprec : ∀ c ∈ pre, c ∈ cells := fun c hc => by rw [hels]; simp [hc]
  have hfc : ∀ c ∈ fresh, c ∈ cells := fun c hc => hprec c (hfr c hc)
  have hbf : b ∉ fresh := fun h => hbpre (hfr b h)
  have hkb : (s.rc b).isSome ↔ (s0.rc b).isSome := by rw [hinv.keys b hbc]; simp [hbpre]
  unfold clrColumn
  by_cases hs0 : (s0.rc b).isSome
  · rw [if_pos (hkb.2 hs0), if_pos hs0]
    refine ⟨_, rfl, hinv.red, hinv.dec, ?_, hinv.low, hinv.pairs, hinv.ess, hinv.cells, hinv.keep⟩
    intro c hc
    rw [hinv.keys c hc, List.mem_append, List.mem_singleton]
    constructor
    · rintro (h | h)
      · exact Or.inl h
      · exact Or.inr (Or.inl h)
    · rintro (h | h | rfl)
      · exact Or.inl h
      · exact Or.inr h
      · exact Or.inl hs0
  · rw [if_neg (fun h => hs0 (hkb.1 h)), if_neg hs0]
    set W := wred K s.rc with hW
    set Rv : T → (T →₀ K) := fun j => linearCombination K M (W j) with hRv
    obtain ⟨lb, g1, g2, g3, g4⟩ := hg b hbc
    have hbuild : D.buildBhcol b = some (BHCol.empty.addEntries (lb.map fun t => (⟨f t.2, t.2, t.1⟩ : Entry F T CF))) := by
      simp [FOracle.buildBhcol, g2]
    set r0 : BHCol F T CF := BHCol.empty.addEntries (lb.map fun t => (⟨f t.2, t.2, t.1⟩ : Entry F T CF)) with hr0
    obtain ⟨hc0, hv0⟩ := build_spec (K := K) f (lb.map fun t => (⟨f t.2, t.2, t.1⟩ : Entry F T CF)) (by
      intro e he; obtain ⟨t, _, rfl⟩ := List.mem_map.1 he; rfl)
    rw [← hr0] at hc0 hv0
    have hv0' : BHCol.vec K r0 = M b := by
      rw [hv0, ← g4, List.map_map]
      congr 1
      conv_rhs => rw [← List.map_id lb]
      rfl
    obtain ⟨n, rfl⟩ : ∃ n, fuel = n + 1 := ⟨fuel - 1, by omega⟩
    have hlow := pass_lowSpec (D := D) hinv hfc hg n
    obtain ⟨S, hS1, hS2⟩ := pivots_card f fresh Rv
    have hS : ∀ r, low r ≠ none → r ∈ S := by
      intro r hr
      obtain ⟨⟨j, jc⟩, hq⟩ := Option.ne_none_iff_exists'.1 hr
      obtain ⟨hj, hp, _⟩ := (hinv.low r j jc).1 hq
      exact hS2 j hj r hp
    obtain ⟨r', vi', e1, e2, e3, ⟨rr, o, e4, e4'⟩, a, e5, e6, e7⟩ := genReduce_spec (K := K) (getSpec_clone f) hlow S hS (n + 1)
      r0 BHCol.empty hc0
      (lt_of_le_of_lt ((Finset.card_le_card (Finset.filter_subset _ _)).trans (hS1.trans hfl)) hfuel)
    rw [hv0'] at e6
    rw [BHCol.vec_empty, zero_add] at e7
    have hred : clrReduce D s.rc (n + 1) low (n + 1) r0 BHCol.empty = some (r', vi') := by rw [clrReduce_eq]; exact e1
    have hcv : Coherent (fun _ => ()) (StdHeap.bag vi') := fun _ _ => rfl
    obtain ⟨vs, hvs1, hvs2⟩ := BHCol.toSortedVec_spec (K := K) (fun _ => ()) vi' hcv
    have hsp := hvs2.sparse
    have ha : ∀ j, a j ≠ 0 → j ∈ fresh := by
      intro j hj
      obtain ⟨p, jc, hq, _⟩ := e5 j hj
      exact ((hinv.low p j jc).1 hq).1
    have hsupp : ∀ x, linearCombination K W a x ≠ 0 → x ∈ fresh := by
      intro x hne
      obtain ⟨j, h1, h2⟩ := lc_support hne
      exact hinv.dec.mem_of_ne (ha j h1) h2
    have hab : linearCombination K W a b = 0 := by
      by_contra hne
      exact hbf (hsupp b hne)
    set lv : List (CF × T) := vs.map fun e => (e.coeff, e.row) with hlv
    have hlcv : lcOf K lv = linearCombination K W a := by rw [hsp.lcOf_eq, e7]
    have hsp' : IsSparseList (lcOf K lv) lv := by rw [hlcv]; rw [e7] at hsp; exact hsp
    set wb : T →₀ K := lcOf K lv + single b 1 with hwb
    have hRb : linearCombination K M wb = BHCol.vec K r' := by
      rw [hwb, hlcv, map_add, linearCombination_single, one_smul, lc_lc, e6, add_comm]
    have hWbb : wb b = 1 := by
      rw [hwb, Finsupp.add_apply, hlcv, hab]; simp
    have hwbmem : ∀ x, wb x ≠ 0 → x = b ∨ x ∈ fresh := by
      intro x hx
      by_cases hxb : x = b
      · exact Or.inl hxb
      · rw [hwb, Finsupp.add_apply, Finsupp.single_eq_of_ne hxb, add_zero, hlcv] at hx
        exact Or.inr (hsupp x hx)
    -- rows of the reduced column are in other dimensions
    have hrow : ∀ x, BHCol.vec K r' x ≠ 0 → x ∉ cells := by
      intro x hx hxc
      rw [← hRb] at hx
      obtain ⟨c, h1, h2⟩ := lc_support hx
      have hcc : c ∈ cells := by
        rcases hwbmem c h1 with rfl | h
        · exact hbc
        · exact hfc c h
      exact h2 (hrows c hcc x hxc)
    -- new pivots are not old pivots
    have hnew : ∀ p, IsPivot f (BHCol.vec K r') p → ∀ j ∈ fresh, ¬ IsPivot f (Rv j) p := by
      intro p hp j hj hpj
      obtain ⟨k, hk⟩ := LawfulCoeff.val_surj (CF := CF) _ hpj.1
      have := (hinv.low p j k).2 ⟨hj, hpj, hk.symm⟩
      rw [e3 p hp] at this; cases this
    have main : ∀ (s' : CrmState CF T) (low' : T → Option (T × CF)),
        s'.rc b = some (.reduced lv) →
        (∀ c, c ≠ b → ¬ IsPivot f (BHCol.vec K r') c → s'.rc c = s.rc c) →
        (∀ c, (s'.rc c).isSome ↔ (s.rc c).isSome ∨ c = b ∨ IsPivot f (BHCol.vec K r') c) →
        (∀ r c, (r, c) ∈ s'.diagram.pairings ↔ (r, c) ∈ s.diagram.pairings ∨ (c = b ∧ IsPivot f (BHCol.vec K r') r)) →
        (∀ x, x ∈ s'.diagram.essential ↔ x ∈ s.diagram.essential ∨ (x = b ∧ BHCol.vec K r' = 0)) →
        (∀ r j jc, low' r = some (j, jc) ↔ low r = some (j, jc) ∨ (j = b ∧ IsPivot f (BHCol.vec K r') r ∧ BHCol.vec K r' r = LawfulCoeff.val jc)) →
        PassInv K f M cells s0 (fresh ++ [b]) (pre ++ [b]) s' low' := by
      intro s' low' k1 k2' k3 k4 k5 k6
      have k2 : ∀ c ∈ cells, c ≠ b → s'.rc c = s.rc c := fun c hc hcb => k2' c hcb fun hp => hrow c hp.1 hc
      have hWp : ∀ c ∈ fresh, wred K s'.rc c = W c := by
        intro c hc
        rw [hW]
        unfold wred
        rw [k2 c (hfc c hc) (fun h => hbf (h ▸ hc))]
      have hWb : wred K s'.rc b = wb := by unfold wred; rw [k1]
      have hmem : ∀ c, c ∈ fresh ++ [b] ↔ c ∈ fresh ∨ c = b := by intro c; simp
      have hpiv : ∀ j r, (j ∈ fresh ++ [b] ∧ IsPivot f (linearCombination K M (wred K s'.rc j)) r) ↔
          ((j ∈ fresh ∧ IsPivot f (Rv j) r) ∨ (j = b ∧ IsPivot f (BHCol.vec K r') r)) := by
        intro j r
        rw [hmem]
        by_cases hj : j = b
        · subst hj; rw [hWb, hRb]; simp [hbf]
        · simp only [hj, or_false, false_and]
          constructor
          · rintro ⟨h1, h2⟩; rw [hWp j h1] at h2; exact ⟨h1, h2⟩
          · rintro ⟨h1, h2⟩; rw [hWp j h1]; exact ⟨h1, h2⟩
      refine ⟨?_, ?_, ?_, ?_, ?_, ?_, ?_, ?_⟩
      · intro c hc
        rcases (hmem c).1 hc with hc | rfl
        · obtain ⟨l, h1, h2⟩ := hinv.red c hc
          exact ⟨l, by rw [k2 c (hfc c hc) (fun h => hbf (h ▸ hc))]; exact h1, h2⟩
        · refine ⟨lv, k1, fun t ht => hfc _ (hsupp _ ?_)⟩
          rw [← hlcv]; exact hsp'.mem_ne ht
      · refine hinv.dec.snoc hbf hWp ?_ ?_ ?_
        · rw [hWb, hWbb]; exact one_ne_zero
        · intro x hx
          rw [hWb] at hx
          exact hwbmem x hx
        · intro c hc r hl hl'
          rw [hWb, hRb] at hl'
          exact hnew r hl' c hc hl
      · intro c hc
        rw [k3, hinv.keys c hc, List.mem_append, List.mem_singleton]
        constructor
        · rintro ((h | h) | h | h)
          · exact Or.inl h
          · exact Or.inr (Or.inl h)
          · exact Or.inr (Or.inr h)
          · exact absurd hc (hrow c h.1)
        · rintro (h | h | h)
          · exact Or.inl (Or.inl h)
          · exact Or.inl (Or.inr h)
          · exact Or.inr (Or.inl h)
      · intro r j jc
        rw [k6, hinv.low]
        by_cases hj : j = b
        · subst hj; rw [hWb, hRb]; simp [hbf]
        · rw [hmem]
          simp only [hj, or_false, false_and]
          constructor
          · rintro ⟨h1, h2⟩; rw [hWp j h1]; exact ⟨h1, h2⟩
          · rintro ⟨h1, h2⟩; rw [hWp j h1] at h2; exact ⟨h1, h2⟩
      · intro r c
        rw [k4, hinv.pairs, hpiv, or_assoc]
      · intro x
        rw [k5, hinv.ess, hmem, or_assoc]
        refine or_congr_right ?_
        by_cases hx : x = b
        · subst hx; rw [hWb, hRb]; simp [hbf]
        · simp only [hx, or_false, false_and]
          constructor
          · rintro ⟨h1, h2⟩; rw [hWp x h1]; exact ⟨h1, h2⟩
          · rintro ⟨h1, h2⟩; rw [hWp x h1] at h2; exact ⟨h1, h2⟩
      · intro c
        rw [k3, hinv.cells, k5]
        have hpz : ∀ p, IsPivot f (BHCol.vec K r') p → BHCol.vec K r' ≠ 0 := by
          intro p hp h; rw [h] at hp; exact hp.1 rfl
        constructor
        · rintro ((h | ⟨⟨p, q⟩, hp, h⟩) | rfl | h)
          · exact Or.inl (Or.inl h)
          · exact Or.inr ⟨(p, q), (k4 p q).2 (Or.inl hp), h⟩
          · by_cases hz : BHCol.vec K r' = 0
            · exact Or.inl (Or.inr ⟨rfl, hz⟩)
            · obtain ⟨p, hp⟩ := exists_lead (rowKey f) hz
              exact Or.inr ⟨(p, c), (k4 p c).2 (Or.inr ⟨rfl, hp⟩), Or.inr rfl⟩
          · exact Or.inr ⟨(c, b), (k4 c b).2 (Or.inr ⟨rfl, h⟩), Or.inl rfl⟩
        · rintro ((h | h) | ⟨⟨p, q⟩, hp, h⟩)
          · exact Or.inl (Or.inl h)
          · exact Or.inr (Or.inl h.1)
          · rcases (k4 p q).1 hp with hp | ⟨hq, hp⟩
            · exact Or.inl (Or.inr ⟨(p, q), hp, h⟩)
            · rcases h with h | h
              · refine Or.inr (Or.inr ?_); rw [← h]; exact hp
              · refine Or.inr (Or.inl ?_); rw [← h]; exact hq
      · intro c hc hn
        rw [hmem, not_or] at hc
        have hcp : ¬ IsPivot f (BHCol.vec K r') c := fun h => hn b ((hmem b).2 (Or.inr rfl)) (by rw [hWb, hRb]; exact h)
        rw [k2' c hc.2 hcp]
        refine hinv.keep c hc.1 fun j hj hp => hn j ((hmem j).2 (Or.inl hj)) ?_
        rw [hWp j hj]; exact hp
    simp only [hbuild, Option.bind_some, hred]
    rcases peek_after_clone (K := K) e4 e4' with ⟨q1, q2⟩ | ⟨e, q1, q2, q3⟩
    · simp only [clrSave, q1, hvs1, Option.map_some]
      refine ⟨_, rfl, ?_⟩
      have hnp : ∀ p, ¬ IsPivot f (BHCol.vec K r') p := by intro p; rw [q2]; intro h; exact h.1 rfl
      apply main
      · simp only [mapInsert, if_true]; rfl
      · intro c hc _; simp only [mapInsert, if_neg hc]
      · intro c
        by_cases hc : c = b
        · subst hc; simp [mapInsert]
        · simp [mapInsert, hc, hnp]
      · intro r c; simp [hnp]
      · intro x; simp [q2, or_comm]
      · intro r j jc; simp [hnp]
    · simp only [clrSave, q1, hvs1, Option.map_some]
      refine ⟨_, rfl, ?_⟩
      have hpu : ∀ p, IsPivot f (BHCol.vec K r') p ↔ p = e.row :=
        fun p => ⟨fun h => IsLead.unique (rowKey_injective f) h q2, fun h => h ▸ q2⟩
      have hec : e.row ∉ cells := hrow e.row q2.1
      apply main
      · simp only [mapInsert, if_true]; rfl
      · intro c hc hcp
        have : c ≠ e.row := fun h => hcp ((hpu c).2 h)
        simp only [mapInsert, if_neg hc, if_neg this]
      · intro c
        rw [hpu]
        by_cases hc : c = b
        · subst hc; simp [mapInsert]
        · by_cases hce : c = e.row
          · have hcb : e.row ≠ b := fun h => hc (hce.trans h)
            simp [mapInsert, hce, hcb]
          · simp [mapInsert, hc, hce]
      · intro r c
        simp only [Finset.mem_insert, Prod.mk.injEq, hpu]
        constructor
        · rintro (⟨rfl, rfl⟩ | h)
          · exact Or.inr ⟨rfl, rfl⟩
          · exact Or.inl h
        · rintro (h | ⟨rfl, rfl⟩)
          · exact Or.inr h
          · exact Or.inl ⟨rfl, rfl⟩
      · intro x
        simp only
        constructor
        · exact Or.inl
        · rintro (h | ⟨_, h⟩)
          · exact h
          · exact absurd (by rw [h]; rfl) q2.1
      · intro r j jc
        simp only [mapInsert, hpu]
        split
        · rename_i hr
          subst hr
          rw [e3 e.row q2]
          simp only [Option.some.injEq, Prod.mk.injEq, reduceCtorEq, false_or, true_and]
          constructor
          · rintro ⟨rfl, rfl⟩; exact ⟨rfl, q3⟩
          · rintro ⟨rfl, h⟩
            exact ⟨rfl, LawfulCoeff.val_inj (K := K) _ _ (q3.symm.trans h)⟩
        · rename_i hr
          simp [hr]

/-- The cells without a stored column. -/
def freshCells (s0 : CrmState CF T) (l : List T) : List T := l.filter fun c => !(s0.rc c).isSome

theorem passLoop_spec {cells : List T} (hnd : cells.Nodup) (hg : ∀ c ∈ cells, ReadsCol K D f M c) (hrows : ∀ c ∈ cells, ∀ r ∈ cells, M c r = 0)
    {s0 : CrmState CF T} {Bd : Basis T} (hBd : Bd.elems = some cells) {fuel : Nat}
    (hfuel : cells.length < fuel) (pre rest : List T) (hpr : pre ++ rest = cells) (s : CrmState CF T)
    (low : T → Option (T × CF)) (hinv : PassInv K f M cells s0 (freshCells s0 pre) pre s low) :
    ∃ p', clrLoop D Bd fuel (List.range' pre.length rest.length) (s, low) = some p' ∧
      PassInv K f M cells s0 (freshCells s0 cells) cells p'.1 p'.2 := by
  induction rest generalizing pre s low with
  | nil =>
    refine ⟨(s, low), by simp [clrLoop], ?_⟩
    have : pre = cells := by rw [← hpr]; simp
    rw [this] at hinv; exact hinv
  | cons b rest ih =>
    obtain ⟨hlen, hel⟩ := elems_spec hBd
    have hlt : pre.length < Bd.size := by rw [← hlen, ← hpr]; simp
    have hbe : Bd.element pre.length = some b := by
      rw [hel _ hlt, ← hpr]; simp
    obtain ⟨⟨s1, low1⟩, h1, h2⟩ := passColumn_spec hnd hg hrows hpr.symm (fun c hc => List.mem_of_mem_filter hc) (List.length_filter_le _ _) hinv (fuel := fuel)
      (by rw [← hpr] at hfuel; simp at hfuel; omega)
    have hfr : (if (s0.rc b).isSome then freshCells s0 pre else freshCells s0 pre ++ [b]) = freshCells s0 (pre ++ [b]) := by
      unfold freshCells
      rw [List.filter_append]
      cases hb : s0.rc b <;> simp [hb]
    replace h2 : PassInv K f M cells s0 (if (s0.rc b).isSome then freshCells s0 pre else freshCells s0 pre ++ [b]) (pre ++ [b]) s1 low1 := h2
    rw [hfr] at h2
    obtain ⟨p', h3, h4⟩ := ih (pre ++ [b]) (by rw [← hpr]; simp) s1 low1 h2
    refine ⟨p', ?_, h4⟩
    rw [List.length_cons, List.range'_succ, clrLoop, hbe, Option.bind_some, h1, Option.bind_some]
    rw [List.length_append, List.length_singleton] at h3
    exact h3

/-- The diagram as sets. -/
def dgmSets (d : Diagram T) : Set (T × T) × Set T := ({p | p ∈ d.pairings}, {c | c ∈ d.essential})

/-- The cells with a stored column are the cells of the diagram. -/
def KeysInv (s : CrmState CF T) : Prop := ∀ c, (s.rc c).isSome ↔ c ∈ diagramCells (dgmSets s.diagram).1 (dgmSets s.diagram).2

/-- The stored columns of the cells that are not births. -/
def StoredInv (K : Type) [Field K] [LawfulCoeff CF K] (f : T → F) (M : T → (T →₀ K)) (s : CrmState CF T) : Prop :=
  ∀ c, (s.rc c).isSome → (∀ c', (c, c') ∉ s.diagram.pairings) → (∃ l, s.rc c = some (.reduced l)) ∧ wred K s.rc c c ≠ 0 ∧
    (∀ r, (r, c) ∈ s.diagram.pairings ↔ IsPivot f (linearCombination K M (wred K s.rc c)) r) ∧
    (c ∈ s.diagram.essential ↔ linearCombination K M (wred K s.rc c) = 0)

theorem passDimension_spec {B : SplitBasis T} {Bd : Basis T} {dim : ℕ} (hB : B.inDim dim = some Bd) {cells : List T} (hBd : Bd.elems = some cells)
    (hnd : cells.Nodup) (hg : ∀ c ∈ cells, ReadsCol K D f M c) (hrows : ∀ c ∈ cells, ∀ r ∈ cells, M c r = 0) {fuel : Nat}
    (hfuel : cells.length < fuel) {s : CrmState CF T} (hk : KeysInv s) (hst : StoredInv K f M s) :
    ∃ s', clrDimension D B fuel s dim = some s' ∧ KeysInv s' ∧ dgmSets s'.diagram = clearingStep f M (dgmSets s.diagram) cells ∧
      StoredInv K f M s' ∧ (∀ c, (s.rc c).isSome → (s'.rc c).isSome) ∧ ∀ c ∈ cells, (s'.rc c).isSome := by
  classical
  obtain ⟨⟨s1, low1⟩, h1, h2⟩ := passLoop_spec hnd hg hrows (s0 := s) hBd hfuel [] cells rfl s (fun _ => none) (by
    refine ⟨by simp [freshCells], ⟨by simp [freshCells], by simp [freshCells], by simp [freshCells], by simp [freshCells]⟩, by simp, by simp [freshCells], by simp [freshCells],
      by simp [freshCells], hk, by simp⟩)
  refine ⟨s1, ?_, h2.cells, ?_, ?_, ?_, fun c hc => (h2.keys c hc).2 (Or.inr hc)⟩
  · simp only [List.length_nil] at h1
    rw [(elems_spec hBd).1, ← List.range_eq_range'] at h1
    simp only [clrDimension, hB, Option.bind_some, h1, Option.map_some]
  · have hcols : (cells.filter fun c => decide (c ∉ diagramCells (dgmSets s.diagram).1 (dgmSets s.diagram).2)) = freshCells s cells := by
      unfold freshCells
      apply List.filter_congr
      intro c _
      have := hk c
      by_cases hc : c ∈ diagramCells (dgmSets s.diagram).1 (dgmSets s.diagram).2
      · simp [hc, this.2 hc]
      · have : ¬ (s.rc c).isSome := fun h => hc (this.1 h)
        simp [hc, this]
    unfold clearingStep
    simp only
    rw [hcols]
    refine Prod.ext ?_ ?_
    · ext ⟨r, c⟩
      simp only [dgmSets, Set.mem_setOf_eq, Set.mem_union]
      rw [h2.pairs, h2.dec.pair_iff (rowKey_injective f)]
      rfl
    · ext c
      simp only [dgmSets, Set.mem_setOf_eq, Set.mem_union]
      rw [h2.ess, h2.dec.zero_iff (rowKey_injective f)]
  · intro c hc hnb
    have hfk : ∀ x, x ∈ freshCells s cells → ¬ (s.rc x).isSome := by
      intro x hx
      have := (List.mem_filter.1 hx).2
      simpa using this
    by_cases hcf : c ∈ freshCells s cells
    · obtain ⟨l, hl, _⟩ := h2.red c hcf
      have hnk := hfk c hcf
      rw [hk c] at hnk
      have hnp : ∀ r, (r, c) ∉ s.diagram.pairings := fun r hr => hnk (Or.inr ⟨(r, c), hr, Or.inr rfl⟩)
      have hne : c ∉ s.diagram.essential := fun h => hnk (Or.inl h)
      refine ⟨⟨l, hl⟩, h2.dec.diag c hcf, fun r => ?_, ?_⟩
      · rw [h2.pairs]; simp [hnp, hcf]
      · rw [h2.ess]; simp [hne, hcf]
    · have hpn : ∀ j ∈ freshCells s cells, ¬ IsPivot f (linearCombination K M (wred K s1.rc j)) c :=
        fun j hj hp => hnb j ((h2.pairs c j).2 (Or.inr ⟨hj, hp⟩))
      have hrc := h2.keep c hcf hpn
      rw [hrc] at hc
      obtain ⟨g1, g2, g3, g4⟩ := hst c hc fun c' h => hnb c' ((h2.pairs c c').2 (Or.inl h))
      have hw : wred K s1.rc c = wred K s.rc c := by unfold wred; rw [hrc]
      rw [hrc, hw]
      refine ⟨g1, g2, fun r => ?_, ?_⟩
      · rw [h2.pairs, ← g3]; simp [hcf]
      · rw [h2.ess, ← g4]; simp [hcf]
  · intro c hc
    rw [h2.cells c]
    rw [hk c] at hc
    rcases hc with hc | ⟨⟨p, q⟩, hp, hc⟩
    · exact Or.inl ((h2.ess c).2 (Or.inl hc))
    · exact Or.inr ⟨(p, q), (h2.pairs p q).2 (Or.inl hp), hc⟩

theorem passAll_spec (hC : DimensionedMatrix K D B f M dims els) {fuel : Nat} (hfuel : ∀ d ∈ dims, (els d).length < fuel) {s : CrmState CF T} (hk : KeysInv s) (hst : StoredInv K f M s)
    (q : List ℕ) (hq : ∀ d ∈ q, d ∈ dims) :
    ∃ s', clrAll D B fuel q s = some s' ∧ KeysInv s' ∧ StoredInv K f M s' ∧ dgmSets s'.diagram = q.foldl (fun g d => clearingStep f M g (els d)) (dgmSets s.diagram) ∧
      (∀ c, (s.rc c).isSome → (s'.rc c).isSome) ∧ ∀ d ∈ q, ∀ c ∈ els d, (s'.rc c).isSome := by
  induction q generalizing s with
  | nil => exact ⟨s, rfl, hk, hst, rfl, fun _ h => h, by simp⟩
  | cons d q ih =>
    have hd := hq d (by simp)
    obtain ⟨Bd, hB1, hB2⟩ := hC.basis d hd
    obtain ⟨s1, h1, h2, h3, h3', k1, k2⟩ := passDimension_spec hB1 hB2 (hC.nodup d hd) (hC.good d hd) (hC.rows d hd) (hfuel d hd) hk hst
    obtain ⟨s', h4, h5, h5', h6, k3, k4⟩ := ih h2 h3' fun d' h => hq d' (by simp [h])
    refine ⟨s', by simp only [clrAll, h1, Option.bind_some, h4], h5, h5', by rw [h6, h3]; rfl, fun c hc => k3 c (k1 c hc), ?_⟩
    intro d' hd' c hc
    rcases List.mem_cons.1 hd' with rfl | hd'
    · exact k3 c (k2 c hc)
    · exact k4 d' hd' c hc

end
end Phlite
