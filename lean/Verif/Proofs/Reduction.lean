/-
The reduction loop shared by the standard and the clearing algorithm.
-/
import Verif.Model.Reduction
import Verif.Spec.Reduction
import Verif.Proofs.Columns
import Verif.Proofs.Matrices
import Verif.Theory.Rank

set_option linter.unusedSectionVars false
set_option linter.unusedSimpArgs false

namespace Phlite
open Finsupp (single linearCombination linearCombination_single)

section
variable {CF T F K : Type} [NonZeroCoeff CF] [Field K] [LawfulCoeff CF K]

theorem ReadsCol.ref {D : FOracle CF T T F} {f : T → F} {M : T → (T →₀ K)} {c : T} (h : ReadsCol K D f M c) :
    ReadsCol K D.ref f M c := by
  obtain ⟨l, h1, h2, h3, h4⟩ := h
  refine ⟨l, h1, ?_, h3, h4⟩
  simp only [FOracle.ref, Oracle.withFilt, defaultColF, h1, Option.bind_some]
  apply mapOpt_of_forall
  intro t ht
  rw [h3 t ht]; rfl

/-- The vector of a list of entries. -/
noncomputable def entLc (K : Type) [Field K] [LawfulCoeff CF K] (es : List (Entry F T CF)) : T →₀ K :=
  lcOf K (es.map fun e => (e.coeff, e.row))

theorem entLc_eq (es : List (Entry F T CF)) : entLc K es = (es.map (Entry.vec K)).sum := by
  unfold entLc lcOf Entry.vec; rw [List.map_map]; rfl

theorem entLc_scale (es : List (Entry F T CF)) (m : CF) :
    entLc K (es.map fun x => x.scale m) = (LawfulCoeff.val m : K) • entLc K es := by
  unfold entLc
  rw [← lcOf_scale, List.map_map, List.map_map]; rfl

/-- Reading a column of `D * V`. -/
theorem prod_colF {D : FOracle CF T T F} {f : T → F} {M : T → (T →₀ K)} {V : Oracle CF T T} {j : T} {l : List (CF × T)}
    (hv : V.column j = some l) (hg : ∀ t ∈ l, ReadsCol K D f M t.2) :
    ∃ es, (productF D V).colF j = some es ∧ (∀ e ∈ es, e.filt = f e.row) ∧
      entLc K es = linearCombination K M (lcOf K l) := by
  simp only [productF, hv, Option.bind_some]
  clear hv
  induction l with
  | nil => exact ⟨[], rfl, by simp, by simp [entLc]⟩
  | cons x l ih =>
    obtain ⟨es, h1, h2, h3⟩ := ih fun t ht => hg t (List.mem_cons_of_mem _ ht)
    obtain ⟨lx, g1, g2, g3, g4⟩ := hg x List.mem_cons_self
    refine ⟨(lx.map fun t => (⟨f t.2, t.2, NonZeroCoeff.mul t.1 x.1⟩ : Entry F T CF)) ++ es, ?_, ?_, ?_⟩
    · simp only [flatMapOpt, g2, h1, Option.map_some, Option.bind_some, List.map_map]; rfl
    · intro e he
      rcases List.mem_append.1 he with he | he
      · obtain ⟨t, _, rfl⟩ := List.mem_map.1 he; rfl
      · exact h2 e he
    · have : entLc K ((lx.map fun t => (⟨f t.2, t.2, NonZeroCoeff.mul t.1 x.1⟩ : Entry F T CF)) ++ es)
          = (LawfulCoeff.val x.1 : K) • lcOf K lx + entLc K es := by
        rw [← lcOf_scale]
        unfold entLc
        rw [List.map_append, lcOf_append, List.map_map]; rfl
      rw [this, h3, g4, lcOf_cons, map_add, linearCombination_single]

/-- Reading a column of `D * V` without filtration. -/
theorem prod_col {D : FOracle CF T T F} {f : T → F} {M : T → (T →₀ K)} {V : Oracle CF T T} {j : T} {l : List (CF × T)}
    (hv : V.column j = some l) (hg : ∀ t ∈ l, ReadsCol K D f M t.2) :
    ∃ l', prodColumn D.toOracle V j = some l' ∧ lcOf K l' = linearCombination K M (lcOf K l) ∧
      (∀ t ∈ l', ∃ u ∈ l, ∃ lu, D.column u.2 = some lu ∧ ∃ w ∈ lu, w.2 = t.2) := by
  simp only [prodColumn, hv, Option.bind_some]
  clear hv
  induction l with
  | nil => exact ⟨[], rfl, by simp, by simp⟩
  | cons x l ih =>
    obtain ⟨es, h1, h3, h5⟩ := ih fun t ht => hg t (List.mem_cons_of_mem _ ht)
    obtain ⟨lx, g1, g2, g3, g4⟩ := hg x List.mem_cons_self
    refine ⟨(lx.map fun t => (NonZeroCoeff.mul t.1 x.1, t.2)) ++ es, ?_, ?_, ?_⟩
    · simp only [flatMapOpt, g1, h1, Option.map_some, Option.bind_some]
    · rw [lcOf_append, lcOf_scale, h3, g4, lcOf_cons, map_add, linearCombination_single]
    · intro t ht
      rcases List.mem_append.1 ht with ht | ht
      · obtain ⟨w, hw, rfl⟩ := List.mem_map.1 ht
        exact ⟨x, by simp, lx, g1, w, hw, rfl⟩
      · obtain ⟨u, hu, r⟩ := h5 t ht
        exact ⟨u, by simp [hu], r⟩

end

section
variable [StdHeap] {CF T F K : Type} [NonZeroCoeff CF] [Field K] [LawfulCoeff CF K] [LinearOrder F] [LinearOrder T]

theorem isPivot_iff_isLead (f : T → F) (v : T →₀ K) (r : T) : IsPivot f v r ↔ IsLead (rowKey f) v r := Iff.rfl


theorem vec_add (h : BHCol F T CF) (es : List (Entry F T CF)) :
    BHCol.vec K (h.addEntries es) = BHCol.vec K h + entLc K es := by
  rw [BHCol.vec_addEntries, entLc_eq, add_comm]

theorem coherent_add {f : T → F} {h : BHCol F T CF} {es : List (Entry F T CF)} (hc : Coherent f (StdHeap.bag h))
    (he : ∀ e ∈ es, e.filt = f e.row) : Coherent f (StdHeap.bag (h.addEntries es)) := by
  intro e hm
  rw [BHCol.bag_addEntries] at hm
  rcases Multiset.mem_add.1 hm with hm | hm
  · exact he e (by simpa using hm)
  · exact hc e hm

/-- The reduction loop with the way of looking at the pivot (`get`) and the columns of R and V abstracted. -/
def genReduce (get : BHCol F T CF → Option (Entry F T CF) × BHCol F T CF) (rcol : T → Option (List (Entry F T CF)))
    (vcol : T → Option (List (Entry Unit T CF))) (low : T → Option (T × CF)) :
    Nat → BHCol F T CF → BHCol Unit T CF → Option (BHCol F T CF × BHCol Unit T CF)
  | 0, _, _ => none
  | fuel + 1, r, vi =>
    match get r with
    | (none, r1) => some (r1, vi)
    | (some e, r1) =>
      match low e.row with
      | none => some (r1, vi)
      | some (j, jc) =>
        (rcol j).bind fun re => (vcol j).bind fun ve =>
          genReduce get rcol vcol low fuel
            (r1.addEntries (re.map fun x => x.scale (NonZeroCoeff.mul (NonZeroCoeff.neg e.coeff) (NonZeroCoeff.inv jc))))
            (vi.addEntries (ve.map fun x => x.scale (NonZeroCoeff.mul (NonZeroCoeff.neg e.coeff) (NonZeroCoeff.inv jc))))

/-- Pop the pivot and push it back. -/
def popPush (r : BHCol F T CF) : Option (Entry F T CF) × BHCol F T CF :=
  match BHCol.popPivot r with
  | (none, r1) => (none, r1)
  | (some e, r1) => (some e, r1.addEntry e)

theorem stdReduce_eq (D : FOracle CF T T F) (v : T → Option (List (CF × T))) (low : T → Option (T × CF)) (fuel : Nat)
    (r : BHCol F T CF) (vi : BHCol Unit T CF) :
    stdReduce D v low fuel r vi = genReduce popPush (productF D.ref (mapVecMatrix v).withTrivial.toOracle).colF
      (mapVecMatrix v).withTrivial.colF low fuel r vi := by
  induction fuel generalizing r vi with
  | zero => rfl
  | succ n ih =>
    unfold stdReduce genReduce popPush
    rcases BHCol.popPivot r with ⟨o, r1⟩
    cases o with
    | none => rfl
    | some e =>
      simp only
      cases low e.row with
      | none => rfl
      | some p => simp only [ih]; rfl

theorem clrReduce_eq (D : FOracle CF T T F) (rc : T → Option (RedCol CF T)) (depth : Nat) (low : T → Option (T × CF)) (fuel : Nat)
    (r : BHCol F T CF) (vi : BHCol Unit T CF) :
    clrReduce D rc depth low fuel r vi = genReduce BHCol.clonePivot
      (productF D.ref (crmMatrix D.toOracle rc depth).withTrivial.toOracle).colF
      (crmMatrix D.toOracle rc depth).withTrivial.colF low fuel r vi := by
  induction fuel generalizing r vi with
  | zero => rfl
  | succ n ih =>
    unfold clrReduce genReduce
    rcases BHCol.clonePivot r with ⟨o, r1⟩
    cases o with
    | none => rfl
    | some e =>
      simp only
      cases low e.row with
      | none => rfl
      | some p => simp only [ih]

/-- What looking at the pivot guarantees. -/
def GetSpec (K : Type) [Field K] [LawfulCoeff CF K] (f : T → F)
    (get : BHCol F T CF → Option (Entry F T CF) × BHCol F T CF) : Prop :=
  ∀ r, Coherent f (StdHeap.bag r) →
    (∀ r1, get r = (none, r1) → BHCol.vec K r = 0 ∧ StdHeap.bag r1 = 0) ∧
    (∀ e r1, get r = (some e, r1) → Coherent f (StdHeap.bag r1) ∧ BHCol.vec K r1 = BHCol.vec K r ∧
      IsPivot f (BHCol.vec K r) e.row ∧ BHCol.vec K r e.row = LawfulCoeff.val e.coeff)

theorem getSpec_clone (f : T → F) : GetSpec (CF := CF) K f BHCol.clonePivot := by
  intro r hc
  refine ⟨fun r1 h => BHCol.clonePivot_none hc h, fun e r1 h => ?_⟩
  obtain ⟨h1, h2, h3, h4, h5, _⟩ := BHCol.clonePivot_some (K := K) hc h
  exact ⟨h1, h5, h4, h3⟩

theorem getSpec_popPush (f : T → F) : GetSpec (CF := CF) K f popPush := by
  intro r hc
  unfold popPush
  constructor
  · intro r1 h
    split at h
    · rename_i hp; cases h; exact BHCol.popPivot_none hc hp
    · simp at h
  · intro e r1 h
    split at h
    · simp at h
    · rename_i hp
      cases h
      obtain ⟨h1, h2, h3, h4, h5, h6, h7⟩ := BHCol.popPivot_some (K := K) hc hp
      refine ⟨?_, ?_, h5, h4⟩
      · intro x hx
        rw [BHCol.bag_addEntry, Multiset.mem_cons] at hx
        rcases hx with rfl | hx
        · exact h3
        · exact h1 x hx
      · rw [BHCol.vec_addEntry, h6, Entry.vec, ← h4, Finsupp.single_add_erase]

/-- What the reduction loop needs to know about the columns it may add. -/
def LowSpec (K : Type) [Field K] [LawfulCoeff CF K] (f : T → F) (rcol : T → Option (List (Entry F T CF)))
    (vcol : T → Option (List (Entry Unit T CF))) (low : T → Option (T × CF)) (Rv Wv : T → (T →₀ K)) : Prop :=
  ∀ r j jc, low r = some (j, jc) → (∃ re, rcol j = some re ∧ (∀ e ∈ re, e.filt = f e.row) ∧ entLc K re = Rv j) ∧
    (∃ ve, vcol j = some ve ∧ entLc K ve = Wv j) ∧ IsPivot f (Rv j) r ∧ Rv j r = LawfulCoeff.val jc

open Classical in
/-- The reduction loop terminates within one iteration more than there are known pivots and leaves a column whose pivot is not a
known pivot. -/
theorem genReduce_spec {f : T → F} {get : BHCol F T CF → Option (Entry F T CF) × BHCol F T CF}
    {rcol : T → Option (List (Entry F T CF))} {vcol : T → Option (List (Entry Unit T CF))} {low : T → Option (T × CF)}
    {Rv Wv : T → (T →₀ K)} (hget : GetSpec K f get) (hlow : LowSpec K f rcol vcol low Rv Wv) (S : Finset T)
    (hS : ∀ r, low r ≠ none → r ∈ S) (fuel : Nat) (r : BHCol F T CF) (vi : BHCol Unit T CF)
    (hc : Coherent f (StdHeap.bag r))
    (hfuel : (S.filter fun x => ∃ p, IsPivot f (BHCol.vec K r) p ∧ rowKey f x ≤ rowKey f p).card < fuel) :
    ∃ r' vi', genReduce get rcol vcol low fuel r vi = some (r', vi') ∧ Coherent f (StdHeap.bag r') ∧
      (∀ p, IsPivot f (BHCol.vec K r') p → low p = none) ∧
      (∃ rr o, Coherent f (StdHeap.bag rr) ∧ get rr = (o, r')) ∧
      ∃ a : T →₀ K, (∀ j, a j ≠ 0 → ∃ p jc, low p = some (j, jc) ∧
          ∀ Q : T → Prop, (∀ x, BHCol.vec K r x ≠ 0 → Q x) →
            (∀ p j jc, low p = some (j, jc) → Q p → ∀ x, Rv j x ≠ 0 → Q x) → Q p) ∧
        BHCol.vec K r' = BHCol.vec K r + linearCombination K Rv a ∧
        BHCol.vec K vi' = BHCol.vec K vi + linearCombination K Wv a := by
  induction fuel generalizing r vi with
  | zero => omega
  | succ n ih =>
    obtain ⟨hnone, hsome⟩ := hget r hc
    unfold genReduce
    rcases hgr : get r with ⟨o, r1⟩
    cases o with
    | none =>
      obtain ⟨h1, h2⟩ := hnone r1 hgr
      have hv1 : BHCol.vec K r1 = 0 := by simp [BHCol.vec, h2]
      refine ⟨r1, vi, rfl, ?_, ?_, ⟨r, none, hc, hgr⟩, 0, by simp, by simp [h1, hv1], by simp⟩
      · intro e he; rw [h2] at he; simp at he
      · intro p hp; rw [hv1] at hp; exact absurd rfl hp.1
    | some e =>
      obtain ⟨g1, g2, g3, g4⟩ := hsome e r1 hgr
      simp only
      cases hl : low e.row with
      | none =>
        refine ⟨r1, vi, rfl, g1, ?_, ⟨r, some e, hc, hgr⟩, 0, by simp, by simp [g2], by simp⟩
        intro p hp
        rw [g2] at hp
        have : p = e.row := IsLead.unique (rowKey_injective f) hp g3
        rw [this, hl]
      | some q =>
        obtain ⟨j, jc⟩ := q
        obtain ⟨⟨re, hre, hrf, hrl⟩, ⟨ve, hve, hvl⟩, hpiv, hval⟩ := hlow e.row j jc hl
        simp only [hre, hve, Option.bind_some]
        set m : CF := NonZeroCoeff.mul (NonZeroCoeff.neg e.coeff) (NonZeroCoeff.inv jc) with hm
        have hmval : (LawfulCoeff.val m : K) = -(LawfulCoeff.val e.coeff) * (LawfulCoeff.val jc)⁻¹ := by
          rw [hm, LawfulCoeff.val_mul, LawfulCoeff.val_neg, LawfulCoeff.val_inv]
        have hvec : BHCol.vec K (r1.addEntries (re.map fun x => x.scale m)) =
            BHCol.vec K r + (LawfulCoeff.val m : K) • Rv j := by
          rw [vec_add, entLc_scale, g2, hrl]
        have hvv : BHCol.vec K (vi.addEntries (ve.map fun x => x.scale m)) =
            BHCol.vec K vi + (LawfulCoeff.val m : K) • Wv j := by
          rw [vec_add, entLc_scale, hvl]
        have hcoh : Coherent f (StdHeap.bag (r1.addEntries (re.map fun x => x.scale m))) := by
          apply coherent_add g1
          intro x hx
          obtain ⟨y, hy, rfl⟩ := List.mem_map.1 hx
          exact hrf y hy
        have hdec : ∀ p, IsPivot f (BHCol.vec K r + (LawfulCoeff.val m : K) • Rv j) p → rowKey f p < rowKey f e.row := by
          intro p hp
          have hz : (BHCol.vec K r + (LawfulCoeff.val m : K) • Rv j) e.row = 0 := by
            rw [Finsupp.add_apply, Finsupp.smul_apply, g4, hval, hmval, smul_eq_mul, mul_assoc,
              inv_mul_cancel₀ (LawfulCoeff.val_ne_zero jc)]
            ring
          rcases lt_trichotomy (rowKey f p) (rowKey f e.row) with h | h | h
          · exact h
          · rw [rowKey_inj f h] at hp; exact absurd hz hp.1
          · exfalso
            apply hp.1
            rw [Finsupp.add_apply, Finsupp.smul_apply]
            have h1 : BHCol.vec K r p = 0 := by by_contra hne; exact absurd (g3.2 p hne) (not_le.2 h)
            have h2 : Rv j p = 0 := by by_contra hne; exact absurd (hpiv.2 p hne) (not_le.2 h)
            simp [h1, h2]
        have hcard : (S.filter fun x => ∃ p, IsPivot f (BHCol.vec K (r1.addEntries (re.map fun x => x.scale m))) p ∧
            rowKey f x ≤ rowKey f p).card < n := by
          have hss : (S.filter fun x => ∃ p, IsPivot f (BHCol.vec K (r1.addEntries (re.map fun x => x.scale m))) p ∧
              rowKey f x ≤ rowKey f p) ⊂ (S.filter fun x => ∃ p, IsPivot f (BHCol.vec K r) p ∧ rowKey f x ≤ rowKey f p) := by
            rw [Finset.ssubset_iff_of_subset]
            · refine ⟨e.row, ?_, ?_⟩
              · rw [Finset.mem_filter]
                exact ⟨hS _ (by rw [hl]; simp), e.row, g3, le_refl _⟩
              · rw [Finset.mem_filter]
                rintro ⟨_, p, hp, hle⟩
                rw [hvec] at hp
                exact absurd (hdec p hp) (not_lt.2 hle)
            · intro x hx
              rw [Finset.mem_filter] at hx ⊢
              obtain ⟨hxS, p, hp, hle⟩ := hx
              rw [hvec] at hp
              exact ⟨hxS, e.row, g3, le_trans hle (hdec p hp).le⟩
          have := Finset.card_lt_card hss
          omega
        obtain ⟨r', vi', e1, e2, e3, e4, a, e5, e6, e7⟩ := ih _ (vi.addEntries (ve.map fun x => x.scale m)) hcoh hcard
        refine ⟨r', vi', e1, e2, e3, e4, a + single j (LawfulCoeff.val m), ?_, ?_, ?_⟩
        · intro x hx
          by_cases hax : a x = 0
          · rw [Finsupp.add_apply, hax, zero_add, Finsupp.single_apply] at hx
            split at hx
            · rename_i hjx; subst hjx; exact ⟨_, _, hl, fun Q hQ _ => hQ _ g3.1⟩
            · exact absurd rfl hx
          · obtain ⟨p, jc', hp, hQp⟩ := e5 x hax
            refine ⟨p, jc', hp, fun Q hQ hcl => hQp Q ?_ hcl⟩
            intro y hy
            rw [hvec, Finsupp.add_apply] at hy
            by_cases hry : BHCol.vec K r y = 0
            · rw [hry, zero_add, Finsupp.smul_apply] at hy
              exact hcl _ _ _ hl (hQ _ g3.1) y (fun h => hy (by rw [h, smul_zero]))
            · exact hQ y hry
        · rw [e6, hvec, map_add, linearCombination_single]; abel
        · rw [e7, hvv, map_add, linearCombination_single]; abel

end
end Phlite
