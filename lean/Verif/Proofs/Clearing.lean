/-
Correctness of the clearing algorithm (model: Verif/Model/Reduction.lean).
-/
import Verif.Proofs.Standard

set_option linter.unusedSectionVars false
set_option linter.unusedSimpArgs false

namespace Phlite
open Finsupp (single linearCombination linearCombination_single)

section
variable [StdHeap] {CF T F K : Type} [NonZeroCoeff CF] [Field K] [LawfulCoeff CF K] [LinearOrder F] [LinearOrder T]

namespace GradedComplex
variable {D : FOracle CF T T F} {B : SplitBasis T} {f : T → F} {M : T → (T →₀ K)} {deg : T → ℤ} {ε : ℤ} {dims : List ℕ}
  {els : ℕ → List T}

theorem row_of_ne (h : GradedComplex K D B f M deg ε dims els) {d : ℕ} (hd : d ∈ dims) {c : T} (hc : c ∈ els d) {r : T}
    (hr : M c r ≠ 0) : deg r = d + ε ∧ ∀ d' ∈ dims, (d' : ℤ) = d + ε → r ∈ els d' := by
  obtain ⟨l, h1, _, _, h4⟩ := h.good d hd c hc
  rw [← h4] at hr
  obtain ⟨t, ht, rfl⟩ := lcOf_support hr
  exact h.rows d hd c hc l h1 t ht

end GradedComplex

theorem SplitComplex.graded {D : FOracle CF T T F} {B : SplitBasis T} {f : T → F} {M : T → (T →₀ K)} {deg : T → ℤ} {ε : ℤ} {dims : List ℕ}
    {els : ℕ → List T} (h : SplitComplex K D B f M deg ε dims els) : GradedComplex K D B f M deg ε dims els where
  basis := h.basis
  deg_els := h.deg_els
  sorted := h.sorted
  good := h.good
  rows := h.rows
  shift := h.shift
  sq := h.sq

theorem SplitComplex.row_of_ne {D : FOracle CF T T F} {B : SplitBasis T} {f : T → F} {M : T → (T →₀ K)} {deg : T → ℤ} {ε : ℤ} {dims : List ℕ}
    {els : ℕ → List T} (h : SplitComplex K D B f M deg ε dims els) {d : ℕ} (hd : d ∈ dims) {c : T} (hc : c ∈ els d) {r : T}
    (hr : M c r ≠ 0) : deg r = d + ε ∧ ∀ d' ∈ dims, (d' : ℤ) = d + ε → r ∈ els d' := h.graded.row_of_ne hd hc hr

/-- The non-diagonal-completed column of a conventionally reduced column. -/
noncomputable def wred (K : Type) [Field K] [LawfulCoeff CF K] (rc : T → Option (RedCol CF T)) (j : T) : T →₀ K :=
  match rc j with
  | some (.reduced l) => lcOf K l + single j 1
  | _ => 0

/-- The columns of V described by the stored reduction columns. -/
noncomputable def Wc (K : Type) [Field K] [LawfulCoeff CF K] (M : T → (T →₀ K)) (rc : T → Option (RedCol CF T)) (c : T) : T →₀ K :=
  match rc c with
  | some (.reduced l) => lcOf K l + single c 1
  | some (.cleared j) => linearCombination K M (wred K rc j)
  | none => 0

/-- Loop invariant of the clearing algorithm: `proc` are the basis elements processed so far, `pre` those of the current dimension. A
cell is reported as essential if its column of `R` vanishes and it is not the birth of a pair found `early` enough, a relation between
the degrees of the death and of the birth. -/
structure ClrInv (K : Type) [Field K] [LawfulCoeff CF K] (f : T → F) (M : T → (T →₀ K)) (deg : T → ℤ) (early : ℤ → ℤ → Prop) (proc pre : List T)
    (s : CrmState CF T) (low : T → Option (T × CF)) : Prop where
  dec : Decomp (rowKey f) proc M (Wc K M s.rc)
  degW : ∀ c ∈ proc, ∀ x, Wc K M s.rc c x ≠ 0 → deg x = deg c
  cleared : ∀ c j, s.rc c = some (.cleared j) ↔ j ∈ proc ∧ IsPivot f (linearCombination K M (Wc K M s.rc j)) c
  reduced : ∀ c, (∃ l, s.rc c = some (.reduced l)) ↔ c ∈ proc ∧ ∀ j ∈ proc, ¬ IsPivot f (linearCombination K M (Wc K M s.rc j)) c
  sparse : ∀ c l, s.rc c = some (.reduced l) → IsSparseList (lcOf K l) l ∧ lcOf K l c = 0
  clearedZero : ∀ c ∈ proc, ∀ j, s.rc c = some (.cleared j) → linearCombination K M (Wc K M s.rc c) = 0
  low : ∀ r j jc, low r = some (j, jc) ↔
    j ∈ pre ∧ IsPivot f (linearCombination K M (Wc K M s.rc j)) r ∧
      linearCombination K M (Wc K M s.rc j) r = LawfulCoeff.val jc
  pairs : ∀ r c, (r, c) ∈ s.diagram.pairings ↔ c ∈ proc ∧ IsPivot f (linearCombination K M (Wc K M s.rc c)) r
  ess : ∀ x, x ∈ s.diagram.essential ↔ x ∈ proc ∧ linearCombination K M (Wc K M s.rc x) = 0 ∧
    ∀ j ∈ proc, IsPivot f (linearCombination K M (Wc K M s.rc j)) x → ¬ early (deg j) (deg x)

namespace ClrInv
variable {f : T → F} {M : T → (T →₀ K)} {deg : T → ℤ} {early : ℤ → ℤ → Prop} {proc pre : List T} {s : CrmState CF T} {low : T → Option (T × CF)}

/-- A processed column with a pivot was conventionally reduced. -/
theorem red_of_pivot (h : ClrInv K f M deg early proc pre s low) {j r : T} (hj : j ∈ proc)
    (hp : IsPivot f (linearCombination K M (Wc K M s.rc j)) r) :
    ∃ l, s.rc j = some (.reduced l) ∧ Wc K M s.rc j = lcOf K l + single j 1 ∧ wred K s.rc j = Wc K M s.rc j := by
  have : ∃ l, s.rc j = some (.reduced l) := by
    cases hrc : s.rc j with
    | none =>
      have hne : ∀ i ∈ proc, ¬ IsPivot f (linearCombination K M (Wc K M s.rc i)) j := by
        intro i hi hpi
        have := (h.cleared j i).2 ⟨hi, hpi⟩
        rw [hrc] at this; cases this
      obtain ⟨l, hl⟩ := (h.reduced j).2 ⟨hj, hne⟩
      rw [hrc] at hl; cases hl
    | some c =>
      cases c with
      | reduced l => exact ⟨l, rfl⟩
      | cleared i =>
        have := h.clearedZero j hj i hrc
        rw [this] at hp; exact absurd rfl hp.1
  obtain ⟨l, hl⟩ := this
  refine ⟨l, hl, by simp only [Wc, hl], by simp only [Wc, wred, hl]⟩

theorem cleared_W (h : ClrInv K f M deg early proc pre s low) {c j : T} (hc : s.rc c = some (.cleared j)) :
    Wc K M s.rc c = linearCombination K M (Wc K M s.rc j) := by
  obtain ⟨hj, hp⟩ := (h.cleared c j).1 hc
  obtain ⟨l, _, _, h3⟩ := h.red_of_pivot hj hp
  rw [← h3]
  simp only [Wc, hc]

/-- The entries of a reduced column are processed elements. -/
theorem red_entries (h : ClrInv K f M deg early proc pre s low) {j : T} {l : List (CF × T)} (hl : s.rc j = some (.reduced l)) :
    ∀ t ∈ l, t.2 ∈ proc := by
  intro t ht
  have hj := ((h.reduced j).1 ⟨l, hl⟩).1
  obtain ⟨h1, h2⟩ := h.sparse j l hl
  have hne := h1.mem_ne ht
  have : Wc K M s.rc j t.2 ≠ 0 := by
    simp only [Wc, hl, Finsupp.add_apply]
    by_cases hjt : t.2 = j
    · rw [hjt, h2] at hne; exact absurd rfl hne
    · rw [Finsupp.single_eq_of_ne hjt, add_zero]; exact hne
  exact h.dec.mem_of_ne hj this

end ClrInv

theorem clr_lowSpec {D : FOracle CF T T F} {f : T → F} {M : T → (T →₀ K)} {deg : T → ℤ} {early : ℤ → ℤ → Prop} {proc pre : List T} {s : CrmState CF T}
    {low : T → Option (T × CF)} (hinv : ClrInv K f M deg early proc pre s low) (hsub : ∀ c ∈ pre, c ∈ proc)
    (hg : ∀ c ∈ proc, ReadsCol K D f M c) (depth : Nat) :
    LowSpec K f (productF D.ref (crmMatrix D.toOracle s.rc (depth + 1)).withTrivial.toOracle).colF
      (crmMatrix D.toOracle s.rc (depth + 1)).withTrivial.colF low
      (fun j => linearCombination K M (Wc K M s.rc j)) (Wc K M s.rc) := by
  intro r j jc hlj
  obtain ⟨hj, hp, hval⟩ := (hinv.low r j jc).1 hlj
  obtain ⟨l, hl, hW, _⟩ := hinv.red_of_pivot (hsub j hj) hp
  have hcol : (crmMatrix D.toOracle s.rc (depth + 1)).column j = some (l ++ [(NonZeroCoeff.one, j)]) := by
    simp only [crmMatrix, crmColumn, hl, Option.bind_some]
  have hlc : lcOf K (l ++ [((NonZeroCoeff.one : CF), j)]) = Wc K M s.rc j := by
    rw [hW, lcOf_append]; simp [LawfulCoeff.val_one]
  have hent : ∀ t ∈ l ++ [((NonZeroCoeff.one : CF), j)], t.2 ∈ proc := by
    intro t ht
    rcases List.mem_append.1 ht with ht | ht
    · exact hinv.red_entries hl t ht
    · rw [List.mem_singleton.1 ht]; exact hsub j hj
  refine ⟨?_, ?_, hp, hval⟩
  · obtain ⟨es, e1, e2, e3⟩ := prod_colF (K := K) (D := D.ref) (f := f) (M := M)
      (V := (crmMatrix D.toOracle s.rc (depth + 1)).withTrivial.toOracle) (j := j) hcol
      (fun t ht => (hg t.2 (hent t ht)).ref)
    exact ⟨es, e1, e2, by rw [e3, hlc]⟩
  · rw [withTrivial_colF, hcol]
    refine ⟨_, rfl, ?_⟩
    rw [entLc, List.map_map, ← hlc]
    congr 1
    conv_rhs => rw [← List.map_id (l ++ [((NonZeroCoeff.one : CF), j)])]
    rfl

/-- What `peek_pivot` shows after `clone_pivot`. -/
theorem peek_after_clone {f : T → F} {rr r' : BHCol F T CF} {o : Option (Entry F T CF)} (hc : Coherent f (StdHeap.bag rr))
    (h : BHCol.clonePivot rr = (o, r')) :
    (BHCol.peekPivot r' = none ∧ BHCol.vec K r' = 0) ∨
    ∃ e, BHCol.peekPivot r' = some e ∧ IsPivot f (BHCol.vec K r') e.row ∧ BHCol.vec K r' e.row = LawfulCoeff.val e.coeff := by
  cases o with
  | none =>
    left
    have hb := (BHCol.clonePivot_none (K := K) hc h).2
    refine ⟨?_, by simp [BHCol.vec, hb]⟩
    unfold BHCol.peekPivot
    rw [StdHeap.peek_pop]
    cases hp : StdHeap.pop r' with
    | none => rfl
    | some p =>
      obtain ⟨e, h'⟩ := p
      have := StdHeap.pop_bag r' h' e hp
      rw [hb] at this
      exact absurd this.symm (Multiset.cons_ne_zero)
  | some e =>
    right
    obtain ⟨_, _, h3, h4, h5, h6, _⟩ := BHCol.clonePivot_some (K := K) hc h
    exact ⟨e, h6, by rw [h5]; exact h4, by rw [h5]; exact h3⟩

theorem clrColumn_spec {D : FOracle CF T T F} {B : SplitBasis T} {f : T → F} {M : T → (T →₀ K)} {deg : T → ℤ} {ε : ℤ}
    {dims : List ℕ} {els : ℕ → List T} (hC : GradedComplex K D B f M deg ε dims els) {dn : List ℕ} {d : ℕ}
    (hdnd : ∀ d' ∈ dn, d' ∈ dims) (hdd : d ∈ dims) (hdnn : dn.Nodup) (hdn : d ∉ dn) {early : ℤ → ℤ → Prop}
    (hE1 : ∀ d' ∈ dn, early (d' : ℤ) d) (hE2 : ∀ d' ∈ dn, (d' : ℤ) = d + ε → ¬ early d d')
    {pre post : List T} {b : T} (hels : els d = pre ++ b :: post) {s : CrmState CF T}
    {low : T → Option (T × CF)} (hinv : ClrInv K f M deg early (dn.flatMap els ++ pre) pre s low) {fuel : Nat}
    (hfuel : pre.length < fuel) :
    ∃ p', clrColumn D fuel (s, low) b = some p' ∧
      ClrInv K f M deg early (dn.flatMap els ++ (pre ++ [b])) (pre ++ [b]) p'.1 p'.2 := by
  classical
  set proc := dn.flatMap els ++ pre with hproc
  set W := Wc K M s.rc with hW
  set Rv : T → (T →₀ K) := fun j => linearCombination K M (W j) with hRv
  have hbd : b ∈ els d := by rw [hels]; simp
  have hnode : (els d).Nodup := (hC.sorted d hdd).imp fun h e => by subst e; exact lt_irrefl _ h
  have hprocd : ∀ c ∈ proc, ∃ d' ∈ dims, c ∈ els d' ∧ (d' ∈ dn ∨ (d' = d ∧ c ∈ pre)) := by
    intro c hc
    rcases List.mem_append.1 hc with hc | hc
    · obtain ⟨d', h1, h2⟩ := List.mem_flatMap.1 hc
      exact ⟨d', hdnd d' h1, h2, Or.inl h1⟩
    · exact ⟨d, hdd, by rw [hels]; simp [hc], Or.inr ⟨rfl, hc⟩⟩
  have hdegb : deg b = d := hC.deg_els d hdd b hbd
  have hsub : ∀ c ∈ pre, c ∈ proc := fun c hc => by rw [hproc]; simp [hc]
  have hbproc : b ∉ proc := by
    intro hb
    obtain ⟨d', h1, h2, h3⟩ := hprocd b hb
    have := hC.deg_els d' h1 b h2
    rw [hdegb] at this
    have hdd' : d' = d := by exact_mod_cast this.symm
    rcases h3 with h3 | ⟨_, h3⟩
    · rw [hdd'] at h3; exact hdn h3
    · rw [hels, List.nodup_append] at hnode
      exact hnode.2.2 b h3 b (by simp) rfl
  -- rows of degree d + ε are not in the current dimension
  have hfresh : ∀ x, deg x = d + ε → x ∉ pre ∧ x ≠ b := by
    intro x hx
    refine ⟨?_, ?_⟩
    · intro hxp
      have h4 := hC.deg_els d hdd x (by rw [hels]; simp [hxp])
      apply hC.shift; omega
    · intro h
      rw [h, hdegb] at hx
      apply hC.shift; omega
  -- cells of the same degree occur in the order of the filtration
  have hord : proc.Pairwise fun a c => deg a = deg c → rowKey f a < rowKey f c := by
    rw [hproc, List.pairwise_append]
    refine ⟨?_, ?_, ?_⟩
    · rw [List.pairwise_flatMap]
      refine ⟨fun d' hd' => by refine List.Pairwise.imp ?_ (hC.sorted d' (hdnd d' hd')); intro a c h _; exact h, ?_⟩
      refine List.Pairwise.imp_of_mem ?_ hdnn
      intro a a' ha ha' hne x hx y hy hxy
      rw [hC.deg_els a (hdnd a ha) x hx, hC.deg_els a' (hdnd a' ha') y hy] at hxy
      exact absurd (by exact_mod_cast hxy) hne
    · have := hC.sorted d hdd
      rw [hels, List.pairwise_append] at this
      refine List.Pairwise.imp ?_ this.1
      intro a c h _; exact h
    · intro x hx y hy hxy
      obtain ⟨d', h1, h2⟩ := List.mem_flatMap.1 hx
      rw [hC.deg_els d' (hdnd d' h1) x h2, hC.deg_els d hdd y (by rw [hels]; simp [hy])] at hxy
      have : d' = d := by exact_mod_cast hxy
      exact absurd (this ▸ h1) hdn
  have hgood : ∀ c ∈ proc, ReadsCol K D f M c := by
    intro c hc
    obtain ⟨d', h1, h2, _⟩ := hprocd c hc
    exact hC.good d' h1 c h2
  -- degrees of the rows of R
  have hRdeg : ∀ j ∈ proc, ∀ x, Rv j x ≠ 0 → deg x = deg j + ε := by
    intro j hj x hx
    obtain ⟨c, h1, h2⟩ := lc_support hx
    have hcp := hinv.dec.mem_of_ne hj h1
    obtain ⟨d', g1, g2, _⟩ := hprocd c hcp
    rw [← hinv.degW j hj c h1, hC.deg_els d' g1 c g2]
    exact (hC.row_of_ne g1 g2 h2).1
  have hassoc : dn.flatMap els ++ (pre ++ [b]) = proc ++ [b] := by rw [hproc]; simp
  rw [hassoc]
  clear_value proc
  unfold clrColumn
  cases hrcb : s.rc b with
  | some col =>
    -- already cleared
    have hcol : ∃ j, col = .cleared j := by
      cases col with
      | cleared j => exact ⟨j, rfl⟩
      | reduced l => exact absurd ((hinv.reduced b).1 ⟨l, hrcb⟩).1 hbproc
    obtain ⟨j, rfl⟩ := hcol
    obtain ⟨hj, hpj⟩ := (hinv.cleared b j).1 hrcb
    have hWb : W b = Rv j := hinv.cleared_W hrcb
    obtain ⟨dj, hdj1, hdj2, hdj3⟩ := hprocd j hj
    have hdegj := hC.deg_els dj hdj1 j hdj2
    have hdjd : (d : ℤ) = dj + ε := by rw [← hdegb, ← hdegj]; exact hRdeg j hj b hpj.1
    have hWelt : ∀ c, W j c ≠ 0 → c ∈ els dj := by
      intro c hc
      have hcp := hinv.dec.mem_of_ne hj hc
      obtain ⟨d', g1, g2, _⟩ := hprocd c hcp
      have h1 := hinv.degW j hj c hc
      rw [hC.deg_els d' g1 c g2, hdegj] at h1
      have : d' = dj := by exact_mod_cast h1
      rw [← this]; exact g2
    have hRz : linearCombination K M (W b) = 0 := by
      rw [hWb, hRv]
      simp only
      rw [lc_lc]
      rw [Finsupp.linearCombination_apply, Finsupp.sum]
      apply Finset.sum_eq_zero
      intro c hc
      rw [hC.sq dj hdj1 d hdd hdjd c (hWelt c (by simpa using hc)), smul_zero]
    refine ⟨(s, low), by simp [hrcb], ?_⟩
    have hnl : ∀ r, ¬ IsPivot f (linearCombination K M (W b)) r := by intro r; rw [hRz]; intro h; exact h.1 rfl
    show ClrInv K f M deg early (proc ++ [b]) (pre ++ [b]) s low
    refine ⟨?_, ?_, ?_, ?_, hinv.sparse, ?_, ?_, ?_, ?_⟩
    · refine hinv.dec.snoc hbproc (fun _ _ => rfl) ?_ ?_ ?_
      · show W b b ≠ 0
        rw [hWb]; exact hpj.1
      · intro x hx
        have hx : Rv j x ≠ 0 := by rw [← hWb]; exact hx
        obtain ⟨c, h1, h2⟩ := lc_support hx
        have hxd : x ∈ els d := (hC.row_of_ne hdj1 (hWelt c h1) h2).2 d hdd hdjd
        rw [hels, List.mem_append, List.mem_cons] at hxd
        rcases hxd with hxd | hxd | hxd
        · exact Or.inr (hsub x hxd)
        · exact Or.inl hxd
        · exfalso
          have hs := hC.sorted d hdd
          rw [hels, List.pairwise_append] at hs
          have := (List.pairwise_cons.1 hs.2.1).1 x hxd
          exact absurd (hpj.2 x hx) (not_le.2 this)
      · intro c _ r _ h; exact hnl r h
    · intro c hc x hx
      rcases List.mem_append.1 hc with hc | hc
      · exact hinv.degW c hc x hx
      · rw [List.mem_singleton] at hc; subst hc
        have hx' : Rv j x ≠ 0 := by rw [← hWb]; exact hx
        rw [hRdeg j hj x hx', hRdeg j hj c hpj.1]
    · intro c i
      rw [hinv.cleared c i, List.mem_append, List.mem_singleton]
      constructor
      · rintro ⟨h1, h2⟩; exact ⟨Or.inl h1, h2⟩
      · rintro ⟨h1 | rfl, h2⟩
        · exact ⟨h1, h2⟩
        · exact absurd h2 (hnl c)
    · intro c
      rw [hinv.reduced c]
      simp only [List.mem_append, List.mem_singleton]
      constructor
      · rintro ⟨h1, h2⟩
        refine ⟨Or.inl h1, ?_⟩
        rintro i (hi | rfl)
        · exact h2 i hi
        · exact hnl c
      · rintro ⟨h1 | rfl, h2⟩
        · exact ⟨h1, fun i hi => h2 i (Or.inl hi)⟩
        · exact absurd hpj (h2 j (Or.inl hj))
    · intro c hc i hi
      rcases List.mem_append.1 hc with hc | hc
      · exact hinv.clearedZero c hc i hi
      · rw [List.mem_singleton.1 hc]; exact hRz
    · intro r i ic
      rw [hinv.low r i ic, List.mem_append, List.mem_singleton]
      constructor
      · rintro ⟨h1, h2⟩; exact ⟨Or.inl h1, h2⟩
      · rintro ⟨h1 | rfl, h2⟩
        · exact ⟨h1, h2⟩
        · exact absurd h2.1 (hnl r)
    · intro r c
      rw [hinv.pairs r c, List.mem_append, List.mem_singleton]
      constructor
      · rintro ⟨h1, h2⟩; exact ⟨Or.inl h1, h2⟩
      · rintro ⟨h1 | rfl, h2⟩
        · exact ⟨h1, h2⟩
        · exact absurd h2 (hnl r)
    · intro x
      rw [hinv.ess x]
      simp only [List.mem_append, List.mem_singleton]
      constructor
      · rintro ⟨h1, h2, h3⟩
        refine ⟨Or.inl h1, h2, ?_⟩
        rintro i (hi | rfl)
        · exact h3 i hi
        · exact fun hp => absurd hp (hnl x)
      · rintro ⟨h1 | rfl, h2, h3⟩
        · exact ⟨h1, h2, fun i hi => h3 i (Or.inl hi)⟩
        · refine absurd ?_ (h3 j (Or.inl hj) hpj)
          rw [hdegj, hdegb]
          refine hE1 dj ?_
          rcases hdj3 with h | ⟨h, _⟩
          · exact h
          · rw [h] at hdjd; exact absurd (by omega) hC.shift
  | none =>
    have hbnp : ∀ j ∈ proc, ¬ IsPivot f (Rv j) b := by
      intro j hj hp
      have := (hinv.cleared b j).2 ⟨hj, hp⟩
      rw [hrcb] at this; cases this
    obtain ⟨lb, g1, g2, g3, g4⟩ := hC.good d hdd b hbd
    have hbuild : D.buildBhcol b = some (BHCol.empty.addEntries (lb.map fun t => (⟨f t.2, t.2, t.1⟩ : Entry F T CF))) := by
      simp [FOracle.buildBhcol, g2]
    set r0 : BHCol F T CF := BHCol.empty.addEntries (lb.map fun t => (⟨f t.2, t.2, t.1⟩ : Entry F T CF)) with hr0
    obtain ⟨hc0, hv0⟩ := build_spec (K := K) f (lb.map fun t => (⟨f t.2, t.2, t.1⟩ : Entry F T CF)) (by
      intro e he; obtain ⟨t, _, rfl⟩ := List.mem_map.1 he; rfl)
    rw [← hr0] at hc0 hv0
    have hv0' : BHCol.vec K r0 = M b := by
      rw [hv0, ← g4, List.map_map]
      congr 1
      conv_rhs => rw [← List.map_id lb]
      rfl
    obtain ⟨n, rfl⟩ : ∃ n, fuel = n + 1 := ⟨fuel - 1, by omega⟩
    have hlow := clr_lowSpec (D := D) hinv hsub hgood n
    obtain ⟨S, hS1, hS2⟩ := pivots_card f pre Rv
    have hS : ∀ r, low r ≠ none → r ∈ S := by
      intro r hr
      obtain ⟨⟨j, jc⟩, hq⟩ := Option.ne_none_iff_exists'.1 hr
      obtain ⟨hj, hp, _⟩ := (hinv.low r j jc).1 hq
      exact hS2 j hj r hp
    obtain ⟨r', vi', e1, e2, e3, ⟨rr, o, e4, e4'⟩, a, e5, e6, e7⟩ := genReduce_spec (K := K) (getSpec_clone f) hlow S hS (n + 1)
      r0 BHCol.empty hc0
      (lt_of_le_of_lt ((Finset.card_le_card (Finset.filter_subset _ _)).trans hS1) hfuel)
    rw [hv0'] at e6
    rw [BHCol.vec_empty, zero_add] at e7
    have hred : clrReduce D s.rc (n + 1) low (n + 1) r0 BHCol.empty = some (r', vi') := by rw [clrReduce_eq]; exact e1
    have hcv : Coherent (fun _ => ()) (StdHeap.bag vi') := fun _ _ => rfl
    obtain ⟨vs, hvs1, hvs2⟩ := BHCol.toSortedVec_spec (K := K) (fun _ => ()) vi' hcv
    have hsp := hvs2.sparse
    have ha : ∀ j, a j ≠ 0 → j ∈ pre := by
      intro j hj
      obtain ⟨p, jc, hq, _⟩ := e5 j hj
      exact ((hinv.low p j jc).1 hq).1
    have hab : linearCombination K W a b = 0 := by
      by_contra hne
      obtain ⟨j, h1, h2⟩ := lc_support hne
      exact hbproc (hinv.dec.mem_of_ne (hsub j (ha j h1)) h2)
    set lv : List (CF × T) := vs.map fun e => (e.coeff, e.row) with hlv
    have hlcv : lcOf K lv = linearCombination K W a := by rw [hsp.lcOf_eq, e7]
    have hsp' : IsSparseList (lcOf K lv) lv := by rw [hlcv]; rw [e7] at hsp; exact hsp
    set wb : T →₀ K := lcOf K lv + single b 1 with hwb
    have hRb : linearCombination K M wb = BHCol.vec K r' := by
      rw [hwb, hlcv, map_add, linearCombination_single, one_smul, lc_lc, e6, add_comm]
    have hWbb : wb b = 1 := by
      rw [hwb, Finsupp.add_apply, hlcv, hab]; simp
    have hwbmem : ∀ x, wb x ≠ 0 → x = b ∨ x ∈ pre ∨ (x ∈ proc ∧ deg x = d) := by
      intro x hx
      by_cases hxb : x = b
      · exact Or.inl hxb
      · rw [hwb, Finsupp.add_apply, Finsupp.single_eq_of_ne hxb, add_zero, hlcv] at hx
        obtain ⟨j, h1, h2⟩ := lc_support hx
        have hjp := ha j h1
        refine Or.inr (Or.inr ⟨hinv.dec.mem_of_ne (hsub j hjp) h2, ?_⟩)
        rw [hinv.degW j (hsub j hjp) x h2]
        exact hC.deg_els d hdd j (by rw [hels]; simp [hjp])
    have hwbdeg : ∀ x, wb x ≠ 0 → deg x = d := by
      intro x hx
      rcases hwbmem x hx with rfl | h | h
      · exact hdegb
      · exact hC.deg_els d hdd x (by rw [hels]; simp [h])
      · exact h.2
    -- rows of the reduced column
    have hrdeg : ∀ x, BHCol.vec K r' x ≠ 0 → deg x = d + ε := by
      intro x hx
      rw [← hRb] at hx
      obtain ⟨c, h1, h2⟩ := lc_support hx
      rcases hwbmem c h1 with rfl | h | h
      · exact (hC.row_of_ne hdd hbd h2).1
      · exact (hC.row_of_ne hdd (by rw [hels]; simp [h]) h2).1
      · obtain ⟨d', k1, k2, _⟩ := hprocd c h.1
        have := hC.deg_els d' k1 c k2
        rw [h.2] at this
        have hd' : d' = d := by exact_mod_cast this.symm
        rw [hd'] at k2
        exact (hC.row_of_ne hdd k2 h2).1
    -- new pivots are not old pivots
    have hnew : ∀ p, IsPivot f (BHCol.vec K r') p → ∀ j ∈ proc, ¬ IsPivot f (Rv j) p := by
      intro p hp j hj hpj
      have h1 := hrdeg p hp.1
      have h2 := hRdeg j hj p hpj.1
      obtain ⟨d', k1, k2, k3⟩ := hprocd j hj
      have h3 := hC.deg_els d' k1 j k2
      have hd' : d' = d := by
        have : (d' : ℤ) = d := by omega
        exact_mod_cast this
      rcases k3 with k3 | ⟨_, k3⟩
      · rw [hd'] at k3; exact hdn k3
      · obtain ⟨k, hk⟩ := LawfulCoeff.val_surj (CF := CF) _ hpj.1
        have := (hinv.low p j k).2 ⟨k3, hpj, hk.symm⟩
        rw [e3 p hp] at this; cases this
    -- rows of the reduced column that are already processed
    have hrowsb : ∀ d' ∈ dn, (d' : ℤ) = d + ε → ∀ x, BHCol.vec K r' x ≠ 0 → x ∈ proc := by
      intro d' hd' he x hx
      rw [← hRb] at hx
      obtain ⟨c, h1, h2⟩ := lc_support hx
      have hcd : c ∈ els d := by
        rcases hwbmem c h1 with rfl | h | h
        · exact hbd
        · rw [hels]; simp [h]
        · obtain ⟨d'', k1, k2, _⟩ := hprocd c h.1
          have := hC.deg_els d'' k1 c k2
          rw [h.2] at this
          have hd'' : d'' = d := by exact_mod_cast this.symm
          rw [hd''] at k2; exact k2
      rw [hproc]
      exact List.mem_append_left _ (List.mem_flatMap.2 ⟨d', hd', (hC.row_of_ne hdd hcd h2).2 d' (hdnd d' hd') he⟩)
    have hpdn : ∀ p, IsPivot f (BHCol.vec K r') p → p ∈ proc → ∃ d' ∈ dn, (d' : ℤ) = d + ε ∧ deg p = d' := by
      intro p hp hpp
      obtain ⟨d', k1, k2, k3⟩ := hprocd p hpp
      have h1 := hrdeg p hp.1
      have h2 := hC.deg_els d' k1 p k2
      rcases k3 with k3 | ⟨_, k3⟩
      · exact ⟨d', k3, by omega, h2⟩
      · exact absurd k3 (hfresh p h1).1
    have hptri : ∀ p, IsPivot f (BHCol.vec K r') p → ∀ p1 p2, proc = p1 ++ p :: p2 → ∀ x, BHCol.vec K r' x ≠ 0 → x = p ∨ x ∈ p1 := by
      intro p hp p1 p2 hsplit x hx
      obtain ⟨d', k1, k2, _⟩ := hpdn p hp (by rw [hsplit]; simp)
      have hxp := hrowsb d' k1 k2 x hx
      rw [hsplit, List.mem_append, List.mem_cons] at hxp
      rcases hxp with h | h | h
      · exact Or.inr h
      · exact Or.inl h
      · exfalso
        rw [hsplit, List.pairwise_append] at hord
        have h1 := (List.pairwise_cons.1 hord.2.1).1 x h (by rw [hrdeg p hp.1, hrdeg x hx])
        exact absurd (hp.2 x hx) (not_le.2 h1)
    -- `D² = 0`: the reduced column is a cycle if its dimension is listed
    have hcyc : ∀ d' ∈ dn, (d' : ℤ) = d + ε → linearCombination K M (BHCol.vec K r') = 0 := by
      intro d' hd' he
      rw [← hRb, lc_lc, Finsupp.linearCombination_apply, Finsupp.sum]
      apply Finset.sum_eq_zero
      intro c hc
      have hcd : c ∈ els d := by
        rcases hwbmem c (by simpa using hc) with rfl | h | h
        · exact hbd
        · rw [hels]; simp [h]
        · obtain ⟨d'', k1, k2, _⟩ := hprocd c h.1
          have := hC.deg_els d'' k1 c k2
          rw [h.2] at this
          have hd'' : d'' = d := by exact_mod_cast this.symm
          rw [hd''] at k2; exact k2
      rw [hC.sq d hdd d' (hdnd d' hd') he c hcd, smul_zero]
    -- so its pivot was reduced to zero before, if it was processed before
    have hpz : ∀ p, IsPivot f (BHCol.vec K r') p → p ∈ proc → Rv p = 0 := by
      intro p hp hpp
      obtain ⟨d', k1, k2, _⟩ := hpdn p hp hpp
      obtain ⟨p1, p2, hsplit⟩ := List.append_of_mem hpp
      refine ((hinv.dec.zero_iff (rowKey_injective f) p).1 ⟨p1, p2, hsplit, ?_⟩).2
      set z := BHCol.vec K r' with hz
      have h0 := hcyc d' k1 k2
      have hsum : z p • M p + linearCombination K M (z.erase p) = 0 := by
        rw [← h0]
        conv_rhs => rw [← Finsupp.single_add_erase p z]
        rw [map_add, linearCombination_single]
      have hmem : linearCombination K M (z.erase p) ∈ Submodule.span K (M '' {x | x ∈ p1}) := by
        rw [Finsupp.linearCombination_apply, Finsupp.sum]
        refine Submodule.sum_mem _ fun x hx => Submodule.smul_mem _ _ (Submodule.subset_span ⟨x, ?_, rfl⟩)
        rw [Finsupp.support_erase, Finset.mem_erase] at hx
        exact (hptri p hp p1 p2 hsplit x (by simpa using hx.2)).resolve_left hx.1
      have : M p = -((z p)⁻¹ • linearCombination K M (z.erase p)) := by
        have h2 : z p • M p = -linearCombination K M (z.erase p) := by rw [eq_neg_iff_add_eq_zero]; exact hsum
        rw [← smul_neg, ← h2, smul_smul, inv_mul_cancel₀ hp.1, one_smul]
      rw [this]
      exact Submodule.neg_mem _ (Submodule.smul_mem _ _ hmem)
    -- the general form of the new state
    have main : ∀ (s' : CrmState CF T) (low' : T → Option (T × CF)) ,
        s'.rc b = some (.reduced lv) →
        (∀ c, c ≠ b → (∀ p, IsPivot f (BHCol.vec K r') p → c ≠ p) → s'.rc c = s.rc c) →
        (∀ p, IsPivot f (BHCol.vec K r') p → s'.rc p = some (.cleared b)) →
        (∀ r c, (r, c) ∈ s'.diagram.pairings ↔ (r, c) ∈ s.diagram.pairings ∨ (c = b ∧ IsPivot f (BHCol.vec K r') r)) →
        (∀ x, x ∈ s'.diagram.essential ↔ x ∈ s.diagram.essential ∨ (x = b ∧ BHCol.vec K r' = 0)) →
        (∀ r j jc, low' r = some (j, jc) ↔ low r = some (j, jc) ∨
          (j = b ∧ IsPivot f (BHCol.vec K r') r ∧ BHCol.vec K r' r = LawfulCoeff.val jc)) →
        ClrInv K f M deg early (proc ++ [b]) (pre ++ [b]) s' low' := by
      intro s' low' k1 k2 k3 k4 k5 k6
      have hpivne : ∀ p, IsPivot f (BHCol.vec K r') p → p ≠ b := fun p hp => (hfresh p (hrdeg p hp.1)).2
      have hrcp : ∀ c ∈ proc, ¬ IsPivot f (BHCol.vec K r') c → s'.rc c = s.rc c := by
        intro c hc hn
        apply k2 c (fun h => hbproc (h ▸ hc))
        intro p hp h
        exact hn (h ▸ hp)
      have hWp : ∀ c ∈ proc, ¬ IsPivot f (BHCol.vec K r') c → Wc K M s'.rc c = W c := by
        intro c hc hn
        rw [hW]
        unfold Wc
        rw [hrcp c hc hn]
        cases hrc : s.rc c with
        | none => rfl
        | some col =>
          cases col with
          | reduced l => rfl
          | cleared j =>
            simp only
            obtain ⟨hj, hpj⟩ := (hinv.cleared c j).1 hrc
            unfold wred
            rw [hrcp j hj fun hp => hpj.1 (by
              have := hpz j hp hj
              rw [hRv] at this
              exact DFunLike.congr_fun this c)]
      have hWb : Wc K M s'.rc b = wb := by unfold Wc; rw [k1]
      have hWpiv : ∀ p, IsPivot f (BHCol.vec K r') p → Wc K M s'.rc p = BHCol.vec K r' := by
        intro p hp
        unfold Wc
        rw [k3 p hp]
        simp only [wred, k1]
        exact hRb
      have hRp : ∀ c ∈ proc, linearCombination K M (Wc K M s'.rc c) = Rv c := by
        intro c hc
        by_cases hp : IsPivot f (BHCol.vec K r') c
        · obtain ⟨d', q1, q2, _⟩ := hpdn c hp hc
          rw [hWpiv c hp, hpz c hp hc, hcyc d' q1 q2]
        · rw [hWp c hc hp]
      have hnb : ∀ c ∈ proc, c ≠ b := fun c hc h => hbproc (h ▸ hc)
      have hdec' : Decomp (rowKey f) proc M (Wc K M s'.rc) := by
        refine ⟨hinv.dec.nodup, ?_, ?_, ?_⟩
        · intro c hc
          by_cases hp : IsPivot f (BHCol.vec K r') c
          · rw [hWpiv c hp]; exact hp.1
          · rw [hWp c hc hp]; exact hinv.dec.diag c hc
        · intro p1 c p2 hsplit x hx
          have hc : c ∈ proc := by rw [hsplit]; simp
          by_cases hp : IsPivot f (BHCol.vec K r') c
          · rw [hWpiv c hp] at hx; exact hptri c hp p1 p2 hsplit x hx
          · rw [hWp c hc hp] at hx; exact hinv.dec.tri p1 c p2 hsplit x hx
        · intro c hc c' hc' r h1 h2
          rw [hRp c hc] at h1
          rw [hRp c' hc'] at h2
          exact hinv.dec.reduced c hc c' hc' r h1 h2
      have hmem : ∀ c, c ∈ proc ++ [b] ↔ c ∈ proc ∨ c = b := by intro c; simp
      have hallpiv : ∀ j x, (j ∈ proc ++ [b] ∧ IsPivot f (linearCombination K M (Wc K M s'.rc j)) x) ↔
          ((j ∈ proc ∧ IsPivot f (Rv j) x) ∨ (j = b ∧ IsPivot f (BHCol.vec K r') x)) := by
        intro j x
        rw [hmem]
        by_cases hj : j = b
        · subst hj; rw [hWb, hRb]; simp [hbproc]
        · simp only [hj, or_false, false_and]
          constructor
          · rintro ⟨h1, h2⟩; rw [hRp j h1] at h2; exact ⟨h1, h2⟩
          · rintro ⟨h1, h2⟩; rw [hRp j h1]; exact ⟨h1, h2⟩
      have hallnp : ∀ x, (∀ j ∈ proc ++ [b], ¬ IsPivot f (linearCombination K M (Wc K M s'.rc j)) x) ↔
          ((∀ j ∈ proc, ¬ IsPivot f (Rv j) x) ∧ ¬ IsPivot f (BHCol.vec K r') x) := by
        intro x
        constructor
        · intro h
          exact ⟨fun j hj hp => (h j ((hmem j).2 (Or.inl hj))) ((hallpiv j x).2 (Or.inl ⟨hj, hp⟩)).2,
            fun hp => (h b ((hmem b).2 (Or.inr rfl))) ((hallpiv b x).2 (Or.inr ⟨rfl, hp⟩)).2⟩
        · rintro ⟨h1, h2⟩ j hj hp
          rcases (hallpiv j x).1 ⟨hj, hp⟩ with h | h
          · exact h1 j h.1 h.2
          · exact h2 h.2
      have hrcb' : ∀ c, (∀ p, IsPivot f (BHCol.vec K r') p → c ≠ p) → c ≠ b → s'.rc c = s.rc c := fun c h1 h2 => k2 c h2 h1
      refine ⟨?_, ?_, ?_, ?_, ?_, ?_, ?_, ?_, ?_⟩
      · refine hdec'.snoc hbproc (fun _ _ => rfl) ?_ ?_ ?_
        · rw [hWb, hWbb]; exact one_ne_zero
        · intro x hx
          rw [hWb] at hx
          rcases hwbmem x hx with h | h | h
          · exact Or.inl h
          · exact Or.inr (hsub x h)
          · exact Or.inr h.1
        · intro c hc r hl hl'
          rw [hWb, hRb] at hl'
          rw [hRp c hc] at hl
          exact hnew r hl' c hc hl
      · intro c hc x hx
        rcases (hmem c).1 hc with hc | rfl
        · by_cases hp : IsPivot f (BHCol.vec K r') c
          · rw [hWpiv c hp] at hx
            rw [hrdeg x hx, hrdeg c hp.1]
          · rw [hWp c hc hp] at hx; exact hinv.degW c hc x hx
        · rw [hWb] at hx; rw [hdegb]; exact hwbdeg x hx
      · intro c j
        rw [hallpiv]
        by_cases hcp : IsPivot f (BHCol.vec K r') c
        · rw [k3 c hcp]
          simp only [Option.some.injEq, RedCol.cleared.injEq]
          constructor
          · rintro rfl; exact Or.inr ⟨rfl, hcp⟩
          · rintro (⟨h1, h2⟩ | ⟨h, _⟩)
            · exact absurd h2 (hnew c hcp j h1)
            · exact h.symm
        · by_cases hcb : c = b
          · subst hcb
            rw [k1]
            constructor
            · intro h; cases h
            · rintro (⟨h1, h2⟩ | ⟨_, h⟩)
              · exact absurd h2 (hbnp j h1)
              · exact absurd h hcp
          · rw [k2 c hcb (fun p hp h => hcp (h ▸ hp)), hinv.cleared c j]
            constructor
            · exact Or.inl
            · rintro (h | ⟨_, h⟩)
              · exact h
              · exact absurd h hcp
      · intro c
        rw [hallnp, hmem]
        by_cases hcp : IsPivot f (BHCol.vec K r') c
        · rw [k3 c hcp]
          simp [hcp]
        · by_cases hcb : c = b
          · subst hcb
            rw [k1]
            simp only [hcp, not_false_iff, and_true, or_true, true_and]
            exact ⟨fun _ => hbnp, fun _ => ⟨lv, rfl⟩⟩
          · rw [k2 c hcb (fun p hp h => hcp (h ▸ hp)), hinv.reduced c]
            simp [hcp, hcb, hRv, hW]
      · intro c l hl
        by_cases hcp : IsPivot f (BHCol.vec K r') c
        · rw [k3 c hcp] at hl; cases hl
        · by_cases hcb : c = b
          · subst hcb
            rw [k1] at hl
            cases hl
            exact ⟨hsp', by rw [hlcv]; exact hab⟩
          · rw [k2 c hcb (fun p hp h => hcp (h ▸ hp))] at hl
            exact hinv.sparse c l hl
      · intro c hc j hj
        rcases (hmem c).1 hc with hc | rfl
        · rw [hRp c hc]
          by_cases hp : IsPivot f (BHCol.vec K r') c
          · exact hpz c hp hc
          · rw [hrcp c hc hp] at hj
            exact hinv.clearedZero c hc j hj
        · rw [k1] at hj; cases hj
      · intro r j jc
        rw [k6, hinv.low]
        by_cases hj : j = b
        · subst hj
          have : j ∉ pre := fun h => hbproc (hsub j h)
          rw [hWb, hRb]; simp [this]
        · simp only [List.mem_append, List.mem_singleton, hj, or_false, false_and]
          constructor
          · rintro ⟨h1, h2⟩; rw [hRp j (hsub j h1)]; exact ⟨h1, h2⟩
          · rintro ⟨h1, h2⟩; rw [hRp j (hsub j h1)] at h2; exact ⟨h1, h2⟩
      · intro r c
        rw [k4, hallpiv, hinv.pairs]
      · intro x
        rw [k5, hinv.ess, hmem]
        have hallimp : (∀ j ∈ proc ++ [b], IsPivot f (linearCombination K M (Wc K M s'.rc j)) x → ¬ early (deg j) (deg x)) ↔
            ((∀ j ∈ proc, IsPivot f (Rv j) x → ¬ early (deg j) (deg x)) ∧ (IsPivot f (BHCol.vec K r') x → ¬ early (deg b) (deg x))) := by
          constructor
          · intro h
            exact ⟨fun j hj hp => h j ((hmem j).2 (Or.inl hj)) ((hallpiv j x).2 (Or.inl ⟨hj, hp⟩)).2,
              fun hp => h b ((hmem b).2 (Or.inr rfl)) ((hallpiv b x).2 (Or.inr ⟨rfl, hp⟩)).2⟩
          · rintro ⟨h1, h2⟩ j hj hp
            rcases (hallpiv j x).1 ⟨hj, hp⟩ with h | h
            · exact h1 j h.1 h.2
            · rw [h.1]; exact h2 h.2
        rw [hallimp]
        by_cases hxb : x = b
        · subst hxb
          rw [hWb, hRb]
          simp only [hbproc, false_and, false_or, true_and, or_true]
          constructor
          · intro h; exact ⟨h, fun j hj hp => absurd hp (hbnp j hj), fun h' => absurd (by rw [h]; rfl) h'.1⟩
          · exact fun h => h.1
        · simp only [hxb, false_and, or_false]
          constructor
          · rintro ⟨h1, h2, h3⟩
            rw [hRp x h1]
            refine ⟨h1, h2, h3, fun hp => ?_⟩
            obtain ⟨d', q1, q2, q3⟩ := hpdn x hp h1
            rw [hdegb, q3]
            exact hE2 d' q1 q2
          · rintro ⟨h1, h2, h3, _⟩
            rw [hRp x h1] at h2
            exact ⟨h1, h2, h3⟩
    -- the concrete new state
    rw [if_neg (by simp [hrcb])]
    simp only [hbuild, Option.bind_some, hred]
    rcases peek_after_clone (K := K) e4 e4' with ⟨q1, q2⟩ | ⟨e, q1, q2, q3⟩
    · simp only [clrSave, q1, hvs1, Option.map_some]
      refine ⟨_, rfl, ?_⟩
      have hnp : ∀ p, ¬ IsPivot f (BHCol.vec K r') p := by intro p; rw [q2]; intro h; exact h.1 rfl
      apply main
      · simp only [mapInsert, if_true]; rfl
      · intro c hc _; simp only [mapInsert, if_neg hc]
      · intro p hp; exact absurd hp (hnp p)
      · intro r c; simp [hnp]
      · intro x; simp [q2, or_comm]
      · intro r j jc; simp [hnp]
    · simp only [clrSave, q1, hvs1, Option.map_some]
      refine ⟨_, rfl, ?_⟩
      have hpu : ∀ p, IsPivot f (BHCol.vec K r') p ↔ p = e.row :=
        fun p => ⟨fun h => IsLead.unique (rowKey_injective f) h q2, fun h => h ▸ q2⟩
      have heb : e.row ≠ b := (hfresh e.row (hrdeg e.row q2.1)).2
      apply main
      · simp only [mapInsert, if_true]; rfl
      · intro c hc hcp
        have : c ≠ e.row := hcp e.row q2
        simp only [mapInsert, if_neg hc, if_neg this]
      · intro p hp
        rw [(hpu p).1 hp]
        simp only [mapInsert, if_neg heb, if_true]
      · intro r c
        simp only [Finset.mem_insert, Prod.mk.injEq, hpu]
        constructor
        · rintro (⟨rfl, rfl⟩ | h)
          · exact Or.inr ⟨rfl, rfl⟩
          · exact Or.inl h
        · rintro (h | ⟨rfl, rfl⟩)
          · exact Or.inr h
          · exact Or.inl ⟨rfl, rfl⟩
      · intro x
        simp only
        constructor
        · exact Or.inl
        · rintro (h | ⟨_, h⟩)
          · exact h
          · exact absurd (by rw [h]; rfl) q2.1
      · intro r j jc
        simp only [mapInsert, hpu]
        split
        · rename_i hr
          subst hr
          rw [e3 e.row q2]
          simp only [Option.some.injEq, Prod.mk.injEq, reduceCtorEq, false_or, true_and]
          constructor
          · rintro ⟨rfl, rfl⟩; exact ⟨rfl, q3⟩
          · rintro ⟨rfl, h⟩
            exact ⟨rfl, LawfulCoeff.val_inj (K := K) _ _ (q3.symm.trans h)⟩
        · rename_i hr
          simp [hr]

theorem clrLoop_spec {D : FOracle CF T T F} {B : SplitBasis T} {f : T → F} {M : T → (T →₀ K)} {deg : T → ℤ} {ε : ℤ}
    {dims : List ℕ} {els : ℕ → List T} (hC : GradedComplex K D B f M deg ε dims els) {dn : List ℕ} {d : ℕ}
    (hdnd : ∀ d' ∈ dn, d' ∈ dims) (hdd : d ∈ dims) (hdnn : dn.Nodup) (hdn : d ∉ dn) {early : ℤ → ℤ → Prop}
    (hE1 : ∀ d' ∈ dn, early (d' : ℤ) d) (hE2 : ∀ d' ∈ dn, (d' : ℤ) = d + ε → ¬ early d d')
    {Bd : Basis T} (hBd : Bd.elems = some (els d)) {fuel : Nat}
    (hfuel : (els d).length < fuel) (pre rest : List T) (hpr : pre ++ rest = els d) (s : CrmState CF T)
    (low : T → Option (T × CF)) (hinv : ClrInv K f M deg early (dn.flatMap els ++ pre) pre s low) :
    ∃ p', clrLoop D Bd fuel (List.range' pre.length rest.length) (s, low) = some p' ∧
      ClrInv K f M deg early (dn.flatMap els ++ els d) (els d) p'.1 p'.2 := by
  induction rest generalizing pre s low with
  | nil =>
    refine ⟨(s, low), by simp [clrLoop], ?_⟩
    rw [← hpr]; simpa using hinv
  | cons b rest ih =>
    obtain ⟨hlen, hel⟩ := elems_spec hBd
    have hlt : pre.length < Bd.size := by rw [← hlen, ← hpr]; simp
    have hbe : Bd.element pre.length = some b := by
      rw [hel _ hlt, ← hpr]; simp
    obtain ⟨⟨s1, low1⟩, h1, h2⟩ := clrColumn_spec hC hdnd hdd hdnn hdn hE1 hE2 hpr.symm hinv (fuel := fuel) (by rw [← hpr] at hfuel; simp at hfuel; omega)
    obtain ⟨p', h3, h4⟩ := ih (pre ++ [b]) (by rw [← hpr]; simp) s1 low1 h2
    refine ⟨p', ?_, h4⟩
    rw [List.length_cons, List.range'_succ, clrLoop, hbe, Option.bind_some, h1, Option.bind_some]
    rw [List.length_append, List.length_singleton] at h3
    exact h3

/-- One dimension that has not been processed yet. -/
theorem clrDimension_spec {D : FOracle CF T T F} {B : SplitBasis T} {f : T → F} {M : T → (T →₀ K)} {deg : T → ℤ} {ε : ℤ}
    {dims : List ℕ} {els : ℕ → List T} (hC : GradedComplex K D B f M deg ε dims els) {dn : List ℕ} {d : ℕ}
    (hdnd : ∀ d' ∈ dn, d' ∈ dims) (hdd : d ∈ dims) (hdnn : dn.Nodup) (hdn : d ∉ dn) {early : ℤ → ℤ → Prop}
    (hE1 : ∀ d' ∈ dn, early (d' : ℤ) d) (hE2 : ∀ d' ∈ dn, (d' : ℤ) = d + ε → ¬ early d d') {fuel : Nat}
    (hfuel : (els d).length < fuel) (s : CrmState CF T) (hinv : ClrInv K f M deg early (dn.flatMap els) [] s fun _ => none) :
    ∃ s', clrDimension D B fuel s d = some s' ∧ ClrInv K f M deg early ((dn ++ [d]).flatMap els) [] s' fun _ => none := by
  obtain ⟨Bd, hB1, hB2⟩ := hC.basis d hdd
  obtain ⟨⟨s1, low1⟩, h1, h2⟩ := clrLoop_spec hC hdnd hdd hdnn hdn hE1 hE2 hB2 hfuel [] (els d) rfl s (fun _ => none) (by simpa using hinv)
  refine ⟨s1, ?_, ?_⟩
  · simp only [List.length_nil] at h1
    rw [(elems_spec hB2).1, ← List.range_eq_range'] at h1
    simp only [clrDimension, hB1, Option.bind_some, h1, Option.map_some]
  · have he : (dn ++ [d]).flatMap els = dn.flatMap els ++ els d := by simp
    rw [he]
    refine ⟨h2.dec, h2.degW, h2.cleared, h2.reduced, h2.sparse, h2.clearedZero, ?_, h2.pairs, h2.ess⟩
    simp

theorem clrAll_spec {D : FOracle CF T T F} {B : SplitBasis T} {f : T → F} {M : T → (T →₀ K)} {deg : T → ℤ} {ε : ℤ}
    {dims : List ℕ} {els : ℕ → List T} (hC : SplitComplex K D B f M deg ε dims els) {fuel : Nat}
    (hfuel : ∀ d ∈ dims, (els d).length < fuel) (dn q : List ℕ) (hdims : dims = dn ++ q) (s : CrmState CF T)
    (hinv : ClrInv K f M deg (fun _ _ => True) (dn.flatMap els) [] s fun _ => none) :
    ∃ s', clrAll D B fuel q s = some s' ∧ ClrInv K f M deg (fun _ _ => True) (dims.flatMap els) [] s' fun _ => none := by
  induction q generalizing dn s with
  | nil => exact ⟨s, rfl, by rw [hdims]; simpa using hinv⟩
  | cons d q ih =>
    have hdd : d ∈ dims := by rw [hdims]; simp
    have hnd := hC.nodup
    rw [hdims, List.nodup_append] at hnd
    obtain ⟨s1, h1, h2⟩ := clrDimension_spec hC.graded (dn := dn) (d := d) (fun d' hd' => by rw [hdims]; simp [hd']) hdd hnd.1
      (fun h => hnd.2.2 d h d (by simp) rfl) (early := fun _ _ => True) (fun _ _ => trivial)
      (fun d' hd' he => absurd he (hC.order dn d q hdims d' hd')) (hfuel d hdd) s hinv
    obtain ⟨s', h3, h4⟩ := ih (dn ++ [d]) (by rw [hdims]; simp) s1 h2
    exact ⟨s', by simp only [clrAll, h1, Option.bind_some, h3], h4⟩

theorem clrInv_init (f : T → F) (M : T → (T →₀ K)) (deg : T → ℤ) (early : ℤ → ℤ → Prop) :
    ClrInv K f M deg early [] [] (⟨Diagram.empty, fun _ => none⟩ : CrmState CF T) fun _ => none := by
  refine ⟨⟨by simp, by simp, by simp, by simp⟩, by simp, by simp, by simp, by simp, by simp, by simp, ?_, ?_⟩
  · simp [Diagram.empty]
  · simp [Diagram.empty]

theorem buildWithDiagram_spec {D : FOracle CF T T F} {B : SplitBasis T} {f : T → F} {M : T → (T →₀ K)} {deg : T → ℤ} {ε : ℤ}
    {dims : List ℕ} {els : ℕ → List T} (hC : SplitComplex K D B f M deg ε dims els) {fuel : Nat}
    (hfuel : ∀ d ∈ dims, (els d).length < fuel) :
    ∃ s : CrmState CF T, buildWithDiagram D B fuel dims = some (s.rc, s.diagram) ∧
      ClrInv K f M deg (fun _ _ => True) (dims.flatMap els) [] s fun _ => none := by
  obtain ⟨s, h1, h2⟩ := clrAll_spec hC hfuel [] dims rfl _ (clrInv_init f M deg _)
  exact ⟨s, by simp [buildWithDiagram, h1], h2⟩

end
end Phlite
