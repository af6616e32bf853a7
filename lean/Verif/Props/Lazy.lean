/-
C69, C70, C71: lazy iterators, and reductions with a cached boundary matrix.
-/
import Verif.Proofs.LazyPanics
import Verif.Proofs.LazyPlain
import Verif.Proofs.ClearingStored

set_option linter.unusedSectionVars false
set_option linter.unusedSimpArgs false

namespace Phlite
open Finsupp (single linearCombination linearCombination_single)

/-- Running the program `op` (whose iterators share the state `σ`) from the state `s`: with enough fuel for the iterators it ends with the value `v` in a state satisfying `J`. -/
def Lazy.Returns {σ β : Type} (op : Lazy.LM σ β) (s : σ) (v : β) (J : σ → Prop) : Prop := ∃ n0 s', J s' ∧ ∀ n, n0 ≤ n → op n s = some (v, s')

/-- Running the program never ends normally, however much fuel: it panics, or it does not end. -/
def Lazy.Fails {σ β : Type} (op : Lazy.LM σ β) (s : σ) : Prop := ∀ n, op n s = none

section
variable [StdHeap] {CF T F : Type} [NonZeroCoeff CF] [LinearOrder F] [LinearOrder T]

/-- The state of a cache after a run: nothing is borrowed, and the underlying matrix has been asked exactly once for each column in `C`, and for no other column. -/
structure CacheAsked (M : Oracle CF T T) (C : T → Prop) (s : CacheState CF T T) : Prop where
  released : s.borrowed = false
  once : s.log.Nodup
  exactly : ∀ c, c ∈ s.log ↔ C c
  stored : ∀ c, s.cache c = if c ∈ s.log then M.column c else none

theorem Lazy.Idle.asked {M : Oracle CF T T} {Y X : T → Prop} {s : CacheState CF T T} (h : Lazy.Idle M Y X s) (hYX : ∀ c, Y c → X c) : CacheAsked M Y s where
  released := by
    unfold CacheState.borrowed
    rw [List.any_eq_false]
    intro it hit
    rw [h.idle it hit]; simp
  once := h.nodup
  exactly c := ⟨h.upper c, fun hc => h.lower c (hYX c hc)⟩
  stored c := by
    split
    · rename_i hc
      obtain ⟨l, hl⟩ := Option.isSome_iff_exists.1 ((h.log c).1 hc)
      rw [hl, h.cached c l hl]
    · rename_i hc
      rw [h.log] at hc
      simpa using hc

theorem Lazy.Computes.returns {σ β : Type} {op : Lazy.LM σ β} {v : Option β} {I J : σ → Prop} (h : Lazy.Computes op v I J) {s : σ} (hs : I s) :
    (∀ b, v = some b → Lazy.Returns op s b J) ∧ (v = none → Lazy.Fails op s) := by
  refine ⟨fun b hb => h.ok s hs b hb, fun hv n => ?_⟩
  cases ho : op n s with
  | none => rfl
  | some p =>
    have := (h.sound s hs n p.1 p.2 ho).1
    rw [hv] at this; cases this

/-- C69 (standard algorithm). For any boundary matrix, basis and order: with its columns cached, and every column read lazily through the cache, the standard algorithm (with its diagram) returns what
it returns on the matrix itself, panics (or does not end) if it does on the matrix itself, and asks the matrix for each basis column exactly once and for no other column. -/
theorem C69_standard (D : FOracle CF T T F) (B : Basis T) (fuel : ℕ → ℕ) (rev : Bool) :
    (∀ r, standardAlgoWithDiagram D B fuel rev = some r → Lazy.Returns (Lazy.standardAlgoWithDiagram (Lazy.cached D) B fuel rev) CacheState.init r
      (CacheAsked D.toOracle fun c => ∃ i < B.size, B.element i = some c)) ∧
    (standardAlgoWithDiagram D B fuel rev = none → Lazy.Fails (Lazy.standardAlgoWithDiagram (Lazy.cached D) B fuel rev) CacheState.init) := by
  have h := Lazy.standardAlgoWithDiagram_computes (Lazy.Matches.cached D (Y := fun c => ∃ i < B.size, B.element i = some c) (A := fun c => ∃ i < B.size, B.element i = some c) fun _ h => h)
    (B := B) (fuel := fuel) (rev := rev) (fun i hi b hb => ⟨i, hi, hb⟩) (fun _ => False)
  have h2 : Lazy.Computes (Lazy.standardAlgoWithDiagram (Lazy.cached D) B fuel rev) (standardAlgoWithDiagram D B fuel rev) _ _ := h
  exact ((h2.imp (fun _ h => h) fun s hs => hs.asked fun c hc => Or.inr hc).returns (Lazy.Idle.init D.toOracle _))

/-- C69 (`standard_algo` by itself; the cached matrix has the default `column_with_filtration`). -/
theorem C69_standard_algo (D : FOracle CF T T F) (B : Basis T) (fuel : ℕ → ℕ) :
    (∀ r, standardAlgo D.ref B fuel = some r → Lazy.Returns (Lazy.standardAlgo (Lazy.cached D) B fuel) CacheState.init r
      (CacheAsked D.toOracle fun c => ∃ i < B.size, B.element i = some c)) ∧
    (standardAlgo D.ref B fuel = none → Lazy.Fails (Lazy.standardAlgo (Lazy.cached D) B fuel) CacheState.init) := by
  have h := (Lazy.standardAlgo_computes (Lazy.Matches.cached D (Y := fun c => ∃ i < B.size, B.element i = some c) (A := fun c => ∃ i < B.size, B.element i = some c) fun _ h => h)
    (B := B) (fuel := fuel) (fun i hi b hb => ⟨i, hi, hb⟩) (fun _ => False)).1
  exact ((h.imp (fun _ h => h) fun s hs => hs.asked fun c hc => Or.inr hc).returns (Lazy.Idle.init D.toOracle _))

variable {K : Type} [Field K] [LawfulCoeff CF K] {D : FOracle CF T T F} {B : SplitBasis T} {f : T → F} {M : T → (T →₀ K)} {deg : T → ℤ} {ε : ℤ} {dims : List ℕ} {els : ℕ → List T}

theorem buildWithDiagram_cached (hC : SplitComplex K D B f M deg ε dims els) {fuel : ℕ} {s' : CrmState CF T} (h : clrAll D B fuel dims ⟨Diagram.empty, fun _ => none⟩ = some s') :
    Lazy.Returns (Lazy.buildWithDiagram (Lazy.cached D) B fuel dims) CacheState.init (s'.rc, s'.diagram)
      (Lazy.Idle D.toOracle (fun c => c ∈ dims.flatMap els ∧ ∀ j, (c, j) ∉ s'.diagram.pairings) fun c => c ∈ dims.flatMap els ∧ ∀ j, (c, j) ∉ s'.diagram.pairings) := by
  have h1 := (Lazy.clrAll_computes hC [] dims rfl (fun _ => False) rfl h).map fun s : CrmState CF T => (s.rc, s.diagram)
  obtain ⟨n0, s1, h2, h3⟩ := (h1.returns (Lazy.Idle.init D.toOracle _)).1 (s'.rc, s'.diagram) rfl
  exact ⟨n0, s1, ⟨h2.cached, h2.log, h2.nodup, h2.idle, fun c hc => h2.lower c (Or.inr hc), h2.upper⟩, h3⟩

/-- C69 (clearing). For a chain complex: with the columns of the boundary cached and read lazily through the cache, the clearing algorithm stores the same columns and reports the same diagram as on the matrix
itself, no borrow of the cache ever clashes, and the matrix is asked exactly once for each listed cell that is not the birth of a pair, and for no other column. -/
theorem C69_clearing (hC : SplitComplex K D B f M deg ε dims els) {fuel : ℕ} {rc : T → Option (RedCol CF T)} {dgm : Diagram T} (h : buildWithDiagram D B fuel dims = some (rc, dgm)) :
    Lazy.Returns (Lazy.buildWithDiagram (Lazy.cached D) B fuel dims) CacheState.init (rc, dgm)
      (CacheAsked D.toOracle fun c => c ∈ dims.flatMap els ∧ ∀ j, (c, j) ∉ dgm.pairings) := by
  obtain ⟨s', h1, h2⟩ := Option.map_eq_some_iff.1 (show (clrAll D B fuel dims _).map _ = _ from h)
  cases h2
  obtain ⟨n0, s1, h3, h4⟩ := buildWithDiagram_cached hC h1
  exact ⟨n0, s1, h3.asked fun _ h => h, h4⟩

/-! ### C70: reading the results of clearing through a cached boundary -/

/-- What a user can read after clearing with boundary `D` and reduction matrix `V`. -/
inductive CrmQuery (T : Type)
  /-- `V.column(c)` -/
  | vColumn (c : T)
  /-- `V.col_is_cycle(c)` -/
  | isCycle (c : T)
  /-- `product(&D, &V).column(c)` -/
  | rColumn (c : T)
  /-- `product(&D, &V).column_with_filtration(c)` -/
  | rEntries (c : T)

inductive CrmAnswer (CF T F : Type)
  | column (l : List (CF × T))
  | flag (b : Bool)
  | entries (es : List (Entry F T CF))

/-- The answer on the matrix itself. -/
def CrmQuery.eager (D : FOracle CF T T F) (rc : T → Option (RedCol CF T)) (depth : ℕ) : CrmQuery T → Option (CrmAnswer CF T F)
  | .vColumn c => (crmColumn D.toOracle rc depth c).map .column
  | .isCycle c => (colIsCycle D rc depth c).map .flag
  | .rColumn c => ((productF D.ref (crmMatrix D.toOracle rc depth)).column c).map .column
  | .rEntries c => ((productF D.ref (crmMatrix D.toOracle rc depth)).colF c).map .entries

/-- The answer when the columns are read lazily. -/
def CrmQuery.lazy {σ : Type} (D : Lazy.Matrix σ CF T F) (rc : T → Option (RedCol CF T)) (depth : ℕ) : CrmQuery T → Lazy.LM σ (CrmAnswer CF T F)
  | .vColumn c => ((Lazy.crmCols D.column rc depth).collect c).map .column
  | .isCycle c => (Lazy.colIsCycle D rc depth c).map .flag
  | .rColumn c => ((Lazy.productRef D (Lazy.crmCols D.column rc depth)).column.collect c).map .column
  | .rEntries c => ((Lazy.productRef D (Lazy.crmCols D.column rc depth)).colF.collect c).map .entries

/-- Several queries, one after the other. -/
def lazyAnswers {σ : Type} (D : Lazy.Matrix σ CF T F) (rc : T → Option (RedCol CF T)) (depth : ℕ) : List (CrmQuery T) → Lazy.LM σ (List (CrmAnswer CF T F))
  | [] => Lazy.LM.ret []
  | q :: qs => (q.lazy D rc depth).bind fun a => (lazyAnswers D rc depth qs).map fun as => a :: as

/-- The query multiplies the boundary with the column of `V` of a cell for which `birth` holds. -/
def CrmQuery.readsR (birth : T → Prop) : CrmQuery T → Prop
  | .vColumn _ => False
  | .isCycle _ => False
  | .rColumn c => birth c
  | .rEntries c => birth c

/-- Running clearing and then answering the queries. -/
def Lazy.buildAndRead {σ : Type} (D : Lazy.Matrix σ CF T F) (B : SplitBasis T) (fuel : ℕ) (dims : List ℕ) (depth : ℕ) (qs : List (CrmQuery T)) :
    Lazy.LM σ (Diagram T × List (CrmAnswer CF T F)) :=
  (Lazy.buildWithDiagram D B fuel dims).bind fun p => (lazyAnswers D p.1 depth qs).map fun as => (p.2, as)

/-! #### Proofs -/

namespace Lazy

variable {σ : Type} {L : Matrix σ CF T F} {D : FOracle CF T T F} {A : T → Prop} {I : (T → Prop) → σ → Prop} {rc : T → Option (RedCol CF T)}

theorem query_computes (h : Matches L D A I) (hred : ∀ c vec, rc c = some (.reduced vec) → A c ∧ ∀ t ∈ vec, A t.2)
    (hclr : ∀ c j, rc c = some (.cleared j) → ∃ vec, rc j = some (.reduced vec)) (depth : ℕ) (X : T → Prop) (q : CrmQuery T)
    (hq : ¬ q.readsR fun c => ∃ j, rc c = some (.cleared j)) : Computes (q.lazy L rc depth) (q.eager D rc depth) (I X) (I X) := by
  have hR : ∀ n c vec, rc c = some (.reduced vec) → ∀ s, I X s → ((crmCols L.column rc n).request c s = none → crmColumn D.toOracle rc n c = none) ∧
      ∀ it s', (crmCols L.column rc n).request c s = some (it, s') → I X s' ∧ Robust (crmCols L.column rc n) (I X) (fun t => A t.2) it (crmColumn D.toOracle rc n c) :=
    fun n c vec hc s hs => crm_right (hred c vec hc).1 hc (hred c vec hc).2 _ n L.column D.toOracle s hs
  have hprod := fun n c vec (hc : rc c = some (.reduced vec)) => robust_product h X (hR n c vec hc)
  have hnoneR : ∀ n c, rc c = none → (∀ s, (productRef L (crmCols L.column rc n)).column.request c s = none) ∧ (∀ s, (productRef L (crmCols L.column rc n)).colF.request c s = none) ∧
      crmColumn D.toOracle rc n c = none := by
    intro n c hc
    refine ⟨fun s => ?_, fun s => ?_, ?_⟩
    · show ((crmCols L.column rc n).request c s).map _ = none
      rw [crmCols_none hc]; rfl
    · show ((crmCols L.column rc n).request c s).map _ = none
      rw [crmCols_none hc]; rfl
    · cases n with
      | zero => rfl
      | succ n => simp only [crmColumn, hc, Option.bind_none]
  cases q with
  | vColumn c =>
    refine Computes.map ?_ _
    cases hc : rc c with
    | none => exact Serves.collect fun s hs => ⟨fun _ => (hnoneR depth c hc).2.2, fun it s' hr => by rw [crmCols_none hc] at hr; cases hr⟩
    | some r =>
      cases r with
      | reduced vec => exact (Robust.serves (hR depth c vec hc)).collect
      | cleared j =>
        obtain ⟨vec, hj⟩ := hclr c j hc
        cases depth with
        | zero => exact Serves.collect fun s hs => ⟨fun _ => rfl, fun it s' hr => by cases hr⟩
        | succ n =>
          refine Serves.collect ?_
          have e : crmColumn D.toOracle rc (n + 1) c = prodColumn D.toOracle ⟨crmColumn D.toOracle rc n⟩ j := by simp only [crmColumn, hc, Option.bind_some]
          rw [e]
          exact crmStep_serves hc (hprod n j vec hj).2
  | isCycle c =>
    refine Computes.map ?_ _
    refine (Computes.lift (rc c) (I X)).bind fun r hc => ?_
    cases r with
    | cleared j => exact Computes.ret _ _
    | reduced vec => exact ((hprod depth c vec hc).1.collect.map _).map _
  | rColumn c =>
    refine Computes.map ?_ _
    cases hc : rc c with
    | none => exact Serves.collect fun s hs => ⟨fun _ => by
        show (crmColumn D.toOracle rc depth c).bind _ = none
        rw [(hnoneR depth c hc).2.2]; rfl, fun it s' hr => by rw [(hnoneR depth c hc).1] at hr; cases hr⟩
    | some r =>
      cases r with
      | reduced vec => exact (hprod depth c vec hc).2.collect
      | cleared j => exact absurd ⟨j, hc⟩ hq
  | rEntries c =>
    refine Computes.map ?_ _
    cases hc : rc c with
    | none => exact Serves.collect fun s hs => ⟨fun _ => by
        show (crmColumn D.toOracle rc depth c).bind _ = none
        rw [(hnoneR depth c hc).2.2]; rfl, fun it s' hr => by rw [(hnoneR depth c hc).2.1] at hr; cases hr⟩
    | some r =>
      cases r with
      | reduced vec => exact (hprod depth c vec hc).1.collect
      | cleared j => exact absurd ⟨j, hc⟩ hq

theorem answers_compute (h : Matches L D A I) (hred : ∀ c vec, rc c = some (.reduced vec) → A c ∧ ∀ t ∈ vec, A t.2)
    (hclr : ∀ c j, rc c = some (.cleared j) → ∃ vec, rc j = some (.reduced vec)) (depth : ℕ) (X : T → Prop) (qs : List (CrmQuery T))
    (hq : ∀ q ∈ qs, ¬ q.readsR fun c => ∃ j, rc c = some (.cleared j)) : Computes (lazyAnswers L rc depth qs) (mapOpt (fun q => q.eager D rc depth) qs) (I X) (I X) := by
  induction qs with
  | nil => exact Computes.ret _ _
  | cons q qs ih =>
    have h1 := (query_computes h hred hclr depth X q (hq q (by simp))).bind fun a _ => (ih fun q hq' => hq q (by simp [hq'])).map fun as => a :: as
    exact h1.congr (by simp only [mapOpt]; try rfl)

/-- The product of the cached boundary with a cleared column panics, in any state of the cache that has not seen the cleared cell. -/
theorem query_fails {M : Oracle CF T T} {filt : T → Option F} {c j : T} {vec : List (CF × T)} (hc : rc c = some (.cleared j)) (hj : rc j = some (.reduced vec))
    (hne : ∀ t ∈ vec ++ [((NonZeroCoeff.one : CF), j)], t.2 ≠ c) (hcol : ∃ t ∈ vec ++ [((NonZeroCoeff.one : CF), j)], ∀ l, M.column t.2 = some l → ∃ u ∈ l, u.2 = c)
    (depth : ℕ) {s : CacheState CF T T} (hs : s.cache c = none) (hok : ∀ c l, s.cache c = some l → M.column c = some l) (n : ℕ) :
    ((crmCols (cachedCols M) rc depth).flatMap (cachedCols M) scaleTuple).collect c n s = none ∧
      ((crmCols (cachedCols M) rc depth).flatMap (defaultCols (cachedCols M) filt) scaleEntry).collect c n s = none := by
  have key : ∀ {α : Type} (Lft : Cols (CacheState CF T T) T α) (num : Lft.It → ℕ) (scale : CF → α → α)
      (_ : ∀ c s it s', Lft.request c s = some (it, s') → (cachedCols M).request c s = some (num it, s'))
      (_ : ∀ it s o it' s', Lft.pull it s = some (o, it', s') → num it' = num it ∧ ∃ o', (cachedCols M).pull (num it) s = some (o', num it, s')),
      ((crmCols (cachedCols M) rc depth).flatMap Lft scale).collect c n s = none := by
    intro α Lft num scale h1 h2
    match depth with
    | 0 => rfl
    | 1 =>
      have e : ((crmCols (cachedCols M) rc 1).flatMap Lft scale).request c s = none := by
        show ((rc c).bind _).map _ = none
        rw [hc]; rfl
      show (((crmCols (cachedCols M) rc 1).flatMap Lft scale).request c s).bind _ = none
      rw [e]; rfl
    | m + 2 =>
      have e : ((crmCols (cachedCols M) rc (m + 2)).flatMap Lft scale).request c s = some ((.inl (.inr (vec ++ [(NonZeroCoeff.one, j)]), none), none), s) := by
        show ((rc c).bind _).map _ = _
        rw [hc]
        show ((((rc j).bind _).map _).map _).map _ = _
        rw [hj]; rfl
      show (((crmCols (cachedCols M) rc (m + 2)).flatMap Lft scale).request c s).bind _ = none
      rw [e]
      exact doomed_drain h1 h2 n (Doomed.between (num := num) hs hok hne hcol)
  refine ⟨key (cachedCols M) (fun i => i) _ (fun c s it s' h => h) fun it s o it' s' h => ?_,
    key (defaultCols (cachedCols M) filt) (fun i => i) _ (fun c s it s' h => h) fun it s o it' s' h => ?_⟩
  · obtain ⟨rfl, _⟩ := pull_cached _ _ _ _ _ h
    exact ⟨rfl, o, h⟩
  · obtain ⟨⟨o', it2, s2⟩, h1, h2⟩ := Option.bind_eq_some_iff.1 (show ((cachedCols M).pull it s).bind _ = _ from h)
    obtain ⟨rfl, _⟩ := pull_cached _ _ _ _ _ h1
    cases o' with
    | done => cases h2; exact ⟨rfl, _, h1⟩
    | skip => cases h2; exact ⟨rfl, _, h1⟩
    | item a =>
      obtain ⟨b, _, h4⟩ := Option.map_eq_some_iff.1 h2
      cases h4
      exact ⟨rfl, _, h1⟩

end Lazy

/-- What clearing leaves behind, in terms of the pairs it reports. -/
theorem clearing_leaves (hC : SplitComplex K D B f M deg ε dims els) {fuel : ℕ} {rc : T → Option (RedCol CF T)} {dgm : Diagram T} (h : buildWithDiagram D B fuel dims = some (rc, dgm)) :
    (∀ c, (∃ j, rc c = some (.cleared j)) ↔ ∃ j, (c, j) ∈ dgm.pairings) ∧
    (∀ c vec, rc c = some (.reduced vec) → (c ∈ dims.flatMap els ∧ ∀ j, (c, j) ∉ dgm.pairings) ∧ ∀ t ∈ vec, t.2 ∈ dims.flatMap els ∧ ∀ j, (t.2, j) ∉ dgm.pairings) ∧
    (∀ c j, rc c = some (.cleared j) → ∃ vec, rc j = some (.reduced vec) ∧
      ∃ t ∈ vec ++ [((NonZeroCoeff.one : CF), j)], ∀ l, D.column t.2 = some l → ∃ u ∈ l, u.2 = c) := by
  have hst : ∀ j vec, rc j = some (.reduced vec) → ∀ t ∈ vec, t.2 ∈ dims.flatMap els ∧ ∀ i, (t.2, i) ∉ dgm.pairings := by
    obtain ⟨s', h1, h2⟩ := Option.map_eq_some_iff.1 (show (clrAll D B fuel dims _).map _ = _ from h)
    cases h2
    exact clrAll_stored hC [] dims rfl rfl h1 (by simp)
  obtain ⟨s, rfl, rfl, hs⟩ := clearing_unique hC h
  have hcl : ∀ c, (∃ j, s.rc c = some (.cleared j)) ↔ ∃ j, (c, j) ∈ s.diagram.pairings := fun c =>
    exists_congr fun j => (hs.cleared c j).trans (hs.pairs c j).symm
  refine ⟨hcl, fun c vec hc => ⟨⟨((hs.reduced c).1 ⟨vec, hc⟩).1, fun j hj => ?_⟩, hst c vec hc⟩, fun c j hc => ?_⟩
  · obtain ⟨j', hj'⟩ := (hcl c).2 ⟨j, hj⟩
    rw [hc] at hj'; cases hj'
  · obtain ⟨hj, hp⟩ := (hs.cleared c j).1 hc
    obtain ⟨vec, h1, h2, _⟩ := hs.red_of_pivot hj hp
    refine ⟨vec, h1, ?_⟩
    obtain ⟨x, h3, h4⟩ := lc_support hp.1
    have h5 : Wc K M s.rc j = lcOf K (vec ++ [((NonZeroCoeff.one : CF), j)]) := by
      rw [h2, lcOf_append]; simp [LawfulCoeff.val_one]
    rw [h5] at h3
    obtain ⟨t, ht, rfl⟩ := lcOf_support h3
    refine ⟨t, ht, fun l hl => ?_⟩
    have hmem : t.2 ∈ dims.flatMap els := by
      rcases List.mem_append.1 ht with ht | ht
      · exact (hst j vec h1 t ht).1
      · rw [List.mem_singleton.1 ht]; exact hj
    obtain ⟨d, hd, htd⟩ := List.mem_flatMap.1 hmem
    obtain ⟨l', g1, _, _, g4⟩ := hC.good d hd _ htd
    rw [hl] at g1; cases g1
    rw [← g4] at h4
    exact lcOf_support h4

theorem answers_fail (hC : SplitComplex K D B f M deg ε dims els) {fuel : ℕ} {rc : T → Option (RedCol CF T)} {dgm : Diagram T} (h : buildWithDiagram D B fuel dims = some (rc, dgm))
    (depth : ℕ) (qs : List (CrmQuery T)) (hq : ∃ q ∈ qs, q.readsR fun c => ∃ j, (c, j) ∈ dgm.pairings) :
    ∀ s, Lazy.Idle D.toOracle (fun c => c ∈ dims.flatMap els ∧ ∀ j, (c, j) ∉ dgm.pairings) (fun c => c ∈ dims.flatMap els ∧ ∀ j, (c, j) ∉ dgm.pairings) s →
      Lazy.Fails (lazyAnswers (Lazy.cached D) rc depth qs) s := by
  obtain ⟨hcl, hred, hclr⟩ := clearing_leaves hC h
  have hm := Lazy.cached_matches hC (Y := fun c => c ∈ dims.flatMap els ∧ ∀ j, (c, j) ∉ dgm.pairings) (A := fun c => c ∈ dims.flatMap els ∧ ∀ j, (c, j) ∉ dgm.pairings)
    (fun _ h => h) fun _ h => h.1
  induction qs with
  | nil => obtain ⟨q, hq, _⟩ := hq; simp at hq
  | cons q qs ih =>
    intro s hs n
    show (q.lazy (Lazy.cached D) rc depth n s).bind _ = none
    by_cases hb : q.readsR fun c => ∃ j, (c, j) ∈ dgm.pairings
    · have hbad : ∀ c, (∃ j, (c, j) ∈ dgm.pairings) →
          ((Lazy.crmCols (Lazy.cachedCols D.toOracle) rc depth).flatMap (Lazy.cachedCols D.toOracle) Lazy.scaleTuple).collect c n s = none ∧
            ((Lazy.crmCols (Lazy.cachedCols D.toOracle) rc depth).flatMap (Lazy.defaultCols (Lazy.cachedCols D.toOracle) D.filt) Lazy.scaleEntry).collect c n s = none := by
        intro c hc
        obtain ⟨j, hj⟩ := (hcl c).2 hc
        obtain ⟨vec, h1, h2⟩ := hclr c j hj
        refine Lazy.query_fails hj h1 ?_ h2 depth ?_ hs.cached n
        · rintro t ht rfl
          obtain ⟨i, hi⟩ := hc
          rcases List.mem_append.1 ht with ht | ht
          · exact ((hred j vec h1).2 t ht).2 i hi
          · rw [List.mem_singleton.1 ht] at hi
            exact (hred j vec h1).1.2 i hi
        · obtain ⟨i, hi⟩ := hc
          by_contra hne
          exact (hs.upper c ((hs.log c).2 (Option.isSome_iff_ne_none.2 hne))).2 i hi
      have hn : q.lazy (Lazy.cached D) rc depth n s = none := by
        cases q with
        | vColumn c => exact hb.elim
        | isCycle c => exact hb.elim
        | rColumn c =>
          show (((Lazy.crmCols (Lazy.cachedCols D.toOracle) rc depth).flatMap (Lazy.cachedCols D.toOracle) Lazy.scaleTuple).collect c n s).bind _ = none
          rw [(hbad c hb).1]; rfl
        | rEntries c =>
          show (((Lazy.crmCols (Lazy.cachedCols D.toOracle) rc depth).flatMap (Lazy.defaultCols (Lazy.cachedCols D.toOracle) D.filt) Lazy.scaleEntry).collect c n s).bind _ = none
          rw [(hbad c hb).2]; rfl
      rw [hn]; rfl
    · have hq' : ∃ q ∈ qs, q.readsR fun c => ∃ j, (c, j) ∈ dgm.pairings := by
        obtain ⟨q', h1, h2⟩ := hq
        rcases List.mem_cons.1 h1 with rfl | h1
        · exact absurd h2 hb
        · exact ⟨q', h1, h2⟩
      rw [Option.bind_eq_none_iff]
      rintro ⟨a, s1⟩ h1
      have hb' : ¬ q.readsR fun c => ∃ j, rc c = some (.cleared j) := by
        have e : (fun c => ∃ j, rc c = some (.cleared j)) = fun c => ∃ j, (c, j) ∈ dgm.pairings := funext fun c => propext (hcl c)
        rw [e]; exact hb
      obtain ⟨_, h2⟩ := (Lazy.query_computes hm hred (fun c j hj => ((hclr c j hj).imp fun _ h => h.1)) depth _ q hb').sound s hs n a s1 h1
      show (lazyAnswers (Lazy.cached D) rc depth qs n s1).bind _ = none
      rw [ih hq' s1 h2 n]; rfl

/-- C70. Clearing a chain complex with a cached boundary and then reading the reduction matrix `V` and the product of the cached boundary with `V`, in any order and any number of times:
* as long as no query asks for the product at a cell that is the birth of a pair, every answer is the one given without a cache (a panic exactly if that panics), and the boundary is never asked for a further column;
* one query for the product at the birth of a pair, and the program panics - whatever was read before. -/
theorem C70_reads (hC : SplitComplex K D B f M deg ε dims els) {fuel : ℕ} {rc : T → Option (RedCol CF T)} {dgm : Diagram T} (h : buildWithDiagram D B fuel dims = some (rc, dgm))
    (depth : ℕ) (qs : List (CrmQuery T)) :
    ((∀ q ∈ qs, ¬ q.readsR fun c => ∃ j, (c, j) ∈ dgm.pairings) →
      (∀ as, mapOpt (fun q => q.eager D rc depth) qs = some as →
        Lazy.Returns (Lazy.buildAndRead (Lazy.cached D) B fuel dims depth qs) CacheState.init (dgm, as) (CacheAsked D.toOracle fun c => c ∈ dims.flatMap els ∧ ∀ j, (c, j) ∉ dgm.pairings)) ∧
      (mapOpt (fun q => q.eager D rc depth) qs = none → Lazy.Fails (Lazy.buildAndRead (Lazy.cached D) B fuel dims depth qs) CacheState.init)) ∧
    ((∃ q ∈ qs, q.readsR fun c => ∃ j, (c, j) ∈ dgm.pairings) → Lazy.Fails (Lazy.buildAndRead (Lazy.cached D) B fuel dims depth qs) CacheState.init) := by
  obtain ⟨hcl, hred, hclr⟩ := clearing_leaves hC h
  have hm := Lazy.cached_matches hC (Y := fun c => c ∈ dims.flatMap els ∧ ∀ j, (c, j) ∉ dgm.pairings) (A := fun c => c ∈ dims.flatMap els ∧ ∀ j, (c, j) ∉ dgm.pairings)
    (fun _ h => h) fun _ h => h.1
  have hrun : Lazy.Computes (Lazy.buildWithDiagram (Lazy.cached D) B fuel dims) (some (rc, dgm))
      (Lazy.Idle D.toOracle (fun c => c ∈ dims.flatMap els ∧ ∀ j, (c, j) ∉ dgm.pairings) fun _ => False)
      (Lazy.Idle D.toOracle (fun c => c ∈ dims.flatMap els ∧ ∀ j, (c, j) ∉ dgm.pairings) fun c => c ∈ dims.flatMap els ∧ ∀ j, (c, j) ∉ dgm.pairings) := by
    obtain ⟨s', h1, h2⟩ := Option.map_eq_some_iff.1 (show (clrAll D B fuel dims _).map _ = _ from h)
    cases h2
    exact ((Lazy.clrAll_computes hC [] dims rfl (fun _ => False) rfl h1).map fun s : CrmState CF T => (s.rc, s.diagram)).imp (fun _ h => h)
      fun s h2 => ⟨h2.cached, h2.log, h2.nodup, h2.idle, fun c hc => h2.lower c (Or.inr hc), h2.upper⟩
  have e : (fun c => ∃ j, rc c = some (.cleared j)) = fun c => ∃ j, (c, j) ∈ dgm.pairings := funext fun c => propext (hcl c)
  refine ⟨fun hq => ?_, fun hq n => ?_⟩
  · have h1 := Lazy.answers_compute hm hred (fun c j hj => ((hclr c j hj).imp fun _ h => h.1)) depth (fun c => c ∈ dims.flatMap els ∧ ∀ j, (c, j) ∉ dgm.pairings) qs (by rw [e]; exact hq)
    have h2 : Lazy.Computes (Lazy.buildAndRead (Lazy.cached D) B fuel dims depth qs) ((some (rc, dgm)).bind fun p => (mapOpt (fun q => q.eager D p.1 depth) qs).map fun as => (p.2, as)) _ _ :=
      hrun.bind fun p hp => by cases hp; exact h1.map _
    have h3 := (h2.imp (fun _ h => h) fun s hs => hs.asked fun _ h => h).returns (Lazy.Idle.init D.toOracle _)
    refine ⟨fun as has => h3.1 _ (by rw [Option.bind_some, has]; rfl), fun hn => h3.2 (by rw [Option.bind_some, hn]; rfl)⟩
  · show (Lazy.buildWithDiagram (Lazy.cached D) B fuel dims n CacheState.init).bind _ = none
    rw [Option.bind_eq_none_iff]
    rintro ⟨p, s1⟩ h1
    obtain ⟨h2, h3⟩ := hrun.sound _ (Lazy.Idle.init D.toOracle _) n p s1 h1
    cases h2
    show (lazyAnswers (Lazy.cached D) rc depth qs n s1).bind _ = none
    rw [answers_fail hC h depth qs hq s1 h3 n]; rfl

/-- C70 (contrast): without a cache, every query about a listed cell is answered. -/
theorem C70_uncached (hC : SplitComplex K D B f M deg ε dims els) {fuel : ℕ} {rc : T → Option (RedCol CF T)} {dgm : Diagram T} (h : buildWithDiagram D B fuel dims = some (rc, dgm))
    {depth : ℕ} (hdepth : 2 ≤ depth) {c : T} (hc : c ∈ dims.flatMap els) (q : CrmQuery T) (hq : q = .vColumn c ∨ q = .isCycle c ∨ q = .rColumn c ∨ q = .rEntries c) :
    (q.eager D rc depth).isSome := by
  obtain ⟨s, rfl, rfl, hs⟩ := clearing_unique hC h
  obtain ⟨d, hd, hcd⟩ := List.mem_flatMap.1 hc
  obtain ⟨l, h1, _, h3⟩ := crm_col hC hs hdepth hd hcd
  have hg : ∀ t ∈ l, ReadsCol K D.ref f M t.2 := fun t ht => by
    obtain ⟨d', hd', ht'⟩ := List.mem_flatMap.1 (h3 t ht)
    exact (hC.good d' hd' _ ht').ref
  obtain ⟨es, h4, _⟩ := prod_colF (K := K) (D := D.ref) (f := f) (M := M) h1 hg
  obtain ⟨l', h5, _⟩ := prod_col (K := K) (D := D.ref) (f := f) (M := M) h1 hg
  rcases hq with rfl | rfl | rfl | rfl
  · show (((crmMatrix D.toOracle s.rc depth).column c).map _).isSome = true
    rw [h1]; rfl
  · show (((s.rc c).bind _).map _).isSome = true
    cases hrc : s.rc c with
    | none =>
      obtain ⟨m, rfl⟩ : ∃ m, depth = m + 1 := ⟨depth - 1, by omega⟩
      simp only [crmMatrix, crmColumn, hrc, Option.bind_none] at h1
      cases h1
    | some r =>
      cases r with
      | cleared j => rfl
      | reduced vec =>
        show (((((productF D.ref (crmMatrix D.toOracle s.rc depth)).colF c).map _).map _).map _).isSome = true
        rw [h4]; rfl
  · show ((prodColumn D.ref.toOracle (crmMatrix D.toOracle s.rc depth) c).map _).isSome = true
    rw [h5]; rfl
  · show (((productF D.ref (crmMatrix D.toOracle s.rc depth)).colF c).map _).isSome = true
    rw [h4]; rfl

/-! ### C71: lazy and eager reading agree on matrices without interior mutability -/

theorem query_plain {σ : Type} (D : FOracle CF T T F) (rc : T → Option (RedCol CF T)) (depth : ℕ) (s0 : σ) (q : CrmQuery T) :
    Lazy.Computes (q.lazy (Lazy.plain D) rc depth) (q.eager D rc depth) (· = s0) (· = s0) := by
  cases q with
  | vColumn c => exact (Lazy.plain_crm D s0 rc depth c).collect.map _
  | isCycle c =>
    refine Lazy.Computes.map ((Lazy.Computes.lift (rc c) _).bind fun r hc => ?_) _
    cases r with
    | cleared j => exact Lazy.Computes.ret _ _
    | reduced vec => exact ((Lazy.plain_product D s0 rc depth c).1.collect.map _).map _
  | rColumn c => exact (Lazy.plain_product D s0 rc depth c).2.collect.map _
  | rEntries c => exact (Lazy.plain_product D s0 rc depth c).1.collect.map _

theorem answers_plain {σ : Type} (D : FOracle CF T T F) (rc : T → Option (RedCol CF T)) (depth : ℕ) (s0 : σ) (qs : List (CrmQuery T)) :
    Lazy.Computes (lazyAnswers (Lazy.plain D) rc depth qs) (mapOpt (fun q => q.eager D rc depth) qs) (· = s0) (· = s0) := by
  induction qs with
  | nil => exact Lazy.Computes.ret _ _
  | cons q qs ih => exact (query_plain D rc depth s0 q).bind fun a _ => ih.map fun as => a :: as

/-- C71. For any matrix whose columns are plain lists, any basis, order and list of dimensions, and any shared state `s0`: the reductions and the reads of the clearing matrix and of its product with the boundary,
with every iterator advanced item by item (so that the product pulls its two factors alternately), return exactly what the model with whole lists returns, fail exactly when it fails, and leave the state alone. -/
theorem C71_lazy_is_eager {σ : Type} (D : FOracle CF T T F) (s0 : σ) :
    (∀ (B : Basis T) (fuel : ℕ → ℕ) (rev : Bool),
      (∀ r, standardAlgoWithDiagram D B fuel rev = some r → Lazy.Returns (Lazy.standardAlgoWithDiagram (Lazy.plain D) B fuel rev) s0 r (· = s0)) ∧
      (standardAlgoWithDiagram D B fuel rev = none → Lazy.Fails (Lazy.standardAlgoWithDiagram (Lazy.plain D) B fuel rev) s0)) ∧
    (∀ (B : SplitBasis T) (fuel : ℕ) (dims : List ℕ),
      (∀ r, buildWithDiagram D B fuel dims = some r → Lazy.Returns (Lazy.buildWithDiagram (Lazy.plain D) B fuel dims) s0 r (· = s0)) ∧
      (buildWithDiagram D B fuel dims = none → Lazy.Fails (Lazy.buildWithDiagram (Lazy.plain D) B fuel dims) s0)) ∧
    (∀ (rc : T → Option (RedCol CF T)) (depth : ℕ) (qs : List (CrmQuery T)),
      (∀ as, mapOpt (fun q => q.eager D rc depth) qs = some as → Lazy.Returns (lazyAnswers (Lazy.plain D) rc depth qs) s0 as (· = s0)) ∧
      (mapOpt (fun q => q.eager D rc depth) qs = none → Lazy.Fails (lazyAnswers (Lazy.plain D) rc depth qs) s0)) :=
  ⟨fun _ _ _ => (Lazy.standardAlgoWithDiagram_computes (Lazy.Matches.plain D s0) (fun _ _ _ _ => trivial) fun _ => False).returns rfl,
    fun _ _ dims => ((Lazy.plain_clrAll dims _).map _).returns rfl, fun rc depth qs => (answers_plain D rc depth s0 qs).returns rfl⟩

end

/-! ### The filled triangle with a cached boundary -/
namespace Example

/-- Hypotheses of C69 and C70. -/
example : letI := listHeap
    ∃ rc, SplitComplex (ZMod 3) D B fv (fun c => lcOf (ZMod 3) (cols.getD c [])) deg (-1) [2, 1, 0] els ∧ buildWithDiagram D B 4 [2, 1, 0] = some (rc, ⟨{0}, {(1, 3), (2, 4), (5, 6)}⟩) := by
  letI := listHeap
  have h : (buildWithDiagram D B 4 [2, 1, 0]).map Prod.snd = some ⟨{0}, {(1, 3), (2, 4), (5, 6)}⟩ := by decide +kernel
  obtain ⟨⟨rc, _⟩, h1, rfl⟩ := Option.map_eq_some_iff.1 h
  exact ⟨rc, split, h1⟩

/-- Running clearing with a cached boundary: the diagram, and the columns the boundary was asked for (not the births 1, 2, 5). -/
example : letI := listHeap
    (Lazy.buildWithDiagram (Lazy.cached D) B 4 [2, 1, 0] 20 CacheState.init).map (fun p => (p.1.2, p.2.log, p.2.borrowed)) =
      some (⟨{0}, {(1, 3), (2, 4), (5, 6)}⟩, [6, 3, 4, 0], false) := by decide +kernel

/-- The standard algorithm asks for all seven columns, once each. -/
example : letI := listHeap
    (Lazy.standardAlgoWithDiagram (Lazy.cached D) (vecVecBasis cols) (fun _ => 9) false 20 CacheState.init).map (fun p => (p.1.2, p.2.log, p.2.borrowed)) =
      some (⟨{0}, {(1, 3), (2, 4), (5, 6)}⟩, [0, 1, 2, 3, 4, 5, 6], false) := by decide +kernel

def showAnswers (r : Option ((Diagram ℕ × List (CrmAnswer (ZP 3) ℕ ℕ)) × CacheState (ZP 3) ℕ ℕ)) : Option (List (List (ZP 3 × ℕ) × Option Bool)) :=
  r.map fun p => p.1.2.map fun
    | .column l => (l, none)
    | .flag b => ([], some b)
    | .entries es => (es.map fun e => (e.coeff, e.row), none)

/-- The reads of C70: the column of `V` at the birth 5 and `col_is_cycle` are fine, as is the product at the death 6 ... -/
example : letI := listHeap
    showAnswers (Lazy.buildAndRead (Lazy.cached D) B 4 [2, 1, 0] 2 [.vColumn 5, .isCycle 5, .rColumn 6, .rEntries 4] 20 CacheState.init) =
      some [([(o, 5), (t, 4), (o, 3)], none), ([], some true), ([(o, 5), (t, 4), (o, 3)], none), ([(o, 2), (t, 0)], none)] := by decide +kernel

/-- ... the product at the birth 5 panics; without the cache it is the empty chain, listed as six cancelling entries. -/
example : letI := listHeap
    (Lazy.buildAndRead (Lazy.cached D) B 4 [2, 1, 0] 2 [.rColumn 5] 50 CacheState.init).isNone ∧
    showAnswers ((Lazy.buildAndRead (Lazy.plain D) B 4 [2, 1, 0] 2 [.rColumn 5] 50 (CacheState.init (CF := ZP 3) (Row := ℕ)))) =
      some [([(o, 2), (t, 1), (t, 2), (o, 0), (o, 1), (t, 0)], none)] := by decide +kernel

end Example
end Phlite
