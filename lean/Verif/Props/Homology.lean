/-
Property theorems C25, C26: diagrams count persistent Betti numbers; homology and cohomology give the same diagram.
-/
import Verif.Spec.Barcode
import Verif.Theory.Barcode
import Verif.Proofs.Reverse

set_option linter.unusedSectionVars false
set_option linter.unusedSimpArgs false

namespace Phlite
open Finsupp (single linearCombination linearCombination_single)
open OrderDual (toDual ofDual)

section
variable {CF T F K : Type} [NonZeroCoeff CF] [Field K] [LawfulCoeff CF K] [LinearOrder F] [LinearOrder T]
variable {D : FOracle CF T T F} {f : T → F} {M N : T → (T →₀ K)} {deg : T → ℤ} {ε : ℤ}

theorem mem_cellsOf {all : List T} {d : ℤ} {x : T} : x ∈ cellsOf deg all d ↔ x ∈ all ∧ deg x = d := by simp [cellsOf]

/-- A diagram consisting of the persistence pairs and the unpaired cells counts persistent Betti numbers. -/
theorem barsAlive_eq {all : List T} (hnd : all.Nodup) (hdeg : ∀ c ∈ all, ∀ r, M c r ≠ 0 → deg r = deg c + ε)
    (hsort : ∀ d : ℤ, (all.filter fun x => deg x = d).Pairwise fun a b => rowKey f a < rowKey f b) {p q : ℤ} (hpq : p = q + ε)
    (hrows : ∀ y ∈ all, deg y = q → ∀ r, M y r ≠ 0 → r ∈ all) (hsq : ∀ y ∈ all, deg y = q → linearCombination K M (M y) = 0)
    {dgm : Diagram T} (hp : ∀ r c, (r, c) ∈ dgm.pairings ↔ IsPersistencePair (rowKey f) all M r c)
    (he : ∀ x, x ∈ dgm.essential ↔ IsDependent all M x ∧ ∀ c, ¬ IsPersistencePair (rowKey f) all M x c) {s t : F} (hst : s ≤ t) :
    persistentBetti M (sublevel_mono f (cellsOf deg all) p hst) (sublevel_mono f (cellsOf deg all) q hst) = barsAlive deg f dgm p s t := by
  classical
  have hk := rowKey_injective f
  have h1 : ∀ x y, IsPersistencePair (rowKey f) (cellsOf deg all q) M x y ↔ IsPersistencePair (rowKey f) all M x y ∧ deg x = p := by
    intro x y
    constructor
    · intro h
      have hy : y ∈ cellsOf deg all q := by obtain ⟨a, b, e, _⟩ := h; rw [e]; simp
      have h' := (pair_filter hk hnd hdeg (mem_cellsOf.1 hy).2).2 h
      exact ⟨h', by rw [(pair_deg hk hnd hdeg h').2.1, (mem_cellsOf.1 hy).2, hpq]⟩
    · rintro ⟨h, hx⟩
      have := (pair_deg hk hnd hdeg h).2.1
      exact (pair_filter hk hnd hdeg (by omega)).1 h
  have h2 : ∀ ρ x, deg x = p → (IsPersistencePair (rowKey f) (cellsOf deg all p) M ρ x ↔ IsPersistencePair (rowKey f) all M ρ x) :=
    fun ρ x hx => (pair_filter hk hnd hdeg hx).symm
  have hb : ∀ x y, IsPersistencePair (rowKey f) (cellsOf deg all q) M x y → x ∈ all ∧ IsDependent all M x := by
    intro x y hxy
    obtain ⟨h3, h4⟩ := (h1 x y).1 hxy
    have h5 := (pair_deg hk hnd hdeg h3).2.1
    have hyq : deg y = q := by omega
    exact birth_dependent hk hnd hdeg hsort (fun x hx hx' => hrows x hx (by rw [hx', hyq]))
        (fun x hx hx' => hsq x hx (by rw [hx', hyq])) h3
  rw [barcode_core (P := dgm.pairings.filter fun x => deg x.1 = p) (E := dgm.essential.filter fun x => deg x = p)
    (hsort p) (hsort q) ?_ ?_ ?_ ?_ ?_ hst]
  · unfold barsAlive
    rw [Finset.filter_filter, Finset.filter_filter]
  · intro y hy r hr
    obtain ⟨h3, h4⟩ := mem_cellsOf.1 hy
    exact mem_cellsOf.2 ⟨hrows y h3 h4 r hr, by rw [hdeg y h3 r hr, h4, hpq]⟩
  · intro y hy
    obtain ⟨h3, h4⟩ := mem_cellsOf.1 hy
    exact hsq y h3 h4
  · rintro x y hxy ⟨ρ, hρ⟩
    obtain ⟨h3, h4⟩ := hb x y hxy
    exact (death_iff hk hnd M h3).1 h4 ⟨ρ, (h2 ρ x ((h1 x y).1 hxy).2).1 hρ⟩
  · intro x y
    simp only [Finset.mem_filter]
    rw [h1, hp]
  · intro x
    simp only [Finset.mem_filter]
    rw [he]
    constructor
    · rintro ⟨⟨h3, h4⟩, h5⟩
      refine ⟨mem_cellsOf.2 ⟨h3.mem, h5⟩, ?_, ?_⟩
      · rintro ⟨ρ, hρ⟩
        exact (death_iff hk hnd M h3.mem).1 h3 ⟨ρ, (h2 ρ x h5).1 hρ⟩
      · rintro ⟨y, hy⟩
        exact h4 y ((h1 x y).1 hy).1
    · rintro ⟨h3, h4, h5⟩
      obtain ⟨h6, h7⟩ := mem_cellsOf.1 h3
      refine ⟨⟨(death_iff hk hnd M h6).2 fun ⟨ρ, hρ⟩ => h4 ⟨ρ, (h2 ρ x h7).2 hρ⟩, fun c hc => h5 ⟨c, (h1 x c).2 ⟨hc, h7⟩⟩⟩, h7⟩

variable [StdHeap]

/-- C25 for the clearing algorithm: the bars of degree `p` born by `s` and alive at `t` are counted by the persistent Betti number. -/
theorem C25_clearing {B : SplitBasis T} {dims : List ℕ} {els : ℕ → List T} (hC : SplitComplex K D B f M deg ε dims els)
    {fuel : Nat} {rc : T → Option (RedCol CF T)} {dgm : Diagram T} (h : buildWithDiagram D B fuel dims = some (rc, dgm))
    {p : ℕ} (hp : p ∈ dims) {q : ℤ} (hpq : (p : ℤ) = q + ε) {s t : F} (hst : s ≤ t) :
    persistentBetti M (sublevel_mono f (cellsOf deg (dims.flatMap els)) p hst) (sublevel_mono f (cellsOf deg (dims.flatMap els)) q hst) =
      barsAlive deg f dgm p s t := by
  have hnd := flatMap_nodup hC
  obtain ⟨hP, hE⟩ := clearing_diagram hC h hnd (fun d hd => flatMap_filter hC.nodup hC.deg_els hd) (split_hdims hC)
  refine barsAlive_eq hnd (split_deg hC) (split_sorted hC) hpq ?_ ?_ hP hE hst
  · intro y hy hyq r hr
    obtain ⟨d, hd, hyd⟩ := List.mem_flatMap.1 hy
    have e := hC.deg_els d hd y hyd
    exact List.mem_flatMap.2 ⟨p, hp, (hC.row_of_ne hd hyd hr).2 p hp (by omega)⟩
  · intro y hy hyq
    obtain ⟨d, hd, hyd⟩ := List.mem_flatMap.1 hy
    have e := hC.deg_els d hd y hyd
    exact hC.sq d hd p hp (by omega) y hyd

/-- C25 for the standard algorithm. -/
theorem C25_standard {B : Basis T} {all : List T} (hF : FiniteMatrix K D B f M all)
    (hdeg : ∀ c ∈ all, ∀ r, M c r ≠ 0 → deg r = deg c + ε)
    (hsort : ∀ d : ℤ, (all.filter fun x => deg x = d).Pairwise fun a b => rowKey f a < rowKey f b)
    (hfull : ∀ c ∈ all, ∀ r, M c r ≠ 0 → r ∈ all) (hsq : ∀ c ∈ all, linearCombination K M (M c) = 0) (hrows : RowsBefore all M)
    {fuel : Nat → Nat} {v : T → Option (List (CF × T))} {dgm : Diagram T} (h : standardAlgoWithDiagram D B fuel false = some (v, dgm))
    {p q : ℤ} (hpq : p = q + ε) {s t : F} (hst : s ≤ t) :
    persistentBetti M (sublevel_mono f (cellsOf deg all) p hst) (sublevel_mono f (cellsOf deg all) q hst) = barsAlive deg f dgm p s t :=
  barsAlive_eq hF.nodup hdeg hsort hpq (fun y hy _ => hfull y hy) (fun y hy _ => hsq y hy) (C18_pairings hF h)
    (C19_essential hF hrows h) hst

/-! ### C26: duality -/

/-- C26 for the standard algorithm: the run on the reversed coboundary matrix (with the reversed basis) pairs the same cells as the run
on the boundary matrix, with birth and death exchanged. -/
theorem C26_standard {cells : ℤ → List T} (hX : CellComplex K f deg cells M N) {B B' : Basis T} {D' : FOracle CF T T F}
    {all all' : List T} (hF : FiniteMatrix K D B f M all) (hF' : FiniteMatrix K D' B' f N all')
    (hall : ∀ d, all.filter (fun x => deg x = d) = cells d) (hall' : ∀ d, all'.filter (fun x => deg x = d) = cells d)
    {fuel fuel' : Nat → Nat} {rev rev' : Bool} {v : T → Option (List (CF × T))} {v' : Tᵒᵈ → Option (List (CF × Tᵒᵈ))}
    {dgm : Diagram T} {dgm' : Diagram Tᵒᵈ} (h : standardAlgoWithDiagram D B fuel rev = some (v, dgm))
    (h' : standardAlgoWithDiagram D'.reverse B'.reverse fuel' rev' = some (v', dgm')) (σ τ : T) :
    (toDual τ, toDual σ) ∈ dgm'.pairings ↔ (σ, τ) ∈ dgm.pairings := by
  have hk := rowKey_injective f
  rw [C18_pairings hF h, C18_pairings hF'.reverse h']
  have hdeg : ∀ c ∈ all, ∀ r, M c r ≠ 0 → deg r = deg c + (-1) := by
    intro c hc r hr
    have h1 : c ∈ cells (deg c) := by rw [← hall]; simp [hc]
    rw [hX.deg_cells _ _ (hX.rowsM _ c h1 r hr)]; ring
  have hdeg' : ∀ c ∈ all'.reverse.map toDual, ∀ r, dualCols N c r ≠ 0 → deg (ofDual r) = deg (ofDual c) + 1 := by
    intro c hc r hr
    obtain ⟨x, hx, rfl⟩ := List.mem_map.1 hc
    have h1 : x ∈ cells (deg x) := by rw [← hall']; simpa using hx
    exact hX.deg_cells _ _ (hX.rowsN _ x h1 (ofDual r) (dualCols_ne.1 hr))
  have hfil : ∀ d : ℤ, (all'.reverse.map toDual).filter (fun x => deg (ofDual x) = d) = (cells d).reverse.map toDual := by
    intro d
    rw [List.filter_map, ← hall' d, List.filter_reverse]; rfl
  constructor
  · intro hp
    rw [pair_filter (rowKey_injective (dualFilt f)) hF'.reverse.nodup hdeg' (d := deg σ) (c := toDual σ) rfl, hfil] at hp
    obtain ⟨h1, h2⟩ := hX.copair_mem hp
    have hp := (hX.dual h1 h2).1 hp
    rwa [pair_filter hk hF.nodup hdeg (d := deg σ + 1) (hX.deg_cells _ _ h2), hall]
  · intro hp
    rw [pair_filter hk hF.nodup hdeg (d := deg τ) rfl, hall] at hp
    obtain ⟨h1, h2⟩ := hX.pair_mem hp
    have h3 : deg τ = deg σ + 1 := by rw [hX.deg_cells _ _ h2]; ring
    rw [h3] at hp h1
    have hσ : σ ∈ cells (deg σ) := by rw [hX.deg_cells _ _ h2]; exact h2
    rw [pair_filter (rowKey_injective (dualFilt f)) hF'.reverse.nodup hdeg' (d := deg σ) (c := toDual σ) rfl, hfil]
    exact (hX.dual hσ h1).2 hp

/-- The diagram of a clearing run, one dimension at a time. -/
theorem clearing_pair_dim {B : SplitBasis T} {dims : List ℕ} {els : ℕ → List T} (hC : SplitComplex K D B f M deg ε dims els)
    {fuel : Nat} {rc : T → Option (RedCol CF T)} {dgm : Diagram T} (h : buildWithDiagram D B fuel dims = some (rc, dgm)) :
    (∀ r c, (r, c) ∈ dgm.pairings ↔ ∃ d ∈ dims, IsPersistencePair (rowKey f) (els d) M r c) ∧
    (∀ x, x ∈ dgm.essential ↔ ∃ d ∈ dims, IsDependent (els d) M x ∧
      ∀ d' ∈ dims, (d' : ℤ) + ε = d → ∀ c, ¬ IsPersistencePair (rowKey f) (els d') M x c) := by
  have hk := rowKey_injective f
  have hnd := flatMap_nodup hC
  have hfil : ∀ d ∈ dims, (dims.flatMap els).filter (fun x => deg x = (d : ℤ)) = els d := fun d hd => flatMap_filter hC.nodup hC.deg_els hd
  obtain ⟨hP, hE⟩ := clearing_diagram hC h hnd hfil (split_hdims hC)
  have hP' : ∀ r c, (r, c) ∈ dgm.pairings ↔ ∃ d ∈ dims, IsPersistencePair (rowKey f) (els d) M r c := by
    intro r c
    rw [hP]
    constructor
    · intro hp
      obtain ⟨d, hd, e⟩ := split_hdims hC c (pair_deg hk hnd (split_deg hC) hp).1
      refine ⟨d, hd, ?_⟩
      rwa [pair_filter hk hnd (split_deg hC) e, hfil d hd] at hp
    · rintro ⟨d, hd, hp⟩
      have hc : c ∈ els d := by obtain ⟨a, b, e, _⟩ := hp; rw [e]; simp
      rwa [pair_filter hk hnd (split_deg hC) (hC.deg_els d hd c hc), hfil d hd]
  refine ⟨hP', ?_⟩
  intro x
  rw [hE]
  constructor
  · rintro ⟨h1, h2⟩
    obtain ⟨d, hd, e⟩ := split_hdims hC x h1.mem
    refine ⟨d, hd, ?_, ?_⟩
    · rwa [dependent_filter hk hnd (split_deg hC) e, hfil d hd] at h1
    · intro d' hd' _ c hc
      exact h2 c ((hP x c).1 ((hP' x c).2 ⟨d', hd', hc⟩))
  · rintro ⟨d, hd, h1, h2⟩
    have hx := hC.deg_els d hd x h1.mem
    refine ⟨by rwa [dependent_filter hk hnd (split_deg hC) hx, hfil d hd], ?_⟩
    intro c hc
    obtain ⟨d', hd', hp⟩ := (hP' x c).1 ((hP x c).2 hc)
    have hc' : c ∈ els d' := by obtain ⟨a, b, e, _⟩ := hp; rw [e]; simp
    have e := (pair_deg hk hnd (split_deg hC) hc).2.1
    have e2 := hC.deg_els d' hd' c hc'
    exact h2 d' hd' (by omega) c hp

/-- C26 for the clearing algorithm, run on the boundary matrix in the dimensions `dims` and on the reversed coboundary matrix in
the dimensions `dims'`. -/
theorem C26_clearing {cells : ℤ → List T} (hX : CellComplex K f deg cells M N) {B B' : SplitBasis T} {D' : FOracle CF T T F}
    {dims dims' : List ℕ} (hC : SplitComplex K D B f M deg (-1) dims fun d => cells d)
    (hC' : SplitComplex K D' B' f N deg 1 dims' fun d => cells d)
    {fuel fuel' : Nat} {rc : T → Option (RedCol CF T)} {rc' : Tᵒᵈ → Option (RedCol CF Tᵒᵈ)}
    {dgm : Diagram T} {dgm' : Diagram Tᵒᵈ} (h : buildWithDiagram D B fuel dims = some (rc, dgm))
    (h' : buildWithDiagram D'.reverse B'.reverse fuel' dims' = some (rc', dgm')) {d : ℕ} (hd : d + 1 ∈ dims) (hd' : d ∈ dims')
    {σ : T} (hσ : deg σ = d) (τ : T) :
    (toDual τ, toDual σ) ∈ dgm'.pairings ↔ (σ, τ) ∈ dgm.pairings := by
  rw [(clearing_pair_dim hC'.reverse h').1, (clearing_pair_dim hC h).1]
  constructor
  · rintro ⟨e, he, hp⟩
    obtain ⟨h1, h2⟩ := hX.copair_mem hp
    have : (e : ℤ) = d := by rw [← hX.deg_cells _ _ h1, hσ]
    refine ⟨d + 1, hd, ?_⟩
    have := (hX.dual h1 h2).1 hp
    simp only [Nat.cast_add, Nat.cast_one]
    rwa [‹(e : ℤ) = d›] at this
  · rintro ⟨e, he, hp⟩
    obtain ⟨h1, h2⟩ := hX.pair_mem hp
    have e1 : (e : ℤ) = d + 1 := by
      have := hX.deg_cells _ _ h2
      omega
    rw [e1] at hp h1 h2
    rw [add_sub_cancel_right] at h2
    exact ⟨d, hd', (hX.dual h2 h1).2 hp⟩

/-- C26: the run on the reversed coboundary matrix counts persistent *homology*: if dimension `p`, and dimension `p - 1` unless empty, are
among the processed dimensions, then the bars of degree `p` are counted by the persistent Betti numbers in degree `p`. Dimension `p + 1`
need not be processed. -/
theorem C26_betti {cells : ℤ → List T} (hX : CellComplex K f deg cells M N) {B' : SplitBasis T} {D' : FOracle CF T T F}
    {dims' : List ℕ} (hC' : SplitComplex K D' B' f N deg 1 dims' fun d => cells d)
    {fuel' : Nat} {rc' : Tᵒᵈ → Option (RedCol CF Tᵒᵈ)}
    {dgm' : Diagram Tᵒᵈ} (h' : buildWithDiagram D'.reverse B'.reverse fuel' dims' = some (rc', dgm')) {p : ℕ} (hp : p ∈ dims')
    (hprev : cells (p - 1) = [] ∨ ∃ p' ∈ dims', (p' : ℤ) = p - 1) {s t : F} (hst : s ≤ t) :
    persistentBetti M (sublevel_mono f cells p hst) (sublevel_mono f cells (p + 1) hst) = barsAliveRev deg f dgm' p s t := by
  classical
  have hk := rowKey_injective f
  obtain ⟨hP, hE⟩ := clearing_pair_dim hC'.reverse h'
  have hnd : ∀ d, (cells d).Nodup := fun d => sorted_nodup (hX.sorted d)
  -- pairs of the reversed coboundary
  have h1 : ∀ σ τ, deg σ = p → ((toDual τ, toDual σ) ∈ dgm'.pairings ↔ IsPersistencePair (rowKey f) (cells (p + 1)) M σ τ) := by
    intro σ τ hσ
    rw [hP]
    constructor
    · rintro ⟨e, he, hq⟩
      obtain ⟨h1, h2⟩ := hX.copair_mem hq
      have e1 : (e : ℤ) = p := by rw [← hX.deg_cells _ _ h1, hσ]
      have := (hX.dual h1 h2).1 hq
      rwa [e1] at this
    · intro hq
      obtain ⟨h1, h2⟩ := hX.pair_mem hq
      rw [add_sub_cancel_right] at h2
      exact ⟨p, hp, (hX.dual h2 h1).2 hq⟩
  have hmem : ∀ σ τ, IsPersistencePair (rowKey f) (cells (p + 1)) M σ τ → σ ∈ cells p ∧ τ ∈ cells (p + 1) := by
    intro σ τ hq
    obtain ⟨h1, h2⟩ := hX.pair_mem hq
    rw [add_sub_cancel_right] at h2
    exact ⟨h2, h1⟩
  -- a birth is not a death
  have hbirth : ∀ x y, IsPersistencePair (rowKey f) (cells (p + 1)) M x y → ¬ ∃ ρ, IsPersistencePair (rowKey f) (cells p) M ρ x := by
    rintro x y hxy ⟨ρ, hρ⟩
    have hnd2 : (cells p ++ cells (p + 1)).Nodup := by
      refine List.nodup_append.2 ⟨hnd _, hnd _, ?_⟩
      rintro a ha b hb rfl
      have := hX.deg_cells _ _ ha
      have := hX.deg_cells _ _ hb
      omega
    have hdeg : ∀ c ∈ cells p ++ cells (p + 1), ∀ r, M c r ≠ 0 → deg r = deg c + (-1) := by
      intro c hc r hr
      rcases List.mem_append.1 hc with h | h
      · rw [hX.deg_cells _ _ h, hX.deg_cells _ _ (hX.rowsM _ _ h _ hr)]; ring
      · rw [hX.deg_cells _ _ h, hX.deg_cells _ _ (hX.rowsM _ _ h _ hr)]; ring
    have hf1 : (cells p ++ cells (p + 1)).filter (fun x => deg x = (p : ℤ)) = cells p := by
      rw [List.filter_append, List.filter_eq_self.2, List.filter_eq_nil_iff.2, List.append_nil]
      · intro a ha; have := hX.deg_cells _ _ ha; simp; omega
      · intro a ha; simpa using hX.deg_cells _ _ ha
    have hf2 : (cells p ++ cells (p + 1)).filter (fun x => deg x = (p : ℤ) + 1) = cells (p + 1) := by
      rw [List.filter_append, List.filter_eq_nil_iff.2, List.filter_eq_self.2, List.nil_append]
      · intro a ha; simpa using hX.deg_cells _ _ ha
      · intro a ha; have := hX.deg_cells _ _ ha; simp; omega
    have hsort : ∀ d : ℤ, ((cells p ++ cells (p + 1)).filter fun x => deg x = d).Pairwise fun a b => rowKey f a < rowKey f b := by
      intro d
      by_cases e1 : d = p
      · subst e1; rw [hf1]; exact hX.sorted _
      by_cases e2 : d = p + 1
      · subst e2; rw [hf2]; exact hX.sorted _
      rw [List.filter_eq_nil_iff.2]
      · exact List.Pairwise.nil
      · intro a ha
        rcases List.mem_append.1 ha with h | h <;> have := hX.deg_cells _ _ h <;> simp <;> omega
    obtain ⟨hx, hy⟩ := hmem x y hxy
    have hdx := hX.deg_cells _ _ hx
    have hdy := hX.deg_cells _ _ hy
    have q1 : IsPersistencePair (rowKey f) (cells p ++ cells (p + 1)) M x y := by
      rwa [pair_filter hk hnd2 hdeg hdy, hf2]
    have q2 : IsPersistencePair (rowKey f) (cells p ++ cells (p + 1)) M ρ x := by
      rwa [pair_filter hk hnd2 hdeg hdx, hf1]
    obtain ⟨b1, b2⟩ := birth_dependent hk hnd2 hdeg hsort (by
      intro z hz hzy r hr
      rcases List.mem_append.1 hz with h | h
      · have := hX.deg_cells _ _ h; omega
      · refine List.mem_append_left _ ?_
        have := hX.rowsM _ _ h _ hr
        rwa [add_sub_cancel_right] at this) (by
      intro z hz _
      rcases List.mem_append.1 hz with h | h
      · exact hX.sq _ _ h
      · exact hX.sq _ _ h) q1
    exact (death_iff hk hnd2 M b1).1 b2 ⟨ρ, q2⟩
  rw [barcode_core (cells := cells) (f := f) (M := M) (p := p) (q := p + 1)
    (P := (dgm'.pairings.filter fun x => deg (ofDual x.2) = p).image fun x => (ofDual x.2, ofDual x.1))
    (E := (dgm'.essential.filter fun x => deg (ofDual x) = p).image ofDual) (hX.sorted _) (hX.sorted _) ?_ (hX.sq _) hbirth ?_ ?_ hst]
  · unfold barsAliveRev
    rw [Finset.filter_image, Finset.filter_image, Finset.filter_filter, Finset.filter_filter, Finset.card_image_of_injective,
      Finset.card_image_of_injective]
    · rintro ⟨a, b⟩ ⟨a', b'⟩ h
      simp only [Prod.mk.injEq] at h
      exact Prod.ext (OrderDual.ofDual_inj.1 h.2) (OrderDual.ofDual_inj.1 h.1)
    · exact ofDual.injective
  · intro y hy r hr
    have := hX.rowsM _ _ hy _ hr
    rwa [add_sub_cancel_right] at this
  · intro x y
    simp only [Finset.mem_image, Finset.mem_filter, Prod.mk.injEq, Prod.exists]
    constructor
    · rintro ⟨a, b, ⟨h2, h3⟩, rfl, rfl⟩
      exact (h1 (ofDual b) (ofDual a) h3).1 h2
    · intro hxy
      have hdx := hX.deg_cells _ _ (hmem x y hxy).1
      exact ⟨toDual y, toDual x, ⟨(h1 x y hdx).2 hxy, hdx⟩, rfl, rfl⟩
  · intro x
    simp only [Finset.mem_image, Finset.mem_filter]
    have hrnd : ((cells p).reverse.map toDual).Nodup := (List.nodup_reverse.2 (hnd p)).map (toDual : T ≃ Tᵒᵈ).injective
    constructor
    · rintro ⟨a, ⟨h2, h3⟩, rfl⟩
      obtain ⟨e, he, g1, g2⟩ := (hE a).1 h2
      obtain ⟨x, hx, rfl⟩ := List.mem_map.1 g1.mem
      have hx : x ∈ cells e := by simpa using hx
      have e1 : (e : ℤ) = p := by rw [← hX.deg_cells _ _ hx]; exact h3
      have e2 : e = p := by exact_mod_cast e1
      subst e2
      refine ⟨hx, ?_, ?_⟩
      · rintro ⟨ρ, hρ⟩
        have hm := (hX.pair_mem hρ).2
        rcases hprev with h | ⟨p', hp', e3⟩
        · simp [h] at hm
        · refine g2 p' hp' (by omega) (toDual ρ) ?_
          rw [e3]
          refine (hX.dual hm (by rw [sub_add_cancel]; exact hx)).2 ?_
          rwa [sub_add_cancel]
      · rintro ⟨y, hy⟩
        refine (death_iff (rowKey_injective (dualFilt f)) hrnd _ g1.mem).1 g1 ⟨toDual y, ?_⟩
        exact (hX.dual hx (hmem _ _ hy).2).2 hy
    · rintro ⟨hx, g1, g2⟩
      refine ⟨toDual x, ⟨(hE _).2 ⟨p, hp, ?_, ?_⟩, hX.deg_cells _ _ hx⟩, rfl⟩
      · refine (death_iff (rowKey_injective (dualFilt f)) hrnd _ (List.mem_map_of_mem (by simpa using hx))).2 ?_
        rintro ⟨y, hy⟩
        obtain ⟨m1, m2⟩ := hX.copair_mem (τ := ofDual y) hy
        exact g2 ⟨ofDual y, (hX.dual m1 m2).1 hy⟩
      · intro d' hd' e1 c hc
        obtain ⟨m1, m2⟩ := hX.copair_mem (σ := ofDual c) hc
        have := (hX.dual m1 m2).1 hc
        rw [e1] at this
        exact g1 ⟨ofDual c, this⟩

end

/-! ### Non-vacuity: the filled triangle -/
namespace Example

/-- Coboundaries of the filled triangle: the transpose of `cols`. -/
abbrev cocols : List (List (ZP 3 × Nat)) := [[(t, 3), (t, 4)], [(o, 3), (t, 5)], [(o, 4), (o, 5)], [(o, 6)], [(t, 6)], [(o, 6)], []]
abbrev coD : FOracle (ZP 3) Nat Nat Nat := (vecVecMatrix cocols).withFunc fun i => some (fv i)
/-- The cells of the filled triangle, in integer degrees. -/
def cells : ℤ → List Nat
  | .ofNat d => els d
  | .negSucc _ => []

theorem lcOf_apply {CF K Row : Type} [NonZeroCoeff CF] [Field K] [LawfulCoeff CF K] [DecidableEq Row] (l : List (CF × Row)) (r : Row) :
    lcOf K l r = (l.map fun t => if t.2 = r then LawfulCoeff.val t.1 else 0).sum := by
  induction l with
  | nil => rfl
  | cons x l ih => rw [lcOf_cons, Finsupp.add_apply, ih, Finsupp.single_apply, List.map_cons, List.sum_cons]

theorem cells_cases {d : ℤ} {c : Nat} (h : c ∈ cells d) : ∃ e : ℕ, e < 3 ∧ d = e ∧ c ∈ els e := by
  match d, h with
  | .ofNat e, h =>
    refine ⟨e, ?_, rfl, h⟩
    by_contra hh
    have h : c ∈ els e := h
    simp only [els] at h
    rw [if_neg (by omega), if_neg (by omega), if_neg (by omega)] at h
    cases h

theorem complex : CellComplex (ZMod 3) fv deg cells (fun c => lcOf (ZMod 3) (cols.getD c [])) (fun c => lcOf (ZMod 3) (cocols.getD c [])) where
  deg_cells d c hc := by
    obtain ⟨e, he, rfl, h⟩ := cells_cases hc
    exact (by decide : ∀ e < 3, ∀ c ∈ els e, deg c = (e : ℤ)) e he c h
  sorted d := by
    match d with
    | .negSucc _ => exact List.Pairwise.nil
    | .ofNat 0 => show (els 0).Pairwise _; decide
    | .ofNat 1 => show (els 1).Pairwise _; decide
    | .ofNat 2 => show (els 2).Pairwise _; decide
    | .ofNat (n + 3) => exact List.Pairwise.nil
  rowsM d c hc r hr := by
    obtain ⟨e, he, rfl, h⟩ := cells_cases hc
    obtain ⟨u, hu, rfl⟩ := lcOf_support hr
    exact (by decide : ∀ e < 3, ∀ c ∈ els e, ∀ u ∈ cols.getD c [], u.2 ∈ cells ((e : ℕ) - 1 : ℤ)) e he c h u hu
  rowsN d c hc r hr := by
    obtain ⟨e, he, rfl, h⟩ := cells_cases hc
    obtain ⟨u, hu, rfl⟩ := lcOf_support hr
    exact (by decide : ∀ e < 3, ∀ c ∈ els e, ∀ u ∈ cocols.getD c [], u.2 ∈ cells ((e : ℕ) + 1 : ℤ)) e he c h u hu
  transpose d σ hσ τ hτ := by
    obtain ⟨e, he, rfl, h⟩ := cells_cases hσ
    obtain ⟨e', he', e1, h'⟩ := cells_cases hτ
    rw [lcOf_apply, lcOf_apply]
    exact (by decide +kernel : ∀ e < 3, ∀ σ ∈ els e, ∀ e' < 3, ∀ τ ∈ els e',
      ((cocols.getD σ []).map fun t => if t.2 = τ then (LawfulCoeff.val t.1 : ZMod 3) else 0).sum =
      ((cols.getD τ []).map fun t => if t.2 = σ then (LawfulCoeff.val t.1 : ZMod 3) else 0).sum) e he σ h e' he' τ h'
  sq d c hc := by
    obtain ⟨e, he, rfl, h⟩ := cells_cases hc
    exact sq_zero c ((by decide : ∀ e < 3, ∀ c ∈ els e, c < 7) e he c h)

/-- The coboundary matrix of the filled triangle, processed by increasing dimension, in the dimensions 0 and 1. -/
theorem cosplit : SplitComplex (ZMod 3) coD B fv (fun c => lcOf (ZMod 3) (cocols.getD c [])) deg 1 [0, 1] fun d => cells d where
  basis := by
    intro d _
    exact ⟨_, rfl, by
      simp only [Basis.elems, vecBasis]
      rename_i h
      revert h; revert d; decide⟩
  deg_els := by decide
  sorted := by decide
  good := by
    intro d hd c hc
    refine (vecVec_finiteMatrix cocols fv).reads c ?_
    revert hc; revert c; revert hd; revert d; decide
  rows := by
    intro d hd c hc l hl t ht
    have key : ∀ d ∈ [0, 1], ∀ c ∈ cells (d : ℕ), ∀ t ∈ cocols.getD c [], deg t.2 = (d : ℤ) + 1 ∧ ∀ d' ∈ ([0, 1] : List ℕ), (d' : ℤ) = d + 1 → t.2 ∈ cells d' := by
      decide
    have : l = cocols.getD c [] := by
      have hl : cocols[c]? = some l := hl
      simp [List.getD, hl]
    rw [this] at ht
    exact key d hd c hc t ht
  nodup := by decide
  order := by
    intro p d q h d' hd'
    match p, h with
    | [], _ => simp at hd'
    | [a], h => simp only [List.cons_append, List.nil_append, List.cons.injEq] at h; obtain ⟨rfl, rfl, _⟩ := h; simp at hd'; subst hd'; decide
    | a :: b :: p, h => simp at h
  shift := by decide
  sq := by
    intro d hd d' hd' e c hc
    have key : ∀ d ∈ ([0, 1] : List ℕ), ∀ d' ∈ ([0, 1] : List ℕ), (d' : ℤ) = d + 1 → d = 0 := by decide
    have hd0 := key d hd d' hd' e
    subst hd0
    have hc : c ∈ [0, 1, 2] := hc
    simp only [List.mem_cons, List.not_mem_nil, or_false] at hc
    rcases hc with rfl | rfl | rfl <;>
    · ext r
      simp only [cocols, List.getD, List.getElem?_cons_zero, List.getElem?_cons_succ, Option.getD_some, lcOf_cons, lcOf_nil, map_add, add_zero,
        linearCombination_single, Finsupp.smul_single, smul_add, smul_eq_mul, Finsupp.add_apply, Finsupp.single_apply, map_zero,
        Finsupp.coe_zero, Pi.zero_apply]
      by_cases h : (6 : ℕ) = r <;> simp only [h, if_true, if_false] <;> decide +kernel

theorem split' : SplitComplex (ZMod 3) D B fv (fun c => lcOf (ZMod 3) (cols.getD c [])) deg (-1) [2, 1, 0] fun d => cells d := split

/-- Boundary and reversed coboundary find the same pairs; the coboundary run processes dimensions 0 and 1 only. -/
example : letI := listHeap
    (buildWithDiagram D B 4 [2, 1, 0]).map Prod.snd = some ⟨{0}, {(1, 3), (2, 4), (5, 6)}⟩ ∧
    (buildWithDiagram coD.reverse B.reverse 4 [0, 1]).map Prod.snd =
      some ⟨{toDual 0}, {(toDual 3, toDual 1), (toDual 4, toDual 2), (toDual 6, toDual 5)}⟩ := by decide +kernel

/-- The hypotheses of C26_standard. -/
example : FiniteMatrix (ZMod 3) D (vecVecBasis cols) fv (fun c => lcOf (ZMod 3) (cols.getD c [])) (List.range 7) ∧
    FiniteMatrix (ZMod 3) coD (vecVecBasis cocols) fv (fun c => lcOf (ZMod 3) (cocols.getD c [])) (List.range 7) ∧
    (∀ d, (List.range 7).filter (fun x => deg x = d) = cells d) := by
  refine ⟨vecVec_finiteMatrix cols fv, vecVec_finiteMatrix cocols fv, ?_⟩
  intro d
  by_cases h : d = 0 ∨ d = 1 ∨ d = 2
  · rcases h with rfl | rfl | rfl <;> decide
  · have : cells d = [] := by
      rw [List.eq_nil_iff_forall_not_mem]
      intro c hc
      obtain ⟨e, he, rfl, _⟩ := cells_cases hc
      omega
    rw [this, List.filter_eq_nil_iff]
    intro c hc
    have : deg c = 0 ∨ deg c = 1 ∨ deg c = 2 := (by decide : ∀ c ∈ List.range 7, deg c = 0 ∨ deg c = 1 ∨ deg c = 2) c hc
    simp only [decide_eq_true_eq]
    omega

example : letI := listHeap
    (standardAlgoWithDiagram D (vecVecBasis cols) (fun i => i + 1) false).map Prod.snd = some ⟨{0}, {(1, 3), (2, 4), (5, 6)}⟩ ∧
    (standardAlgoWithDiagram coD.reverse (vecVecBasis cocols).reverse (fun i => i + 1) false).map Prod.snd =
      some ⟨{toDual 0}, {(toDual 3, toDual 1), (toDual 4, toDual 2), (toDual 6, toDual 5)}⟩ := by decide +kernel

/-- At filtration value 1 there are two components, one of which survives to 2; at filtration value 3 there is a loop, which is filled
at 5. -/
example : letI := listHeap
    ∀ {fuel rc dgm}, buildWithDiagram D B fuel [2, 1, 0] = some (rc, dgm) →
      persistentBetti (fun c => lcOf (ZMod 3) (cols.getD c [])) (sublevel_mono fv (cellsOf deg ([2, 1, 0].flatMap els)) ((0 : ℕ) : ℤ) (Nat.le_succ 1))
        (sublevel_mono fv (cellsOf deg ([2, 1, 0].flatMap els)) 1 (Nat.le_succ 1)) = barsAlive deg fv dgm (0 : ℕ) 1 2 :=
  fun h => @C25_clearing _ _ _ _ _ _ _ _ _ _ _ _ _ _ listHeap _ _ _ split _ _ _ h 0 (by decide) 1 (by decide) _ _ (Nat.le_succ 1)
end Example

end Phlite
