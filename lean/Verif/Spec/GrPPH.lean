/-
Specification: path homology of digraphs and the grounded persistent path homology of a filtration of digraphs, in terms of paths. Independent
of the model, except for the names of cells (`PathHom2Cell`).

`time a b` is the time at which the arrow `a → b` appears (`none` if it never does); vertices are `0, ..., n - 1`.
-/
import Verif.Model.GrPPH
import Verif.Spec.Persistence
import Mathlib.LinearAlgebra.Finsupp.LinearCombination

namespace Phlite
open Finsupp (single linearCombination supported)

section
variable {F : Type} [LinearOrder F]

/-- The arrows present at time `t`. -/
def arrows (n : ℕ) (time : ℕ → ℕ → Option F) (t : F) : Set (ℕ × ℕ) :=
  {e | e.1 < n ∧ e.2 < n ∧ ∃ x, time e.1 e.2 = some x ∧ x ≤ t}

theorem arrows_mono (n : ℕ) (time : ℕ → ℕ → Option F) {s t : F} (h : s ≤ t) : arrows n time s ⊆ arrows n time t := by
  rintro e ⟨h1, h2, x, h3, h4⟩
  exact ⟨h1, h2, x, h3, h4.trans h⟩

/-- `a → b → c` is a path from time `m` on. -/
def IsTwoPath (n : ℕ) (time : ℕ → ℕ → Option F) (a b c : ℕ) (m : F) : Prop :=
  a < n ∧ b < n ∧ c < n ∧ ∃ x y, time a b = some x ∧ time b c = some y ∧ m = max x y

/-- `b` is the primary bridge from `a` to `c`: among the paths `a → b → c`, it appears first (the smallest vertex among several), and
strictly before the arrow `a → c`. -/
def IsPrimaryBridge (n : ℕ) (time : ℕ → ℕ → Option F) (a c b : ℕ) : Prop :=
  ∃ m, IsTwoPath n time a b c m ∧ (∀ u, time a c = some u → m < u) ∧
    ∀ b' m', IsTwoPath n time a b' c m' → m < m' ∨ (m = m' ∧ b ≤ b')

/-- The 2-cell appears at time `t`. -/
def TwoCellAt (n : ℕ) (time : ℕ → ℕ → Option F) : PathHom2Cell → F → Prop
  /- the path `a → b → a` -/
  | .doubleEdge a b, t => IsTwoPath n time a b a t
  /- the path `a → b → c` closed by the arrow `a → c`, either after it, or if it is the primary bridge -/
  | .directedTriangle a b c, t => a ≠ c ∧ ∃ m u, IsTwoPath n time a b c m ∧ time a c = some u ∧
      (u ≤ m ∨ IsPrimaryBridge n time a c b) ∧ t = max m u
  /- the path `a → c → d`, before the arrow `a → d`, against the primary bridge `a → b → d` -/
  | .longSquare a b c d, t => a ≠ d ∧ IsPrimaryBridge n time a d b ∧ c ≠ b ∧ IsTwoPath n time a c d t ∧ ∀ u, time a d = some u → t < u

/-- The end of the interval of an edge that is longer than the rest of the digraph: the length of a shortest walk from its start to its end, `⊤` for loops and if there is none. -/
def edgeEnd (dist : ℕ → ℕ → Option F) (e : ℕ × ℕ) : WithTop F := if e.1 = e.2 then ⊤ else match dist e.1 e.2 with
  | none => ⊤
  | some x => (x : WithTop F)

/-- If there are arrows `a → b → c` with `a ≠ c`, and one of them appears only at infinity, then there is an arrow `a → c`. -/
def TopClosed [OrderTop F] (n : ℕ) (time : ℕ → ℕ → Option F) : Prop :=
  ∀ a < n, ∀ b < n, ∀ c < n, a ≠ c → ∀ x y, time a b = some x → time b c = some y → (x = ⊤ ∨ y = ⊤) → ∃ z, time a c = some z

theorem TopClosed.of_finite [OrderTop F] {n : ℕ} {time : ℕ → ℕ → Option F} (h : ∀ a < n, ∀ b < n, ∀ x, time a b = some x → x < ⊤) : TopClosed n time :=
  fun a ha b hb c hc _ x y hx hy hxy => by
    rcases hxy with e | e
    · exact absurd e (h a ha b hb x hx).ne
    · exact absurd e (h b hb c hc y hy).ne

/-- What the code assumes about a digraph filtration: `edge_time` does not panic on the vertices `0, ..., n - 1` and returns `time`, there
are no self-loops, and if one of two composable arrows appears only at infinity then the composite (if not a loop) is an arrow as well: this holds if all times are
finite, and also for the lengths of shortest paths. (Times may be negative.) -/
structure IsDigraphFiltration [Zero F] [OrderTop F] (et : EdgeTime F) (n : ℕ) (time : ℕ → ℕ → Option F) : Prop where
  entry : ∀ a < n, ∀ b < n, et a b = some (time a b)
  noLoop : ∀ a < n, time a a = none
  top_closed : TopClosed n time

/-! ### Path homology -/

variable (K : Type) [Field K]

/-- The boundary of the 2-path `a → b → c`; the degenerate path `a → a` is zero. -/
noncomputable def twoPathBoundary (p : ℕ × ℕ × ℕ) : ℕ × ℕ →₀ K :=
  single (p.2.1, p.2.2) 1 - (if p.1 = p.2.2 then 0 else single (p.1, p.2.2) 1) + single (p.1, p.2.1) 1

/-- The boundary of the arrow `a → b`. -/
noncomputable def arrowBoundary (e : ℕ × ℕ) : ℕ →₀ K := single e.2 1 - single e.1 1

/-- The ∂-invariant 2-chains of the digraph at time `t`: combinations of paths whose boundary is a combination of arrows. -/
noncomputable def omega2 (n : ℕ) (time : ℕ → ℕ → Option F) (t : F) : Submodule K (ℕ × ℕ × ℕ →₀ K) :=
  supported K K {p | (p.1, p.2.1) ∈ arrows n time t ∧ (p.2.1, p.2.2) ∈ arrows n time t} ⊓
    (supported K K (arrows n time t)).comap (linearCombination K (twoPathBoundary K))

/-- The chain of paths of a 2-cell. -/
noncomputable def cellChain : PathHom2Cell → (ℕ × ℕ × ℕ →₀ K)
  | .doubleEdge a b => single (a, b, a) 1
  | .directedTriangle a b c => single (a, b, c) 1
  | .longSquare a b c d => single (a, c, d) 1 - single (a, b, d) 1

/-- The edges of the grounded complex at time `t`: those of the graph, and the arrows that have appeared. -/
def groundedEdges (E : Set (ℕ × ℕ)) (n : ℕ) (time : ℕ → ℕ → Option F) (t : F) : Set (ℕ × ℕ) := E ∪ arrows n time t

theorem groundedEdges_mono (E : Set (ℕ × ℕ)) (n : ℕ) (time : ℕ → ℕ → Option F) {s t : F} (h : s ≤ t) :
    groundedEdges E n time s ⊆ groundedEdges E n time t := Set.union_subset_union_right _ (arrows_mono n time h)

/-- 1-cycles of the grounded complex at time `t`. -/
noncomputable def groundedZ1 (E : Set (ℕ × ℕ)) (n : ℕ) (time : ℕ → ℕ → Option F) (t : F) : Submodule K (ℕ × ℕ →₀ K) :=
  supported K K (groundedEdges E n time t) ⊓ LinearMap.ker (linearCombination K (arrowBoundary K))

/-- 1-boundaries of the grounded complex at time `t`: boundaries of ∂-invariant chains of the digraph at time `t`. -/
noncomputable def groundedB1 (n : ℕ) (time : ℕ → ℕ → Option F) (t : F) : Submodule K (ℕ × ℕ →₀ K) :=
  (omega2 K n time t).map (linearCombination K (twoPathBoundary K))

/-- 0-boundaries of the grounded complex at time `t`. -/
noncomputable def groundedB0 (E : Set (ℕ × ℕ)) (n : ℕ) (time : ℕ → ℕ → Option F) (t : F) : Submodule K (ℕ →₀ K) :=
  (supported K K (groundedEdges E n time t)).map (linearCombination K (arrowBoundary K))

theorem omega2_mono (n : ℕ) (time : ℕ → ℕ → Option F) {s t : F} (h : s ≤ t) : omega2 K n time s ≤ omega2 K n time t := by
  refine inf_le_inf (Finsupp.supported_mono ?_) (Submodule.comap_mono (Finsupp.supported_mono (arrows_mono n time h)))
  rintro p ⟨h1, h2⟩
  exact ⟨arrows_mono n time h h1, arrows_mono n time h h2⟩

theorem groundedZ1_mono (E : Set (ℕ × ℕ)) (n : ℕ) (time : ℕ → ℕ → Option F) {s t : F} (h : s ≤ t) :
    groundedZ1 K E n time s ≤ groundedZ1 K E n time t :=
  inf_le_inf_right _ (Finsupp.supported_mono (groundedEdges_mono E n time h))

theorem groundedB1_mono (n : ℕ) (time : ℕ → ℕ → Option F) {s t : F} (h : s ≤ t) : groundedB1 K n time s ≤ groundedB1 K n time t :=
  Submodule.map_mono (omega2_mono K n time h)

theorem groundedB0_mono (E : Set (ℕ × ℕ)) (n : ℕ) (time : ℕ → ℕ → Option F) {s t : F} (h : s ≤ t) :
    groundedB0 K E n time s ≤ groundedB0 K E n time t :=
  Submodule.map_mono (Finsupp.supported_mono (groundedEdges_mono E n time h))

/-- Grounded persistent Betti number in degree 1: the rank of `H₁(s) → H₁(t)`. -/
noncomputable def groundedBetti1 (E : Set (ℕ × ℕ)) (n : ℕ) (time : ℕ → ℕ → Option F) {s t : F} (h : s ≤ t) : ℕ :=
  Module.finrank K (LinearMap.range (quotByMap (groundedZ1_mono K E n time h) (groundedB1_mono K n time h)))

/-- Grounded persistent Betti number in degree 0: the rank of `H₀(s) → H₀(t)`. -/
noncomputable def groundedBetti0 (E : Set (ℕ × ℕ)) (n : ℕ) (time : ℕ → ℕ → Option F) {s t : F} (h : s ≤ t) : ℕ :=
  Module.finrank K (LinearMap.range (quotByMap (le_refl (supported K K {v : ℕ | v < n})) (groundedB0_mono K E n time h)))

/-- The edge `e` appears in the grounded complex at time `b`. -/
def EdgeAppears [Zero F] (E : Set (ℕ × ℕ)) (n : ℕ) (time : ℕ → ℕ → Option F) (e : ℕ × ℕ) (b : F) : Prop :=
  (e ∈ E ∧ b = 0) ∨ (e ∉ E ∧ e.1 < n ∧ e.2 < n ∧ time e.1 e.2 = some b)

/-- The chains `z 0, ..., z (k - 1)` represent the finite bars `bar i = (birth, death)` of grounded persistent path homology in degree 1: each is
a cycle at its birth and a boundary at its death, at every time `t` the chains whose death is after `t` are linearly independent modulo
boundaries, and moreover the classes at time `t` of combinations of these chains only come from time `s` if all births are at most `s`. -/
structure RepresentsBars [Zero F] (E : Set (ℕ × ℕ)) (n : ℕ) (time : ℕ → ℕ → Option F) (k : ℕ) (bar : ℕ → F × F) (z : ℕ → (ℕ × ℕ →₀ K)) : Prop where
  cycle : ∀ i < k, z i ∈ groundedZ1 K E n time (bar i).1
  boundary : ∀ i < k, z i ∈ groundedB1 K n time (bar i).2
  independent : ∀ (t : F) (a : ℕ → K), (∀ i < k, a i ≠ 0 → t < (bar i).2) → ∑ i ∈ Finset.range k, a i • z i ∈ groundedB1 K n time t →
    ∀ i < k, a i = 0
  born : ∀ (s t : F) (a : ℕ → K), 0 ≤ s → (∀ i < k, a i ≠ 0 → t < (bar i).2) →
    ∑ i ∈ Finset.range k, a i • z i ∈ groundedZ1 K E n time s ⊔ groundedB1 K n time t → ∀ i < k, a i ≠ 0 → (bar i).1 ≤ s

end
end Phlite
