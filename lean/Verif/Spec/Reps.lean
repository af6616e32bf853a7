/-
Specification of representative cycles: what it means that chains represent the bars of a diagram.
-/
import Verif.Spec.Barcode
import Mathlib.LinearAlgebra.LinearIndependent.Basic
import Mathlib.Order.WithBot

namespace Phlite

section
variable {K V ι F : Type} [Field K] [AddCommGroup V] [Module K V] [LinearOrder F]

/-- The family `z` of vectors, indexed by the bars `I` with births `birth` and deaths `death` (`⊤` if the bar does not die), is a
persistence basis of the filtered quotient `Z t / B t`: a bar's vector is in `Z t` from its birth on, in `B t` from its death on, and
for every `t` the classes of the bars alive at `t` are a basis of (`Z t + B t`) modulo `B t`. -/
structure IsPersistenceBasis (Z B : F → Submodule K V) (I : Set ι) (z : ι → V) (birth : ι → F) (death : ι → WithTop F) : Prop where
  cycle : ∀ i ∈ I, ∀ t, birth i ≤ t → z i ∈ Z t
  boundary : ∀ i ∈ I, ∀ t : F, death i ≤ t → z i ∈ B t
  indep : ∀ t : F, LinearIndepOn K (fun i => (B t).mkQ (z i)) {i | i ∈ I ∧ birth i ≤ t ∧ t < death i}
  span : ∀ t : F, Z t ≤ Submodule.span K (z '' {i | i ∈ I ∧ birth i ≤ t ∧ t < death i}) ⊔ B t

end

section
variable {T F : Type} [DecidableEq T]

/-- The bars of degree `p` of a diagram, as pairs of a birth cell and possibly a death cell. -/
def barsOf (deg : T → ℤ) (dgm : Diagram T) (p : ℤ) : Set (T × Option T) :=
  {b | deg b.1 = p ∧ match b.2 with
    | none => b.1 ∈ dgm.essential
    | some τ => (b.1, τ) ∈ dgm.pairings}

/-- The time of death of a bar. -/
def barDeath (f : T → F) (b : T × Option T) : WithTop F :=
  match b.2 with
  | none => ⊤
  | some τ => f τ

end
end Phlite
