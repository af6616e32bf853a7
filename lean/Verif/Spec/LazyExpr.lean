/-
Which combinations of cached matrices can be read without a borrow panic: vocabulary for C72.
-/
import Verif.Model.LazyExpr
import Mathlib.Data.Finset.Basic
import Mathlib.Data.Finset.Union

namespace Phlite
namespace Lazy

section
variable {ι CF T : Type}

/-- The cached matrices in the expression are those made by `made`: each reference to number `i` is to `(made i).cache_cols()`. -/
def Expr.MadeBy (made : ι → Expr ι CF T) : Expr ι CF T → Prop
  | .plain _ => True
  | .cached i e => e = made i ∧ e.MadeBy made
  | .product l r => l.MadeBy made ∧ r.MadeBy made
  | .sum l r => l.MadeBy made ∧ r.MadeBy made
  | .consolidate e => e.MadeBy made

/-- What the caches satisfy at all times: they hold columns of their matrices, and the log of inner requests lists the stored columns, each once. -/
structure Stored (M : ι → Oracle CF T T) (s : Caches ι CF T) : Prop where
  stored : ∀ i c l, (s i).cache c = some l → (M i).column c = some l
  log : ∀ i c, c ∈ (s i).log ↔ ((s i).cache c).isSome
  nodup : ∀ i, (s i).log.Nodup

/-- The iterator number `p.2` of cache `p.1` holds a borrow. -/
def Live (s : Caches ι CF T) (p : ι × ℕ) : Prop := ∃ it, (s p.1).iters[p.2]? = some it ∧ it.inner.isSome

/-- All columns of the caches in `W` have been read before. -/
def Warm (M : ι → Oracle CF T T) (W : Finset ι) (s : Caches ι CF T) : Prop := ∀ i ∈ W, ∀ c l, (M i).column c = some l → (s i).cache c = some l

variable [DecidableEq ι]

/-- The caches that occur in an expression (also inside cached matrices). -/
def Expr.mentions : Expr ι CF T → Finset ι
  | .plain _ => ∅
  | .cached i e => {i} ∪ e.mentions
  | .product l r => r.mentions ∪ l.mentions
  | .sum l r => l.mentions ∪ r.mentions
  | .consolidate e => e.mentions

/-- The caches that an unfinished column iterator of the expression can keep borrowed. -/
def Expr.holds : Expr ι CF T → Finset ι
  | .plain _ => ∅
  | .cached i _ => {i}
  | .product l r => r.holds ∪ l.holds
  | .sum l r => l.holds ∪ r.holds
  | .consolidate _ => ∅

/-- The caches that may have to be filled (1) when a column of the expression is requested, (2) while its iterator is run. All columns of the caches in `warm` are there already. -/
def Expr.fills (warm : Finset ι) : Expr ι CF T → Finset ι × Finset ι
  | .plain _ => (∅, ∅)
  | .cached i e => if i ∈ warm then (∅, ∅) else ({i} ∪ ((e.fills warm).1 ∪ (e.fills warm).2), ∅)
  | .product l r => ((r.fills warm).1, (r.fills warm).2 ∪ ((l.fills warm).1 ∪ (l.fills warm).2))
  | .sum l r => ((l.fills warm).1 ∪ (r.fills warm).1, (l.fills warm).2 ∪ (r.fills warm).2)
  | .consolidate e => ((e.fills warm).1 ∪ (e.fills warm).2, ∅)

/-- No cache is filled while another iterator of the same expression keeps it borrowed: in a product the right iterator is alive while columns of the left factor are requested and run;
in a sum the left iterator is alive while the right one is requested, and the right one is alive while the left one is run. -/
def Expr.safe (warm : Finset ι) : Expr ι CF T → Prop
  | .plain _ => True
  | .cached i e => i ∈ warm ∨ e.safe warm
  | .product l r => l.safe warm ∧ r.safe warm ∧ Disjoint r.holds ((l.fills warm).1 ∪ (l.fills warm).2)
  | .sum l r => l.safe warm ∧ r.safe warm ∧ Disjoint l.holds (r.fills warm).1 ∧ Disjoint r.holds (l.fills warm).2
  | .consolidate e => e.safe warm

instance Expr.decidableSafe (warm : Finset ι) : (e : Expr ι CF T) → Decidable (e.safe warm)
  | .plain _ => .isTrue trivial
  | .cached i e => have := decidableSafe warm e; inferInstanceAs (Decidable (i ∈ warm ∨ e.safe warm))
  | .product l r => have := decidableSafe warm l; have := decidableSafe warm r; inferInstanceAs (Decidable (l.safe warm ∧ r.safe warm ∧ Disjoint r.holds ((l.fills warm).1 ∪ (l.fills warm).2)))
  | .sum l r => have := decidableSafe warm l; have := decidableSafe warm r; inferInstanceAs (Decidable (l.safe warm ∧ r.safe warm ∧ Disjoint l.holds (r.fills warm).1 ∧ Disjoint r.holds (l.fills warm).2))
  | .consolidate e => decidableSafe warm e

end
end Lazy
end Phlite
