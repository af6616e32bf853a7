/-
Lazy model of the remaining matrix combinators, phlite/src/matrices/{combinators,adaptors}.rs: sums, consolidated matrices and caches around
arbitrary matrices, and expressions built from them in which the same cached matrix may occur several times (as `&C`).

Same conventions as `Model/Lazy.lean`. The shared state has one `CacheState` for every cached matrix in use.
-/
import Verif.Model.Lazy
import Mathlib.Logic.Function.Basic

namespace Phlite
namespace Lazy

section
variable {σ Col α : Type}

/-- `left.chain(right)` with both iterators alive from the start, the semantics of `Chain`: the left iterator is run to its end, then dropped, then
the right one is run. -/
def Cols.chain (left right : Cols σ Col α) : Cols σ Col α where
  It := Option left.It × right.It
  request c s := (left.request c s).bind fun p => (right.request c p.2).map fun q => ((some p.1, q.1), q.2)
  pull
    | (some lit, rit), s => (left.pull lit s).map fun
      | (.done, _, s') => (.skip, (none, rit), s')
      | (.skip, lit', s') => (.skip, (some lit', rit), s')
      | (.item a, lit', s') => (.item a, (some lit', rit), s')
    | (none, rit), s => (right.pull rit s).map fun p => (p.1, (none, p.2.1), p.2.2)

open Classical in
/-- Request a column and run its iterator to the end, without a bound on the number of steps (the limit of `Cols.collect` in the fuel). `none` if it panics or
does not end. -/
noncomputable def Cols.collectAll (L : Cols σ Col α) (c : Col) (s : σ) : Option (List α × σ) :=
  if h : ∃ p n, L.collect c n s = some p then some h.choose else none

end

section
variable {ι CF T : Type}

/-- The shared state: one cache (with its live borrows) for each cached matrix. -/
abbrev Caches (ι CF T : Type) := ι → CacheState CF T T

/-- The state in which every cached matrix has just been made. -/
def Caches.init : Caches ι CF T := fun _ => CacheState.init

section
variable [DecidableEq ι] [DecidableEq T]

/-- `WithCachedCols::column` and `CachedColIter::next`, phlite/src/matrices/adaptors.rs:206-255, for the cached matrix number `i` around a lazy matrix: a column
that is not in the cache is read completely from the inner matrix before the cache is borrowed mutably (which panics if any iterator of this cache is alive). -/
noncomputable def cacheAround (i : ι) (L : Cols (Caches ι CF T) T (CF × T)) : Cols (Caches ι CF T) T (CF × T) where
  It := Nat
  request c s :=
    match (s i).cache c with
    | some l => some ((s i).iters.length, Function.update s i { s i with iters := (s i).iters ++ [⟨c, [], some l, false, false⟩] })
    | none => (L.collectAll c s).bind fun p =>
      if (p.2 i).borrowed then none
      else some ((p.2 i).iters.length, Function.update p.2 i
        { cache := mapInsert (p.2 i).cache c p.1, iters := (p.2 i).iters ++ [⟨c, [], some p.1, false, false⟩], log := (p.2 i).log ++ [c] })
  pull k s := ((s i).iters[k]?).map fun it =>
    (match it.next.1 with | none => .done | some x => .item x, k, Function.update s i { s i with iters := (s i).iters.modify k fun it => it.next.2 })

end

variable [StdHeap] [LinearOrder T] [NonZeroCoeff CF]

/-- `Consolidator::column` and `ConsolidatorColumn::next`, phlite/src/matrices/adaptors.rs:126-159: the whole column is read into a heap when the column is requested,
the iterator pops pivots from the heap. -/
noncomputable def consolidateCols {σ : Type} (L : Cols σ T (CF × T)) : Cols σ T (CF × T) where
  It := BHCol Unit T CF
  request c s := (L.collectAll c s).map fun p => (BHCol.empty.addEntries (p.1.map fun t => Entry.ofTuple (t.1, t.2, ())), p.2)
  pull h s := match BHCol.popPivot h with
    | (none, h') => some (.done, h', s)
    | (some e, h') => some (.item (e.coeff, e.row), h', s)

variable (ι CF T) in
/-- How a user combines square matrices. `cached i e` is a reference `&C` to the cached matrix number `i`, which was made by `e.cache_cols()`; it may occur more than once.
Adaptors that forward `column` (`&M`, `with_filtration`, `with_trivial_filtration`, `with_basis`) do not appear. -/
inductive Expr
  /-- a matrix without interior mutability -/
  | plain (M : Oracle CF T T)
  | cached (i : ι) (e : Expr)
  | product (left right : Expr)
  | sum (left right : Expr)
  | consolidate (e : Expr)

/-- The columns of an expression, lazily: `product` phlite/src/matrices/combinators.rs:17-68, `sum` :122-153, `consolidate` phlite/src/matrices/adaptors.rs:126-159,
`cache_cols` :193-255. -/
noncomputable def Expr.cols [DecidableEq ι] : Expr ι CF T → Cols (Caches ι CF T) T (CF × T)
  | .plain M => Cols.ofFun M.column
  | .cached i e => cacheAround i e.cols
  | .product l r => r.cols.flatMap l.cols scaleTuple
  | .sum l r => l.cols.chain r.cols
  | .consolidate e => consolidateCols e.cols

/-- The matrix an expression stands for, by the eager model (`Model/Matrices.lean`): a cached matrix is the matrix itself. -/
def Expr.matrix : Expr ι CF T → Oracle CF T T
  | .plain M => M
  | .cached _ e => e.matrix
  | .product l r => Phlite.product l.matrix r.matrix
  | .sum l r => sumOracle l.matrix r.matrix
  | .consolidate e => e.matrix.consolidate

/-- Read columns of several expressions, one after the other. -/
noncomputable def readAll [DecidableEq ι] : List (Expr ι CF T × T) → LM (Caches ι CF T) (List (List (CF × T)))
  | [] => LM.ret []
  | r :: rs => (r.1.cols.collect r.2).bind fun l => (readAll rs).map fun ls => l :: ls

variable {F : Type}

/-- `column_with_filtration` of an expression with a row filtration `filt`, lazily: products use the method of their left factor (phlite/src/matrices/combinators.rs:84-97), everything
else the default (phlite/src/matrices/mod.rs:309-319). -/
noncomputable def Expr.colF [DecidableEq ι] (filt : T → Option F) : Expr ι CF T → Cols (Caches ι CF T) T (Entry F T CF)
  | .product l r => r.cols.flatMap (l.colF filt) scaleEntry
  | .plain M => defaultCols (Expr.plain M).cols filt
  | .cached i e => defaultCols (Expr.cached i e).cols filt
  | .sum l r => defaultCols (Expr.sum l r).cols filt
  | .consolidate e => defaultCols (Expr.consolidate e).cols filt

/-- The same in the eager model. -/
def Expr.matrixF (filt : T → Option F) : Expr ι CF T → FOracle CF T T F
  | .product l r => productF (l.matrixF filt) r.matrix
  | .plain M => M.withFilt filt
  | .cached _ e => e.matrix.withFilt filt
  | .sum l r => (sumOracle l.matrix r.matrix).withFilt filt
  | .consolidate e => e.matrix.consolidate.withFilt filt

end
end Lazy
end Phlite
