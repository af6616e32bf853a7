/-
Model of phlite/src/matrices/{mod,combinators,adaptors,implementors}.rs.

An iterator is the list it yields when run to the end; `none` means that requesting it or running it to the end panics.
(Rust's iterators are lazy, so a panic may be delayed until the offending item is requested; every consumer in the library
runs the iterators to the end.)  Hash maps are functions to `Option`.  `Reverse<T>` is the order dual `Tᵒᵈ`.
-/
import Verif.Model.Columns
import Mathlib.Order.OrderDual
import Mathlib.Order.Basic

namespace Phlite

/-- `iter.map(f)` where `f` may panic. -/
def mapOpt {α β : Type} (f : α → Option β) : List α → Option (List β)
  | [] => some []
  | a :: l => (f a).bind fun b => (mapOpt f l).map (b :: ·)

/-- `iter.flat_map(f)` where `f` may panic. -/
def flatMapOpt {α β : Type} (f : α → Option (List β)) : List α → Option (List β)
  | [] => some []
  | a :: l => (f a).bind fun b => (flatMapOpt f l).map (b ++ ·)

/-- `trait MatrixOracle`, phlite/src/matrices/mod.rs:78-221: the method `column`. -/
structure Oracle (CF Col Row : Type) where
  column : Col → Option (List (CF × Row))

/-- `trait HasRowFiltration`, phlite/src/matrices/mod.rs:300-339: `filtration_value` and the overridable method
`column_with_filtration`. -/
structure FOracle (CF Col Row F : Type) extends Oracle CF Col Row where
  filt : Row → Option F
  colF : Col → Option (List (Entry F Row CF))

section
variable {CF Col Row F : Type}

/-- The default implementation of `column_with_filtration`, phlite/src/matrices/mod.rs:309-319. -/
def defaultColF (M : Oracle CF Col Row) (filt : Row → Option F) (c : Col) : Option (List (Entry F Row CF)) :=
  (M.column c).bind (mapOpt fun t => (filt t.2).map fun v => Entry.ofTuple (t.1, t.2, v))

/-- An oracle with a filtration and the default `column_with_filtration`. -/
def Oracle.withFilt (M : Oracle CF Col Row) (filt : Row → Option F) : FOracle CF Col Row F where
  column := M.column
  filt := filt
  colF := defaultColF M filt

/-- `impl MatrixOracle / HasRowFiltration for &M` (and `Rc`, `Arc`, `Box` for `column`),
phlite/src/matrices/mod.rs:232-294, 341-350:
`column` and `filtration_value` are forwarded, `column_with_filtration` is **not** and falls back to the default. -/
def FOracle.ref (M : FOracle CF Col Row F) : FOracle CF Col Row F := M.toOracle.withFilt M.filt

/-- `WithTrivialFiltration`, phlite/src/matrices/adaptors.rs:27-49. -/
def Oracle.withTrivial (M : Oracle CF Col Row) : FOracle CF Col Row Unit := M.withFilt fun _ => some ()

/-- `WithFuncFiltration` (`with_filtration`), phlite/src/matrices/adaptors.rs:69-104. The closure may panic. -/
def Oracle.withFunc (M : Oracle CF Col Row) (f : Row → Option F) : FOracle CF Col Row F := M.withFilt f

/-- `MatrixWithBasis` (`with_basis`), phlite/src/matrices/adaptors.rs:293-341: column and filtration are forwarded,
`column_with_filtration` is the default. The basis is kept separately. -/
def FOracle.withBasis (M : FOracle CF Col Row F) : FOracle CF Col Row F := M.toOracle.withFilt M.filt

/-- `WithSubBasis` (`sub_matrix_in_dimension`), phlite/src/matrices/adaptors.rs:402-434. -/
def FOracle.subMatrix (M : FOracle CF Col Row F) (_dimension : Nat) : FOracle CF Col Row F := M.toOracle.withFilt M.filt

/-- `ReverseMatrix`, phlite/src/matrices/adaptors.rs:492-545. -/
def FOracle.reverse (M : FOracle CF Col Row F) : FOracle CF Colᵒᵈ Rowᵒᵈ Fᵒᵈ where
  column c := (M.column (OrderDual.ofDual c)).map fun l => l.map fun t => (t.1, OrderDual.toDual t.2)
  filt r := (M.filt (OrderDual.ofDual r)).map OrderDual.toDual
  colF c := (M.colF (OrderDual.ofDual c)).map fun l => l.map fun e =>
    { filt := OrderDual.toDual e.filt, row := OrderDual.toDual e.row, coeff := e.coeff }

/-- `UnreverseMatrix`, phlite/src/matrices/adaptors.rs:629-679. -/
def FOracle.unreverse (M : FOracle CF Colᵒᵈ Rowᵒᵈ Fᵒᵈ) : FOracle CF Col Row F where
  column c := (M.column (OrderDual.toDual c)).map fun l => l.map fun t => (t.1, OrderDual.ofDual t.2)
  filt r := (M.filt (OrderDual.toDual r)).map OrderDual.ofDual
  colF c := (M.colF (OrderDual.toDual c)).map fun l => l.map fun e =>
    { filt := OrderDual.ofDual e.filt, row := OrderDual.ofDual e.row, coeff := e.coeff }

/-- `Product::column` with the macro `matrix_col_product!`, phlite/src/matrices/combinators.rs:38-68. -/
def prodColumn {Mid : Type} [NonZeroCoeff CF] (left : Oracle CF Mid Row) (right : Oracle CF Col Mid) (c : Col) :
    Option (List (CF × Row)) :=
  (right.column c).bind <| flatMapOpt fun t =>
    (left.column t.2).map fun lc => lc.map fun u => (NonZeroCoeff.mul u.1 t.1, u.2)

/-- `product` without filtration, phlite/src/matrices/combinators.rs:17-68. -/
def product {Mid : Type} [NonZeroCoeff CF] (left : Oracle CF Mid Row) (right : Oracle CF Col Mid) : Oracle CF Col Row where
  column := prodColumn left right

/-- `product` when the left factor has a row filtration, phlite/src/matrices/combinators.rs:71-97. -/
def productF {Mid : Type} [NonZeroCoeff CF] (left : FOracle CF Mid Row F) (right : Oracle CF Col Mid) :
    FOracle CF Col Row F where
  column := prodColumn left.toOracle right
  filt := left.filt
  colF c := (right.column c).bind <| flatMapOpt fun t =>
    (left.colF t.2).map fun lc => lc.map fun e =>
      { coeff := NonZeroCoeff.mul e.coeff t.1, row := e.row, filt := e.filt }

/-- `sum`, phlite/src/matrices/combinators.rs:122-153. -/
def sumOracle (left right : Oracle CF Col Row) : Oracle CF Col Row where
  column c := (left.column c).bind fun l => (right.column c).map fun r => l ++ r

variable [StdHeap] [LinearOrder F] [LinearOrder Row] [NonZeroCoeff CF]

/-- `HasRowFiltration::build_bhcol`, phlite/src/matrices/mod.rs:331-338. -/
def FOracle.buildBhcol (M : FOracle CF Col Row F) (c : Col) : Option (BHCol F Row CF) :=
  (M.colF c).map fun es => BHCol.empty.addEntries es

/-- `Consolidator::column`, phlite/src/matrices/adaptors.rs:126-159: the iterator pops pivots from the heap until
`None`. -/
def Oracle.consolidateColumn (M : Oracle CF Col Row) (c : Col) : Option (List (CF × Row)) :=
  (M.withTrivial.buildBhcol c).bind fun h => (BHCol.toSortedVec h).map fun es => es.map fun e => (e.coeff, e.row)

/-- `Consolidator`, phlite/src/matrices/adaptors.rs:126-170. -/
def Oracle.consolidate (M : Oracle CF Col Row) : Oracle CF Col Row where
  column := M.consolidateColumn

/-- `Consolidator` of a filtered matrix: default `column_with_filtration`, phlite/src/matrices/adaptors.rs:161-170. -/
def FOracle.consolidate (M : FOracle CF Col Row F) : FOracle CF Col Row F :=
  (M.toOracle.consolidate).withFilt M.filt

/-- `MatrixOracle::eq_on_col`, phlite/src/matrices/mod.rs:104-127: drain both columns (trivial filtration) and compare the
tuples. -/
def Oracle.eqOnCol [DecidableEq CF] (a b : Oracle CF Col Row) (c : Col) : Option Bool :=
  (a.withTrivial.buildBhcol c).bind fun ha =>
  (b.withTrivial.buildBhcol c).bind fun hb =>
  (BHCol.toSortedVec ha).bind fun la =>
  (BHCol.toSortedVec hb).map fun lb =>
    decide (la.map Entry.toTuple = lb.map Entry.toTuple)

end

/-! ### Column bases -/

/-- `trait ColBasis`, phlite/src/matrices/mod.rs:355-391: `element` (which may panic) and `size`. -/
structure Basis (E : Type) where
  size : Nat
  element : Nat → Option E

/-- `trait SplitByDimension`, phlite/src/matrices/mod.rs:476-482. -/
structure SplitBasis (E : Type) extends Basis E where
  inDim : Nat → Option (Basis E)

section
variable {E : Type}

/-- `impl ColBasis for Vec<T>`, phlite/src/matrices/mod.rs:393-406: indexing panics out of range. -/
def vecBasis (l : List E) : Basis E where
  size := l.length
  element i := l[i]?

/-- `StandardBasis`, phlite/src/matrices/implementors.rs:129-158: `element` never panics. -/
def standardBasis (n : Nat) : Basis Nat where
  size := n
  element i := some i

/-- `ReverseBasis`, phlite/src/matrices/adaptors.rs:567-605. `size() - 1 - index` underflows (panics in a debug build) for
`index ≥ size`. -/
def Basis.reverse (B : Basis E) : Basis Eᵒᵈ where
  size := B.size
  element i := if i < B.size then (B.element (B.size - 1 - i)).map OrderDual.toDual else none

/-- `UnreverseBasis`, phlite/src/matrices/adaptors.rs:721-738. -/
def Basis.unreverse (B : Basis Eᵒᵈ) : Basis E where
  size := B.size
  element i := if i < B.size then (B.element (B.size - 1 - i)).map OrderDual.ofDual else none

/-- `SplitByDimension for ReverseBasis`, phlite/src/matrices/adaptors.rs:607-618 (the pointer cast is the identity on the
`repr(transparent)` wrapper). -/
def SplitBasis.reverse (B : SplitBasis E) : SplitBasis Eᵒᵈ where
  toBasis := B.toBasis.reverse
  inDim d := (B.inDim d).map Basis.reverse

/-- `SplitByDimension for UnreverseBasis`, phlite/src/matrices/adaptors.rs:740-753. -/
def SplitBasis.unreverse (B : SplitBasis Eᵒᵈ) : SplitBasis E where
  toBasis := B.toBasis.unreverse
  inDim d := (B.inDim d).map Basis.unreverse

/-- `HashMap::insert` on a map seen as a function. -/
def mapInsert {K V : Type} [DecidableEq K] (m : K → Option V) (k : K) (v : V) : K → Option V :=
  fun x => if x = k then some v else m x

/-- `(0..size).map(..).collect()` into a map, starting from position `i`. -/
def lookupFrom [DecidableEq E] (B : Basis E) : List Nat → (E → Option Nat) → Option (E → Option Nat)
  | [], m => some m
  | i :: is, m => (B.element i).bind fun e => lookupFrom B is (mapInsert m e i)

/-- `ColBasis::construct_reverse_lookup`, phlite/src/matrices/mod.rs:365-372. -/
def Basis.reverseLookup [DecidableEq E] (B : Basis E) : Option (E → Option Nat) :=
  lookupFrom B (List.range B.size) fun _ => none

variable {CF Row F : Type}

/-- `UsingColBasisIndex`, phlite/src/matrices/adaptors.rs:363-394 (default `column_with_filtration`). -/
def FOracle.usingColBasisIndex (M : FOracle CF E Row F) (B : Basis E) : FOracle CF Nat Row F :=
  Oracle.withFilt ⟨fun i => (B.element i).bind M.column⟩ M.filt

end

/-! ### Concrete matrices -/
section
variable {CF Col Row : Type}

/-- `VecVecMatrix::column`, phlite/src/matrices/implementors.rs:65-78 (`get(col).unwrap()`). -/
def vecVecMatrix (columns : List (List (CF × Row))) : Oracle CF Nat Row where
  column i := columns[i]?

/-- `VecVecMatrix::basis`, phlite/src/matrices/implementors.rs:80-92. -/
def vecVecBasis (columns : List (List (CF × Row))) : Basis Nat := standardBasis columns.length

/-- `VecVecMatrix::new_all_one`, phlite/src/matrices/implementors.rs:110-120. -/
def vecVecAllOne [NonZeroCoeff CF] (columns : List (List Row)) : Oracle CF Nat Row :=
  vecVecMatrix (columns.map fun col => col.map fun row => (NonZeroCoeff.one, row))

/-- `MapVecMatrix::column`, phlite/src/matrices/implementors.rs:180-196. -/
def mapVecMatrix (columns : Col → Option (List (CF × Row))) : Oracle CF Col Row where
  column := columns
end

/-! ### The column cache as a state machine -/
section
variable {CF Col Row : Type} [DecidableEq Col]

/-- A live iterator over a cached column (`CachedColIter`, phlite/src/matrices/adaptors.rs:202-204). `inner = none` when the
`Ref` has been released (the iterator returned `None`, or was dropped). `col`, `yielded`, `finished` (has returned `None`) and
`dropped` are history variables. -/
structure CacheIter (CF Col Row : Type) where
  col : Col
  yielded : List (CF × Row)
  inner : Option (List (CF × Row))
  finished : Bool := false
  dropped : Bool := false

/-- State of `WithCachedCols` (phlite/src/matrices/adaptors.rs:193-199): the cache, all iterators handed out so far (in
creation order; each with `inner ≠ none` holds a shared `RefCell` borrow), and the log of columns requested from the inner
oracle (history variable). -/
structure CacheState (CF Col Row : Type) where
  cache : Col → Option (List (CF × Row))
  iters : List (CacheIter CF Col Row)
  log : List Col

/-- `cache_cols`: an empty cache, phlite/src/matrices/mod.rs:212-220. -/
def CacheState.init : CacheState CF Col Row := ⟨fun _ => none, [], []⟩

/-- What a client can do: request a column (getting a new iterator), advance an iterator, drop an iterator. -/
inductive CacheOp (Col : Type)
  | request (c : Col)
  | next (i : Nat)
  | drop (i : Nat)
  deriving DecidableEq

/-- Some iterator still holds a shared borrow of the `RefCell`. -/
def CacheState.borrowed (s : CacheState CF Col Row) : Bool := s.iters.any fun it => it.inner.isSome

/-- `WithCachedCols::column`, phlite/src/matrices/adaptors.rs:234-255: `borrow_mut` panics if any `Ref` is alive. The inner
oracle runs before the `borrow_mut`. -/
def CacheState.request (M : Oracle CF Col Row) (s : CacheState CF Col Row) (c : Col) : Option (CacheState CF Col Row) :=
  match s.cache c with
  | some l => some { s with iters := s.iters ++ [⟨c, [], some l, false, false⟩] }
  | none =>
    (M.column c).bind fun l =>
      if s.borrowed then none
      else some { cache := mapInsert s.cache c l, iters := s.iters ++ [⟨c, [], some l, false, false⟩], log := s.log ++ [c] }

/-- `CachedColIter::next`, phlite/src/matrices/adaptors.rs:206-222: taking an empty slice releases the borrow; otherwise the
head is cloned and the tail is kept. Returns the yielded item. -/
def CacheIter.next (it : CacheIter CF Col Row) : Option (CF × Row) × CacheIter CF Col Row :=
  match it.inner with
  | none => (none, it)
  | some [] => (none, { it with inner := none, finished := true })
  | some (x :: xs) => (some x, { it with inner := some xs, yielded := it.yielded ++ [x] })

/-- Dropping an iterator releases its borrow. -/
def CacheIter.dropIt (it : CacheIter CF Col Row) : CacheIter CF Col Row := { it with inner := none, dropped := true }

/-- One step of the state machine. Out-of-range iterator numbers have no effect (not expressible in Rust). -/
def CacheState.step (M : Oracle CF Col Row) (s : CacheState CF Col Row) : CacheOp Col → Option (CacheState CF Col Row)
  | .request c => s.request M c
  | .next i => some { s with iters := s.iters.modify i fun it => it.next.2 }
  | .drop i => some { s with iters := s.iters.modify i CacheIter.dropIt }

/-- A whole history. -/
def CacheState.run (M : Oracle CF Col Row) (s : CacheState CF Col Row) : List (CacheOp Col) → Option (CacheState CF Col Row)
  | [] => some s
  | op :: ops => (s.step M op).bind fun s' => CacheState.run M s' ops

end
end Phlite
