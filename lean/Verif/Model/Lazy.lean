/-
Lazy model of the column iterators and of the reductions on top of them, phlite/src/matrices/{combinators,adaptors,mod}.rs and
phlite/src/reduction/{standard,clearing}.rs.

`Model/Matrices.lean` and `Model/Reduction.lean` identify an iterator with the list it yields. Here an iterator is a state that is
pulled item by item, and pulling may touch a state shared by several iterators (`σ`: for a cached matrix the `RefCell` with the cache and
the live borrows, `CacheState`). So two iterators over the same cached matrix can be alive at the same time, and the borrow panics of the
cache are visible. The functions below are the same functions as in `Model/Reduction.lean`, over such iterators.

`none` is a panic (or, for the loops that take fuel, not yet finished).
-/
import Verif.Model.Reduction

namespace Phlite
namespace Lazy

/-- What one step of an iterator does: it is exhausted, it is still looking for its next item (the inner loop of `FlatMap::next`), or it yields an item. -/
inductive Pull (α : Type)
  | done
  | skip
  | item (a : α)

/-- A family of column iterators: `request c` is `matrix.column(c)` (or `column_with_filtration(c)`), `pull` is one step of the iterator
it returned. Both may panic and may change the shared state `σ`. No consumer in the library stops before the end, so dropping an iterator
(which releases nothing after the end) is not modelled. -/
structure Cols (σ Col α : Type) where
  It : Type
  request : Col → σ → Option (It × σ)
  pull : It → σ → Option (Pull α × It × σ)

section
variable {σ Col Mid α β γ : Type}

/-- A matrix that does not touch the shared state: its columns are slices or vectors (`VecVecMatrix::column`, `MapVecMatrix::column`,
phlite/src/matrices/implementors.rs:65-78, 180-196). -/
def Cols.ofFun (f : Col → Option (List α)) : Cols σ Col α where
  It := List α
  request c s := (f c).map fun l => (l, s)
  pull
    | [], s => some (.done, [], s)
    | a :: l, s => some (.item a, l, s)

/-- `iter.map(g)` where `g` may panic. -/
def Cols.mapItems (L : Cols σ Col α) (g : α → Option β) : Cols σ Col β where
  It := L.It
  request := L.request
  pull it s := (L.pull it s).bind fun
    | (.done, it', s') => some (.done, it', s')
    | (.skip, it', s') => some (.skip, it', s')
    | (.item a, it', s') => (g a).map fun b => (.item b, it', s')

/-- The lazy product `right_col.flat_map(|(k, row)| left.column(row).map(|x| scale(k, x)))` of
phlite/src/matrices/combinators.rs:36-45 and 84-97 with the semantics of `FlatMap`: the column of the right factor is requested first; its
iterator stays alive while the column of the left factor for its current item is requested and run to the end. -/
def Cols.flatMap {CF : Type} (right : Cols σ Col (CF × Mid)) (left : Cols σ Mid α) (scale : CF → α → α) : Cols σ Col α where
  It := right.It × Option (CF × left.It)
  request c s := (right.request c s).map fun p => ((p.1, none), p.2)
  pull
    | (rit, some (k, lit)), s => (left.pull lit s).map fun
      | (.done, _, s') => (.skip, (rit, none), s')
      | (.skip, lit', s') => (.skip, (rit, some (k, lit')), s')
      | (.item a, lit', s') => (.item (scale k a), (rit, some (k, lit')), s')
    | (rit, none), s => (right.pull rit s).bind fun
      | (.done, rit', s') => some (.done, (rit', none), s')
      | (.skip, rit', s') => some (.skip, (rit', none), s')
      | (.item t, rit', s') => (left.request t.2 s').map fun q => (.skip, (rit', some (t.1, q.1)), q.2)

/-- A program that uses lazy iterators: fuel for running iterators to the end, and the shared state. -/
abbrev LM (σ β : Type) := Nat → σ → Option (β × σ)

def LM.ret (b : β) : LM σ β := fun _ s => some (b, s)
/-- A computation that does not touch the shared state but may panic. -/
def LM.lift (o : Option β) : LM σ β := fun _ s => o.map fun b => (b, s)
def LM.bind (m : LM σ β) (k : β → LM σ γ) : LM σ γ := fun n s => (m n s).bind fun p => k p.1 n p.2
def LM.map (f : β → γ) (m : LM σ β) : LM σ γ := m.bind fun b => LM.ret (f b)

/-- Run an iterator to the end. -/
def Cols.drain (L : Cols σ Col α) : Nat → L.It → σ → Option (List α × σ)
  | 0, _, _ => none
  | n + 1, it, s => (L.pull it s).bind fun
    | (.done, _, s') => some ([], s')
    | (.skip, it', s') => L.drain n it' s'
    | (.item a, it', s') => (L.drain n it' s').map fun p => (a :: p.1, p.2)

/-- Request a column and run its iterator to the end (`for_each`, `collect`, `extend`). -/
def Cols.collect (L : Cols σ Col α) (c : Col) : LM σ (List α) := fun n s => (L.request c s).bind fun p => L.drain n p.1 p.2

end

section
variable {CF Col Row : Type} [DecidableEq Col]

/-- `WithCachedCols::column` and `CachedColIter::next`, phlite/src/matrices/adaptors.rs:206-255: requests and steps of the state machine
`CacheState`; the iterator is its number. -/
def cachedCols (M : Oracle CF Col Row) : Cols (CacheState CF Col Row) Col (CF × Row) where
  It := Nat
  request c s := (s.step M (.request c)).map fun s' => (s.iters.length, s')
  pull i s := (s.iters[i]?).bind fun it => (s.step M (.next i)).map fun s' =>
    match it.next.1 with
    | none => (.done, i, s')
    | some x => (.item x, i, s')

end

section
variable {σ CF T F : Type}

/-- A square matrix with a row filtration whose columns are lazy: `column`, `filtration_value`, `column_with_filtration`. -/
structure Matrix (σ CF T F : Type) where
  column : Cols σ T (CF × T)
  filt : T → Option F
  colF : Cols σ T (Entry F T CF)

/-- The default `column_with_filtration`, phlite/src/matrices/mod.rs:309-319, on lazy columns. -/
def defaultCols (L : Cols σ T (CF × T)) (filt : T → Option F) : Cols σ T (Entry F T CF) :=
  L.mapItems fun t => (filt t.2).map fun v => Entry.ofTuple (t.1, t.2, v)

/-- A matrix without interior mutability. -/
def plain (D : FOracle CF T T F) : Matrix σ CF T F where
  column := Cols.ofFun D.column
  filt := D.filt
  colF := Cols.ofFun D.colF

/-- `cache_cols`, phlite/src/matrices/mod.rs:212-220 and adaptors.rs:224-268: `filtration_value` is forwarded, `column_with_filtration` is the default. -/
def cached [DecidableEq T] (D : FOracle CF T T F) : Matrix (CacheState CF T T) CF T F where
  column := cachedCols D.toOracle
  filt := D.filt
  colF := defaultCols (cachedCols D.toOracle) D.filt

variable [NonZeroCoeff CF]

/-- The scaling of `matrix_col_product!`, phlite/src/matrices/combinators.rs:41-42. -/
def scaleTuple (k : CF) (u : CF × T) : CF × T := (NonZeroCoeff.mul u.1 k, u.2)

/-- The scaling in `Product::column_with_filtration`, phlite/src/matrices/combinators.rs:90-94. -/
def scaleEntry (k : CF) (e : Entry F T CF) : Entry F T CF := { coeff := NonZeroCoeff.mul e.coeff k, row := e.row, filt := e.filt }

/-- `product(&left, &right)` with `column`, `filtration_value` and `column_with_filtration`, phlite/src/matrices/combinators.rs:17-97. `&left` has the
default `column_with_filtration` (phlite/src/matrices/mod.rs:341-350). -/
def productRef (left : Matrix σ CF T F) (right : Cols σ T (CF × T)) : Matrix σ CF T F where
  column := right.flatMap left.column scaleTuple
  filt := left.filt
  colF := right.flatMap (defaultCols left.column left.filt) scaleEntry

/-- The `match` of `ClearedReductionMatrix::column`, phlite/src/reduction/clearing.rs:118-136: for a cleared column a boxed iterator from `P` (the product of the
boundary with this matrix), for a reduced one the stored vector chained with the diagonal entry. -/
def crmStep (P : Cols σ T (CF × T)) (rc : T → Option (RedCol CF T)) : Cols σ T (CF × T) where
  It := P.It ⊕ List (CF × T)
  request c s := (rc c).bind fun
    | .cleared j => (P.request j s).map fun p => (.inl p.1, p.2)
    | .reduced vec => some (.inr (vec ++ [(NonZeroCoeff.one, c)]), s)
  pull
    | .inl it, s => (P.pull it s).map fun p => (p.1, .inl p.2.1, p.2.2)
    | .inr [], s => some (.done, .inr [], s)
    | .inr (a :: l), s => some (.item a, .inr l, s)

/-- `ClearedReductionMatrix::column`, phlite/src/reduction/clearing.rs:110-137, lazily; the number bounds the recursion depth. -/
def crmCols (D : Cols σ T (CF × T)) (rc : T → Option (RedCol CF T)) : Nat → Cols σ T (CF × T)
  | 0 => Cols.ofFun fun _ => none
  | n + 1 => crmStep ((crmCols D rc n).flatMap D scaleTuple) rc

variable [StdHeap] [LinearOrder F] [LinearOrder T]

/-- `build_bhcol`, phlite/src/matrices/mod.rs:331-338. -/
def Matrix.buildBhcol (D : Matrix σ CF T F) (c : T) : LM σ (BHCol F T CF) := (D.colF.collect c).map fun es => BHCol.empty.addEntries es

/-! ### Standard algorithm -/

/-- The `'reduction` loop, phlite/src/reduction/standard.rs:51-89. -/
def stdReduce (D : Matrix σ CF T F) (v : T → Option (List (CF × T))) (low : T → Option (T × CF)) :
    Nat → BHCol F T CF → BHCol Unit T CF → LM σ (BHCol F T CF × BHCol Unit T CF)
  | 0, _, _ => LM.lift none
  | fuel + 1, r, vi =>
    match BHCol.popPivot r with
    | (none, r1) => LM.ret (r1, vi)
    | (some e, r1) =>
      let r2 := r1.addEntry e
      match low e.row with
      | none => LM.ret (r2, vi)
      | some (j, jc) =>
        let m := NonZeroCoeff.mul (NonZeroCoeff.neg e.coeff) (NonZeroCoeff.inv jc)
        let vMatrix : Cols σ T (CF × T) := Cols.ofFun v
        ((productRef D vMatrix).colF.collect j).bind fun re =>
        ((defaultCols vMatrix fun _ => some ()).collect j).bind fun ve =>
          stdReduce D v low fuel (r2.addEntries (re.map fun x => x.scale m)) (vi.addEntries (ve.map fun x => x.scale m))

/-- One iteration of the outer loop, phlite/src/reduction/standard.rs:43-105. -/
def stdColumn (D : Matrix σ CF T F) (fuel : Nat) (s : StdState CF T) (b : T) : LM σ (StdState CF T) :=
  let v0 : BHCol Unit T CF := BHCol.empty.addTuple (NonZeroCoeff.one, b, ())
  (D.buildBhcol b).bind fun r0 =>
  (stdReduce D s.v s.low fuel r0 v0).bind fun p =>
  let low := match (BHCol.popPivot p.1).1 with
    | some e => mapInsert s.low e.row (b, e.coeff)
    | none => s.low
  LM.lift <| (BHCol.toSortedVec p.2).map fun vs => ⟨mapInsert s.v b (vs.map fun e => (e.coeff, e.row)), low⟩

/-- The loop over the basis, phlite/src/reduction/standard.rs:42-106. -/
def stdLoop (D : Matrix σ CF T F) (B : Basis T) (fuel : Nat → Nat) : List Nat → StdState CF T → LM σ (StdState CF T)
  | [], s => LM.ret s
  | i :: is, s => (LM.lift (B.element i)).bind fun b => (stdColumn D (fuel i) s b).bind fun s' => stdLoop D B fuel is s'

/-- `standard_algo`, phlite/src/reduction/standard.rs:31-109. -/
def standardAlgo (D : Matrix σ CF T F) (B : Basis T) (fuel : Nat → Nat) : LM σ (T → Option (List (CF × T))) :=
  (stdLoop D B fuel (List.range B.size) ⟨fun _ => none, fun _ => none⟩).map fun s => s.v

/-- The loop of `read_off_diagram`, phlite/src/reduction/standard.rs:133-146. -/
def readLoop (R : Matrix σ CF T F) (B : Basis T) : List Nat → Diagram T → LM σ (Diagram T)
  | [], d => LM.ret d
  | i :: is, d => (LM.lift (B.element i)).bind fun b => (R.buildBhcol b).bind fun r =>
    readLoop R B is <| match (BHCol.popPivot r).1 with
      | none => { d with essential := insert b d.essential }
      | some piv => { essential := d.essential.erase piv.row, pairings := insert (piv.row, b) d.pairings }

/-- `read_off_diagram`, phlite/src/reduction/standard.rs:112-152. -/
def readOffDiagram (D : Matrix σ CF T F) (B : Basis T) (v : T → Option (List (CF × T))) (reverseOrder : Bool) : LM σ (Diagram T) :=
  readLoop (productRef D (Cols.ofFun v)) B (if reverseOrder then (List.range B.size).reverse else List.range B.size) Diagram.empty

/-- `&M` as a matrix: the default `column_with_filtration`, phlite/src/matrices/mod.rs:341-350. -/
def Matrix.ref (D : Matrix σ CF T F) : Matrix σ CF T F := { D with colF := defaultCols D.column D.filt }

/-- `standard_algo_with_diagram`, phlite/src/reduction/standard.rs:156-171. -/
def standardAlgoWithDiagram (D : Matrix σ CF T F) (B : Basis T) (fuel : Nat → Nat) (reverseOrder : Bool) :
    LM σ ((T → Option (List (CF × T))) × Diagram T) :=
  (standardAlgo D.ref B fuel).bind fun v => (readOffDiagram D.ref B v reverseOrder).map fun d => (v, d)

/-! ### Clearing algorithm -/

/-- `ClearedReductionMatrix::col_is_cycle`, phlite/src/reduction/clearing.rs:71-81. -/
def colIsCycle (D : Matrix σ CF T F) (rc : T → Option (RedCol CF T)) (depth : Nat) (c : T) : LM σ Bool :=
  (LM.lift (rc c)).bind fun
    | .cleared _ => LM.ret true
    | .reduced _ => ((productRef D (crmCols D.column rc depth)).buildBhcol c).map fun r => (BHCol.popPivot r).1.isNone

/-- `CRMBuilder::reduce_column`, phlite/src/reduction/clearing.rs:191-233. -/
def clrReduce (D : Matrix σ CF T F) (rc : T → Option (RedCol CF T)) (depth : Nat) (low : T → Option (T × CF)) :
    Nat → BHCol F T CF → BHCol Unit T CF → LM σ (BHCol F T CF × BHCol Unit T CF)
  | 0, _, _ => LM.lift none
  | fuel + 1, r, vi =>
    match BHCol.clonePivot r with
    | (none, r1) => LM.ret (r1, vi)
    | (some e, r1) =>
      match low e.row with
      | none => LM.ret (r1, vi)
      | some (j, jc) =>
        let m := NonZeroCoeff.mul (NonZeroCoeff.neg e.coeff) (NonZeroCoeff.inv jc)
        let vMatrix := crmCols D.column rc depth
        ((productRef D vMatrix).colF.collect j).bind fun re =>
        ((defaultCols vMatrix fun _ => some ()).collect j).bind fun ve =>
          clrReduce D rc depth low fuel (r1.addEntries (re.map fun x => x.scale m)) (vi.addEntries (ve.map fun x => x.scale m))

/-- The body of the `'column_loop`, phlite/src/reduction/clearing.rs:297-311. `save_column` does not use the boundary. -/
def clrColumn (D : Matrix σ CF T F) (fuel : Nat) (p : CrmState CF T × (T → Option (T × CF))) (b : T) :
    LM σ (CrmState CF T × (T → Option (T × CF))) :=
  if (p.1.rc b).isSome then LM.ret p
  else
    (D.buildBhcol b).bind fun r0 =>
    (clrReduce D p.1.rc fuel p.2 fuel r0 BHCol.empty).bind fun q =>
    LM.lift (clrSave p.1 p.2 b q.1 q.2)

/-- The `'column_loop`, phlite/src/reduction/clearing.rs:289-312. -/
def clrLoop (D : Matrix σ CF T F) (B : Basis T) (fuel : Nat) :
    List Nat → CrmState CF T × (T → Option (T × CF)) → LM σ (CrmState CF T × (T → Option (T × CF)))
  | [], p => LM.ret p
  | i :: is, p => (LM.lift (B.element i)).bind fun b => (clrColumn D fuel p b).bind fun p' => clrLoop D B fuel is p'

/-- `CRMBuilder::reduce_dimension`, phlite/src/reduction/clearing.rs:281-313. -/
def clrDimension (D : Matrix σ CF T F) (B : SplitBasis T) (fuel : Nat) (s : CrmState CF T) (dim : Nat) : LM σ (CrmState CF T) :=
  (LM.lift (B.inDim dim)).bind fun Bd => (clrLoop D Bd fuel (List.range Bd.size) (s, fun _ => none)).map Prod.fst

/-- `CRMBuilder::reduce_all_dimension`, phlite/src/reduction/clearing.rs:315-320. -/
def clrAll (D : Matrix σ CF T F) (B : SplitBasis T) (fuel : Nat) : List Nat → CrmState CF T → LM σ (CrmState CF T)
  | [], s => LM.ret s
  | d :: ds, s => (clrDimension D B fuel s d).bind fun s' => clrAll D B fuel ds s'

/-- `ClearedReductionMatrix::build_with_diagram`, phlite/src/reduction/clearing.rs:343-356. -/
def buildWithDiagram (D : Matrix σ CF T F) (B : SplitBasis T) (fuel : Nat) (dims : List Nat) :
    LM σ ((T → Option (RedCol CF T)) × Diagram T) :=
  (clrAll D B fuel dims ⟨Diagram.empty, fun _ => none⟩).map fun s => (s.rc, s.diagram)

end
end Lazy
end Phlite
