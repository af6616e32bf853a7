/-
The functions of phlite/src/{columns.rs, matrices/combinators.rs, matrices/adaptors.rs, reduction/} once more, this time with coefficient operations that may
panic, as the operations of `ZP<P>` (u8 overflow, zero product) and of `Q` (64-bit overflow) do.  Each definition mirrors the one of the same
name in `Verif.Model.{Columns, Matrices, Reduction}`, where the coefficient operations are total; the citations are the same.  `none` = some coefficient operation
of the run panicked (or the run panics for the reasons that exist with total operations too, or the fuel was exhausted).
-/
import Verif.Model.Reduction
import Verif.Model.Q64

namespace Phlite

/-- The operations of `NonZeroCoefficient` and `Invertible`, phlite/src/fields.rs:19-36, each of which may panic (`none`). -/
structure PanicOps (CF : Type) where
  add : CF → CF → Option (Option CF)
  mul : CF → CF → Option CF
  one : CF
  neg : CF → Option CF
  inv : CF → Option CF

/-- Operations that never panic. -/
def PanicOps.exact (CF : Type) [NonZeroCoeff CF] : PanicOps CF where
  add a b := some (NonZeroCoeff.add a b)
  mul a b := some (NonZeroCoeff.mul a b)
  one := NonZeroCoeff.one
  neg a := some (NonZeroCoeff.neg a)
  inv a := some (NonZeroCoeff.inv a)

namespace Ck
variable {CF T F Row Col : Type}

/-- `Add<Option<Self>>`, phlite/src/fields.rs:69-82 and 127-136. -/
def addOpt (K : PanicOps CF) (a : CF) : Option CF → Option (Option CF)
  | none => some (some a)
  | some b => K.add a b

/-- `Mul<CF> for ColumnEntry`, phlite/src/columns.rs:85-97. -/
def scale (K : PanicOps CF) (e : Entry F Row CF) (m : CF) : Option (Entry F Row CF) :=
  (K.mul e.coeff m).map fun c => { filt := e.filt, row := e.row, coeff := c }

section
variable [StdHeap] [LinearOrder F] [LinearOrder Row]

/-- The `loop` of `BHCol::pop_pivot`, phlite/src/columns.rs:191-218. -/
def popLoop (K : PanicOps CF) (h : BHCol F Row CF) (wi : Row) (ws : Option CF) (wf : F) :
    Option (Option (Entry F Row CF) × BHCol F Row CF) :=
  match hp : StdHeap.pop h with
  | none => some (ws.map fun c => ⟨wf, wi, c⟩, h)
  | some (next, h') =>
    have := BHCol.card_pop hp
    if next.row ≠ wi then
      match ws with
      | some c => some (some ⟨wf, wi, c⟩, h)
      | none => (addOpt K next.coeff none).bind fun s => popLoop K h' next.row s next.filt
    else (addOpt K next.coeff ws).bind fun s => popLoop K h' wi s wf
termination_by (StdHeap.bag h).card

/-- `BHCol::pop_pivot`, phlite/src/columns.rs:181-219. -/
def popPivot (K : PanicOps CF) (h : BHCol F Row CF) : Option (Option (Entry F Row CF) × BHCol F Row CF) :=
  match StdHeap.pop h with
  | none => some (none, h)
  | some (first, h') => popLoop K h' first.row (some first.coeff) first.filt

/-- `BHCol::clone_pivot`, phlite/src/columns.rs:222-235. -/
def clonePivot (K : PanicOps CF) (h : BHCol F Row CF) : Option (Option (Entry F Row CF) × BHCol F Row CF) :=
  (popPivot K h).map fun
    | (some pivot, h') => (some pivot, BHCol.addEntry h' pivot)
    | (none, h') => (none, h')

/-- `drain_sorted` run to exhaustion, phlite/src/columns.rs:164-169. -/
def drainFuel (K : PanicOps CF) : Nat → BHCol F Row CF → Option (List (Entry F Row CF) × BHCol F Row CF)
  | 0, _ => none
  | n + 1, h => (popPivot K h).bind fun
    | (none, h') => some ([], h')
    | (some e, h') => (drainFuel K n h').map fun p => (e :: p.1, p.2)

/-- `BHCol::to_sorted_vec` / `drain_sorted().collect()`, phlite/src/columns.rs:164-177. -/
def toSortedVec (K : PanicOps CF) (h : BHCol F Row CF) : Option (List (Entry F Row CF)) :=
  (drainFuel K ((StdHeap.bag h).card + 1) h).map Prod.fst

/-- `HasRowFiltration::build_bhcol`, phlite/src/matrices/mod.rs:331-338 (no coefficient operation). -/
def buildBhcol (M : FOracle CF Col Row F) (c : Col) : Option (BHCol F Row CF) :=
  (M.colF c).map fun es => BHCol.empty.addEntries es

/-- `Consolidator::column`, phlite/src/matrices/adaptors.rs:126-159. -/
def consolidate (K : PanicOps CF) (M : Oracle CF Col Row) : Oracle CF Col Row where
  column c := (buildBhcol M.withTrivial c).bind fun h => (toSortedVec K h).map fun es => es.map fun e => (e.coeff, e.row)

/-- `MatrixOracle::eq_on_col`, phlite/src/matrices/mod.rs:104-127. -/
def eqOnCol [DecidableEq CF] (K : PanicOps CF) (a b : Oracle CF Col Row) (c : Col) : Option Bool :=
  (buildBhcol a.withTrivial c).bind fun ha =>
  (buildBhcol b.withTrivial c).bind fun hb =>
  (toSortedVec K ha).bind fun la =>
  (toSortedVec K hb).map fun lb =>
    decide (la.map Entry.toTuple = lb.map Entry.toTuple)
end

/-- `Product::column`, phlite/src/matrices/combinators.rs:38-68. -/
def prodColumn {Mid : Type} (K : PanicOps CF) (left : Oracle CF Mid Row) (right : Oracle CF Col Mid) (c : Col) :
    Option (List (CF × Row)) :=
  (right.column c).bind <| flatMapOpt fun t =>
    (left.column t.2).bind <| mapOpt fun u => (K.mul u.1 t.1).map fun m => (m, u.2)

/-- `product`, phlite/src/matrices/combinators.rs:17-97. -/
def productF {Mid : Type} (K : PanicOps CF) (left : FOracle CF Mid Row F) (right : Oracle CF Col Mid) :
    FOracle CF Col Row F where
  column := prodColumn K left.toOracle right
  filt := left.filt
  colF c := (right.column c).bind <| flatMapOpt fun t =>
    (left.colF t.2).bind <| mapOpt fun e => (K.mul e.coeff t.1).map fun m =>
      { coeff := m, row := e.row, filt := e.filt }

section
variable [StdHeap] [LinearOrder F] [LinearOrder T]

/-- The `'reduction` loop of `standard_algo`, phlite/src/reduction/standard.rs:51-89. -/
def stdReduce (K : PanicOps CF) (D : FOracle CF T T F) (v : T → Option (List (CF × T))) (low : T → Option (T × CF)) :
    Nat → BHCol F T CF → BHCol Unit T CF → Option (BHCol F T CF × BHCol Unit T CF)
  | 0, _, _ => none
  | fuel + 1, r, vi => (popPivot K r).bind fun
    | (none, r1) => some (r1, vi)
    | (some e, r1) =>
      let r2 := BHCol.addEntry r1 e
      match low e.row with
      | none => some (r2, vi)
      | some (j, jc) =>
        (K.neg e.coeff).bind fun n => (K.inv jc).bind fun ji => (K.mul n ji).bind fun m =>
        let vMatrix := (mapVecMatrix v).withTrivial
        ((productF K D.ref vMatrix.toOracle).colF j).bind fun re =>
        (vMatrix.colF j).bind fun ve =>
        (mapOpt (fun x => scale K x m) re).bind fun re' =>
        (mapOpt (fun x => scale K x m) ve).bind fun ve' =>
          stdReduce K D v low fuel (BHCol.addEntries r2 re') (BHCol.addEntries vi ve')

/-- One iteration of the outer loop of `standard_algo`, phlite/src/reduction/standard.rs:43-105. -/
def stdColumn (K : PanicOps CF) (D : FOracle CF T T F) (fuel : Nat) (s : StdState CF T) (b : T) : Option (StdState CF T) :=
  let v0 : BHCol Unit T CF := BHCol.addTuple BHCol.empty (K.one, b, ())
  (buildBhcol D b).bind fun r0 =>
  (stdReduce K D s.v s.low fuel r0 v0).bind fun p =>
  (popPivot K p.1).bind fun q =>
  let low := match q.1 with
    | some e => mapInsert s.low e.row (b, e.coeff)
    | none => s.low
  (toSortedVec K p.2).map fun vs => ⟨mapInsert s.v b (vs.map fun e => (e.coeff, e.row)), low⟩

/-- The loop `for i in is` of `standard_algo`, phlite/src/reduction/standard.rs:42-106. -/
def stdLoop (K : PanicOps CF) (D : FOracle CF T T F) (B : Basis T) (fuel : Nat → Nat) :
    List Nat → StdState CF T → Option (StdState CF T)
  | [], s => some s
  | i :: is, s => (B.element i).bind fun b => (stdColumn K D (fuel i) s b).bind fun s' => stdLoop K D B fuel is s'

/-- `standard_algo`, phlite/src/reduction/standard.rs:31-109. -/
def standardAlgo (K : PanicOps CF) (D : FOracle CF T T F) (B : Basis T) (fuel : Nat → Nat) :
    Option (T → Option (List (CF × T))) :=
  (stdLoop K D B fuel (List.range B.size) ⟨fun _ => none, fun _ => none⟩).map fun s => s.v

/-- The loop of `read_off_diagram`, phlite/src/reduction/standard.rs:133-146. The second `pop_pivot` (line 145), whose result is not used, can panic. -/
def readLoop (K : PanicOps CF) (R : FOracle CF T T F) (B : Basis T) : List Nat → Diagram T → Option (Diagram T)
  | [], d => some d
  | i :: is, d => (B.element i).bind fun b => (buildBhcol R b).bind fun r =>
    (popPivot K r).bind fun p =>
    (popPivot K p.2).bind fun _ =>
    readLoop K R B is <| match p.1 with
      | none => { d with essential := insert b d.essential }
      | some piv => { essential := d.essential.erase piv.row, pairings := insert (piv.row, b) d.pairings }

/-- `read_off_diagram`, phlite/src/reduction/standard.rs:112-152. -/
def readOffDiagram (K : PanicOps CF) (D : FOracle CF T T F) (B : Basis T) (v : T → Option (List (CF × T)))
    (reverseOrder : Bool) : Option (Diagram T) :=
  readLoop K (productF K D.ref (mapVecMatrix v)) B
    (if reverseOrder then (List.range B.size).reverse else List.range B.size) Diagram.empty

/-- `standard_algo_with_diagram`, phlite/src/reduction/standard.rs:156-171. -/
def standardAlgoWithDiagram (K : PanicOps CF) (D : FOracle CF T T F) (B : Basis T) (fuel : Nat → Nat)
    (reverseOrder : Bool) : Option ((T → Option (List (CF × T))) × Diagram T) :=
  (standardAlgo K D.ref B fuel).bind fun v => (readOffDiagram K D.ref B v reverseOrder).map fun d => (v, d)

/-- `ClearedReductionMatrix::column`, phlite/src/reduction/clearing.rs:110-137. -/
def crmColumn (K : PanicOps CF) (D : Oracle CF T T) (rc : T → Option (RedCol CF T)) : Nat → T → Option (List (CF × T))
  | 0, _ => none
  | n + 1, c => (rc c).bind fun
    | .cleared j => prodColumn K D ⟨crmColumn K D rc n⟩ j
    | .reduced vec => some (vec ++ [(K.one, c)])

/-- `ClearedReductionMatrix` as an oracle, phlite/src/reduction/clearing.rs:39-54. -/
def crmMatrix (K : PanicOps CF) (D : Oracle CF T T) (rc : T → Option (RedCol CF T)) (depth : Nat) : Oracle CF T T :=
  ⟨crmColumn K D rc depth⟩

/-- `ClearedReductionMatrix::col_is_cycle`, phlite/src/reduction/clearing.rs:71-81. -/
def colIsCycle (K : PanicOps CF) (D : FOracle CF T T F) (rc : T → Option (RedCol CF T)) (depth : Nat) (c : T) : Option Bool :=
  (rc c).bind fun
    | .cleared _ => some true
    | .reduced _ => (buildBhcol (productF K D.ref (crmMatrix K D.toOracle rc depth)) c).bind fun r =>
      (popPivot K r).map fun p => p.1.isNone

/-- `CRMBuilder::reduce_column`, phlite/src/reduction/clearing.rs:191-233. -/
def clrReduce (K : PanicOps CF) (D : FOracle CF T T F) (rc : T → Option (RedCol CF T)) (depth : Nat)
    (low : T → Option (T × CF)) :
    Nat → BHCol F T CF → BHCol Unit T CF → Option (BHCol F T CF × BHCol Unit T CF)
  | 0, _, _ => none
  | fuel + 1, r, vi => (clonePivot K r).bind fun
    | (none, r1) => some (r1, vi)
    | (some e, r1) =>
      match low e.row with
      | none => some (r1, vi)
      | some (j, jc) =>
        (K.neg e.coeff).bind fun n => (K.inv jc).bind fun ji => (K.mul n ji).bind fun m =>
        let vMatrix := (crmMatrix K D.toOracle rc depth).withTrivial
        ((productF K D.ref vMatrix.toOracle).colF j).bind fun re =>
        (vMatrix.colF j).bind fun ve =>
        (mapOpt (fun x => scale K x m) re).bind fun re' =>
        (mapOpt (fun x => scale K x m) ve).bind fun ve' =>
          clrReduce K D rc depth low fuel (BHCol.addEntries r1 re') (BHCol.addEntries vi ve')

/-- `CRMBuilder::save_column`, phlite/src/reduction/clearing.rs:235-279. -/
def clrSave (K : PanicOps CF) (s : CrmState CF T) (low : T → Option (T × CF)) (b : T) (r : BHCol F T CF) (vi : BHCol Unit T CF) :
    Option (CrmState CF T × (T → Option (T × CF))) :=
  let p : CrmState CF T × (T → Option (T × CF)) := match BHCol.peekPivot r with
    | some e =>
      (⟨⟨s.diagram.essential, insert (e.row, b) s.diagram.pairings⟩, mapInsert s.rc e.row (.cleared b)⟩,
        mapInsert low e.row (b, e.coeff))
    | none => (⟨⟨insert b s.diagram.essential, s.diagram.pairings⟩, s.rc⟩, low)
  (toSortedVec K vi).map fun vs =>
    (⟨p.1.diagram, mapInsert p.1.rc b (.reduced (vs.map fun e => (e.coeff, e.row)))⟩, p.2)

/-- The body of the `'column_loop`, phlite/src/reduction/clearing.rs:297-311. -/
def clrColumn (K : PanicOps CF) (D : FOracle CF T T F) (fuel : Nat) (p : CrmState CF T × (T → Option (T × CF))) (b : T) :
    Option (CrmState CF T × (T → Option (T × CF))) :=
  if (p.1.rc b).isSome then some p
  else
    (buildBhcol D b).bind fun r0 =>
    (clrReduce K D p.1.rc fuel p.2 fuel r0 BHCol.empty).bind fun q =>
    clrSave K p.1 p.2 b q.1 q.2

/-- The `'column_loop`, phlite/src/reduction/clearing.rs:289-312. -/
def clrLoop (K : PanicOps CF) (D : FOracle CF T T F) (B : Basis T) (fuel : Nat) :
    List Nat → CrmState CF T × (T → Option (T × CF)) → Option (CrmState CF T × (T → Option (T × CF)))
  | [], p => some p
  | i :: is, p => (B.element i).bind fun b => (clrColumn K D fuel p b).bind fun p' => clrLoop K D B fuel is p'

/-- `CRMBuilder::reduce_dimension`, phlite/src/reduction/clearing.rs:281-313. -/
def clrDimension (K : PanicOps CF) (D : FOracle CF T T F) (B : SplitBasis T) (fuel : Nat) (s : CrmState CF T) (dim : Nat) :
    Option (CrmState CF T) :=
  (B.inDim dim).bind fun Bd => (clrLoop K D Bd fuel (List.range Bd.size) (s, fun _ => none)).map Prod.fst

/-- `CRMBuilder::reduce_all_dimension`, phlite/src/reduction/clearing.rs:315-320. -/
def clrAll (K : PanicOps CF) (D : FOracle CF T T F) (B : SplitBasis T) (fuel : Nat) :
    List Nat → CrmState CF T → Option (CrmState CF T)
  | [], s => some s
  | d :: ds, s => (clrDimension K D B fuel s d).bind fun s' => clrAll K D B fuel ds s'

/-- `ClearedReductionMatrix::build_with_diagram`, phlite/src/reduction/clearing.rs:343-356. -/
def buildWithDiagram (K : PanicOps CF) (D : FOracle CF T T F) (B : SplitBasis T) (fuel : Nat) (dims : List Nat) :
    Option ((T → Option (RedCol CF T)) × Diagram T) :=
  (clrAll K D B fuel dims ⟨Diagram.empty, fun _ => none⟩).map fun s => (s.rc, s.diagram)

end
end Ck
end Phlite
