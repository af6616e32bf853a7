/-
Model of phlite/src/reduction/{mod,standard,clearing}.rs.

Loops without a syntactic bound take fuel; running out of fuel is `none`, like a panic, so a theorem that says `some` for every
large enough fuel includes termination.  Hash maps are functions to `Option`, hash sets are finite sets.
-/
import Verif.Model.Matrices
import Mathlib.Data.Finset.Basic

namespace Phlite

/-- `Diagram`, phlite/src/reduction/mod.rs:15-22. -/
structure Diagram (T : Type) where
  essential : Finset T
  pairings : Finset (T × T)

instance {T : Type} [DecidableEq T] : DecidableEq (Diagram T) := fun a b =>
  decidable_of_iff (a.essential = b.essential ∧ a.pairings = b.pairings)
    ⟨fun h => by cases a; cases b; simp_all, fun h => by subst h; exact ⟨rfl, rfl⟩⟩

/-- The empty diagram, phlite/src/reduction/clearing.rs:174-179 and standard.rs:124-125. -/
def Diagram.empty {T : Type} : Diagram T := ⟨∅, ∅⟩

section
variable [StdHeap] {CF T F : Type} [NonZeroCoeff CF] [LinearOrder F] [LinearOrder T]

/-! ### Standard algorithm -/

/-- The `'reduction` loop of `standard_algo`, phlite/src/reduction/standard.rs:51-89.
Arguments: the matrix, `v`, `low_inverse`, fuel, `r_i`, `v_i`. Returns the final `r_i`, `v_i`. -/
def stdReduce (D : FOracle CF T T F) (v : T → Option (List (CF × T))) (low : T → Option (T × CF)) :
    Nat → BHCol F T CF → BHCol Unit T CF → Option (BHCol F T CF × BHCol Unit T CF)
  | 0, _, _ => none
  | fuel + 1, r, vi =>
    match BHCol.popPivot r with
    | (none, r1) => some (r1, vi)
    | (some e, r1) =>
      let r2 := r1.addEntry e
      match low e.row with
      | none => some (r2, vi)
      | some (j, jc) =>
        let m := NonZeroCoeff.mul (NonZeroCoeff.neg e.coeff) (NonZeroCoeff.inv jc)
        let vMatrix := (mapVecMatrix v).withTrivial
        ((productF D.ref vMatrix.toOracle).colF j).bind fun re =>
        (vMatrix.colF j).bind fun ve =>
          stdReduce D v low fuel (r2.addEntries (re.map fun x => x.scale m)) (vi.addEntries (ve.map fun x => x.scale m))

/-- State of the outer loop of `standard_algo`: `v` and `low_inverse`. -/
structure StdState (CF T : Type) where
  v : T → Option (List (CF × T))
  low : T → Option (T × CF)

/-- One iteration of the outer loop of `standard_algo` for the basis element `b`,
phlite/src/reduction/standard.rs:43-105. -/
def stdColumn (D : FOracle CF T T F) (fuel : Nat) (s : StdState CF T) (b : T) : Option (StdState CF T) :=
  let v0 : BHCol Unit T CF := BHCol.empty.addTuple (NonZeroCoeff.one, b, ())
  (D.buildBhcol b).bind fun r0 =>
  (stdReduce D s.v s.low fuel r0 v0).bind fun p =>
  let low := match (BHCol.popPivot p.1).1 with
    | some e => mapInsert s.low e.row (b, e.coeff)
    | none => s.low
  (BHCol.toSortedVec p.2).map fun vs => ⟨mapInsert s.v b (vs.map fun e => (e.coeff, e.row)), low⟩

/-- The loop `for i in is` of `standard_algo`, phlite/src/reduction/standard.rs:42-106. -/
def stdLoop (D : FOracle CF T T F) (B : Basis T) (fuel : Nat → Nat) : List Nat → StdState CF T → Option (StdState CF T)
  | [], s => some s
  | i :: is, s => (B.element i).bind fun b => (stdColumn D (fuel i) s b).bind fun s' => stdLoop D B fuel is s'

/-- `standard_algo`, phlite/src/reduction/standard.rs:31-109. `fuel i` bounds the number of iterations of the reduction loop for
column `i`. Returns `v`. -/
def standardAlgo (D : FOracle CF T T F) (B : Basis T) (fuel : Nat → Nat) : Option (T → Option (List (CF × T))) :=
  (stdLoop D B fuel (List.range B.size) ⟨fun _ => none, fun _ => none⟩).map fun s => s.v

/-- The loop of `read_off_diagram`, phlite/src/reduction/standard.rs:133-146 (line 145 has no effect). -/
def readLoop (R : FOracle CF T T F) (B : Basis T) : List Nat → Diagram T → Option (Diagram T)
  | [], d => some d
  | i :: is, d => (B.element i).bind fun b => (R.buildBhcol b).bind fun r =>
    readLoop R B is <| match (BHCol.popPivot r).1 with
      | none => { d with essential := insert b d.essential }
      | some piv => { essential := d.essential.erase piv.row, pairings := insert (piv.row, b) d.pairings }

/-- `read_off_diagram`, phlite/src/reduction/standard.rs:112-152. -/
def readOffDiagram (D : FOracle CF T T F) (B : Basis T) (v : T → Option (List (CF × T))) (reverseOrder : Bool) :
    Option (Diagram T) :=
  readLoop (productF D.ref (mapVecMatrix v)) B
    (if reverseOrder then (List.range B.size).reverse else List.range B.size) Diagram.empty

/-- `standard_algo_with_diagram`, phlite/src/reduction/standard.rs:156-171 (both calls take `&boundary`). -/
def standardAlgoWithDiagram (D : FOracle CF T T F) (B : Basis T) (fuel : Nat → Nat) (reverseOrder : Bool) :
    Option ((T → Option (List (CF × T))) × Diagram T) :=
  (standardAlgo D.ref B fuel).bind fun v => (readOffDiagram D.ref B v reverseOrder).map fun d => (v, d)

/-! ### Clearing algorithm -/

/-- `enum ReductionColumn`, phlite/src/reduction/clearing.rs:25-31. -/
inductive RedCol (CF T : Type)
  | cleared (j : T)
  | reduced (vec : List (CF × T))

/-- `ClearedReductionMatrix::column`, phlite/src/reduction/clearing.rs:110-137. The first argument bounds the recursion
depth (`Cleared` columns recurse). -/
def crmColumn (D : Oracle CF T T) (rc : T → Option (RedCol CF T)) : Nat → T → Option (List (CF × T))
  | 0, _ => none
  | n + 1, c => (rc c).bind fun
    | .cleared j => prodColumn D ⟨crmColumn D rc n⟩ j
    | .reduced vec => some (vec ++ [(NonZeroCoeff.one, c)])

/-- `ClearedReductionMatrix` as an oracle. -/
def crmMatrix (D : Oracle CF T T) (rc : T → Option (RedCol CF T)) (depth : Nat) : Oracle CF T T :=
  ⟨crmColumn D rc depth⟩

/-- `ClearedReductionMatrix::col_is_cycle`, phlite/src/reduction/clearing.rs:71-81. -/
def colIsCycle (D : FOracle CF T T F) (rc : T → Option (RedCol CF T)) (depth : Nat) (c : T) : Option Bool :=
  (rc c).bind fun
    | .cleared _ => some true
    | .reduced _ => ((productF D.ref (crmMatrix D.toOracle rc depth)).buildBhcol c).map fun r =>
      (BHCol.popPivot r).1.isNone

/-- `CRMBuilder` (without the fixed fields), phlite/src/reduction/clearing.rs:157-162. -/
structure CrmState (CF T : Type) where
  diagram : Diagram T
  rc : T → Option (RedCol CF T)

/-- `CRMBuilder::reduce_column`, phlite/src/reduction/clearing.rs:191-233. -/
def clrReduce (D : FOracle CF T T F) (rc : T → Option (RedCol CF T)) (depth : Nat) (low : T → Option (T × CF)) :
    Nat → BHCol F T CF → BHCol Unit T CF → Option (BHCol F T CF × BHCol Unit T CF)
  | 0, _, _ => none
  | fuel + 1, r, vi =>
    match BHCol.clonePivot r with
    | (none, r1) => some (r1, vi)
    | (some e, r1) =>
      match low e.row with
      | none => some (r1, vi)
      | some (j, jc) =>
        let m := NonZeroCoeff.mul (NonZeroCoeff.neg e.coeff) (NonZeroCoeff.inv jc)
        let vMatrix := (crmMatrix D.toOracle rc depth).withTrivial
        ((productF D.ref vMatrix.toOracle).colF j).bind fun re =>
        (vMatrix.colF j).bind fun ve =>
          clrReduce D rc depth low fuel (r1.addEntries (re.map fun x => x.scale m))
            (vi.addEntries (ve.map fun x => x.scale m))

/-- `CRMBuilder::save_column`, phlite/src/reduction/clearing.rs:235-279. -/
def clrSave (s : CrmState CF T) (low : T → Option (T × CF)) (b : T) (r : BHCol F T CF) (vi : BHCol Unit T CF) :
    Option (CrmState CF T × (T → Option (T × CF))) :=
  let p : CrmState CF T × (T → Option (T × CF)) := match BHCol.peekPivot r with
    | some e =>
      (⟨⟨s.diagram.essential, insert (e.row, b) s.diagram.pairings⟩, mapInsert s.rc e.row (.cleared b)⟩,
        mapInsert low e.row (b, e.coeff))
    | none => (⟨⟨insert b s.diagram.essential, s.diagram.pairings⟩, s.rc⟩, low)
  (BHCol.toSortedVec vi).map fun vs =>
    (⟨p.1.diagram, mapInsert p.1.rc b (.reduced (vs.map fun e => (e.coeff, e.row)))⟩, p.2)

/-- The body of the `'column_loop` of `CRMBuilder::reduce_dimension` for basis element `b`,
phlite/src/reduction/clearing.rs:297-311. -/
def clrColumn (D : FOracle CF T T F) (fuel : Nat) (p : CrmState CF T × (T → Option (T × CF))) (b : T) :
    Option (CrmState CF T × (T → Option (T × CF))) :=
  if (p.1.rc b).isSome then some p
  else
    (D.buildBhcol b).bind fun r0 =>
    (clrReduce D p.1.rc fuel p.2 fuel r0 BHCol.empty).bind fun q =>
    clrSave p.1 p.2 b q.1 q.2

/-- The `'column_loop`, phlite/src/reduction/clearing.rs:289-312. -/
def clrLoop (D : FOracle CF T T F) (B : Basis T) (fuel : Nat) :
    List Nat → CrmState CF T × (T → Option (T × CF)) → Option (CrmState CF T × (T → Option (T × CF)))
  | [], p => some p
  | i :: is, p => (B.element i).bind fun b => (clrColumn D fuel p b).bind fun p' => clrLoop D B fuel is p'

/-- `CRMBuilder::reduce_dimension`, phlite/src/reduction/clearing.rs:281-313. -/
def clrDimension (D : FOracle CF T T F) (B : SplitBasis T) (fuel : Nat) (s : CrmState CF T) (dim : Nat) :
    Option (CrmState CF T) :=
  (B.inDim dim).bind fun Bd => (clrLoop D Bd fuel (List.range Bd.size) (s, fun _ => none)).map Prod.fst

/-- `CRMBuilder::reduce_all_dimension`, phlite/src/reduction/clearing.rs:315-320. -/
def clrAll (D : FOracle CF T T F) (B : SplitBasis T) (fuel : Nat) : List Nat → CrmState CF T → Option (CrmState CF T)
  | [], s => some s
  | d :: ds, s => (clrDimension D B fuel s d).bind fun s' => clrAll D B fuel ds s'

/-- `ClearedReductionMatrix::build_with_diagram`, phlite/src/reduction/clearing.rs:343-356: the stored reduction columns and the
diagram. `fuel` bounds the iterations of each reduction loop and the recursion depth of `ClearedReductionMatrix::column`. -/
def buildWithDiagram (D : FOracle CF T T F) (B : SplitBasis T) (fuel : Nat) (dims : List Nat) :
    Option ((T → Option (RedCol CF T)) × Diagram T) :=
  (clrAll D B fuel dims ⟨Diagram.empty, fun _ => none⟩).map fun s => (s.rc, s.diagram)

end
end Phlite
