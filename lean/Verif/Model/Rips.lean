/-
Model of phlite_rips/src/{lib,homology,cohomology}.rs.

`RipsIndex` is the number it wraps (`usize` unbounded here; see `fromIndices64` for the 64-bit arithmetic). `NotNan<f64>` is an
arbitrary linear order `F` with a zero: the code only compares distances and takes maxima. `none` is a panic.
-/
import Verif.Model.Matrices
import Mathlib.Data.List.Sort
import Mathlib.Data.Prod.Lex

namespace Phlite

/-- `RipsIndex`, phlite_rips/src/lib.rs:20-21, with the derived order. -/
abbrev RipsIndex := Nat

/-! ### Indices -/

/-- The loop of `RipsIndex::to_vec`, phlite_rips/src/lib.rs:36-40, with base `b`; `remainder - 1` underflows (panics) if a digit is zero.
`fuel` bounds the number of iterations (`toVec` provides enough, see `toVec_step`). -/
def toVecLoop (b : Nat) : Nat → Nat → Option (List Nat)
  | fuel, w =>
    if w = 0 then some []
    else match fuel with
      | 0 => none
      | fuel + 1 => if w % b = 0 then none else (toVecLoop b fuel (w / b)).map ((w % b - 1) :: ·)

/-- `RipsIndex::to_vec`, phlite_rips/src/lib.rs:32-42. -/
def toVec (n_points : Nat) (index : RipsIndex) : Option (List Nat) := toVecLoop (n_points + 1) index index

/-- `RipsIndex::from_indices`, phlite_rips/src/lib.rs:44-55, without overflow. -/
def fromIndices (n_points : Nat) (indices : List Nat) : Option RipsIndex :=
  let inner := (indices.zipIdx.map fun p => (n_points + 1) ^ p.2 * (p.1 + 1)).sum
  if inner > 0 then some inner else none

/-- A `usize` operation: panics (in a debug build) if the result is not below `2^64`. -/
def chk64 (x : Nat) : Option Nat := if x < 2 ^ 64 then some x else none

/-- `usize::pow`: every intermediate power must fit. -/
def pow64 (b : Nat) : Nat → Option Nat
  | 0 => some 1
  | k + 1 => (pow64 b k).bind fun x => chk64 (x * b)

/-- `RipsIndex::from_indices` with 64-bit arithmetic, phlite_rips/src/lib.rs:44-55: `(n_points + 1).pow(i) * (coeff + 1)`, summed up;
`none` is an overflow (a panic in a debug build). -/
def fromIndices64 (n_points : Nat) (indices : List Nat) : Option (Option RipsIndex) :=
  (indices.zipIdx.foldlM (fun acc p =>
    (chk64 (n_points + 1)).bind fun b => (pow64 b p.2).bind fun x => (chk64 (p.1 + 1)).bind fun c => (chk64 (x * c)).bind fun y =>
      chk64 (acc + y)) 0).map fun inner => if inner > 0 then some inner else none

/-- `RipsIndex::from_indices` in a release build, where 64-bit arithmetic wraps around, phlite_rips/src/lib.rs:44-55. -/
def fromIndicesWrapping (n_points : Nat) (indices : List Nat) : Option RipsIndex :=
  let inner := (indices.zipIdx.map fun p => (n_points + 1) ^ p.2 * (p.1 + 1)).sum % 2 ^ 64
  if inner > 0 then some inner else none

/-- `RipsIndex::dimension`, phlite_rips/src/lib.rs:57-59: `len() - 1` underflows for an empty vector. -/
def ripsDimension (n_points : Nat) (index : RipsIndex) : Option Nat :=
  (toVec n_points index).bind fun l => if l.length = 0 then none else some (l.length - 1)

section
variable {F : Type} [LinearOrder F] [Zero F]

/-! ### Distances -/

/-- `distances[v][w]`: panics out of range. -/
def distAt (distances : List (List F)) (v w : Nat) : Option F := (distances[v]?).bind fun row => row[w]?

/-- `Iterator::max`. -/
def maxOpt : List F → Option F
  | [] => none
  | a :: l => some (l.foldl max a)

/-- `max_pairwise_distance`, phlite_rips/src/lib.rs:210-224. -/
def maxPairwiseDistance (vertices : List Nat) (distances : List (List F)) : Option F :=
  (mapOpt (fun p : Nat × Nat => (vertices[p.1]?).bind fun vi => (vertices[p.2]?).bind fun vj => distAt distances vi vj)
    ((List.range vertices.length).flatMap fun i => (List.range vertices.length).map fun j => (i, j))).bind maxOpt

/-! ### Bases -/

/-- `bases[d].0.push(x)`: panics if `d` is out of range. -/
def pushAt (bases : List (List (F × RipsIndex))) (d : Nat) (x : F × RipsIndex) : Option (List (List (F × RipsIndex))) :=
  if d < bases.length then some (bases.modify d (· ++ [x])) else none

/-- `add_cofacets`, phlite_rips/src/lib.rs:137-178. `fuel` bounds the recursion depth. (`n_vertices - 1` cannot underflow: a vertex
exists when the function is called.) -/
def addCofacets (distances : List (List F)) (max_dim : Nat) :
    Nat → List (List (F × RipsIndex)) → List Nat → F → Option (List (List (F × RipsIndex)))
  | 0, _, _, _ => none
  | fuel + 1, bases, simplex, fil =>
    simplex.getLast?.bind fun max_element =>
      let n_vertices := distances.length
      let new_dimension := simplex.length - 1 + 1
      if max_element = n_vertices - 1 then some bases
      else (List.range' (max_element + 1) (n_vertices - (max_element + 1))).foldlM (fun bases v =>
        (mapOpt (fun w => distAt distances w v) simplex).bind fun ds =>
        (maxOpt ds).bind fun m =>
        let newFil := max m fil
        (fromIndices n_vertices (simplex ++ [v])).bind fun index =>
        (pushAt bases new_dimension (newFil, index)).bind fun bases =>
          if new_dimension < max_dim then addCofacets distances max_dim fuel bases (simplex ++ [v]) newFil else some bases) bases

/-- The order of `(NotNan<f64>, RipsIndex)` tuples. -/
def tupleLe (a b : F × RipsIndex) : Prop := toLex a ≤ toLex b

instance : DecidableRel (tupleLe (F := F)) := fun a b => inferInstanceAs (Decidable (toLex a ≤ toLex b))

/-- `build_rips_bases`, phlite_rips/src/lib.rs:180-208. `sort_unstable` yields the sorted permutation, which is unique as the order on
tuples is linear. -/
def buildRipsBases (distances : List (List F)) (max_dim : Nat) : Option (List (List (F × RipsIndex))) :=
  ((List.range distances.length).foldlM (fun bases v =>
    (fromIndices distances.length [v]).bind fun index =>
    (pushAt bases 0 (0, index)).bind fun bases =>
      addCofacets distances max_dim (max_dim + 1) bases [v] 0) (List.replicate (max_dim + 1) [])).map
    fun bases => bases.map fun basis => basis.insertionSort tupleLe

/-- `SingleDimRipsBasisWithFilt`, phlite_rips/src/lib.rs:80-90. -/
def singleDimBasis {I : Type} (basis : List (F × I)) : Basis I where
  size := basis.length
  element i := (basis[i]?).map Prod.snd

/-- The loop of `MultiDimRipsBasisWithFilt::element`, phlite_rips/src/lib.rs:104-112, from dimension `dim` on (the list of the bases in the
remaining dimensions); `self.0[dim]` panics if there is none. -/
def multiElement {I : Type} : List (List (F × I)) → Nat → Option I
  | [], _ => none
  | basis :: rest, working => if working ≥ (singleDimBasis basis).size then multiElement rest (working - (singleDimBasis basis).size)
    else (singleDimBasis basis).element working

/-- `MultiDimRipsBasisWithFilt`, phlite_rips/src/lib.rs:98-129. -/
def multiDimBasis {I : Type} (bases : List (List (F × I))) : SplitBasis I where
  size := (bases.map fun basis => (singleDimBasis basis).size).sum
  element := multiElement bases
  inDim d := (bases[d]?).map singleDimBasis

/-! ### Matrices -/

variable {CF : Type} [NonZeroCoeff CF]

/-- The closure `parity`, phlite_rips/src/homology.rs:52-58, and the sign in phlite_rips/src/cohomology.rs:92-96. -/
def parity (i : Nat) : CF := if i % 2 = 0 then NonZeroCoeff.one else NonZeroCoeff.neg NonZeroCoeff.one

/-- `RipsBoundary::column`, phlite_rips/src/homology.rs:47-73. -/
def ripsBoundaryColumn (n_points : Nat) (col : RipsIndex) : Option (List (CF × RipsIndex)) :=
  (toVec n_points col).map fun index_as_vec =>
    (List.range index_as_vec.length).filterMap fun i =>
      (fromIndices n_points ((index_as_vec.zipIdx.filter fun p => p.2 ≠ i).map Prod.fst)).map fun index => (parity i, index)

/-- `filtration_value`, phlite_rips/src/homology.rs:86-89 and phlite_rips/src/cohomology.rs:128-131. -/
def ripsFiltrationValue (distances : List (List F)) (row : RipsIndex) : Option F :=
  (toVec distances.length row).bind fun as_vec => maxPairwiseDistance as_vec distances

/-- `RipsBoundary`, phlite_rips/src/homology.rs:19-92 (default `column_with_filtration`). -/
def ripsBoundary (CF : Type) [NonZeroCoeff CF] (distances : List (List F)) : FOracle CF RipsIndex RipsIndex F :=
  Oracle.withFilt ⟨ripsBoundaryColumn distances.length⟩ (ripsFiltrationValue distances)

/-- `CoboundaryIterator`, phlite_rips/src/cohomology.rs:27-45. -/
structure CobIter where
  base : List Nat
  next_vertex : Nat
  max_vertex : Nat
  insertion_position : Nat

/-- `CoboundaryIterator::new`, phlite_rips/src/cohomology.rs:36-44 (`n_points - 1` underflows for `n_points = 0`). -/
def CobIter.new (base : List Nat) (n_points : Nat) : Option CobIter :=
  if n_points = 0 then none else some ⟨base, 0, n_points - 1, 0⟩

/-- The `loop` in `CoboundaryIterator::next`, phlite_rips/src/cohomology.rs:56-83: `some none` if it ran out of vertices, `some (some it)` if
it broke out of the loop in the state `it`, `none` if the fuel did not suffice. -/
def CobIter.seek : Nat → CobIter → Option (Option CobIter)
  | 0, _ => none
  | fuel + 1, it =>
    if it.next_vertex > it.max_vertex then some none
    else match it.base[it.insertion_position]? with
      | none => some (some it)
      | some vertex_at_insert_pos =>
        if vertex_at_insert_pos < it.next_vertex then CobIter.seek fuel { it with insertion_position := it.insertion_position + 1 }
        else if vertex_at_insert_pos = it.next_vertex then CobIter.seek fuel { it with next_vertex := it.next_vertex + 1 }
        else some (some it)

/-- The rest of `CoboundaryIterator::next`, phlite_rips/src/cohomology.rs:85-99. Note that the vertex returned is the incremented one.
(`split_at` cannot panic: the position is at most the length.) -/
def CobIter.yield_ (it : CobIter) : Option ((CF × RipsIndex × Nat) × CobIter) :=
  let new_simplex := it.base.take it.insertion_position ++ [it.next_vertex] ++ it.base.drop it.insertion_position
  (fromIndices (it.max_vertex + 1) new_simplex).map fun index =>
    let coeff : CF := if it.insertion_position % 2 = 0 then NonZeroCoeff.one else NonZeroCoeff.neg NonZeroCoeff.one
    let it := { it with next_vertex := it.next_vertex + 1 }
    ((coeff, index, it.next_vertex), it)

/-- Running `CoboundaryIterator` (phlite_rips/src/cohomology.rs:48-101) to the end: the list of items. Each call of `next` gets enough fuel
for its loop; `fuel` bounds the number of calls. -/
def CobIter.collect : Nat → CobIter → Option (List (CF × RipsIndex × Nat))
  | 0, _ => none
  | fuel + 1, it =>
    (CobIter.seek (it.max_vertex + it.base.length + 3) it).bind fun r =>
      match r with
      | none => some []
      | some it => it.yield_.bind fun p => (CobIter.collect fuel p.2).map (p.1 :: ·)

/-- All items of `CoboundaryIterator::new(col.to_vec(n_points), n_points)`. -/
def cobItems (n_points : Nat) (col : RipsIndex) : Option (List (CF × RipsIndex × Nat)) :=
  (toVec n_points col).bind fun base => (CobIter.new base n_points).bind (CobIter.collect (n_points + 1))

/-- `RipsCoboundary::column`, phlite_rips/src/cohomology.rs:114-121. -/
def ripsCoboundaryColumn (n_points : Nat) (col : RipsIndex) : Option (List (CF × RipsIndex)) :=
  (cobItems n_points col).map fun l => l.map fun t => (t.1, t.2.1)

/-- `RipsCoboundary::column_with_filtration`, phlite_rips/src/cohomology.rs:134-161. -/
def ripsCoboundaryColF (distances : List (List F)) (col : RipsIndex) : Option (List (Entry F RipsIndex CF)) :=
  (cobItems distances.length col).bind fun items =>
  (toVec distances.length col).bind fun col_vertices =>
  (maxPairwiseDistance col_vertices distances).bind fun max_pd =>
    mapOpt (fun t : CF × RipsIndex × Nat =>
      (mapOpt (fun v => distAt distances v t.2.2) col_vertices).bind fun ds =>
      (maxOpt ds).map fun max_to_inserted => (⟨max max_pd max_to_inserted, t.2.1, t.1⟩ : Entry F RipsIndex CF)) items

/-- `RipsCoboundary`, phlite_rips/src/cohomology.rs:16-162, with its override of `column_with_filtration`. -/
def ripsCoboundary (CF : Type) [NonZeroCoeff CF] (distances : List (List F)) : FOracle CF RipsIndex RipsIndex F where
  column := ripsCoboundaryColumn distances.length
  filt := ripsFiltrationValue distances
  colF := ripsCoboundaryColF distances

/-- `build_rips_boundary_matrix`, phlite_rips/src/homology.rs:101-113: the matrix (a `MatrixWithBasis`) and its basis. -/
def buildRipsBoundaryMatrix (CF : Type) [NonZeroCoeff CF] (distances : List (List F)) (max_dim : Nat) :
    Option (FOracle CF RipsIndex RipsIndex F × SplitBasis RipsIndex) :=
  (buildRipsBases distances max_dim).map fun bases => ((ripsBoundary CF distances).withBasis, multiDimBasis bases)

/-- `build_rips_coboundary_matrix`, phlite_rips/src/cohomology.rs:166-179. -/
def buildRipsCoboundaryMatrix (CF : Type) [NonZeroCoeff CF] (distances : List (List F)) (max_dim : Nat) :
    Option (FOracle CF RipsIndex RipsIndex F × SplitBasis RipsIndex) :=
  (buildRipsBases distances max_dim).map fun bases => ((ripsCoboundary CF distances).withBasis, multiDimBasis bases)

end
end Phlite
