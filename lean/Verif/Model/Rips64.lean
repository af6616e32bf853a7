/-
The Rips code once more, with the arithmetic of `RipsIndex::from_indices` as a parameter: the same functions as in `Verif.Model.Rips` and
`Verif.Model.RipsMain` (which use unbounded numbers), line by line, except that they call `fi` for `from_indices`. With `fi = fromIndices64` this is the
program as compiled in a debug build for a 64-bit machine, where an overflow panics. `to_vec` only divides and subtracts and cannot overflow.
-/
import Verif.Model.RipsMain

namespace Phlite

/-- An implementation of `RipsIndex::from_indices`, phlite_rips/src/lib.rs:44-55: number of points, vertices; the outer option is for panics. -/
abbrev FromIndices := Nat → List Nat → Option (Option RipsIndex)

/-- `from_indices` with unbounded numbers, phlite_rips/src/lib.rs:44-55. -/
def fromIndicesExact : FromIndices := fun n_points indices => some (fromIndices n_points indices)

section
variable {F : Type} [LinearOrder F] [Zero F] (fi : FromIndices)

/-- `add_cofacets`, phlite_rips/src/lib.rs:137-178 (`.unwrap()` panics on `None`). -/
def addCofacetsW (distances : List (List F)) (max_dim : Nat) :
    Nat → List (List (F × RipsIndex)) → List Nat → F → Option (List (List (F × RipsIndex)))
  | 0, _, _, _ => none
  | fuel + 1, bases, simplex, fil =>
    simplex.getLast?.bind fun max_element =>
      let n_vertices := distances.length
      let new_dimension := simplex.length - 1 + 1
      if max_element = n_vertices - 1 then some bases
      else (List.range' (max_element + 1) (n_vertices - (max_element + 1))).foldlM (fun bases v =>
        (mapOpt (fun w => distAt distances w v) simplex).bind fun ds =>
        (maxOpt ds).bind fun m =>
        let newFil := max m fil
        ((fi n_vertices (simplex ++ [v])).bind id).bind fun index =>
        (pushAt bases new_dimension (newFil, index)).bind fun bases =>
          if new_dimension < max_dim then addCofacetsW distances max_dim fuel bases (simplex ++ [v]) newFil else some bases) bases

/-- `build_rips_bases`, phlite_rips/src/lib.rs:180-208. -/
def buildRipsBasesW (distances : List (List F)) (max_dim : Nat) : Option (List (List (F × RipsIndex))) :=
  ((List.range distances.length).foldlM (fun bases v =>
    ((fi distances.length [v]).bind id).bind fun index =>
    (pushAt bases 0 (0, index)).bind fun bases =>
      addCofacetsW fi distances max_dim (max_dim + 1) bases [v] 0) (List.replicate (max_dim + 1) [])).map
    fun bases => bases.map fun basis => basis.insertionSort tupleLe

variable {CF : Type} [NonZeroCoeff CF]

/-- `RipsBoundary::column`, phlite_rips/src/homology.rs:47-73. -/
def ripsBoundaryColumnW (n_points : Nat) (col : RipsIndex) : Option (List (CF × RipsIndex)) :=
  (toVec n_points col).bind fun index_as_vec =>
    filterMapOpt (fun i => (fi n_points ((index_as_vec.zipIdx.filter fun p => p.2 ≠ i).map Prod.fst)).map fun o =>
      o.map fun index => (parity i, index)) (List.range index_as_vec.length)

/-- `RipsBoundary`, phlite_rips/src/homology.rs:19-92. -/
def ripsBoundaryW (CF : Type) [NonZeroCoeff CF] (distances : List (List F)) : FOracle CF RipsIndex RipsIndex F :=
  Oracle.withFilt ⟨ripsBoundaryColumnW fi distances.length⟩ (ripsFiltrationValue distances)

/-- The end of `CoboundaryIterator::next`, phlite_rips/src/cohomology.rs:85-99. -/
def CobIter.yieldW (it : CobIter) : Option ((CF × RipsIndex × Nat) × CobIter) :=
  let new_simplex := it.base.take it.insertion_position ++ [it.next_vertex] ++ it.base.drop it.insertion_position
  ((fi (it.max_vertex + 1) new_simplex).bind id).map fun index =>
    let coeff : CF := if it.insertion_position % 2 = 0 then NonZeroCoeff.one else NonZeroCoeff.neg NonZeroCoeff.one
    let it := { it with next_vertex := it.next_vertex + 1 }
    ((coeff, index, it.next_vertex), it)

/-- Running `CoboundaryIterator` (phlite_rips/src/cohomology.rs:48-101) to the end. -/
def CobIter.collectW : Nat → CobIter → Option (List (CF × RipsIndex × Nat))
  | 0, _ => none
  | fuel + 1, it =>
    (CobIter.seek (it.max_vertex + it.base.length + 3) it).bind fun r =>
      match r with
      | none => some []
      | some it => (it.yieldW fi).bind fun p => (CobIter.collectW fuel p.2).map (p.1 :: ·)

/-- All items of `CoboundaryIterator::new(col.to_vec(n_points), n_points)`. -/
def cobItemsW (n_points : Nat) (col : RipsIndex) : Option (List (CF × RipsIndex × Nat)) :=
  (toVec n_points col).bind fun base => (CobIter.new base n_points).bind (CobIter.collectW fi (n_points + 1))

/-- `RipsCoboundary::column`, phlite_rips/src/cohomology.rs:114-121. -/
def ripsCoboundaryColumnW (n_points : Nat) (col : RipsIndex) : Option (List (CF × RipsIndex)) :=
  (cobItemsW fi n_points col).map fun l => l.map fun t => (t.1, t.2.1)

/-- `RipsCoboundary::column_with_filtration`, phlite_rips/src/cohomology.rs:134-161. -/
def ripsCoboundaryColFW (distances : List (List F)) (col : RipsIndex) : Option (List (Entry F RipsIndex CF)) :=
  (cobItemsW fi distances.length col).bind fun items =>
  (toVec distances.length col).bind fun col_vertices =>
  (maxPairwiseDistance col_vertices distances).bind fun max_pd =>
    mapOpt (fun t : CF × RipsIndex × Nat =>
      (mapOpt (fun v => distAt distances v t.2.2) col_vertices).bind fun ds =>
      (maxOpt ds).map fun max_to_inserted => (⟨max max_pd max_to_inserted, t.2.1, t.1⟩ : Entry F RipsIndex CF)) items

/-- `RipsCoboundary`, phlite_rips/src/cohomology.rs:16-162. -/
def ripsCoboundaryW (CF : Type) [NonZeroCoeff CF] (distances : List (List F)) : FOracle CF RipsIndex RipsIndex F where
  column := ripsCoboundaryColumnW fi distances.length
  filt := ripsFiltrationValue distances
  colF := ripsCoboundaryColFW fi distances

/-- `build_rips_boundary_matrix`, phlite_rips/src/homology.rs:101-113. -/
def buildRipsBoundaryMatrixW (CF : Type) [NonZeroCoeff CF] (distances : List (List F)) (max_dim : Nat) :
    Option (FOracle CF RipsIndex RipsIndex F × SplitBasis RipsIndex) :=
  (buildRipsBasesW fi distances max_dim).map fun bases => ((ripsBoundaryW fi CF distances).withBasis, multiDimBasis bases)

/-- `build_rips_coboundary_matrix`, phlite_rips/src/cohomology.rs:166-179. -/
def buildRipsCoboundaryMatrixW (CF : Type) [NonZeroCoeff CF] (distances : List (List F)) (max_dim : Nat) :
    Option (FOracle CF RipsIndex RipsIndex F × SplitBasis RipsIndex) :=
  (buildRipsBasesW fi distances max_dim).map fun bases => ((ripsCoboundaryW fi CF distances).withBasis, multiDimBasis bases)

/-- `main`, phlite_rips/src/main.rs:16-88. -/
def ripsMainW [StdHeap] (CF : Type) [NonZeroCoeff CF] (long : F → F → Bool) (enumE : Finset RipsIndexᵒᵈ → List RipsIndexᵒᵈ)
    (enumP : Finset (RipsIndexᵒᵈ × RipsIndexᵒᵈ) → List (RipsIndexᵒᵈ × RipsIndexᵒᵈ)) (distances : List (List F)) (arg : Option Nat) (fuel : Nat) :
    Option (RipsReport F) :=
  let max_dim := ripsMaxDim arg
  (buildRipsCoboundaryMatrixW fi CF distances max_dim).bind fun d =>
  (ripsSizes d.2.reverse max_dim).bind fun sizes =>
  (buildWithDiagram d.1.reverse.ref d.2.reverse fuel (List.range (max_dim + 1))).bind fun r =>
  (ripsEssential d.1.reverse.filt distances.length (enumE r.2.essential)).bind fun essential =>
  (ripsPairings long d.1.reverse.filt distances.length (enumP r.2.pairings)).map fun pairings => ⟨sizes, essential, pairings⟩

end
end Phlite
