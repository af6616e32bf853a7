/-
Model of the command line program phlite_rips/src/main.rs (for its input see Model/RipsProgram, for the text of its lines Model/RipsText).
-/
import Verif.Model.Rips
import Verif.Model.Reduction
import Verif.Model.GrPPH

namespace Phlite

/-- What the program prints: `Dimension {dim}: {basis_size}`; `dim={dim}, birth={idx}, f=({f_val}, ∞)`; and
`dim={dim}, pair={idx_tup}, f=({birth_f}, {death_f})`. -/
structure RipsReport (F : Type) where
  sizes : List (Nat × Nat)
  essential : List (Nat × RipsIndexᵒᵈ × F)
  pairings : List (Nat × (RipsIndexᵒᵈ × RipsIndexᵒᵈ) × F × F)
deriving DecidableEq

section
variable {F : Type} [LinearOrder F] [Zero F] [StdHeap]

/-- `std::env::args().nth(1)...unwrap_or(1)`, phlite_rips/src/main.rs:34-40 (an argument that is not a number panics, see `readArg`). -/
def ripsMaxDim (arg : Option Nat) : Nat := arg.getD 1

/-- The loop phlite_rips/src/main.rs:50-54: `in_dimension` panics if there is no such dimension. -/
def ripsSizes (B : SplitBasis RipsIndexᵒᵈ) (max_dim : Nat) : Option (List (Nat × Nat)) :=
  mapOpt (fun dim => (B.inDim dim).map fun b => (dim, b.size)) (List.range (max_dim + 1))

/-- The loop phlite_rips/src/main.rs:71-76, over the essential indices in iteration order. -/
def ripsEssential (filt : RipsIndexᵒᵈ → Option Fᵒᵈ) (n_points : Nat) (idxs : List RipsIndexᵒᵈ) : Option (List (Nat × RipsIndexᵒᵈ × F)) :=
  mapOpt (fun idx => (filt idx).bind fun f_val => (ripsDimension n_points (OrderDual.ofDual idx)).map fun dim =>
    (dim, idx, OrderDual.ofDual f_val)) idxs

/-- The loop phlite_rips/src/main.rs:77-87, over the pairings in iteration order. `long birth death` is the test
`death - birth > 0.01` on floating point numbers. -/
def ripsPairings (long : F → F → Bool) (filt : RipsIndexᵒᵈ → Option Fᵒᵈ) (n_points : Nat) (tups : List (RipsIndexᵒᵈ × RipsIndexᵒᵈ)) :
    Option (List (Nat × (RipsIndexᵒᵈ × RipsIndexᵒᵈ) × F × F)) :=
  filterMapOpt (fun tup => (ripsDimension n_points (OrderDual.ofDual tup.2)).bind fun dim =>
    (filt tup.2).bind fun birth_f => (filt tup.1).map fun death_f =>
      if long (OrderDual.ofDual birth_f) (OrderDual.ofDual death_f) then
        some (dim, (tup.2, tup.1), OrderDual.ofDual birth_f, OrderDual.ofDual death_f) else none) tups

/-- `main`, phlite_rips/src/main.rs:16-88, on the parsed distance matrix and the optional first argument. `enumE`, `enumP` are the iteration
orders of the hash sets. The program uses `CF = Z2`. -/
def ripsMain (CF : Type) [NonZeroCoeff CF] (long : F → F → Bool) (enumE : Finset RipsIndexᵒᵈ → List RipsIndexᵒᵈ)
    (enumP : Finset (RipsIndexᵒᵈ × RipsIndexᵒᵈ) → List (RipsIndexᵒᵈ × RipsIndexᵒᵈ)) (distances : List (List F)) (arg : Option Nat) (fuel : Nat) :
    Option (RipsReport F) :=
  let max_dim := ripsMaxDim arg
  (buildRipsCoboundaryMatrix CF distances max_dim).bind fun d =>
  (ripsSizes d.2.reverse max_dim).bind fun sizes =>
  (buildWithDiagram d.1.reverse.ref d.2.reverse fuel (List.range (max_dim + 1))).bind fun r =>
  (ripsEssential d.1.reverse.filt distances.length (enumE r.2.essential)).bind fun essential =>
  (ripsPairings long d.1.reverse.filt distances.length (enumP r.2.pairings)).map fun pairings => ⟨sizes, essential, pairings⟩

end
end Phlite
