/-
Specification: the text of a pair of path homology cells, and what the example program prints.
-/
import Verif.Model.GrPPH

namespace Phlite

/-- The pairs for the complete digraph on `n` vertices: of the arrow `b → a`, for `a < b`, and the arrows in both directions between `a` and `b`; and of the arrow `a → b`,
for `0 < a < b`, and the triangle on `0 → a → b`. -/
def completePairs (n : ℕ) : List ((ℕ × ℕ) × PathHom2Cell) :=
  (List.range n).flatMap (fun b => (List.range b).map fun a => ((b, a), .doubleEdge a b)) ++
  (List.range n).flatMap (fun b => ((List.range b).filter fun a => 0 < a).map fun a => ((a, b), .directedTriangle 0 a b))

/-- The name of a 2-cell. -/
def twoCellName : PathHom2Cell → String
  | .doubleEdge a b => "DoubleEdge(" ++ toString a ++ ", " ++ toString b ++ ")"
  | .directedTriangle a b c => "DirectedTriangle(" ++ toString a ++ ", " ++ toString b ++ ", " ++ toString c ++ ")"
  | .longSquare a b c d => "LongSquare(" ++ toString a ++ ", " ++ toString b ++ ", " ++ toString c ++ ", " ++ toString d ++ ")"

/-- The output of the example program for `n` vertices, where the pairs are listed in the order `pairs`, zero is printed as `zero` and one as `one`. -/
def completeText (zero one : String) (n : ℕ) (pairs : List ((ℕ × ℕ) × PathHom2Cell)) : String :=
  "Built graph\nComputed filtration\nBuilt coboundary matrix\nEssential:\n birth=Reverse(Node(0)), f=(" ++ zero ++ ", ∞)\n\nPairings:\n" ++
  String.join (pairs.map fun x => " pair=(Reverse(Edge(" ++ toString x.1.1 ++ ", " ++ toString x.1.2 ++ ")), Reverse(TwoCell(" ++ twoCellName x.2 ++ "))), f=(" ++ zero ++
    ", " ++ one ++ ")\n") ++
  toString ((n - 1) ^ 2) ++ "\n"

end Phlite
