# Formal model of tomchaplin/phlite in Lean 4

## 1. Layout

* `lean/Verif/Model/*`   — the model, one definition per Rust function, each citing file:lines. Nothing else is trusted to be a
  faithful reading of /repo.
  `Fields`, `Q64` (phlite/src/fields.rs), `Columns` (columns.rs), `Matrices` (matrices/*.rs), `Reduction` (reduction/*.rs),
  `Rips`, `RipsMain`, `Rips64` (phlite_rips; the last with 64-bit indices), `GrPPH` (phlite_grpph).
* `lean/Verif/Spec/*`    — small independent specifications; what the theorems of `Props` are stated with.
  `Field` (a coefficient type is the non-zero elements of a Mathlib field), `Column` (the vector of a bag of entries),
  `Persistence` (persistence pairs by ranks of minors; persistent Betti numbers as ranks of maps between Mathlib quotients),
  `Reduction` (what a readable finite matrix / a chain complex split by dimension is), `Barcode`, `Intervals` (counting bars; barcodes as multisets of
  intervals), `Rips` (simplices as finite sets, simplicial boundary, the Vietoris-Rips filtration), `RipsReport` (what is printed),
  `GrPPH` (path chains, ∂-invariant chains, grounded persistent path homology), `Reps` (representative cycles), `Graph` (components of a graph),
  `Digraph` (weighted digraphs, walks, shortest path lengths), `GrPPHReport` (barcodes of grounded persistent path homology).
* `lean/Verif/Theory/*`  — mathematics used in proofs; no model definition occurs: linear algebra of minors and reduced
  decompositions (`Rank`, `Betti`, `Complex`, `Restrict`), transpose duality (`Duality`), barcodes (`Barcode`, `Interval`, `Reps`, `Unique`),
  renaming of cells (`Relabel`), simplices (`Simplex`, `Cone`, `Components`, `RipsInvariance`), digraphs (`Digraph`, `ShortestPaths`, `CycleGraph`, `GrPPHInvariance`).
* `lean/Verif/Proofs/*`  — lemmas relating model and theory.
* `lean/Verif/Props/*`   — the property theorems `Cnn_...`, with non-vacuity examples beside them (often a run of the model, evaluated by the kernel).
* `properties.jsonl`, `MANIFEST.json` are generated by `tools/gen_properties.py`, `tools/gen_manifest.py`.
* `seeded/LOG.jsonl` — mutation testing (section 6).

## 2. Modelling conventions

* **Panics / non-termination**: a Rust function that may panic returns `Option`, `none` = panic. An unbounded
  `loop` takes fuel; running out of fuel is also `none`. A theorem `∃ enough, ∀ fuel ≥ enough, f fuel x = some y` therefore says: no panic,
  terminates, returns y.
* **Coefficients**: a class `NonZeroCoeff` for the traits `NonZeroCoefficient`/`Invertible`; the law class
  `LawfulCoeff CF K` says CF is the set of non-zero elements of a Mathlib field K. All provided fields are
  proved to be instances (Z2, Z3..Z13 from the u8 arithmetic with its panics; Q from the integer code without
  the 64-bit bound, plus a checked-overflow version proved to agree when it does not overflow).
* **std::BinaryHeap** is an interface `StdHeap` (push / pop / peek with the documented contract: pop removes *some*
  maximal element). Every theorem holds for every implementation of the contract, i.e. any tie-breaking.
  Instance: `listHeap` (Proofs/ListHeap: a list from which a maximal element is removed); so the class is inhabited and the examples can be evaluated.
* **Hash maps** are functions to `Option`, **hash sets** are `Finset`s. Where the code iterates over a hash set, the iteration order is a parameter
  (`enumE`, `enumP`, ...) of which only `Enumerates` is assumed: it lists the members once each.
* **Iterators** are the lists they would yield (the caching adaptor, where laziness is observable through `RefCell`, has its own
  step-by-step state machine; the Rips `CoboundaryIterator` is a state machine too).
* **NotNan<f64>** is an arbitrary linear order (with 0 / infinity where the code uses them): the modelled code only compares filtration values and takes
  maxima. Lengths of shortest paths (C46-C50) are added by an arbitrary monotone operation (`IsLengthAddition`), which includes rounding. C65
  models f64 addition of non-negative numbers bit by bit. NaN cannot occur in `NotNan`; a NaN edge weight is not `is_finite`, so it behaves as an infinite one.
* `Reverse<T>` is Mathlib's order dual.
* `usize`/`isize` are unbounded unless the property is about overflow (C02, C03, C27, C41, C57); `as u16` truncates.
* `&M` and `MatrixWithBasis` do not forward overrides of `column_with_filtration`, as in the code.

## 3. Per property plan

| id | modelled | proof idea |
|----|----------|-----------|
| C01,C02 | fields.rs u8 arithmetic with explicit overflow panics | case split on the finite tables (`decide` over the whole table) lifted to `ZMod p` |
| C03 | Q over Int/Nat, and a 64-bit checked version | coprimality invariant, `Rat` arithmetic |
| C04–C06 | columns.rs over `StdHeap` | induction on the bag; denotation to `Row →₀ K` |
| C07–C10, C13–C15, C39, C40 | matrices/*.rs | denotation, list lemmas |
| C11,C12 | WithCachedCols as a state machine with borrow counter | invariant over histories |
| C16,C17 | standard_algo | loop invariant, pivot-decrease measure, induction over the basis |
| C18,C19,C23 | read_off_diagram | rank characterisation of pivots of any reduced decomposition |
| C20–C22,C24 | clearing.rs | same loop lemma + D²=0 for cleared columns; rank characterisation gives agreement |
| C25 | Spec: H_p(s)→H_p(t) by Mathlib quotients | rank–nullity with the rank characterisation |
| C26 | Spec ranks of minors | rank of transpose |
| C27–C33 | phlite_rips | positional numeral lemmas, list combinatorics, sign cancellation |
| C34–C37, C41, C42 | phlite_grpph matrices | case analysis on bridges; the 2-cells are a basis of the ∂-invariant 2-chains |
| C38, C43 | `grpph`, `grpph_with_involution` end to end | C26 for the path complex; reduction of the involution basis |
| C44 | columns of V and of product(D, V) | leading terms of a reduced decomposition are a persistence basis |
| C45 | Rips pipeline | degree-0 Betti numbers count components; the full simplex is a cone |
| C46–C50 | `grpph` on weighted digraphs, shortest paths specified (`IsShortestPaths`) | potentials and circuit rank; explicit chains for the complete digraph and the directed cycle; the `_edges` versions start from the edge list, through the modelled Dijkstra (C61) |
| C51 | intervals of a diagram | a finite barcode is determined by its counting function (peel off the longest of the first intervals) |
| C52 | phlite_rips/src/main.rs | C33 + C51 |
| C53, C54 | pairs of runs of the Rips pipeline | C51 + relabelling with signs of inversions; monotone maps; rank of a composition |
| C55, C56 | pairs of runs of `grpph` | C43 + uniqueness of barcodes + relabelling; monotone maps; rank of a composition |
| C57 | the Rips program with 64-bit indices | all calls of `from_indices` are for at most max_dim + 2 vertices |
| C58 | pairs of runs of both algorithms, Rips | on the segment between two filtrations the pairs of cells change at finitely many points; triangle inequality; induction on inversions |
| C59 | any digraph filtration; phlite_grpph/src/bin/main.rs; the end-to-end tests | the loops count the bars of the report (C43); uniqueness of barcodes transfers C48 and C49 to the hash-map filtrations |
| C60 | VecVecMatrix, new_all_one, trivial and function filtrations, standard_algo_with_diagram | C16, C18, C19, C51 instantiated at the list; persistence pairs only depend on the order of the rows, which is the same for all filtrations that do not decrease along the list |
| C61 | petgraph's dijkstra (heap, scores, visited set), build_filtration, the entry points and the example program from the edge list on | loop invariant (scores are lengths of walks; every unvisited score is in the heap; visited scores are below the heap and their edges are relaxed), measure: heap entries + edges whose source is unvisited; then C43/C38/C55/C59 at the resulting table |
| C62 | grpph entry points with an end point out of range, and the truncation of the vertex count | a run that returns has read the time of every edge of the edge set unless it was cleared, and cleared edges have vertices as ends (read invariant of the clearing loop) |
| C63 | std's BinaryHeap: push, pop, peek, sift_up, sift_down_to_bottom on an array | heap invariant with one exceptional position; permutation; every history refines a multiset priority queue |
| C64 | the clearing reduction run with an oracle that answers on a subset of the cells only | read invariant of the clearing loop (both directions): a column is requested iff its cell was not cleared before, and cleared cells are the births of the final pairs |
| C65 | IEEE 754 binary64 addition of non-negative numbers (as multiples of 2^-1074, round to nearest even, overflow to infinity) | rounding is monotone and fixes numbers of 53 bits, hence addition is an `IsLengthAddition` and C61 applies; exact case by C56 at the scaling map |
| C66 | pairs of runs of `grpph` | on the segment between two filtrations the order of the arrows changes finitely often; without a change both filtrations are images of one by monotone maps, and so are the barcodes; triangle inequality |
| C67 | Model/Checked: columns, products and reductions once more with coefficient operations that may panic | runs are monotone in the set of non-panicking operations; with total operations they are the runs of Model/Reduction; the operations of ZP are total (C01), those of Q agree with the exact ones where defined (C03) |
| C68 | Model/Q64Build: `Q` with overflow checks (debug) or wrapping (release), `as` casts wrapping in both | the casts that can wrap are those of denominators ≥ 2^63 and of a gcd 2^63, excluded by coprimality when denominators are smaller; failures by evaluation |
| C69 | Model/Lazy: columns as iterators pulled item by item over a shared state (the cache with its live borrows); `FlatMap`, products, clearing's recursive columns and both reductions on top of them | `Behaves`/`Robust`: an iterator yields a given list if the shared state keeps an invariant; the right factors used by the reductions are stored vectors, so only one cached iterator is alive at a time; cells asked for = non-births by C64 |
| C70 | the same model, sequences of reads after the run | answered reads by the same argument (stored columns only involve non-births, Proofs/ClearingStored); panicking ones by an invariant of the doubly nested product: an iterator over a cached column stays alive until the uncached birth is requested |
| C71 | the same model with matrices that do not touch the shared state | iterators that do not change the state are robust, hence products of products are |
| C72 | Model/LazyExpr: expressions of products, sums, consolidated and cached matrices (caches around arbitrary expressions, shared by reference), lazily over one `RefCell` state per cache; specification of holding, filling and safety in Spec/LazyExpr | a contract per constructor: each iterator owns a set of cache iterators, its steps change nothing else (frame), what leaves the set is released; products and sums compose contracts with disjoint sets; induction on the expression. Clashes by unfolding the first steps |
| C73 | the same model of clearing; `GradedComplex` is `SplitComplex` without conditions on the list of dimensions, `ListedBefore` compares first occurrences | the loop invariant of C20-C22 is proved for any order: if the pivot of a new column was processed before, its column of R was zero by D² = 0, so overwriting its stored column changes V but not R; C20-C24 are the special case in which this does not happen |
| C74 | the same model of clearing; `DimensionedMatrix` asks only that the columns of each listed dimension can be read, are listed once and have no rows in the same dimension; `clearingStep` says what one dimension contributes | one dimension is a run of the standard algorithm on the cells that have no stored column yet (no column of the same dimension can be overwritten while it runs), so its loop invariant applies; then induction over the list of dimensions |
| C75 | the model of the Rips program as in C52 | returning: C74 for the coboundary matrix, which needs no metric property of the matrix; panics: building the bases of the matrix padded with zeros gives the same bases, and a run that returns has read the column of every vertex (the invariant of C62), hence the filtration value of every edge, hence every entry; a single point is printed |
| C76 | Model/RipsProgram: reading of records and arguments, `NotNan<f64>` with infinities, `-` with rounding and NaN, `>`; the rest as in C52 | C52 and C75; the filter: rounding is monotone, and the two integers on both sides of 0.01 + 2^-60 are rounded by the kernel; numerals: induction on the digits |
| C77 | as C61, with no assumption on signs or on the addition | an invariant of the search without order arguments (each vertex is visited once; each score is the length of a walk whose interior is visited); the filtered complex from time 0 on is that of C43, and counts of bars alive at times >= 0 do not see end points below 0; no assumption on overflow either: walks compose, so the table is `TopClosed` |
| C78 | `ripsProgramW`: as C76, with 64-bit `from_indices` (debug: panics; release: wraps) and the size limit of the vector of bases | whatever the 64-bit run returns is the run with unbounded numbers (monotonicity); conversely, in the last dimension, the first face of a simplex in the order of the reduction is never a pivot of a coboundary (since the coboundary of a coboundary vanishes), so it is not skipped and its column, with the index of that simplex, is computed; the simplex with the last points has the greatest index |
| C79 | `ripsMain` on two matrices | the bases read only entries above the diagonal (induction over the recursion of `addCofacets`, whose simplices are increasing), the filtration values are maxima over ordered pairs, the columns depend only on the number of points; so all parts of the program agree |
| C80 | `standardAlgoWithDiagram` and `buildWithDiagram` on the matrices of `buildRipsCoboundaryMatrix`, `buildRipsBoundaryMatrix` | C22 on the concatenated basis, which is sorted by dimension; the numbers by induction over the dimension from C23_count, the homology of the full simplex (cone) and Pascal's rule |
| C81 | `ripsProgram`, `ripsProgramW` on `circleRecords n` (Spec/Circle, the output of the script) | every edge is homologous to an arc of steps, so cycles are multiples of the cycle around the circle; below a third of the circle a cocycle that counts passes of one point detects it, from there on it bounds a triangle; then C76, C78 and uniqueness of barcodes |
| C82 | `parseF64` (Model/Decimal, from the documentation of core) | the automaton of the model against the grammar `IsDecimal` (Spec/RipsText) in both directions; rounding: quotient and remainder by the power of two, gaps between 53-bit numbers |
| C83 | `ripsStdout` (Model/RipsText: csv automaton, parsing, printing) | the automaton reads every text of the relation `IsCsv` as its rows; then C76, C81, C82 |
| C84 | `ripsStdout`, `RipsReport.text` | panics after the reduction are excluded by C76; lines are parsed back from the left with markers that numbers do not contain |
| C85 | `displayF64` (Model/Display, after the Dragon algorithm of core) | a number with j digits is not between the two candidates of j digits, so by monotonicity of rounding (C82) the loop has stopped; the powers of ten above 1 and 2 times 2^-1074 by computation |
| C86 | `ripsStdoutW` (Model/RipsText), `from_indices` as a parameter | C78 for the first case; in the second one the reduction cannot have finished, else the program would have returned; basis sizes by a simulation that forgets the indices |
| C87 | `IsMinimumSpanningTree` (Spec/SpanningTree), `ripsMain`, `ripsStdout` | degree-0 Betti numbers count components (C45); by the circuit rank a subset of a tree has n - edges components; an exchange argument with linear algebra over ℚ shows that the edges of the tree up to t connect what all edges up to t connect; uniqueness of barcodes; existence by minimising the sum of ranks |
| C88 | `ripsIntervals` (Spec/RipsReport) | removing the last point if it is a twin of the first: the chain map id - ∂h - h∂, with h the cone from the first point on simplices that contain the last one, is a retraction that moves cycles by boundaries; permutations (C53) and induction give all repetitions; two matrices are compared on the list of related pairs, with C58 |
| C89 | `grpphMainStdout` (Model/GrPPHText) against `completeText`, `completePairs` (Spec/GrPPHText) | the report is that of the persistence pairs (C50); a pair of cells whose column has the edge as its lowest entry is a persistence pair if the edge is not the lowest entry of a combination of earlier cells (`pair_of_lead`); this gives the pairs of `completePairs`, and there are as many as finite intervals of positive length (C59), so no others |
| C90 | `grpphEdges` (Model/Dijkstra), `IsGluing` (Spec/Gluing) | all degree-1 classes come from cycles of the digraph itself (C47), and these split at the common vertex; maps of digraphs take boundaries to boundaries, and collapsing one part to the common vertex does not lengthen walks, so a cycle bounds if and only if both its parts do; components from the circuit rank; C51 |
| C91 | `grpphEdges` (Model/Dijkstra), `IsWalk` (Spec/GrPPH) | reversing paths is an isomorphism of the complexes with boundary up to sign; walks are reversed, concatenated and shortened; C61 and uniqueness of barcodes |
| C92 | `ripsMain`, `ripsIntervals` | from r on, the complex is a cone at the centre: persistent Betti numbers in positive degrees vanish, one component remains; C52, C53 |
| C93 | `ripsIntervals`, `cutIntervals` | below R the complex is a disjoint union, so cycles and boundaries are direct sums and persistent Betti numbers add; C53 and uniqueness of barcodes |
| C94 | `ripsMain`, `grpphEdges`, fuel of the loops | the pivot of a column goes up with each addition, and pivots of one grade lie among the cells of that dimension, which are counted |
| C95 | `grpphEdges`, `IsWalk`, `edgeEnd` (Spec/GrPPH) | at r the digraph of distances has a vertex with arrows to (from) all others, over which its cycles are boundaries; the longer edges each add one dimension of cycles that only their own arrow ends; C61 |
| C96 | `ripsIntervals`, distance matrices | moving x to y is a chain map homotopic to the identity from scale d(x, y) on, below it x is isolated (sums as in C93); C53 and uniqueness of barcodes |
| C97 | `ripsMain` | induction: a leaf of a tree, or a point farthest from a base point, can be removed by C96; C52; bottleneck stability for the last part |
| C98 | `grpphEdges` on digraphs along trees | a cycle runs along each edge of the tree as often one way as the other (the largest vertex where it does not has no other edges), so the cycles of length 2 are a basis; C61 and uniqueness of barcodes |
| C99 | `grpphEdges` on two digraphs, one with a further vertex | the larger digraph is glued from the smaller one and one on two vertices: C90, C98 and C46 |
| C100 | `ripsIntervals`, in all dimensions | rank and nullity of the boundary maps of the Vietoris-Rips complex at scale t, telescoping; C53 |
| C101 | `ripsIntervals` and `ripsMain`, few points | cycles of a flag complex on fewer than 2q vertices are boundaries (q the number of vertices of the simplices), by induction on the vertices: split off the first vertex, its link and the rest; sharpness: the cycles of the cross-polytope are the multiples of one, by the same splitting; C53, C52 |
| C102 | `ripsIntervals` on two matrices | at scales between r and L the larger complex is the suspension of the smaller; the difference of the joins with the two points is an isomorphism on homology; below r there are no edges, from L on both are cones; C53 |

Everything in the list can be expressed.

## 4. Trusted base

* Lean's kernel. Axioms used: `propext`, `Classical.choice`, `Quot.sound` only; no `native_decide`, no own axioms. (`decide +kernel` is used in examples
  and finite tables: evaluation by the kernel.)
* The reading of /repo documented in the comments of `Verif/Model`.
* The contracts of the Rust standard library used: BinaryHeap (a parameter, see above; the array implementation is shown to satisfy the contract, C63), hash maps/sets (finite maps/sets, arbitrary iteration order),
  `sort_unstable` (the sorted permutation, unique as the orders are linear), integer arithmetic.

## 5. Modelled and not modelled

Modelled: all of phlite/src/fields.rs (`Q`, `Z2`, `ZP`), columns.rs, matrices/{mod,adaptors,combinators,implementors}.rs, reduction/{mod,standard,clearing}.rs;
columns are lists in Model/Matrices and Model/Reduction, and lazy iterators over a shared cache in Model/Lazy (C69-C71) and Model/LazyExpr (C72; square matrices over one index type, adaptors that forward `column` left out); reductions with panicking coefficients in Model/Checked (C67), debug and release builds of `Q` in Model/Q64Build (C68);
phlite_rips/src/{lib,homology,cohomology,main}.rs; phlite_grpph/src/{lib,boundary,coboundary,bin/main}.rs and the end-to-end tests in coboundary.rs.

The csv crate and `f64::from_str` are modelled after their published source and documentation in Model/RipsText and Model/Decimal (C82-C84; in C76 they are parameters).

Not modelled: invalid UTF-8 and the sign of zero in the command line program (-0 prints as `-0`), exponents of 65536 or more digits' worth in numbers with as many digits; Grisu, the algorithm that core tries first when it prints an f64 (it has the results of Dragon, which is modelled in Model/Display, C85; in C83 and C84 `Display` is a parameter); Python glue (pyo3 conversions in phlite_grpph/src/lib.rs,
`phlite_py`, whose comparison functions and `in_dimension` are `todo!()`); logging; petgraph's graph type (its adjacency
lists are a parameter, in any order; Dijkstra's algorithm is modelled after petgraph's published source, C61; in C43–C59 its result is a parameter `sp`); performance; memory layout and `unsafe` (the `ReverseBasis`/`UnreverseBasis`
pointer casts between `repr(transparent)` wrappers are modelled as the identity they implement; `NonZeroU8::new_unchecked(0)` is a panic in the model);
`Clone`/`Hash` derivations, and `Debug` except for the indices that the programs print (Model/RipsText, Model/GrPPHText); thread safety (the library is single-threaded; `RefCell` panics are modelled); the default implementations are the ones used
by all callers, downstream overrides of trait methods are covered only through the `colF` field of `FOracle`.

Findings about the code made on the way (each is a theorem, an example, or visible in a hypothesis):

1. `CoboundaryIterator::next` (phlite_rips/src/cohomology.rs:98-99) increments `next_vertex` before returning it, so `RipsCoboundary::column_with_filtration`
   is wrong or panics (C32_rips_override). It is hidden since `MatrixWithBasis` and `&M` use the default implementation (C32_rips_wrapped).
2. `build_rips_bases(_, 0)` panics with two or more points (C31), so the command line program does too (C52_rips_zero).
3. `WithCachedCols`: requesting a new column while an iterator over an old one is alive panics (C12).
4. Documentation that does not match: digit order of `RipsIndex`; `ReverseBasis` (`len - index`); `reverse_order` for reversed coboundaries (C19).
5. `read_off_diagram` with the wrong flag, and clearing with dimensions in the wrong order, report wrong essential indices (C19, C73); pairings and V are right in any order.
6. grpph: weights `NaN` are treated as infinite; negative weights are not rejected, and then Dijkstra's result need not be shortest; self-loops in the edge list each give an essential class in degree 1; infinite weights are kept in the edge set but never in the graph; vertices
   are truncated to u16 (C41). Path lengths may overflow to infinity: the
   code compares times with `unwrap_or(INFINITY)`, so in a general filtration an edge at infinity could be mistaken for an absent one, but among shortest path lengths this does no
   harm (`TopClosed`: a composite of two edges, one of them at infinity, is itself an edge), and C43, C55, C61, C65, C77 hold without an assumption on overflow.
7. `ZP<P>` panics for P with (P-1)² > 255 (C02); `RipsIndex` overflows for (n+1)^(dim+1) > 2^64 (C27): panic in debug builds, collisions in release builds.
8. The stored filtration values of the Rips bases use only `d[w][v]` for `w < v` and 0 for vertices, `filtration_value` uses all ordered pairs including the
   diagonal: they agree for symmetric, non-negative matrices with zero diagonal only (C30).
9. `StandardBasis::element` does not panic out of range (comment at the model definition).
10. grpph: the vertex count is truncated to u16 without a check, so 65536 vertices give an empty result; end points out of range panic (C62).
11. `Q` casts denominators with `as isize`: in a debug build, without a panic, the inverse of 1/2^63 is -2^63, 1 + 1/2^63 is negative and -2^63 * 1/2^63 is 1; a
    release build also produces the "non-zero" coefficient 0 (2^32 * 2^32), and a later reduction is then wrong without notice (C68).
12. After clearing with a boundary that caches its columns, `product(&D, &V).column(c)` for a cleared `c` (the birth of a pair) panics with a BorrowMutError; `V.column(c)` and
    `V.col_is_cycle(c)` are fine, as is the product without the cache (C70).
13. The Rips program does not validate its matrix (C75). If it is not symmetric, the bases are sorted by the entries above the diagonal only while the columns are reduced with the
    diameters, and the intervals are silently wrong: for the 5-point matrix `skew` in Props/RipsAny.lean it prints the H1 intervals (10, 11) and (11, 13) instead of (10, 13). If the diagonal is
    not zero, the vertices are not sorted, and [[5,6],[6,0]] and the same two points in the other order give different H0 intervals.
14. Negative weights are not rejected by `grpph` (C77). Vertices are born at 0, whatever the weights, so the report may contain finite bars whose death precedes their birth (edges
    (0,1,1), (1,2,-2) give the degree 0 bar (0, -1)), and the path lengths need not be the least ones (0 -> 1: 2, 0 -> 2: 3, 2 -> 1: -2).
15. (C79) The Rips program accepts the upper triangle of a distance matrix but mishandles the lower triangle silently: the bases are sorted by `distances[w][v]` with `w < v`, while filtration values are maxima over both triangles. The example `fiveLower` in Props/RipsUpper prints a loop from 2 to 3 and one from 3 to 4 where the full matrix has a single loop from 2 to 4.
16. README's example `python circle_distance_matrix.py | cargo run --release` does not work: the script needs the number of points as its argument; without it the pipe is empty and the program prints an empty report without an error (example in Props/RipsText).
17. A debug build can panic after it has printed half of its output: for 16 points and dimension 14 it prints the basis sizes and then panics with an arithmetic overflow in the reduction (example in Props/RipsText64); a release build goes on with wrong indices.

## 6. Testing the theorems with wrong programs

`tools/mutations.py` lists realistic bugs as edits of the model, `tools/mutate.py` applies one at a time to a scratch copy, rebuilds everything and appends a
record to `seeded/LOG.jsonl`: the definition, the edit, the claims it breaks, the declarations that fail (`theorems_failed`; when a helper lemma fails, the claim's
theorem is not accepted either), per claim theorem whether it fails, depends on a failed declaration or does not, and what was tightened as a result.

`Props/Conformance.lean` runs the repository's own unit tests in the model (kernel evaluation, no proofs): a check of the model against the values the
authors expect.

`tools/automutate.py` makes every one-token edit of the model it can (comparisons, off-by-one, swapped variables and projections, constants, dropped
negations and reversals) and rebuilds; edits that a theorem survives are reviewed by hand and logged as AM* (equivalent edit, or which theorem was added or tightened).
