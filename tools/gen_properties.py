import json
P=[]
def p(id,title,statement,quantifier,why,*anchors):
    P.append(dict(id=id,title=title,statement=statement,quantifier=quantifier,why_tests_cant=why,anchors=list(anchors)))
p("C01","Provided finite fields are fields",
 "For each of Z2, Z3, Z5, Z7, Z11, Z13, every value obtainable through the public operations stays a non-zero residue; `+` returns None exactly when the sum is 0 mod p and otherwise the residue of the sum; `*`, `additive_inverse`, `mult_inverse`, `one` are the residue operations; no operation panics.",
 "all pairs of values of each provided prime field","Tests cover a handful of Z2/Z3 sums; the field laws and absence of u8 overflow must hold for every pair of operands of every provided field.",
 "phlite/src/fields.rs: Z2, ZP, Z3, Z5, Z7, Z11, Z13, NonZeroCoefficient, Invertible")
p("C02","ZP is only usable for small primes",
 "`ZP<P>` addition and multiplication are panic-free on all residues for every prime P with (P-1)^2 <= 255; for every larger P < 256, multiplying P-1 by itself panics, and for composite P some product of residues panics.",
 "all const parameters P and all residues","The limit is a statement about every P and every operand pair; a test can only sample some.",
 "phlite/src/fields.rs: ZP, Mul for ZP, Add for ZP")
p("C03","Rational coefficients are exact",
 "Every value of `Q` obtainable from `one` by the public operations is in lowest terms with positive denominator, represents a non-zero rational, and `+`, `*`, `additive_inverse`, `mult_inverse` compute the exact rational result (None exactly when a sum is 0), so `==` on Q is numerical equality - as long as no intermediate integer overflows 64 bits.",
 "all histories of public Q operations","Exactness and normalisation must hold after arbitrarily long operation sequences.",
 "phlite/src/fields.rs: Q")
p("C04","pop_pivot extracts the leading non-zero term",
 "For any column built by any sequence of insertions, `pop_pivot` returns None iff the represented linear combination is zero, and otherwise returns the entry of the largest (filtration, index) row with non-zero total coefficient, with exactly that coefficient, leaving the rest of the linear combination unchanged.",
 "all multisets of entries, all insertion orders, all heap tie-breakings, all coefficient fields","Duplicated rows, cancellation chains and ties in the heap give unboundedly many cases.",
 "phlite/src/columns.rs: BHCol::pop_pivot, add_entry, add_entries")
p("C05","drain_sorted / to_sorted_vec give the canonical form",
 "Draining a column lists each row with non-zero total coefficient exactly once, in strictly decreasing (filtration, index) order with its total coefficient; two columns drain to the same list iff they represent the same linear combination.",
 "all columns","Canonicity over all insertion orders and cancellations is a universally quantified claim.",
 "phlite/src/columns.rs: BHCol::drain_sorted, to_sorted_vec")
p("C06","clone_pivot does not change the column and enables peek_pivot",
 "`clone_pivot` returns the same entry as `pop_pivot`, leaves the represented linear combination unchanged, and afterwards `peek_pivot` returns that entry (None iff the column is zero).",
 "all columns","peek_pivot is only right because of an invariant that must hold in every state the reduction reaches.",
 "phlite/src/columns.rs: BHCol::clone_pivot, peek_pivot")
p("C07","eq_on_col decides column equality",
 "`a.eq_on_col(&b, c)` is true iff column c of a and column c of b are the same vector, whatever the order, repetition or cancellation of the produced entries.",
 "all pairs of oracles and columns","Equality must be insensitive to all presentations of a column.",
 "phlite/src/matrices/mod.rs: MatrixOracle::eq_on_col")
p("C08","product is the matrix product",
 "Column c of `product(a,b)` is the vector a*(b*c); `column_with_filtration` of the product is the same column enriched by a's filtration; product is associative and compatible with sums.",
 "all oracles, columns and coefficient fields","Lazy flat_map composition must be right for all sparsity patterns.",
 "phlite/src/matrices/combinators.rs: product, Product, matrix_col_product!")
p("C09","sum is the matrix sum",
 "Column c of `sum(a,b)` is the vector sum of the columns.","all oracles and columns","Universal over matrices.",
 "phlite/src/matrices/combinators.rs: sum, Sum")
p("C10","consolidate only simplifies",
 "A consolidated matrix has the same columns as vectors, and each column lists every row at most once, with non-zero coefficient, in strictly decreasing row order; consolidating again changes nothing.",
 "all oracles and columns","All repetition/cancellation patterns.",
 "phlite/src/matrices/adaptors.rs: Consolidator, ConsolidatorColumn")
p("C11","Column caching is transparent",
 "In any history of column requests, iterator steps and iterator drops on a cached matrix that does not panic, every iterator yields exactly the entries of the underlying oracle's column, and the underlying oracle is asked for each column at most once.",
 "all histories of interleaved column/next/drop operations","Interior mutability makes the result depend on the whole history.",
 "phlite/src/matrices/adaptors.rs: WithCachedCols, CachedColIter")
p("C12","When caching panics",
 "Requesting a column on a cached matrix panics exactly when the column is not yet cached and some iterator over a previously requested column is still alive and not exhausted; in particular requesting columns one after another never panics, while the product of a cached matrix with itself can panic.",
 "all histories of interleaved column/next/drop operations","RefCell borrow conflicts depend on the interleaving of live iterators.",
 "phlite/src/matrices/adaptors.rs: WithCachedCols::column, CachedColIter")
p("C13","reverse and unreverse are mutually inverse views",
 "`unreverse` of `reverse` presents the original columns, filtration values, enriched columns and column basis; reversing does not change coefficients; the order of rows, filtration values and basis is exactly opposite.",
 "all matrices, columns, bases","Round-trip law over all matrices and bases.",
 "phlite/src/matrices/adaptors.rs: ReverseMatrix, UnreverseMatrix, ReverseBasis, UnreverseBasis")
p("C14","Reversed bases list the same elements backwards",
 "A reversed basis of size n has at position i < n the (reversed) element at position n-1-i of the original, so it is sorted iff the original is; out-of-range indices panic; the sub-basis in a dimension of a reversed basis is the reversed sub-basis.",
 "all bases and indices","Off-by-one errors at every size, including 0.",
 "phlite/src/matrices/adaptors.rs: ReverseBasis, SplitByDimension for ReverseBasis")
p("C15","construct_reverse_lookup inverts the basis",
 "For a basis without repetitions the lookup maps element(i) to i for each i < size and contains nothing else; with repetitions it maps to the last position.",
 "all bases","Universal over bases.",
 "phlite/src/matrices/mod.rs: ColBasis::construct_reverse_lookup")
p("C16","The standard algorithm terminates without panicking",
 "For every finite column basis without repetitions whose columns can be requested, `standard_algo` terminates without panicking, requests only basis columns, and reduces the i-th column with at most i column additions.",
 "all matrices over all provided fields, all filtrations","The reduction loop is an unbounded `loop`; termination needs the pivot-decrease argument for every matrix.",
 "phlite/src/reduction/standard.rs: standard_algo")
p("C17","The standard algorithm yields R = DV",
 "The returned V has a column exactly for each basis element, with diagonal coefficient 1 and other entries only in earlier basis elements, stored without repetition; in R = DV distinct non-zero columns have distinct pivots.",
 "all matrices over all provided fields, all filtrations","Correctness over all matrices.",
 "phlite/src/reduction/standard.rs: standard_algo")
p("C18","Diagram pairings are the persistence pairing",
 "`standard_algo_with_diagram` returns the pair (r, c) iff the rank of the lower-left minor at (r,c) exceeds what its three neighbouring minors predict (the algorithm-independent rank definition of persistence pairs); in particular the answer does not depend on entry order, repetition, tie-breaking or on how the column was reduced.",
 "all matrices over all provided fields, all filtrations, both values of reverse_order","The claim compares the algorithm's output with linear-algebra ranks for every matrix.",
 "phlite/src/reduction/standard.rs: read_off_diagram, standard_algo_with_diagram")
p("C19","Essential classes are the unpaired cycles",
 "If (reverse_order=false) each column's row indices occur strictly earlier in the basis than the column, or (reverse_order=true) cells are graded and every cell of the degree in which the rows of a column lie occurs later in the basis than the column, the essential set is exactly the set of basis elements whose column lies in the span of the preceding columns and which are not the birth of a pair. With the wrong flag a birth can be reported as both paired and essential.",
 "all matrices, both flags","Depends on hash-set insert/remove history over the whole run.",
 "phlite/src/reduction/standard.rs: read_off_diagram")
p("C20","The clearing algorithm terminates without panicking",
 "For a chain complex split by dimension (sorted bases, D^2=0 between consecutive dimensions, dimension order following the differential), `build_with_diagram` terminates without panicking and requests only columns of basis elements in the listed dimensions - even when the matrix panics on every other cell.",
 "all filtered complexes over all provided fields","Termination of an unbounded loop plus the absence of panics from missing columns.",
 "phlite/src/reduction/clearing.rs: ClearedReductionMatrix::build_with_diagram")
p("C21","The clearing algorithm yields R = DV",
 "The V returned by clearing has, for each basis element, a column with non-zero diagonal coefficient and other entries only in earlier elements of the same dimension; in R = DV distinct non-zero columns have distinct pivots and every cleared column is zero in R.",
 "all filtered complexes over all provided fields","Correctness over all complexes, incl. interaction of cleared and reduced columns.",
 "phlite/src/reduction/clearing.rs: ClearedReductionMatrix, column")
p("C22","Clearing and the standard algorithm agree",
 "On a chain complex, the diagram returned by clearing equals the diagram of the standard algorithm on the same matrix (same pairings, same essential set).",
 "all filtered complexes over all provided fields","Equality of two algorithms' outputs on all inputs.",
 "phlite/src/reduction/clearing.rs: build_with_diagram","phlite/src/reduction/standard.rs: standard_algo_with_diagram")
p("C23","Every cell is exactly one of birth, death, essential",
 "In the diagram of a chain complex, each basis element occurs in exactly one of: essential, birth of exactly one pair, death of exactly one pair; births come strictly before deaths. (With the standard algorithm all rows must belong to the basis; with clearing, rows may lie in a dimension that is not listed.) So the size of the basis in a dimension is the number of essential elements of that dimension plus the numbers of pairs with the birth, or with the death, in it.",
 "all filtered complexes","Partition property over all complexes.",
 "phlite/src/reduction/mod.rs: Diagram","phlite/src/reduction/standard.rs","phlite/src/reduction/clearing.rs")
p("C24","col_is_cycle detects zero columns of R",
 "`col_is_cycle(c)` is true iff column c of R=DV is zero.","all complexes and basis elements","The cleared shortcut is only right because of D^2=0.",
 "phlite/src/reduction/clearing.rs: ClearedReductionMatrix::col_is_cycle")
p("C25","The barcode computes persistent Betti numbers",
 "For each dimension p and thresholds s <= t, the rank of H_p(K_s) -> H_p(K_t) equals the number of essential classes of dimension p born by s plus the number of pairs of dimension p born by s and dying after t.",
 "all filtered complexes, dimensions and thresholds","This is the defining property of the output; holds for all inputs and thresholds.",
 "phlite/src/reduction/standard.rs","phlite/src/reduction/clearing.rs")
p("C26","Reversed coboundary gives the same pairs as the boundary",
 "If C is the transpose of the boundary matrix B, reducing `C.reverse()` yields the pair (tau, sigma) iff reducing B yields the pair (sigma, tau).",
 "all filtered chain complexes given by a boundary matrix and its transpose (standard algorithm, clearing algorithm)","Duality must hold for all matrices.",
 "phlite/src/matrices/mod.rs: MatrixOracle::reverse","phlite_rips/src/cohomology.rs","phlite_grpph/src/coboundary.rs")
p("C27","RipsIndex encodes simplices faithfully",
 "`to_vec` inverts `from_indices` for any non-empty vertex list with vertices < n_points; distinct simplices get distinct indices; `dimension` is the number of vertices minus one; no 64-bit overflow if (n_points+1)^(number of vertices) <= 2^64, whereas beyond that wrap-around can make distinct simplices collide.",
 "all vertex lists and numbers of points","Round trip over all simplices.",
 "phlite_rips/src/lib.rs: RipsIndex")
p("C28","Rips boundary squares to zero",
 "Each column of the Rips boundary is the alternating sum of the facets, each facet once; applying the boundary twice gives zero over every coefficient field.",
 "all simplices, numbers of points and fields","Sign cancellation over all dimensions.",
 "phlite_rips/src/homology.rs: RipsBoundary::column")
p("C29","Rips coboundary is the transpose of the boundary",
 "For simplices sigma, tau on n points, the coefficient of tau in the coboundary of sigma equals the coefficient of sigma in the boundary of tau; the coboundary lists each cofacet exactly once.",
 "all simplices, numbers of points and fields","The iterator's insertion position logic for every simplex.",
 "phlite_rips/src/cohomology.rs: CoboundaryIterator, RipsCoboundary::column")
p("C30","Rips bases are complete, sorted and duplicate-free",
 "For max_dim >= 1 the basis in dimension d <= max_dim lists every (d+1)-subset of the points exactly once, sorted by filtration value then index; for a symmetric non-negative zero-diagonal matrix the stored values equal `filtration_value`, and faces never have larger filtration values than cofaces.",
 "all distance matrices, all max_dim","Recursive enumeration over all sizes.",
 "phlite_rips/src/lib.rs: build_rips_bases, add_cofacets, max_pairwise_distance")
p("C31","Rips basis construction panics only for max_dim = 0 with two or more points",
 "For a square distance matrix, `build_rips_bases(distances, max_dim)` panics exactly if max_dim = 0 and there are at least two points (a defect of the code: one would expect it never to panic); otherwise it succeeds.",
 "all distance matrices, all max_dim","Boundary values of max_dim.",
 "phlite_rips/src/lib.rs: build_rips_bases, add_cofacets")
p("C32","column_with_filtration agrees with column and filtration_value",
 "For every oracle of the library except RipsCoboundary's own override, `column_with_filtration` yields the entries of `column` in order, each with `filtration_value` of its row; in particular for the matrices returned by the Rips and GrPPH constructors, their references and their reverses. RipsCoboundary's own override (a defect) yields the right rows and coefficients but takes the distances to the vertex after the inserted one, so it panics on every simplex without the last point.",
 "all oracles and columns","Overrides exist for speed and must agree for every column.",
 "phlite/src/matrices/mod.rs: HasRowFiltration::column_with_filtration","phlite/src/matrices/combinators.rs","phlite/src/matrices/adaptors.rs","phlite_rips/src/cohomology.rs","phlite_grpph/src/coboundary.rs")
p("C33","The Rips pipeline computes Vietoris-Rips persistent homology",
 "For a symmetric, zero-diagonal, non-negative distance matrix and 1 <= max_dim, reducing the reversed Rips coboundary with clearing yields, in each dimension p <= max_dim, a barcode whose counts are the persistent Betti numbers of the Vietoris-Rips filtration.",
 "all such distance matrices, max_dim and fields","End-to-end claim over all inputs.",
 "phlite_rips/src/main.rs","phlite_rips/src/cohomology.rs","phlite_rips/src/lib.rs")
p("C34","GrPPH coboundary is the transpose of the GrPPH boundary",
 "For a digraph filtration without self loops, in which two composable edges of which one appears only at infinity have a composite edge (as is the case for finite times and for shortest path lengths), the coboundary of an edge contains exactly the 2-cells of the filtration that have the edge in their boundary, with the boundary coefficient; the coboundary of a node contains exactly the incident edges with the boundary coefficient.",
 "all digraph filtrations, nodes, edges, 2-cells and fields","Case analysis over bridges, collapses and squares for all filtrations.",
 "phlite_grpph/src/coboundary.rs: produce_edge_total_coboundary, produce_node_total_coboundary","phlite_grpph/src/boundary.rs: GrPPHBoundary::column")
p("C35","GrPPH is a chain complex and never panics on its own cells",
 "The boundary of a boundary is zero on every 2-cell, the coboundary of the coboundary of a node is zero, and looking up primary bridges never panics.",
 "all digraph filtrations","All filtrations.",
 "phlite_grpph/src/coboundary.rs: two_path_to_two_cell_in_filtration, build_primary_bridge_map","phlite_grpph/src/boundary.rs")
p("C36","GrPPH entry times are the filtration values",
 "The time attached to each entry by the coboundary's `column_with_filtration` equals `filtration_value` of the row, and faces never have larger filtration values than cofaces (non-negative times).",
 "all digraph filtrations","All filtrations.",
 "phlite_grpph/src/coboundary.rs: column_with_filtration, filtration_value")
p("C37","GrPPH bases are complete and sorted",
 "The degree-0 basis lists every node once at time 0 and the degree-1 basis lists every edge of the graph at time 0 and every other finite-time edge at its time, once each, sorted by (time, cell).",
 "all digraph filtrations and edge sets","All inputs.",
 "phlite_grpph/src/coboundary.rs: build_basis, GrPPHCoboundary::build")
p("C38","Involution yields representatives of the finite degree-1 bars",
 "Reducing the boundary matrix restricted to the death cells found by the cohomology run pairs exactly the same (birth, death) cells, so there is one representative per finite degree-1 bar; each representative is a cycle whose leading edge is the birth edge and is a boundary at the death time.",
 "all digraph filtrations","Relates two reductions on all inputs.",
 "phlite_grpph/src/lib.rs: grpph_with_involution")
p("C39","Multi-dimensional bases are concatenations",
 "`element(i)` of a multi-dimensional basis is the i-th element of the concatenation of its per-dimension bases for i < size, and panics otherwise; `size` is the total.",
 "all split bases and indices","Boundary indices and empty dimensions.",
 "phlite_rips/src/lib.rs: MultiDimRipsBasisWithFilt","phlite_grpph/src/coboundary.rs: PathHomMultiBasis")
p("C40","Basis and filtration adaptors do not alter columns",
 "with_basis, with_filtration, with_trivial_filtration, sub_matrix_in_dimension and using_col_basis_index leave columns unchanged (the last re-indexes through the basis), pass basis/filtration through as documented, and requesting an index outside the basis panics.",
 "all matrices and columns","Universal over matrices.",
 "phlite/src/matrices/adaptors.rs: WithTrivialFiltration, WithFuncFiltration, MatrixWithBasis, UsingColBasisIndex, WithSubBasis")
p("C41","u16 vertex truncation in the Python entry points",
 "If n_vertices <= 65535 and all endpoints are < n_vertices the edge set stored is exactly the set of input edges; for larger vertex numbers distinct edges can be identified.",
 "all edge lists","Truncation only shows at sizes tests do not reach.",
 "phlite_grpph/src/lib.rs: build_edge_set, grpph")
p("C42","The 2-cells are a basis of the ∂-invariant chains",
 "The 2-cells (double edges, directed triangles, long squares) that occur in the coboundary columns of the arrows with filtration value at most t are linearly independent and span the space of 2-chains of the digraph at time t whose boundary lies in the digraph at time t.",
 "all digraph filtrations, times and fields","A completeness claim about an ad hoc choice of generators, for all digraphs.",
 "phlite_grpph/src/coboundary.rs: produce_edge_total_coboundary, two_path_to_two_cell_in_filtration, PathHom2Cell")
p("C43","grpph computes grounded persistent path homology",
 "For n_vertices < 65536, endpoints < n_vertices and non-negative shortest path lengths (infinite ones, from an overflow, included), `grpph(n_vertices, edges)` does not panic; the counts of the essential and finite bars it returns in degrees 0 and 1 are the ranks of the maps between the homologies of the grounded path complex at times s <= t; births are non-negative, finite bars have positive length.",
 "all weighted digraphs and all hash iteration orders","End-to-end claim over all inputs and hash orders.",
 "phlite_grpph/src/lib.rs: grpph")
p("C44","Columns of the returned V are representatives of the bars",
 "For a filtered chain complex whose columns are sorted by filtration value within each degree: after `standard_algo_with_diagram` the column of V of an essential index, and the column of `product(D, V)` of the death index of a pairing, represent the bars of the diagram; after the clearing algorithm the column of V of the birth index of every bar represents it (and is the column of `product(D, V)` of the death index). Represent means: the chain is a cycle from the birth on, a boundary from the death on, and at every filtration value the classes of the bars alive there are a basis of homology.",
 "all filtered complexes, all filtration values, both algorithms, any heap tie-breaking","The claim is about bases of quotient spaces for every input and every filtration value; tests can only compare single diagrams.",
 "phlite/src/reduction/standard.rs: standard_algo","phlite/src/reduction/clearing.rs: ClearedReductionMatrix","phlite/src/matrices/combinators.rs: product")
p("C45","Shape of the Rips barcode",
 "For a symmetric distance matrix with zero diagonal the Rips cohomology program reports, at each scale t >= 0, as many bars of dimension 0 alive (from any 0 <= s <= t through t) as the graph of points at distance <= t has connected components; with at least one point there is exactly one essential class, in dimension 0 and born at 0, whatever the maximum dimension; with no points there is none.",
 "all distance matrices, all scales, all maximum dimensions","Universal over inputs and scales.",
 "phlite_rips/src/cohomology.rs: build_rips_coboundary_matrix","phlite_rips/src/main.rs: main")
p("C46","grpph in degree 0 counts weakly connected components",
 "For a weighted digraph with n_vertices < 65536, endpoints < n_vertices, non-negative weights (possibly infinite) and correct shortest path lengths (infinite ones, from an overflow, included), `grpph` reports in degree 0 exactly one essential bar, born at 0, for each weakly connected component of the digraph (infinite-weight edges included), and no finite bar.",
 "all weighted digraphs, all hash iteration orders, any heap tie-breaking, any monotone addition of lengths (rounding included)","Universal over digraphs.",
 "phlite_grpph/src/lib.rs: grpph, build_filtration, build_edge_set")
p("C47","grpph in degree 1: births, number and finiteness of bars",
 "On the same inputs every degree-1 bar reported by `grpph` is born at 0; with positive weights the number of degree-1 bars is the circuit rank of the digraph, #edges - #vertices + #components (self-loops and infinite-weight edges included); if there are no self-loops, some vertex reaches all vertices, and the target of every edge is reachable from its source along finite weights, no degree-1 bar is essential.",
 "all weighted digraphs, all hash iteration orders","Universal over digraphs.",
 "phlite_grpph/src/lib.rs: grpph")
p("C48","grpph of the complete digraph",
 "For the complete digraph on n >= 1 vertices with equal weights w > 0, `grpph` returns essential bars [[0],[]] and pairings [[], n(n-1)-n+1 copies of (0, w)] (the assertion of the example binary, for every n < 65536 and w).",
 "all n and all weights","The shipped example only asserts this for n = 100 (and example.py defines it for N).",
 "phlite_grpph/src/bin/main.rs: main","phlite_grpph/examples/example.py: do_complete","phlite_grpph/src/lib.rs: grpph")
p("C49","grpph and its representatives of the directed cycle",
 "For the directed cycle on N >= 2 vertices with equal weights w > 0, `grpph` returns essential [[0],[]] and pairings [[], [(0, length of ceil(N/2) edges)]], and `grpph_with_involution` returns in addition exactly one representative, which consists of the N edges of the cycle.",
 "all N < 65536 and all weights","The shipped example only asserts this for N = 200, without the death time.",
 "phlite_grpph/examples/example.py: do_cycle","phlite_grpph/src/lib.rs: grpph_with_involution")
p("C50","Representatives returned by grpph_with_involution are closed",
 "For positive weights `grpph_with_involution` returns one representative for each finite degree-1 bar; each is a non-empty list without repetitions of edges of the input digraph in which every vertex has even degree.",
 "all weighted digraphs with positive weights, all hash iteration orders","Universal over digraphs.",
 "phlite_grpph/src/lib.rs: grpph_with_involution")
p("C51","The intervals of a diagram are the unique barcode",
 "For a filtered chain complex, in each degree the multiset of non-empty intervals [birth, death) read off the returned diagram is the only multiset of non-empty intervals which has, for all s <= t, as many members containing s and t as the rank of the map on homology from s to t. So it is independent of the algorithm, of homology versus reversed cohomology, of heap tie-breaking and of the order of cells with equal filtration values.",
 "all filtered complexes, all degrees, both algorithms, boundary or reversed coboundary","Uniqueness ranges over all multisets of intervals and all inputs.",
 "phlite/src/reduction/mod.rs: Diagram","phlite/src/reduction/standard.rs: standard_algo_with_diagram","phlite/src/reduction/clearing.rs: build_with_diagram")
p("C52","What the Rips command line program prints",
 "For a symmetric, non-negative distance matrix with zero diagonal and maximum dimension >= 1 (default 1) the program terminates without panicking; prints C(n, k+1) as the basis size in dimension k; and its lines for dimension p are exactly the intervals of the barcode of the Vietoris-Rips filtration over the coefficient field that are infinite or pass the length filter, each with simplices of the right dimension and their diameters. With maximum dimension 0 and two or more points it panics.",
 "all distance matrices, all maximum dimensions, all hash iteration orders, any heap tie-breaking","Universal over inputs and iteration orders.",
 "phlite_rips/src/main.rs: main","phlite_rips/src/cohomology.rs: build_rips_coboundary_matrix")
p("C53","Rips barcodes: order of points, change of scale, field in dimension 0",
 "The intervals found by the Rips pipeline do not change if the points are permuted, if the maximum dimension is raised, or with the coefficient type for the same field or the heap; if all distances are transformed by a monotone function fixing 0, the end points are transformed by it and intervals that become empty disappear; in dimension 0 they do not depend on the field.",
 "all distance matrices, all permutations, all monotone functions, all dimensions up to the maximum","Universal over pairs of inputs.",
 "phlite_rips/src/cohomology.rs: build_rips_coboundary_matrix","phlite/src/reduction/clearing.rs: build_with_diagram")
p("C54","Rips barcodes are stable",
 "If the entries of two distance matrices differ by at most epsilon, then for all s <= t the Rips pipeline reports for the one at most as many intervals containing s-epsilon and t+epsilon as it reports for the other containing s and t.",
 "all pairs of distance matrices, all epsilon, all s <= t, all dimensions up to the maximum","Universal over pairs of inputs.",
 "phlite_rips/src/cohomology.rs: build_rips_coboundary_matrix","phlite/src/reduction/clearing.rs: build_with_diagram")
p("C55","grpph: order of edges, names of vertices, iteration orders",
 "The lists returned by `grpph` are, in each degree, the barcode of grounded persistent path homology; so they are the same up to order if the edges are listed in another order or repeated, if the vertices are renamed by a permutation of 0..n_vertices (and the lengths accordingly), and for any hash iteration orders, heap tie-breaking and coefficient type for the same field.",
 "all digraphs, all permutations, all pairs of hash iteration orders","Universal over pairs of inputs and schedules.",
 "phlite_grpph/src/lib.rs: grpph, build_edge_set, build_filtration")
p("C56","grpph: change of scale and stability",
 "If all shortest path lengths are transformed by a monotone function fixing 0, the reported end points are transformed by it (and intervals that become empty disappear). If two runs on the same digraph have lengths (or weights) within a monotone superadditive bound of each other, e.g. a factor, then the bars of each run containing [s, delta t] are at most as many as those of the other containing [delta s, t].",
 "all weighted digraphs, all monotone functions, all s and t","Universal over pairs of inputs.",
 "phlite_grpph/src/lib.rs: grpph")
p("C57","The Rips program on a 64-bit machine: exact below a size bound, a panic above it",
 "With 64-bit indices: an index is computed exactly if it is below 2^64 and otherwise (debug build) the call panics. If all simplices with at most max_dim + 2 of the points have indices below 2^64 - in particular if (n_points + 1)^(max_dim + 2) <= 2^64 - then both the debug and the release build print the report of the program with unbounded numbers. If n_points * (n_points + 1)^(max_dim + 1) >= 2^64 and there are at least max_dim + 2 points, then the debug build panics, whatever the distances are.",
 "all distance matrices, all maximum dimensions, all hash iteration orders","Universal over inputs; the bounds are far out of reach of tests.",
 "phlite_rips/src/lib.rs: RipsIndex::from_indices, build_rips_bases","phlite_rips/src/cohomology.rs: CoboundaryIterator","phlite_rips/src/main.rs: main")
p("C58","Barcodes are stable in the bottleneck distance",
 "If two filtrations of the same finite chain complex differ by at most delta on every cell, then the intervals of degree p computed from the first can be partially matched with those computed from the second so that matched intervals are both infinite or both finite with end points within delta, and unmatched ones are finite with length at most 2 delta. In particular this holds for the intervals computed from two distance matrices of the same size whose entries differ by at most epsilon.",
 "all filtrations of all finite complexes and all pairs of distance matrices over any ordered field; both algorithms; all degrees, tie-breaking rules and coefficient types","Universal over pairs of inputs; the statement is about an optimal matching, which tests can only compute for instances.",
 "phlite/src/reduction/standard.rs: standard_algo","phlite/src/reduction/clearing.rs: ClearedReductionMatrix::build_with_diagram","phlite_rips/src/cohomology.rs: build_rips_coboundary_matrix")
p("C59","Any digraph filtration; the example program and the end-to-end tests for every size",
 "For any digraph filtration without self-loops and with finite non-negative times (a vector or a hash map) and any edge set, the reduction in degrees 0 and 1 terminates without panicking, and the numbers of pairs with different filtration values and of essential cells are the numbers of finite and infinite intervals of grounded persistent path homology in degrees 0 and 1. Hence the assertions of the example program (100 vertices), test_grpph_complete and test_grpph_cycle (30 vertices) hold for every number of vertices from 2 on (below the u16 bound), every positive finite weight and every hash iteration order; with one vertex the expression in the assertion of the example program and of test_grpph_complete underflows and panics.",
 "all digraph filtrations and edge sets; all numbers of vertices, all weights, all iteration orders","The tests fix one size; the claim is for every size and schedule.",
 "phlite_grpph/src/bin/main.rs: main","phlite_grpph/src/coboundary.rs: test_grpph_cycle, test_grpph_complete, MapDigraphFiltration")
p("C60","Explicit matrices: from a list of columns to the barcode",
 "A VecVecMatrix answers a column request with the listed column and panics exactly for an index out of range; new_all_one gives row r the coefficient \"number of times r is listed\". If the columns list a chain complex with every cell after its faces, standard_algo_with_diagram terminates without panicking with the trivial filtration and with any filtration that does not decrease along the list; the diagram is the same for all of them, and reading births and deaths with any such filtration gives the unique barcode of the filtered complex. With the trivial filtration the number of essential cells of degree p is the dimension of the homology in degree p.",
 "all finite lists of columns over any coefficient field, all filtrations, all degrees","Universal over inputs; a test checks one matrix.",
 "phlite/src/matrices/implementors.rs: VecVecMatrix, new_all_one, StandardBasis","phlite/src/matrices/adaptors.rs: WithTrivialFiltration, WithFuncFiltration","phlite/src/reduction/standard.rs: standard_algo_with_diagram")
p("C61","grpph from the list of edges to the barcode, including shortest paths",
 "For every edge list with non-negative weights the shortest path search stops, and gives each vertex the least length of a walk along edges of finite weight, or nothing if there is no walk. Hence grpph(n, edges) and grpph_with_involution(n, edges), from their arguments on, return the barcodes (and representatives) of grounded persistent path homology of the shortest path filtration; the order and repetition of edges, the order of the adjacency lists, hash set orders and tie-breaking in the heaps do not change the numbers returned. The example program passes its assertions for every number of vertices from 2 to 65535.",
 "all weighted digraphs with non-negative weights, including those with distances that overflow to infinity, all n < 65536, all heap tie-breakings, all iteration orders","Universal over graphs and schedules of the heap.",
 "phlite_grpph/src/lib.rs: build_filtration, build_edge_set, grpph, grpph_with_involution","phlite_grpph/src/bin/main.rs: main")
p("C62","grpph: arguments out of range",
 "If an edge has an end point that is not smaller than the number of vertices (both ends below 65536), grpph and grpph_with_involution panic; so a call that returns had all end points in range. With 65536 k vertices and no edges the result is empty: the number of vertices is reduced modulo 65536 without a check.",
 "all edge lists, all vertex counts, all iteration orders and heaps","Universal over inputs and schedules: the panic must not depend on them.",
 "phlite_grpph/src/lib.rs: grpph, grpph_with_involution, build_filtration","phlite_grpph/src/coboundary.rs: GrPPHCoboundary::build")
p("C63","The binary heap behind the columns is a priority queue for every history",
 "The standard library's array heap (sift up on push; sift down to the bottom and up again on pop) behaves for every sequence of pushes and pops, with any ties, as a priority queue: a pop returns and removes some element of the largest key, and returns nothing exactly if the heap is empty. So pushing a list and popping it sorts it. It is one of the heaps over which all theorems about columns, reductions and entry points range.",
 "all histories of pushes and pops, all element types and keys","Universal over histories.",
 "phlite/src/columns.rs: BHCol, add_entry, pop_pivot, peek_pivot")
p("C64","Clearing requests exactly the columns that are not births of pairs",
 "The run of the clearing reduction over a chain complex reads the boundary column of a cell of the listed dimensions if and only if the cell is not the birth of a finite interval: with a boundary oracle that answers only on a set of cells (and panics elsewhere) the result is the same as with the full oracle if the set contains all those cells, and otherwise the run panics. The cells stored as cleared are exactly the births of the pairs, with their deaths.",
 "all filtered complexes, all lists of dimensions, all sets of cells the oracle answers on, all coefficient types, all heap tie-breakings","The set of requested columns depends on the pairing of the whole input.",
 "phlite/src/reduction/clearing.rs: ClearedReductionMatrix::build_with_diagram, reduce_column")
p("C65","grpph with f64 weights: rounding does not disturb the result",
 "Addition of non-negative f64 numbers, rounding to nearest with ties to even, is monotone in both arguments, has 0 as neutral element and does not decrease its first argument, although it is not associative; so for every list of edges with non-negative f64 weights, grpph returns the barcode of the filtration by the least floating point lengths of walks (an edge whose length overflows appears at infinity). If the weights are multiples of a common unit and the distances are below 2^53 units, the numbers returned are exactly those of exact arithmetic.",
 "all weighted digraphs with non-negative f64 weights, all n < 65536, all heap tie-breakings and iteration orders","Universal over all floating point inputs.",
 "phlite_grpph/src/lib.rs: build_filtration, grpph")
p("C66","grpph is stable in the bottleneck distance",
 "If two weighted digraphs have edges in the same places and shortest path lengths that are finite for the same pairs and differ by at most delta, then in degrees 0 and 1 the intervals that grpph returns for one can be partially matched with those for the other so that matched intervals are both infinite or both finite with end points within delta, and unmatched ones are finite with length at most 2 delta. In particular, changing each finite non-negative edge weight by at most delta changes the report by at most (n - 1) delta in this sense.",
 "all pairs of weighted digraphs on the same edges, weights in any ordered field; all iteration orders, tie-breaking rules and coefficient types","Universal over pairs of inputs; the two runs build different 2-cells.",
 "phlite_grpph/src/lib.rs: grpph, build_filtration","phlite_grpph/src/coboundary.rs: GrPPHCoboundary")
p("C67","Reductions do not hide coefficient panics or overflow",
 "Over Z3, Z5, Z7, Z11 and Z13 no coefficient operation made during a reduction panics: the standard algorithm (with either reading order) and the clearing algorithm return on every valid input, with the persistence pairs over the field. Over Q, every run of the standard or clearing algorithm, and every product, consolidated column, pivot, sorted column, column comparison and cycle test, in which no 64-bit integer leaves its range returns exactly what the computation with unbounded rational numbers returns, so its diagram consists of the persistence pairs over the rational numbers.",
 "all finite filtered matrices and chain complexes over these coefficient types, all runs, all tie-breaking rules of the heap","The number and size of intermediate coefficients depends on the whole history of column additions.",
 "phlite/src/fields.rs: ZP, Q","phlite/src/columns.rs: BHCol","phlite/src/reduction/standard.rs: standard_algo_with_diagram","phlite/src/reduction/clearing.rs: ClearedReductionMatrix::build_with_diagram")
p("C68","What Q computes in debug and release builds",
 "As long as no integer of an operation on Q leaves its 64-bit range, debug and release builds return the same, exact result. In a debug build, an operation on values in lowest terms whose denominators are below 2^63 either panics or is exact. Beyond that both builds can be silently wrong on values that programs can obtain: in a debug build 1/2^63 has the inverse -2^63 and 1 + 1/2^63 is negative; in a release build 2^32 * 2^32 is a coefficient of value zero.",
 "all pairs of values of Q, both build profiles","The range of values is 2^128; the failures are at single values.",
 "phlite/src/fields.rs: Q::reduce, Add for Q, Mul for Q, additive_inverse, mult_inverse")
p("C69","Reductions with a cached boundary matrix",
 "Calling cache_cols on the boundary before a reduction changes nothing but the number of column requests: the standard algorithm (any matrix, any basis) and clearing (any chain complex split by dimension) return the same reduction matrix and diagram as without the cache, no BorrowMutError occurs although the products keep several iterators over the cache alive, and all borrows are released at the end. The underlying matrix is asked exactly once for each basis column (standard), respectively for each listed cell that is not a birth (clearing), and for nothing else.",
 "all matrices, bases, chain complexes and filtrations; every interleaving of iterator steps the reductions produce","Whether two borrows clash depends on which columns happen to be in the cache at every step of every product.",
 "phlite/src/matrices/adaptors.rs: WithCachedCols, CachedColIter","phlite/src/matrices/combinators.rs: Product::column, column_with_filtration","phlite/src/reduction/standard.rs: standard_algo_with_diagram","phlite/src/reduction/clearing.rs: build_with_diagram")
p("C70","Reading results of clearing through a cached boundary",
 "After clearing with a cached boundary D, any sequence of reads of V (column, col_is_cycle) and of product(&D, &V) (column, column_with_filtration) gives the answers one gets without a cache and requests no further column of the underlying matrix, as long as the product is not read at the birth of a pair. Reading the product at the birth of a pair always panics with the cache (a column of D that is not cached is requested while an iterator over a cached one is alive), whatever was read before; without the cache it is answered.",
 "all chain complexes, all sequences of reads","The panic depends on the interleaving of nested lazy products and on the contents of the cache after any history.",
 "phlite/src/matrices/adaptors.rs: WithCachedCols::column","phlite/src/reduction/clearing.rs: ClearedReductionMatrix::column, col_is_cycle","phlite/src/matrices/combinators.rs: Product")
p("C71","Lazy iterators yield what whole lists would",
 "For matrices without interior mutability it does not matter that columns are lazy iterators that are advanced alternately: the standard algorithm, clearing, reads of the clearing matrix (also of recursively cleared columns) and of products with it return exactly the results obtained by computing each column as a whole list, and panic exactly when that does.",
 "all matrices, bases, stored reduction columns and recursion depths","There are unboundedly many interleavings of nested iterators.",
 "phlite/src/matrices/combinators.rs: Product","phlite/src/reduction/clearing.rs: ClearedReductionMatrix::column","phlite/src/matrices/mod.rs: column_with_filtration, build_bhcol")
p("C72","Combinations of cached matrices never lie, and clash only in a describable way",
 "Matrices can be combined with `product`, `sum`, `consolidate` and `cache_cols`, and a cached matrix can be used (by reference) in several places of the same expression. Whatever is stored in the caches and whatever else is borrowed: if reading a column of such an expression ends normally, the result is the column of the uncached expression, the caches still hold columns of their matrices, each asked for once, and no borrow is left behind. The read cannot panic on a borrow if no cache may have to be filled while another iterator of the expression keeps it borrowed (in a product: held by the right factor, filled by the left; in a sum: held by the left, filled on request of the right, or held by the right, filled while the left is run; consolidated matrices hold nothing), or if all columns have been read before. Otherwise it can: the square of a cached matrix panics on any column whose first entry is in another row whose column is not cached yet, and `sum(product(&C, X), &C)` panics where `sum(&C, product(&C, X))` does not.",
 "all expressions, all matrices, all states of the caches, all sequences of reads","Expressions, interleavings of nested iterators and cache contents are unbounded; whether a borrow clashes depends on all three.",
 "phlite/src/matrices/combinators.rs: Product, Sum","phlite/src/matrices/adaptors.rs: WithCachedCols, CachedColIter, Consolidator, ConsolidatorColumn")
p("C73","Clearing with the dimensions in any order",
 "Whatever dimensions are passed to build_with_diagram, in whatever order, with gaps or repetitions, clearing on a chain complex ends without a panic, reads only columns of the listed dimensions, and returns a matrix V with R = DV reduced (col_is_cycle is right too). The pairings do not depend on the order and are the persistence pairs among the listed dimensions. Only the essential set depends on the order: a birth is also reported as essential unless the dimension of its death is listed before its own, so the set is right exactly if that holds for all births, and removing the births of pairs from it always gives the right set.",
 "all chain complexes split by dimension, all lists of dimensions, all tie-breaking rules of the heap","The order is arbitrary user input; columns that were stored in earlier dimensions are overwritten in later ones.",
 "phlite/src/reduction/clearing.rs: build_with_diagram, CRMBuilder::reduce_dimension, save_column, col_is_cycle")
p("C74","Clearing on a matrix that is not a chain complex",
 "build_with_diagram does not check its input. On every matrix whose columns of a listed dimension have no rows in the basis of the same dimension (nothing else is assumed: not that D² = 0, nor that the bases are sorted, disjoint or complete) it ends without a panic, reads only the columns of listed cells, and what it computes is determined by the input: for each listed dimension in turn, the persistence pairs and dependent columns of the matrix whose columns are the cells of that dimension that are not in the diagram yet. Every listed cell is in the diagram, and V has, for every cell that is not the birth of a pair, a column with non-zero diagonal entry whose image has the reported pivot, or vanishes if the cell is essential.",
 "all matrices split by dimension, all lists of dimensions, all tie-breaking rules of the heap","Inputs that are not complexes are outside what tests try, and termination of the reduction loop on them needs an argument.",
 "phlite/src/reduction/clearing.rs: build_with_diagram, CRMBuilder::reduce_dimension, save_column")
p("C75","The Rips program on any matrix of numbers",
 "The command line program of phlite_rips panics, or does not, depending only on the shape of its input: it ends without a panic if every row has at least as many entries as there are rows and the maximum dimension is at least 1 (or there is at most one point), and panics otherwise. The entries need not be symmetric, non-negative or zero on the diagonal. Whenever it ends it prints the binomial numbers of simplices, and every line shows one simplex of the printed dimension, or a pair of simplices of consecutive dimensions, with the greatest matrix entry on the vertices of each.",
 "all lists of lists of ordered numbers, all maximum dimensions, all tie-breaking rules of the heap, all orders of iteration through the sets","The input is a user's file that nothing validates; the claims are about all sizes and shapes.",
 "phlite_rips/src/main.rs: main","phlite_rips/src/lib.rs: build_rips_bases, max_pairwise_distance","phlite_rips/src/cohomology.rs: build_rips_coboundary_matrix")
p("C76","The Rips program from its input file to its report, in f64",
 "The command line program of phlite_rips, from the csv records and the arguments on, with f64 numbers: it ends without a panic exactly if the csv reader reports no error, every entry is a number and not NaN, no row is shorter than the number of rows, and the first argument, if given, is a decimal numeral (possibly with a plus sign) below 2^64 that is not 0 unless there is at most one row; otherwise it panics, and it never runs forever. For a symmetric, non-negative matrix with zero diagonal (infinite entries are allowed) it prints in each dimension exactly the intervals of the Vietoris-Rips barcode that are infinite or whose exact length is at least 0.01 + 2^-60, which is what the test `death - birth > 0.01` amounts to in rounded arithmetic.",
 "all inputs and arguments, all tie-breaking rules of the heap, all orders of iteration through the sets","The filter is a floating point computation with rounding, infinities and NaN, the input is arbitrary.",
 "phlite_rips/src/main.rs: main")
p("C77","Negative weights",
 "On edge weights of any sign, also if path lengths overflow to infinity, grpph(n, edges) and grpph_with_involution(n, edges) terminate without panicking. The search from each vertex stops after at most one pop per edge and one more, gives a value to exactly the vertices that can be reached along edges of finite weight, and the value is the length of a walk with at most n edges (though not always the least). From time 0 on the reported bars are those of grounded persistent path homology of the filtration by these lengths: moving negative end points to 0 and dropping what becomes empty gives the barcodes. In degree 0 there is one essential bar for each weakly connected component, born at 0, and every finite bar is born at 0 and has a negative death. grpph_with_involution returns the same bars and one representative per finite bar of degree 1.",
 "all edge lists with weights of any sign (no sum may be NaN, which needs a weight -infinity and an overflow), all n < 65536, all heap tie-breakings and iteration orders","Universal over inputs and schedules, including cycles of negative length.",
 "phlite_grpph/src/lib.rs: grpph, grpph_with_involution, build_filtration")
p("C78","Exactly when the Rips program overflows",
 "The Rips program on a 64-bit machine, on any input (not only distance matrices): the debug build returns exactly if the conditions of C76 hold, a vector of max_dim + 1 elements of 24 bytes is not larger than isize::MAX bytes, and the sum of (n - m + 1 + i) (n + 1)^i over i < m is below 2^64, where n is the number of rows and m the lesser of max_dim + 2 and n. Otherwise it panics. If it returns, it gives the report of the program with unbounded numbers, and the release build gives the same report. So with at most 15 points the index never overflows; with 16 or more points it does so if the dimension is at least 14; in the default dimension 1 it does so exactly with more than 2642244 points.",
 "all sequences of csv records with fewer than 2^64 - 1 rows, all arguments, all coefficient types, heap tie-breakings and iteration orders","The columns that clearing skips are never asked for, so whether an overflow happens depends on which columns are skipped; the claim is universal over inputs.",
 "phlite_rips/src/main.rs: main","phlite_rips/src/lib.rs: RipsIndex::from_indices, build_rips_bases, add_cofacets","phlite_rips/src/cohomology.rs: CoboundaryIterator","phlite/src/reduction/clearing.rs: ClearedReductionMatrix::build_with_diagram")
p("C79","Triangular distance matrices",
 "The output of the Rips program depends only on the number of points, the entries above the diagonal, and the greater of every two opposite entries. So a matrix with the distances above the diagonal, zeros on it, and anything not greater below it (such as zeros) gives the same report as the full symmetric matrix: the Vietoris-Rips barcode. The same is not true of the lower triangle: the program accepts it and prints something else.",
 "all square lists of lists of ordered numbers, all maximum dimensions, all coefficient types, heap tie-breakings and iteration orders","Universal over matrices, and the two places that read the matrix (the bases and the filtration values) read different entries.",
 "phlite_rips/src/main.rs: main","phlite_rips/src/lib.rs: build_rips_bases, add_cofacets, max_pairwise_distance")
p("C80","The Rips matrices with the standard algorithm; the numbers of pairs",
 "For every distance matrix on n points, reducing the whole reversed coboundary matrix (or the whole boundary matrix) by standard_algo_with_diagram terminates without a panic and gives the same diagram as clearing. The diagram of the coboundary in dimensions up to max_dim has exactly C(n-1, k+1) pairs of each dimension k <= max_dim and, if n > 0, one essential index; the diagram of the boundary matrix has C(n-1, k+1) pairs of each dimension k < max_dim, and its essential indices are one vertex and C(n-1, max_dim+1) simplices of dimension max_dim. (So the numbers asserted by the tests of phlite_rips do not depend on the distances.)",
 "all symmetric, non-negative distance matrices with zero diagonal, all max_dim >= 1, all fields, all tie-breaking rules of the heap","The tests check these numbers on one matrix with four points.",
 "phlite_rips/src/cohomology.rs: build_rips_coboundary_matrix, tests","phlite_rips/src/homology.rs: build_rips_boundary_matrix, tests","phlite/src/reduction/standard.rs: standard_algo_with_diagram","phlite/src/reduction/clearing.rs: ClearedReductionMatrix::build_with_diagram")
p("C81","The Rips program on the circle matrices",
 "On the output of circle_distance_matrix.py n the program prints, in dimension 0, n-1 intervals (0, 1) and one infinite interval from 0; in dimension 1, exactly one interval, from 1 to n/3 rounded up, if n >= 4, and no interval if n <= 3. This holds for every dimension argument of at least 1 and every coefficient field (so the loop is found, and is filled when three points can be at that distance from one another); in any units, the intervals are those of the barcode of points on a circle. Without an argument, on a 64-bit machine debug and release builds print that report for n up to 2642244, and debug builds panic for larger n.",
 "all numbers of points n >= 1, all dimensions max_dim >= 1, all fields, all tie-breaking rules and iteration orders; text is converted to f64 exactly for whole numbers up to n/2","A test runs the program on a few sizes; the statement is for every size.",
 "phlite_rips/circle_distance_matrix.py: circle_matrix","phlite_rips/src/main.rs: main","phlite_rips/src/cohomology.rs: build_rips_coboundary_matrix")
p("C82","The Rips program reads its numbers exactly or to the nearest f64",
 "An entry of the input matrix is accepted exactly if it is a decimal number (optional sign, digits with an optional point before, between or after them, optional exponent) or the word inf or infinity in upper or lower case with an optional sign; no spaces. The value used is the f64 nearest to the decimal number, on a tie the even one, infinite from 2^1024 - 2^970 on; it is exact if the number is an f64. A greater decimal number never becomes a smaller value. NaN, in upper or lower case and with any sign, and all other text make the program panic.",
 "all texts of all lengths, any number of digits and any exponent","There are infinitely many texts, and the ties and boundaries are rare.",
 "phlite_rips/src/main.rs: main (entry.parse::<f64>())")
p("C83","The Rips program from the text of its input to the text of its output",
 "For a table written as csv (commas, quotes with doubled quotes inside, lines ended by LF, CR LF or CR, blank lines, optional byte order mark, optional end of the last line), the program, as long as the indices of simplices do not overflow (see C86), prints a report exactly if all rows have the same length, there are not more rows than columns, every entry is a number as in C82 and the dimension argument, if given, is a numeral below 2^64 and not 0 unless there is at most one row; otherwise it panics and prints nothing. For a symmetric non-negative table with zero diagonal the report contains the numbers of simplices and the intervals of the barcode of the Rips filtration of the distances as rounded to f64. For the output of circle_distance_matrix.py n it contains the intervals of the circle (C81).",
 "all csv texts, all arguments, all fields, all tie-breaking rules and iteration orders","A test runs the program on a few files.",
 "phlite_rips/src/main.rs: main","phlite_rips/circle_distance_matrix.py: circle_matrix")
p("C84","What the Rips program prints is complete and unambiguous",
 "As long as the indices of simplices do not overflow (see C86; with unbounded numbers, always), for every input text, csv or not, and all arguments, the program either prints the whole text of its report and ends, or it panics before it has printed anything. Two different reports have different texts, as long as different numbers have different texts from which they can be read back.",
 "all input texts, all arguments, all reports","A panic could come at any point of the loops that print; ambiguity is a property of pairs of outputs.",
 "phlite_rips/src/main.rs: main")
p("C85","Numbers are printed exactly: shortest digits that read back",
 "The filtration values that the Rips program prints lose nothing: the text of every value, read again by the rules of C82, is the same f64. A finite value is printed without an exponent, without superfluous zeros and with as few significant digits as possible: no decimal number with fewer digits reads back as the same value, and none with as many digits is nearer. Infinite values are printed as inf and -inf. So the text printed by the program determines its whole report.",
 "all f64 values (not NaN; the two zeros are identified), all inputs, all reports","There are 2^64 values.",
 "phlite_rips/src/main.rs: main (println! of f_val, birth_f, death_f)")
p("C86","What the Rips program prints on a 64-bit machine",
 "On a 64-bit machine, with the table as csv, dimension k and n rows (n + 1 below 2^64): if the table and the argument can be read and the indices of all simplices with at most k + 2 points are below 2^64, the debug build and the release build print the same text, that of the report with unbounded numbers. If only those with at most k + 1 points are, the debug build prints the section with the basis sizes, in full and right, and panics before printing anything else. Otherwise the debug build prints nothing. In any build, whatever the arithmetic of indices does on overflow, if anything is printed then the table and the argument can be read, and the output begins with the right basis sizes.",
 "all csv texts, all arguments, all numbers of points and dimensions, all fields, all tie-breaking rules and iteration orders","Overflow happens for sizes that no test runs, and the panic could come after any part of the output.",
 "phlite_rips/src/main.rs: main","phlite_rips/src/lib.rs: RipsIndex::from_indices, build_rips_bases")
p("C87","Components are the edges of a minimum spanning tree",
 "The intervals that the Rips program prints in dimension 0 are the infinite interval [0, inf) and, for each edge of a minimum spanning tree of the points, the interval from 0 to the length of the edge, if that passes the length filter. This holds for the library on every distance matrix with values in any linear order, and for the text: if the input is a csv table of decimal numbers, the tree is one with the least total length in exact arithmetic, and the lengths are rounded to f64. Every nonempty set of points has a minimum spanning tree, and all of them give the same intervals.",
 "all distance matrices (any linear order, ties included), all decimal tables as csv, all minimum spanning trees, all fields, all tie-breaking rules and iteration orders","Tests compare the output for a few point sets; the connection to spanning trees (single linkage) is a statement about all weightings, and ties make many trees minimal.",
 "phlite_rips/src/main.rs: main","phlite_rips/src/cohomology.rs: build_rips_coboundary_matrix","phlite/src/reduction/clearing.rs: ClearedReductionMatrix::build_with_diagram")
p("C88","Rips barcodes: repeated points, point sets of different sizes, subsamples",
 "Listing points more than once does not change the intervals that the Rips pipeline finds, in any dimension. If every point of either of two distance matrices, of any sizes, is related to some point of the other, and distances between related pairs differ by at most epsilon, then the intervals of the two runs are within epsilon in the bottleneck distance. In particular, for a metric, the intervals of a subsample such that every point is within r of it are within 2r of those of all points.",
 "all distance matrices, all repetitions, all correspondences between point sets of any two sizes, all subsamples, all dimensions up to the maximum, all fields and tie-breaking rules","Relates runs on inputs of different sizes; a test compares two runs.",
 "phlite_rips/src/cohomology.rs: build_rips_coboundary_matrix","phlite/src/reduction/clearing.rs: ClearedReductionMatrix::build_with_diagram","phlite_rips/src/main.rs: main")
p("C89","What the example program of phlite_grpph prints",
 "The example program (the complete digraph with unit weights) prints its three progress messages; then that the only essential cell is the vertex 0, from 0 to infinity; then, each once and from 0 to 1, the pair of every arrow b to a (a < b) with the double edge of a and b and the pair of every arrow a to b (0 < a < b) with the triangle on 0, a, b, and nothing else; then the number of these lines, (n-1)^2; and its assertions hold. The order of the pairs is the only thing that depends on hash-set orders, adjacency-list orders or tie-breaking of the heap.",
 "all numbers of vertices from 2 to 65535, all additions of lengths (in particular rounded ones), all orders of hash sets and adjacency lists, all heaps, all coefficient fields","The set of printed pairs must be the same for every size and iteration order; one run shows one size and one order.",
 "phlite_grpph/src/bin/main.rs: main","phlite_grpph/src/coboundary.rs: GrPPHCoboundary::build, PathHomCell, PathHom2Cell")
p("C90","grpph of a digraph in two parts",
 "If a digraph consists of two digraphs that have no vertex or exactly one vertex in common, then the degree-1 bars that grpph returns for it are those of the two parts together (although with a common vertex there are shortest paths, and hence arrows of the filtration, from one part to the other), and the number of degree-0 bars is the sum of those of the parts, minus one if there is a common vertex. In particular an isolated vertex adds one degree-0 bar and changes nothing else. The names of the vertices and the order and multiplicity of the edges do not matter.",
 "all pairs of weighted digraphs with non-negative weights (infinite ones included), any renaming of vertices, all additions of lengths (rounded ones included), all hash-set and adjacency orders, all heaps, all coefficient fields","Relates three runs on inputs of different sizes; a test compares a single instance.",
 "phlite_grpph/src/lib.rs: grpph, build_filtration","phlite_grpph/src/coboundary.rs: GrPPHCoboundary::build","phlite/src/reduction/clearing.rs: ClearedReductionMatrix::build_with_diagram")
p("C91","grpph depends on reachability and distances; opposite digraph",
 "If lengths add exactly: (1) turning around every edge leaves the numbers that grpph returns unchanged up to their order, although the cells, arrows and columns differ; (2) two digraphs that join the same pairs of vertices and have the same distances give the same numbers up to order, whatever the weights of edges are that lie on no shortest path; (3) in particular the weight of an edge for which there is a detour that is not longer can be replaced by any weight that is not less than the detour, an infinite one included.",
 "all digraphs with non-negative weights (infinite ones included), all associative and commutative ((2) and (3): associative and monotone) additions of lengths, all hash-set and adjacency orders, all heaps, all coefficient fields","A relation between two runs on any two such inputs; a test compares a single pair.",
 "phlite_grpph/src/lib.rs: grpph, build_filtration","phlite_grpph/src/coboundary.rs: GrPPHCoboundary::build","phlite/src/reduction/clearing.rs: ClearedReductionMatrix::build_with_diagram")
p("C92","Rips: nothing outlives the enclosing radius",
 "If some point is at distance at most r from all points, then the Rips program prints no interval that ends after r; the only infinite interval is [0, infinity) in dimension 0, and every other one starts before r. Distances greater than r can be replaced by any distances greater than r (infinite ones included) without changing the intervals in any dimension.",
 "all distance matrices (no triangle inequality), all radii and centres, all dimensions, all hash-set orders, all heaps, all coefficient fields","Universal over the inputs and a comparison of two runs; a test compares a single pair.",
 "phlite_rips/src/main.rs: main","phlite_rips/src/cohomology.rs: build_rips_coboundary_matrix","phlite/src/reduction/clearing.rs: ClearedReductionMatrix::build_with_diagram")
p("C93","Rips: clusters",
 "If the points of a distance matrix fall into two groups at distance at least R of each other, then up to scale R the intervals in each dimension are those of the two groups together: those that end before R are the same, and the others agree after they are cut at R. The order in which the points are listed does not matter, and points may be listed repeatedly.",
 "all distance matrices (no triangle inequality), all divisions into groups, all R, all dimensions, all heaps, all coefficient fields","Relates three runs on inputs of different sizes; a test compares a single instance.",
 "phlite_rips/src/cohomology.rs: build_rips_coboundary_matrix","phlite_rips/src/main.rs: main","phlite/src/reduction/clearing.rs: ClearedReductionMatrix::build_with_diagram")
p("C94","How many column additions are needed at most",
 "The reduction loops end after an explicit number of steps: in the Rips program no column is added to more often than there are simplices of its dimension on the given points, and in grpph and grpph_with_involution not more than n^2 times for n vertices; the shortest-path search takes no more steps than there are edges plus two. With this many steps allowed, the programs give the results of C52 and C61.",
 "all distance matrices and dimensions; all digraphs with non-negative weights; all hash-set and adjacency orders, all heaps, all coefficient fields","A bound for inputs of every size; a test sees only that single runs end.",
 "phlite/src/reduction/clearing.rs: ClearedReductionMatrix::build_with_diagram","phlite_rips/src/main.rs: main","phlite_grpph/src/lib.rs: grpph, grpph_with_involution")
p("C95","grpph: beyond the radius, one bar for each longer edge",
 "If one vertex reaches all vertices, or is reached by all of them, by walks of length at most r, then the intervals of degree 1 that grpph reports and that end after r are exactly: one [0, d) for each edge whose end is at distance d > r from its start, and one [0, infinity) for each loop and for each edge that has no finite walk from its start to its end. So if there are no loops and every edge has a walk of length at most r, every degree-1 interval ends by r and none is infinite.",
 "all digraphs with non-negative weights (infinite ones included), all additions of lengths, all r, all hash-set and adjacency orders, all heaps, all coefficient fields","Universal over digraphs and radii; a test checks a single one.",
 "phlite_grpph/src/lib.rs: grpph, build_filtration","phlite_grpph/src/coboundary.rs: GrPPHCoboundary::build","phlite/src/reduction/clearing.rs: ClearedReductionMatrix::build_with_diagram")
p("C96","Rips: removing a point",
 "If y is a nearest neighbour of the point x and every other point is at least as near to y as to x, then leaving out the point x changes the intervals in one way only: one interval [0, d(x, y)) of dimension 0 is missing (none if the distance is 0). In all higher dimensions the intervals are the same, whatever the order of the remaining points.",
 "all distance matrices (no triangle inequality), all points, all dimensions, all heaps, all coefficient fields","Relates runs on two inputs of different sizes; a test compares a single pair.",
 "phlite_rips/src/cohomology.rs: build_rips_coboundary_matrix","phlite_rips/src/main.rs: main","phlite/src/reduction/clearing.rs: ClearedReductionMatrix::build_with_diagram")
p("C97","Rips: trees and ultrametrics",
 "For the distances in a tree with weighted edges the Rips program prints the weights of the edges as the ends of the finite intervals of dimension 0, one infinite interval, and nothing in higher dimensions. It prints nothing in dimensions above 0 for any distances that satisfy the four-point condition and for any ultrametric; and if the entries differ from distances with the four-point condition by at most e, every interval in dimensions above 0 is finite and has length at most 2e.",
 "all trees and weights, all ultrametrics and distances with the four-point condition, all e, all dimensions, all hash-set orders, all heaps, all coefficient fields","Universal over the inputs; a test checks single trees.",
 "phlite_rips/src/main.rs: main","phlite_rips/src/cohomology.rs: build_rips_coboundary_matrix","phlite/src/reduction/clearing.rs: ClearedReductionMatrix::build_with_diagram")
p("C98","grpph: edges along a tree",
 "If all edges run along a tree or forest (between a vertex and its parent, in either direction), then the intervals of degree 1 are: one for each vertex with an edge to its parent and an edge back, from 0 to the larger one of the two distances (infinite if one of the weights is), left out if that is 0. If all edges from one vertex to another have the same weight, that is the larger one of the weights of the two edges. With no opposite edges there are none.",
 "all digraphs along trees and forests, all non-negative weights, all edge and hash-set orders, all heaps, all coefficient fields","Universal over the inputs; a test checks single trees.",
 "phlite_grpph/src/lib.rs: grpph, build_filtration","phlite_grpph/src/bin/main.rs: main")
p("C99","grpph: hanging vertices",
 "A vertex that is joined to only one other vertex v changes what grpph returns as follows: nothing if there are edges in one direction only; if there is an edge to v and one from v, one interval of degree 1 is added, from 0 to the larger one of the two weights (infinite if one of them is, left out if both are 0). The number of degree-0 intervals stays the same.",
 "all digraphs with non-negative weights, all vertices v and pairs of weights, all additions of lengths, all hash-set and adjacency orders, all heaps, all coefficient fields","Relates runs on two digraphs of different sizes; a test compares a single pair.",
 "phlite_grpph/src/lib.rs: grpph, build_filtration","phlite_grpph/src/bin/main.rs: main")
p("C100","Rips: Euler characteristic and Morse inequalities",
 "At each scale t: the alternating sum over the dimensions of the numbers of intervals that contain t is the alternating sum of the numbers of simplices of diameter at most t, if all dimensions are computed. If only the dimensions up to max_dim are computed, the strong Morse inequalities hold for each dimension up to it. In particular the number of intervals of dimension p that contain t is at most the number of p-simplices at scale t, and at least that number minus those of the (p-1)- and (p+1)-simplices.",
 "all distance matrices (no triangle inequality), all scales, all dimensions, all heaps, all coefficient fields","Universal over the inputs and scales; a test checks one complex.",
 "phlite_rips/src/cohomology.rs: build_rips_coboundary_matrix","phlite_rips/src/lib.rs: build_rips_bases","phlite/src/reduction/clearing.rs: ClearedReductionMatrix::build_with_diagram")
p("C101","Rips: few points have no intervals in high dimensions",
 "For p at least 1, the Rips computation on fewer than 2p+2 points ends with no intervals in dimension p, and the program prints none there, whatever the distances are. So an interval of dimension p needs at least 2p+2 points (and this is sharp: 2p+2 points in opposite pairs, with distance 2 between opposite points and 1 between others, give exactly the interval [1, 2) in dimension p).",
 "all distance matrices (no triangle inequality), all dimensions p from 1 up to max_dim, all heaps, all coefficient fields","Universal over the matrices and dimensions; a test checks one complex.",
 "phlite_rips/src/cohomology.rs: build_rips_coboundary_matrix","phlite_rips/src/main.rs: main","phlite/src/reduction/clearing.rs: ClearedReductionMatrix::build_with_diagram")
p("C102","Rips: two far points near to all others",
 "Let all distances between different points be between r and L, and add two points at distance r from all these points and L from each other. Then the Rips computation on the larger matrix gives in dimension p+1 exactly the intervals that the smaller matrix gives in dimension p, for p at least 1.",
 "all distance matrices (no triangle inequality), all r and L with the bounds, all dimensions p from 1 on with p at most max_dim for the smaller and p+1 at most max_dim for the larger matrix, all heaps, all coefficient types for one field","Universal over the matrices; relates the outputs of two runs.",
 "phlite_rips/src/cohomology.rs: build_rips_coboundary_matrix","phlite/src/reduction/clearing.rs: ClearedReductionMatrix::build_with_diagram")
if __name__=="__main__":
    with open("/verif/properties.jsonl","w") as f:
        for x in P: f.write(json.dumps(x)+"\n")
    print(len(P))
