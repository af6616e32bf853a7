{
 "claims": [
  {
   "property": "C01",
   "status": "proved",
   "theorems": [
    "Phlite.C01_zp_values",
    "Phlite.C01_zp_ops",
    "Phlite.C01_z2",
    "Phlite.C01_lawful",
    "Phlite.C01_add_option"
   ],
   "note": ""
  },
  {
   "property": "C02",
   "status": "proved",
   "theorems": [
    "Phlite.C02_small_primes_ok",
    "Phlite.C02_large_panics",
    "Phlite.C02_composite_panics"
   ],
   "note": ""
  },
  {
   "property": "C03",
   "status": "proved",
   "theorems": [
    "Phlite.C03_no_overflow_agree",
    "Phlite.C03_valid",
    "Phlite.C03_exact",
    "Phlite.C03_bound_no_overflow",
    "Phlite.C03_overflow",
    "Phlite.C03_lawful"
   ],
   "note": ""
  },
  {
   "property": "C04",
   "status": "proved",
   "theorems": [
    "Phlite.C04_pop_pivot"
   ],
   "note": "Hypothesis: inserted entries carry the filtration value of their row (documented requirement of ColumnEntry)."
  },
  {
   "property": "C05",
   "status": "proved",
   "theorems": [
    "Phlite.C05_to_sorted_vec",
    "Phlite.C05_canonical"
   ],
   "note": ""
  },
  {
   "property": "C06",
   "status": "proved",
   "theorems": [
    "Phlite.C06_clone_pivot"
   ],
   "note": ""
  },
  {
   "property": "C07",
   "status": "proved",
   "theorems": [
    "Phlite.C07_eq_on_col"
   ],
   "note": ""
  },
  {
   "property": "C08",
   "status": "proved",
   "theorems": [
    "Phlite.C08_product",
    "Phlite.C08_product_panics",
    "Phlite.C08_assoc",
    "Phlite.C08_sum_compat",
    "Phlite.C08_product_filtration"
   ],
   "note": ""
  },
  {
   "property": "C09",
   "status": "proved",
   "theorems": [
    "Phlite.C09_sum"
   ],
   "note": ""
  },
  {
   "property": "C10",
   "status": "proved",
   "theorems": [
    "Phlite.C10_consolidate"
   ],
   "note": ""
  },
  {
   "property": "C11",
   "status": "proved",
   "theorems": [
    "Phlite.C11_cache_transparent",
    "Phlite.C11_cache_log",
    "Phlite.C11_cache_step"
   ],
   "note": ""
  },
  {
   "property": "C12",
   "status": "proved",
   "theorems": [
    "Phlite.C12_cache_panics",
    "Phlite.C12_sequential_ok",
    "Phlite.C12_product_with_itself_panics"
   ],
   "note": ""
  },
  {
   "property": "C13",
   "status": "proved",
   "theorems": [
    "Phlite.C13_unreverse_reverse",
    "Phlite.C13_reverse_unreverse",
    "Phlite.C13_reverse_column",
    "Phlite.C13_reverse_order"
   ],
   "note": ""
  },
  {
   "property": "C14",
   "status": "proved",
   "theorems": [
    "Phlite.C14_reverse_element",
    "Phlite.C14_unreverse_element",
    "Phlite.C14_round_trip",
    "Phlite.C14_reverse_elems",
    "Phlite.C14_reverse_sorted"
   ],
   "note": ""
  },
  {
   "property": "C15",
   "status": "proved",
   "theorems": [
    "Phlite.C15_reverse_lookup",
    "Phlite.C15_reverse_lookup_nodup"
   ],
   "note": ""
  },
  {
   "property": "C32",
   "status": "proved",
   "theorems": [
    "Phlite.C32_core",
    "Phlite.C32_rips_override",
    "Phlite.C32_rips_wrapped",
    "Phlite.C32_grpph_wrapped",
    "Phlite.C36_override"
   ],
   "note": ""
  },
  {
   "property": "C40",
   "status": "proved",
   "theorems": [
    "Phlite.C40_adaptors"
   ],
   "note": ""
  },
  {
   "property": "C16",
   "status": "proved",
   "theorems": [
    "Phlite.C16_standard_terminates"
   ],
   "note": ""
  },
  {
   "property": "C17",
   "status": "proved",
   "theorems": [
    "Phlite.C17_standard_rdv"
   ],
   "note": ""
  },
  {
   "property": "C18",
   "status": "proved",
   "theorems": [
    "Phlite.C18_pairings",
    "Phlite.C18_representation"
   ],
   "note": ""
  },
  {
   "property": "C19",
   "status": "proved",
   "theorems": [
    "Phlite.C19_essential",
    "Phlite.C19_essential_reverse",
    "Phlite.C19_essential_general",
    "Phlite.C19_wrong_flag"
   ],
   "note": ""
  },
  {
   "property": "C20",
   "status": "proved",
   "theorems": [
    "Phlite.C20_clearing_terminates"
   ],
   "note": ""
  },
  {
   "property": "C21",
   "status": "proved",
   "theorems": [
    "Phlite.C21_clearing_rdv"
   ],
   "note": ""
  },
  {
   "property": "C22",
   "status": "proved",
   "theorems": [
    "Phlite.C22_clearing_eq_standard"
   ],
   "note": ""
  },
  {
   "property": "C23",
   "status": "proved",
   "theorems": [
    "Phlite.C23_clearing",
    "Phlite.C23_standard",
    "Phlite.C23_count"
   ],
   "note": ""
  },
  {
   "property": "C24",
   "status": "proved",
   "theorems": [
    "Phlite.C24_col_is_cycle"
   ],
   "note": ""
  },
  {
   "property": "C25",
   "status": "proved",
   "theorems": [
    "Phlite.C25_clearing",
    "Phlite.C25_standard"
   ],
   "note": ""
  },
  {
   "property": "C26",
   "status": "proved",
   "theorems": [
    "Phlite.C26_standard",
    "Phlite.C26_clearing",
    "Phlite.C26_betti"
   ],
   "note": ""
  },
  {
   "property": "C27",
   "status": "proved",
   "theorems": [
    "Phlite.C27_roundtrip",
    "Phlite.C27_formula",
    "Phlite.C27_injective",
    "Phlite.C27_to_vec_inverse",
    "Phlite.C27_dimension_order",
    "Phlite.C27_no_overflow",
    "Phlite.C27_overflow_panics",
    "Phlite.C27_wrap_collision"
   ],
   "note": ""
  },
  {
   "property": "C28",
   "status": "proved",
   "theorems": [
    "Phlite.C28_boundary_column",
    "Phlite.C28_boundary_sq"
   ],
   "note": ""
  },
  {
   "property": "C29",
   "status": "proved",
   "theorems": [
    "Phlite.C29_coboundary_column"
   ],
   "note": ""
  },
  {
   "property": "C30",
   "status": "proved",
   "theorems": [
    "Phlite.C30_bases",
    "Phlite.C30_stored_eq_filtration",
    "Phlite.C30_filtration_monotone"
   ],
   "note": ""
  },
  {
   "property": "C31",
   "status": "proved",
   "theorems": [
    "Phlite.C31_bases_panic"
   ],
   "note": ""
  },
  {
   "property": "C33",
   "status": "proved",
   "theorems": [
    "Phlite.C33_rips_cohomology",
    "Phlite.C33_rips_homology"
   ],
   "note": ""
  },
  {
   "property": "C39",
   "status": "proved",
   "theorems": [
    "Phlite.C39_multi_dim_basis"
   ],
   "note": ""
  },
  {
   "property": "C34",
   "status": "proved",
   "theorems": [
    "Phlite.C34_edge_column",
    "Phlite.C34_node_column"
   ],
   "note": ""
  },
  {
   "property": "C35",
   "status": "proved",
   "theorems": [
    "Phlite.C35_bridge_map",
    "Phlite.C35_boundary_sq",
    "Phlite.C35_coboundary_sq",
    "Phlite.C35_panics"
   ],
   "note": ""
  },
  {
   "property": "C36",
   "status": "proved",
   "theorems": [
    "Phlite.C36_override",
    "Phlite.C36_filtration_values",
    "Phlite.C36_monotone"
   ],
   "note": ""
  },
  {
   "property": "C37",
   "status": "proved",
   "theorems": [
    "Phlite.C37_bases",
    "Phlite.C37_cell_order",
    "Phlite.C37_order_independent"
   ],
   "note": ""
  },
  {
   "property": "C41",
   "status": "proved",
   "theorems": [
    "Phlite.C41_edge_set",
    "Phlite.C41_truncation",
    "Phlite.C41_filtration"
   ],
   "note": ""
  },
  {
   "property": "C38",
   "status": "proved",
   "theorems": [
    "Phlite.C38_same_pairs",
    "Phlite.C38_involution"
   ],
   "note": ""
  },
  {
   "property": "C42",
   "status": "proved",
   "theorems": [
    "Phlite.C42_two_cells_basis"
   ],
   "note": ""
  },
  {
   "property": "C43",
   "status": "proved",
   "theorems": [
    "Phlite.C43_grpph"
   ],
   "note": "petgraph's dijkstra is a parameter: any table of shortest path lengths."
  },
  {
   "property": "C44",
   "status": "proved",
   "theorems": [
    "Phlite.C44_standard",
    "Phlite.C44_clearing"
   ],
   "note": ""
  },
  {
   "property": "C45",
   "status": "proved",
   "theorems": [
    "Phlite.C45_rips_shape"
   ],
   "note": ""
  },
  {
   "property": "C46",
   "status": "proved",
   "theorems": [
    "Phlite.C46_degree_zero",
    "Phlite.C46_edges"
   ],
   "note": "C46_degree_zero takes a table of shortest walk lengths; C46_edges starts from the list of edges, with Dijkstra's algorithm modelled."
  },
  {
   "property": "C47",
   "status": "proved",
   "theorems": [
    "Phlite.C47_degree_one",
    "Phlite.C47_edges"
   ],
   "note": "As C46."
  },
  {
   "property": "C48",
   "status": "proved",
   "theorems": [
    "Phlite.C48_complete",
    "Phlite.C48_edges"
   ],
   "note": "As C46."
  },
  {
   "property": "C49",
   "status": "proved",
   "theorems": [
    "Phlite.C49_cycle",
    "Phlite.C49_edges"
   ],
   "note": "As C46."
  },
  {
   "property": "C50",
   "status": "proved",
   "theorems": [
    "Phlite.C50_closed_representatives",
    "Phlite.C50_edges"
   ],
   "note": "As C46."
  },
  {
   "property": "C51",
   "status": "proved",
   "theorems": [
    "Phlite.C51_clearing",
    "Phlite.C51_standard",
    "Phlite.C51_cohomology"
   ],
   "note": "existence is C25/C26; uniqueness of a barcode with given Betti numbers is proved in Theory/Unique"
  },
  {
   "property": "C52",
   "status": "proved",
   "theorems": [
    "Phlite.C52_rips_report",
    "Phlite.C52_rips_zero"
   ],
   "note": "text formatting is not modelled, for the input see C76; the filter `death - birth > 0.01` is any predicate that implies birth < death"
  },
  {
   "property": "C53",
   "status": "proved",
   "theorems": [
    "Phlite.C53_intervals",
    "Phlite.C53_permute",
    "Phlite.C53_rescale",
    "Phlite.C53_field_zero"
   ],
   "note": ""
  },
  {
   "property": "C54",
   "status": "proved",
   "theorems": [
    "Phlite.C54_stability"
   ],
   "note": "rank form of stability; exact arithmetic"
  },
  {
   "property": "C55",
   "status": "proved",
   "theorems": [
    "Phlite.C55_barcode",
    "Phlite.C55_relabel",
    "Phlite.C55_digraph"
   ],
   "note": "As C46."
  },
  {
   "property": "C56",
   "status": "proved",
   "theorems": [
    "Phlite.C56_rescale",
    "Phlite.C56_stability",
    "Phlite.C56_weights"
   ],
   "note": "rank form of stability; exact arithmetic"
  },
  {
   "property": "C57",
   "status": "proved",
   "theorems": [
    "Phlite.C57_exact",
    "Phlite.C57_from_indices",
    "Phlite.C57_bases",
    "Phlite.C57_columns",
    "Phlite.C57_report",
    "Phlite.C57_bound",
    "Phlite.C57_homology",
    "Phlite.C57_overflow"
   ],
   "note": "the release build above the bound is not described (C27_wrap_collision shows that indices can then collide)"
  },
  {
   "property": "C58",
   "status": "proved",
   "theorems": [
    "Phlite.C58_rips",
    "Phlite.C58_standard",
    "Phlite.C58_clearing"
   ],
   "note": "filtration values in any linearly ordered field"
  },
  {
   "property": "C59",
   "status": "proved",
   "theorems": [
    "Phlite.C59_filtration",
    "Phlite.C59_main",
    "Phlite.C59_test_complete",
    "Phlite.C59_test_cycle",
    "Phlite.C59_one_vertex",
    "Phlite.C59_asserts"
   ],
   "note": "the result of Dijkstra's algorithm in the example program is assumed to be the shortest path lengths"
  },
  {
   "property": "C60",
   "status": "proved",
   "theorems": [
    "Phlite.C60_columns",
    "Phlite.C60_all_one",
    "Phlite.C60_barcode",
    "Phlite.C60_homology",
    "Phlite.C60_simple_z2"
   ],
   "note": ""
  },
  {
   "property": "C61",
   "status": "proved",
   "theorems": [
    "Phlite.C61_dijkstra",
    "Phlite.C61_runs",
    "Phlite.C61_barcode",
    "Phlite.C61_involution",
    "Phlite.C61_same_edges",
    "Phlite.C61_main"
   ],
   "note": "petgraph is external: its Dijkstra is modelled after the published source."
  },
  {
   "property": "C62",
   "status": "proved",
   "theorems": [
    "Phlite.C62_endpoints",
    "Phlite.C62_returns_in_range",
    "Phlite.C62_vertex_count_truncated"
   ],
   "note": ""
  },
  {
   "property": "C63",
   "status": "proved",
   "theorems": [
    "Phlite.C63_heap_histories",
    "Phlite.C63_heap_sort",
    "Phlite.C63_contract"
   ],
   "note": "the standard library is external: modelled after its published source; a moved hole is modelled by swaps"
  },
  {
   "property": "C64",
   "status": "proved",
   "theorems": [
    "Phlite.C64_columns_requested"
   ],
   "note": ""
  },
  {
   "property": "C65",
   "status": "proved",
   "theorems": [
    "Phlite.C65_round_nearest",
    "Phlite.C65_length_addition",
    "Phlite.C65_barcode",
    "Phlite.C65_distances",
    "Phlite.C65_exact"
   ],
   "note": "non-negative numbers and infinity; -0.0 is not distinguished from 0.0, NaN weights behave as infinite ones (they are not finite)"
  },
  {
   "property": "C66",
   "status": "proved",
   "theorems": [
    "Phlite.C66_bottleneck",
    "Phlite.C66_weights"
   ],
   "note": "exact arithmetic in an ordered field"
  },
  {
   "property": "C67",
   "status": "proved",
   "theorems": [
    "Phlite.C67_zp_standard",
    "Phlite.C67_zp_clearing",
    "Phlite.C67_q_standard",
    "Phlite.C67_q_clearing",
    "Phlite.C67_q_columns",
    "Phlite.C67_q_crm"
   ],
   "note": "over Q: a run with an overflow is `none`; what a release build then computes is only described for single operations (C68)"
  },
  {
   "property": "C68",
   "status": "proved",
   "theorems": [
    "Phlite.C68_builds_agree",
    "Phlite.C68_debug_exact",
    "Phlite.C68_silently_wrong"
   ],
   "note": "num-integer's gcd and lcm are external: gcd exact, lcm as a * (b / gcd)"
  },
  {
   "property": "C69",
   "status": "proved",
   "theorems": [
    "Phlite.C69_standard",
    "Phlite.C69_standard_algo",
    "Phlite.C69_clearing"
   ],
   "note": "Model/Lazy: iterators advanced item by item over the shared cache state of C11/C12"
  },
  {
   "property": "C70",
   "status": "proved",
   "theorems": [
    "Phlite.C70_reads",
    "Phlite.C70_uncached"
   ],
   "note": "both directions: which reads are answered, which panic"
  },
  {
   "property": "C71",
   "status": "proved",
   "theorems": [
    "Phlite.C71_lazy_is_eager"
   ],
   "note": "justifies identifying iterators with lists in Model/Matrices and Model/Reduction"
  },
  {
   "property": "C72",
   "status": "proved",
   "theorems": [
    "Phlite.C72_init",
    "Phlite.C72_one_cache",
    "Phlite.C72_never_wrong",
    "Phlite.C72_safe",
    "Phlite.C72_reads",
    "Phlite.C72_warm",
    "Phlite.C72_square_clash",
    "Phlite.C72_sum_order",
    "Phlite.C72_sum_same"
   ],
   "note": "the safety check is sufficient, not necessary: sum(&C, &C) is not safe by it but can be read"
  },
  {
   "property": "C73",
   "status": "proved",
   "theorems": [
    "Phlite.C73_terminates",
    "Phlite.C73_rdv",
    "Phlite.C73_diagram",
    "Phlite.C73_col_is_cycle",
    "Phlite.C73_same_pairings",
    "Phlite.C73_repair",
    "Phlite.C73_exact"
   ],
   "note": "the hypotheses are those of C20-C24 without anything about the order of the dimensions"
  },
  {
   "property": "C74",
   "status": "proved",
   "theorems": [
    "Phlite.C74_any_matrix"
   ],
   "note": "clearingStep in Spec/Reduction.lean says what one dimension contributes, in terms of IsPersistencePair and IsDependent; chain complexes are a special case (GradedComplex.dimensioned)"
  },
  {
   "property": "C75",
   "status": "proved",
   "theorems": [
    "Phlite.C75_rips_any_matrix",
    "Phlite.C75_rips_panics"
   ],
   "note": "numbers are any linear order with 0; sizes are unbounded naturals as in C52 (overflow: C57)"
  },
  {
   "property": "C76",
   "status": "proved",
   "theorems": [
    "Phlite.C76_returns_iff",
    "Phlite.C76_report",
    "Phlite.C76_filter",
    "Phlite.C76_argument"
   ],
   "note": "splitting the input into records (csv crate) and the conversion of text to f64 are parameters; sizes are unbounded naturals (overflow: C57)"
  },
  {
   "property": "C77",
   "status": "proved",
   "theorems": [
    "Phlite.C77_table",
    "Phlite.C77_dijkstra",
    "Phlite.C77_edges",
    "Phlite.C77_involution"
   ],
   "note": "lengths are elements of any linear order with any operation of addition; numbers are not NaN, so sums of -infinity and +infinity are excluded; lengths may overflow to infinity"
  },
  {
   "property": "C78",
   "status": "proved",
   "theorems": [
    "Phlite.C78_returns_iff",
    "Phlite.C78_threshold",
    "Phlite.C78_few_points",
    "Phlite.C78_default",
    "Phlite.C78_program"
   ],
   "note": "running out of memory is not modelled; what the release build prints above the bound is not described"
  },
  {
   "property": "C79",
   "status": "proved",
   "theorems": [
    "Phlite.C79_same_run",
    "Phlite.C79_upper_run",
    "Phlite.C79_upper_report"
   ],
   "note": "that the lower triangle gives another result is a machine-checked run on one matrix (Props/RipsUpper)"
  },
  {
   "property": "C80",
   "status": "proved",
   "theorems": [
    "Phlite.C80_cohomology",
    "Phlite.C80_homology"
   ],
   "note": ""
  },
  {
   "property": "C81",
   "status": "proved",
   "theorems": [
    "Phlite.C81_circle",
    "Phlite.C81_barcodes",
    "Phlite.C81_machine"
   ],
   "note": ""
  },
  {
   "property": "C82",
   "status": "proved",
   "theorems": [
    "Phlite.C82_entry",
    "Phlite.C82_exact",
    "Phlite.C82_order",
    "Phlite.IsRounded.unique"
   ],
   "note": ""
  },
  {
   "property": "C83",
   "status": "proved",
   "theorems": [
    "Phlite.C83_csv",
    "Phlite.C83_report_iff",
    "Phlite.C83_report",
    "Phlite.C83_circle"
   ],
   "note": ""
  },
  {
   "property": "C84",
   "status": "proved",
   "theorems": [
    "Phlite.C84_all_or_nothing",
    "Phlite.C84_unambiguous"
   ],
   "note": ""
  },
  {
   "property": "C85",
   "status": "proved",
   "theorems": [
    "Phlite.C85_reads_back",
    "Phlite.C85_shortest",
    "Phlite.C85_text",
    "Phlite.C85_unambiguous"
   ],
   "note": ""
  },
  {
   "property": "C86",
   "status": "proved",
   "theorems": [
    "Phlite.C86_debug_build",
    "Phlite.C86_any_build"
   ],
   "note": ""
  },
  {
   "property": "C87",
   "status": "proved",
   "theorems": [
    "Phlite.C87_barcode",
    "Phlite.C87_exists",
    "Phlite.C87_total",
    "Phlite.C87_report",
    "Phlite.C87_text"
   ],
   "note": ""
  },
  {
   "property": "C88",
   "status": "proved",
   "theorems": [
    "Phlite.C88_repeated",
    "Phlite.C88_correspondence",
    "Phlite.C88_subsample"
   ],
   "note": "repeated points for values in any linear order; the other two for values in any linearly ordered field, exact arithmetic"
  },
  {
   "property": "C89",
   "status": "proved",
   "theorems": [
    "Phlite.C89_text"
   ],
   "note": "number of vertices (100 in the code) and the Display of f64 are parameters"
  },
  {
   "property": "C90",
   "status": "proved",
   "theorems": [
    "Phlite.C90_glued"
   ],
   "note": ""
  },
  {
   "property": "C91",
   "status": "proved",
   "theorems": [
    "Phlite.C91_opposite",
    "Phlite.C91_distances",
    "Phlite.C91_detour"
   ],
   "note": ""
  },
  {
   "property": "C92",
   "status": "proved",
   "theorems": [
    "Phlite.C92_report",
    "Phlite.C92_threshold"
   ],
   "note": ""
  },
  {
   "property": "C93",
   "status": "proved",
   "theorems": [
    "Phlite.C93_clusters"
   ],
   "note": ""
  },
  {
   "property": "C94",
   "status": "proved",
   "theorems": [
    "Phlite.C94_rips",
    "Phlite.C94_grpph"
   ],
   "note": ""
  },
  {
   "property": "C95",
   "status": "proved",
   "theorems": [
    "Phlite.C95_beyond",
    "Phlite.C95_bound"
   ],
   "note": ""
  },
  {
   "property": "C96",
   "status": "proved",
   "theorems": [
    "Phlite.C96_remove"
   ],
   "note": ""
  },
  {
   "property": "C97",
   "status": "proved",
   "theorems": [
    "Phlite.C97_tree",
    "Phlite.C97_attached",
    "Phlite.C97_four_points",
    "Phlite.C97_ultrametric",
    "Phlite.C97_simplicial",
    "Phlite.C97_nearly"
   ],
   "note": ""
  },
  {
   "property": "C98",
   "status": "proved",
   "theorems": [
    "Phlite.C98_tree",
    "Phlite.C98_weights",
    "Phlite.C98_oneWay"
   ],
   "note": ""
  },
  {
   "property": "C99",
   "status": "proved",
   "theorems": [
    "Phlite.C99_hanging"
   ],
   "note": ""
  },
  {
   "property": "C100",
   "status": "proved",
   "theorems": [
    "Phlite.C100_euler",
    "Phlite.C100_morse",
    "Phlite.C100_bounds"
   ],
   "note": ""
  },
  {
   "property": "C101",
   "status": "proved",
   "theorems": [
    "Phlite.C101_few",
    "Phlite.C101_needs",
    "Phlite.C101_report",
    "Phlite.C101_sharp"
   ],
   "note": ""
  },
  {
   "property": "C102",
   "status": "proved",
   "theorems": [
    "Phlite.C102_suspension"
   ],
   "note": ""
  }
 ]
}