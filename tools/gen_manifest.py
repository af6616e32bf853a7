import json
C=[]
def c(p,status,thms,note=""): C.append({"property":p,"status":status,"theorems":["Phlite."+t for t in thms.split()],"note":note})
c("C01","proved","C01_zp_values C01_zp_ops C01_z2 C01_lawful C01_add_option")
c("C02","proved","C02_small_primes_ok C02_large_panics C02_composite_panics")
c("C03","proved","C03_no_overflow_agree C03_valid C03_exact C03_bound_no_overflow C03_overflow C03_lawful")
c("C04","proved","C04_pop_pivot","Hypothesis: inserted entries carry the filtration value of their row (documented requirement of ColumnEntry).")
c("C05","proved","C05_to_sorted_vec C05_canonical")
c("C06","proved","C06_clone_pivot")
c("C07","proved","C07_eq_on_col")
c("C08","proved","C08_product C08_product_panics C08_assoc C08_sum_compat C08_product_filtration")
c("C09","proved","C09_sum")
c("C10","proved","C10_consolidate")
c("C11","proved","C11_cache_transparent C11_cache_log C11_cache_step")
c("C12","proved","C12_cache_panics C12_sequential_ok C12_product_with_itself_panics")
c("C13","proved","C13_unreverse_reverse C13_reverse_unreverse C13_reverse_column C13_reverse_order")
c("C14","proved","C14_reverse_element C14_unreverse_element C14_round_trip C14_reverse_elems C14_reverse_sorted")
c("C15","proved","C15_reverse_lookup C15_reverse_lookup_nodup")
c("C32","proved","C32_core C32_rips_override C32_rips_wrapped C32_grpph_wrapped C36_override")
c("C40","proved","C40_adaptors")
c("C16","proved","C16_standard_terminates")
c("C17","proved","C17_standard_rdv")
c("C18","proved","C18_pairings C18_representation")
c("C19","proved","C19_essential C19_essential_reverse C19_essential_general C19_wrong_flag")
c("C20","proved","C20_clearing_terminates")
c("C21","proved","C21_clearing_rdv")
c("C22","proved","C22_clearing_eq_standard")
c("C23","proved","C23_clearing C23_standard C23_count")
c("C24","proved","C24_col_is_cycle")
c("C25","proved","C25_clearing C25_standard")
c("C26","proved","C26_standard C26_clearing C26_betti")
c("C27","proved","C27_roundtrip C27_formula C27_injective C27_to_vec_inverse C27_dimension_order C27_no_overflow C27_overflow_panics C27_wrap_collision")
c("C28","proved","C28_boundary_column C28_boundary_sq")
c("C29","proved","C29_coboundary_column")
c("C30","proved","C30_bases C30_stored_eq_filtration C30_filtration_monotone")
c("C31","proved","C31_bases_panic")
c("C33","proved","C33_rips_cohomology C33_rips_homology")
c("C39","proved","C39_multi_dim_basis")
c("C34","proved","C34_edge_column C34_node_column")
c("C35","proved","C35_bridge_map C35_boundary_sq C35_coboundary_sq C35_panics")
c("C36","proved","C36_override C36_filtration_values C36_monotone")
c("C37","proved","C37_bases C37_cell_order C37_order_independent")
c("C41","proved","C41_edge_set C41_truncation C41_filtration")
c("C38","proved","C38_same_pairs C38_involution")
c("C42","proved","C42_two_cells_basis")
c("C43","proved","C43_grpph","petgraph's dijkstra is a parameter: any table of shortest path lengths.")
c("C44","proved","C44_standard C44_clearing")
c("C45","proved","C45_rips_shape")
c("C46","proved","C46_degree_zero C46_edges","C46_degree_zero takes a table of shortest walk lengths; C46_edges starts from the list of edges, with Dijkstra's algorithm modelled.")
c("C47","proved","C47_degree_one C47_edges","As C46.")
c("C48","proved","C48_complete C48_edges","As C46.")
c("C49","proved","C49_cycle C49_edges","As C46.")
c("C50","proved","C50_closed_representatives C50_edges","As C46.")
c("C51","proved","C51_clearing C51_standard C51_cohomology","existence is C25/C26; uniqueness of a barcode with given Betti numbers is proved in Theory/Unique")
c("C52","proved","C52_rips_report C52_rips_zero","text formatting is not modelled, for the input see C76; the filter `death - birth > 0.01` is any predicate that implies birth < death")
c("C53","proved","C53_intervals C53_permute C53_rescale C53_field_zero","")
c("C54","proved","C54_stability","rank form of stability; exact arithmetic")
c("C55","proved","C55_barcode C55_relabel C55_digraph","As C46.")
c("C56","proved","C56_rescale C56_stability C56_weights","rank form of stability; exact arithmetic")
c("C57","proved","C57_exact C57_from_indices C57_bases C57_columns C57_report C57_bound C57_homology C57_overflow","the release build above the bound is not described (C27_wrap_collision shows that indices can then collide)")
c("C58","proved","C58_rips C58_standard C58_clearing","filtration values in any linearly ordered field")
c("C59","proved","C59_filtration C59_main C59_test_complete C59_test_cycle C59_one_vertex C59_asserts","the result of Dijkstra's algorithm in the example program is assumed to be the shortest path lengths")
c("C60","proved","C60_columns C60_all_one C60_barcode C60_homology C60_simple_z2","")
c("C61","proved","C61_dijkstra C61_runs C61_barcode C61_involution C61_same_edges C61_main","petgraph is external: its Dijkstra is modelled after the published source.")
c("C62","proved","C62_endpoints C62_returns_in_range C62_vertex_count_truncated","")
c("C63","proved","C63_heap_histories C63_heap_sort C63_contract","the standard library is external: modelled after its published source; a moved hole is modelled by swaps")
c("C64","proved","C64_columns_requested","")
c("C65","proved","C65_round_nearest C65_length_addition C65_barcode C65_distances C65_exact","non-negative numbers and infinity; -0.0 is not distinguished from 0.0, NaN weights behave as infinite ones (they are not finite)")
c("C66","proved","C66_bottleneck C66_weights","exact arithmetic in an ordered field")
c("C67","proved","C67_zp_standard C67_zp_clearing C67_q_standard C67_q_clearing C67_q_columns C67_q_crm","over Q: a run with an overflow is `none`; what a release build then computes is only described for single operations (C68)")
c("C68","proved","C68_builds_agree C68_debug_exact C68_silently_wrong","num-integer's gcd and lcm are external: gcd exact, lcm as a * (b / gcd)")
c("C69","proved","C69_standard C69_standard_algo C69_clearing","Model/Lazy: iterators advanced item by item over the shared cache state of C11/C12")
c("C70","proved","C70_reads C70_uncached","both directions: which reads are answered, which panic")
c("C71","proved","C71_lazy_is_eager","justifies identifying iterators with lists in Model/Matrices and Model/Reduction")
c("C72","proved","C72_init C72_one_cache C72_never_wrong C72_safe C72_reads C72_warm C72_square_clash C72_sum_order C72_sum_same","the safety check is sufficient, not necessary: sum(&C, &C) is not safe by it but can be read")
c("C73","proved","C73_terminates C73_rdv C73_diagram C73_col_is_cycle C73_same_pairings C73_repair C73_exact","the hypotheses are those of C20-C24 without anything about the order of the dimensions")
c("C74","proved","C74_any_matrix","clearingStep in Spec/Reduction.lean says what one dimension contributes, in terms of IsPersistencePair and IsDependent; chain complexes are a special case (GradedComplex.dimensioned)")
c("C75","proved","C75_rips_any_matrix C75_rips_panics","numbers are any linear order with 0; sizes are unbounded naturals as in C52 (overflow: C57)")
c("C76","proved","C76_returns_iff C76_report C76_filter C76_argument","splitting the input into records (csv crate) and the conversion of text to f64 are parameters; sizes are unbounded naturals (overflow: C57)")
c("C77","proved","C77_table C77_dijkstra C77_edges C77_involution","lengths are elements of any linear order with any operation of addition; numbers are not NaN, so sums of -infinity and +infinity are excluded; lengths may overflow to infinity")
c("C78","proved","C78_returns_iff C78_threshold C78_few_points C78_default C78_program","running out of memory is not modelled; what the release build prints above the bound is not described")
c("C79","proved","C79_same_run C79_upper_run C79_upper_report","that the lower triangle gives another result is a machine-checked run on one matrix (Props/RipsUpper)")
c("C80","proved","C80_cohomology C80_homology")
c("C81","proved","C81_circle C81_barcodes C81_machine")
c("C82","proved","C82_entry C82_exact C82_order IsRounded.unique")
c("C83","proved","C83_csv C83_report_iff C83_report C83_circle")
c("C84","proved","C84_all_or_nothing C84_unambiguous")
c("C85","proved","C85_reads_back C85_shortest C85_text C85_unambiguous")
c("C86","proved","C86_debug_build C86_any_build")
c("C87","proved","C87_barcode C87_exists C87_total C87_report C87_text")
c("C88","proved","C88_repeated C88_correspondence C88_subsample","repeated points for values in any linear order; the other two for values in any linearly ordered field, exact arithmetic")
c("C89","proved","C89_text","number of vertices (100 in the code) and the Display of f64 are parameters")
c("C90","proved","C90_glued","")
c("C91","proved","C91_opposite C91_distances C91_detour","")
c("C92","proved","C92_report C92_threshold","")
c("C93","proved","C93_clusters","")
c("C94","proved","C94_rips C94_grpph","")
c("C95","proved","C95_beyond C95_bound","")
c("C96","proved","C96_remove","")
c("C97","proved","C97_tree C97_attached C97_four_points C97_ultrametric C97_simplicial C97_nearly","")
c("C98","proved","C98_tree C98_weights C98_oneWay","")
c("C99","proved","C99_hanging","")
c("C100","proved","C100_euler C100_morse C100_bounds","")
c("C101","proved","C101_few C101_needs C101_report C101_sharp","")
c("C102","proved","C102_suspension","")
json.dump({"claims":C},open("/verif/MANIFEST.json","w"),indent=1,ensure_ascii=False)
