{
 "claims": [
  {
   "property": "C01",
   "status": "proved",
   "theorems": [
    "Curver.C01_invert",
    "Curver.C01_index_sign",
    "Curver.C01_set_sign"
   ],
   "note": ""
  },
  {
   "property": "C02",
   "status": "proved",
   "theorems": [
    "Curver.C02_roundtrip",
    "Curver.C02_injective",
    "Curver.C02_alphabet",
    "Curver.C02_decode_value",
    "Curver.C02_decode_error"
   ],
   "note": ""
  },
  {
   "property": "C03",
   "status": "proved",
   "theorems": [
    "Curver.Permutation.C03_roundtrip",
    "Curver.Permutation.C03_surjective",
    "Curver.Permutation.C03_too_large",
    "Curver.Permutation.C03_lexicographic"
   ],
   "note": ""
  },
  {
   "property": "C04",
   "status": "proved",
   "theorems": [
    "Curver.Triangulation.C04_roundtrip",
    "Curver.Triangulation.C04_injective",
    "Curver.Triangulation.C04_sig_defined"
   ],
   "note": ""
  },
  {
   "property": "C05",
   "status": "proved",
   "theorems": [
    "Curver.Triangulation.C05_complete_is_accepted",
    "Curver.Triangulation.C05_accepted_iff",
    "Curver.Triangulation.C05_only_complete_is_accepted",
    "Curver.Triangulation.C05_errors",
    "Curver.Triangulation.C05_odd_is_accepted"
   ],
   "note": ""
  },
  {
   "property": "C06",
   "status": "proved",
   "theorems": [
    "Curver.Triangulation.C06_eq_iff_same_gluing",
    "Curver.Triangulation.C06_eq_iff_eq",
    "Curver.Triangulation.C06_presentation",
    "Curver.Triangulation.C06_pickle"
   ],
   "note": ""
  },
  {
   "property": "C07",
   "status": "proved",
   "theorems": [
    "Curver.Triangulation.C07_partition",
    "Curver.Triangulation.C07_same_vertex_iff",
    "Curver.Triangulation.C07_rotation_order"
   ],
   "note": ""
  },
  {
   "property": "C08",
   "status": "proved",
   "theorems": [
    "Curver.C08_flip_succeeds",
    "Curver.C08_target_unique",
    "Curver.C08_flip_back",
    "Curver.C08_unflippable_fails"
   ],
   "note": ""
  },
  {
   "property": "C09",
   "status": "proved",
   "theorems": [
    "Curver.C09_flip_then_back",
    "Curver.C09_multiflip_then_back",
    "Curver.C09_flip_bijective"
   ],
   "note": ""
  },
  {
   "property": "C10",
   "status": "proved",
   "theorems": [
    "Curver.C10_flip_keeps_consistent",
    "Curver.C10_multiflip_keeps_consistent"
   ],
   "note": ""
  },
  {
   "property": "C11",
   "status": "proved",
   "theorems": [
    "Curver.C11_relabel",
    "Curver.C11_missing_index",
    "Curver.C11_unsigned_is_accepted"
   ],
   "note": ""
  },
  {
   "property": "C12",
   "status": "proved",
   "theorems": [
    "Curver.C12_sound",
    "Curver.C12_complete",
    "Curver.C12_complete_all_components",
    "Curver.C12_value_error",
    "Curver.C12_unique"
   ],
   "note": ""
  },
  {
   "property": "C13",
   "status": "proved",
   "theorems": [
    "Curver.C13_lists_all",
    "Curver.C13_is_isometric",
    "Curver.C13_identity"
   ],
   "note": ""
  },
  {
   "property": "C14",
   "status": "proved",
   "theorems": [
    "Curver.C14_composition",
    "Curver.C14_class",
    "Curver.C14_compose_mismatch",
    "Curver.C14_apply_mismatch",
    "Curver.C14_associative",
    "Curver.C14_identity",
    "Curver.C14_neutral",
    "Curver.C14_constructor",
    "Curver.C14_empty"
   ],
   "note": ""
  },
  {
   "property": "C15",
   "status": "proved",
   "theorems": [
    "Curver.C15_inverse",
    "Curver.C15_bijection",
    "Curver.C15_homology",
    "Curver.C15_double_inverse",
    "Curver.C15_double_inverse_map",
    "Curver.C15_product",
    "Curver.C15_double_inverse_needs_reduced",
    "Curver.C15_conjugate"
   ],
   "note": ""
  },
  {
   "property": "C16",
   "status": "proved",
   "theorems": [
    "Curver.C16_powers",
    "Curver.C16_powers_homology",
    "Curver.C16_call_with_power"
   ],
   "note": ""
  },
  {
   "property": "C17",
   "status": "proved",
   "theorems": [
    "Curver.C17_split",
    "Curver.C17_moves",
    "Curver.C17_empty_slice",
    "Curver.C17_bounds",
    "Curver.C17_reversed",
    "Curver.C17_far_start"
   ],
   "note": ""
  },
  {
   "property": "C18",
   "status": "proved",
   "theorems": [
    "Curver.C18_order",
    "Curver.C18_trivial_iff",
    "Curver.C18_predicates",
    "Curver.C18_identity"
   ],
   "note": ""
  },
  {
   "property": "C19",
   "status": "proved",
   "theorems": [
    "Curver.C19_rebuild",
    "Curver.C19_equal_moves"
   ],
   "note": ""
  },
  {
   "property": "C20",
   "status": "proved",
   "theorems": [
    "Curver.C20_iteration_terminates",
    "Curver.C20_from_list",
    "Curver.C20_len",
    "Curver.C20_getitem",
    "Curver.C20_getitem_negative",
    "Curver.C20_getitem_out_of_range",
    "Curver.C20_add",
    "Curver.C20_sum",
    "Curver.C20_mul",
    "Curver.C20_mul_negative",
    "Curver.C20_reverse",
    "Curver.C20_map"
   ],
   "note": ""
  },
  {
   "property": "C21",
   "status": "proved",
   "theorems": [
    "Curver.UnionFind.C21_same_root_iff_connected",
    "Curver.UnionFind.C21_groups",
    "Curver.UnionFind.C21_unknown_item"
   ],
   "note": ""
  },
  {
   "property": "C22",
   "status": "proved",
   "theorems": [
    "Curver.C22_maximin",
    "Curver.C22_maximin_error",
    "Curver.C22_maximum_nobound",
    "Curver.C22_maximum_bound",
    "Curver.C22_maximum_reaches",
    "Curver.C22_maximum_error",
    "Curver.C22_maxes",
    "Curver.C22_maxes_error"
   ],
   "note": ""
  },
  {
   "property": "C23",
   "status": "proved",
   "theorems": [
    "Curver.C23_rotation",
    "Curver.C23_stop_absent",
    "Curver.C23_stop",
    "Curver.C23_error",
    "Curver.C23_complementary"
   ],
   "note": ""
  },
  {
   "property": "C24",
   "status": "proved",
   "theorems": [
    "Curver.Permutation.C24_constructor",
    "Curver.Permutation.C24_constructor_error",
    "Curver.Permutation.C24_mul",
    "Curver.Permutation.C24_mul_size",
    "Curver.Permutation.C24_eq",
    "Curver.Permutation.C24_inverse",
    "Curver.Permutation.C24_assoc",
    "Curver.Permutation.C24_pow",
    "Curver.Permutation.C24_pow_add",
    "Curver.Permutation.C24_from_dict"
   ],
   "note": ""
  },
  {
   "property": "C25",
   "status": "proved",
   "theorems": [
    "Curver.Permutation.C25_order",
    "Curver.Permutation.C25_is_even",
    "Curver.Permutation.C25_is_even_mul",
    "Curver.Permutation.C25_transposition",
    "Curver.Permutation.C25_matrix"
   ],
   "note": ""
  },
  {
   "property": "C26",
   "status": "proved",
   "theorems": [
    "Curver.Permutation.C26_cycle_lengths",
    "Curver.Permutation.C26_conjugate",
    "Curver.Permutation.C26_size"
   ],
   "note": ""
  },
  {
   "property": "C27",
   "status": "proved",
   "theorems": [
    "Curver.C27_transparent",
    "Curver.C27_exception_results_are_raised",
    "Curver.C27_name_clash"
   ],
   "note": ""
  },
  {
   "property": "C28",
   "status": "proved",
   "theorems": [
    "Curver.C28_call",
    "Curver.C28_product_domain",
    "Curver.C28_composition",
    "Curver.C28_zero_rows_are_dropped",
    "Curver.C28_times_none",
    "Curver.C28_pl_action",
    "Curver.C28_pl_action_at_itself",
    "Curver.C28_eigenvector",
    "Curver.C28_invariant_lamination",
    "Curver.C28_pl_action_rejects",
    "Curver.C28_empty_multiflip"
   ],
   "note": ""
  },
  {
   "property": "C29",
   "status": "proved",
   "theorems": [
    "Curver.C29_multiflip_is_its_flips",
    "Curver.C29_overlapping_is_rejected"
   ],
   "note": ""
  },
  {
   "property": "C30",
   "status": "proved",
   "theorems": [
    "Curver.C30_combine",
    "Curver.C30_identity_is_dropped"
   ],
   "note": ""
  },
  {
   "property": "C31",
   "status": "proved",
   "theorems": [
    "Curver.C31_group",
    "Curver.C31_letters",
    "Curver.C31_unknown_letter",
    "Curver.C31_expression",
    "Curver.C31_every_string",
    "Curver.C31_unbalanced",
    "Curver.C31_unknown_names",
    "Curver.C31_concatenation",
    "Curver.C31_power",
    "Curver.C31_one_reading",
    "Curver.C31_longest",
    "Curver.C31_unbalanced_is_accepted",
    "Curver.C31_exponent_alone",
    "Curver.C31_other_characters_are_ignored"
   ],
   "note": ""
  },
  {
   "property": "C32",
   "status": "proved",
   "theorems": [
    "Curver.C32_matrix",
    "Curver.C32_canonical",
    "Curver.C32_eq",
    "Curver.C32_equivalence",
    "Curver.C32_hash",
    "Curver.C32_arithmetic",
    "Curver.C32_compatible",
    "Curver.C32_is_canonical"
   ],
   "note": ""
  },
  {
   "property": "C33",
   "status": "proved",
   "theorems": [
    "Curver.C33_total",
    "Curver.C33_homologous",
    "Curver.C33_back",
    "Curver.C33_inverse",
    "Curver.C33_linear"
   ],
   "note": ""
  },
  {
   "property": "C34",
   "status": "proved",
   "theorems": [
    "Curver.C34_forest",
    "Curver.C34_greedy"
   ],
   "note": ""
  },
  {
   "property": "C35",
   "status": "proved",
   "theorems": [
    "Curver.C35_components",
    "Curver.C35_connected"
   ],
   "note": ""
  },
  {
   "property": "C36",
   "status": "proved",
   "theorems": [
    "Curver.C36_invariant",
    "Curver.C36_surface_exact"
   ],
   "note": ""
  },
  {
   "property": "C37",
   "status": "proved",
   "theorems": [
    "Curver.C37_subdivision",
    "Curver.C37_surface",
    "Curver.C37_lamination",
    "Curver.C37_inverse",
    "Curver.C37_arcs"
   ],
   "note": ""
  },
  {
   "property": "C38",
   "status": "proved",
   "theorems": [
    "Curver.C38_load",
    "Curver.C38_rejected",
    "Curver.C38_total",
    "Curver.C38_injective"
   ],
   "note": ""
  },
  {
   "property": "C39",
   "status": "proved",
   "theorems": [
    "Curver.C39_names",
    "Curver.C39_S_1_2p",
    "Curver.C39_braid",
    "Curver.C39_others",
    "Curver.C39_arguments"
   ],
   "note": ""
  },
  {
   "property": "C40",
   "status": "proved",
   "theorems": [
    "Curver.C40_add",
    "Curver.C40_add_other",
    "Curver.C40_add_comm",
    "Curver.C40_add_assoc",
    "Curver.C40_multiple",
    "Curver.C40_sum",
    "Curver.C40_sum_order",
    "Curver.C40_sum_rejects",
    "Curver.C40_empty_sum",
    "Curver.C40_disjoint_sum",
    "Curver.C40_sum_iterable",
    "Curver.C40_disjoint_sum_order",
    "Curver.C40_repeats_are_lost",
    "Curver.C40_multiple_loses_class"
   ],
   "note": ""
  },
  {
   "property": "C41",
   "status": "proved",
   "theorems": [
    "Curver.C41_recover",
    "Curver.C41_one_negative",
    "Curver.C41_normal_arcs",
    "Curver.C41_determined",
    "Curver.C41_left_right",
    "Curver.C41_halving"
   ],
   "note": ""
  },
  {
   "property": "C42",
   "status": "proved",
   "theorems": [
    "Curver.C42_components",
    "Curver.C42_multiplicity",
    "Curver.C42_peripheral",
    "Curver.C42_decomposition",
    "Curver.C42_non_peripheral_exists",
    "Curver.C42_is_non_peripheral",
    "Curver.C42_none_left",
    "Curver.C42_is_peripheral",
    "Curver.C42_agree"
   ],
   "note": ""
  },
  {
   "property": "C43",
   "status": "proved",
   "theorems": [
    "Curver.C43_vertex_map",
    "Curver.C43_characterised",
    "Curver.C43_compose",
    "Curver.C43_inverse",
    "Curver.C43_multiplicity",
    "Curver.C43_parts",
    "Curver.C43_permutation",
    "Curver.C43_permutation_unique",
    "Curver.C43_permutation_compose"
   ],
   "note": ""
  },
  {
   "property": "C44",
   "status": "proved",
   "theorems": [
    "Curver.C44_words",
    "Curver.C44_different",
    "Curver.C44_closed",
    "Curver.C44_every_product",
    "Curver.C44_terminates",
    "Curver.C44_one_character",
    "Curver.C44_group",
    "Curver.C44_names_collide",
    "Curver.C44_repeated_generators"
   ],
   "note": ""
  },
  {
   "property": "C45",
   "status": "proved",
   "theorems": [
    "Curver.C45_sound",
    "Curver.C45_cayley",
    "Curver.C45_single",
    "Curver.C45_length_zero"
   ],
   "note": ""
  },
  {
   "property": "C46",
   "status": "proved",
   "theorems": [
    "Curver.C46_encode",
    "Curver.C46_empty",
    "Curver.C46_incomplete_dict_raises"
   ],
   "note": ""
  },
  {
   "property": "C47",
   "status": "proved",
   "theorems": [
    "Curver.C47_eq",
    "Curver.C47_equivalence",
    "Curver.C47_hash",
    "Curver.C47_ends",
    "Curver.C47_same_map",
    "Curver.C47_mul_left",
    "Curver.C47_laminations",
    "Curver.C47_laminations_equivalence"
   ],
   "note": ""
  },
  {
   "property": "C48",
   "status": "proved",
   "theorems": [
    "Curver.C48_left",
    "Curver.C48_right",
    "Curver.C48_empty"
   ],
   "note": ""
  },
  {
   "property": "C49",
   "status": "proved",
   "theorems": [
    "Curver.C49_int",
    "Curver.C49_int_error",
    "Curver.C49_field"
   ],
   "note": ""
  },
  {
   "property": "C50",
   "status": "proved",
   "theorems": [
    "Curver.C50_random_word",
    "Curver.C50_neither",
    "Curver.C50_given_letters",
    "Curver.C50_every_word",
    "Curver.C50_random_mapping_class"
   ],
   "note": ""
  },
  {
   "property": "C51",
   "status": "proved",
   "theorems": [
    "Curver.C51_flip_counts_arcs",
    "Curver.C51_flip_is_geometric"
   ],
   "note": ""
  },
  {
   "property": "C52",
   "status": "proved",
   "theorems": [
    "Curver.C52_created",
    "Curver.C52_zero_power",
    "Curver.C52_number_of_flips"
   ],
   "note": "The hypothesis is that c.parallel() returns, i.e. that the code recognises c as short and non-peripheral."
  },
  {
   "property": "C53",
   "status": "proved",
   "theorems": [
    "Curver.C53_accelerated"
   ],
   "note": "Laminations with arcs are outside this property: the fast route for them is modelled but not proved."
  },
  {
   "property": "C54",
   "status": "proved",
   "theorems": [
    "Curver.C54_disjoint",
    "Curver.C54_fixes_curve",
    "Curver.C54_intersection",
    "Curver.C54_compose",
    "Curver.C54_inverse",
    "Curver.C54_away",
    "Curver.C54_slope"
   ],
   "note": ""
  },
  {
   "property": "C55",
   "status": "proved",
   "theorems": [
    "Curver.C55_homology"
   ],
   "note": ""
  },
  {
   "property": "C56",
   "status": "proved",
   "theorems": [
    "Curver.C56_parallel",
    "Curver.C56_distinct_endpoints",
    "Curver.C56_short",
    "Curver.C56_construction",
    "Curver.C56_power_zero",
    "Curver.C56_action",
    "Curver.C56_powers"
   ],
   "note": "Powers beyond 1 use arc.boundary().encode_twist, a parameter B; C56_powers assumes that B is the square."
  },
  {
   "property": "C57",
   "status": "proved",
   "theorems": [
    "Curver.C57_fixes_arc",
    "Curver.C57_fixes_disjoint",
    "Curver.C57_vertex_map"
   ],
   "note": ""
  },
  {
   "property": "C58",
   "status": "proved",
   "theorems": [
    "Curver.C58_image",
    "Curver.C58_short",
    "Curver.C58_refuses",
    "Curver.C58_recovered"
   ],
   "note": ""
  },
  {
   "property": "C59",
   "status": "proved",
   "theorems": [
    "Curver.C59_frozen"
   ],
   "note": ""
  },
  {
   "property": "C60",
   "status": "proved",
   "theorems": [
    "Curver.C60_mapping_class",
    "Curver.C60_powers",
    "Curver.C60_inverse",
    "Curver.C60_fixes_curve",
    "Curver.C60_fixes_disjoint"
   ],
   "note": ""
  },
  {
   "property": "C61",
   "status": "proved",
   "theorems": [
    "Curver.C61_trace"
   ],
   "note": ""
  },
  {
   "property": "C62",
   "status": "proved",
   "theorems": [
    "Curver.C62_multiple",
    "Curver.C62_scaling",
    "Curver.C62_empty"
   ],
   "note": ""
  },
  {
   "property": "C63",
   "status": "proved",
   "theorems": [
    "Curver.C63_edge",
    "Curver.C63_not_symmetric"
   ],
   "note": ""
  },
  {
   "property": "C64",
   "status": "proved",
   "theorems": [
    "Curver.C64_union",
    "Curver.C64_weights",
    "Curver.C64_sum"
   ],
   "note": ""
  },
  {
   "property": "C65",
   "status": "proved",
   "theorems": [
    "Curver.C65_unique",
    "Curver.C65_mapping",
    "Curver.C65_connected"
   ],
   "note": ""
  },
  {
   "property": "C66",
   "status": "proved",
   "theorems": [
    "Curver.C66_components",
    "Curver.C66_complete",
    "Curver.C66_sum"
   ],
   "note": ""
  },
  {
   "property": "C67",
   "status": "proved",
   "theorems": [
    "Curver.C67_mapping",
    "Curver.C67_unique",
    "Curver.C67_number"
   ],
   "note": ""
  },
  {
   "property": "C68",
   "status": "proved",
   "theorems": [
    "Curver.C68_unique",
    "Curver.C68_shorten",
    "Curver.C68_promote",
    "Curver.C68_lamination",
    "Curver.C68_add",
    "Curver.C68_disjoint_sum",
    "Curver.C68_mapping"
   ],
   "note": ""
  },
  {
   "property": "C69",
   "status": "proved",
   "theorems": [
    "Curver.C69_number",
    "Curver.C69_mapping",
    "Curver.C69_union"
   ],
   "note": ""
  },
  {
   "property": "C70",
   "status": "proved",
   "theorems": [
    "Curver.C70_no_common",
    "Curver.C70_symmetric",
    "Curver.C70_mapping"
   ],
   "note": ""
  },
  {
   "property": "C71",
   "status": "proved",
   "theorems": [
    "Curver.C71_separate"
   ],
   "note": ""
  },
  {
   "property": "C72",
   "status": "proved",
   "theorems": [
    "Curver.C72_skeleton",
    "Curver.C72_idempotent",
    "Curver.C72_mapping",
    "Curver.C72_peek",
    "Curver.C72_sublaminations",
    "Curver.C72_sublaminations_repeat"
   ],
   "note": ""
  },
  {
   "property": "C73",
   "status": "proved",
   "theorems": [
    "Curver.C73_returns",
    "Curver.C73_iff",
    "Curver.C73_light_arcs",
    "Curver.C73_bounds",
    "Curver.C73_no_promotion"
   ],
   "note": ""
  },
  {
   "property": "C74",
   "status": "proved",
   "theorems": [
    "Curver.C74_components",
    "Curver.C74_no_common"
   ],
   "note": ""
  },
  {
   "property": "C75",
   "status": "proved",
   "theorems": [
    "Curver.C75_lamination",
    "Curver.C75_add"
   ],
   "note": ""
  },
  {
   "property": "C76",
   "status": "proved",
   "theorems": [
    "Curver.C76_intersection",
    "Curver.C76_twist",
    "Curver.C76_twists"
   ],
   "note": ""
  },
  {
   "property": "C77",
   "status": "proved",
   "theorems": [
    "Curver.C77_exact",
    "Curver.C77_legal"
   ],
   "note": ""
  },
  {
   "property": "C78",
   "status": "proved",
   "theorems": [
    "Curver.C78_is_triangulation",
    "Curver.C78_edges",
    "Curver.C78_mapping",
    "Curver.C78_returns"
   ],
   "note": ""
  },
  {
   "property": "C79",
   "status": "proved",
   "theorems": [
    "Curver.C79_is_polygonalisation",
    "Curver.C79_mapping",
    "Curver.C79_returns",
    "Curver.C79_triangulation"
   ],
   "note": ""
  },
  {
   "property": "C80",
   "status": "proved",
   "theorems": [
    "Curver.C80_disjoint",
    "Curver.C80_outline",
    "Curver.C80_returns",
    "Curver.C80_lamination",
    "Curver.C80_multicurve",
    "Curver.C80_lamination_returns",
    "Curver.C80_copies_lost"
   ],
   "note": ""
  },
  {
   "property": "C81",
   "status": "proved",
   "theorems": [
    "Curver.C81_is_filling",
    "Curver.C81_mapping",
    "Curver.C81_returns",
    "Curver.C81_disconnected"
   ],
   "note": ""
  },
  {
   "property": "C82",
   "status": "proved",
   "theorems": [
    "Curver.C82_vertices",
    "Curver.C82_edge",
    "Curver.C82_closed",
    "Curver.C82_arc",
    "Curver.C82_union",
    "Curver.C82_mapping",
    "Curver.C82_distinct",
    "Curver.C82_distinct_mapping",
    "Curver.C82_distinct_returns"
   ],
   "note": ""
  },
  {
   "property": "C83",
   "status": "proved",
   "theorems": [
    "Curver.C83_fixes_disjoint",
    "Curver.C83_fixes_self",
    "Curver.C83_fixes_components",
    "Curver.C83_vertex_map",
    "Curver.C83_returns"
   ],
   "note": ""
  },
  {
   "property": "C84",
   "status": "proved",
   "theorems": [
    "Curver.C84_rejects",
    "Curver.C84_requires",
    "Curver.C84_mapping_class",
    "Curver.C84_fixes_components",
    "Curver.C84_fixes_self",
    "Curver.C84_fixes_disjoint",
    "Curver.C84_ends",
    "Curver.C84_vertices",
    "Curver.C84_returns"
   ],
   "note": ""
  },
  {
   "property": "C85",
   "status": "proved",
   "theorems": [
    "Curver.C85_closed",
    "Curver.C85_any",
    "Curver.C85_symmetric",
    "Curver.C85_self",
    "Curver.C85_mapping"
   ],
   "note": ""
  },
  {
   "property": "C86",
   "status": "proved",
   "theorems": [
    "Curver.C86_together",
    "Curver.C86_union",
    "Curver.C86_disjoint_sum"
   ],
   "note": ""
  },
  {
   "property": "C87",
   "status": "proved",
   "theorems": [
    "Curver.C87_union",
    "Curver.C87_parts"
   ],
   "note": ""
  },
  {
   "property": "C88",
   "status": "proved",
   "theorems": [
    "Curver.C88_surface",
    "Curver.C88_peripheral",
    "Curver.C88_built"
   ],
   "note": ""
  },
  {
   "property": "C89",
   "status": "proved",
   "theorems": [
    "Curver.C89_lift",
    "Curver.C89_lift_crush"
   ],
   "note": ""
  },
  {
   "property": "C90",
   "status": "proved",
   "theorems": [
    "Curver.C90_crush",
    "Curver.C90_crush_lift",
    "Curver.C90_arcs_do_not_lift"
   ],
   "note": ""
  },
  {
   "property": "C91",
   "status": "proved",
   "theorems": [
    "Curver.C91_separating",
    "Curver.C91_sides",
    "Curver.C91_answers",
    "Curver.C91_invariant",
    "Curver.C91_peripheral"
   ],
   "note": ""
  },
  {
   "property": "C92",
   "status": "proved",
   "theorems": [
    "Curver.C92_union",
    "Curver.C92_lift_union",
    "Curver.C92_disjoint",
    "Curver.C92_lift_disjoint",
    "Curver.C92_curve",
    "Curver.C92_lift_curve"
   ],
   "note": ""
  },
  {
   "property": "C93",
   "status": "proved",
   "theorems": [
    "Curver.C93_surface",
    "Curver.C93_crush",
    "Curver.C93_union",
    "Curver.C93_disjoint",
    "Curver.C93_lift",
    "Curver.C93_lift_union",
    "Curver.C93_lift_crush",
    "Curver.C93_crush_lift",
    "Curver.C93_curve",
    "Curver.C93_component",
    "Curver.C93_lift_curve"
   ],
   "note": ""
  },
  {
   "property": "C94",
   "status": "proved",
   "theorems": [
    "Curver.C94_flips",
    "Curver.C94_mapping",
    "Curver.C94_all_encodings",
    "Curver.C94_ball",
    "Curver.C94_triangulations",
    "Curver.C94_returns"
   ],
   "note": ""
  },
  {
   "property": "C95",
   "status": "proved",
   "theorems": [
    "Curver.C95_sound",
    "Curver.C95_complete",
    "Curver.C95_returns",
    "Curver.C95_misses"
   ],
   "note": ""
  },
  {
   "property": "C96",
   "status": "proved",
   "theorems": [
    "Curver.C96_sound",
    "Curver.C96_replaces",
    "Curver.C96_unique",
    "Curver.C96_returns"
   ],
   "note": ""
  },
  {
   "property": "C97",
   "status": "proved",
   "theorems": [
    "Curver.C97_crush",
    "Curver.C97_boundary_union",
    "Curver.C97_surrounds",
    "Curver.C97_closed",
    "Curver.C97_missed",
    "Curver.C97_fills_with",
    "Curver.C97_peripheral"
   ],
   "note": ""
  },
  {
   "property": "C98",
   "status": "proved",
   "theorems": [
    "Curver.C98_ends",
    "Curver.C98_boundary_class",
    "Curver.C98_boundary_union_class",
    "Curver.C98_zero",
    "Curver.C98_one",
    "Curver.C98_two",
    "Curver.C98_two_apart",
    "Curver.C98_never"
   ],
   "note": ""
  },
  {
   "property": "C99",
   "status": "proved",
   "theorems": [
    "Curver.C99_quasiconvex",
    "Curver.C99_multicurves",
    "Curver.C99_all",
    "Curver.C99_tight_geodesic",
    "Curver.C99_geodesic",
    "Curver.C99_distance",
    "Curver.C99_filling"
   ],
   "note": ""
  },
  {
   "property": "C100",
   "status": "proved",
   "theorems": [
    "Curver.C100_peripheral",
    "Curver.C100_disjoint",
    "Curver.C100_value",
    "Curver.C100_zero",
    "Curver.C100_self",
    "Curver.C100_returns"
   ],
   "note": ""
  },
  {
   "property": "C101",
   "status": "proved",
   "theorems": [
    "Curver.C101_flip_mapping",
    "Curver.C101_iff",
    "Curver.C101_equal"
   ],
   "note": ""
  }
 ]
}