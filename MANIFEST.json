{
 "claims": [
  {
   "property": "C01",
   "status": "proved",
   "theorems": [
    "Komm.C01_int_to_bits_shape",
    "Komm.C01_bits_of_int_roundtrip_mod",
    "Komm.C01_bits_of_int_roundtrip",
    "Komm.C01_int_of_bits_roundtrip",
    "Komm.C01_orders"
   ],
   "note": ""
  },
  {
   "property": "C02",
   "status": "proved",
   "theorems": [
    "Komm.C02_representation",
    "Komm.C02_arithmetic",
    "Komm.C02_power"
   ],
   "note": ""
  },
  {
   "property": "C03",
   "status": "proved",
   "theorems": [
    "Komm.C03_divmod"
   ],
   "note": ""
  },
  {
   "property": "C04",
   "status": "proved",
   "theorems": [
    "Komm.C04_gcd",
    "Komm.C04_xgcd"
   ],
   "note": ""
  },
  {
   "property": "C05",
   "status": "partial",
   "theorems": [
    "Komm.C05_lcm_partial",
    "Komm.C05_domain_lcm",
    "Komm.C05_lcm_common_multiple_partial",
    "Komm.C05_lcm_nary_false",
    "Komm.C05_lcm_single_false"
   ],
   "note": "lcm is correct for two arguments and always a common multiple; for three or more arguments (and for one) the library returns product // gcd, which is not the least common multiple: negation witness proved (Finding F1)."
  },
  {
   "property": "C06",
   "status": "proved",
   "theorems": [
    "Komm.C06_is_irreducible"
   ],
   "note": ""
  },
  {
   "property": "C07",
   "status": "proved",
   "theorems": [
    "Komm.C07_is_primitive",
    "Komm.C07_primitive_generates"
   ],
   "note": ""
  },
  {
   "property": "C08",
   "status": "proved",
   "theorems": [
    "Komm.C08_default_primitive"
   ],
   "note": ""
  },
  {
   "property": "C09",
   "status": "proved",
   "theorems": [
    "Komm.C09_constructor",
    "Komm.C09_default_constructor",
    "Komm.C09_arithmetic",
    "Komm.C09_field_laws",
    "Komm.C09_inverse",
    "Komm.C09_division",
    "Komm.C09_power",
    "Komm.C09_fermat"
   ],
   "note": ""
  },
  {
   "property": "C10",
   "status": "proved",
   "theorems": [
    "Komm.C10_logarithm"
   ],
   "note": ""
  },
  {
   "property": "C11",
   "status": "proved",
   "theorems": [
    "Komm.C11_conjugates",
    "Komm.C11_minimal_polynomial",
    "Komm.C11_minimal_polynomial_irreducible"
   ],
   "note": ""
  },
  {
   "property": "C12",
   "status": "proved",
   "theorems": [
    "Komm.C12_find_roots",
    "Komm.C12_horner_is_evaluation"
   ],
   "note": ""
  },
  {
   "property": "C13",
   "status": "proved",
   "theorems": [
    "Komm.C13_constructor",
    "Komm.C13_equality",
    "Komm.C13_ring_operations",
    "Komm.C13_division",
    "Komm.C13_power"
   ],
   "note": ""
  },
  {
   "property": "C14",
   "status": "proved",
   "theorems": [
    "Komm.C14_coefficients",
    "Komm.C14_from_coefficients",
    "Komm.C14_exponents",
    "Komm.C14_from_exponents",
    "Komm.C14_from_exponents_overflow",
    "Komm.C14_coefficients_width",
    "Komm.C14_reciprocal",
    "Komm.C14_evaluate",
    "Komm.C14_evaluate_char_two"
   ],
   "note": ""
  },
  {
   "property": "C15",
   "status": "proved",
   "theorems": [
    "Komm.C15_power",
    "Komm.C15_horner",
    "Komm.C15_determinant"
   ],
   "note": ""
  },
  {
   "property": "C16",
   "status": "proved",
   "theorems": [
    "Komm.C16_prime_factors",
    "Komm.C16_prime_factors_unique"
   ],
   "note": ""
  },
  {
   "property": "C17",
   "status": "proved",
   "theorems": [
    "Komm.C17_rref",
    "Komm.C17_rref_canonical",
    "Komm.C17_xrref",
    "Komm.C17_rank"
   ],
   "note": ""
  },
  {
   "property": "C18",
   "status": "proved",
   "theorems": [
    "Komm.C18_pseudo_inverse",
    "Komm.C18_pseudo_inverse_of_independent",
    "Komm.C18_generalised_inverse"
   ],
   "note": ""
  },
  {
   "property": "C19",
   "status": "proved",
   "theorems": [
    "Komm.C19_null_matrix"
   ],
   "note": ""
  },
  {
   "property": "C20",
   "status": "proved",
   "theorems": [
    "Komm.C20_is_uniquely_parsable",
    "Komm.C20_empty_words_ignored",
    "Komm.C20_prefix_free_parsable"
   ],
   "note": ""
  },
  {
   "property": "C21",
   "status": "proved",
   "theorems": [
    "Komm.C21_is_prefix_free",
    "Komm.C21_is_prefix_of"
   ],
   "note": ""
  },
  {
   "property": "C22",
   "status": "proved",
   "theorems": [
    "Komm.C22_is_fully_covering"
   ],
   "note": ""
  },
  {
   "property": "C23",
   "status": "proved",
   "theorems": [
    "Komm.C23_kraft",
    "Komm.C23_canonical",
    "Komm.C23_from_lengths"
   ],
   "note": ""
  },
  {
   "property": "C24",
   "status": "proved",
   "theorems": [
    "Komm.C24_encode_iff_decode",
    "Komm.C24_encode_defined",
    "Komm.C24_round_trip",
    "Komm.C24_empty_codeword_witness"
   ],
   "note": ""
  },
  {
   "property": "C25",
   "status": "proved",
   "theorems": [
    "Komm.C25_round_trip"
   ],
   "note": ""
  },
  {
   "property": "C26",
   "status": "proved",
   "theorems": [
    "Komm.C26_huffman_complete_prefix",
    "Komm.C26_flags",
    "Komm.C26_assignment_lengths"
   ],
   "note": ""
  },
  {
   "property": "C27",
   "status": "proved",
   "theorems": [
    "Komm.C27_huffman_optimal"
   ],
   "note": ""
  },
  {
   "property": "C28",
   "status": "proved",
   "theorems": [
    "Komm.C28_fano_complete_prefix"
   ],
   "note": ""
  },
  {
   "property": "C29",
   "status": "proved",
   "theorems": [
    "Komm.C29_shannon"
   ],
   "note": ""
  },
  {
   "property": "C30",
   "status": "partial",
   "theorems": [
    "Komm.C30_tunstall_tree",
    "Komm.C30_tunstall_size_partial",
    "Komm.C30_exact_fit_is_missed"
   ],
   "note": "Tree, prefix-freeness, covering, at most 2^n words: proved for every order of expansion. 'No room for another expansion' is false of the code when the last expansion would fit exactly (TunstallCode.py:107 subtracts one); witness C30_exact_fit_is_missed."
  },
  {
   "property": "C31",
   "status": "proved",
   "theorems": [
    "Komm.C31_lz77_layers",
    "Komm.C31_lz77_roundtrip",
    "Komm.C31_lz77_rejects"
   ],
   "note": ""
  },
  {
   "property": "C32",
   "status": "proved",
   "theorems": [
    "Komm.C32_lzss_layers",
    "Komm.C32_lzss_roundtrip",
    "Komm.C32_lzss_rejects"
   ],
   "note": ""
  },
  {
   "property": "C33",
   "status": "proved",
   "theorems": [
    "Komm.C33_lz78_layers",
    "Komm.C33_lz78_roundtrip",
    "Komm.C33_lz78_rejects"
   ],
   "note": ""
  },
  {
   "property": "C34",
   "status": "proved",
   "theorems": [
    "Komm.C34_lzw_roundtrip",
    "Komm.C34_lzw_rejects",
    "Komm.C34_width_needed"
   ],
   "note": ""
  },
  {
   "property": "C35",
   "status": "proved",
   "theorems": [
    "Komm.C35_unary_roundtrip",
    "Komm.C35_unary_encode_rejects",
    "Komm.C35_unary_encode_decode",
    "Komm.C35_unary_decode_rejects_iff"
   ],
   "note": ""
  },
  {
   "property": "C36",
   "status": "proved",
   "theorems": [
    "Komm.C36_fibonacci_roundtrip",
    "Komm.C36_fibonacci_codeword",
    "Komm.C36_fibonacci_encode_rejects",
    "Komm.C36_fibonacci_decode_iff"
   ],
   "note": ""
  },
  {
   "property": "C37",
   "status": "proved",
   "theorems": [
    "Komm.C37_natural_matrix",
    "Komm.C37_natural_rejects_zero",
    "Komm.C37_natural_bits_of_indices",
    "Komm.C37_natural_indices_of_bits",
    "Komm.C37_natural_rejects",
    "Komm.C37_empty_is_rejected"
   ],
   "note": ""
  },
  {
   "property": "C38",
   "status": "proved",
   "theorems": [
    "Komm.C38_reflected_matrix",
    "Komm.C38_gray_adjacent",
    "Komm.C38_gray_cyclic",
    "Komm.C38_reflected_bits_of_indices",
    "Komm.C38_reflected_indices_of_bits",
    "Komm.C38_reflected_rejects"
   ],
   "note": ""
  },
  {
   "property": "C39",
   "status": "proved",
   "theorems": [
    "Komm.C39_product",
    "Komm.C39_product_order",
    "Komm.C39_product_rejects",
    "Komm.C39_rectangular",
    "Komm.C39_rectangular_square"
   ],
   "note": ""
  },
  {
   "property": "C40",
   "status": "proved",
   "theorems": [
    "Komm.C40_constructor",
    "Komm.C40_constructor_value",
    "Komm.C40_bits_of_indices",
    "Komm.C40_indices_of_bits",
    "Komm.C40_rejects"
   ],
   "note": ""
  },
  {
   "property": "C41",
   "status": "proved",
   "theorems": [
    "Komm.C41_generator",
    "Komm.C41_check",
    "Komm.C41_rank_deficient",
    "Komm.C41_encode_linear",
    "Komm.C41_inverse_encode",
    "Komm.C41_codewords",
    "Komm.C41_stream",
    "Komm.C41_stream_rejects",
    "Komm.C41_arguments"
   ],
   "note": ""
  },
  {
   "property": "C42",
   "status": "proved",
   "theorems": [
    "Komm.C42_information_set",
    "Komm.C42_systematic",
    "Komm.C42_left",
    "Komm.C42_right"
   ],
   "note": ""
  },
  {
   "property": "C43",
   "status": "proved",
   "theorems": [
    "Komm.C43_constructor",
    "Komm.C43_product",
    "Komm.C43_dimension",
    "Komm.C43_systematic_lawful",
    "Komm.C43_codewords",
    "Komm.C43_cyclic",
    "Komm.C43_systematic_positions",
    "Komm.C43_nonsystematic",
    "Komm.C43_inverse_encode"
   ],
   "note": ""
  },
  {
   "property": "C44",
   "status": "proved",
   "theorems": [
    "Komm.C44_coset_leaders",
    "Komm.C44_weight_distribution",
    "Komm.C44_redundancy_zero_hangs"
   ],
   "note": ""
  },
  {
   "property": "C45",
   "status": "proved",
   "theorems": [
    "Komm.C45_minimum_distance",
    "Komm.C45_corrects"
   ],
   "note": ""
  },
  {
   "property": "C46",
   "status": "partial",
   "theorems": [
    "Komm.C46_systematic",
    "Komm.C46_error_free_partial",
    "Komm.C46_single_error_not_corrected"
   ],
   "note": "False of the code: CyclicCode(systematic=False) looks the table up with the remainder modulo g but the table is indexed by v H^T (CyclicCode.py:211-217 vs 373-380); witness C46_single_error_not_corrected. Proved: error-free words decode; the systematic variant corrects all patterns up to half the distance."
  },
  {
   "property": "C47",
   "status": "proved",
   "theorems": [
    "Komm.C47_hard",
    "Komm.C47_hard_corrects",
    "Komm.C47_soft"
   ],
   "note": ""
  },
  {
   "property": "C48",
   "status": "proved",
   "theorems": [
    "Komm.C48_minimum_distance",
    "Komm.C48_packing_radius",
    "Komm.C48_covering_radius"
   ],
   "note": ""
  },
  {
   "property": "C49",
   "status": "proved",
   "theorems": [
    "Komm.C49_repetition",
    "Komm.C49_repetition_rejects",
    "Komm.C49_repetition_leaders",
    "Komm.C49_single_parity_check",
    "Komm.C49_cordaro_wagner",
    "Komm.C49_cordaro_wagner_rejects"
   ],
   "note": ""
  },
  {
   "property": "C50",
   "status": "proved",
   "theorems": [
    "Komm.C50_hamming_columns",
    "Komm.C50_hamming_distance",
    "Komm.C50_hamming_perfect",
    "Komm.C50_hamming_extended",
    "Komm.C50_hamming_rejects",
    "Komm.C50_simplex",
    "Komm.C50_dual",
    "Komm.C50_simplex_extended"
   ],
   "note": ""
  },
  {
   "property": "C51",
   "status": "proved",
   "theorems": [
    "Komm.C51_distance",
    "Komm.C51_perfect",
    "Komm.C51_extended_distance",
    "Komm.C51_self_dual",
    "Komm.C51_corrects_three"
   ],
   "note": ""
  },
  {
   "property": "C52",
   "status": "proved",
   "theorems": [
    "Komm.C52_parameters",
    "Komm.C52_rejects",
    "Komm.C52_rows",
    "Komm.C52_dual"
   ],
   "note": ""
  },
  {
   "property": "C53",
   "status": "proved",
   "theorems": [
    "Komm.C53_corrects",
    "Komm.C53_soft_equal_reliability",
    "Komm.C53_soft_noiseless",
    "Komm.C53_soft_corrects"
   ],
   "note": ""
  },
  {
   "property": "C54",
   "status": "proved",
   "theorems": [
    "Komm.C54_greedy",
    "Komm.C54_distance",
    "Komm.C54_rejects"
   ],
   "note": ""
  },
  {
   "property": "C55",
   "status": "proved",
   "theorems": [
    "Komm.C55_accepts",
    "Komm.C55_lawful",
    "Komm.C55_kernel",
    "Komm.C55_transform",
    "Komm.C55_recover"
   ],
   "note": ""
  },
  {
   "property": "C56",
   "status": "proved",
   "theorems": [
    "Komm.C56_word",
    "Komm.C56_wagner"
   ],
   "note": ""
  },
  {
   "property": "C57",
   "status": "proved",
   "theorems": [
    "Komm.C57_constructor",
    "Komm.C57_codewords",
    "Komm.C57_minimum_distance",
    "Komm.C57_berlekamp_corrects",
    "Komm.C57_berlekamp_total"
   ],
   "note": ""
  },
  {
   "property": "C58",
   "status": "proved",
   "theorems": [
    "Komm.C58_slepian"
   ],
   "note": ""
  },
  {
   "property": "C59",
   "status": "proved",
   "theorems": [
    "Komm.C59_mealy",
    "Komm.C59_moore"
   ],
   "note": ""
  },
  {
   "property": "C60",
   "status": "proved",
   "theorems": [
    "Komm.C60_accepts",
    "Komm.C60_chunks",
    "Komm.C60_linear",
    "Komm.C60_encode_linear",
    "Komm.C60_finite_state_machine"
   ],
   "note": ""
  },
  {
   "property": "C61",
   "status": "proved",
   "theorems": [
    "Komm.C61_convolutional_code",
    "Komm.C61_low_rate",
    "Komm.C61_high_rate",
    "Komm.C61_feedback_without_constant_term"
   ],
   "note": ""
  },
  {
   "property": "C62",
   "status": "proved",
   "theorems": [
    "Komm.C62_zero_termination",
    "Komm.C62_zero_termination_low_rate",
    "Komm.C62_zero_termination_high_rate",
    "Komm.C62_memoryless_raises",
    "Komm.C62_tail_biting",
    "Komm.C62_tail_biting_invertible",
    "Komm.C62_tail_biting_singular_wrong",
    "Komm.C62_generator",
    "Komm.C62_linear",
    "Komm.C62_block_code"
   ],
   "note": ""
  },
  {
   "property": "C63",
   "status": "proved",
   "theorems": [
    "Komm.C63_viterbi",
    "Komm.C63_reachable"
   ],
   "note": ""
  },
  {
   "property": "C64",
   "status": "partial",
   "theorems": [
    "Komm.C64_viterbi_partial",
    "Komm.C64_parallel_not_ml"
   ],
   "note": "False of the code: input_edges keeps the last parallel input (MealyMachine.py:123-127), so the labels returned may not attain the minimum; witness C64_parallel_not_ml. Proved: final metrics are the minima and the state path is right."
  },
  {
   "property": "C65",
   "status": "proved",
   "theorems": [
    "Komm.C65_posterior",
    "Komm.C65_normalized",
    "Komm.C65_parallel_wrong"
   ],
   "note": ""
  },
  {
   "property": "C66",
   "status": "proved",
   "theorems": [
    "Komm.C66_free_distance",
    "Komm.C66_result",
    "Komm.C66_distance",
    "Komm.C66_nonzero_inputs"
   ],
   "note": ""
  },
  {
   "property": "C67",
   "status": "proved",
   "theorems": [
    "Komm.C67_recurrence",
    "Komm.C67_period",
    "Komm.C67_ones",
    "Komm.C67_windows",
    "Komm.C67_autocorrelation",
    "Komm.C67_maximum_length"
   ],
   "note": ""
  },
  {
   "property": "C68",
   "status": "proved",
   "theorems": [
    "Komm.C68_accepts",
    "Komm.C68_polar",
    "Komm.C68_orthogonal",
    "Komm.C68_sequency",
    "Komm.C68_natural"
   ],
   "note": ""
  },
  {
   "property": "C69",
   "status": "proved",
   "theorems": [
    "Komm.C69_polar",
    "Komm.C69_lengths",
    "Komm.C69_barker"
   ],
   "note": ""
  },
  {
   "property": "C70",
   "status": "proved",
   "theorems": [
    "Komm.C70_definition",
    "Komm.C70_cyclic_definition",
    "Komm.C70_conjugate_symmetry",
    "Komm.C70_even",
    "Komm.C70_vanishes",
    "Komm.C70_energy",
    "Komm.C70_normalized",
    "Komm.C70_cyclic_periodic",
    "Komm.C70_cyclic_conjugate_symmetry",
    "Komm.C70_cyclic_wraps"
   ],
   "note": ""
  },
  {
   "property": "C71",
   "status": "proved",
   "theorems": [
    "Komm.C71_accepts",
    "Komm.C71_cell",
    "Komm.C71_output_is_a_level",
    "Komm.C71_monotone",
    "Komm.C71_idempotent",
    "Komm.C71_uniform_valid",
    "Komm.C71_uniform_nearest",
    "Komm.C71_uniform_error",
    "Komm.C71_mid_riser",
    "Komm.C71_mid_tread"
   ],
   "note": ""
  },
  {
   "property": "C72",
   "status": "proved",
   "theorems": [
    "Komm.C72_accepts",
    "Komm.C72_accessible",
    "Komm.C72_classes",
    "Komm.C72_irreducible",
    "Komm.C72_recurrent",
    "Komm.C72_recurrent_closed",
    "Komm.C72_recurrent_exists",
    "Komm.C72_period",
    "Komm.C72_period_class",
    "Komm.C72_absorbing"
   ],
   "note": ""
  },
  {
   "property": "C73",
   "status": "proved",
   "theorems": [
    "Komm.C73_least",
    "Komm.C73_raises",
    "Komm.C73_regular",
    "Komm.C73_regular_iff_index"
   ],
   "note": ""
  },
  {
   "property": "C74",
   "status": "proved",
   "theorems": [
    "Komm.C74_rejects",
    "Komm.C74_compress",
    "Komm.C74_expand",
    "Komm.C74_round_trip",
    "Komm.C74_other_offset"
   ],
   "note": ""
  },
  {
   "property": "C75",
   "status": "proved",
   "theorems": [
    "Komm.C75_generic",
    "Komm.C75_pam",
    "Komm.C75_pam_noiseless",
    "Komm.C75_ask",
    "Komm.C75_ask_noiseless",
    "Komm.C75_qam",
    "Komm.C75_qam_noiseless",
    "Komm.C75_orthogonal",
    "Komm.C75_simplex",
    "Komm.C75_biorthogonal",
    "Komm.C75_negative_amplitude",
    "Komm.C75_generic_noiseless",
    "Komm.C75_small_noise",
    "Komm.C75_orthogonal_noiseless",
    "Komm.C75_simplex_noiseless",
    "Komm.C75_biorthogonal_noiseless",
    "Komm.C75_psk",
    "Komm.C75_psk_noiseless"
   ],
   "note": ""
  },
  {
   "property": "C76",
   "status": "proved",
   "theorems": [
    "Komm.C76_cross_orders",
    "Komm.C76_cross_size",
    "Komm.C76_cross",
    "Komm.C76_pam",
    "Komm.C76_ask",
    "Komm.C76_qam",
    "Komm.C76_qam_degenerate",
    "Komm.C76_psk",
    "Komm.C76_psk_one",
    "Komm.C76_apsk",
    "Komm.C76_apsk_energy",
    "Komm.C76_orthogonal",
    "Komm.C76_simplex",
    "Komm.C76_biorthogonal"
   ],
   "note": ""
  },
  {
   "property": "C77",
   "status": "proved",
   "theorems": [
    "Komm.C77_row_stochastic",
    "Komm.C77_bsc",
    "Komm.C77_bec",
    "Komm.C77_z",
    "Komm.C77_dmc",
    "Komm.C77_dmc_rejects",
    "Komm.C77_error_free",
    "Komm.C77_law",
    "Komm.C77_memoryless"
   ],
   "note": ""
  },
  {
   "property": "C78",
   "status": "proved",
   "theorems": [
    "Komm.C78_entropy_formula",
    "Komm.C78_entropy_rejects",
    "Komm.C78_entropy_bounds",
    "Komm.C78_base_below_one",
    "Komm.C78_relative_entropy",
    "Komm.C78_mutual_information",
    "Komm.C78_mutual_information_formula",
    "Komm.C78_closed_forms"
   ],
   "note": ""
  },
  {
   "property": "C79",
   "status": "partial",
   "theorems": [
    "Komm.C79_rate_lexicographic_partial",
    "Komm.C79_order_matters"
   ],
   "note": "True when the table is in lexicographic order; false in general (FixedToVariableCode.py:434-438 pairs insertion-order lengths with lexicographic probabilities); witness C79_order_matters."
  },
  {
   "property": "C80",
   "status": "partial",
   "theorems": [
    "Komm.C80_chunks_partial",
    "Komm.C80_output_partial",
    "Komm.C80_noiseless_wrong"
   ],
   "note": "Chunk independence, carried metrics = minima, and the exact output are proved. The documented survivor is not used: the best state after the observation selects a path stored before it (MealyMachine.py:270-272); witness C80_noiseless_wrong."
  },
  {
   "property": "C81",
   "status": "proved",
   "theorems": [
    "Komm.C81_ordered",
    "Komm.C81_quantize_total_monotone",
    "Komm.C81_optimality_conditions"
   ],
   "note": ""
  },
  {
   "property": "C82",
   "status": "proved",
   "theorems": [
    "Komm.C82_mean_number_of_visits",
    "Komm.C82_mean_time",
    "Komm.C82_absorption_probabilities",
    "Komm.C82_absorbed_almost_surely"
   ],
   "note": ""
  },
  {
   "property": "C83",
   "status": "proved",
   "theorems": [
    "Komm.C83_exists_unique",
    "Komm.C83_stationary_distribution",
    "Komm.C83_defined"
   ],
   "note": ""
  },
  {
   "property": "C84",
   "status": "proved",
   "theorems": [
    "Komm.C84_choice_positive",
    "Komm.C84_choice_measure",
    "Komm.C84_emit",
    "Komm.C84_simulate",
    "Komm.C84_simulate_measure",
    "Komm.C84_until_absorption"
   ],
   "note": ""
  },
  {
   "property": "C85",
   "status": "proved",
   "theorems": [
    "Komm.C85_bounds",
    "Komm.C85_passes",
    "Komm.C85_fixed_point"
   ],
   "note": ""
  },
  {
   "property": "C86",
   "status": "proved",
   "theorems": [
    "Komm.C86_inverse_exists_unique",
    "Komm.C86_binary_entropy_inv"
   ],
   "note": ""
  },
  {
   "property": "C87",
   "status": "proved",
   "theorems": [
    "Komm.C87_bsc",
    "Komm.C87_bec",
    "Komm.C87_z"
   ],
   "note": ""
  },
  {
   "property": "C88",
   "status": "proved",
   "theorems": [
    "Komm.C88_pmf",
    "Komm.C88_bayes_real",
    "Komm.C88_bayes_complex",
    "Komm.C88_uniform_map"
   ],
   "note": ""
  },
  {
   "property": "C89",
   "status": "proved",
   "theorems": [
    "Komm.C89_no_parallel",
    "Komm.C89_no_parallel_low_rate",
    "Komm.C89_zero_nearest",
    "Komm.C89_zero_nearest_low_rate",
    "Komm.C89_zero_ml",
    "Komm.C89_corrects",
    "Komm.C89_corrects_rate_one",
    "Komm.C89_corrects_low_rate",
    "Komm.C89_direct_corrects",
    "Komm.C89_blockwise",
    "Komm.C89_tail_biting_refused",
    "Komm.C89_unequal_not_nearest",
    "Komm.C89_direct_hard",
    "Komm.C89_zero_hard",
    "Komm.C89_direct_soft",
    "Komm.C89_zero_soft",
    "Komm.C89_direct_ml"
   ],
   "note": ""
  },
  {
   "property": "C90",
   "status": "partial",
   "theorems": [
    "Komm.C90_direct_partial",
    "Komm.C90_zero_partial",
    "Komm.C90_direct_rate_one",
    "Komm.C90_zero_rate_one",
    "Komm.C90_zero_low_rate",
    "Komm.C90_hard",
    "Komm.C90_tail_biting_refused",
    "Komm.C90_bits_swapped"
   ],
   "note": "Full property proved for k = 1 (C90_direct_rate_one, C90_zero_rate_one, C90_zero_low_rate). For k >= 2 the code returns the bits of each block of k in reverse order: NaturalLabeling is most-significant-first, the state machine least-significant-first; C90_direct_partial and C90_zero_partial prove exactly this for every k, C90_bits_swapped is the witness."
  },
  {
   "property": "C91",
   "status": "proved",
   "theorems": [
    "Komm.C91_xor",
    "Komm.C91_tanh",
    "Komm.C91_algebra",
    "Komm.C91_sign",
    "Komm.C91_array",
    "Komm.C91_logcosh"
   ],
   "note": ""
  },
  {
   "property": "C92",
   "status": "proved",
   "theorems": [
    "Komm.C92_soft",
    "Komm.C92_noiseless",
    "Komm.C92_blockwise",
    "Komm.C92_length"
   ],
   "note": ""
  },
  {
   "property": "C93",
   "status": "proved",
   "theorems": [
    "Komm.C93_accepts",
    "Komm.C93_formula",
    "Komm.C93_amplitude",
    "Komm.C93_autocorrelation",
    "Komm.C93_autocorrelation_general",
    "Komm.C93_cross_correlation",
    "Komm.C93_not_coprime"
   ],
   "note": ""
  },
  {
   "property": "C94",
   "status": "proved",
   "theorems": [
    "Komm.C94_length",
    "Komm.C94_value",
    "Komm.C94_scale",
    "Komm.C94_independent",
    "Komm.C94_certain"
   ],
   "note": ""
  },
  {
   "property": "C95",
   "status": "proved",
   "theorems": [
    "Komm.C95_rectangular_waveform",
    "Komm.C95_rectangular_spectrum",
    "Komm.C95_rectangular",
    "Komm.C95_negative_width",
    "Komm.C95_manchester_waveform",
    "Komm.C95_manchester_spectrum",
    "Komm.C95_manchester",
    "Komm.C95_gaussian_accepts",
    "Komm.C95_gaussian_spectrum",
    "Komm.C95_gaussian",
    "Komm.C95_gaussian_half_power"
   ],
   "note": ""
  },
  {
   "property": "C96",
   "status": "proved",
   "theorems": [
    "Komm.C96_sinc",
    "Komm.C96_sinc_inversion",
    "Komm.C96_sinc_nyquist",
    "Komm.C96_sinc_folded",
    "Komm.C96_sinc_root",
    "Komm.C96_raised_cosine_accepts",
    "Komm.C96_raised_cosine",
    "Komm.C96_raised_cosine_inversion",
    "Komm.C96_raised_cosine_nyquist",
    "Komm.C96_raised_cosine_folded",
    "Komm.C96_root_accepts",
    "Komm.C96_root",
    "Komm.C96_root_inversion",
    "Komm.C96_root_square",
    "Komm.C96_root_orthonormal"
   ],
   "note": ""
  },
  {
   "property": "C97",
   "status": "proved",
   "theorems": [
    "Komm.C97_accepts",
    "Komm.C97_beaulieu",
    "Komm.C97_inversion",
    "Komm.C97_nyquist",
    "Komm.C97_folded",
    "Komm.C97_root_accepts",
    "Komm.C97_root",
    "Komm.C97_root_inversion",
    "Komm.C97_root_square",
    "Komm.C97_root_orthonormal"
   ],
   "note": ""
  },
  {
   "property": "C98",
   "status": "proved",
   "theorems": [
    "Komm.C98_refused",
    "Komm.C98_length",
    "Komm.C98_values",
    "Komm.C98_default",
    "Komm.C98_nyquist",
    "Komm.C98_rectangular"
   ],
   "note": ""
  },
  {
   "property": "C99",
   "status": "partial",
   "theorems": [
    "Komm.C99_true",
    "Komm.C99_false_partial",
    "Komm.C99_raises",
    "Komm.C99_rate_one_over_n",
    "Komm.C99_low_rate",
    "Komm.C99_high_rate",
    "Komm.C99_wrong_false",
    "Komm.C99_invariant_factors",
    "Komm.C99_single_row"
   ],
   "note": "True answers, exceptions, and all answers for k = 1 and high-rate codes are proved right. A False answer is proved right when the other computed factors are powers of D (C99_false_partial); in general it is false of the code, which tests only the last factor of a diagonal form without the divisibility property; witness C99_wrong_false."
  },
  {
   "property": "C100",
   "status": "proved",
   "theorems": [
    "Komm.C100_kraft",
    "Komm.C100_empty_codeword",
    "Komm.C100_fixed_to_variable",
    "Komm.C100_huffman"
   ],
   "note": ""
  },
  {
   "property": "C101",
   "status": "proved",
   "theorems": [
    "Komm.C101_variable_to_fixed",
    "Komm.C101_tunstall_optimal",
    "Komm.C101_tunstall_best",
    "Komm.C101_tunstall_bound",
    "Komm.C101_oracle",
    "Komm.C101_tunstall_not_optimal"
   ],
   "note": ""
  },
  {
   "property": "C102",
   "status": "proved",
   "theorems": [
    "Komm.C102_nonneg",
    "Komm.C102_negative",
    "Komm.C102_lloyd_max",
    "Komm.C102_uniform",
    "Komm.C102_limit",
    "Komm.C102_midpoints_best"
   ],
   "note": ""
  },
  {
   "property": "C103",
   "status": "proved",
   "theorems": [
    "Komm.C103_raises_iff",
    "Komm.C103_noiseless",
    "Komm.C103_real_law",
    "Komm.C103_complex_law",
    "Komm.C103_real_density",
    "Komm.C103_complex_density",
    "Komm.C103_power_real",
    "Komm.C103_power_complex",
    "Komm.C103_posteriors_real",
    "Komm.C103_posteriors_complex",
    "Komm.C103_closest_optimal_real",
    "Komm.C103_closest_optimal_complex"
   ],
   "note": ""
  },
  {
   "property": "C104",
   "status": "proved",
   "theorems": [
    "Komm.C104_tail",
    "Komm.C104_integral",
    "Komm.C104_strictAnti",
    "Komm.C104_continuous",
    "Komm.C104_limits",
    "Komm.C104_symmetry",
    "Komm.C104_zero",
    "Komm.C104_range",
    "Komm.C104_chernoff",
    "Komm.C104_inv_left",
    "Komm.C104_inv_right",
    "Komm.C104_inv_ends",
    "Komm.C104_channel",
    "Komm.C104_pam_point",
    "Komm.C104_pam_error"
   ],
   "note": ""
  },
  {
   "property": "C105",
   "status": "partial",
   "theorems": [
    "Komm.C105_raises_iff",
    "Komm.C105_central",
    "Komm.C105_origin",
    "Komm.C105_bounds",
    "Komm.C105_limit",
    "Komm.C105_accuracy_partial",
    "Komm.C105_accuracy_small_partial",
    "Komm.C105_early_exit"
   ],
   "note": "Accuracy is proved when no term of index below x^2/2 is under the tolerance (in particular x^2/2 <= m); C105_early_exit proves that the result is wrong in general."
  },
  {
   "property": "C106",
   "status": "proved",
   "theorems": [
    "Komm.C106_window",
    "Komm.C106_empty",
    "Komm.C106_full",
    "Komm.C106_comm",
    "Komm.C106_assoc",
    "Komm.C106_impulse",
    "Komm.C106_valid",
    "Komm.C106_axis",
    "Komm.C106_one"
   ],
   "note": ""
  },
  {
   "property": "C107",
   "status": "proved",
   "theorems": [
    "Komm.C107_raises_iff",
    "Komm.C107_default",
    "Komm.C107_lengths",
    "Komm.C107_frequencies",
    "Komm.C107_spectrum",
    "Komm.C107_inverse",
    "Komm.C107_parseval",
    "Komm.C107_hermitian",
    "Komm.C107_convolution",
    "Komm.C107_integral"
   ],
   "note": ""
  },
  {
   "property": "C108",
   "status": "proved",
   "theorems": [
    "Komm.NDArray.C108_rows",
    "Komm.NDArray.C108_raises_iff",
    "Komm.NDArray.C108_blocks",
    "Komm.NDArray.C108_empty"
   ],
   "note": ""
  },
  {
   "property": "C109",
   "status": "proved",
   "theorems": [
    "Komm.C109_generic",
    "Komm.C109_orthogonal",
    "Komm.C109_simplex",
    "Komm.C109_biorthogonal",
    "Komm.C109_pam",
    "Komm.C109_ask",
    "Komm.C109_qam",
    "Komm.C109_psk",
    "Komm.C109_raises_iff",
    "Komm.C109_unvalidated_raises",
    "Komm.C109_index",
    "Komm.C109_symbols",
    "Komm.C109_closest_symbols",
    "Komm.C109_round_trip",
    "Komm.C109_priors",
    "Komm.C109_posteriors",
    "Komm.C109_orders",
    "Komm.C109_construct"
   ],
   "note": ""
  },
  {
   "property": "C110",
   "status": "proved",
   "theorems": [
    "Komm.C110_pairwise_real",
    "Komm.C110_pairwise_complex",
    "Komm.C110_bounds_real",
    "Komm.C110_bounds_complex",
    "Komm.C110_distance_real",
    "Komm.C110_distance_complex",
    "Komm.C110_binary",
    "Komm.C110_psk",
    "Komm.C110_qam_point",
    "Komm.C110_qam"
   ],
   "note": ""
  },
  {
   "property": "C111",
   "status": "proved",
   "theorems": [
    "Komm.C111_error_pattern",
    "Komm.C111_undetected",
    "Komm.C111_syndrome_table",
    "Komm.C111_decoders",
    "Komm.C111_bounded_distance",
    "Komm.C111_perfect",
    "Komm.C111_optimal",
    "Komm.C111_hamming",
    "Komm.C111_golay",
    "Komm.C111_soft"
   ],
   "note": ""
  },
  {
   "property": "C112",
   "status": "proved",
   "theorems": [
    "Komm.C112_macwilliams",
    "Komm.C112_generator_check"
   ],
   "note": ""
  },
  {
   "property": "C113",
   "status": "proved",
   "theorems": [
    "Komm.C113_griesmer",
    "Komm.C113_singleton",
    "Komm.C113_plotkin",
    "Komm.C113_sphere_packing",
    "Komm.C113_covering",
    "Komm.C113_gilbert"
   ],
   "note": ""
  },
  {
   "property": "C114",
   "status": "proved",
   "theorems": [
    "Komm.C114_lz78_universal",
    "Komm.C114_lzw_universal",
    "Komm.C114_worst_case",
    "Komm.C114_lz78_prefix_free",
    "Komm.C114_lzw_prefix_free",
    "Komm.C114_lz78_rate",
    "Komm.C114_lzw_rate"
   ],
   "note": ""
  },
  {
   "property": "C115",
   "status": "proved",
   "theorems": [
    "Komm.C115_length",
    "Komm.C115_chunks",
    "Komm.C115_delay",
    "Komm.C115_corrects",
    "Komm.C115_convolutional_code",
    "Komm.C115_low_rate",
    "Komm.C115_feedforward",
    "Komm.C115_initial_state_wrong"
   ],
   "note": ""
  },
  {
   "property": "C116",
   "status": "proved",
   "theorems": [
    "Komm.C116_result",
    "Komm.C116_invariant_factors",
    "Komm.C116_catastrophic",
    "Komm.C116_raises",
    "Komm.C116_true_agrees",
    "Komm.C116_false_agrees",
    "Komm.C116_minors_right"
   ],
   "note": ""
  },
  {
   "property": "C117",
   "status": "proved",
   "theorems": [
    "Komm.C117_from_enc_mapping",
    "Komm.C117_from_dec_mapping",
    "Komm.C117_from_sourcewords",
    "Komm.C117_from_codewords",
    "Komm.C117_codewords_round_trip",
    "Komm.C117_sourcewords_round_trip"
   ],
   "note": ""
  },
  {
   "property": "C118",
   "status": "proved",
   "theorems": [
    "Komm.C118_divmod",
    "Komm.C118_gcd",
    "Komm.C118_xgcd",
    "Komm.C118_lcm"
   ],
   "note": ""
  },
  {
   "property": "C119",
   "status": "proved",
   "theorems": [
    "Komm.C119_modulate",
    "Komm.C119_demodulate",
    "Komm.C119_round_trip",
    "Komm.C119_gray_distance",
    "Komm.C119_pam_gray"
   ],
   "note": ""
  },
  {
   "property": "C120",
   "status": "proved",
   "theorems": [
    "Komm.C120_block_law",
    "Komm.C120_bsc",
    "Komm.C120_bec",
    "Komm.C120_z",
    "Komm.C120_dmc"
   ],
   "note": ""
  },
  {
   "property": "C121",
   "status": "proved",
   "theorems": [
    "Komm.C121_simulate_law",
    "Komm.C121_until_absorption",
    "Komm.C121_visits"
   ],
   "note": ""
  },
  {
   "property": "C122",
   "status": "proved",
   "theorems": [
    "Komm.C122_regular",
    "Komm.C122_irreducible"
   ],
   "note": ""
  },
  {
   "property": "C123",
   "status": "proved",
   "theorems": [
    "Komm.C123_pairwise",
    "Komm.C123_block_code",
    "Komm.C123_viterbi_direct",
    "Komm.C123_viterbi_zero",
    "Komm.C123_viterbi_zero_low_rate",
    "Komm.C123_free_distance",
    "Komm.C123_free_distance_low_rate"
   ],
   "note": ""
  },
  {
   "property": "C124",
   "status": "proved",
   "theorems": [
    "Komm.C124_fixed_to_variable",
    "Komm.C124_huffman",
    "Komm.C124_variable_to_fixed",
    "Komm.C124_tunstall",
    "Komm.C124_aep",
    "Komm.C124_lz78",
    "Komm.C124_lzw"
   ],
   "note": ""
  },
  {
   "property": "C125",
   "status": "proved",
   "theorems": [
    "Komm.C125_ergodic",
    "Komm.C125_aep",
    "Komm.C125_lz78",
    "Komm.C125_lzw"
   ],
   "note": ""
  },
  {
   "property": "C126",
   "status": "proved",
   "theorems": [
    "Komm.C126_source",
    "Komm.C126_channels",
    "Komm.C126_frames",
    "Komm.C126_linear_code",
    "Komm.C126_noise_power",
    "Komm.C126_pam"
   ],
   "note": ""
  },
  {
   "property": "C127",
   "status": "proved",
   "theorems": [
    "Komm.C127_exhaustive",
    "Komm.C127_wagner",
    "Komm.C127_viterbi_direct",
    "Komm.C127_viterbi_zero",
    "Komm.C127_viterbi_zero_low_rate",
    "Komm.C127_bcjr_direct",
    "Komm.C127_bcjr_zero",
    "Komm.C127_bcjr_zero_low_rate"
   ],
   "note": ""
  },
  {
   "property": "C128",
   "status": "proved",
   "theorems": [
    "Komm.C128_fano",
    "Komm.C128_fano_strict",
    "Komm.C128_huffman"
   ],
   "note": ""
  },
  {
   "property": "C129",
   "status": "proved",
   "theorems": [
    "Komm.Session.C129_deterministic",
    "Komm.Session.C129_law",
    "Komm.Session.C129_completes",
    "Komm.Session.C129_generators",
    "Komm.Session.C129_calls",
    "Komm.Session.C129_repeatable",
    "Komm.Session.C129_kept",
    "Komm.Session.C129_explicit",
    "Komm.Session.C129_uniform_source"
   ],
   "note": ""
  },
  {
   "property": "C130",
   "status": "proved",
   "theorems": [
    "Komm.Session.C130_total",
    "Komm.Session.C130_strong_law",
    "Komm.Session.C130_accuracy",
    "Komm.Session.C130_absorption",
    "Komm.Session.C130_link"
   ],
   "note": ""
  },
  {
   "property": "C131",
   "status": "proved",
   "theorems": [
    "Komm.Tolerant.C131_accepts",
    "Komm.Tolerant.C131_integers",
    "Komm.Tolerant.C131_draws",
    "Komm.Tolerant.C131_accepted_but_raises",
    "Komm.Tolerant.C131_conservative",
    "Komm.Tolerant.C131_entropy",
    "Komm.Tolerant.C131_negative_entropy",
    "Komm.Tolerant.C131_relative_entropy",
    "Komm.Tolerant.C131_negative_relative_entropy",
    "Komm.Tolerant.C131_mutual_information",
    "Komm.Tolerant.C131_mutual_information_raises",
    "Komm.Tolerant.C131_bsc_raises",
    "Komm.Tolerant.C131_rate",
    "Komm.Tolerant.C131_huffman_fano",
    "Komm.Tolerant.C131_huffman_fano_rate",
    "Komm.Tolerant.C131_shannon",
    "Komm.Tolerant.C131_shannon_raises",
    "Komm.Tolerant.C131_tunstall",
    "Komm.Tolerant.C131_rejects"
   ],
   "note": ""
  },
  {
   "property": "C132",
   "status": "proved",
   "theorems": [
    "Komm.Objects.C132_generator",
    "Komm.Objects.C132_check",
    "Komm.Objects.C132_permanent",
    "Komm.Objects.C132_aliasing"
   ],
   "note": ""
  },
  {
   "property": "C133",
   "status": "proved",
   "theorems": [
    "Komm.C133_pam_bit",
    "Komm.C133_pam_ber",
    "Komm.C133_qam_bit",
    "Komm.C133_rate_1",
    "Komm.C133_rate_2",
    "Komm.C133_qpsk",
    "Komm.C133_pam_bounds"
   ],
   "note": ""
  },
  {
   "property": "C134",
   "status": "proved",
   "theorems": [
    "Komm.C134_direct_soft",
    "Komm.C134_zero_soft",
    "Komm.C134_direct_margin",
    "Komm.C134_zero_margin",
    "Komm.C134_hard_exact",
    "Komm.C134_soft_exact",
    "Komm.C134_finite",
    "Komm.C134_stream_exact"
   ],
   "note": ""
  },
  {
   "property": "C135",
   "status": "proved",
   "theorems": [
    "Komm.C135_points",
    "Komm.C135_decides",
    "Komm.C135_roundtrip",
    "Komm.C135_exact",
    "Komm.C135_monotone",
    "Komm.C135_huge_wrong"
   ],
   "note": ""
  },
  {
   "property": "C136",
   "status": "proved",
   "theorems": [
    "Komm.C136_width",
    "Komm.C136_lz77_lzss",
    "Komm.C136_lz78",
    "Komm.C136_lzw",
    "Komm.C136_redundancy",
    "Komm.C136_shannon_any",
    "Komm.C136_shannon_length",
    "Komm.C136_shannon_succeeds",
    "Komm.C136_shannon_raises",
    "Komm.C136_tunstall",
    "Komm.C136_tunstall_default",
    "Komm.C136_correctly_rounded",
    "Komm.C136_slack"
   ],
   "note": ""
  },
  {
   "property": "C137",
   "status": "proved",
   "theorems": [
    "Komm.C137_huffman_near_optimal"
   ],
   "note": ""
  },
  {
   "property": "C138",
   "status": "proved",
   "theorems": [
    "Komm.C138_boxplus",
    "Komm.C138_sc_noiseless",
    "Komm.C138_sc_near",
    "Komm.C138_reed_corrects",
    "Komm.C138_reed_noiseless",
    "Komm.C138_wagner_exact",
    "Komm.C138_wagner",
    "Komm.C138_exhaustive_near",
    "Komm.C138_exhaustive_margin",
    "Komm.C138_exhaustive_exact"
   ],
   "note": ""
  },
  {
   "property": "C139",
   "status": "proved",
   "theorems": [
    "Komm.C139_levels",
    "Komm.C139_thresholds_monotone",
    "Komm.C139_quantize_nearest",
    "Komm.C139_quantize_decides",
    "Komm.C139_quantize_idempotent",
    "Komm.C139_qam_nearest",
    "Komm.C139_qam_decides",
    "Komm.C139_qam_roundtrip",
    "Komm.C139_ask_nearest",
    "Komm.C139_generic_nearest",
    "Komm.C139_psk_nearest",
    "Komm.C139_psk_decides",
    "Komm.C139_psk_roundtrip",
    "Komm.C139_psk_collapse"
   ],
   "note": ""
  },
  {
   "property": "C140",
   "status": "proved",
   "theorems": [
    "Komm.Py.C140_equal",
    "Komm.Py.C140_equivalence",
    "Komm.Py.C140_hash_mixed",
    "Komm.Py.C140_hash",
    "Komm.Py.C140_unhashable",
    "Komm.Py.C140_dict",
    "Komm.Py.C140_hash_broken",
    "Komm.Py.C140_fields",
    "Komm.Py.C140_repr_field",
    "Komm.Py.C140_literal",
    "Komm.Py.C140_repr_polynomial"
   ],
   "note": ""
  },
  {
   "property": "C141",
   "status": "proved",
   "theorems": [
    "Komm.C141_forward_backward",
    "Komm.C141_bcjr_soft",
    "Komm.C141_bcjr_hard",
    "Komm.C141_direct",
    "Komm.C141_zero",
    "Komm.C141_low_rate"
   ],
   "note": ""
  },
  {
   "property": "C142",
   "status": "proved",
   "theorems": [
    "Komm.C142_posteriors",
    "Komm.C142_soft",
    "Komm.C142_uniform",
    "Komm.C142_hard",
    "Komm.C142_demap_decode"
   ],
   "note": ""
  },
  {
   "property": "C143",
   "status": "proved",
   "theorems": [
    "Komm.C143_entropy",
    "Komm.C143_relative_entropy",
    "Komm.C143_relative_entropy_infinite",
    "Komm.C143_entropy_overflow",
    "Komm.C143_binary_entropy",
    "Komm.C143_inverse_ends",
    "Komm.C143_inverse",
    "Komm.C143_inverse_hangs"
   ],
   "note": ""
  },
  {
   "property": "C144",
   "status": "proved",
   "theorems": [
    "Komm.C144_root_waveform",
    "Komm.C144_root_exact",
    "Komm.C144_autocorrelation",
    "Komm.C144_objects",
    "Komm.C144_plateau"
   ],
   "note": ""
  },
  {
   "property": "C145",
   "status": "proved",
   "theorems": [
    "Komm.C145_bsc_mutual_information",
    "Komm.C145_bsc_capacity",
    "Komm.C145_bec",
    "Komm.C145_z_mutual_information",
    "Komm.C145_z_capacity"
   ],
   "note": ""
  },
  {
   "property": "C146",
   "status": "proved",
   "theorems": [
    "Komm.C146_mutual_information",
    "Komm.C146_exact"
   ],
   "note": ""
  },
  {
   "property": "C147",
   "status": "proved",
   "theorems": [
    "Komm.C147_fano",
    "Komm.C147_tunstall",
    "Komm.C147_tunstall_near_optimal"
   ],
   "note": ""
  },
  {
   "property": "C148",
   "status": "proved",
   "theorems": [
    "Komm.C148_fixed_to_variable_rate",
    "Komm.C148_variable_to_fixed_rate",
    "Komm.C148_kraft_exact",
    "Komm.C148_kraft_near",
    "Komm.C148_kraft_decides"
   ],
   "note": ""
  },
  {
   "property": "C149",
   "status": "proved",
   "theorems": [
    "Komm.C149_choice",
    "Komm.C149_emit",
    "Komm.C149_transmit",
    "Komm.C149_simulate",
    "Komm.C149_simulate_drift",
    "Komm.C149_until",
    "Komm.C149_binary_channels",
    "Komm.C149_floor",
    "Komm.C149_until_hangs"
   ],
   "note": ""
  },
  {
   "property": "C150",
   "status": "proved",
   "theorems": [
    "Komm.C150_exhaustive",
    "Komm.C150_exhaustive_sharp",
    "Komm.C150_wagner",
    "Komm.C150_viterbi",
    "Komm.C150_viterbi_rate_one",
    "Komm.C150_viterbi_low_rate",
    "Komm.C150_viterbi_direct",
    "Komm.C150_sparse_noise"
   ],
   "note": ""
  },
  {
   "property": "C151",
   "status": "proved",
   "theorems": [
    "Komm.C151_chain",
    "Komm.C151_block",
    "Komm.C151_syndrome_table",
    "Komm.C151_exhaustive",
    "Komm.C151_berlekamp",
    "Komm.C151_reed",
    "Komm.C151_viterbi",
    "Komm.C151_quiet",
    "Komm.C151_compressed"
   ],
   "note": ""
  },
  {
   "property": "C152",
   "status": "proved",
   "theorems": [
    "Komm.C152_lvalues",
    "Komm.C152_symbols",
    "Komm.C152_chain",
    "Komm.C152_block",
    "Komm.C152_exhaustive",
    "Komm.C152_wagner",
    "Komm.C152_viterbi"
   ],
   "note": ""
  },
  {
   "property": "C153",
   "status": "proved",
   "theorems": [
    "Komm.C153_pcm_bits",
    "Komm.C153_bits",
    "Komm.C153_compressor",
    "Komm.C153_lzw",
    "Komm.C153_lz78",
    "Komm.C153_pcm",
    "Komm.C153_pcm_uniform",
    "Komm.C153_natural_errors",
    "Komm.C153_pcm_bit_errors"
   ],
   "note": ""
  },
  {
   "property": "C154",
   "status": "proved",
   "theorems": [
    "Komm.C154_chain",
    "Komm.C154_pam_gray",
    "Komm.C154_gray_cost",
    "Komm.C154_qam_gray",
    "Komm.C154_block",
    "Komm.C154_block_qam",
    "Komm.C154_viterbi_pam",
    "Komm.C154_viterbi_qam"
   ],
   "note": ""
  },
  {
   "property": "C155",
   "status": "proved",
   "theorems": [
    "Komm.C155_gain",
    "Komm.C155_rotation",
    "Komm.C155_additive",
    "Komm.C155_gray_cyclic",
    "Komm.C155_psk_cost",
    "Komm.C155_psk_gray",
    "Komm.C155_block",
    "Komm.C155_viterbi"
   ],
   "note": ""
  },
  {
   "property": "C156",
   "status": "proved",
   "theorems": [
    "Komm.C156_closest",
    "Komm.C156_minimum_distance",
    "Komm.C156_posteriors",
    "Komm.C156_complex_as_real",
    "Komm.C156_mean",
    "Komm.C156_energy_scale",
    "Komm.C156_energy_shift",
    "Komm.C156_centred",
    "Komm.C156_simplex_bound",
    "Komm.C156_simplex_optimal",
    "Komm.C156_reorder"
   ],
   "note": ""
  },
  {
   "property": "C157",
   "status": "proved",
   "theorems": [
    "Komm.C157_data_processing",
    "Komm.C157_cascade_capacity",
    "Komm.C157_relative_entropy",
    "Komm.C157_chain_rule",
    "Komm.C157_independent",
    "Komm.C157_concave",
    "Komm.C157_convex",
    "Komm.C157_relabel",
    "Komm.C157_bsc_cascade",
    "Komm.C157_bsc_capacity"
   ],
   "note": ""
  },
  {
   "property": "C158",
   "status": "proved",
   "theorems": [
    "Komm.C158_word_distances",
    "Komm.C158_equivalent",
    "Komm.C158_error_probabilities",
    "Komm.C158_generator",
    "Komm.C158_check",
    "Komm.C158_information_set",
    "Komm.C158_hamming_unique"
   ],
   "note": ""
  },
  {
   "property": "C159",
   "status": "proved",
   "theorems": [
    "Komm.C159_encode",
    "Komm.C159_numbers",
    "Komm.C159_catastrophic",
    "Komm.C159_catastrophic_depends_on_order",
    "Komm.C159_low_rate"
   ],
   "note": ""
  },
  {
   "property": "C160",
   "status": "proved",
   "theorems": [
    "Komm.C160_huffman_minimum",
    "Komm.C160_huffman_rate_invariant",
    "Komm.C160_huffman_subadditive",
    "Komm.C160_huffman_multiple",
    "Komm.C160_longer_blocks_may_hurt"
   ],
   "note": ""
  },
  {
   "property": "C161",
   "status": "proved",
   "theorems": [
    "Komm.C161_tunstall_rate_invariant",
    "Komm.C161_tunstall_monotone"
   ],
   "note": ""
  },
  {
   "property": "C162",
   "status": "proved",
   "theorems": [
    "Komm.C162_shannon_rate_invariant",
    "Komm.C162_shannon_subadditive",
    "Komm.C162_shannon_multiple",
    "Komm.C162_huffman_below",
    "Komm.C162_dyadic"
   ],
   "note": ""
  },
  {
   "property": "C163",
   "status": "proved",
   "theorems": [
    "Komm.C163_wrong_code",
    "Komm.C163_dyadic"
   ],
   "note": ""
  },
  {
   "property": "C164",
   "status": "proved",
   "theorems": [
    "Komm.C164_structure",
    "Komm.C164_stationary"
   ],
   "note": ""
  },
  {
   "property": "C165",
   "status": "proved",
   "theorems": [
    "Komm.C165_absorption"
   ],
   "note": ""
  }
 ]
}