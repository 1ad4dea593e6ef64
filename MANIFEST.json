{
 "claims": [
  {
   "property": "C01",
   "status": "proved",
   "theorems": [
    "RA.C01_round_trip",
    "RA.C01_accepted_iff"
   ],
   "note": "Round trip for every alphabet and word, both profiles; converse (accepted words) in debug."
  },
  {
   "property": "C02",
   "status": "proved",
   "theorems": [
    "RA.C02_key_eq_iff"
   ],
   "note": ""
  },
  {
   "property": "C03",
   "status": "proved",
   "theorems": [
    "RA.C03_max_depth",
    "RA.C03_max_degree",
    "RA.C03_size_mask",
    "RA.C03_size_mask_overflow"
   ],
   "note": ""
  },
  {
   "property": "C04",
   "status": "proved",
   "theorems": [
    "RA.C04_get_letter"
   ],
   "note": ""
  },
  {
   "property": "C05",
   "status": "proved",
   "theorems": [
    "RA.C05_concatenate",
    "RA.C05_concatenate_wide",
    "RA.C05_unit",
    "RA.C05_assoc"
   ],
   "note": "Includes the exact exception for alphabets with 2^31 or more letters (debug panic)."
  },
  {
   "property": "C06",
   "status": "proved",
   "theorems": [
    "RA.C06_push_front",
    "RA.C06_push_front_debug_panics"
   ],
   "note": ""
  },
  {
   "property": "C07",
   "status": "partial",
   "theorems": [
    "RA.C07_iter_keys_one_letter",
    "RA.C07_iter_keys_partial",
    "RA.C07_iter_keys_two_letters_partial",
    "RA.C07_iter_keys_refuted",
    "RA.C07_successor_partial",
    "RA.C07_successor_exact",
    "RA.C07_never_past_degree_two",
    "RA.C07_thirds_end",
    "RA.C07_thirds_stuck",
    "RA.C07_never_past_degree_three",
    "RA.C07_two_letters_ends"
   ],
   "note": "False for every alphabet with two or more letters (C07_iter_keys_refuted): set_letter clears the wrong bits. Proved: full statement for one letter, exact correct prefix for N = 2 and N >= 3, single steps from the keys that are advanced correctly. C07_successor_exact: a complete description of the words whose successor is right (if and only if). C07_never_past_degree_two: for every alphabet size not of the form 2^m/3+1 the iteration never ends and never yields a word of three or more letters. C07_two_letters_ends: with two letters it ends after 8675 of the 2^31 - 1 keys. C07_thirds_stuck, C07_thirds_end: the remaining sizes 2^m/3+1 never reach four letters; up to m = 22 they never end, from m = 23 they end after 1 + N + m N keys. C07_never_past_degree_three: for every alphabet of three or more letters no word of more than three letters is ever produced."
  },
  {
   "property": "C08",
   "status": "proved",
   "theorems": [
    "RA.C08_index_key_index"
   ],
   "note": ""
  },
  {
   "property": "C09",
   "status": "proved",
   "theorems": [
    "RA.C09_key_index_key",
    "RA.C09_index_injective"
   ],
   "note": ""
  },
  {
   "property": "C10",
   "status": "proved",
   "theorems": [
    "RA.C10_graded_lex",
    "RA.C10_index_counts"
   ],
   "note": ""
  },
  {
   "property": "C11",
   "status": "partial",
   "theorems": [
    "RA.C11_compare_refuted",
    "RA.C11_compare_inverted",
    "RA.C11_compare_same_degree_partial",
    "RA.C11_compare_exact",
    "RA.C11_compare_right_iff",
    "RA.C11_compare_no_leading_one_partial"
   ],
   "note": "False (C11_compare_refuted, C11_compare_inverted): compare ignores the size. Proved: what it computes for any two keys (C11_compare_exact), exactly when that is right (C11_compare_right_iff), in particular for keys of equal degree and for words that do not begin with the letter 1."
  },
  {
   "property": "C12",
   "status": "proved",
   "theorems": [
    "RA.C12_start_of_degree",
    "RA.C12_index_to_degree",
    "RA.C12_index_to_degree_overflow",
    "RA.C12_degree_of_key",
    "RA.C12_block_counts",
    "RA.C12_start_of_degree_release",
    "RA.C12_release_wrong_degree",
    "RA.C12_release_diverges"
   ],
   "note": "Includes the exact overflow behaviour in debug builds, and what wrapped arithmetic gives in release builds (wrong degrees, endless recursion)."
  },
  {
   "property": "C13",
   "status": "proved",
   "theorems": [
    "RA.C13_vector_dimension",
    "RA.C13_vector_dimension_mono",
    "RA.C13_vector_dimension_panics_iff",
    "RA.C13_vector_dimension_release_wraps",
    "RA.C13_vector_dimension_one_letter",
    "RA.C13_dimension_counts"
   ],
   "note": "Includes overflow (debug panic iff, release wrap) and the one-letter panic."
  },
  {
   "property": "C14",
   "status": "proved",
   "theorems": [
    "RA.C14_index_concatenate"
   ],
   "note": ""
  },
  {
   "property": "C15",
   "status": "partial",
   "theorems": [
    "RA.C15_display_diverges",
    "RA.C15_display_refuted",
    "RA.C15_debug_text_partial"
   ],
   "note": "False: Display never returns (C15_display_diverges). Proved: the text printed by Debug."
  },
  {
   "property": "C16",
   "status": "proved",
   "theorems": [
    "RA.C16_from_key_scalar",
    "RA.C16_from_key"
   ],
   "note": ""
  },
  {
   "property": "C17",
   "status": "partial",
   "theorems": [
    "RA.C17_from_letter_exact",
    "RA.C17_from_key_safe_refuted",
    "RA.C17_valid_key_release_refuted",
    "RA.C17_from_key_safe_partial",
    "RA.C17_from_key_safe_debug_partial",
    "RA.C17_integer_basis_refuted",
    "RA.C17_release_ub_iff",
    "RA.C17_debug_iff",
    "RA.C17_integer_basis_iterator_iff"
   ],
   "note": "False: constructing from a key of the largest representable degree writes out of bounds in release builds, and for bases whose vector_dimension_for_key does not cover the key (C17_..._refuted). Proved: from_letter exactly; release builds: out of bounds exactly when the wrapped index reaches the wrapped dimension (C17_release_ub_iff); debug builds: returns exactly when the dimension is representable, else panics (C17_debug_iff)."
  },
  {
   "property": "C18",
   "status": "proved",
   "theorems": [
    "RA.C18_from_iterator",
    "RA.C18_from_iterator_empty"
   ],
   "note": ""
  },
  {
   "property": "C19",
   "status": "proved",
   "theorems": [
    "RA.C19_add",
    "RA.C19_sub",
    "RA.C19_uminus",
    "RA.C19_scalar_multiply",
    "RA.C19_scalar_divide",
    "RA.C19_fused_multiply",
    "RA.C19_fused_divide"
   ],
   "note": "Exact entries with no laws on the coefficients, for every pair of lengths and storage modes."
  },
  {
   "property": "C20",
   "status": "proved",
   "theorems": [
    "RA.C20_coefficients",
    "RA.C20_additive_group",
    "RA.C20_scalar_laws"
   ],
   "note": "Over exact (commutative ring or field) coefficients."
  },
  {
   "property": "C21",
   "status": "partial",
   "theorems": [
    "RA.C21_eq_refuted",
    "RA.C21_eq_difference_refuted",
    "RA.C21_eq_partial",
    "RA.C21_eq_sound_partial",
    "RA.C21_tensor_keys",
    "RA.C21_eq_iff_partial"
   ],
   "note": "False: vectors differing by trailing zeros compare unequal (C21_..._refuted). Proved: equality implies equal coefficients, the converse for equal lengths, and exactly when vectors compare equal (C21_eq_iff_partial)."
  },
  {
   "property": "C22",
   "status": "proved",
   "theorems": [
    "RA.C22_copies",
    "RA.C22_swap",
    "RA.C22_clear",
    "RA.C22_erase"
   ],
   "note": ""
  },
  {
   "property": "C23",
   "status": "partial",
   "theorems": [
    "RA.C23_dense_insert_noop",
    "RA.C23_dense_insert_refuted",
    "RA.C23_dense_insert_partial",
    "RA.C23_dense_get_mut",
    "RA.C23_dense_insert_right_iff_partial",
    "RA.C23_sparse_insert"
   ],
   "note": "False of dense vectors, where insert_single does nothing (C23_dense_insert_refuted). Proved in full for sparse vectors; dense exactly when the value is already there (C23_dense_insert_right_iff_partial)."
  },
  {
   "property": "C24",
   "status": "proved",
   "theorems": [
    "RA.C24_degree",
    "RA.C24_degree_empty",
    "RA.C24_degree_full_vector"
   ],
   "note": ""
  },
  {
   "property": "C25",
   "status": "proved",
   "theorems": [
    "RA.C25_no_write",
    "RA.C25_borrowed",
    "RA.C25_borrowed_mut",
    "RA.C25_borrowed_mut_write_through",
    "RA.C25_resize",
    "RA.C25_mode_transparent"
   ],
   "note": ""
  },
  {
   "property": "C26",
   "status": "proved",
   "theorems": [
    "RA.C26_constructors",
    "RA.C26_wf",
    "RA.C26_add_sub",
    "RA.C26_order_irrelevant",
    "RA.C26_scalar",
    "RA.C26_coefficients"
   ],
   "note": "Exact for arbitrary coefficients and iteration order; coefficientwise laws over commutative rings."
  },
  {
   "property": "C27",
   "status": "partial",
   "theorems": [
    "RA.C27_key_ops_iff_partial",
    "RA.C27_zero_free_refuted",
    "RA.C27_from_key_scalar_zero_refuted",
    "RA.C27_add_transmits_zero_refuted",
    "RA.C27_zero_free_partial",
    "RA.C27_vector_ops_iff_partial",
    "RA.C27_histories_iff_partial",
    "RA.C27_rings_iff_partial"
   ],
   "note": "False: basis-key operations and constructors store explicit zeros (refutations). Exact conditions without laws on the coefficients: for each vector operation (C27_vector_ops_iff_partial), for histories of vector operations with zero-free operands (C27_histories_iff_partial; over commutative rings exactly those without zero divisors, C27_rings_iff_partial) and for basis-key operations (C27_key_ops_iff_partial)."
  },
  {
   "property": "C28",
   "status": "proved",
   "theorems": [
    "RA.C28_eq_iff",
    "RA.C28_eq_symm",
    "RA.C28_eq_trans",
    "RA.C28_eq_zero_free",
    "RA.C28_eq_get",
    "RA.C28_eq_refl_iff",
    "RA.C28_same_coefficients"
   ],
   "note": "Without laws on the coefficients (C28_eq_get); explicit zeros are the only difference between unequal vectors with equal coefficients (C28_same_coefficients)."
  },
  {
   "property": "C29",
   "status": "partial",
   "theorems": [
    "RA.C29_tensor_agree_iff",
    "RA.C29_sparse_from_iterator",
    "RA.C29_from_iterator_refuted",
    "RA.C29_from_iterator_partial"
   ],
   "note": "False on repeated keys: dense sums, sparse keeps the last (C29_from_iterator_refuted). Proved for lists without repeated keys; for tensors the exact condition is proved (C29_tensor_agree_iff): they agree at a word iff all its listed values but the last sum to zero."
  },
  {
   "property": "C30",
   "status": "partial",
   "theorems": [
    "RA.C30_value_ops_refuted",
    "RA.C30_value_ops_panic"
   ],
   "note": "False for every input: to_owned is todo!() so all value-returning forms panic (C30_value_ops_refuted, C30_value_ops_panic). Nothing of the positive claim holds."
  },
  {
   "property": "C31",
   "status": "partial",
   "theorems": [
    "RA.C31_dense_right_iff_partial",
    "RA.C31_sparse",
    "RA.C31_dense_partial",
    "RA.C31_dense_refuted"
   ],
   "note": "Proved in full for sparse vectors. False for dense vectors, which drop a missing key (C31_dense_refuted); dense vectors are right exactly when the key is stored or the scalar is zero (C31_dense_right_iff_partial)."
  },
  {
   "property": "C32",
   "status": "partial",
   "theorems": [
    "RA.C32_sub_divide_right_iff_partial",
    "RA.C32_sub_divide_dense_right_iff_partial",
    "RA.C32_sub_divide_actual",
    "RA.C32_sub_divide_dense_actual",
    "RA.C32_sub_divide_refuted",
    "RA.C32_sub_divide_dense_refuted",
    "RA.C32_sub_divide_partial"
   ],
   "note": "False: for a stored key the sign is wrong (refuted for dense and sparse). Proved: exactly when it is right, for sparse and dense vectors (C32_sub_divide_right_iff_partial, C32_sub_divide_dense_right_iff_partial)."
  },
  {
   "property": "C33",
   "status": "proved",
   "theorems": [
    "RA.C33_get",
    "RA.C33_multiply",
    "RA.C33_multiply_returns",
    "RA.C33_multiply_ring",
    "RA.C33_multiply_returns_ring"
   ],
   "note": "Exact with no laws on the coefficients (order of summation included); the ring form follows. Dimensions must be representable in 64 bits; when multiply is undefined behaviour see C34."
  },
  {
   "property": "C34",
   "status": "partial",
   "theorems": [
    "RA.C34_multiply_ub_iff",
    "RA.C34_scalar_product_ub",
    "RA.C34_truncate_zero_ub",
    "RA.C34_empty_operand_ub",
    "RA.C34_multiply_safe_refuted",
    "RA.C34_multiply_safe_partial",
    "RA.C34_multiply_no_degree",
    "RA.C34_multiply_debug_partial",
    "RA.C34_overflow_debug",
    "RA.C34_overflow_release",
    "RA.C34_overflow_concrete"
   ],
   "note": "False: products of degree 0 (two scalars, or truncation to 0), products with new(), and operands cut short access memory out of bounds (refutations, exact characterisation C34_multiply_ub_iff). Proved: safe for tensors storing all words up to their degrees when the product has degree at least 1; debug builds panic when dimensions overflow (C34_overflow_debug); release builds are then undefined behaviour (C34_overflow_release), for instance for two linear tensors over 2642246 letters (C34_overflow_concrete)."
  },
  {
   "property": "C35",
   "status": "proved",
   "theorems": [
    "RA.C35_assoc",
    "RA.C35_assoc_returns",
    "RA.C35_add_left",
    "RA.C35_add_right",
    "RA.C35_smul",
    "RA.C35_unit"
   ],
   "note": "Wherever the products are defined (C34): the hypotheses ask each product to have degree at least 1."
  },
  {
   "property": "C36",
   "status": "proved",
   "theorems": [
    "RA.C36_add_mul",
    "RA.C36_sub_mul",
    "RA.C36_add_sub_mul_ring",
    "RA.C36_commutator",
    "RA.C36_antisymm",
    "RA.C36_jacobi"
   ],
   "note": "Wherever the products are defined (C34)."
  },
  {
   "property": "C37",
   "status": "partial",
   "theorems": [
    "RA.C37_constant_untouched",
    "RA.C37_right_only_if",
    "RA.C37_inplace_scalar_iff_partial",
    "RA.C37_inplace_ub",
    "RA.C37_inplace_zero_constant_ub",
    "RA.C37_inplace_one_constant_ub",
    "RA.C37_inplace_debug_panic",
    "RA.C37_inplace_scalar_actual",
    "RA.C37_inplace_by_one",
    "RA.C37_inplace_partial",
    "RA.C37_inplace_refuted",
    "RA.C37_inplace_linear_returns",
    "RA.C37_debug_returns_iff",
    "RA.C37_inplace_linear_actual",
    "RA.C37_debug_right_iff_partial",
    "RA.C37_release_zero_constant_ub",
    "RA.C37_release_one_constant",
    "RA.C37_release_scale",
    "RA.C37_release_scale_ring",
    "RA.C37_release_returns_iff",
    "RA.C37_release_linear_left",
    "RA.C37_release_right_iff_partial"
   ],
   "note": "False: the in-place product accesses memory out of bounds for every pair of tensors of degrees at least 2 and 1 that is not cut off at degree 1, and never updates the constant term (refutations, C37_constant_untouched). Proved: exactly when it is right for a scalar factor (C37_inplace_scalar_iff_partial); for factors of degree at least 1, exactly when a debug build returns (C37_debug_returns_iff), what it returns (C37_inplace_linear_actual) and exactly when that is right (C37_debug_right_iff_partial). The same for release builds, where out_deg - rhs_deg wraps: C37_release_returns_iff (all others are undefined behaviour), C37_release_one_constant, C37_release_scale_ring, C37_release_linear_left, C37_release_right_iff_partial."
  },
  {
   "property": "C38",
   "status": "partial",
   "theorems": [
    "RA.C38_scaled_products",
    "RA.C38_mul_rat_rdiv_actual",
    "RA.C38_mul_rat_rdiv_refuted",
    "RA.C38_mul_rat_rdiv_partial",
    "RA.C38_mul_rat_rdiv_right_iff_partial"
   ],
   "note": "For every correct implementation of the required product: left and right scaled products and left division proved; mul_rat_rdiv multiplies instead of dividing (C38_mul_rat_rdiv_refuted), which is right exactly when the divisor is its own inverse or the product vanishes (C38_mul_rat_rdiv_right_iff_partial). For dense tensors see C37."
  },
  {
   "property": "C39",
   "status": "partial",
   "theorems": [
    "RA.C39_exp_actual",
    "RA.C39_exp_refuted",
    "RA.C39_exp_partial",
    "RA.C39_dense_exp_ub",
    "RA.C39_exp_right_iff_partial"
   ],
   "note": "False for every MAX_DEGREE from 1: computes the sum of k! x^k below MAX_DEGREE (C39_exp_actual, C39_exp_refuted); dense exp accesses memory out of bounds. Proved: exactly when it is right in characteristic 0 (C39_exp_right_iff_partial), namely for MAX_DEGREE 0, the zero argument at MAX_DEGREE 1, and arguments whose square vanishes at MAX_DEGREE at least 2."
  },
  {
   "property": "C40",
   "status": "partial",
   "theorems": [
    "RA.C40_fmexp_actual",
    "RA.C40_fmexp_refuted",
    "RA.C40_fmexp_partial",
    "RA.C40_fmexp_right_iff_partial"
   ],
   "note": "False for every MAX_DEGREE from 1 (C40_fmexp_actual, C40_fmexp_refuted). Proved: exactly when it is right in characteristic 0 (C40_fmexp_right_iff_partial)."
  },
  {
   "property": "C41",
   "status": "partial",
   "theorems": [
    "RA.C41_log_actual",
    "RA.C41_log_constant",
    "RA.C41_log_refuted",
    "RA.C41_log_partial",
    "RA.C41_log_right_iff_partial"
   ],
   "note": "False for every MAX_DEGREE from 1: log returns a constant that does not depend on its argument (C41_log_actual, C41_log_refuted). Proved: exactly when it is right in characteristic 0 (C41_log_right_iff_partial), namely at MAX_DEGREE 0, and for the unit at MAX_DEGREE 1."
  },
  {
   "property": "C42",
   "status": "partial",
   "theorems": [
    "RA.C42_transparent_partial",
    "RA.C42_get_diverges",
    "RA.C42_transparent_refuted",
    "RA.C42_dense_tensor_refuted",
    "RA.C42_dense_tensor_partial"
   ],
   "note": "False: get and get_mut of a wrapper recurse for ever (refuted). Proved: every other method is transparent."
  },
  {
   "property": "C43",
   "status": "partial",
   "theorems": [
    "RA.C43_mobius",
    "RA.C43_level_partial",
    "RA.C43_level_diverges",
    "RA.C43_hall_set_size_partial",
    "RA.C43_hall_set_size_diverges",
    "RA.C43_hall_set_size_never_returns",
    "RA.C43_hall_set_size_refuted",
    "RA.C43_level_zero",
    "RA.C43_level_debug_overflow",
    "RA.C43_level_release_exact",
    "RA.C43_level_release_overflow"
   ],
   "note": "False from depth 6 on: hall_set_size never returns, for every width (C43_hall_set_size_never_returns, C43_hall_set_size_refuted), because mobius recurses on itself at squarefree composite numbers (C43_mobius). Proved: Witt numbers at every prime-power level, and the full statement for depth at most 5. When the power does not fit in isize: debug builds panic (C43_level_debug_overflow), release builds return an exactly described number (C43_level_release_exact) that can be wrong (C43_level_release_overflow). Level 0 panics (C43_level_zero)."
  },
  {
   "property": "C44",
   "status": "partial",
   "theorems": [
    "RA.C44_get",
    "RA.C44_grow_extends",
    "RA.C44_returns_partial",
    "RA.C44_never_returns",
    "RA.C44_find_deg_partial",
    "RA.C44_find_deg_beyond",
    "RA.C44_find_deg_boundary",
    "RA.C44_degree_range_map_refuted"
   ],
   "note": "False: histories reaching degree 6 never return, and find_deg accepts the first index beyond the map (C44_degree_range_map_refuted, C44_find_deg_boundary). Proved: get and grow for every history that returns, find_deg for every index inside the map, errors beyond."
  },
  {
   "property": "C45",
   "status": "proved",
   "theorems": [
    "RA.C45_pack_unpack",
    "RA.C45_unpack_pack",
    "RA.C45_from_letter",
    "RA.C45_display_pair",
    "RA.C45_from_letter_too_big",
    "RA.C45_any_key",
    "RA.C45_new"
   ],
   "note": "Packing is a bijection between 64-bit words and field tuples; the bound on letters is shown to be needed. What to_index, is_letter and is_valid give on every 64-bit word: C45_any_key."
  },
  {
   "property": "C46",
   "status": "partial",
   "theorems": [
    "RA.C46_built_set",
    "RA.C46_cache_never_changes",
    "RA.C46_never_returns",
    "RA.C46_get_hall_set_refuted",
    "RA.C46_write_never_granted",
    "RA.C46_waiting_writer_stops_all",
    "RA.C46_agreement_partial",
    "RA.C46_hit_returns_partial"
   ],
   "note": "False: a call for a width that is not cached never returns under any schedule, because the read guard lives to the end of the if-let and write() waits for it (C46_get_hall_set_refuted, C46_never_returns). Proved: calls for cached widths return and share the object; the cache never changes; what is built before the call blocks (C46_built_set)."
  },
  {
   "property": "C47",
   "status": "partial",
   "theorems": [
    "RA.C47_lookups_partial",
    "RA.C47_grow_up_degree_partial",
    "RA.C47_details_partial",
    "RA.C47_new_never_returns",
    "RA.C47_hall_set_refuted",
    "RA.C47_letters_never_available",
    "RA.C47_grow_up_poisons",
    "RA.C47_degree_range_partial",
    "RA.C47_is_letter",
    "RA.C47_letter_degree",
    "RA.C47_degree_range_last"
   ],
   "note": "False: grow_up of the trait panics, keys never become available, and new() does not return for 2 to 10 letters (refutation and C47_... theorems). Proved: lookups in every set that can be made never panic and are TooSmall for every key but 0; what the three lookups return in any table (C47_details_partial); inherent grow_up reaches the degree. is_letter is true exactly for the keys of from_letter (C47_is_letter), but the degree of the last letter is not 1 and that of 0 is (C47_letter_degree)."
  },
  {
   "property": "C48",
   "status": "partial",
   "theorems": [
    "RA.C48_lparent_is_parent",
    "RA.C48_parent_actual",
    "RA.C48_parent_partial",
    "RA.C48_parents_refuted",
    "RA.C48_parents_panic",
    "RA.C48_parents_right_iff_partial"
   ],
   "note": "False: both functions return the right parent of the right parent (C48_parent_actual, C48_parents_refuted), and panic with the sets the code makes. Proved: parent() when the right parent is a letter; exactly when the two functions are right (C48_parents_right_iff_partial)."
  },
  {
   "property": "C49",
   "status": "proved",
   "theorems": [
    "RA.C49_from_degree_f64",
    "RA.C49_from_degree_f32",
    "RA.C49_from_degree_f32_rounded",
    "RA.C49_from_degree_f32_bound",
    "RA.C49_from_degree_monotone",
    "RA.C49_from_rational",
    "RA.C49_from_rational_float"
   ],
   "note": "f32 and f64 modelled as IEEE 754 formats with round to nearest, ties to even. from_rational is n/d over a field, and the correctly rounded quotient for floats."
  },
  {
   "property": "C50",
   "status": "proved",
   "theorems": [
    "RA.C50_closed",
    "RA.C50_correctly_rounded",
    "RA.C50_commutative",
    "RA.C50_neutral",
    "RA.C50_eq",
    "RA.C50_add_not_associative",
    "RA.C50_not_distributive",
    "RA.C50_nan",
    "RA.C50_infinite",
    "RA.C50_signs",
    "RA.C50_overflow",
    "RA.C50_eq_iff"
   ],
   "note": "Includes exactly when results are not numbers, infinite or negative (C50_nan, C50_infinite, C50_signs, C50_overflow), and the failure of associativity and distributivity, which delimits the theorems stated over rings."
  },
  {
   "property": "C51",
   "status": "partial",
   "theorems": [
    "RA.C51_never_detected",
    "RA.C51_overflow_detected_refuted",
    "RA.C51_letters_lost",
    "RA.C51_overflow_detected_partial",
    "RA.C51_debug_right_iff",
    "RA.C51_release_repeats"
   ],
   "note": "False: nothing is refused below 2^31 letters and letters are lost silently (C51_overflow_detected_refuted, C51_never_detected, C51_letters_lost). Proved: the one detected case; exactly when the letters of a concatenation can be read back in debug builds (C51_debug_right_iff), and what release builds read back (C51_release_repeats)."
  },
  {
   "property": "C52",
   "status": "partial",
   "theorems": [
    "RA.C52_set_letter_exact",
    "RA.C52_second_letter_iff_partial",
    "RA.C52_further_letters",
    "RA.C52_set_letter_partial",
    "RA.C52_set_letter_one_letter",
    "RA.C52_out_of_range",
    "RA.C52_set_letter_refuted"
   ],
   "note": "False for every alphabet of two or more letters (C52_set_letter_refuted). Proved: exactly when it is right (C52_set_letter_exact), in particular for the last letter, for the second letter from the right if and only if the last two letters are at most 2, and further left only for letters equal to 1; panics outside the word."
  },
  {
   "property": "C53",
   "status": "partial",
   "theorems": [
    "RA.C53_expressions_partial",
    "RA.C53_const_product_ub",
    "RA.C53_expressions_refuted",
    "RA.C53_nonempty_words"
   ],
   "note": "False: a product of two constants is undefined behaviour (C53_expressions_refuted), and this is the only obstacle (C53_const_product_ub). Proved: every other expression evaluates to its value; expressions in non-empty words never fail."
  },
  {
   "property": "C54",
   "status": "proved",
   "theorems": [
    "RA.C54_word_product",
    "RA.C54_word_product_truncated"
   ],
   "note": "Entry for entry equality with the vector of the concatenated key. The product of two empty words is excluded (C34: undefined behaviour)."
  },
  {
   "property": "C55",
   "status": "proved",
   "theorems": [
    "RA.C55_truncation",
    "RA.C55_truncation_operands"
   ],
   "note": "No law on the coefficients is used."
  },
  {
   "property": "C56",
   "status": "proved",
   "theorems": [
    "RA.C56_grading"
   ],
   "note": "Stated for products that return; C34 says exactly which do."
  },
  {
   "property": "C57",
   "status": "proved",
   "theorems": [
    "RA.C57_renaming"
   ],
   "note": "No law on the coefficients is used."
  },
  {
   "property": "C58",
   "status": "partial",
   "theorems": [
    "RA.C58_display_diverges",
    "RA.C58_display_refuted",
    "RA.C58_display_empty_partial",
    "RA.C58_display_right_iff_partial",
    "RA.C58_display_partial",
    "RA.C58_display_short_partial",
    "RA.C58_display_debug_keys_partial"
   ],
   "note": "False: printing a tensor with any coefficient never returns (C58_display_refuted, C58_display_diverges), so the text is right exactly for the empty vector (C58_display_right_iff_partial). Proved also: any basis whose key iterator and key text work; up to 4N coefficients when keys are printed with their Debug text."
  },
  {
   "property": "C59",
   "status": "proved",
   "theorems": [
    "RA.C59_to_dense_tensor",
    "RA.C59_iteration",
    "RA.C59_rebuild",
    "RA.C59_to_dense"
   ],
   "note": "Histories are trees of operations, with a step that reorders the hash map. The dense half is proved for bases with a total injective index and, separately, for the tensor basis (C59_to_dense_tensor)."
  },
  {
   "property": "C60",
   "status": "proved",
   "theorems": [
    "RA.C60_get_slice",
    "RA.C60_index_types",
    "RA.C60_get_mut_slice",
    "RA.C60_get_mut_slice_lent",
    "RA.C60_degree_slice"
   ],
   "note": "Slice indexing of the standard library is modelled by its documented behaviour."
  },
  {
   "property": "C61",
   "status": "partial",
   "theorems": [
    "RA.C61_float_unit_refuted",
    "RA.C61_float_unit_finite_partial",
    "RA.C61_float_unit_partial",
    "RA.C61_float_unit_right_iff_partial"
   ],
   "note": "False: with a padded unit an infinite coefficient turns into NaN (C61_float_unit_refuted). Proved: bit for bit (up to -0 becoming +0) with the unit that from_key makes; for any padding, exactly when the coefficient of a word compares equal (C61_float_unit_right_iff_partial)."
  },
  {
   "property": "C62",
   "status": "partial",
   "theorems": [
    "RA.C62_add_comm_refuted",
    "RA.C62_add_comm_same_size_partial",
    "RA.C62_add_comm_partial",
    "RA.C62_sparse_add_comm",
    "RA.C62_add_comm_iff_partial"
   ],
   "note": "False for dense vectors of different sizes: the sign of a zero (C62_add_comm_refuted). Proved: bit for bit for equal sizes and for sparse vectors; up to the sign of zeros for any sizes; exactly when the two sums are the same bit for bit (C62_add_comm_iff_partial)."
  },
  {
   "property": "C63",
   "status": "proved",
   "theorems": [
    "RA.C63_accuracy",
    "RA.C63_no_overflow"
   ],
   "note": "The exact value and the sum of magnitudes are stated with the concatenation product over the rationals."
  },
  {
   "property": "C64",
   "status": "proved",
   "theorems": [
    "RA.C64_integers_exact",
    "RA.C64_integers_bound",
    "RA.C64_integers_bound_f64"
   ],
   "note": "Includes witnesses that both bounds are best possible."
  },
  {
   "property": "C65",
   "status": "partial",
   "theorems": [
    "RA.C65_programs_partial",
    "RA.C65_unsafe",
    "RA.C65_programs_refuted"
   ],
   "note": "False: a product with an empty factor, or of degree 0 into an empty target, is undefined behaviour (C65_programs_refuted). Proved: the check allowedProg on word lengths and degrees decides exactly which programs are undefined (C65_unsafe), and all others run and give the reference result (C65_programs_partial)."
  },
  {
   "property": "C66",
   "status": "proved",
   "theorems": [
    "RA.C66_programs_exact",
    "RA.C66_all_statements"
   ],
   "note": "For programs passing the check of C65. C66_all_statements covers division and changes of single entries as well."
  },
  {
   "property": "C67",
   "status": "proved",
   "theorems": [
    "RA.C67_sparse_programs",
    "RA.C67_dense_sparse_agree"
   ],
   "note": "Repeated words in one list of terms are excluded: C29 shows the two types differ there."
  },
  {
   "property": "C68",
   "status": "proved",
   "theorems": [
    "RA.C68_reversal"
   ],
   "note": "Products of degree 0 are excluded (C34: undefined behaviour)."
  },
  {
   "property": "C69",
   "status": "proved",
   "theorems": [
    "RA.C69_nilpotent",
    "RA.C69_inverse",
    "RA.C69_inverse_const"
   ],
   "note": "Nilpotency of products of any tensors without constant term, the inverse by Horner's rule on both sides, and the converse for constant terms."
  },
  {
   "property": "C70",
   "status": "proved",
   "theorems": [
    "RA.C70_evaluation",
    "RA.C70_homomorphism",
    "RA.C70_commutator"
   ],
   "note": "Evaluation is a sum over all words of the letters, in any Mathlib algebra over the coefficient ring."
  },
  {
   "property": "C71",
   "status": "proved",
   "theorems": [
    "RA.C71_lie"
   ],
   "note": "Shuffles are defined by their usual recursion in SpecAlg.lean."
  },
  {
   "property": "C72",
   "status": "proved",
   "theorems": [
    "RA.C72_provided",
    "RA.C72_key_ext",
    "RA.C72_dense_get",
    "RA.C72_dense",
    "RA.C72_sparse"
   ],
   "note": "The required methods are assumed correct for the general theorem and proved correct for dense vectors over any basis and field; for sparse vectors the access methods are proved correct."
  },
  {
   "property": "C73",
   "status": "partial",
   "theorems": [
    "RA.C73_new_partial",
    "RA.C73_eq_partial",
    "RA.C73_operators_partial",
    "RA.C73_dense_partial",
    "RA.C73_sparse_panics",
    "RA.C73_operators_refuted",
    "RA.C73_from_partial"
   ],
   "note": "False for sparse vectors: to_owned is todo!(), so every operator panics (C73_operators_refuted, C73_sparse_panics). Proved: for every type with correct required methods, and for dense vectors. The file is not compiled in the crate."
  },
  {
   "property": "C74",
   "status": "partial",
   "theorems": [
    "RA.C74_cause",
    "RA.C74_map_errors",
    "RA.C74_tensor_key_partial",
    "RA.C74_hall_debug_partial",
    "RA.C74_hall_display_partial",
    "RA.C74_hall_display_refuted",
    "RA.C74_error_texts_refuted",
    "RA.C74_error_texts_partial"
   ],
   "note": "False for the Display text of Hall keys of pairs and for the read/write errors of the lock (C74_hall_display_refuted, C74_error_texts_refuted). Proved: Debug texts of tensor keys and Hall keys, exactly which Hall keys print alike, exactly which errors do."
  },
  {
   "property": "C75",
   "status": "proved",
   "theorems": [
    "RA.C75_answers",
    "RA.C75_sequential",
    "RA.C75_linearizable",
    "RA.C75_progress",
    "RA.C75_grow_up_breaks",
    "RA.C75_panic_is_last",
    "RA.C75_exclusion",
    "RA.C75_run_length",
    "RA.C75_stuck_is_done",
    "RA.C75_can_finish"
   ],
   "note": "Transition system of the lock; the policy towards readers and the grow_up behind the lock are parameters. A call that panics is the last of its thread (C75_panic_is_last). Mutual exclusion: C75_exclusion. Runs end: C75_run_length, C75_stuck_is_done, C75_can_finish. Answers of lookups: C75_answers."
  },
  {
   "property": "C76",
   "status": "proved",
   "theorems": [
    "RA.C76_commutator_accuracy",
    "RA.C76_no_overflow",
    "RA.C76_integers_exact"
   ],
   "note": "Exact values and magnitudes are stated with the concatenation product over the rationals, as in C63."
  },
  {
   "property": "C77",
   "status": "partial",
   "theorems": [
    "RA.C77_antisymmetry_iff_partial",
    "RA.C77_single_terms_partial",
    "RA.C77_homogeneous_partial",
    "RA.C77_antisymmetry_refuted",
    "RA.C77_antisymmetry_error_partial",
    "RA.C77_antisymmetry_integers_partial",
    "RA.C77_antisymmetry_letters_partial"
   ],
   "note": "False for every width: in [a, a] for a = 1 + e1 + 2^-60 e1 e1 the coefficient of e1 e1 is -2^-60 (C77_antisymmetry_refuted). Proved: exactly when the two coefficients compare equal, namely when the terms of a b and of b a may be added in either order (C77_antisymmetry_iff_partial); where at most one term of each product is not zero (C77_single_terms_partial), in particular for homogeneous tensors (C77_homogeneous_partial) and combinations of letters; for integers within the bounds of C76; up to twice the error of C76 in general."
  },
  {
   "property": "C78",
   "status": "partial",
   "theorems": [
    "RA.C78_from_degree_partial",
    "RA.C78_from_degree_refuted"
   ],
   "note": "False (C78_from_degree_refuted): from_degree(d) has no place for the words of degree d. Proved: it stores zeros for exactly the words of degree less than d. The function is private and not called in the crate."
  },
  {
   "property": "C79",
   "status": "proved",
   "theorems": [
    "RA.C79_tensor_keys",
    "RA.C79_tensor_basis",
    "RA.C79_dense",
    "RA.C79_products",
    "RA.C79_programs",
    "RA.C79_sparse_programs",
    "RA.C79_debug_decides",
    "RA.C79_release_goes_on",
    "RA.C79_hall_sizes",
    "RA.C79_hall_keys"
   ],
   "note": "By a relation between the two runs that every construct of the model preserves (Proofs/Profiles.lean); no hypotheses on the arguments."
  },
  {
   "property": "C80",
   "status": "proved",
   "theorems": [
    "RA.C80_accuracy",
    "RA.C80_relative",
    "RA.C80_no_overflow",
    "RA.C80_integers_exact"
   ],
   "note": "By induction over the expression (Props/FloatExpr.lean, fl_eval); the error specification is in SpecError.lean and does not mention the model. Finite coefficients only in C80_accuracy; C80_no_overflow gives a condition on the scalars under which all are finite. A product of two constants is undefined behaviour (C33, C53)."
  },
  {
   "property": "C81",
   "status": "proved",
   "theorems": [
    "RA.C81_to_letters_any",
    "RA.C81_from_letters",
    "RA.C81_to_letters",
    "RA.C81_round_trip_iff",
    "RA.C81_push_front",
    "RA.C81_push_front_iff"
   ],
   "note": "b is fixed by 2^(b-1) <= N < 2^b. Debug builds panic on all these inputs (C01, C06). to_letters of any 64-bit key: C81_to_letters_any."
  },
  {
   "property": "C82",
   "status": "proved",
   "theorems": [
    "RA.C82_change_of_coefficients",
    "RA.C82_change_of_coefficients_sparse",
    "RA.C82_expressions",
    "RA.C82_dense",
    "RA.C82_products",
    "RA.C82_exp_log",
    "RA.C82_outcome",
    "RA.C82_product_outcome",
    "RA.C82_invariant",
    "RA.C82_sparse_homomorphism",
    "RA.C82_floats_representable",
    "RA.C82_sparse_entries_differ"
   ],
   "note": "Programs are lists of statements over registers, as for C69 and C79. C82_sparse_entries_differ shows that sparse vectors do need the extra condition."
  },
  {
   "property": "C83",
   "status": "proved",
   "theorems": [
    "RA.C83_operations",
    "RA.C83_from_iterator",
    "RA.C83_to_dense",
    "RA.C83_programs",
    "RA.C83_runs",
    "RA.C83_to_dense_tensor",
    "RA.C83_duplicates_matter"
   ],
   "note": "SparseRun allows any reordering of any register before every statement. A NaN is one value in the model, so its payload is not covered. C83_duplicates_matter shows why distinct keys are required."
  },
  {
   "property": "C84",
   "status": "proved",
   "theorems": [
    "RA.C84_powers_of_two",
    "RA.C84_scale_factor",
    "RA.C84_rescale_letters",
    "RA.C84_negate",
    "RA.C84_underflow_matters"
   ],
   "note": "Underflow must be excluded (C84_underflow_matters); equality of zeros is up to their sign, and a NaN is one value in the model."
  },
  {
   "property": "C85",
   "status": "proved",
   "theorems": [
    "RA.C85_from_iterator_accuracy",
    "RA.C85_integers_any_order",
    "RA.C85_order_error",
    "RA.C85_order_matters"
   ],
   "note": "Stated for dense vectors of tensors; sparse from_iterator keeps only the last value for a key (C29). C85_order_matters shows that sums that are not exact depend on the order."
  },
  {
   "property": "C86",
   "status": "proved",
   "theorems": [
    "RA.C86_single_term",
    "RA.C86_no_term",
    "RA.C86_word_product",
    "RA.C86_shift",
    "RA.C86_grading"
   ],
   "note": "The floating-point counterparts of C54 and C56. The vanishing terms must be finite: zero times infinity is NaN (C61)."
  },
  {
   "property": "C87",
   "status": "proved",
   "theorems": [
    "RA.C87_exp",
    "RA.C87_log",
    "RA.C87_log_exp",
    "RA.C87_exp_log",
    "RA.C87_exp_add",
    "RA.C87_exp_neg",
    "RA.C87_exp_linear"
   ],
   "note": "The programs tensorExp and tensorLog are compositions of the modelled operations (multiply, scalar_rdivide, add, sub, from_key), as a user would write them; they are not functions of the crate, whose own exp and log are refuted in C39 and C41."
  },
  {
   "property": "C88",
   "status": "proved",
   "theorems": [
    "RA.C88_shuffle",
    "RA.C88_exp",
    "RA.C88_log",
    "RA.C88_product",
    "RA.C88_bch",
    "RA.C88_chen",
    "RA.C88_inverse",
    "RA.C88_backwards",
    "RA.C88_piecewise_linear"
   ],
   "note": "Programs as in C87. Lie elements and group-like tensors are described by their shuffle identities up to the truncation degree; every tensor made with brackets from letters is one (C71)."
  },
  {
   "property": "C89",
   "status": "proved",
   "theorems": [
    "RA.C89_exp_accuracy",
    "RA.C89_exp_finite",
    "RA.C89_exp_linear",
    "RA.C89_exp_linear_finite",
    "RA.C89_log_accuracy",
    "RA.C89_log_finite"
   ],
   "note": "Programs as in C87, at the floating-point coefficients of C50. The bound is on finite coefficients; C89_exp_finite and C89_log_finite give conditions under which all are finite."
  },
  {
   "property": "C90",
   "status": "proved",
   "theorems": [
    "RA.C90_signature_accuracy",
    "RA.C90_signature_finite",
    "RA.C90_signature_linear",
    "RA.C90_signature_linear_finite"
   ],
   "note": "Program as in C88, at the floating-point coefficients of C50. The bound is on finite coefficients; C90_signature_finite and C90_signature_linear_finite give conditions under which all are finite."
  },
  {
   "property": "C91",
   "status": "proved",
   "theorems": [
    "RA.C91_calls",
    "RA.C91_outcome",
    "RA.C91_panic_at",
    "RA.C91_closure",
    "RA.C91_order",
    "RA.C91_count",
    "RA.C91_pure",
    "RA.C91_panic",
    "RA.C91_inplace_scalar",
    "RA.C91_inplace_order",
    "RA.C91_inplace_one"
   ],
   "note": "C91_calls, C91_outcome and C91_panic_at hold for all operands of both products, also those for which multiply_into_impl reads the wrong entries or is undefined behaviour (C37); the arguments of the calls are given for operands that hold the coefficients needed and for constant right factors."
  },
  {
   "property": "C92",
   "status": "proved",
   "theorems": [
    "RA.C92_space",
    "RA.C92_level",
    "RA.C92_level_returns",
    "RA.C92_size",
    "RA.C92_size_returns",
    "RA.C92_range_map"
   ],
   "note": "The statement is about the numbers returned; from depth 6 on hall_set_size returns none (C43). The space of Lie elements is given by the shuffle criterion, and C92_space shows that it consists of the values of commutator expressions."
  },
  {
   "property": "C93",
   "status": "proved",
   "theorems": [
    "RA.C93_ree",
    "RA.C93_iff",
    "RA.C93_log_signature"
   ],
   "note": "Programs as in C53 and C87. One direction is C71; the other comes from the basis of brackets of Lyndon words that also proves C92."
  },
  {
   "property": "C94",
   "status": "partial",
   "theorems": [
    "RA.C94_start_of_degree",
    "RA.C94_degree",
    "RA.C94_constructors_panic",
    "RA.C94_from_iterator",
    "RA.C94_mul_add_panics",
    "RA.C94_products_panic",
    "RA.C94_mul_inplace",
    "RA.C94_scalars_inplace",
    "RA.C94_one_letter_partial",
    "RA.C94_one_letter_refuted",
    "RA.C94_sparse_partial",
    "RA.C94_no_letters"
   ],
   "note": "False of the code (C94_one_letter_refuted, for all coefficients and both profiles). What each call does instead is proved exactly; the partial theorems are what holds: keys, access, linear operations, sparse vectors. C94_no_letters is the same question for an alphabet without letters."
  },
  {
   "property": "C95",
   "status": "proved",
   "theorems": [
    "RA.C95_size",
    "RA.C95_full_size",
    "RA.C95_panic_any",
    "RA.C95_unwind",
    "RA.C95_outcome",
    "RA.C95_panic_at",
    "RA.C95_inplace_scalar"
   ],
   "note": "C95_outcome, C95_size, C95_full_size and C95_panic_any hold for all operands of both products. Which entries multiply_into_impl has written at a panic with a right factor of positive degree, where it reads the wrong entries or is undefined behaviour (C37), is not described."
  },
  {
   "property": "C96",
   "status": "proved",
   "theorems": [
    "RA.C96_expression",
    "RA.C96_dynkin"
   ],
   "note": "Programs as in C53 and C93. C96_dynkin is an equivalence with Ree criterion, so it also decides by computation whether a tensor over a field of characteristic zero is a Lie element."
  },
  {
   "property": "C97",
   "status": "proved",
   "theorems": [
    "RA.C97_chow",
    "RA.C97_exp"
   ],
   "note": "Programs as in C88 (exponentials by the series, with multiply, add and scalar division of the crate; the exp of the crate itself is C39). Over a field with exact arithmetic."
  },
  {
   "property": "C98",
   "status": "proved",
   "theorems": [
    "RA.C98_conjugation",
    "RA.C98_conjugate_exp",
    "RA.C98_bch"
   ],
   "note": "Programs as in C87, with the commutator of the crate. The formula for the logarithm is up to degree four; that the logarithm is a Lie element in every degree is C88_bch."
  },
  {
   "property": "C99",
   "status": "proved",
   "theorems": [
    "RA.C99_letters",
    "RA.C99_letters_fused",
    "RA.C99_basis_fused",
    "RA.C99_resume",
    "RA.C99_repeat",
    "RA.C99_ends_iff",
    "RA.C99_release_round",
    "RA.C99_debug_panics"
   ],
   "note": "What the iteration yields is C07; that it yields every key only over one letter is C07_iter_keys_refuted."
  },
  {
   "property": "C100",
   "status": "proved",
   "theorems": [
    "RA.C100_dense_add",
    "RA.C100_dense_scale",
    "RA.C100_dense_lender",
    "RA.C100_dense_total",
    "RA.C100_sparse_scale",
    "RA.C100_sparse_add",
    "RA.C100_sparse_total",
    "RA.C100_inplace_scalar",
    "RA.C100_inplace_compare",
    "RA.C100_inplace_total",
    "RA.C100_product",
    "RA.C100_product_total"
   ],
   "note": "C100_dense_total, C100_sparse_total, C100_product_total tie the model with panicking coefficients to the model of all other claims; clone and the conversions of arguments are taken to return. multiply_into with a right factor of positive degree, where it reads the wrong entries or is undefined behaviour (C37), is only tied to C95 for coefficients that never panic (C100_inplace_total)."
  },
  {
   "property": "C101",
   "status": "proved",
   "theorems": [
    "RA.C101_dense_new",
    "RA.C101_fused_multiply",
    "RA.C101_fused_divide",
    "RA.C101_key_quotient",
    "RA.C101_key_dense_present",
    "RA.C101_key_dense_absent",
    "RA.C101_key_sparse",
    "RA.C101_from_iterator",
    "RA.C101_dense_total",
    "RA.C101_sparse_total"
   ],
   "note": "C101_dense_total and C101_sparse_total tie this to the model of the other claims. The methods of sparse vectors that return a new vector panic in to_owned before any arithmetic (C30). clone and the conversions of arguments are taken to return."
  },
  {
   "property": "C102",
   "status": "proved",
   "theorems": [
    "RA.C102_coefficients",
    "RA.C102_injective",
    "RA.C102_operations",
    "RA.C102_expression",
    "RA.C102_surjective",
    "RA.C102_lie_expression",
    "RA.C102_lie",
    "RA.C102_dimension",
    "RA.C102_range_map"
   ],
   "note": "FreeAlgebra, FreeLieAlgebra, ideals and quotients are those of Mathlib. Products need a factor of positive degree (C34), expressions no product of two constants (C53). That the free Lie algebra embeds into the free algebra is not used."
  },
  {
   "property": "C103",
   "status": "proved",
   "theorems": [
    "RA.C103_total",
    "RA.C103_dense",
    "RA.C103_sparse",
    "RA.C103_algebra",
    "RA.C103_run_total",
    "RA.C103_programs",
    "RA.C103_expressions",
    "RA.C103_values",
    "RA.C103_program_values",
    "RA.C103_integers",
    "RA.C103_rationals",
    "RA.C103_only_panics",
    "RA.C103_all_statements"
   ],
   "note": "C103_total and C103_run_total tie the methods with panicking coefficients to those of the other claims. The exact side is the code as it is: where the code is wrong for exact coefficients (C37, C39 to C41), so is what returns here. C103_only_panics: checked integers and rationals meet the condition of the converse. Sparse methods need distinct keys (C67 shows this is always so)."
  },
  {
   "property": "C104",
   "status": "proved",
   "theorems": [
    "RA.C104_exact_signed",
    "RA.C104_returns",
    "RA.C104_total",
    "RA.C104_values",
    "RA.C104_returns_or_panics",
    "RA.C104_integers",
    "RA.C104_in_range",
    "RA.C104_exact"
   ],
   "note": "Products of two constants are undefined behaviour (C53), so NoConstProduct is needed. C104_exact_signed is the exact criterion; it assumes that the scalars written in the expression are in the range."
  },
  {
   "property": "C105",
   "status": "proved",
   "theorems": [
    "RA.C105_exact_all",
    "RA.C105_exact_signed",
    "RA.C105_exact_linear",
    "RA.C105_returns",
    "RA.C105_total",
    "RA.C105_returns_or_panics",
    "RA.C105_values",
    "RA.C105_in_range",
    "RA.C105_exact"
   ],
   "note": "C105_exact_signed is the exact criterion for programs of ring operations, C105_exact_all the one with division and changes of single entries; both assume that the scalars written in the program are in the range, and C105_exact_all that functions changing entries keep them in the range."
  },
  {
   "property": "C106",
   "status": "partial",
   "theorems": [
    "RA.C106_exp_low_partial",
    "RA.C106_exp_scalar_partial",
    "RA.C106_exp_debug",
    "RA.C106_exp_release_ub",
    "RA.C106_exp_release_partial",
    "RA.C106_fmexp_low_partial",
    "RA.C106_fmexp_scalar_partial",
    "RA.C106_fmexp_outcome",
    "RA.C106_log_partial",
    "RA.C106_log_low_partial",
    "RA.C106_log_scalar_ub",
    "RA.C106_series_refuted",
    "RA.C106_log_constant"
   ],
   "note": "False of the code (C106_series_refuted). The outcome is determined for all tensors that store every word up to their degree: C106_exp_debug, C106_exp_release_ub, C106_fmexp_outcome and C106_log_scalar_ub say when nothing is returned, the partial theorems what is returned otherwise. What these methods compute over a correct product is C39 to C41."
  },
  {
   "property": "C107",
   "status": "proved",
   "theorems": [
    "RA.C107_outcome",
    "RA.C107_programs",
    "RA.C107_right_iff",
    "RA.C107_expressions",
    "RA.C107_sparse",
    "RA.C107_debug_release"
   ],
   "note": "Wraps relates a program over the integers to the one over machine integers with the same statements and reduced coefficients; wraps_map shows that every program without closures and divisions has such a partner. Division is excluded: it does not commute with reduction, and the smallest signed integer divided by -1 panics in release builds too."
  },
  {
   "property": "C108",
   "status": "proved",
   "theorems": [
    "RA.C108_expressions",
    "RA.C108_integer_expressions",
    "RA.C108_all_statements",
    "RA.C108_exact",
    "RA.C108_checked",
    "RA.C108_integers",
    "RA.C108_magnitudes",
    "RA.C108_in_between"
   ],
   "note": "C108_all_statements includes division and changes of single entries. The general criteria behind C105 and C108 are guarded_returns and guarded_returns_all."
  },
  {
   "property": "C109",
   "status": "proved",
   "theorems": [
    "RA.C109_exact",
    "RA.C109_values",
    "RA.C109_dense_sparse_agree",
    "RA.C109_programs",
    "RA.C109_float",
    "RA.C109_division_differs"
   ],
   "note": "Linear programs as in C67, without repeated words in one list of terms (C29); the exact criterion assumes that the scalars written in the program are in the range. sparse_run_total ties the programs with panicking coefficients to those of C67."
  },
  {
   "property": "C110",
   "status": "proved",
   "theorems": [
    "RA.C110_accuracy",
    "RA.C110_relative",
    "RA.C110_no_overflow"
   ],
   "note": "Changes of an entry with a closure (modify) are not included. The specification in SpecErrorProg.lean runs the reference semantics of C65 with magnitudes, with numbers of roundings and with magnitudes up to a bound; the relation between a floating-point number and these records is preserved by each operation (Tracks), and C82 carries it through programs."
  },
  {
   "property": "C111",
   "status": "proved",
   "theorems": [
    "RA.C111_general",
    "RA.C111_agree",
    "RA.C111_accuracy",
    "RA.C111_zero_times_infinity",
    "RA.C111_infinite_scalar",
    "RA.C111_zero_divisor",
    "RA.C111_sign_of_zero"
   ],
   "note": "Linear programs as in C67 together with division. That each of the conditions is needed is shown by C111_zero_times_infinity, C111_infinite_scalar and C111_zero_divisor, and that the sign of zero differs by C111_sign_of_zero."
  },
  {
   "property": "C112",
   "status": "proved",
   "theorems": [
    "RA.C112_truncation",
    "RA.C112_letters",
    "RA.C112_backwards",
    "RA.C112_backwards_rounding"
   ],
   "note": "C112_truncation and C112_letters use no law of the coefficients; C112_backwards assumes exact ones, and C112_backwards_rounding shows that it needs them."
  },
  {
   "property": "C113",
   "status": "proved",
   "theorems": [
    "RA.C113_dense",
    "RA.C113_sparse",
    "RA.C113_agree",
    "RA.C113_dense_exact",
    "RA.C113_sparse_exact",
    "RA.C113_dense_float",
    "RA.C113_float",
    "RA.C113_memory"
   ],
   "note": "Dense vectors: all statements except insert_single and the extension trait for keys (C23, C31); sparse vectors: all statements except the methods that are todo!() (C30), without repeated keys in one list of terms (C29). C113_dense and C113_sparse are stated up to any relation that does not see stored zeros; the exact and the floating-point theorems are instances. C113_memory uses no law of the coefficients or of the basis; the basis of the crate's own tests violates its condition at key 255."
  },
  {
   "property": "C114",
   "status": "proved",
   "theorems": [
    "RA.C114_same",
    "RA.C114_same_clear",
    "RA.C114_clear_differs",
    "RA.C114_linear",
    "RA.C114_memory",
    "RA.C114_in_place",
    "RA.C114_stays"
   ],
   "note": "The content of a buffer is the ghost field lent of the vector made over it (DESIGN.md), as in C25. With panicking coefficients: C115. clear is excluded from C114_same for a reason: C114_clear_differs."
  },
  {
   "property": "C115",
   "status": "proved",
   "theorems": [
    "RA.C115_returns",
    "RA.C115_frame",
    "RA.C115_memory",
    "RA.C115_step",
    "RA.C115_not_allowed",
    "RA.C115_safe",
    "RA.C115_check",
    "RA.C115_unsafe_after_panic"
   ],
   "note": "clone, drop, zero and one are taken to return, and so is the closure given to modify. C115_returns ties the statements to those of C103. The safety part is about vectors that are not exclusive views (those are in C118); its condition on struck out statements is needed in some form (C115_unsafe_after_panic). Entries after a panic are C100."
  },
  {
   "property": "C116",
   "status": "proved",
   "theorems": [
    "RA.C116_same",
    "RA.C116_no_panic",
    "RA.C116_values",
    "RA.C116_spoilt"
   ],
   "note": "C116_values is for registers that start empty and for the ring statements (no modify, no division by a scalar), as in C103_program_values. clear of a spoilt register counts as spoilt (assigning zero does not), which is more cautious than needed for owned vectors. C116_spoilt is a concrete run."
  },
  {
   "property": "C117",
   "status": "proved",
   "theorems": [
    "RA.C117_dense",
    "RA.C117_sparse_returns",
    "RA.C117_sparse",
    "RA.C117_sparse_runs",
    "RA.C117_agree",
    "RA.C117_order_matters"
   ],
   "note": "Linear programs as in C109: no copies, exchanges, products, or divisions, and no repeated word in one list of terms. clear of a spoilt register counts as spoilt, as in C116. C117_sparse_runs says that the runs of C117_sparse exist; C117_sparse_returns ties the statements to those of C109. C117_order_matters is a concrete witness."
  },
  {
   "property": "C118",
   "status": "proved",
   "theorems": [
    "RA.C118_same",
    "RA.C118_same_clear",
    "RA.C118_safe",
    "RA.C118_in_place",
    "RA.C118_half_written"
   ],
   "note": "The storage model is that of C114. That clear must be excluded from C118_same is C114_clear_differs. C118_safe extends C115_safe to exclusive views for programs without clear. C118_half_written is a concrete run."
  },
  {
   "property": "C119",
   "status": "proved",
   "theorems": [
    "RA.C119_debug_release",
    "RA.C119_exact",
    "RA.C119_values",
    "RA.C119_no_panic",
    "RA.C119_lost_differ"
   ],
   "note": "Extends C107_debug_release, which is about runs without panics. The release run is assumed to return (C107_programs and C65 say when it does). lost is coarser than the notion of C116: a panicking assignment counts, since the whole program would have stored its result. C119_lost_differ is a concrete run."
  },
  {
   "property": "C120",
   "status": "proved",
   "theorems": [
    "RA.C120_step",
    "RA.C120_program",
    "RA.C120_outcomes",
    "RA.C120_memory",
    "RA.C120_limit",
    "RA.C120_debug_first",
    "RA.C120_no_panic",
    "RA.C120_returns"
   ],
   "note": "The registers need not be complete tensors. C120_limit is the witness that the bound is needed; C120_debug_first and C120_no_panic need none. Coefficients whose own overflow behaviour depends on the build are C119."
  }
 ]
}