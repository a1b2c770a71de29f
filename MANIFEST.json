{
 "claims": [
  {
   "property": "C01",
   "status": "proved",
   "theorems": [
    "Malg.C01_history",
    "Malg.C01_placement"
   ],
   "note": "All histories over any number of vectors, every allocator that grants the requests the history makes; conversions between element types not included."
  },
  {
   "property": "C02",
   "status": "proved",
   "theorems": [
    "Malg.C02_ownership",
    "Malg.C02_no_leak"
   ],
   "note": "Same histories; ownership is one to one at every point, nothing is left at the end."
  },
  {
   "property": "C03",
   "status": "proved",
   "theorems": [
    "Malg.C03_resize",
    "Malg.C03_no_stale"
   ],
   "note": "After every history."
  },
  {
   "property": "C04",
   "status": "partial",
   "theorems": [
    "Malg.C04_report_false",
    "Malg.C04_leak_false",
    "Malg.C04_overflow_false",
    "Malg.C04_no_request_partial"
   ],
   "note": "False: a refused request is never reported; growing writes through null, shrinking leaks the block, sizes beyond the address space write outside a block. Operations that need no new block are not affected."
  },
  {
   "property": "C05",
   "status": "proved",
   "theorems": [
    "Malg.C05_copy",
    "Malg.C05_move",
    "Malg.C05_self"
   ],
   "note": "After every history, for all later operations."
  },
  {
   "property": "C06",
   "status": "proved",
   "theorems": [
    "Malg.C06_at_is_linear",
    "Malg.C06_address_bijection",
    "Malg.C06_write_frame",
    "Malg.C06_no_bounds_check"
   ],
   "note": "Addressing, bijection, frame law, and the unchecked cases."
  },
  {
   "property": "C07",
   "status": "proved",
   "theorems": [
    "Malg.C07_constant",
    "Malg.C07_flat",
    "Malg.C07_flat_short",
    "Malg.C07_nested",
    "Malg.C07_nested_empty",
    "Malg.C07_nested_ragged",
    "Malg.C07_copy",
    "Malg.C07_convert",
    "Malg.C07_vector"
   ],
   "note": "All constructors, including the throwing and out-of-bounds branches."
  },
  {
   "property": "C08",
   "status": "proved",
   "theorems": [
    "Malg.C08_reshape",
    "Malg.C08_reshape_entries"
   ],
   "note": "For r*c below 2^64; the wrapping case is C13_reshape_wrap_false."
  },
  {
   "property": "C09",
   "status": "proved",
   "theorems": [
    "Malg.C09_resize"
   ],
   "note": ""
  },
  {
   "property": "C10",
   "status": "partial",
   "theorems": [
    "Malg.C10_assign_partial",
    "Malg.C10_move_assign_partial",
    "Malg.C10_empty_source_ignored",
    "Malg.C10_empty_false",
    "Malg.C10_own_view_false",
    "Malg.C10_assign_nested"
   ],
   "note": "Holds for non-empty sources not sharing data; false for empty sources and views of the target (witnesses)."
  },
  {
   "property": "C11",
   "status": "partial",
   "theorems": [
    "Malg.C11_history_partial",
    "Malg.C11_canonical",
    "Malg.C11_empty_false"
   ],
   "note": "All finite histories on all variables: no undefined behaviour, same observations as tables, rows*cols elements. False for assignment of a matrix without elements, which is ignored."
  },
  {
   "property": "C12",
   "status": "partial",
   "theorems": [
    "Malg.C12_moved_from_false",
    "Malg.C12_reuse_partial",
    "Malg.C12_resize_same_shape_false",
    "Malg.C12_resize_columns_false"
   ],
   "note": "False: moved-from matrices keep their dimensions without storage (C12_moved_from_false). Re-assignment part proved."
  },
  {
   "property": "C13",
   "status": "partial",
   "theorems": [
    "Malg.C13_no_wrap_partial",
    "Malg.C13_wrap_false",
    "Malg.C13_reshape_wrap_false"
   ],
   "note": "False: products of dimensions wrap (two witnesses). Proved below the limits."
  },
  {
   "property": "C14",
   "status": "proved",
   "theorems": [
    "Malg.C14_view",
    "Malg.C14_bad_range",
    "Malg.C14_all",
    "Malg.C14_nested",
    "Malg.C14_row_col"
   ],
   "note": ""
  },
  {
   "property": "C15",
   "status": "proved",
   "theorems": [
    "Malg.C15_write",
    "Malg.C15_write_cofactor"
   ],
   "note": "For view chains of any depth and for CofactorView of square objects."
  },
  {
   "property": "C16",
   "status": "partial",
   "theorems": [
    "Malg.C16_assign_partial",
    "Malg.C16_assign_disjoint",
    "Malg.C16_assign_shift",
    "Malg.C16_assign_convert",
    "Malg.C16_assign_mismatch",
    "Malg.C16_assign_nested",
    "Malg.C16_assign_nested_ignored",
    "Malg.C16_overlap_false",
    "Malg.C16_cofactor_false"
   ],
   "note": "Holds unless a source cell is overwritten before it is read; overlapping witness refutes the full claim. A CofactorView assigned one of its own type is rebound and copies nothing (C16_cofactor_false)."
  },
  {
   "property": "C17",
   "status": "partial",
   "theorems": [
    "Malg.C17_matrix_partial",
    "Malg.C17_view_false"
   ],
   "note": "Exact for Matrix; false for every View and CofactorView."
  },
  {
   "property": "C18",
   "status": "partial",
   "theorems": [
    "Malg.C18_dims_partial",
    "Malg.C18_view_false",
    "Malg.C18_extract_false"
   ],
   "note": "Holds for ranges starting inside; false beyond (view and extract witnesses)."
  },
  {
   "property": "C19",
   "status": "partial",
   "theorems": [
    "Malg.C19_cofactor",
    "Malg.C19_agree",
    "Malg.C19_cofactor_view",
    "Malg.C19_linear_partial",
    "Malg.C19_linear_false"
   ],
   "note": "(r,c) access for all matrices, [i] for square ones; [i] is wrong for non-square (witness)."
  },
  {
   "property": "C20",
   "status": "proved",
   "theorems": [
    "Malg.C20_eye",
    "Malg.C20_identity",
    "Malg.C20_constant",
    "Malg.C20_zero_dimension"
   ],
   "note": ""
  },
  {
   "property": "C21",
   "status": "proved",
   "theorems": [
    "Malg.C21_diag",
    "Malg.C21_diag_diag",
    "Malg.C21_to_matrix_to_vector",
    "Malg.C21_ravel",
    "Malg.C21_ravel_to_vector"
   ],
   "note": ""
  },
  {
   "property": "C22",
   "status": "proved",
   "theorems": [
    "Malg.C22_vstack",
    "Malg.C22_hstack",
    "Malg.C22_mismatch",
    "Malg.C22_concatenate"
   ],
   "note": "For matrices, views and vectors that can be passed; the Matrix/Vector overloads of vstack and hstack do not compile."
  },
  {
   "property": "C23",
   "status": "proved",
   "theorems": [
    "Malg.C23_extract",
    "Malg.C23_extract_column_row",
    "Malg.C23_errors"
   ],
   "note": "For start indices not beyond the dimension; the other case is C18_extract_false."
  },
  {
   "property": "C24",
   "status": "proved",
   "theorems": [
    "Malg.C24_swap_rows",
    "Malg.C24_swap_cols",
    "Malg.C24_involution"
   ],
   "note": "On matrices and chains of views, with frame and involution."
  },
  {
   "property": "C25",
   "status": "proved",
   "theorems": [
    "Malg.C25_remove_row",
    "Malg.C25_remove_column",
    "Malg.C25_out_of_range"
   ],
   "note": ""
  },
  {
   "property": "C26",
   "status": "partial",
   "theorems": [
    "Malg.C26_shape",
    "Malg.C26_non_square",
    "Malg.C26_square",
    "Malg.C26_skew_partial",
    "Malg.C26_skew_false"
   ],
   "note": "Exact for symmetric, diagonal, triangular and shape predicates; is_skew_symmetric ignores the diagonal (witness). is_zero, is_constant, is_identity, is_orthogonal do not compile."
  },
  {
   "property": "C27",
   "status": "proved",
   "theorems": [
    "Malg.C27_all_close",
    "Malg.C27_all_close_vec",
    "Malg.C27_mismatch"
   ],
   "note": ""
  },
  {
   "property": "C28",
   "status": "partial",
   "theorems": [
    "Malg.C28_flatnonzero",
    "Malg.C28_find_partial",
    "Malg.C28_find_fewer_false",
    "Malg.C28_find_first_n_false"
   ],
   "note": "flatnonzero exact; find exact when n covers all; find(A, n) with fewer is wrong (witness)."
  },
  {
   "property": "C29",
   "status": "partial",
   "theorems": [
    "Malg.C29_compare_partial",
    "Malg.C29_compare_vec_partial",
    "Malg.C29_mismatch",
    "Malg.C29_index_zero_false"
   ],
   "note": "Exact for first differences after index 0; at index 0 the answer is 0 (witness)."
  },
  {
   "property": "C30",
   "status": "partial",
   "theorems": [
    "Malg.C30_linspace_partial",
    "Malg.C30_logspace_partial",
    "Malg.C30_logspace_never_ends",
    "Malg.C30_none",
    "Malg.C30_single_false",
    "Malg.C30_int_false",
    "Malg.C30_close_false"
   ],
   "note": "Over an ordered field with n >= 2; witnesses for n = 1, integer types, approximately equal end points, and logspace with 2^32 points."
  },
  {
   "property": "C31",
   "status": "proved",
   "theorems": [
    "Malg.C31_accumulate",
    "Malg.C31_inner_product",
    "Malg.C31_inner_product_short"
   ],
   "note": ""
  },
  {
   "property": "C32",
   "status": "proved",
   "theorems": [
    "Malg.C32_rand",
    "Malg.C32_draws_distinct"
   ],
   "note": "For every draw sequence within the bounds."
  },
  {
   "property": "C33",
   "status": "proved",
   "theorems": [
    "Malg.C33_add_sub",
    "Malg.C33_scalar",
    "Malg.C33_div",
    "Malg.C33_mismatch",
    "Malg.C33_matrix",
    "Malg.C33_field"
   ],
   "note": "All matrices and views over any element type; the algebraic form over rings and fields."
  },
  {
   "property": "C34",
   "status": "proved",
   "theorems": [
    "Malg.C34_add_sub_assign",
    "Malg.C34_self",
    "Malg.C34_scalar_assign",
    "Malg.C34_mismatch"
   ],
   "note": "Targets and operands are chains of views of matrix variables; aliasing allowed under the no-clobber condition of the statement; scalars that are elements of the matrix itself are C72."
  },
  {
   "property": "C35",
   "status": "proved",
   "theorems": [
    "Malg.C35_entries",
    "Malg.C35_mismatch",
    "Malg.C35_product",
    "Malg.C35_laws",
    "Malg.C35_identity"
   ],
   "note": "Entry formula for any arithmetic, algebraic laws over semirings."
  },
  {
   "property": "C36",
   "status": "partial",
   "theorems": [
    "Malg.C36_mul_assign_partial",
    "Malg.C36_matrix_partial",
    "Malg.C36_narrow_false",
    "Malg.C36_wide_false",
    "Malg.C36_mismatch"
   ],
   "note": "Holds for a square right operand (also aliased). False for other widths: narrower operands leave a wrong shape and zero columns, wider ones write out of bounds."
  },
  {
   "property": "C37",
   "status": "partial",
   "theorems": [
    "Malg.C37_entries_partial",
    "Malg.C37_matrix_partial",
    "Malg.C37_long_false",
    "Malg.C37_short_false"
   ],
   "note": "The value is right when b has at least cols(A) elements; the size is never checked: longer vectors are accepted, shorter ones read out of bounds."
  },
  {
   "property": "C38",
   "status": "proved",
   "theorems": [
    "Malg.C38_zip",
    "Malg.C38_scalar",
    "Malg.C38_assign",
    "Malg.C38_mismatch",
    "Malg.C38_dot",
    "Malg.C38_dot_sum",
    "Malg.C38_projection"
   ],
   "note": "In-place operators also with both operands the same variable. Vector scalar compound assignment does not compile in the repository and is not modelled."
  },
  {
   "property": "C39",
   "status": "proved",
   "theorems": [
    "Malg.C39_entries",
    "Malg.C39_entries_vec",
    "Malg.C39_ne_negates",
    "Malg.C39_order",
    "Malg.C39_mirror",
    "Malg.C39_mismatch",
    "Malg.C39_self_equal"
   ],
   "note": "Element comparison modes (floating, complex, exact) are modelled separately."
  },
  {
   "property": "C40",
   "status": "proved",
   "theorems": [
    "Malg.C40_meaning",
    "Malg.C40_refl_symm",
    "Malg.C40_scale",
    "Malg.C40_zero",
    "Malg.C40_tolerance",
    "Malg.C40_order"
   ],
   "note": "For every absolute value (real and complex modulus) into an ordered field."
  },
  {
   "property": "C41",
   "status": "partial",
   "theorems": [
    "Malg.C41_sum",
    "Malg.C41_sum_list",
    "Malg.C41_trace_partial",
    "Malg.C41_trace_square_partial",
    "Malg.C41_trace_tall_false"
   ],
   "note": "sum is proved; trace holds for rows <= cols; for every matrix with more rows than columns trace reads out of bounds."
  },
  {
   "property": "C42",
   "status": "proved",
   "theorems": [
    "Malg.C42_vector",
    "Malg.C42_matrix",
    "Malg.C42_empty"
   ],
   "note": ""
  },
  {
   "property": "C43",
   "status": "proved",
   "theorems": [
    "Malg.C43_matrix",
    "Malg.C43_vector"
   ],
   "note": ""
  },
  {
   "property": "C44",
   "status": "partial",
   "theorems": [
    "Malg.C44_square_norm",
    "Malg.C44_vector_length",
    "Malg.C44_inf_vector",
    "Malg.C44_inf_matrix_partial",
    "Malg.C44_sub_norm_partial",
    "Malg.C44_view_false"
   ],
   "note": "square_norm and the vector norm are proved; infinity_norm and sub_norm hold for Matrix objects and always return 0 on views."
  },
  {
   "property": "C45",
   "status": "partial",
   "theorems": [
    "Malg.C45_halvings",
    "Malg.C45_matrix_partial",
    "Malg.C45_view_false"
   ],
   "note": "Proved for Matrix objects; on views the result is always (0,1)."
  },
  {
   "property": "C46",
   "status": "partial",
   "theorems": [
    "Malg.C46_right_partial",
    "Malg.C46_abs_partial",
    "Malg.C46_real_partial",
    "Malg.C46_imag_partial",
    "Malg.C46_parts_false",
    "Malg.C46_shape_partial",
    "Malg.C46_false"
   ],
   "note": "False: results of the function are discarded; vectors are copied, matrices become zero. Only the shape is as claimed."
  },
  {
   "property": "C47",
   "status": "partial",
   "theorems": [
    "Malg.C47_binary",
    "Malg.C47_product_partial",
    "Malg.C47_linear_partial",
    "Malg.C47_mixed_false"
   ],
   "note": "element_wise_binary_function is proved; element_wise_product and linear_combination hold for equal element types and truncate for mixed ones."
  },
  {
   "property": "C48",
   "status": "proved",
   "theorems": [
    "Malg.C48_transpose",
    "Malg.C48_involution",
    "Malg.C48_matrix",
    "Malg.C48_product",
    "Malg.C48_conjugate",
    "Malg.C48_conjugate_involution"
   ],
   "note": "Any element type; conjugation is the star operation."
  },
  {
   "property": "C49",
   "status": "partial",
   "theorems": [
    "Malg.C49_powm_partial",
    "Malg.C49_throws",
    "Malg.C49_empty_false"
   ],
   "note": "Proved for every non-empty square matrix and exponent, and the throwing case; the empty square matrix throws instead of giving itself."
  },
  {
   "property": "C50",
   "status": "partial",
   "theorems": [
    "Malg.C50_small_partial",
    "Malg.C50_large_partial",
    "Malg.C50_singular_false",
    "Malg.C50_large_iff",
    "Malg.C50_throws",
    "Malg.C50_int_false"
   ],
   "note": "Right up to 4x4 over commutative rings and for all non-singular matrices of any size over a field; beyond 4x4 every singular matrix gets a non-zero result, and integer matrices are wrong because ratios are truncated."
  },
  {
   "property": "C51",
   "status": "partial",
   "theorems": [
    "Malg.C51_small_partial",
    "Malg.C51_large_partial",
    "Malg.C51_false",
    "Malg.C51_large_iff",
    "Malg.C51_product_partial"
   ],
   "note": "Right up to 5x5; beyond, right exactly when no cofactor is zero."
  },
  {
   "property": "C52",
   "status": "partial",
   "theorems": [
    "Malg.C52_small_partial",
    "Malg.C52_large_partial",
    "Malg.C52_singular_false",
    "Malg.C52_six_false",
    "Malg.C52_identity_false",
    "Malg.C52_div",
    "Malg.C52_div_singular",
    "Malg.C52_throws"
   ],
   "note": "Right up to 4x4; 5x5 non-singular matrices are inverted; singular matrices from 5x5 on are never reported; from 6x6 on the result has no zero entry, so the identity is not inverted."
  },
  {
   "property": "C53",
   "status": "proved",
   "theorems": [
    "Malg.C53_factor",
    "Malg.C53_iff",
    "Malg.C53_det",
    "Malg.C53_throws"
   ],
   "note": "Over a field; a zero pivot is a division by zero (outcome divZero of the model)."
  },
  {
   "property": "C54",
   "status": "partial",
   "theorems": [
    "Malg.C54_exp_partial",
    "Malg.C54_exp_false"
   ],
   "note": "False: the result is transposed. It agrees exactly for matrices whose entrywise exponential is symmetric."
  },
  {
   "property": "C55",
   "status": "proved",
   "theorems": [
    "Malg.C55_taylor",
    "Malg.C55_throws",
    "Malg.C55_zero"
   ],
   "note": "Exact arithmetic over an ordered field; data dependent loops carry fuel, the statement is about every returning run."
  },
  {
   "property": "C56",
   "status": "proved",
   "theorems": [
    "Malg.C56_factorial",
    "Malg.C56_negative",
    "Malg.C56_unsigned",
    "Malg.C56_exact"
   ],
   "note": ""
  },
  {
   "property": "C57",
   "status": "partial",
   "theorems": [
    "Malg.C57_system",
    "Malg.C57_step",
    "Malg.C57_simulate_partial",
    "Malg.C57_closed",
    "Malg.C57_negative_false"
   ],
   "note": "States, outputs, step count and closed form for every duration with T/dt > -1; for T/dt <= -1 the size conversion is undefined (C57_negative_false)."
  },
  {
   "property": "C58",
   "status": "partial",
   "theorems": [
    "Malg.C58_times_partial",
    "Malg.C58_last_false"
   ],
   "note": "One stamp per state and all but the last right; the last stamp is always zero (C58_last_false)."
  },
  {
   "property": "C59",
   "status": "proved",
   "theorems": [
    "Malg.C59_ctrb",
    "Malg.C59_empty",
    "Malg.C59_throws"
   ],
   "note": "Block row for every size, empty systems and both error cases."
  },
  {
   "property": "C60",
   "status": "proved",
   "theorems": [
    "Malg.C60_roots",
    "Malg.C60_row_column",
    "Malg.C60_multiplicity"
   ],
   "note": "All coefficient lists and row/column matrices, over every commutative ring."
  },
  {
   "property": "C61",
   "status": "proved",
   "theorems": [
    "Malg.C61_ring",
    "Malg.C61_charpoly",
    "Malg.C61_int",
    "Malg.C61_throws"
   ],
   "note": "Over fields of characteristic zero and over the integers with exact division; for built-in integers see C111."
  },
  {
   "property": "C62",
   "status": "proved",
   "theorems": [
    "Malg.C62_strip",
    "Malg.C62_polynomial"
   ],
   "note": "Exactly the leading zeros are dropped; polynomial, normal form and idempotence."
  },
  {
   "property": "C63",
   "status": "partial",
   "theorems": [
    "Malg.C63_placed_partial",
    "Malg.C63_exit",
    "Malg.C63_uncontrollable_partial",
    "Malg.C63_uncontrollable_false",
    "Malg.C63_few_poles_false",
    "Malg.C63_many_poles_false",
    "Malg.C63_view_false"
   ],
   "note": "Pole placement whenever inverse() is right (n <= 5 or no zero entry in the inverse); uncontrollable pairs are not detected for n >= 5, short pole lists read out of bounds, long ones and views are mishandled (_false theorems)."
  },
  {
   "property": "C64",
   "status": "partial",
   "theorems": [
    "Malg.C64_equations_partial",
    "Malg.C64_singular_partial",
    "Malg.C64_singular_false",
    "Malg.C64_no_io_false",
    "Malg.C64_taylor_partial"
   ],
   "note": "Discretisation equations for non-singular A whenever inverse() is right, also with the transcribed expm; singular A is accepted for n >= 5 and systems without inputs or outputs abort (_false theorems)."
  },
  {
   "property": "C65",
   "status": "proved",
   "theorems": [
    "Malg.C65_zero"
   ],
   "note": "All systems."
  },
  {
   "property": "C66",
   "status": "partial",
   "theorems": [
    "Malg.C66_space",
    "Malg.C66_texts",
    "Malg.C66_round_trip_partial",
    "Malg.C66_int",
    "Malg.C66_complex",
    "Malg.C66_char",
    "Malg.C66_char_false",
    "Malg.C66_sequence",
    "Malg.C66_precision_false"
   ],
   "note": "Round trip for all vectors over element types whose text determines the value (all integer types, characters, complex over them), any target, any following data, any number of vectors per file; not for values printed alike (_false)."
  },
  {
   "property": "C67",
   "status": "partial",
   "theorems": [
    "Malg.C67_texts",
    "Malg.C67_round_trip_partial",
    "Malg.C67_int",
    "Malg.C67_after_vector",
    "Malg.C67_moved_target_false",
    "Malg.C67_cofactor_false"
   ],
   "note": "Same for matrices and views; moved-from targets and non-square cofactor views are undefined behaviour (_false theorems)."
  },
  {
   "property": "C68",
   "status": "partial",
   "theorems": [
    "Malg.C68_tag_vector",
    "Malg.C68_tag_matrix",
    "Malg.C68_vector_partial",
    "Malg.C68_matrix_partial",
    "Malg.C68_cut_between",
    "Malg.C68_empty_false",
    "Malg.C68_failed_stream_false",
    "Malg.C68_no_size_false",
    "Malg.C68_mixing_false",
    "Malg.C68_cut_number_false",
    "Malg.C68_foreign_text_false",
    "Malg.C68_negative_size_false",
    "Malg.C68_number",
    "Malg.C68_number_exact",
    "Malg.C68_size",
    "Malg.C68_size_exact",
    "Malg.C68_vector_exact",
    "Malg.C68_matrix_exact"
   ],
   "note": "Wrong tag leaves the target alone; for every stream the exact split into new and old elements, all new unless the stream failed. Empty or unopened files are undefined behaviour, truncated files mix old and new data, a cut last number is accepted (_false theorems)."
  },
  {
   "property": "C69",
   "status": "partial",
   "theorems": [
    "Malg.C69_print_vector_partial",
    "Malg.C69_print_matrix",
    "Malg.C69_print_matrix_partial",
    "Malg.C69_matlab_vector",
    "Malg.C69_matlab_matrix",
    "Malg.C69_dump",
    "Malg.C69_state_space",
    "Malg.C69_discrete",
    "Malg.C69_range",
    "Malg.C69_range_all",
    "Malg.C69_matlab_complex",
    "Malg.C69_flags_false",
    "Malg.C69_cofactor_false"
   ],
   "note": "Exact text for vectors, matrices, views, to_matlab, dump and state spaces under default flags; with showpos the padding is wrong and non-square cofactor views read out of bounds (_false theorems)."
  },
  {
   "property": "C70",
   "status": "partial",
   "theorems": [
    "Malg.C70_commutative",
    "Malg.C70_idempotent",
    "Malg.C70_complex",
    "Malg.C70_inner",
    "Malg.C70_three",
    "Malg.C70_rank",
    "Malg.C70_values_partial",
    "Malg.C70_sign_false",
    "Malg.C70_float_false",
    "Malg.C70_inverse"
   ],
   "note": "Commutative, idempotent, associative, complex exactly when one operand is, rank kept; all values kept except signed/unsigned and integer/floating clashes, where values are lost (_false theorems)."
  },
  {
   "property": "C71",
   "status": "proved",
   "theorems": [
    "Malg.C71_converts",
    "Malg.C71_converts_div",
    "Malg.C71_value",
    "Malg.C71_value_div"
   ],
   "note": "All twelve operators, any conversions, over any field and against the complex numbers; exact arithmetic."
  },
  {
   "property": "C72",
   "status": "partial",
   "theorems": [
    "Malg.C72_mul_partial",
    "Malg.C72_mul_false",
    "Malg.C72_div_false",
    "Malg.C72_div_partial"
   ],
   "note": "Exact result proved; the claim holds only for the last element in row order, false otherwise."
  },
  {
   "property": "C73",
   "status": "partial",
   "theorems": [
    "Malg.C73_shift_partial",
    "Malg.C73_one_partial",
    "Malg.C73_empty_false"
   ],
   "note": "Over the reals, for every complex square matrix with at least one row. False for the empty matrix (out of bounds access)."
  },
  {
   "property": "C74",
   "status": "partial",
   "theorems": [
    "Malg.C74_float_partial",
    "Malg.C74_unsigned_false",
    "Malg.C74_signed_false",
    "Malg.C74_rounding",
    "Malg.C74_types"
   ],
   "note": "Holds for every binary floating point format. For unsigned types the loop does not end, for signed types it overflows."
  },
  {
   "property": "C75",
   "status": "partial",
   "theorems": [
    "Malg.C75_error_partial",
    "Malg.C75_accuracy_false"
   ],
   "note": "Over the reals: an explicit bound from the number of Taylor terms. False that the accuracy argument bounds the error: expm([[32]], 1e-05) is off by more than ten million."
  },
  {
   "property": "C76",
   "status": "partial",
   "theorems": [
    "Malg.C76_terminates_partial",
    "Malg.C76_false",
    "Malg.C76_returns",
    "Malg.C76_singular_throws",
    "Malg.C76_diverges"
   ],
   "note": "Over the reals: returns for all n by n matrices and accuracies in (0, 1/(20 n)]; up to 5x5 the stopping rule is characterised exactly. False for larger accuracies: a 3x3 matrix with accuracy 1 throws."
  },
  {
   "property": "C77",
   "status": "proved",
   "theorems": [
    "Malg.C77_linear",
    "Malg.C77_continue",
    "Malg.C77_causal"
   ],
   "note": "Over an ordered field with a floor function."
  },
  {
   "property": "C78",
   "status": "partial",
   "theorems": [
    "Malg.C78_samples_partial",
    "Malg.C78_expm_false",
    "Malg.C78_solution_partial"
   ],
   "note": "Over the reals: holds if the exponential is exact. False with the expm of the library: for x' = 32 x and one sample per second the second state is off by more than ten million."
  },
  {
   "property": "C79",
   "status": "proved",
   "theorems": [
    "Malg.C79_product",
    "Malg.C79_mulVec",
    "Malg.C79_dot",
    "Malg.C79_sum",
    "Malg.C79_trace",
    "Malg.C79_elementwise",
    "Malg.C79_factor",
    "Malg.C79_double"
   ],
   "note": "Standard model of rounding, and the number format with round to nearest even that satisfies it; no overflow, infinities or NaN."
  },
  {
   "property": "C80",
   "status": "proved",
   "theorems": [
    "Malg.C80_product",
    "Malg.C80_vector"
   ],
   "note": "Formats with round to nearest even, any precision."
  },
  {
   "property": "C81",
   "status": "proved",
   "theorems": [
    "Malg.C81_transpose_product",
    "Malg.C81_commute",
    "Malg.C81_float",
    "Malg.C81_not_associative"
   ],
   "note": "The equalities need commutative operations only; the differences are shown in double."
  },
  {
   "property": "C82",
   "status": "partial",
   "theorems": [
    "Malg.C82_points_partial",
    "Malg.C82_end_false"
   ],
   "note": "The points are near the exact ones. False that the end is hit: linspace(0.0, 1.0, 50) ends at 1 - 2^-53."
  },
  {
   "property": "C83",
   "status": "partial",
   "theorems": [
    "Malg.C83_values_partial",
    "Malg.C83_steps_partial",
    "Malg.C83_steps_false"
   ],
   "note": "The values are near the exact update; the number of steps is N or N - 1. False that it is N: 0.3 seconds with a sample time of 0.1 seconds gives two steps."
  },
  {
   "property": "C84",
   "status": "partial",
   "theorems": [
    "Malg.C84_backward_partial",
    "Malg.C84_float",
    "Malg.C84_double_partial",
    "Malg.C84_growth_false"
   ],
   "note": "Error bound relative to |A| + |L||U|, all sizes. False relative to |A| alone: there is no pivoting."
  },
  {
   "property": "C85",
   "status": "proved",
   "theorems": [
    "Malg.C85_determinant",
    "Malg.C85_adjoint",
    "Malg.C85_inverse",
    "Malg.C85_five_rounds"
   ],
   "note": "Formats with round to nearest even, any precision; the tolerance of the zero test is at most 1/4."
  },
  {
   "property": "C86",
   "status": "partial",
   "theorems": [
    "Malg.C86_two_partial",
    "Malg.C86_three_partial",
    "Malg.C86_four_partial",
    "Malg.C86_two_singular_partial",
    "Malg.C86_regular_false",
    "Malg.C86_singular_false"
   ],
   "note": "Error bounds for all matrices up to 4x4; singular 2x2 matrices are detected. False that singularity is decided: a regular 2x2 matrix gives 0 and a singular 3x3 integer matrix gives -64 in double."
  },
  {
   "property": "C87",
   "status": "partial",
   "theorems": [
    "Malg.C87_qr_partial",
    "Malg.C87_dependent_false",
    "Malg.C87_wide_false",
    "Malg.C87_exactly",
    "Malg.C87_empty"
   ],
   "note": "Repaired reading. Tall matrices with independent columns and square matrices with independent first n-1 columns are decomposed, with exact arithmetic and square root. False for dependent columns (division by zero) and for all wide matrices (empty column accessed)."
  },
  {
   "property": "C88",
   "status": "partial",
   "theorems": [
    "Malg.C88_square_partial",
    "Malg.C88_singular_partial",
    "Malg.C88_singular_false",
    "Malg.C88_six_false",
    "Malg.C88_least_squares_partial",
    "Malg.C88_many_false",
    "Malg.C88_dependent_false",
    "Malg.C88_no_unknowns_false",
    "Malg.C88_shortest_partial",
    "Malg.C88_rows_partial",
    "Malg.C88_rows_false"
   ],
   "note": "Repaired reading. Square, least squares and shortest solutions are right up to 5 unknowns or equations; false beyond (inverse), for dependent columns and for singular systems larger than 4x4."
  },
  {
   "property": "C89",
   "status": "proved",
   "theorems": [
    "Malg.C89_obsv",
    "Malg.C89_dual",
    "Malg.C89_unobservable",
    "Malg.C89_empty",
    "Malg.C89_throws"
   ],
   "note": "Repaired reading."
  },
  {
   "property": "C90",
   "status": "partial",
   "theorems": [
    "Malg.C90_hessenberg_partial",
    "Malg.C90_trace_partial",
    "Malg.C90_fixed",
    "Malg.C90_unitary_false",
    "Malg.C90_empty"
   ],
   "note": "Repaired reading, exact arithmetic. Holds if the returned subdiagonal entries are at least 2 eps, if every column met is zero or at least 2 eps long, for upper triangular matrices and up to 2 rows. False for tiny columns: the vector is divided by epsilon instead of its length, P is not unitary and eigenvalues change."
  },
  {
   "property": "C91",
   "status": "proved",
   "theorems": [
    "Malg.C91_givens",
    "Malg.C91_empty",
    "Malg.C91_tall"
   ],
   "note": "Repaired reading, exact arithmetic."
  },
  {
   "property": "C92",
   "status": "partial",
   "theorems": [
    "Malg.C92_loop",
    "Malg.C92_schur_partial",
    "Malg.C92_small",
    "Malg.C92_eigenvalues_false",
    "Malg.C92_empty"
   ],
   "note": "Repaired reading, exact arithmetic. Termination and everything the loop contributes are proved without conditions; the whole holds whenever hessenberg is right. False for the matrices that hessenberg spoils."
  },
  {
   "property": "C93",
   "status": "partial",
   "theorems": [
    "Malg.C93_columns_partial",
    "Malg.C93_distinct_partial",
    "Malg.C93_complete_partial",
    "Malg.C93_repeated_false"
   ],
   "note": "Repaired reading, exact arithmetic. Residual at most eps in every entry always; exact and complete for separated eigenvalues and for diagonalisable matrices whose eigenvalues are equal or eps apart. False for nearly vanishing couplings of repeated eigenvalues."
  },
  {
   "property": "C94",
   "status": "partial",
   "theorems": [
    "Malg.C94_product",
    "Malg.C94_sum",
    "Malg.C94_dot",
    "Malg.C94_mulVec",
    "Malg.C94_trace",
    "Malg.C94_elementwise",
    "Malg.C94_determinant_partial",
    "Malg.C94_negation",
    "Malg.C94_adjoint_partial",
    "Malg.C94_powm_partial",
    "Malg.C94_sum_false",
    "Malg.C94_determinant_false",
    "Malg.C94_division",
    "Malg.C94_division_zero",
    "Malg.C94_unsigned"
   ],
   "note": "If nothing overflows all results are exact, with the exact criterion for sums, products and negation. False as stated: INT_MAX + 1 - 1 overflows, and so does a determinant with value 1."
  },
  {
   "property": "C95",
   "status": "proved",
   "theorems": [
    "Malg.C95_product",
    "Malg.C95_mulVec",
    "Malg.C95_dot",
    "Malg.C95_sum",
    "Malg.C95_trace",
    "Malg.C95_elementwise",
    "Malg.C95_sign",
    "Malg.C95_elementwise_overflow",
    "Malg.C95_determinant",
    "Malg.C95_double",
    "Malg.C95_representable_false"
   ],
   "note": "Results that could be represented can still be lost by overflow on the way (C95_representable_false shows what is not claimed)."
  },
  {
   "property": "C96",
   "status": "partial",
   "theorems": [
    "Malg.C96_nan_vector",
    "Malg.C96_nan_product",
    "Malg.C96_nan_trace",
    "Malg.C96_nan_determinant",
    "Malg.C96_division",
    "Malg.C96_times_infinity",
    "Malg.C96_norm_not_nan",
    "Malg.C96_self_equal_partial",
    "Malg.C96_equal_inf_false",
    "Malg.C96_inverse_overflow_false",
    "Malg.C96_all_close_partial",
    "Malg.C96_all_close_nan_false",
    "Malg.C96_extremes_partial",
    "Malg.C96_log2",
    "Malg.C96_inverse_false",
    "Malg.C96_steps",
    "Malg.C96_simulate_false",
    "Malg.C96_simulate_steps_partial",
    "Malg.C96_simulate_nan"
   ],
   "note": "NaN propagation, division, extremes, termination of log2_ceil are proved. False: infinities count as zero, so inverse returns an empty matrix when the determinant overflows; an infinity equals every number but itself; all_close accepts NaN; a sample time of zero makes simulate cast an infinity to an integer."
  },
  {
   "property": "C97",
   "status": "partial",
   "theorems": [
    "Malg.C97_zero",
    "Malg.C97_constant",
    "Malg.C97_identity_partial",
    "Malg.C97_orthogonal_partial",
    "Malg.C97_orthogonal_tolerance",
    "Malg.C97_orthogonal_false",
    "Malg.C97_not_square",
    "Malg.C97_empty_false",
    "Malg.C97_invertible_partial",
    "Malg.C97_invertible_false",
    "Malg.C97_integers",
    "Malg.C97_throws"
   ],
   "note": "is_zero, is_constant, is_identity (not empty) and is_orthogonal (not empty, exact elements) are equivalences, and invertibility is right up to four rows. False: with more than four rows every matrix is called invertible; the empty matrix makes is_identity throw; with a tolerance is_orthogonal demands exact orthogonality of rows but accepts lengths near 1."
  },
  {
   "property": "C98",
   "status": "proved",
   "theorems": [
    "Malg.C98_vstack",
    "Malg.C98_hstack",
    "Malg.C98_agree",
    "Malg.C98_mismatch"
   ],
   "note": "About the edited text."
  },
  {
   "property": "C99",
   "status": "partial",
   "theorems": [
    "Malg.C99_matrix_partial",
    "Malg.C99_alias_partial",
    "Malg.C99_vector_partial",
    "Malg.C99_vector_alias",
    "Malg.C99_alias_false",
    "Malg.C99_scalar_vector",
    "Malg.C99_scalar_commutes"
   ],
   "note": "Right for numbers that are not elements of the target; exact description of what happens when they are (C99_alias_partial, C99_vector_alias). False: A -= A(0,0) subtracts 0 from all later entries."
  },
  {
   "property": "C100",
   "status": "partial",
   "theorems": [
    "Malg.C100_hermitian_partial",
    "Malg.C100_sign_partial",
    "Malg.C100_sign_false",
    "Malg.C100_sign_entries"
   ],
   "note": "hermitian_transpose is right. False for sign: the results are dropped, so vectors come back unchanged and matrices as zeros, and the function itself gives -1 for zero."
  },
  {
   "property": "C101",
   "status": "partial",
   "theorems": [
    "Malg.C101_vector_partial",
    "Malg.C101_matrix_partial",
    "Malg.C101_integers",
    "Malg.C101_empty_false",
    "Malg.C101_complex_false"
   ],
   "note": "Round trip for vectors and for matrices that have rows and columns. False: matrices without rows or columns, and complex numbers."
  },
  {
   "property": "C102",
   "status": "partial",
   "theorems": [
    "Malg.C102_iterate",
    "Malg.C102_valid",
    "Malg.C102_dangling",
    "Malg.C102_view_partial",
    "Malg.C102_view_false"
   ],
   "note": "Complete for vectors: what the pointer reads, how long it stays valid, and that it dangles afterwards when the allocator moves blocks. False for views: data() is that of the whole matrix; right exactly described for views that start at (0,0) and have all columns or one row."
  },
  {
   "property": "C103",
   "status": "partial",
   "theorems": [
    "Malg.C103_reachable",
    "Malg.C103_observable",
    "Malg.C103_test_partial",
    "Malg.C103_deadbeat_partial",
    "Malg.C103_test_false"
   ],
   "note": "Reachability and observability hold for all systems (obsv in its repaired form). The determinant test holds up to four states and is false beyond, because there the determinant is never zero. Bringing to rest holds where acker is right (C63): up to five states, or if the inverse of the controllability matrix has no zero entry."
  },
  {
   "property": "C104",
   "status": "partial",
   "theorems": [
    "Malg.C104_convert",
    "Malg.C104_product",
    "Malg.C104_scalar",
    "Malg.C104_vectors",
    "Malg.C104_vector_scalar",
    "Malg.C104_compare",
    "Malg.C104_compare_scalar",
    "Malg.C104_compare_vectors",
    "Malg.C104_mismatch",
    "Malg.C104_integers",
    "Malg.C104_unsigned_partial",
    "Malg.C104_sign_false",
    "Malg.C104_assign",
    "Malg.C104_scalar_assign",
    "Malg.C104_product_assign",
    "Malg.C104_vector_assign",
    "Malg.C104_truncates",
    "Malg.C104_toSigned",
    "Malg.C104_signed_assign",
    "Malg.C104_compound_false"
   ],
   "note": "Converting first gives the same for all operators, and the in-place ones convert back. The exact value is kept where the common type has it (C104_unsigned_partial); it is lost for negative numbers next to unsigned ones (C104_sign_false). In place differs from out of place when the target cannot hold the result (C104_compound_false)."
  },
  {
   "property": "C105",
   "status": "partial",
   "theorems": [
    "Malg.C105_trace",
    "Malg.C105_vector",
    "Malg.C105_adjoint",
    "Malg.C105_powers",
    "Malg.C105_powers_transpose",
    "Malg.C105_ring_partial",
    "Malg.C105_product_partial",
    "Malg.C105_transpose_partial",
    "Malg.C105_product_false",
    "Malg.C105_inverse_partial",
    "Malg.C105_inverse_product_partial",
    "Malg.C105_div_partial",
    "Malg.C105_poly",
    "Malg.C105_poly_coefficients",
    "Malg.C105_cayley_hamilton",
    "Malg.C105_transpose_false",
    "Malg.C105_inverse_false"
   ],
   "note": "Traces, products with vectors, powers and poly satisfy their laws always. The laws of determinants hold up to 4x4 over every commutative ring and for nonsingular matrices of any size over fields; for singular ones beyond 4x4 they are false (C105_product_false, C105_transpose_false). Those of inverses hold up to 5x5, beyond that only if no inverse involved has a zero entry (C105_inverse_false)."
  },
  {
   "property": "C106",
   "status": "partial",
   "theorems": [
    "Malg.C106_frobenius",
    "Malg.C106_frobenius_product",
    "Malg.C106_euclid",
    "Malg.C106_apply",
    "Malg.C106_infinity_partial",
    "Malg.C106_infinity_vector",
    "Malg.C106_infinity_product_partial",
    "Malg.C106_induced_partial",
    "Malg.C106_between_vector",
    "Malg.C106_between_partial",
    "Malg.C106_condition_partial",
    "Malg.C106_view_false"
   ],
   "note": "All laws of square_norm hold, also for views. Those of infinity_norm hold for Matrix objects and vectors; for views the infinity norm is always zero (C106_view_false). The bound with inverse needs a matrix for which inverse is right (C52)."
  },
  {
   "property": "C107",
   "status": "partial",
   "theorems": [
    "Malg.C107_euclid",
    "Malg.C107_frobenius",
    "Malg.C107_infinity_partial",
    "Malg.C107_euclid_double",
    "Malg.C107_frobenius_double",
    "Malg.C107_infinity_double_partial",
    "Malg.C107_infinity_vector",
    "Malg.C107_underflow_false",
    "Malg.C107_overflow_false"
   ],
   "note": "Holds with a further term (1+u) sqrt(n (1+u)^(n-1) eta) for squares that underflow (for double sqrt(n) 2^-536), without overflow, and for infinity_norm of Matrix objects. False without that term: the length of [2^-540] is 0, and that of [2^520] is infinite."
  },
  {
   "property": "C108",
   "status": "partial",
   "theorems": [
    "Malg.C108_dangling",
    "Malg.C108_older",
    "Malg.C108_guarded_partial",
    "Malg.C108_scoped_partial",
    "Malg.C108_follows",
    "Malg.C108_follows_block_partial",
    "Malg.C108_alias",
    "Malg.C108_disjoint",
    "Malg.C108_assign",
    "Malg.C108_copy",
    "Malg.C108_copy_matrix",
    "Malg.C108_rebind",
    "Malg.C108_temporary_false",
    "Malg.C108_shrink_false",
    "Malg.C108_rebind_false",
    "Malg.C108_cycle_false"
   ],
   "note": "Holds for programs that destroy an object only when no living view points to it, which includes all with local variables only as long as cofactor views are assigned to each other only if the source shows something older than the target, and for views whose first row and column are still inside the matrix. False in general: a view of a temporary, as in (A + B)(rows, cols), dangles at the end of the statement; assigning a cofactor view to another of the same type rebinds it, so that it can dangle at the end of a scope or even show itself; a view of the last row of a matrix that is then shrunk claims 2^64 - 1 rows and reads out of bounds."
  },
  {
   "property": "C109",
   "status": "partial",
   "theorems": [
    "Malg.C109_upper",
    "Malg.C109_eigenpairs_partial",
    "Malg.C109_small",
    "Malg.C109_hermitian_partial",
    "Malg.C109_eigenvalues_false"
   ],
   "note": "Holds for all matrices that hessenberg gets right (see C90), in particular for triangular ones and up to two rows; numbers are exact and square roots as well. False in general: with the constants of the code a 3 by 3 matrix with the eigenvalues 0, 1, 0 gives 0, 1/4, 0 without a warning."
  },
  {
   "property": "C110",
   "status": "partial",
   "theorems": [
    "Malg.C110_result_partial",
    "Malg.C110_result_plain_partial",
    "Malg.C110_result_false",
    "Malg.C110_narrow_false",
    "Malg.C110_mode_partial",
    "Malg.C110_mode_false",
    "Malg.C110_equal_partial",
    "Malg.C110_equal_false",
    "Malg.C110_matlab_partial",
    "Malg.C110_matlab_false",
    "Malg.C110_norm",
    "Malg.C110_norm_partial",
    "Malg.C110_norm_false"
   ],
   "note": "Holds for real element types. False for complex ones, because is_complex is not specialised for const std::complex: sums with a matrix get elements of type complex<complex<T>>, == and != compare exactly instead of with the tolerance, to_matlab writes (re,im), and square_norm and vector_length return a square root of the sum of z*z, e.g. 0 for (1, i)."
  },
  {
   "property": "C111",
   "status": "partial",
   "theorems": [
    "Malg.C111_square_partial",
    "Malg.C111_roots_partial",
    "Malg.C111_wide_false",
    "Malg.C111_unsigned_false"
   ],
   "note": "Holds for square matrices of signed types of up to 54 bits (int) and for vectors of all signed types: every coefficient computed without overflow is right. False for 64 bit integers, where coefficients are rounded to 53 binary digits, and for unsigned ones: poly of the 2x2 identity gives 2^31 + 1 instead of 1."
  },
  {
   "property": "C112",
   "status": "partial",
   "theorems": [
    "Malg.C112_number",
    "Malg.C112_number_exact",
    "Malg.C112_largest",
    "Malg.C112_text",
    "Malg.C112_vector_partial",
    "Malg.C112_matrix_partial",
    "Malg.C112_digits",
    "Malg.C112_decimals",
    "Malg.C112_whole",
    "Malg.C112_again",
    "Malg.C112_vector_exact",
    "Malg.C112_matrix_exact",
    "Malg.C112_complex_exact",
    "Malg.C112_lossy_false",
    "Malg.C112_overflow_false",
    "Malg.C112_widen_false"
   ],
   "note": "Holds for the round trip with enough digits, for numbers nearest to short decimals, for the error bound and for the second round trip. False with the default precision of six digits (1/3), for numbers near the largest one when the decimal is rounded up beyond it (reading fails, later elements are lost), and when float is written with nine digits and read as double. Infinities, NaN and negative zero are not represented."
  },
  {
   "property": "C113",
   "status": "partial",
   "theorems": [
    "Malg.C113_adjoint_partial",
    "Malg.C113_inverse_partial",
    "Malg.C113_two_sign",
    "Malg.C113_inaccurate_false",
    "Malg.C113_quotient",
    "Malg.C113_div_partial"
   ],
   "note": "Holds if the exact determinant is larger than the error bound of the computed one, with an explicit bound for every entry. False otherwise: there is a regular matrix of doubles near one whose inverse is returned about 2^25 times too small."
  },
  {
   "property": "C114",
   "status": "proved",
   "theorems": [
    "Malg.C114_nearest",
    "Malg.C114_sum",
    "Malg.C114_product",
    "Malg.C114_power",
    "Malg.C114_vectors",
    "Malg.C114_positive_system",
    "Malg.C114_norm",
    "Malg.C114_not_strict",
    "Malg.C114_expm"
   ],
   "note": "Formats without overflow, round to nearest even. 2^53 + 1 = 2^53 in double is the witness for the last sentence."
  },
  {
   "property": "C115",
   "status": "proved",
   "theorems": [
    "Malg.C115_roots",
    "Malg.C115_poly",
    "Malg.C115_powm",
    "Malg.C115_ctrb",
    "Malg.C115_obsv",
    "Malg.C115_large_rounds"
   ],
   "note": "Formats with round to nearest even, any precision, no overflow."
  },
  {
   "property": "C116",
   "status": "proved",
   "theorems": [
    "Malg.C116_powm",
    "Malg.C116_ctrb",
    "Malg.C116_obsv",
    "Malg.C116_simulate",
    "Malg.C116_roots",
    "Malg.C116_double"
   ],
   "note": "Formats with round to nearest even, any precision, no overflow."
  },
  {
   "property": "C117",
   "status": "proved",
   "theorems": [
    "Malg.C117_tracks",
    "Malg.C117_library",
    "Malg.C117_stable"
   ],
   "note": "Real arithmetic; up to five states, or up to 5000 when the inverse of A has no zero entry, because of C52."
  },
  {
   "property": "C118",
   "status": "partial",
   "theorems": [
    "Malg.C118_inverse_partial",
    "Malg.C118_in_range_partial",
    "Malg.C118_div_partial",
    "Malg.C118_five_false",
    "Malg.C118_own_test_false",
    "Malg.C118_reference_false"
   ],
   "note": "Proved up to four rows. False from five rows on, where determinant eliminates with integer quotients: a matrix of determinant -1 gets a wrong inverse, and the int matrices of the own test overflow; the values which that test expects are those of the computation that wraps around, not the quotient."
  },
  {
   "property": "C119",
   "status": "partial",
   "theorems": [
    "Malg.C119_vector_partial",
    "Malg.C119_matrix_partial",
    "Malg.C119_own_test",
    "Malg.C119_default_false"
   ],
   "note": "Proved for tolerances of at least 10^(1-P) and values that are not next to the largest; in particular the own test of the project always succeeds. False with the default precision (six digits) and tolerance (1e-06)."
  },
  {
   "property": "C120",
   "status": "partial",
   "theorems": [
    "Malg.C120_session_partial",
    "Malg.C120_order_false",
    "Malg.C120_title_false",
    "Malg.C120_adjacent_false"
   ],
   "note": "Proved for statements in which vectors and matrices come before numbers and texts and in which numbers are followed by white space. False in general: behind a number or a text in the same statement, vectors and matrices are printed without the header, and reading silently leaves the variable as it was."
  },
  {
   "property": "C121",
   "status": "partial",
   "theorems": [
    "Malg.C121_rlc_dt_partial",
    "Malg.C121_pendulum_partial",
    "Malg.C121_rlc_dt_decay_partial",
    "Malg.C121_pendulum_decay_partial",
    "Malg.C121_rlc_ct_false",
    "Malg.C121_rlc_ct_energy_false"
   ],
   "note": "Proved for sim_rlc_dt.cpp and pendulum.cpp. False for sim_rlc_ct.cpp: the coefficient of the voltage in the equation of the current has the wrong sign, so that for all positive values of the parts there are solutions without input whose energy grows beyond all bounds."
  },
  {
   "property": "C122",
   "status": "partial",
   "theorems": [
    "Malg.C122_diverges",
    "Malg.C122_lines",
    "Malg.C122_announced_partial",
    "Malg.C122_one_more_false",
    "Malg.C122_count_false",
    "Malg.C122_output_partial",
    "Malg.C122_library_partial",
    "Malg.C122_late_false"
   ],
   "note": "Proved: in exact arithmetic the loop makes as many rounds as announced if the duration is a multiple of the step, and each line shows the input at its time and the output one step later, up to the error of expm. False: with the constants of the program, in double, 2000 samples are announced and 2001 rounds made; the output of a line is that of the next sample."
  },
  {
   "property": "C123",
   "status": "partial",
   "theorems": [
    "Malg.C123_growth_partial",
    "Malg.C123_forward_partial",
    "Malg.C123_float",
    "Malg.C123_inverse_partial",
    "Malg.C123_tiny_pivot_false"
   ],
   "note": "Proved: for every size above four the result is, up to n roundings, the determinant of a matrix that differs from the input by at most 4n roundings of the largest number in the elimination, or a matrix that close is singular; if the determinant is larger than the effect, this bounds the error of the result, and of inverse for 5x5. False: a bound in terms of the matrix alone; with the pivot 2^-60 the result is -1 and the determinant 1 - 2^-60."
  },
  {
   "property": "C124",
   "status": "proved",
   "theorems": [
    "Malg.C124_double",
    "Malg.C124_large",
    "Malg.C124_error"
   ],
   "note": "Generic in the format (without overflow), and with explicit constants for double."
  },
  {
   "property": "C125",
   "status": "proved",
   "theorems": [
    "Malg.C125_ends",
    "Malg.C125_determinant",
    "Malg.C125_inverse",
    "Malg.C125_double"
   ],
   "note": "Over the exact reals expm need not end (C76); the claim is about IEEE double."
  },
  {
   "property": "C126",
   "status": "proved",
   "theorems": [
    "Malg.C126_c2d",
    "Malg.C126_simulate",
    "Malg.C126_exponential",
    "Malg.C126_oscillator"
   ],
   "note": "Generic in the format (without overflow); the errors of the exponential and of the inverse enter as bounds, which C124 and C113 give."
  },
  {
   "property": "C127",
   "status": "partial",
   "theorems": [
    "Malg.C127_powm",
    "Malg.C127_ctrb",
    "Malg.C127_obsv",
    "Malg.C127_simulate",
    "Malg.C127_expm",
    "Malg.C127_visible_partial",
    "Malg.C127_norm_overflow",
    "Malg.C127_norm_false"
   ],
   "note": "False where the norm itself overflows: log2_ceil then halves the scale to zero and expm returns the identity for every such matrix (C127_norm_overflow), although the exponential may be representable (C127_norm_false). Between 2^30 and overflow of the norm nothing is claimed."
  },
  {
   "property": "C128",
   "status": "proved",
   "theorems": [
    "Malg.C128_c2d",
    "Malg.C128_simulate",
    "Malg.C128_exponential",
    "Malg.C128_oscillator",
    "Malg.C128_inverse",
    "Malg.C128_inverse_double"
   ],
   "note": ""
  },
  {
   "property": "C129",
   "status": "partial",
   "theorems": [
    "Malg.C129_grow_false",
    "Malg.C129_list_false",
    "Malg.C129_partial"
   ],
   "note": "The code violates the property for all vectors of vectors with elements."
  },
  {
   "property": "C130",
   "status": "partial",
   "theorems": [
    "Malg.C130_gain",
    "Malg.C130_placed",
    "Malg.C130_small_partial",
    "Malg.C130_controllable_false",
    "Malg.C130_integrator"
   ],
   "note": "Explicit bounds for the inverse only up to four states; controllable systems whose computed determinant is zero end the process."
  },
  {
   "property": "C131",
   "status": "partial",
   "theorems": [
    "Malg.C131_gain",
    "Malg.C131_placed",
    "Malg.C131_determinant",
    "Malg.C131_small_partial",
    "Malg.C131_controllable_false",
    "Malg.C131_integrator"
   ],
   "note": "Explicit bounds for the inverse only up to four states; controllable systems whose computed determinant is zero or overflows end the process."
  },
  {
   "property": "C132",
   "status": "partial",
   "theorems": [
    "Malg.C132_euclid_partial",
    "Malg.C132_frobenius",
    "Malg.C132_column",
    "Malg.C132_infinity_vector",
    "Malg.C132_infinity",
    "Malg.C132_range_false",
    "Malg.C132_nan_false"
   ],
   "note": "Lengths above 2^511 overflow although they are doubles and lengths below 2^-538 are lost (C132_range_false); infinity_norm hides NaN (C132_nan_false)."
  },
  {
   "property": "C133",
   "status": "partial",
   "theorems": [
    "Malg.C133_poly_partial",
    "Malg.C133_double_partial",
    "Malg.C133_eigenvalue",
    "Malg.C133_relative_false"
   ],
   "note": "The error is small relative to the powers of the norm only: the last coefficient of diag(1, 2^-60) is 2^-61 instead of 2^-60, while determinant is exact (C133_relative_false)."
  },
  {
   "property": "C134",
   "status": "partial",
   "theorems": [
    "Malg.C134_poly_partial",
    "Malg.C134_overflow_false"
   ],
   "note": "Coefficients that are doubles can come out as NaN because a product on the way overflows: a 3 x 3 matrix with the characteristic polynomial x^3 - 2^600 x^2 (C134_overflow_false)."
  },
  {
   "property": "C135",
   "status": "partial",
   "theorems": [
    "Malg.C135_order",
    "Malg.C135_points_partial",
    "Malg.C135_end_false"
   ],
   "note": "The last point can lie beyond b or be infinite, and points are lost if b - a overflows or an endpoint is not finite (C135_end_false)."
  },
  {
   "property": "C136",
   "status": "proved",
   "theorems": [
    "Malg.C136_rounded",
    "Malg.C136_exact",
    "Malg.C136_double",
    "Malg.C136_weak_false"
   ],
   "note": ""
  },
  {
   "property": "C137",
   "status": "proved",
   "theorems": [
    "Malg.C137_growth",
    "Malg.C137_relative",
    "Malg.C137_double"
   ],
   "note": ""
  },
  {
   "property": "C138",
   "status": "partial",
   "theorems": [
    "Malg.C138_finite",
    "Malg.C138_dominant_partial",
    "Malg.C138_pivot_false",
    "Malg.C138_small_false"
   ],
   "note": "The property that finite matrices have finite and accurate factors is false: C138_pivot_false and C138_small_false. What holds is proved in full: C138_finite and C138_dominant_partial."
  },
  {
   "property": "C139",
   "status": "partial",
   "theorems": [
    "Malg.C139_dominant_partial",
    "Malg.C139_overflow_false"
   ],
   "note": "The property that the determinant of every finite matrix is finite and accurate, or not finite if it overflows, is false: C139_overflow_false. What holds is proved in full: C139_dominant_partial."
  },
  {
   "property": "C140",
   "status": "partial",
   "theorems": [
    "Malg.C140_product_partial",
    "Malg.C140_modulus_partial",
    "Malg.C140_vector_partial",
    "Malg.C140_elementwise",
    "Malg.C140_gaussian",
    "Malg.C140_conjugate_transpose",
    "Malg.C140_parts_false",
    "Malg.C140_double_partial",
    "Malg.C140_modulus_double_partial"
   ],
   "note": "The property that every part of a product is close to the exact part relative to that part is false: C140_parts_false. Proved in full: the bounds relative to the products of absolute values and of moduli, exactness for Gaussian integers, and the identity for conjugate transposes. Left out: infinities and NaN of complex products, and division of complex numbers."
  },
  {
   "property": "C141",
   "status": "partial",
   "theorems": [
    "Malg.C141_history_partial",
    "Malg.C141_ownership",
    "Malg.C141_no_leak",
    "Malg.C141_refused_false"
   ],
   "note": "The property that a refused allocation is reported is false: C141_refused_false. Proved in full for allocators that grant the requests: C141_history_partial, C141_ownership, C141_no_leak."
  },
  {
   "property": "C142",
   "status": "proved",
   "theorems": [
    "Malg.C142_minor",
    "Malg.C142_bound",
    "Malg.C142_adjoint",
    "Malg.C142_inverse"
   ],
   "note": ""
  },
  {
   "property": "C143",
   "status": "proved",
   "theorems": [
    "Malg.C143_valid",
    "Malg.C143_gone",
    "Malg.C143_moved",
    "Malg.C143_requests"
   ],
   "note": ""
  },
  {
   "property": "C144",
   "status": "partial",
   "theorems": [
    "Malg.C144_product",
    "Malg.C144_determinant",
    "Malg.C144_inverse",
    "Malg.C144_lu",
    "Malg.C144_simulate",
    "Malg.C144_poly",
    "Malg.C144_acker",
    "Malg.C144_field",
    "Malg.C144_wide",
    "Malg.C144_signs",
    "Malg.C144_ieee",
    "Malg.C144_divisors",
    "Malg.C144_singular_false",
    "Malg.C144_regular_false",
    "Malg.C144_regular_exact",
    "Malg.C144_dominant",
    "Malg.C144_equilibrated"
   ],
   "note": "Proved as stated up to 4x4 (inverses 5x5 with a determinant that is not cut) and beyond whenever the elimination in determinant runs through all columns (`Uncut`); `C144_determinant` also says what happens otherwise. False for singular matrices beyond 4x4 (`C144_singular_false`) and for regular ones in which rounding produces a vanishing pivot (`C144_regular_false`), because the elimination is left by break with the product so far. For powers of two the model has no smallest and no largest exponent (`Wide`); `rndW_eq` says that it rounds like the format for results that are not too small. The elimination runs through for regular matrices of exact numbers (`C144_regular_exact`) and for matrices that are diagonally dominant by more than the rounding errors (`C144_dominant`); hence determinants of matrices that are dominant in some units are accurate in all units (`C144_equilibrated`). expm is not covered: its stopping test adds the accuracy to every entry, which has no unit."
  },
  {
   "property": "C145",
   "status": "partial",
   "theorems": [
    "Malg.C145_product",
    "Malg.C145_power",
    "Malg.C145_lu",
    "Malg.C145_singular",
    "Malg.C145_inverse_partial",
    "Malg.C145_symmetric_partial",
    "Malg.C145_isolated",
    "Malg.C145_triangular",
    "Malg.C145_triangular_small",
    "Malg.C145_field",
    "Malg.C145_float",
    "Malg.C145_ieee",
    "Malg.C145_patterns",
    "Malg.C145_symmetric_false",
    "Malg.C145_six_false",
    "Malg.C145_overflow_false",
    "Malg.C145_isolated_false",
    "Malg.C145_expm",
    "Malg.C145_c2d_partial",
    "Malg.C145_gram",
    "Malg.C145_covariance_false"
   ],
   "note": "Proved as stated. The natural extensions are false and have witnesses: inverses of symmetric 4x4 doubles are not symmetric to the last digit (`C145_symmetric_false`), nor is A P A^T for a symmetric P (`C145_covariance_false`), the inverse of the 6x6 identity has a -1 outside of the diagonal (`C145_six_false`; the minors go through the elimination, which is left by break), the determinant of a triangular matrix whose elimination overflows is NaN (`C145_overflow_false`) and an infinite state reaches states it is not connected to (`C145_isolated_false`)."
  },
  {
   "property": "C146",
   "status": "partial",
   "theorems": [
    "Malg.C146_monomial",
    "Malg.C146_field",
    "Malg.C146_float",
    "Malg.C146_ieee",
    "Malg.C146_double",
    "Malg.C146_product",
    "Malg.C146_shuffle",
    "Malg.C146_permutation",
    "Malg.C146_inverse_partial",
    "Malg.C146_order_false",
    "Malg.C146_infinite_false"
   ],
   "note": "Proved as stated. Up to 4x4 the closed formulas multiply in another order, so the product of the entries is not rounded in the same way (`C146_order_false`: a product that overflows in the order of the columns); a product that exchanges an infinite number with another one gives NaN (`C146_infinite_false`); inverses from 6x6 on are wrong (`C145_six_false`)."
  },
  {
   "property": "C147",
   "status": "partial",
   "theorems": [
    "Malg.C147_seen_partial",
    "Malg.C147_ieee_partial",
    "Malg.C147_rows_false",
    "Malg.C147_columns_false",
    "Malg.C147_overflow_false"
   ],
   "note": "Holds for equal columns up to 3x3, for equal rows of 2x2 matrices, for the last two rows of 3x3 and the first two rows of 4x4 matrices (`C147_seen_partial`, `C147_ieee_partial` unless products overflow). It is false for every other pair up to 4x4: for each one there is a matrix of tenths whose determinant is not zero and whose inverse is returned with numbers of the order 10^16 (`C147_rows_false`, `C147_columns_false`), and false for products that overflow (`C147_overflow_false`). From 5x5 on determinant returns a leading minor of a singular matrix, see C142."
  },
  {
   "property": "C148",
   "status": "partial",
   "theorems": [
    "Malg.C148_upper",
    "Malg.C148_lower_partial",
    "Malg.C148_field",
    "Malg.C148_float",
    "Malg.C148_ieee_partial",
    "Malg.C148_lower_false",
    "Malg.C148_infinite_false"
   ],
   "note": "Proved for zeros below and all sizes (`C148_upper`, `C148_field`, `C148_float`) and for zeros above up to 4x4 (`C148_lower_partial`, `C148_float`). For zeros above it is false from 5x5 on: with a singular upper block determinant takes a pivot row from the lower block (`C148_lower_false`; both matrices are singular, the results are 1 and -4, see C142). For IEEE numbers up to 4x4 two results that are finite are equal (`C148_ieee_partial`). With an infinite number in the free block the result is NaN (`C148_infinite_false`)."
  },
  {
   "property": "C149",
   "status": "partial",
   "theorems": [
    "Malg.C149_product",
    "Malg.C149_powm",
    "Malg.C149_ctrb",
    "Malg.C149_simulate",
    "Malg.C149_alone",
    "Malg.C149_field",
    "Malg.C149_float",
    "Malg.C149_ieee_partial",
    "Malg.C149_overflow_false",
    "Malg.C149_expm_false"
   ],
   "note": "Proved for products, powers, controllability matrices and simulations (`C149_product`, `C149_powm`, `C149_ctrb`, `C149_simulate`, `C149_alone`) for exact and rounded numbers (`C149_field`, `C149_float`), and for IEEE numbers where both results are finite (`C149_ieee_partial`). False for doubles that overflow: an infinite state turns states it is not connected with into NaN (`C149_overflow_false`). False for expm, also without rounding, because the number of halvings depends on the norm of the whole matrix (`C149_expm_false`)."
  },
  {
   "property": "C150",
   "status": "partial",
   "theorems": [
    "Malg.C150_simulate",
    "Malg.C150_ctrb",
    "Malg.C150_poly",
    "Malg.C150_determinant_partial",
    "Malg.C150_acker_partial",
    "Malg.C150_expm_false",
    "Malg.C150_expm_partial"
   ],
   "note": "Proved for simulate (`C150_simulate`), ctrb, obsv, powm (`C150_ctrb`), poly and trace (`C150_poly`), for the determinant unless it is singular and larger than 4x4 (`C150_determinant_partial`, see C50) and for acker up to five states or if the inverse controllability matrices have no zero entry (`C150_acker_partial`, see C52). False for expm, whose number of halvings depends on the norm (`C150_expm_false`). The results for expm agree up to the distances of both from the exponential (`C150_expm_partial`)."
  },
  {
   "property": "C151",
   "status": "partial",
   "theorems": [
    "Malg.C151_rounded_partial",
    "Malg.C151_rest_partial",
    "Malg.C151_exact",
    "Malg.C151_ieee_partial",
    "Malg.C151_stable_false",
    "Malg.C151_eigenvalues"
   ],
   "note": "Proved for systems where |A| v <= q v for some positive vector v and q < 1, that is, |A| has spectral radius below one: without rounding `C151_exact`, and there also for all systems with eigenvalues inside of the unit circle (`C151_eigenvalues`); with rounding `C151_rounded_partial` and `C151_rest_partial`, in IEEE arithmetic `C151_ieee_partial`. Without rounding also for all systems with eigenvalues inside of the unit circle (`C151_eigenvalues`). With rounding false for systems that are stable only because entries cancel (`C151_stable_false`: A*A = 0, NaN after four steps)."
  },
  {
   "property": "C152",
   "status": "partial",
   "theorems": [
    "Malg.C152_expm_partial",
    "Malg.C152_c2d_partial",
    "Malg.C152_simulate_partial",
    "Malg.C152_library_partial",
    "Malg.C152_c2d_false",
    "Malg.C152_expm_false"
   ],
   "note": "Proved without rounding for one state, and for more states if no eigenvalue is within an angle of the imaginary axis that depends on the number of states (0.02 for two, below 1e-6 for three): `C152_expm_partial`, `C152_c2d_partial`, `C152_library_partial`, `C152_simulate_partial`. False for lightly damped systems: `C152_c2d_false` (in `double`), `C152_expm_false` (the Taylor sum itself amplifies)."
  },
  {
   "property": "C153",
   "status": "partial",
   "theorems": [
    "Malg.C153_observer_partial",
    "Malg.C153_exact_partial",
    "Malg.C153_feedback_partial",
    "Malg.C153_decay_partial",
    "Malg.C153_controller_partial"
   ],
   "note": "Proved without rounding, up to five states or if the inverse of the controllability matrix has no zero entry (see C52): `C153_feedback_partial`, `C153_observer_partial`, `C153_exact_partial`, `C153_decay_partial`, `C153_controller_partial`. The functions observerGain, observerOf and controllerOf are not part of the library: they are the calls that a user writes."
  },
  {
   "property": "C154",
   "status": "proved",
   "theorems": [
    "Malg.C154_expm",
    "Malg.C154_ieee",
    "Malg.C154_follows"
   ],
   "note": "`C154_expm` and `C154_follows` without rounding, `C154_ieee` in `double` with overflow, NaN and gradual underflow. In `C154_follows` c2d is proved to return; in the others that expm and inverse return is a hypothesis (for expm see C124 and C127)."
  },
  {
   "property": "C155",
   "status": "partial",
   "theorems": [
    "Malg.C155_expm",
    "Malg.C155_probabilities",
    "Malg.C155_c2d_partial",
    "Malg.C155_simulate_partial",
    "Malg.C155_c2d_false",
    "Malg.C155_expm_false"
   ],
   "note": "Proved without rounding: `C155_expm`, `C155_probabilities`, and, up to five states or if the inverse has no zero entry (see C52), `C155_c2d_partial` and `C155_simulate_partial`. In `double` it is false for c2d, `C155_c2d_false`: two slow tanks, sampled every 20 microseconds, get a negative entry in B. It is false for expm where numbers underflow, `C155_expm_false`: a 4x4 matrix with entries of a few times 2^-1074 gets the entry -2^-1074. For expm in `double` without underflow it is open."
  },
  {
   "property": "C156",
   "status": "partial",
   "theorems": [
    "Malg.C156_rest_partial",
    "Malg.C156_simulate_partial",
    "Malg.C156_only_partial",
    "Malg.C156_settles_partial",
    "Malg.C156_gain_partial",
    "Malg.C156_simulate_false"
   ],
   "note": "Proved without rounding, up to five states or if the inverse has no zero entry (see C52): `C156_rest_partial`, `C156_simulate_partial`, and, for systems that are damped as in C152, `C156_only_partial`, `C156_settles_partial` and `C156_gain_partial` (the outputs settle at `(D - C A⁻¹ B) u`). In `double` it is false, `C156_simulate_false`: an oscillator leaves its point of rest in the first step, by 2^-53."
  },
  {
   "property": "C157",
   "status": "partial",
   "theorems": [
    "Malg.C157_impulse",
    "Malg.C157_convolution",
    "Malg.C157_agree",
    "Malg.C157_hankel",
    "Malg.C157_recurrence",
    "Malg.C157_fewer_false",
    "Malg.C157_agree_false"
   ],
   "note": "Proved without rounding: `C157_impulse`, `C157_convolution`, `C157_agree` and `C157_hankel` (obsv as in C89) for all commutative rings, also integers, and `C157_recurrence` for fields; `C157_fewer_false` shows that fewer steps do not suffice. In `double` it is false, `C157_agree_false`: an entry of 2^-53 is lost after an impulse of size one and not after one of size three."
  },
  {
   "property": "C158",
   "status": "partial",
   "theorems": [
    "Malg.C158_lu",
    "Malg.C158_acker_partial",
    "Malg.C158_order_partial",
    "Malg.C158_roots",
    "Malg.C158_order_false"
   ],
   "note": "Proved without rounding: `C158_lu`, `C158_roots`, and, up to five states or if the inverse of the controllability matrix has no zero entry (see C52), `C158_acker_partial` and `C158_order_partial`. In `double` it is false, `C158_order_false`: the poles 0.1, 0.2, 0.3 in opposite orders give gains that differ in every entry."
  }
 ]
}