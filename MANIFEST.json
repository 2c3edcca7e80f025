{
 "claims": [
  {
   "property": "C01",
   "status": "proved",
   "theorems": [
    "RB.C01_entry_formula",
    "RB.C01_window"
   ],
   "note": ""
  },
  {
   "property": "C02",
   "status": "proved",
   "theorems": [
    "RB.C02_schedule_independent",
    "RB.C02_no_shared_cells"
   ],
   "note": ""
  },
  {
   "property": "C03",
   "status": "proved",
   "theorems": [
    "RB.C03_returns_next_state"
   ],
   "note": ""
  },
  {
   "property": "C04",
   "status": "proved",
   "theorems": [
    "RB.C04_dense_range",
    "RB.C04_ranges_disjoint",
    "RB.C04_sample_indices_iid",
    "RB.C04_sample_indices_iid_uniform",
    "RB.C04_fisher_yates",
    "RB.C04_sparse_range"
   ],
   "note": ""
  },
  {
   "property": "C05",
   "status": "proved",
   "theorems": [
    "RB.C05_writes_exactly_the_window",
    "RB.C05_empty_window",
    "RB.C05_empty_window_undefined",
    "RB.C05_empty_window_counterexample"
   ],
   "note": "For nonempty windows, as claimed. Empty windows: exactly which are undefined (C05_empty_window, C05_empty_window_undefined)."
  },
  {
   "property": "C06",
   "status": "proved",
   "theorems": [
    "RB.C06_layout_independent"
   ],
   "note": ""
  },
  {
   "property": "C07",
   "status": "proved",
   "theorems": [
    "RB.C07_long_wide",
    "RB.C07_long_tall",
    "RB.C07_short_wide",
    "RB.C07_short_tall"
   ],
   "note": ""
  },
  {
   "property": "C08",
   "status": "proved",
   "theorems": [
    "RB.C08_distinct_in_range",
    "RB.C08_too_many"
   ],
   "note": ""
  },
  {
   "property": "C09",
   "status": "proved",
   "theorems": [
    "RB.C09_block_local",
    "RB.C09_prefix",
    "RB.C09_compose"
   ],
   "note": ""
  },
  {
   "property": "C10",
   "status": "proved",
   "theorems": [
    "RB.C10_bijection"
   ],
   "note": ""
  },
  {
   "property": "C100",
   "status": "partial",
   "theorems": [
    "RB.C100_sketch_left_partial",
    "RB.C100_sketch_right_partial",
    "RB.C100_sketch_vector_partial",
    "RB.C100_sparse_left_partial",
    "RB.C100_sparse_right_partial"
   ],
   "note": "For every number type that meets the standard model of floating-point arithmetic. sketch_general: all dense operators; the windows excluded by FillOk are undefined (C36); the modelled gemm adds in index order. sketch_sparse: exclusions as in C41."
  },
  {
   "property": "C101",
   "status": "partial",
   "theorems": [
    "RB.C101_cdf",
    "RB.C101_last_counterexample",
    "RB.C101_out_of_range",
    "RB.C101_in_range_partial",
    "RB.C101_words"
   ],
   "note": "Every operation in the type of the distribution is rounded; exponents are unbounded; blas::scal is the reference loop. Partial because the last element need not be 1 and samples can be n (C101_last_counterexample, C101_out_of_range)."
  },
  {
   "property": "C102",
   "status": "partial",
   "theorems": [
    "RB.C102_dense_partial",
    "RB.C102_sparse",
    "RB.C102_square_counterexample"
   ],
   "note": "The natural layout of every square dense distribution is the opposite of the documented one; everything else is as documented."
  },
  {
   "property": "C103",
   "status": "partial",
   "theorems": [
    "RB.C103_left_same",
    "RB.C103_left_spmm_partial",
    "RB.C103_right_spmm_partial",
    "RB.C103_product_lost",
    "RB.C103_counterexample"
   ],
   "note": "Holds if positions fit int64_t and, for COO matrices, the number of nonzeros and the window fit the index type. A COO matrix with int indices and 2^31 <= nnz < 2^32 in one column is silently treated as zero."
  },
  {
   "property": "C104",
   "status": "partial",
   "theorems": [
    "RB.C104_dense_left_same",
    "RB.C104_dense_right_same",
    "RB.C104_sparse_left_same",
    "RB.C104_sparse_right_same",
    "RB.C104_coo_view_same",
    "RB.C104_left_partial",
    "RB.C104_right_partial",
    "RB.C104_sparse_data_left_partial",
    "RB.C104_sparse_data_right_partial",
    "RB.C104_rejection_counterexample"
   ],
   "note": "Holds for nonempty windows if the number of entries of a dense operator, positions in the data and the sizes of sparse operators and matrices are representable, and an operator that has not been filled meets the conditions of C56/C57. The check of the window itself overflows for offsets near 2^63, so such a call is undefined instead of raising an error."
  },
  {
   "property": "C105",
   "status": "partial",
   "theorems": [
    "RB.C105_right_spmm",
    "RB.C105_right",
    "RB.C105_sketch_sparse_left",
    "RB.C105_left_spmm_partial",
    "RB.C105_left_partial",
    "RB.C105_sketch_sparse_right_partial",
    "RB.C105_vector_partial",
    "RB.C105_left_spmm_conj",
    "RB.C105_left_conj",
    "RB.C105_vector_conj_sparse",
    "RB.C105_vector_conj_dense",
    "RB.C105_sketch_sparse_right_conj",
    "RB.C105_spmm_counterexample"
   ],
   "note": "Holds for products and sketches from the right, for dense operators, and for dense factors. For a sparse factor on the left the conjugate transpose is silently ignored (C105_left_spmm_conj, C105_left_conj, C105_vector_conj_sparse, C105_sketch_sparse_right_conj, C105_spmm_counterexample); sketch_vector uses the wrong window of a dense operator (C105_vector_conj_dense). blas::gemm is assumed to treat real data correctly."
  },
  {
   "property": "C106",
   "status": "partial",
   "theorems": [
    "RB.C106_signal_partial",
    "RB.C106_int_undefined",
    "RB.C106_counterexample"
   ],
   "note": "The vectors and the dense matrix are as specified; the sparse matrix is vec_nnz * u * v^T instead of signal_scale * u * v^T, for main's parameters a factor of 25 too small (C106_counterexample). Undefined for vec_nnz^2 > 2^31 (C106_int_undefined)."
  },
  {
   "property": "C107",
   "status": "partial",
   "theorems": [
    "RB.C107_entries_partial",
    "RB.C107_noise",
    "RB.C107_zero_events",
    "RB.C107_probability_counterexample"
   ],
   "note": "Entries, independence and the agreement of dense and sparse form hold, but the probability of a zero is prob_of_zero / 3 up to the resolution of the generator (C107_probability_counterexample): (s + sqrt(3)) / 2.0*sqrt(3) multiplies by sqrt(3) instead of dividing by it."
  },
  {
   "property": "C108",
   "status": "partial",
   "theorems": [
    "RB.C108_test_matrix_partial",
    "RB.C108_counterexample"
   ],
   "note": "Both forms are the same noise plus a multiple of the same u v^T; the multiples agree only if signal_scale = vec_nnz, which is not the case in main. For m * n < 2^31."
  },
  {
   "property": "C109",
   "status": "partial",
   "theorems": [
    "RB.C109_matrix_market_partial",
    "RB.C109_int_undefined"
   ],
   "note": "Holds for fewer than 2^31 entries; the int loop counter overflows otherwise. The reader itself (fast_matrix_market) is external."
  },
  {
   "property": "C11",
   "status": "proved",
   "theorems": [
    "RB.C11_short_axis"
   ],
   "note": ""
  },
  {
   "property": "C110",
   "status": "partial",
   "theorems": [
    "RB.C110_same_left_spmm",
    "RB.C110_left_spmm_reads",
    "RB.C110_left_spmm_stores",
    "RB.C110_left_spmm_race",
    "RB.C110_dense_reads",
    "RB.C110_unfilled_left_reads",
    "RB.C110_sketch_left_stores",
    "RB.C110_sketch_right_stores",
    "RB.C110_unfilled_right_stores",
    "RB.C110_sketch_race",
    "RB.C110_sketch_sparse_reads",
    "RB.C110_sketch_sparse_left_stores",
    "RB.C110_sketch_sparse_right_stores",
    "RB.C110_counterexample"
   ],
   "note": "Holds for dense operators, CSC and CSR matrices, COO matrices and operators in the required order, and unfilled operators from the left. Otherwise all elements of the arrays of the input are stored to, and two calls at the same time are a data race. The exact condition is proved."
  },
  {
   "property": "C111",
   "status": "partial",
   "theorems": [
    "RB.C111_require_symmetric",
    "RB.C111_symmetrize",
    "RB.C111_overwrite_triangle_partial",
    "RB.C111_overwrite_undefined",
    "RB.C111_transpose_square",
    "RB.C111_flip_layout",
    "RB.C111_flip_undefined",
    "RB.C111_vector_partial",
    "RB.C111_symmetric_left_partial",
    "RB.C111_symmetric_right_partial",
    "RB.C111_samples_narrow",
    "RB.C111_samples_partial",
    "RB.C111_samples_counterexample"
   ],
   "note": "Holds for require_symmetric, symmetrize and transpose_square. overwrite_triangle is undefined if n + k > 2^63 although it should do nothing; flip_layout is undefined if the length of the new vector, padding included, reaches 2^63; sketches need the sizes of C104; sample_indices_iid with n > 2^(w-1) indices silently stores wrong samples of w bits (C111_samples_counterexample)."
  },
  {
   "property": "C112",
   "status": "partial",
   "theorems": [
    "RB.C112_csc_narrow",
    "RB.C112_csr_narrow",
    "RB.C112_csc_partial",
    "RB.C112_csr_partial",
    "RB.C112_counterexample",
    "RB.C112_reindex_csc_partial",
    "RB.C112_reindex_csr_partial",
    "RB.C112_reindex_coo_partial",
    "RB.C112_reindex_csc_undefined",
    "RB.C112_reindex_csr_undefined",
    "RB.C112_reindex_coo_undefined",
    "RB.C112_reindex_wraps"
   ],
   "note": "coo_to_csc and coo_to_csr are correct exactly if indices and the number of entries fit the target type; otherwise indices are silently reduced modulo 2^w. reindex_inplace from zero- to one-based is undefined (w >= 32) or wraps (w < 32) if the largest representable index occurs."
  },
  {
   "property": "C113",
   "status": "partial",
   "theorems": [
    "RB.C113_critical_value_partial",
    "RB.C113_out_of_range",
    "RB.C113_never_fails",
    "RB.C113_never_fails_continuous",
    "RB.C113_mutator_partial",
    "RB.C113_mutator_wraps"
   ],
   "note": "Every tabulated value is checked against the Dvoretzky-Kiefer-Wolfowitz-Massart bound up to 1/n. One is misprinted (6.03122960e-0 for e-04): with 1e-5 <= sig < 1e-4 and more than 2^23 samples no test can fail. Sample sizes of 64 bits are reduced modulo 2^32 by the mutating lookup."
  },
  {
   "property": "C114",
   "status": "proved",
   "theorems": [
    "RB.C114_index_test",
    "RB.C114_index_undefined",
    "RB.C114_continuous_test",
    "RB.C114_check",
    "RB.C114_uniform_cdf",
    "RB.C114_uniform_contCdf",
    "RB.C114_normal_cdf",
    "RB.C114_normal_contCdf",
    "RB.C114_uniform_test",
    "RB.C114_normal_test"
   ],
   "note": "In exact arithmetic; erfc of the C library is a parameter that has the values of the integral (IsErfc)."
  },
  {
   "property": "C115",
   "status": "partial",
   "theorems": [
    "RB.C115_pmf",
    "RB.C115_pmf_error",
    "RB.C115_pmf_arr",
    "RB.C115_sum_one",
    "RB.C115_mean",
    "RB.C115_variance_partial",
    "RB.C115_variance_not_finite",
    "RB.C115_empirical",
    "RB.C115_null"
   ],
   "note": "hypergeometric_variance divides zero by zero for N = 1. With words uniform below W the counts have the hypergeometric distribution up to factors (1 - n/W)^k and (1 + n/W)^k. Exact arithmetic."
  },
  {
   "property": "C116",
   "status": "proved",
   "theorems": [
    "RB.C116_long_axis",
    "RB.C116_long_axis_uniform",
    "RB.C116_count",
    "RB.C116_short_axis",
    "RB.C116_not_exact"
   ],
   "note": "The law of a whole vector: multinomial counts with independent signs (long axis), uniform k-subsets with independent signs (short axis). The locations are uniform up to the stated factors, which cannot be dropped unless the vector length divides the number of words. Independence of different vectors is C89."
  },
  {
   "property": "C117",
   "status": "partial",
   "theorems": [
    "RB.C117_left_partial",
    "RB.C117_right_partial",
    "RB.C117_left_coo_undefined",
    "RB.C117_right_coo_undefined",
    "RB.C117_left_error",
    "RB.C117_right_error"
   ],
   "note": "Product for every usable submatrix; all other submatrices are rejected without changes. Excluded as in C31: column kernels that misjudge the number of nonzeros per column; for COO matrices these cases are proved to be undefined."
  },
  {
   "property": "C118",
   "status": "partial",
   "theorems": [
    "RB.C118_approx_equal",
    "RB.C118_approx_equal_fails",
    "RB.C118_buffs_partial",
    "RB.C118_buffs_inc_partial",
    "RB.C118_bounds_partial",
    "RB.C118_matrices_partial",
    "RB.C118_matrices_one_layout_partial",
    "RB.C118_nan",
    "RB.C118_infinity",
    "RB.C118_infinity_buffs",
    "RB.C118_bounds_nan"
   ],
   "note": "Proved for finite numbers in exact arithmetic. Violated otherwise: with a positive relative tolerance an infinity is accepted in place of every finite number (C118_infinity, C118_infinity_buffs) and the helper with bounds accepts NaN in place of anything (C118_bounds_nan)."
  },
  {
   "property": "C119",
   "status": "partial",
   "theorems": [
    "RB.C119_uniform",
    "RB.C119_uniform_axis",
    "RB.C119_gaussian_partial",
    "RB.C119_gaussian_differs",
    "RB.C119_gaussian_boxmuller"
   ],
   "note": "Proved for the uniform family. For the Gaussian family it would follow if the two values of the Box-Muller transformation were independent (C119_gaussian_partial), but they are not: pairs lie in a disk whose radius the smallest word determines, so that the laws for the two axes differ, though by very small probabilities (C119_gaussian_differs, C119_gaussian_boxmuller)."
  },
  {
   "property": "C12",
   "status": "proved",
   "theorems": [
    "RB.C12_long_axis"
   ],
   "note": "The square root is a parameter with sqrt(n)*sqrt(n)=n; the iteration order of the hash map is arbitrary."
  },
  {
   "property": "C120",
   "status": "partial",
   "theorems": [
    "RB.C120_rows_partial",
    "RB.C120_columns_partial",
    "RB.C120_countsketch",
    "RB.C120_countsketch_right_partial",
    "RB.C120_signs"
   ],
   "note": "CountSketch from the left is proved. From the right it is proved for beta = 0 only, as the library applies beta twice with an operator that has not been filled (C37). The long-axis case does not hold as documented: each sampled row or column is negated with probability 1/2 (C120_signs), and the call is undefined if all samples are the first index; otherwise the rows are sampled with replacement as documented. Index probabilities are 1/m up to 1/(number of words)."
  },
  {
   "property": "C121",
   "status": "proved",
   "theorems": [
    "RB.C121_left",
    "RB.C121_right",
    "RB.C121_sparse_left",
    "RB.C121_sparse_right",
    "RB.C121_words"
   ],
   "note": "For new dense operators, alpha nonzero, beta = 0, all windows, sides, layouts, transposes and ranks. The bound is min(d, rank) p with p = 2^-32 (uniform) and 2^-31 (Gaussian) for the exact conversions of 32-bit words. Sparse data: the supported products of C25 and C41. No such statement for sparse operators, which lose rank with a probability that does not vanish."
  },
  {
   "property": "C122",
   "status": "partial",
   "theorems": [
    "RB.C122_exact_partial"
   ],
   "note": "Both example programs run past the end of a work array with the sizes they use (C86_main_undefined); the theorem is about other sizes of this array. Supported sparse products only (C25). The factorizations of LAPACK are assumed as in C86."
  },
  {
   "property": "C123",
   "status": "partial",
   "theorems": [
    "RB.C123_run_partial",
    "RB.C123_words"
   ],
   "note": "Missing: stabilisation by LU, where the code has an error (C78), and 2^31 or more rows or columns (C73). Without stabilisation, with LQ and with sketching it is proved for every matrix of rank at least k. The factorizations of LAPACK are assumed as in C79."
  },
  {
   "property": "C124",
   "status": "partial",
   "theorems": [
    "RB.C124_explicit",
    "RB.C124_reference_left",
    "RB.C124_reference_right",
    "RB.C124_left_random",
    "RB.C124_right_random",
    "RB.C124_left_eye",
    "RB.C124_left_transpose_eye",
    "RB.C124_library_left",
    "RB.C124_library_right",
    "RB.C124_tolerance_counterexample",
    "RB.C124_left_submatrix",
    "RB.C124_left_transposed",
    "RB.C124_right_submatrix",
    "RB.C124_right_transposed",
    "RB.C124_right_eye",
    "RB.C124_right_transpose_eye",
    "RB.C124_library_left_submatrix",
    "RB.C124_library_right_submatrix",
    "RB.C124_library_left_eye",
    "RB.C124_library_right_eye",
    "RB.C124_library_left_transpose_eye",
    "RB.C124_library_right_transpose_eye",
    "RB.C124_library_left_transposed",
    "RB.C124_library_right_transposed"
   ],
   "note": "The references and the decisions of the tests are characterised for every operator and program under test, in exact arithmetic. The tolerance is not one that admits every correctly rounded result (C124_tolerance_counterexample). The library passes for the products of C31, C32, C36 and C37. Not modelled: the number of threads, rounding of the reference itself."
  },
  {
   "property": "C125",
   "status": "partial",
   "theorems": [
    "RB.C125_no_false_alarm",
    "RB.C125_detects",
    "RB.C125_detects_iterations",
    "RB.C125_false_alarm_probability",
    "RB.C125_gaussian_size",
    "RB.C125_gaussian_rows",
    "RB.C125_iterations",
    "RB.C125_iterations_truncated",
    "RB.C125_start_reused"
   ],
   "note": "Exact arithmetic. The number of iterations is smaller than the bounds for the probability of failure (C125_iterations_truncated), and the start vectors are not independent of the matrix (C125_start_reused); so detection is proved under a condition on the angles of the start vectors, and no probability is given for it. The probability of a false alarm is bounded with other constants than the ones in the comments of the test."
  },
  {
   "property": "C126",
   "status": "partial",
   "theorems": [
    "RB.C126_sparsify",
    "RB.C126_sparsify_layout",
    "RB.C126_diagonal_partial",
    "RB.C126_diagonal_error",
    "RB.C126_diagonal_out_of_range",
    "RB.C126_csc_diagonal_test",
    "RB.C126_csr_diagonal_test_partial",
    "RB.C126_csc_random_test",
    "RB.C126_csr_random_test_partial",
    "RB.C126_coo_random_test",
    "RB.C126_probability_counterexample"
   ],
   "note": "The code violates two parts: entries are not zero with the requested probability (C126_probability_counterexample), and diagonals that do not fit are accepted (C126_diagonal_out_of_range). The tests for CSR are proved for at most 2^31 columns (see C28)."
  },
  {
   "property": "C127",
   "status": "partial",
   "theorems": [
    "RB.C127_require",
    "RB.C127_error_if",
    "RB.C127_require_agrees",
    "RB.C127_error_if_msg_partial",
    "RB.C127_long_message",
    "RB.C127_symmetric_partial",
    "RB.C127_symmetric_large",
    "RB.C127_symmetric_undefined",
    "RB.C127_symmetric_agrees"
   ],
   "note": "The code violates two parts: only the first 255 characters of a formatted message are kept (C127_long_message), and require_symmetric formats 64-bit indices with %i, which the C standard leaves undefined (C127_symmetric_undefined) and which names wrong positions from index 2^31 on where the low word is read (C127_symmetric_large). The variant with RandBLAS_ERROR_ASSERT is not modelled."
  },
  {
   "property": "C128",
   "status": "partial",
   "theorems": [
    "RB.C128_transposed_csr_test",
    "RB.C128_transposed_csc_test_partial",
    "RB.C128_sort_thrice",
    "RB.C128_sort_order_test",
    "RB.C128_sort_order_counterexample",
    "RB.C128_diagonal_csr_test_partial",
    "RB.C128_skop_to_coo_test"
   ],
   "note": "The sort-order test violates the claim: it passes exactly if the random matrix has a nonzero above and to the right of another one, because a matrix without such a pair is in both orders and the detection prefers CSC (C128_sort_order_test; for n = 1 it always fails, C128_sort_order_counterexample). The CSC transposition test is proved for at most 2^31 rows and the diagonal test up to the largest int: beyond, 32-bit counters overflow."
  },
  {
   "property": "C129",
   "status": "proved",
   "theorems": [
    "RB.C129_fill",
    "RB.C129_fill_again",
    "RB.C129_unpacked"
   ],
   "note": "The iteration order of std::unordered_map is an arbitrary function of the vector number and the inserted pairs, as for a fixed standard library."
  },
  {
   "property": "C13",
   "status": "proved",
   "theorems": [
    "RB.C13_next_state"
   ],
   "note": ""
  },
  {
   "property": "C130",
   "status": "partial",
   "theorems": [
    "RB.C130_helper",
    "RB.C130_saso_test_partial",
    "RB.C130_saso_square",
    "RB.C130_laso_test_partial",
    "RB.C130_laso_test_one",
    "RB.C130_laso_square",
    "RB.C130_unpacked_test",
    "RB.C130_ownership_test_partial"
   ],
   "note": "The tests violate the claim: for d = m and two or more nonzeros per vector the helpers are applied to the array of the fixed indices and reject every correct short-axis operator (C130_saso_square; long axis: C130_laso_square). The long-axis test assumes vec_nnz stored triples per vector, which holds only if no samples of a vector coincide. The ownership test is proved up to the largest int (its loop counter is an int)."
  },
  {
   "property": "C131",
   "status": "partial",
   "theorems": [
    "RB.C131_reference",
    "RB.C131_comparison",
    "RB.C131_positions",
    "RB.C131_colwise_partial",
    "RB.C131_colwise_endless",
    "RB.C131_rowwise_partial",
    "RB.C131_rowwise_endless",
    "RB.C131_diag_partial",
    "RB.C131_diag_wrap",
    "RB.C131_threads",
    "RB.C131_auto_transpose_partial",
    "RB.C131_auto_transpose_square",
    "RB.C131_concat",
    "RB.C131_concat_error",
    "RB.C131_next_state"
   ],
   "note": "The tests violate three parts: the window tests step by n_cols / 50 and so do not end for matrices with less than 50 columns (C131_colwise_endless, C131_rowwise_endless); the windows of the diagonal test cross the ends of rows, and it can then report a difference for a correct library unless the length of the rows is a multiple of the words per counter (C131_diag_wrap); square operators are not in opposite layouts (C131_auto_transpose_square). test_mean_stddev and the Kolmogorov-Smirnov tests of this file are not modelled."
  },
  {
   "property": "C132",
   "status": "partial",
   "theorems": [
    "RB.C132_sparse_left",
    "RB.C132_sparse_right",
    "RB.C132_vector",
    "RB.C132_vector_short_axis",
    "RB.C132_vector_long_axis",
    "RB.C132_symmetric_left",
    "RB.C132_symmetric_right"
   ],
   "note": "New operators, beta = 0, independent uniform words (see C94). Sparse data: the products the library supports (C41). sketch_symmetric: with sparse operators it is the call of sketch_general of C81 and C93 and has no separate theorem."
  },
  {
   "property": "C133",
   "status": "partial",
   "theorems": [
    "RB.C133_vector",
    "RB.C133_vector_transposed",
    "RB.C133_vector_compares",
    "RB.C133_vector_transposed_compares",
    "RB.C133_vector_compatible_compares",
    "RB.C133_vector_compatible_partial",
    "RB.C133_vector_compatible_square_compares",
    "RB.C133_vector_compatible_square",
    "RB.C133_random_symmetric",
    "RB.C133_random_symmetric_tight",
    "RB.C133_random_symmetric_padded",
    "RB.C133_symmetric_same",
    "RB.C133_symmetric_opposing",
    "RB.C133_symmetric_same_compares",
    "RB.C133_symmetric_opposing_compares"
   ],
   "note": "The tests violate two parts: test_transpose_compatible compares row sums with column sums of one matrix for square operators and can then report a difference for a correct library (C133_vector_compatible_square); random_symmetric_mat with padding does not make the matrix its comment describes (C133_random_symmetric_padded). Exact arithmetic; the throwing tests of the two files are covered by C40 and C39."
  },
  {
   "property": "C134",
   "status": "proved",
   "theorems": [
    "RB.C134_eye",
    "RB.C134_eye_overflow",
    "RB.C134_left_submatrix_compares",
    "RB.C134_left_transposed_compares",
    "RB.C134_right_submatrix_compares",
    "RB.C134_right_transposed_compares",
    "RB.C134_left_submatrix",
    "RB.C134_left_transposed",
    "RB.C134_right_submatrix",
    "RB.C134_right_transposed",
    "RB.C134_lsksp3_eye",
    "RB.C134_lsksp3_transpose",
    "RB.C134_lsksp3_submatrix",
    "RB.C134_lsksp3_submatrix_error",
    "RB.C134_rsksp3_eye",
    "RB.C134_rsksp3_transpose",
    "RB.C134_rsksp3_submatrix"
   ],
   "note": "The _compares theorems hold whatever call is tested; the others are the library in exact arithmetic. The tests call lsksp3 and rsksp3, not sketch_sparse, and only with COO data. Identities of order above the largest int overflow a loop counter (C134_eye_overflow). The int counters of the loops that compute the expected matrix are not modelled."
  },
  {
   "property": "C135",
   "status": "partial",
   "theorems": [
    "RB.C135_gram_compares",
    "RB.C135_gram_sequential",
    "RB.C135_gram_blocked",
    "RB.C135_diagonal_compares",
    "RB.C135_diagonal",
    "RB.C135_product",
    "RB.C135_orthonormal",
    "RB.C135_qr_compares",
    "RB.C135_cholqr",
    "RB.C135_cgs2",
    "RB.C135_eig_diag_compares",
    "RB.C135_eig_diag",
    "RB.C135_posdef",
    "RB.C135_posdef_error",
    "RB.C135_power_compares"
   ],
   "note": "The _compares theorems hold whatever routine is tested; the others are the routines of handrolled_lapack.hh in exact arithmetic. Missing: that the power method passes its test, which depends on the number of iterations and the random start vectors (what it computes is C67). run_general_posdef is not called by any test and is not modelled. No theorem says that the random matrices have independent columns, which holds with probability one for continuous distributions."
  },
  {
   "property": "C136",
   "status": "partial",
   "theorems": [
    "RB.C136_matrix",
    "RB.C136_matrix_error",
    "RB.C136_left_eye_compares",
    "RB.C136_left_alpha_beta_compares",
    "RB.C136_left_submatrix_self_compares",
    "RB.C136_left_transpose_self_compares",
    "RB.C136_left_submatrix_other_compares",
    "RB.C136_left_transpose_other_compares",
    "RB.C136_right_eye_compares",
    "RB.C136_right_alpha_beta_compares",
    "RB.C136_right_submatrix_self_compares",
    "RB.C136_right_transpose_self_compares",
    "RB.C136_right_submatrix_other_compares",
    "RB.C136_right_transpose_other_compares",
    "RB.C136_left_eye_partial",
    "RB.C136_left_alpha_beta_partial",
    "RB.C136_left_submatrix_self_partial",
    "RB.C136_left_transpose_self_partial",
    "RB.C136_left_submatrix_other_partial",
    "RB.C136_left_transpose_other_partial",
    "RB.C136_right_eye_partial",
    "RB.C136_right_alpha_beta_partial",
    "RB.C136_right_submatrix_self_partial",
    "RB.C136_right_transpose_self_partial",
    "RB.C136_right_submatrix_other_partial",
    "RB.C136_right_transpose_other_partial",
    "RB.C136_left_alpha_beta_error",
    "RB.C136_left_submatrix_self_error"
   ],
   "note": "The _compares theorems hold whatever product is tested; the _partial ones are the library in exact arithmetic and say that it passes unless all nonzeros of the test matrix lie in its first column, where the products themselves go wrong (C31), or, for CSR, the matrix has 2^31 or more columns. The int counters of two loops of linop_common.hh do not overflow in the model."
  },
  {
   "property": "C137",
   "status": "partial",
   "theorems": [
    "RB.C137_operator",
    "RB.C137_lskge3_eye_compares",
    "RB.C137_lskge3_eye",
    "RB.C137_lskge3_transpose_compares",
    "RB.C137_lskge3_transpose",
    "RB.C137_lskge3_submatrix_S_compares",
    "RB.C137_lskge3_submatrix_S",
    "RB.C137_lskge3_submatrix_A_compares",
    "RB.C137_lskge3_submatrix_A",
    "RB.C137_rskge3_eye_compares",
    "RB.C137_rskge3_eye",
    "RB.C137_rskge3_transpose_compares",
    "RB.C137_rskge3_transpose",
    "RB.C137_rskge3_submatrix_S_compares",
    "RB.C137_rskge3_submatrix_S",
    "RB.C137_rskge3_submatrix_A_compares",
    "RB.C137_rskge3_submatrix_A",
    "RB.C137_lskges_apply_compares",
    "RB.C137_lskges_apply_partial",
    "RB.C137_lskges_submatrix_S_compares",
    "RB.C137_lskges_submatrix_S_partial",
    "RB.C137_lskges_alpha_beta_compares",
    "RB.C137_lskges_alpha_beta_partial",
    "RB.C137_lskges_transpose_compares",
    "RB.C137_lskges_transpose_partial",
    "RB.C137_lskges_submatrix_A_compares",
    "RB.C137_lskges_submatrix_A_partial",
    "RB.C137_lskges_transpose_A_compares",
    "RB.C137_lskges_transpose_A_partial",
    "RB.C137_rskges_eye_compares",
    "RB.C137_rskges_eye_partial",
    "RB.C137_rskges_apply_compares",
    "RB.C137_rskges_apply_partial",
    "RB.C137_rskges_submatrix_S_compares",
    "RB.C137_rskges_submatrix_S_partial",
    "RB.C137_sparse_error",
    "RB.C137_require_errors"
   ],
   "note": "The _compares theorems hold whatever product is tested. The library theorems are for exact arithmetic: without condition for the eight fixtures with dense operators; the nine with sparse operators are _partial, since the library goes wrong if all nonzeros of the window used lie in its first column (from the left) or row (from the right) (C31, C37), which a short major axis excludes for whole operators. From the right the theorems need a filled operator, as the fixtures use (C37). Number of threads not modelled."
  },
  {
   "property": "C138",
   "status": "partial",
   "theorems": [
    "RB.C138_histogram",
    "RB.C138_total",
    "RB.C138_text_determines",
    "RB.C138_exact",
    "RB.C138_conversions",
    "RB.C138_out_of_bounds",
    "RB.C138_top_word_counterexample",
    "RB.C138_exception_test",
    "RB.C138_require",
    "RB.C138_error_if_msg_partial"
   ],
   "note": "C138_histogram holds with any rounding if every number falls in a bin; C138_exact and C138_conversions show that exact arithmetic guarantees this, C138_top_word_counterexample that single precision does not: the write is then out of bounds. The map of references is the argument ref. Messages with conversions or of more than 255 characters are not covered (C127)."
  },
  {
   "property": "C139",
   "status": "proved",
   "theorems": [
    "RB.C139_decides",
    "RB.C139_single_entry",
    "RB.C139_empty_error",
    "RB.C139_average",
    "RB.C139_mean_fails_rarely",
    "RB.C139_stddev_fails_rarely",
    "RB.C139_fails_rarely",
    "RB.C139_uniform_fixture",
    "RB.C139_gaussian_fixture"
   ],
   "note": "Exact arithmetic; the shares are for ideal words (every choice of all words equally likely), midpoint conversions and an exact Box-Muller transform. The bounds are those of Chebyshev and Markov, not sharp. In the 203 x 203 fixtures the bound is weak."
  },
  {
   "property": "C14",
   "status": "proved",
   "theorems": [
    "RB.C14_well_defined",
    "RB.C14_long_wide",
    "RB.C14_long_tall",
    "RB.C14_short_wide",
    "RB.C14_short_tall"
   ],
   "note": ""
  },
  {
   "property": "C140",
   "status": "proved",
   "theorems": [
    "RB.C140_smoke",
    "RB.C140_uniform_ks",
    "RB.C140_iid_ks",
    "RB.C140_degenerate",
    "RB.C140_states_decide",
    "RB.C140_uniform_states",
    "RB.C140_iid_states",
    "RB.C140_states_blind",
    "RB.C140_fisher_yates_states",
    "RB.C140_fisher_yates_ks",
    "RB.C140_sizes",
    "RB.C140_fisher_yates_test"
   ],
   "note": "Exact arithmetic. The critical value is the one in the table, which has one wrong entry (C113)."
  },
  {
   "property": "C141",
   "status": "proved",
   "theorems": [
    "RB.C141_uniform",
    "RB.C141_gaussian",
    "RB.C141_error",
    "RB.C141_order_blind"
   ],
   "note": "Exact arithmetic; erfc is any function with the defining integral (IsErfc). The critical value is the one in the table, which has one wrong entry (C113)."
  },
  {
   "property": "C142",
   "status": "proved",
   "theorems": [
    "RB.C142_tiny",
    "RB.C142_medium"
   ],
   "note": "The format of numbers is a parameter. The sizes 7 and 3 of the larger tests are generalised."
  },
  {
   "property": "C15",
   "status": "partial",
   "theorems": [
    "RB.C15_exact_when_representable",
    "RB.C15_never_wrong",
    "RB.C15_overflow_reported_partial",
    "RB.C15_intmin_counterexample",
    "RB.C15_strict_counterexample"
   ],
   "note": "The overflow report is proved except when a factor is -1 (INT_MIN / -1 in the check is undefined); the counterexamples show the full claim is false of the code."
  },
  {
   "property": "C16",
   "status": "proved",
   "theorems": [
    "RB.C16_dense_dist",
    "RB.C16_sparse_dist"
   ],
   "note": ""
  },
  {
   "property": "C17",
   "status": "proved",
   "theorems": [
    "RB.C17_omatcopy",
    "RB.C17_flip_layout",
    "RB.C17_flip_layout_error",
    "RB.C17_flip_roundtrip"
   ],
   "note": ""
  },
  {
   "property": "C18",
   "status": "proved",
   "theorems": [
    "RB.C18_symmetrize",
    "RB.C18_idempotent"
   ],
   "note": ""
  },
  {
   "property": "C19",
   "status": "partial",
   "theorems": [
    "RB.C19_overwrite_triangle_partial",
    "RB.C19_invalid_uplo",
    "RB.C19_negative_k_counterexample"
   ],
   "note": "Full for k >= 0; the documented error for k < 0 is absent from the code (counterexample)."
  },
  {
   "property": "C20",
   "status": "proved",
   "theorems": [
    "RB.C20_transpose_square",
    "RB.C20_involution"
   ],
   "note": ""
  },
  {
   "property": "C21",
   "status": "proved",
   "theorems": [
    "RB.C21_require_symmetric",
    "RB.C21_exact_symmetry",
    "RB.C21_negative_tol"
   ],
   "note": "Over an ordered field (no rounding)."
  },
  {
   "property": "C22",
   "status": "proved",
   "theorems": [
    "RB.C22_weights_to_cdf",
    "RB.C22_error",
    "RB.C22_error_state"
   ],
   "note": "Over an ordered field (no rounding)."
  },
  {
   "property": "C23",
   "status": "proved",
   "theorems": [
    "RB.C23_inverse_cdf",
    "RB.C23_zero_uniform_counterexample"
   ],
   "note": "Over an ordered field; the counterexample shows why u > 0 is needed."
  },
  {
   "property": "C24",
   "status": "proved",
   "theorems": [
    "RB.C24_uniform",
    "RB.C24_with_signs",
    "RB.C24_one_counterexample"
   ],
   "note": "Over an ordered field; the counterexample shows why u < 1 is needed."
  },
  {
   "property": "C25",
   "status": "proved",
   "theorems": [
    "RB.C25_sort",
    "RB.C25_sort_type"
   ],
   "note": "std::sort is any function with the guarantees of the C++ standard."
  },
  {
   "property": "C26",
   "status": "proved",
   "theorems": [
    "RB.C26_csc",
    "RB.C26_csr",
    "RB.C26_same_matrix",
    "RB.C26_csc_dims_counterexample"
   ],
   "note": "coo_to_csc does not detect different numbers of columns (its check compares a value with itself); see C26_csc_dims_counterexample."
  },
  {
   "property": "C27",
   "status": "partial",
   "theorems": [
    "RB.C27_csc_partial",
    "RB.C27_csr_partial",
    "RB.C27_csc_correct_iff",
    "RB.C27_csc_counterexample",
    "RB.C27_csr_counterexample"
   ],
   "note": "The property is false of the code: csc_to_coo (csr_to_coo) stores array positions as row (column) indices. Proved: exactly what is produced, when it is right, and counterexamples."
  },
  {
   "property": "C28",
   "status": "partial",
   "theorems": [
    "RB.C28_nnz",
    "RB.C28_dense_to_coo",
    "RB.C28_dense_to_csc",
    "RB.C28_dense_to_csr",
    "RB.C28_coo_to_dense",
    "RB.C28_csc_to_dense",
    "RB.C28_csr_to_dense_partial",
    "RB.C28_csr_int_counterexample",
    "RB.C28_no_duplicates",
    "RB.C28_duplicates_counterexample",
    "RB.C28_kept_matrix",
    "RB.C28_coo_roundtrip",
    "RB.C28_csc_roundtrip",
    "RB.C28_csr_roundtrip_partial",
    "RB.C28_tolerance_zero",
    "RB.C28_layouts"
   ],
   "note": "Proved for COO and CSC in full, and for CSR if no entry is in a column beyond the first 2^31. csr_to_dense stores column indices in a 32-bit int: for other matrices it can write out of bounds (C28_csr_int_counterexample). For matrices with duplicate entries *_to_dense keeps the last one (C28_duplicates_counterexample)."
  },
  {
   "property": "C29",
   "status": "proved",
   "theorems": [
    "RB.C29_coo",
    "RB.C29_csc",
    "RB.C29_csr",
    "RB.C29_twice",
    "RB.C29_swap_is_transpose"
   ],
   "note": ""
  },
  {
   "property": "C30",
   "status": "proved",
   "theorems": [
    "RB.C30_coo",
    "RB.C30_csc",
    "RB.C30_csr"
   ],
   "note": ""
  },
  {
   "property": "C31",
   "status": "partial",
   "theorems": [
    "RB.C31_left_spmm_partial",
    "RB.C31_coo_undefined",
    "RB.C31_coo_exact",
    "RB.C31_compressed_undefined",
    "RB.C31_compressed_exact",
    "RB.C31_first_column_counterexample",
    "RB.C31_first_column_coo_counterexample",
    "RB.C31_empty_inner_counterexample",
    "RB.C31_csr_int_counterexample",
    "RB.C31_csc_int_counterexample"
   ],
   "note": "Proved for every execution in which the code is right. The excluded cases (Supported) are those where the CSC-based column kernels misjudge the number of nonzeros per column (all nonzeros in the first of several columns, or no columns) and where indices exceed int. For the former it is proved that every excluded case is undefined (C31_coo_exact, C31_compressed_exact: the product returns if and only if the condition holds); for the latter there are counterexamples."
  },
  {
   "property": "C32",
   "status": "partial",
   "theorems": [
    "RB.C32_right_spmm_partial",
    "RB.C32_coo_undefined"
   ],
   "note": "By reduction to C31, with the same exclusions; for COO matrices the excluded cases are proved to be undefined."
  },
  {
   "property": "C33",
   "status": "partial",
   "theorems": [
    "RB.C33_schedule_irrelevant",
    "RB.C33_threads_irrelevant",
    "RB.C33_schedule_irrelevant_partial",
    "RB.C33_thread_count_counterexample"
   ],
   "note": "Schedules: for every two, both calls are undefined or both have the same outcome and final state; no algebraic laws, arbitrary arrays (row indices used as positions in C in range). Thread counts: the same for well-formed data, with less than 2^31 rows in the row-major CSC kernel; with 2^31 rows the outcome depends on the number of threads (counterexample), so the property does not hold in full. In the cases in which the product is defined both calls return normally (C33_schedule_irrelevant_partial)."
  },
  {
   "property": "C34",
   "status": "partial",
   "theorems": [
    "RB.C34_alpha_zero",
    "RB.C34_beta_zero_partial"
   ],
   "note": "alpha = 0 in full; beta = 0 with the exclusions of C31."
  },
  {
   "property": "C35",
   "status": "partial",
   "theorems": [
    "RB.C35_blocks_partial",
    "RB.C35_int_counterexample"
   ],
   "note": "At most 2^31 - 1 rows and 2^30 threads; with 2^31 rows the block bounds overflow int (counterexample)."
  },
  {
   "property": "C36",
   "status": "partial",
   "theorems": [
    "RB.C36_left_dense_partial",
    "RB.C36_right_dense_partial",
    "RB.C36_left_full_partial",
    "RB.C36_right_full_partial",
    "RB.C36_empty_undefined_left",
    "RB.C36_empty_undefined_right",
    "RB.C36_empty_undefined_sparse_left",
    "RB.C36_empty_undefined_sparse_right",
    "RB.C36_empty_window_counterexample"
   ],
   "note": "Every shape, layout, transpose, offset and scalar, filled and unfilled operators. Excluded are some empty windows of unfilled operators (FillOk), where the code writes outside a temporary array: every excluded call is undefined (C36_empty_undefined_*), so the claim is settled for all windows inside the operator."
  },
  {
   "property": "C37",
   "status": "partial",
   "theorems": [
    "RB.C37_left_sparse_partial",
    "RB.C37_right_sparse_partial",
    "RB.C37_right_unfilled",
    "RB.C37_left_short_axis",
    "RB.C37_right_short_axis_partial",
    "RB.C37_left_sparse_undefined",
    "RB.C37_right_sparse_undefined",
    "RB.C37_first_column_counterexample",
    "RB.C37_right_unfilled_counterexample"
   ],
   "note": "Left: filled and unfilled operators, excluding operators whose nonzeros are all in the first column of op(submat(S)), as far as CooOk excludes them: there the call is proved to be undefined. Right: filled operators; for unfilled operators the product is added twice (C37_right_unfilled states what is computed, C37_right_unfilled_counterexample that it is wrong)."
  },
  {
   "property": "C38",
   "status": "partial",
   "theorems": [
    "RB.C38_left_dense",
    "RB.C38_right_dense",
    "RB.C38_left_sparse",
    "RB.C38_vector",
    "RB.C38_symmetric_left",
    "RB.C38_symmetric_right_dense",
    "RB.C38_right_sparse_partial",
    "RB.C38_right_sparse_counterexample"
   ],
   "note": "Results (contents of B, or the same error) agree for unfilled and filled operators. Missing: right sketches with an unfilled sparse operator and beta other than 0, where the code is wrong (C38_right_sparse_counterexample)."
  },
  {
   "property": "C39",
   "status": "partial",
   "theorems": [
    "RB.C39_sketch_vector_partial",
    "RB.C39_full_partial"
   ],
   "note": "All strides >= 1, all offsets; same exclusions as C36 and C37."
  },
  {
   "property": "C40",
   "status": "partial",
   "theorems": [
    "RB.C40_left_partial",
    "RB.C40_right_partial",
    "RB.C40_left_full_partial",
    "RB.C40_right_full_partial"
   ],
   "note": "Error exactly if A is not symmetric up to the tolerance; otherwise the product. Same exclusions as C36 and C37."
  },
  {
   "property": "C41",
   "status": "partial",
   "theorems": [
    "RB.C41_left_partial",
    "RB.C41_right_partial"
   ],
   "note": "Filled and unfilled dense operators; A in COO, CSC or CSR format, all layouts and transposes. Same exclusions as C31 and C36."
  },
  {
   "property": "C42",
   "status": "partial",
   "theorems": [
    "RB.C42_left_spmm",
    "RB.C42_right_spmm",
    "RB.C42_left_dense",
    "RB.C42_right_dense",
    "RB.C42_left_full",
    "RB.C42_right_full",
    "RB.C42_left_sparse_partial",
    "RB.C42_right_sparse_partial",
    "RB.C42_sketch_sparse_left",
    "RB.C42_sketch_sparse_right",
    "RB.C42_offsets_counterexample",
    "RB.C42_negative_offset_undefined",
    "RB.C42_negative_offset_counterexample",
    "RB.C42_negative_unfilled_undefined_left",
    "RB.C42_negative_unfilled_undefined_right",
    "RB.C42_negative_unfilled_undefined_sparse_left",
    "RB.C42_negative_unfilled_undefined_sparse_right",
    "RB.C42_negative_unfilled_counterexample"
   ],
   "note": "Errors for invalid arguments, with everything unchanged. That valid arguments raise no error is part of C31, C32, C36, C37, C39-C41, which conclude normal termination. Missing: the code does not check the offsets of a window of a COO matrix or a sparse operator (C42_offsets_counterexample), nor negative offsets into a dense operator, filled or not (undefined, or a wrong window; the undefined cases are proved for all other arguments)."
  },
  {
   "property": "C43",
   "status": "partial",
   "theorems": [
    "RB.Mem.C43_safe",
    "RB.Mem.C43_no_leak_partial",
    "RB.Mem.C43_owners_partial",
    "RB.Mem.C43_user_arrays",
    "RB.Mem.C43_elision_counterexample",
    "RB.Mem.C43_leak_counterexample",
    "RB.Mem.C43_leak_reachable",
    "RB.Mem.C43_unreserved_counterexample",
    "RB.Mem.C43_delete_owned_undefined"
   ],
   "note": "All finite histories of a pointer-level model (constructors, views, moves, destructors, fills, sketches, products, conversions, transposes, the user's arrays), with exceptions at any point. Safety assumes that the compiler elides the copy of the object returned by submatrix_as_blackbox (C++ does not guarantee it: counterexample). Absence of leaks fails if fill_dense_unpacked raises an exception inside submatrix_as_blackbox (counterexample, reachable)."
  },
  {
   "property": "C44",
   "status": "proved",
   "theorems": [
    "RB.C44_coo",
    "RB.C44_csc",
    "RB.C44_csr"
   ],
   "note": ""
  },
  {
   "property": "C45",
   "status": "proved",
   "theorems": [
    "RB.C45_incr",
    "RB.C45_incr_add",
    "RB.C45_period",
    "RB.RNGWords.C45_eq",
    "RB.RNGWords.C45_copy",
    "RB.RNGWords.C45_ofKey",
    "RB.RNGWords.C45_ofKey_inj",
    "RB.RNGWords.C45_ofKey_short_counterexample",
    "RB.RNGWords.C45_abs"
   ],
   "note": "Words of any width up to 64 bits, arrays of any length. Random123's incr is external code, modelled from its public source. operator!= does not compile and is not modelled. C45_abs: the rest of the model, in which the counter is an integer modulo its period, represents states and increments exactly. For keys shorter than 64 bits the integer is reduced modulo the width (counterexample to injectivity)."
  },
  {
   "property": "C46",
   "status": "partial",
   "theorems": [
    "RB.C46_short_axis",
    "RB.C46_long_axis",
    "RB.C46_dense_wide_partial",
    "RB.C46_dense_tall_partial",
    "RB.C46_dense_short_factor",
    "RB.C46_dense_short_counterexample"
   ],
   "note": "Real numbers instead of doubles. The dense claim holds for major axis Long; it is false of the code for major axis Short (counterexample)."
  },
  {
   "property": "C47",
   "status": "proved",
   "theorems": [
    "RB.C47_fill_dense",
    "RB.C47_fill_dense_error",
    "RB.C47_dense_deterministic",
    "RB.C47_fill_sparse",
    "RB.C47_fill_sparse_error"
   ],
   "note": ""
  },
  {
   "property": "C48",
   "status": "proved",
   "theorems": [
    "RB.C48_coo_preserved"
   ],
   "note": ""
  },
  {
   "property": "C49",
   "status": "partial",
   "theorems": [
    "RB.C49_streaming_partial",
    "RB.C49_right_partial"
   ],
   "note": "Dense and sparse operators, any storage of the blocks; same exclusions as C36 and C37 for the three calls."
  },
  {
   "property": "C50",
   "status": "partial",
   "theorems": [
    "RB.C50_strided_partial",
    "RB.C50_layout_partial",
    "RB.C50_text_determines",
    "RB.C50_no_columns_counterexample",
    "RB.C50_no_rows_counterexample"
   ],
   "note": "Every shape with at least one row and one column, all strides, styles and contents; number formatting is an arbitrary function of precision and number. For a matrix without columns the code reads an element that does not exist, for a matrix without rows it omits the closing (counterexamples)."
  },
  {
   "property": "C51",
   "status": "proved",
   "theorems": [
    "RB.C51_pointers",
    "RB.C51_unsorted"
   ],
   "note": ""
  },
  {
   "property": "C52",
   "status": "partial",
   "theorems": [
    "RB.Mem.C52_free",
    "RB.Mem.C52_attach"
   ],
   "note": "In the pointer-level model of C43, with the same assumption about copy elision."
  },
  {
   "property": "C53",
   "status": "partial",
   "theorems": [
    "RB.C53_print_partial",
    "RB.C53_short_axis",
    "RB.C53_unfilled",
    "RB.C53_merged_counterexample",
    "RB.C53_uninitialised_counterexample"
   ],
   "note": "Holds for all operators without merged samples (all short-axis operators); for others elements after the last nonzero are printed too, which may never have been written (counterexamples)."
  },
  {
   "property": "C54",
   "status": "proved",
   "theorems": [
    "RB.C54_text",
    "RB.C54_text_determines"
   ],
   "note": ""
  },
  {
   "property": "C55",
   "status": "partial",
   "theorems": [
    "RB.C55_left_spmm_partial",
    "RB.C55_right_spmm_partial",
    "RB.C55_sketch_left_partial",
    "RB.C55_sketch_right_partial",
    "RB.C55_sketch_vector_partial"
   ],
   "note": "For every number type that meets the standard model of floating-point arithmetic (shown for binary formats with p bits and unbounded exponent). Same exclusions as C31, C32 and C37; for dense operators see C100."
  },
  {
   "property": "C56",
   "status": "partial",
   "theorems": [
    "RB.C56_same_partial",
    "RB.C56_entries_partial",
    "RB.C56_next_state_partial",
    "RB.C56_padding_counterexample",
    "RB.C56_int_counterexample",
    "RB.C56_check_counterexample"
   ],
   "note": "Proved for operators whose padded size fits int64_t and windows of at most 2^31 counter blocks along the major axis. False of the code otherwise: the product n_cols_padded * row offset and the loop counter `int i` overflow, and so does the check of the offsets."
  },
  {
   "property": "C57",
   "status": "partial",
   "theorems": [
    "RB.C57_fill_partial",
    "RB.C57_permutations_partial",
    "RB.C57_uniform",
    "RB.C57_dist_partial",
    "RB.C57_next_state_partial",
    "RB.C57_permutations_undefined",
    "RB.C57_undefined",
    "RB.C57_offset_counterexample",
    "RB.C57_nnz_counterexample",
    "RB.C57_sum_counterexample"
   ],
   "note": "Proved if the index type can also number the nonzeros (short axis) and the number of nonzeros fits int64_t. The code violates the property otherwise: `sint_t offset = i * vec_nnz` and `j + offset` overflow for `int` indices and more than 2^31 nonzeros (proved for all such operators, C57_undefined), and the constructor's unchecked sum and product overflow."
  },
  {
   "property": "C58",
   "status": "proved",
   "theorems": [
    "RB.C58_counts",
    "RB.C58_probability",
    "RB.C58_word_size_counterexample"
   ],
   "note": "The counterexample concerns n > M, outside the claim: with 32-bit words no index of 2^32 + k or more is ever drawn."
  },
  {
   "property": "C59",
   "status": "proved",
   "theorems": [
    "RB.C59_short_axis_wide",
    "RB.C59_short_axis_tall"
   ],
   "note": "Real numbers instead of doubles; the operator must not have more nonzeros than the counter has values (2^64 or more for Random123's generators)."
  },
  {
   "property": "C60",
   "status": "proved",
   "theorems": [
    "RB.C60_long_axis_wide",
    "RB.C60_long_axis_tall",
    "RB.C60_index_probability",
    "RB.C60_isometry_wide",
    "RB.C60_isometry_tall"
   ],
   "note": "Real numbers instead of doubles and floats: uniform values at exact midpoints in [-1, 1)."
  },
  {
   "property": "C61",
   "status": "proved",
   "theorems": [
    "RB.C61_dense_average",
    "RB.C61_dense_wide",
    "RB.C61_dense_tall",
    "RB.C61_uniform_mean_square",
    "RB.C61_uniform_wide",
    "RB.C61_gaussian_words"
   ],
   "note": "Real numbers instead of floats. C61_dense_average also covers major axis Short, where the factor is n_rows/n_cols (see C46)."
  },
  {
   "property": "C62",
   "status": "partial",
   "theorems": [
    "RB.C62_potrf",
    "RB.C62_block_size",
    "RB.C62_sequential",
    "RB.C62_code_partial",
    "RB.C62_block_size_error",
    "RB.C62_code_counterexample"
   ],
   "note": "Exact field arithmetic. The blocked routine ignores the code of its recursive call, so failures after the first block are not reported (C62_code_counterexample); the unblocked routine has the full property (C62_sequential)."
  },
  {
   "property": "C63",
   "status": "proved",
   "theorems": [
    "RB.C63_chol_qr",
    "RB.C63_chol_qr_twice",
    "RB.C63_unique"
   ],
   "note": "Exact field arithmetic."
  },
  {
   "property": "C64",
   "status": "partial",
   "theorems": [
    "RB.C64_qr_block_cgs_partial",
    "RB.C64_qr_block_cgs2_partial",
    "RB.C64_wide_error",
    "RB.C64_empty_counterexample"
   ],
   "note": "Exact field arithmetic. n = 0 is an error because the block size becomes 0 (C64_empty_counterexample). Sameness with chol_qr follows from C63_unique."
  },
  {
   "property": "C65",
   "status": "proved",
   "theorems": [
    "RB.C65_gershgorin",
    "RB.C65_enclosure",
    "RB.C65_diagonal",
    "RB.C65_empty_counterexample"
   ],
   "note": "Exact field arithmetic. n = 0 reads an element that does not exist (C65_empty_counterexample)."
  },
  {
   "property": "C66",
   "status": "partial",
   "theorems": [
    "RB.C66_chol_iteration_partial",
    "RB.C66_no_iterations_counterexample",
    "RB.C66_inner_counterexample",
    "RB.C66_empty_error"
   ],
   "note": "Exact field arithmetic. The documentation promises all eigenvalues; only the extreme ones are enclosed (C66_inner_counterexample). With max_iters = 0 the result 0 does not mean convergence."
  },
  {
   "property": "C67",
   "status": "proved",
   "theorems": [
    "RB.C67_power_method",
    "RB.C67_monotone",
    "RB.C67_exeigs",
    "RB.C67_symmetry_error",
    "RB.C67_convergence",
    "RB.C67_exeigs_convergence"
   ],
   "note": "Exact field arithmetic; the number of iterations (computed with logarithms) is a parameter that is at least 1, and the random start vectors are arbitrary nonzero vectors."
  },
  {
   "property": "C68",
   "status": "proved",
   "theorems": [
    "RB.C68_total_least_squares",
    "RB.C68_wide_error",
    "RB.C68_one_row_undefined"
   ],
   "note": "Exact field arithmetic; gesdd is a parameter about which only the definition of the singular value decomposition is assumed. n >= m is an error or undefined."
  },
  {
   "property": "C69",
   "status": "partial",
   "theorems": [
    "RB.C69_init_noisy_data_partial",
    "RB.C69_several_undefined"
   ],
   "note": "Exact field arithmetic; the numbers written by fill_dense are arbitrary. For d = 1 the property holds; for d >= 2 uninitialised entries of X are read (C69_several_undefined)."
  },
  {
   "property": "C70",
   "status": "partial",
   "theorems": [
    "RB.C70_sum_partial",
    "RB.C70_duplicates_counterexample",
    "RB.C70_one_based_counterexample",
    "RB.C70_int_undefined"
   ],
   "note": "Holds for zero-based matrices with fewer than 2^31 entries if A has no duplicates. Counterexamples for duplicates in A and one-based indices; undefined for 2^31 or more entries."
  },
  {
   "property": "C71",
   "status": "partial",
   "theorems": [
    "RB.C71_qb_partial",
    "RB.C71_workspace_error",
    "RB.C71_first_column_counterexample"
   ],
   "note": "Exact arithmetic; geqrf/ungqr is a parameter assumed to return an orthonormal basis. Missing: matrices for which the products fail (C31), e.g. all nonzeros in the first column."
  },
  {
   "property": "C72",
   "status": "partial",
   "theorems": [
    "RB.C72_qb_to_svd_partial",
    "RB.C72_workspace_error",
    "RB.C72_workspace_undefined",
    "RB.C72_main_undefined",
    "RB.C72_null_undefined"
   ],
   "note": "Exact arithmetic; gesdd is a parameter. Holds for k < n unless m k + k^2 <= lwork < m k + k^2 + k. For such lwork (in particular for the calls in both main functions) k elements beyond the work array are written; for k >= n a null pointer is written."
  },
  {
   "property": "C73",
   "status": "partial",
   "theorems": [
    "RB.C73_col_swap_partial",
    "RB.C73_trailing_counterexample",
    "RB.C73_rank_error",
    "RB.C73_int_undefined"
   ],
   "note": "Holds for n < 2^31; otherwise the `int` counter overflows (C73_int_undefined). C73_trailing_counterexample: the hypothesis about exchanges is needed for the trailing columns."
  },
  {
   "property": "C74",
   "status": "partial",
   "theorems": [
    "RB.C74_tqrcp_partial",
    "RB.C74_ldy_undefined",
    "RB.C74_duplicate_counterexample"
   ],
   "note": "Exact arithmetic; geqp3 is a parameter about which only the definition of a pivoted QR decomposition is assumed. Holds if the leading dimension of Y is k (as in the example's call), A stores no position twice, m <= 2^31 and n < 2^31. Otherwise the triangle is read with the wrong leading dimension (C74_ldy_undefined) or one of the duplicates is used instead of their sum (C74_duplicate_counterexample)."
  },
  {
   "property": "C75",
   "status": "partial",
   "theorems": [
    "RB.C75_lu_partial",
    "RB.C75_lu_small_pivot",
    "RB.C75_lu_shape",
    "RB.C75_last_pivot_counterexample"
   ],
   "note": "Exact arithmetic; getrf is a parameter about which only the definition of an LU decomposition with partial pivoting is assumed. The loop that checks the pivots stops before the last one: a matrix whose last pivot is 0 is not rejected and its row space is lost (C75_last_pivot_counterexample)."
  },
  {
   "property": "C76",
   "status": "proved",
   "theorems": [
    "RB.C76_lq",
    "RB.C76_lq_shape"
   ],
   "note": "Exact arithmetic; gelqf and unglq are parameters about which only the definition of an LQ decomposition is assumed (shown to be satisfiable over the reals). The shape check follows the call of gelqf."
  },
  {
   "property": "C77",
   "status": "partial",
   "theorems": [
    "RB.C77_sketch_orth_partial",
    "RB.C77_off_first",
    "RB.C77_first_row_undefined",
    "RB.C77_int_undefined"
   ],
   "note": "Exact arithmetic, LQ routines as in C76, the sparse operator as sampled by the model of the library. Partial because the call is undefined if all nonzeros of the operator are in its first row (possible only for d = 2, 3 and d >= n: C77_off_first, C77_first_row_undefined), and for 2^31 rows or more whose factor passes the test (C77_int_undefined)."
  },
  {
   "property": "C78",
   "status": "partial",
   "theorems": [
    "RB.C78_power_iter_partial",
    "RB.C78_lu_partial",
    "RB.C78_lu_counterexample"
   ],
   "note": "Exact arithmetic; fill_dense is any routine that fills the array with given numbers. With LU the code violates the property (C78_lu_counterexample: the last pivot is not checked); C78_lu_partial covers LU when the leading columns of the iterates are independent, up to the exception for small pivots. Missing: m >= 2^31."
  },
  {
   "property": "C79",
   "status": "partial",
   "theorems": [
    "RB.C79_run_partial",
    "RB.C79_lu_partial"
   ],
   "note": "Combination of C78 and C74, with what is missing there."
  },
  {
   "property": "C80",
   "status": "proved",
   "theorems": [
    "RB.C80_moments_wide",
    "RB.C80_moments_tall",
    "RB.C80_distortion_wide",
    "RB.C80_distortion_tall"
   ],
   "note": "The average is over all assignments of words to the (counter, position) pairs; uniform words are an idealisation of Random123. The factor (1 + d/M)^k accounts for the bias of the index computed as a remainder."
  },
  {
   "property": "C81",
   "status": "proved",
   "theorems": [
    "RB.C81_sketch_general",
    "RB.C81_sketch_right",
    "RB.C37_right_short_axis_new"
   ],
   "note": "C80 and C37_left_short_axis combined. Exact arithmetic."
  },
  {
   "property": "C82",
   "status": "proved",
   "theorems": [
    "RB.C82_moments",
    "RB.C82_distortion_uniform",
    "RB.C82_distortion_gaussian",
    "RB.C82_uniform_words",
    "RB.C82_gaussian_words"
   ],
   "note": "Exact conversions of words to real numbers (midpoints; exact Box-Muller transform); uniform words are an idealisation of Random123. C82_moments needs only the moments of the entries."
  },
  {
   "property": "C83",
   "status": "proved",
   "theorems": [
    "RB.C83_left",
    "RB.C83_right",
    "RB.C83_words"
   ],
   "note": "C82 and C36 combined; d > 0 and m > 0 (for empty windows see C36). Exact arithmetic."
  },
  {
   "property": "C84",
   "status": "proved",
   "theorems": [
    "RB.C84_short_axis_left",
    "RB.C84_short_axis_right",
    "RB.C84_dense_left",
    "RB.C84_dense_right",
    "RB.C84_least_squares",
    "RB.C84_kernel"
   ],
   "note": "By the moments of C80 and C82 and a union over an orthonormal basis (Frobenius norm of the error of the Gram matrix). Uniform words are an idealisation of Random123; exact arithmetic."
  },
  {
   "property": "C85",
   "status": "proved",
   "theorems": [
    "RB.C85_dense",
    "RB.C85_sparse",
    "RB.C85_dense_near",
    "RB.C85_sparse_near",
    "RB.C85_dense_near_generic",
    "RB.C85_sparse_near_generic"
   ],
   "note": "The decomposition is that of LAPACK, assumed correct (exists_svdFor: such a routine exists). C85_dense and C85_sparse hold for every choice of words. For the sketch dimension 2(n+1) of the programs the fraction exceeds 1; the bound is informative from about 2(n+1)^2/eps^2 rows."
  },
  {
   "property": "C86",
   "status": "partial",
   "theorems": [
    "RB.C86_run_partial",
    "RB.C86_exact_partial",
    "RB.C86_main_undefined"
   ],
   "note": "Missing: the work array of both programs, m k + k^2 elements, makes every run write past its end (C86_main_undefined); the positive theorems are for the other sizes. The factorisations are those of LAPACK, assumed correct (such routines exist: exists_orthFor, exists_svdFor)."
  },
  {
   "property": "C87",
   "status": "partial",
   "theorems": [
    "RB.C87_left_dense",
    "RB.C87_right_dense",
    "RB.C87_left_sparse_partial",
    "RB.C87_right_sparse_partial",
    "RB.C87_next_dense",
    "RB.C87_next_sparse",
    "RB.C87_isometry_dense",
    "RB.C87_isometry_sparse"
   ],
   "note": "Missing: for sparse operators the cases in which sketch_general fails: blocks with all nonzeros in the first column, and right sketches with unfilled operators (C37)."
  },
  {
   "property": "C88",
   "status": "partial",
   "theorems": [
    "RB.C88_left_dense",
    "RB.C88_right_dense",
    "RB.C88_left_sparse",
    "RB.C88_right_sparse_partial",
    "RB.C88_second_dense",
    "RB.C88_second_sparse"
   ],
   "note": "Missing: right sketches with sparse operators that have not been filled (C37_right_unfilled_counterexample)."
  },
  {
   "property": "C89",
   "status": "proved",
   "theorems": [
    "RB.C89_seed",
    "RB.C89_vectors",
    "RB.C89_operators",
    "RB.C89_keys",
    "RB.C89_uniform_entries",
    "RB.C89_gaussian_entries"
   ],
   "note": "The generator is ideal: all words under all keys and counters are independent and uniform."
  },
  {
   "property": "C90",
   "status": "proved",
   "theorems": [
    "RB.C90_gaussian",
    "RB.C90_uniform",
    "RB.C90_short_axis",
    "RB.C90_long_axis"
   ],
   "note": "The conversion between scalar types is an arbitrary function (for short-axis operators one that keeps 0, 1 and -1)."
  },
  {
   "property": "C91",
   "status": "partial",
   "theorems": [
    "RB.C91_general_left",
    "RB.C91_general_right",
    "RB.C91_full_left",
    "RB.C91_full_right",
    "RB.C91_vector",
    "RB.C91_symmetric_partial",
    "RB.C91_sparse_left",
    "RB.C91_sparse_right",
    "RB.C91_symmetric_counterexample"
   ],
   "note": "Unconditional for sketch_general and sketch_vector (same outcome, B and operator for any two A). For sketch_sparse: B becomes beta*B whatever the arrays of A are (an unfilled operator with an empty window excluded, as in C36). Missing: sketch_symmetric with a nonnegative tolerance reads A (C91_symmetric_counterexample: undefined for every alpha if A is not initialised)."
  },
  {
   "property": "C92",
   "status": "proved",
   "theorems": [
    "RB.C92_moments_wide",
    "RB.C92_moments_tall",
    "RB.C92_distortion_wide",
    "RB.C92_distortion_tall",
    "RB.C92_blind"
   ],
   "note": "Ideal words, exact arithmetic."
  },
  {
   "property": "C93",
   "status": "proved",
   "theorems": [
    "RB.C93_left_long_axis",
    "RB.C93_right_long_axis",
    "RB.C93_left_distortion",
    "RB.C93_right_distortion"
   ],
   "note": "The property includes the undefined behaviour of C37 and gives its exact probability. Ideal words, exact arithmetic."
  },
  {
   "property": "C94",
   "status": "proved",
   "theorems": [
    "RB.C94_tails",
    "RB.C94_distortion",
    "RB.C94_words"
   ],
   "note": "Ideal words, exact arithmetic. The Gaussian words need at least 64 different words (the library has 2^32)."
  },
  {
   "property": "C95",
   "status": "proved",
   "theorems": [
    "RB.C95_left",
    "RB.C95_right",
    "RB.C95_dimension"
   ],
   "note": "Ideal words, exact arithmetic."
  },
  {
   "property": "C96",
   "status": "proved",
   "theorems": [
    "RB.C96_left",
    "RB.C96_right",
    "RB.C96_dimension"
   ],
   "note": "Ideal words, exact arithmetic. Consequences for least squares and kernels: C84_least_squares, C84_kernel."
  },
  {
   "property": "C97",
   "status": "partial",
   "theorems": [
    "RB.C97_tls",
    "RB.C97_low_rank_partial"
   ],
   "note": "Ideal words, exact arithmetic. The low rank part is partial for the same reason as C86: the work array that the programs allocate makes the behaviour undefined; it holds for the other sizes."
  },
  {
   "property": "C98",
   "status": "proved",
   "theorems": [
    "RB.C98_bijective",
    "RB.C98_incr",
    "RB.C98_uniform",
    "RB.C98_word",
    "RB.C98_vectors_distinct",
    "RB.C98_next_operator",
    "RB.C98_words",
    "RB.C98_not_independent"
   ],
   "note": "Random123 is external code, modelled from its public source and checked against all 60 known answers in the repository. The theorems about operators are for exact conversions to real numbers."
  },
  {
   "property": "C99",
   "status": "partial",
   "theorems": [
    "RB.C99_range",
    "RB.C99_ends",
    "RB.C99_radius",
    "RB.C99_double_exact",
    "RB.C99_index",
    "RB.C99_fraction",
    "RB.C99_uniform_out_of_range",
    "RB.C99_long_axis_out_of_range",
    "RB.C99_zero_mass",
    "RB.C99_uniform_partial"
   ],
   "note": "Random123's conversions are modelled from its public source, with every operation rounded; exponents are unbounded. Partial because the range that sample_indices_iid_uniform promises fails for the words named; C99_uniform_partial excludes them. The logarithm and the trigonometric functions are not rounded."
  }
 ]
}