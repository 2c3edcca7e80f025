# Formal model of RandBLAS in Lean 4

`/verif/lean` is a Lake project.

| directory | content |
|-----------|---------|
| `Verif/Core` | execution model: outcomes, buffers, state monad, loops, parallel regions, program logic |
| `Verif/Model` | the C++ functions; every definition cites the file and lines it models |
| `Verif/Spec` | the small vocabulary used in theorem statements (independent of the model's control flow) |
| `Verif/Lemmas` | helper lemmas |
| `Verif/Props` | the property theorems `Cnn_*`, with a non-vacuity `example` beside them |

`properties.jsonl` states the properties in English, `MANIFEST.json` says which
theorem proves which property, `seeded/LOG.jsonl` records the wrong programs the
theorems were tested against.

## 1. Trusted base

* Lean 4.33.0's kernel, and the axioms `propext`, `Classical.choice`,
  `Quot.sound` (the only ones any theorem depends on).  No `sorry`, no own
  axioms, no `native_decide`, no `bv_decide`.
* The faithfulness of the hand-written model to the C++ text (sections 2, 4).
* Assumed behaviour of external code (section 3).

## 2. Execution model

* **Outcomes.** `Res α = ok a | throw e | ub`.  `throw` is a C++ exception
  (`randblas_require`, `randblas_error_if`, `std::overflow_error`, BLAS++
  argument errors, or termination because an exception leaves an OpenMP
  region); `ub` is undefined behaviour: access outside an allocation, reading an
  uninitialised element, dereferencing null, a data-dependent recursion that
  would not end.  A function is a map `state -> Res α × state`, so the state
  after an exception is visible.  `M.wp f s Q` says "f terminates normally from
  s, with a result and state satisfying Q": no exception, no UB.
* **Memory.** A buffer is a map from integer positions to cells
  `none | uninit | val v` (`none` = not allocated).  A pointer into a buffer is
  the buffer plus an integer offset.
* **Loops** are recursion over the iteration count, with the loop body as the
  step.  `while` loops carry fuel equal to a bound that is proved sufficient.
* **Integers.** `int64_t` index arithmetic is modelled over ℤ, except in
  `safe_int_product` (machine type explicit) and in the places where the code
  narrows to `int` (SpMM row blocks, CSR column indices), where the wrap-around
  is modelled.  Dense and sparse sampling are modelled a second time with
  every intermediate result checked against its machine type
  (`Model/Dense64.lean`, `Model/Sparse64.lean`), and so are sparse products
  (`Model/Spmm64.lean`), sketches (`Model/Sketch64.lean`), and dense utilities,
  `sample_indices_iid`, `sketch_vector`, `sketch_symmetric`, conversions to CSC
  and CSR and re-indexing (`Model/Util64.lean`); the two models are proved equal
  under explicit size conditions (C56, C57, C103, C104, C111, C112).
* **Counters.** A Random123 counter of `len_c` 32-bit words is an integer modulo
  `N = 2^(32*len_c)`; `incr(n)` is modular addition.
* **Generators.** `Gen` bundles an arbitrary function (counter, key) -> words and
  arbitrary transformations of words to scalars (uniform, Box-Muller).  Every
  theorem holds for every generator with 2 or 4 words per counter (`Gen.Ok`).
* **Scalars.** Sampling, conversion, printing and layout code: any type.
  Determinism and schedule theorems: a type with operations and *no* laws (so
  they cover IEEE floats).  Algebraic correctness (C31, C36, ...): a commutative
  ring; ordering properties (C21, C22, C40): an ordered field.  Rounding
  errors of products and sketches (C55, C100): any type whose sums and products meet the
  standard model of floating-point arithmetic, `Rounding F val u`; binary
  numbers with p bits and unbounded exponent are shown to meet it, overflow and
  underflow are not modelled.  `DenseDist`/`SparseDist` isometry scales (C46) are real numbers;
  averages and fractions (C59-C61, C80-C86, C89, C92-C97, C116, C119-C123) are finite sums over all functions from (counter, word number) to words, i.e. an ideal generator (C89: from (key, counter, word number));
  `std::sqrt` in LASO merging is a parameter with `sqrt n * sqrt n = n`.
* **Threads.** Bodies of OpenMP loops are programs in a free monad of single
  loads and stores (`Prog`); a parallel region is an interleaving of them given by a
  list of thread choices (`sched`).  `parFor_schedule_irrelevant` shows that
  tasks with disjoint footprints give the same result for every schedule.  The
  number of threads `nt` is any number in 1..2^30 and is the same in the two
  parallel regions of one kernel call.

## 3. External code (assumed)

* BLAS++ `scal`, `copy`, `axpy`, `gemm`, `trsm`, `trmm`, `syrk`, `gemv`, `dot`, `nrm2`: reference semantics (in-order loops;
  `gemm` checks its arguments, does not read C when beta = 0 and does not read
  A, B when alpha = 0).
* Random123: the generator is an arbitrary function; counter increment is
  addition modulo the counter width.  C98 is about the generators themselves:
  Philox and Threefry are modelled from their public source
  (`Model/Random123.lean`), and all 60 known answers of
  `test/test_basic_rng/r123_kat_vectors.txt` are checked by evaluation in the
  kernel.  `uneg11`, `u01` and `boxmuller` appear there in exact arithmetic.
  C99 and C101 have `uneg11` and `u01`, and C101 has `weights_to_cdf` and `sample_indices_iid`, with every operation rounded
  (`Model/Random123Float.lean`; any rounding to nearest, unbounded exponents).
* `std::sort`: any function that returns a permutation sorted with respect to the
  comparator (`SortOk`).  `std::lower_bound`: the binary search of the standard.
* `std::unordered_map`: finite map with an arbitrary iteration order, which may
  differ in each call (parameter `order`).
* LAPACK++ `gesdd`: a parameter `svd`; the theorems assume of it only that its result
  is a singular value decomposition (`SvdIs`).  Argument checks as in LAPACK.
  `geqp3`: a parameter that returns a QR decomposition with column pivoting (`QrcpIs`).
  `geqrf` + `ungqr`: a parameter that returns orthonormal columns `Q` with `Q R` equal to its input.
  `getrf`: a parameter that returns an LU decomposition with partial pivoting (`LuIs`).
  `gelqf`, `unglq`: parameters; together they return an LQ decomposition (`LqFor`).
* `new[]` does not fail.

## 4. What is modelled

| file | modelled | not modelled |
|------|----------|--------------|
| `base.hh` | `RNGState` (as counter and key; as arrays of words in `Model/RngWords.lean`), stream output of states, `safe_int_product`, layout helpers, `dims_before_op`, `offset_and_ldim`, `layout_to_strides`, `Axis` and `SketchingDistribution` helpers | Random123's `incr` is external, modelled from its public source |
| `exceptions.hh` | the outcome of the macros and the text of the errors (`Model/Messages.lean`) | the build with `RandBLAS_ERROR_ASSERT`: its macros name `abort_if` without the namespace it is declared in |
| `random_gen.hh` | `u01`/`uneg11`/Box-Muller as parameters, in exact arithmetic where used; the Philox and Threefry generators (C98); rounded conversions (C99) | rounding of the logarithm and of sine and cosine |
| `util.hh` | `genmat`-style helpers, `omatcopy`, `flip_layout`, `symmetrize`, `overwrite_triangle`, `transpose_square`, `require_symmetric`, `weights_to_cdf`, sampling functions, printing | demangling, `print_colmaj` (does not compile for string labels) |
| `dense_skops.hh` | distributions, `fill_dense*`, `DenseSkOp`, `submatrix_as_blackbox`, `compute_next_state` | |
| `sparse_skops.hh` | distributions, `repeated_fisher_yates`, `fill_sparse*`, LASO merging, `SparseSkOp`, `coo_view_of_skop`, isometry scale, `print_sparse` | |
| `sparse_data/*` | containers, sorting, conversions, transposes, reindexing, dense conversions, all SpMM kernels and the dispatch | deprecated overloads that do not compile |
| `skge.hh`, `skve.hh`, `sksy.hh`, `sksp.hh` | all functions | |
| `rtd/source/tutorial/sketch_updates.rst` | the update workflows, as sequences of calls (`Model/SketchUpdates.lean`) | |
| `test/handrolled_lapack.hh` | `potrf_upper_sequential`, `potrf_upper`, `chol_qr`, `qr_block_cgs`, `qr_block_cgs2`, `extremal_eigvals_converged_gershgorin`, `posdef_eig_chol_iteration`, `power_method`, `exeigs_powermethod` | NaN, `required_powermethod_iters` (a parameter) |
| `examples/total-least-squares/` | `init_noisy_data`, `total_least_squares`, the randomised part of both `main`s (`tlsSketchedDense`, `tlsSketchedSparse`) | argument parsing, the deterministic reference solution, printing, timing |
| `examples/sparse-low-rank-approx/svd_*.cc` | `sum_of_coo_matrices`, `householder_orth`, `qb_decompose_sparse_matrix`, `qb_to_svd`, the randomised part of `main`, `make_signal_matrix`, `iid_sparsify_random_dense`, `make_noise_matrix`, construction of the test matrix, `from_matrix_market` (`Model/ExData.lean`) | argument parsing, `fast_matrix_market`, timing, the printed error measures |
| `examples/sparse-low-rank-approx/qrcp_matrixmarket.cc` | `col_swap`, the row stabilisations, `power_iter_col_sketch`, `sketch_to_tqrcp`, the computation of `run` | argument parsing, reading of files, printing, timing, `main` |
| `test/test_basic_rng/rng_common.hh`, `test_discrete.cc`, `test_continuous.cc` | Kolmogorov-Smirnov tables, lookups and testers, distribution functions, hypergeometric distribution, `fisher_yates_cdf` (`Model/StatTests.lean`); the tests of index sampling (`Model/TestSampling.lean`, `Model/TestSamplingFy.lean`, C140) and of the scalar distributions (`Model/TestContinuous.lean`, C141) | rounding, the seeds of the tests |
| `test/comparison.hh` | all functions (`Model/TestCompare.lean`), with infinities and NaN | message text, rounding |
| `test/test_matmul_cores/linop_common.hh` | `eye`, `random_matrix`, `to_explicit_buffer`, `left_apply`, `right_apply`, `reference_left_apply`, `reference_right_apply`, all tests from the left and from the right (`Model/TestLinop.lean`, `Model/TestLinopMore.lean`) | number of threads, rounding, overflow of the `int` counters of lines 66, 329-330 and 600-601 |
| `test/test_matmul_cores/test_spmm/spmm_test_helpers.hh`, `test_spmm_coo.cc`, `test_spmm_csc.cc`, `test_spmm_csr.cc` | the twelve fixtures for products from the left and from the right and the three `make_test_matrix` functions (`Model/TestSpmm.lean`) | the sizes, seeds and thresholds of the instances (all are covered) |
| `test/test_matmul_cores/test_lskge3.cc`, `test_rskge3.cc`, `test_lskges.cc`, `test_rskges.cc` | the seventeen fixtures and the operators they make (`Model/TestSkge.lean`) | the number of threads; the sizes and keys of the instances (all are covered) |
| `test/test_basic_rng/test_r123.cc`, `test/test_exceptions.cc` | `chk` (with rounding), the tests of the error macros (`Model/TestHistogram.lean`); the known answers are evaluated in `Props/Random123.lean` | reading of the file of known answers, `get_ut_uniform_refmap`, the engines and `MicroURNG` |
| `test/test_datastructures/test_denseskop.cc` | all helpers (`Model/TestDenseskop.lean`, `Model/TestMoments.lean`) | arithmetic of `test_mean_stddev` is exact; the number of threads is a list of schedules, one per round |
| `test/test_matmul_wrappers/test_sketch_vector.cc`, `test_sketch_symmetric.cc` | the helpers, `random_symmetric_mat`, and BLAS `gemv` and `symm` with a triangle (`Model/TestSketch.lean`) | the sizes and seeds of the instances (all are covered); the tests that expect an exception (C40) |
| `test/test_handrolled_lapack.cc` | the Cholesky, QR, diagonal and power-method tests, `verify_product`, `verify_orthonormal_componentwise`, `posdef_with_random_eigvecs` (`Model/TestHrLapack.lean`) | `run_general_posdef` (not instantiated); output; the sizes and seeds of the instances (all are covered) |
| `test/test_matmul_wrappers/test_sketch_sparse.cc` | `eye` for COO, the four helpers and the fixtures (`Model/TestSketchSparse.lean`) | `eye` for CSC and CSR (not instantiated); the `int` counters of the loops that compute the expected matrix; the sizes and seeds of the instances (all are covered) |
| `test/test_datastructures/test_sparseskop.cc` | all helpers (`Model/TestSparseskop.lean`) | the comparisons after `delete` (memory: C38), the order of the set |
| `test/test_basic_rng/test_distortion.cc` | `run_general` (`Model/TestDistortion.lean`), sizes of `run_gaussian` and `run_uniform`, `required_powermethod_iters` (`Model/TestDistortionSizes.lean`, over the reals) | output, rounding, the literal parameters of the test cases |
| `test/test_datastructures/test_spmats/common.hh`, `test_csc.cc`, `test_csr.cc`, `test_coo.cc` | `iid_sparsify_random_dense`, `coo_from_diag`, the tests with diagonal and random matrices (`Model/TestSpmats.lean`), `test_csr_to_dense_diagonal`, `test_sort_order`, `sparse_skop_to_coo` and `test_conversions.cc` (`Model/TestConversions.lean`) | the fixtures with fixed data |
| `test/test_io.cc` | all tests (`Model/TestIO.lean`), with any sizes for the larger matrices | formatting of numbers (a parameter) |
| rest of `examples/` and `test/` | | everything |

`Model/Memory.lean` is a second, pointer-level model of all classes with memory
(`DenseSkOp`, `SparseSkOp`, `BLASFriendlyOperator`, `COOMatrix`, `CSCMatrix`,
`CSRMatrix`) and of the functions that allocate, free or access their arrays.
Data is abstracted; exceptions that depend on data may occur at any of the
marked points.  C43 and C52 are about all histories of this model.  Its relation
to the data-level model is by reading; only the reachability of one exception is
proved (`C43_leak_reachable`).

Simplifications are stated in the comment of each definition.  The main ones:

* Data matrices, operators and results do not overlap in memory.
* Calls run one at a time. `Model/Shared.lean` adds a list of the stores to the sparse operator or matrix that is an input of a call (C110). A data race between
  two calls is modelled by letting the second call see the stored elements without a value (`racedCoo`, `racedOp` in `Spec/Shared.lean`).
* The kernels' non-aliasing of input arrays is by construction (a `Prog` reads
  its inputs from fixed buffers).
* `Op` has the values `NoTrans` and `Trans`. The third value of `blas::Op`, `ConjTrans`, is in `Model/ConjOps.lean`, where the functions that take such an
  argument are modelled again with the comparisons of the code (C105).

## 5. Specification vocabulary

* `Holds b layout ld m n A`: buffer b stores the m x n matrix A; `Alloc`: the cells
  are allocated; `SameOutside b b' layout ld m n`: the buffers agree on all other cells.
* `Samples`, `denseEntry`: closed form of the entries of a dense operator;
  `DenseIs E S Sm`: S (filled or not) represents Sm.
* `SparseIs E S L`, `OpHolds S L`: a sparse operator represents the list L of
  triplets; `toMat L` is the matrix with summed entries.
* `CooIs/CscIs/CsrIs`, `SpHolds`: the same for sparse matrices.
* `prodEntry m A B i j`: the (i, j) entry of a matrix product, as a sum.
* `fromWords G ω`: the generator that yields the word `ω (c, i)` at counter `c` and position `i`; statements about a
  fraction of the choices of words count the `ω` with a property and divide by the number of all `ω`.
* `WordsOk`: symmetry, mean square and fourth moments of the converted words; `C83_words` shows that the exact midpoint conversion and the
  exact Box-Muller transform have them.
* `SubGaussianWords`: the exponential moments of the converted words are at most those of a standard normal pair; `C94_words` shows it for the
  same exact conversions.  `Pr p`: the fraction of the choices of words with property `p`.
* `IsRng w lenC lenK block`: `block` is the function (counter, key) to words of one of the eight Philox and Threefry classes, with any number of rounds; `majorVec`: a row or
  column of an operator, along its major axis.
* `colDist`, `PreservesDist ε m d n A B`: all squared distances between columns of `A` are preserved by `B` up to the factor `ε`.
* `Embeds ε m d n A B`: `| |B z|² - |A z|² | <= ε |A z|²` for all `z`; `RankLe r m n A`: `A` is a product through dimension `r`.
* `IsTls`, `IsNearTls c`: total least squares solutions, exact and up to a factor; `Gap`: the smallest singular value of [A, b] is less than that
  of A, written with vectors.  `exists_svdFor` proves that every real matrix has the decomposition that is assumed of `gesdd`.
* `LeftOk`/`RightOk`: hypotheses of the sketching theorems: operator state, window
  inside the operator, and exclusion of the cases of section 6 in which the code fails (`FillOk`, `CooOk`, ...).

## 6. Places where the code does not have the property

Each is proved by a counterexample theorem next to a theorem (often `_partial`)
that states what does hold.

| where | what | theorem |
|-------|------|---------|
| `rskges` (skge.hh:611-618) | no `return` after handling an unfilled operator: the product is applied twice, and the operator is filled | `C37_right_unfilled`, `C37_right_unfilled_counterexample`, `C38_right_sparse_counterexample` |
| `csc_to_coo`, `csr_to_coo` | store the position instead of the index | `C27_csc_counterexample`, `C27_csr_counterexample` |
| `coo_to_csc` | compares `csc.n_cols` with itself | `C26_csc_dims_counterexample` |
| CSC kernels, `fixed_nnz_per_col` | the fast path is taken iff all nonzeros are in the first column; then reads past the arrays | `C31_first_column_counterexample`, `C31_first_column_coo_counterexample`, `C31_empty_inner_counterexample`, `C37_first_column_counterexample`; exactly when: `C31_coo_exact`, `C31_compressed_exact`, `C37_left_sparse_undefined`, `C37_right_sparse_undefined`; for new long-axis operators the exact probability is given by `C93_left_long_axis`, `C93_right_long_axis` |
| CSR column kernel, `csr_to_dense` | column index stored in `int` | `C31_csr_int_counterexample`, `C28_csr_int_counterexample` |
| CSC row-block kernel | block bounds computed in `int` | `C31_csc_int_counterexample`, `C35_int_counterexample`, `C33_thread_count_counterexample` |
| `left_spmm` on COO, sparse operators | offsets of the window not checked | `C42_offsets_counterexample` |
| `sketch_general` with a filled dense operator | negative offsets not checked: reads before the array, or silently another window | `C42_negative_offset_undefined`, `C42_negative_offset_counterexample` |
| `DenseDist::natural_layout` | for square distributions the opposite of the documented table | `C102_square_counterexample` |
| `weights_to_cdf` | on an error the weights have been partly overwritten; the documentation says that they are overwritten if the check passes | `C22_error_state` |
| `sketch_general`, `sketch_sparse` with a dense operator that has not been filled | negative offsets not checked: reads before a block of random numbers, or silently other samples | `C42_negative_unfilled_undefined_left`, `_right`, `_sparse_left`, `_sparse_right`, `C42_negative_unfilled_counterexample` |
| `sketch_symmetric` with tolerance >= 0 | reads A although alpha = 0 (documented: not accessed) | `C91_symmetric_counterexample` |
| `*_to_dense` | duplicates are overwritten, products add them | `C28_duplicates_counterexample` |
| `fill_dense_submat_impl`, unfilled dense operators | an empty window writes out of bounds unless it has no vectors along the minor axis, starts at the first entry, or starts off a block boundary | `C05_empty_window_counterexample`, `C36_empty_window_counterexample`; exactly when: `C05_empty_window_undefined`, `C36_empty_undefined_left`/`_right`/`_sparse_left`/`_sparse_right` |
| `fill_dense_submat_impl` | `n_cols_padded * row offset` overflows `int64_t` for operators that the constructor accepts; `int i` overflows for long vectors | `C56_padding_counterexample`, `C56_int_counterexample` |
| `fill_dense_unpacked` | the check `n_rows + ro_s` can overflow | `C56_check_counterexample` |
| `lskge3` (`sketch_general` with a dense operator) | the check `rows_submat_S + ro_s` can overflow | `C104_rejection_counterexample` |
| `repeated_fisher_yates` with `int` indices | `i * vec_nnz` is narrowed and `j + offset` overflows if there are more than 2^31 nonzeros | `C57_undefined`, `C57_permutations_undefined`, `C57_offset_counterexample` |
| `SparseDist` | unchecked `n_rows + n_cols` and `vec_nnz * dim_minor` | `C57_sum_counterexample`, `C57_nnz_counterexample` |
| `sorted_nonzero_locations_to_pointer_array`, `left_spmm` for COO matrices with `int` indices | pointers are narrowed; with 2^31 or more nonzeros in one column the product is lost | `C103_product_lost`, `C103_counterexample` |
| `repeated_fisher_yates` | one 32-bit word per pivot: indices of 2^32 + k or more are never drawn | `C58_word_size_counterexample` |
| `overwrite_triangle` | accepts negative k and writes before the matrix | `C19_negative_k_counterexample` |
| `safe_int_product` | `INT_MIN / -1` in the check; product formed before the check | `C15_intmin_counterexample`, `C15_strict_counterexample` |
| `sample_indices_iid_uniform` | yields n when the single-precision uniform rounds to 1; for the supported generators this happens for every key, with probability 63/2^32 to 64/2^32 per sample | `C24_one_counterexample`, `C99_uniform_out_of_range`, `C99_fraction` |
| `fill_sparse`, long axis | for the same words the filled operator has an index past the end of its long axis (the COO kernel drops such an entry) | `C99_long_axis_out_of_range` |
| `weights_to_cdf` | the last element can be 1 - 2^-p instead of 1 (weight 41 in float, 49 in double), because it scales by the rounded reciprocal of the sum | `C101_last_counterexample` |
| `weights_to_cdf`, `sample_indices_iid` | when that happens, the sample n (one past the end) is returned if the uniform value rounds to 1 | `C101_out_of_range` |
| `sample_indices_iid` | can return an index of zero mass for u = 0 | `C23_zero_uniform_counterexample`, `C99_zero_mass` |
| `submatrix_as_blackbox` | returns an object with a destructor and an implicit copy constructor by value: use after free unless the compiler elides the copy | `Mem.C43_elision_counterexample` |
| `submatrix_as_blackbox` | leaks its array if `fill_dense_unpacked` raises an overflow error | `Mem.C43_leak_counterexample`, `Mem.C43_leak_reachable` |
| CSC/CSR matrices | a new matrix that was not reserved has a null pointer array; products and conversions dereference it | `Mem.C43_unreserved_counterexample` |
| `print_buff_to_stream` | reads an element of each row even if there are no columns; no closing if there are no rows | `C50_no_columns_counterexample`, `C50_no_rows_counterexample` |
| `print_sparse` | prints `full_nnz` elements although merging leaves fewer | `C53_merged_counterexample`, `C53_uninitialised_counterexample` |
| `DenseDist` isometry scale | wrong for wide or tall operators with major axis Short | `C46_dense_short_counterexample` |
| `potrf_upper` (test/handrolled_lapack.hh:63) | the return value of the recursive call is ignored | `C62_code_counterexample` |
| `qr_block_cgs` | an empty matrix is an error | `C64_empty_counterexample` |
| `extremal_eigvals_converged_gershgorin` | reads G[0] for n = 0 | `C65_empty_counterexample` |
| `posdef_eig_chol_iteration` | reports convergence although inner eigenvalues are not converged; returns 0 for `max_iters = 0` | `C66_inner_counterexample`, `C66_no_iterations_counterexample` |
| `init_noisy_data` (examples/total-least-squares) | initialises only the first column of X | `C69_several_undefined` |
| `total_least_squares` | n = m passes the check of `main` but is an error of `gesdd` | `C68_wide_error` |
| `sum_of_coo_matrices` (svd_rank1_plus_noise.cc) | duplicates in A are overwritten; one-based indices are kept but marked zero-based; `int` counter | `C70_duplicates_counterexample`, `C70_one_based_counterexample`, `C70_int_undefined` |
| `qb_decompose_sparse_matrix` | inherits the failing products | `C71_first_column_counterexample` |
| `main` of both sparse low-rank programs | every run writes past the end of the work array of `qb_to_svd` | `C86_main_undefined` |
| `qb_to_svd` | the copy of Q starts k elements too late in the work array and overruns it, also in the calls in both `main` functions; null pointer for k >= n | `C72_workspace_undefined`, `C72_main_undefined`, `C72_null_undefined` |
| `col_swap` (qrcp_matrixmarket.cc) | `int` counter overflows for n >= 2^31 | `C73_int_undefined` |
| `sketch_to_tqrcp` | reads Y with leading dimension k instead of ldy; duplicates in A overwrite each other | `C74_ldy_undefined`, `C74_duplicate_counterexample` |
| `lu_row_stabilize` | the last pivot is not checked | `C75_last_pivot_counterexample` |
| `power_iter_col_sketch` with LU | the row space is lost when the leading columns of an iterate are dependent; defined and correct (or an exception) otherwise, `C78_lu_partial`, `C79_lu_partial` | `C78_lu_counterexample` |
| `sketch_orthogonalize_rows` | undefined if all nonzeros of the operator are in its first row (d = 2, 3 and d >= n), and for 2^31 rows | `C77_first_row_undefined`, `C77_int_undefined` |
| `make_signal_matrix` (svd_rank1_plus_noise.cc) | the sparse form is not scaled by `signal_scale`; `int` index | `C106_counterexample`, `C108_counterexample`, `C106_int_undefined` |
| `iid_sparsify_random_dense` | an entry is zero with a third of the requested probability | `C107_probability_counterexample` |
| `from_matrix_market` | `int` counter overflows for 2^31 entries | `C109_int_undefined` |
| `left_spmm`, `sketch_general`, `sketch_sparse` with a COO matrix or a filled sparse operator as input | the input is sorted in place: calls that share it race; from the right an unfilled operator is filled | `C110_left_spmm_stores`, `C110_left_spmm_race`, `C110_sketch_race`, `C110_unfilled_right_stores`, `C110_counterexample` |
| `overwrite_triangle` | the start of the inner loop overflows if n + k > 2^63, where nothing is to be overwritten | `C111_overwrite_undefined` |
| `flip_layout` | undefined if the length of the new vector, padding included, is not representable | `C111_flip_undefined` |
| `sample_indices_iid` | samples that do not fit the integer type are stored modulo 2^w, without an error | `C111_samples_counterexample` |
| `coo_to_csc`, `coo_to_csr` to a matrix with narrower indices | indices and pointers are reduced modulo 2^w, without an error | `C112_csc_narrow`, `C112_csr_narrow`, `C112_counterexample` |
| `reindex_inplace` to one-based | the largest representable index overflows: undefined from 32 bits on, wrong index below | `C112_reindex_csc_undefined`, `C112_reindex_csr_undefined`, `C112_reindex_coo_undefined`, `C112_reindex_wraps` |
| `critical_value_rep` (rng_common.hh) | the critical value for sig = 1e-5 and 2^24 samples is misprinted (`6.03122960e-0`): the test cannot fail | `C113_never_fails`, `C113_never_fails_continuous` |
| `critical_value_rep_mutator` | a 64-bit sample size is reduced modulo 2^32, without an error | `C113_mutator_wraps` |
| `hypergeometric_variance` | divides zero by zero for N = 1 | `C115_variance_not_finite` |
| `approx_equal` (test/comparison.hh) | accepts an infinity in place of every finite number when the relative tolerance is positive | `C118_infinity`, `C118_infinity_buffs` |
| `buffs_approx_equal` with bounds (test/comparison.hh) | accepts NaN in place of anything | `C118_bounds_nan` |
| `reference_left_apply` (test/test_matmul_cores/linop_common.hh) | the tolerance has abs(beta) eps times the new B where the rounding of beta * B needs the old one: for abs(beta) < 1/2 a correctly rounded result can be rejected | `C124_tolerance_counterexample` |
| `required_powermethod_iters` (test/handrolled_lapack.hh) | `(int64_t) std::log(..) / temp1` truncates the logarithm before the division: the number of iterations can be smaller than both bounds for the probability of failure | `C125_iterations_truncated` |
| `chk` (test_r123.cc:593-594) | a number that rounds to 1 has the index 26 of a histogram of 26 bins: out-of-bounds write | `C138_top_word_counterexample`, `C138_out_of_bounds` |
| `test_updated_rngstates_iid_uniform`, `test_updated_rngstates_iid` (test_discrete.cc:169-214) | a sampler that returns the state it was given passes | `C140_states_blind` |
| `run_general` (test_distortion.cc) | the power method starts from the state of the matrix (`state`, not `next_state`): its start vector is the top of the first column | `C125_start_reused` |
| `iid_sparsify_random_dense` (test/test_datastructures/test_spmats/common.hh) | maps the uniform entries, which are in [-sqrt(3), sqrt(3)], as if they were in [-1, 1]: an entry is zero with probability about 1/2 + (p - 1/2) / sqrt(3) instead of p; for p = 0 about a fifth of the entries are zero | `C126_probability_counterexample` |
| `coo_from_diag` (test/test_datastructures/test_spmats/common.hh) | accepts diagonals that leave the matrix (only the number of rows is checked, and only for nonnegative offsets); when it refuses one, the object keeps arrays that were never written | `C126_diagonal_out_of_range`, `C126_diagonal_error` |
| `require_symmetric` (util.hh) | formats `int64_t` indices with `%i`: undefined by the C standard whenever an error is due; where the low word is read, indices from 2^31 on are reported as negative numbers | `C127_symmetric_undefined`, `C127_symmetric_large` |
| `randblas_error_if_msg` (exceptions.hh) | keeps only the first 255 characters of the message | `C127_long_message` |
| `test_sort_order` (test/test_datastructures/test_spmats/test_coo.cc) | fails for every matrix without a nonzero above and to the right of another one, although the sorting is right; for n = 1 always | `C128_sort_order_test`, `C128_sort_order_counterexample` |
| `test_colwise_smat_gen`, `test_rowwise_smat_gen` (test/test_datastructures/test_denseskop.cc) | the loops step by `n_cols / 50`: with less than 50 columns they do not end | `C131_colwise_endless`, `C131_rowwise_endless` |
| `test_diag_smat_gen` (test/test_datastructures/test_denseskop.cc) | compares windows that cross the end of a row; can report a difference for a correct library (8 x 5, four words per counter) unless the row length is a multiple of the words per counter | `C131_diag_wrap` |
| `test_auto_transpose` (test/test_datastructures/test_denseskop.cc) | fails for square operators, which have one layout | `C131_auto_transpose_square` |
| `test_transpose_compatible` (test/test_matmul_wrappers/test_sketch_vector.cc) | for square operators compares row sums with column sums of one matrix and can report a difference for a correct library | `C133_vector_compatible_square_compares`, `C133_vector_compatible_square` |
| `random_symmetric_mat` (test/test_matmul_wrappers/test_sketch_symmetric.cc) | with lda > n the numbers are written without gaps but read with gaps: rows and columns from n * n / lda on are zero (n = 10, lda = 19: the last four), contrary to the comment | `C133_random_symmetric_padded` |
| `eye` (test/test_matmul_wrappers/test_sketch_sparse.cc:30) | the loop counter is an `int` and the order an `int64_t`: undefined for orders above the largest `int` | `C134_eye_overflow` |
| `proper_saso_construction`, `proper_laso_construction` (test/test_datastructures/test_sparseskop.cc) | for d = m and two or more nonzeros per vector they look for duplicates in the array with the fixed indices and reject correct operators; the long-axis test expects vec_nnz stored triples per vector also if samples coincide | `C130_saso_square`, `C130_laso_square` |
| Dense operators, Gaussian family (docs: the major axis does not change the law of the matrix) | the law of the matrix depends on the major axis with the generator's finite precision: two entries made by one Box-Muller pair lie in a disk that independent entries leave with positive probability (`C119_gaussian_boxmuller`); the uniform family is exact | `C119_gaussian_differs`, `C119_gaussian_boxmuller` |
| Long-axis operators with `vec_nnz = 1` (docs: "plain row or column sampling with replacement") | every sampled row or column is negated with probability 1/2; the call is undefined if all samples are the first index | `C120_signs`, `C120_rows_partial`, `C120_columns_partial` |
| `qr_row_stabilize` | checks the shape after the matrix has been overwritten | `C76_lq_shape` |
| `left_spmm`, `lskges`, `sketch_vector`, `rsksp3` with `ConjTrans` | the sparse factor is not transposed, without an error; `sketch_vector` takes the wrong window of a dense operator | `C105_left_spmm_conj`, `C105_left_conj`, `C105_vector_conj_sparse`, `C105_vector_conj_dense`, `C105_sketch_sparse_right_conj`, `C105_spmm_counterexample` |

Observed while reading, without a theorem:

* `RNGState::operator!=` and the public `spmm` overload with the sparse factor on the right (it passes one argument too many to `right_spmm`) do not compile when instantiated.
* `print_colmaj` passes the label where the leading dimension is expected.
* `hypergeometric_pmf_arr<T>` returns a `vector<float>` for every `T`; it does not compile for `double`.
* `ks_check_critval` and the overload of `buffs_approx_equal` with bounds compare with `>`: a NaN passes.
* `test_distortion.cc`: `inv_stddev` is 1 in both branches.
* `print_buff_to_stream` leaves the stream's precision changed.
* `left_apply` and `right_apply` (linop_common.hh) save `omp_get_num_threads()` outside a parallel region, which is always 1, and restore that: later tests run with one thread.
