{"id": "C01", "title": "Submatrices of a dense operator are windows of the full operator", "statement": "For a DenseDist D and a seed, fill_dense_unpacked with any admissible (n_rows, n_cols, ro_s, co_s) writes, at matrix position (i,j) of the output buffer, exactly the entry (i+ro_s, j+co_s) of the one matrix that fill_dense(D, buff, seed) writes.", "quantifier": "all positive operator shapes, major axes, families, window sizes and offsets with the window inside the operator, layouts, seeds, generators and counter widths", "why_tests_cant": "the counter arithmetic depends on residues of the dimensions, offsets and window width modulo the counter width; tests sample a few shapes, the claim is for every shape and window", "anchors": ["RandBLAS/dense_skops.hh: fill_dense_submat_impl, fill_dense_unpacked, fill_dense"]}
{"id": "C02", "title": "Dense sampling does not depend on the number of threads or the schedule", "statement": "The buffer produced by filling a dense operator (and the state returned) is the same for every assignment of rows to threads and every interleaving of the threads' individual memory accesses; no two threads touch a common location.", "quantifier": "every shape, seed, thread count, schedule and interleaving of single loads and stores", "why_tests_cant": "a test run exercises one schedule; a race or a schedule dependence shows up only in interleavings that a test cannot enumerate", "anchors": ["RandBLAS/dense_skops.hh: fill_dense_submat_impl (omp for)"]}
{"id": "C03", "title": "The state returned by dense sampling is the operator's next_state", "statement": "fill_dense_unpacked over the whole operator returns exactly the state that the DenseSkOp constructor stores in next_state, whatever the requested layout, and leaves the key unchanged.", "quantifier": "all DenseDists, seeds, layouts, generators", "why_tests_cant": "needs the two independent counter formulas to agree for all dimensions, including those not divisible by the counter width", "anchors": ["RandBLAS/dense_skops.hh: fill_dense_submat_impl, compute_next_state, DenseSkOp"]}
{"id": "C04", "title": "Operators sampled in sequence from next_state use disjoint parts of the random stream", "statement": "The output of filling an operator (dense or sparse) or of sampling indices depends only on the generator's values at counters in the half-open range from the seed counter to the returned counter. Hence two operators, the second seeded with the first's next_state, never depend on the generator's value at a common counter, provided the total number of increments does not exceed the counter period.", "quantifier": "all pairs of operators and seeds, any dimensions", "why_tests_cant": "overlap of two counter ranges is invisible in the output of any single run", "anchors": ["RandBLAS/dense_skops.hh: compute_next_state", "RandBLAS/sparse_skops.hh: compute_next_state, repeated_fisher_yates", "RandBLAS/util.hh: sample_indices_iid, sample_indices_iid_uniform"]}
{"id": "C05", "title": "Dense sampling writes exactly the requested window of the buffer", "statement": "With a buffer of n_rows*n_cols elements, fill_dense_unpacked on a nonempty window never reads or writes outside the buffer, never reads an uninitialised element and writes every one of the n_rows*n_cols elements; memory outside is unchanged.", "quantifier": "all shapes, offsets, layouts, initial buffer contents", "why_tests_cant": "an out-of-bounds write by one counter block appears only for special residues of the dimensions and is not visible to value checks", "anchors": ["RandBLAS/dense_skops.hh: fill_dense_submat_impl, fill_dense_unpacked"]}
{"id": "C06", "title": "The requested layout only changes where entries are stored", "statement": "fill_dense_unpacked called with RowMajor and with ColMajor on the same arguments represents the same matrix.", "quantifier": "all DenseDists, windows, seeds", "why_tests_cant": "holds only if the out-of-place layout change is right for every rectangular shape", "anchors": ["RandBLAS/dense_skops.hh: fill_dense_unpacked", "RandBLAS/util.hh: omatcopy"]}
{"id": "C07", "title": "Dense operators can be extended reproducibly", "statement": "Long-axis-major dense operators: stacking the operator sampled from (d1 x m) with seed s on top of the operator sampled from (d2 x m) with the first one's next_state gives the operator sampled from ((d1+d2) x m) with seed s (and the transposed statement for tall operators), for d1+d2 < m. Short-axis-major dense operators: a (d x m) operator equals the first m columns of the (d x (m+k)) operator with the same seed (and transposed), for d < m.", "quantifier": "all positive d1, d2, d, m, k in the stated ranges, all seeds and families", "why_tests_cant": "documented in the tutorial as an identity for all sizes; it ties together padding, next_state and layout selection", "anchors": ["rtd/source/tutorial/sketch_updates.rst", "RandBLAS/dense_skops.hh: DenseDist, natural_layout, compute_next_state, fill_dense_unpacked"]}
{"id": "C08", "title": "Sampling without replacement gives distinct in-range indices", "statement": "repeated_fisher_yates(k, n, r, samples, state) with 0 <= k <= n writes r blocks of k indices; within each block the indices are pairwise distinct and lie in {0..n-1}; nothing else is written; if k > n an error is raised before anything is written.", "quantifier": "all k, n, r, states and all generators", "why_tests_cant": "distinctness relies on an invariant of the working permutation across all steps and vectors, for every possible generator output", "anchors": ["RandBLAS/sparse_skops.hh: repeated_fisher_yates"]}
{"id": "C09", "title": "Each sampled vector depends only on its own counters", "statement": "Block i of repeated_fisher_yates is a function of n, k and the generator outputs at counters seed + i*k .. seed + i*k + k-1 only. Consequently the first r blocks of a longer run coincide with a shorter run, and running r1 blocks then r2 blocks from the returned state equals running r1+r2 blocks.", "quantifier": "all k <= n, r, states, generators", "why_tests_cant": "requires that the working array is restored exactly after every vector, for all pivot sequences", "anchors": ["RandBLAS/sparse_skops.hh: repeated_fisher_yates"]}
{"id": "C10", "title": "Sampling without replacement is unbiased given unbiased pivots", "statement": "The map from pivot choices (one choice out of n-j at step j) to the produced sequence of k indices is a bijection onto the sequences of k distinct indices in {0..n-1}; so independent uniform choices give a uniform ordered sample without replacement.", "quantifier": "all k <= n", "why_tests_cant": "a distributional statement: no finite set of samples can establish it", "anchors": ["RandBLAS/sparse_skops.hh: repeated_fisher_yates"]}
{"id": "C11", "title": "Short-axis sparse operators have exactly vec_nnz signs per short-axis vector", "statement": "After filling a SparseSkOp with major_axis=Short, nnz = vec_nnz * max(n_rows,n_cols), all (row,col) positions are in range and pairwise distinct, each of the max(n_rows,n_cols) short-axis vectors has exactly vec_nnz nonzeros and each value is +1 or -1.", "quantifier": "all SparseDists with major_axis Short, seeds, generators", "why_tests_cant": "structural claim for every possible random stream", "anchors": ["RandBLAS/sparse_skops.hh: SparseDist, fill_sparse_unpacked_nosub, repeated_fisher_yates"]}
{"id": "C12", "title": "Long-axis sparse operators merge repeated samples correctly", "statement": "After filling a SparseSkOp with major_axis=Long (and sampled indices in range), each of the min(n_rows,n_cols) long-axis vectors has between 1 and vec_nnz stored entries at pairwise distinct positions; an index sampled l times carries the value +-sqrt(l) with the sign drawn at its first occurrence; hence every long-axis vector has squared Euclidean norm exactly vec_nnz. min(n_rows,n_cols) <= nnz <= full_nnz and no write leaves the arrays of length full_nnz.", "quantifier": "all SparseDists with major_axis Long, seeds, generators, and all iteration orders of the hash map used for merging", "why_tests_cant": "depends on collision patterns and hash-map iteration order, which tests cannot enumerate", "anchors": ["RandBLAS/sparse_skops.hh: laso_merge_long_axis_vector_coo_data, fill_sparse_unpacked_nosub"]}
{"id": "C13", "title": "The state returned by sparse sampling is the operator's next_state", "statement": "fill_sparse_unpacked_nosub returns exactly the state the SparseSkOp constructor stores in next_state, for both major axes; the key is unchanged.", "quantifier": "all SparseDists, seeds, generators and counter widths", "why_tests_cant": "the increment count is computed by two unrelated pieces of code; agreement for all vec_nnz and dimensions is needed", "anchors": ["RandBLAS/sparse_skops.hh: compute_next_state, fill_sparse_unpacked_nosub", "RandBLAS/util.hh: sample_indices_iid_uniform"]}
{"id": "C14", "title": "Sparse operators can be extended reproducibly", "statement": "Long-axis-major: stacking a d1-operator and a d2-operator seeded with the first one's next_state gives the (d1+d2)-operator; short-axis-major: a (d x m) operator is the first m columns of the (d x (m+k)) operator with the same seed (and the transposed statements).", "quantifier": "all sizes in the stated ranges, vec_nnz, seeds", "why_tests_cant": "documented identity for all sizes", "anchors": ["rtd/source/tutorial/sketch_updates.rst", "RandBLAS/sparse_skops.hh: SparseDist, fill_sparse_unpacked_nosub, compute_next_state"]}
{"id": "C15", "title": "safe_int_product either returns the exact product or reports overflow", "statement": "safe_int_product(a,b) returns the mathematical product a*b whenever that product is representable, and otherwise raises overflow_error; it never returns a wrong number.", "quantifier": "all pairs of 64-bit (or 32-bit) signed integers", "why_tests_cant": "2^128 argument pairs; corner cases at the extremes of the type", "anchors": ["RandBLAS/base.hh: safe_int_product"]}
{"id": "C16", "title": "Distribution constructors accept exactly the valid parameters and derive consistent members", "statement": "DenseDist construction succeeds iff n_rows>0 and n_cols>0, SparseDist iff additionally 0 < vec_nnz <= dim_major; then {dim_major, dim_minor} = {n_rows, n_cols} as a multiset with dim_major = max for Long and min for Short, the leading dimension of the natural layout equals dim_major, and full_nnz = vec_nnz*dim_minor.", "quantifier": "all integer parameters, both axes", "why_tests_cant": "decision over all integers", "anchors": ["RandBLAS/dense_skops.hh: DenseDist, natural_layout", "RandBLAS/sparse_skops.hh: SparseDist", "RandBLAS/base.hh: get_dim_major"]}
{"id": "C17", "title": "Out-of-place layout conversion preserves the matrix", "statement": "omatcopy copies an m x n strided matrix to another strided buffer entry by entry and changes no other location; flip_layout turns a ColMajor (RowMajor) vector into a RowMajor (ColMajor) vector of length lda_out*m (lda_out*n) representing the same m x n matrix, raises an error iff a leading dimension is too small, and flipping back restores the matrix.", "quantifier": "all m, n, strides and leading dimensions, buffer contents", "why_tests_cant": "index maps for all shapes and strides; the resize path depends on relative sizes", "anchors": ["RandBLAS/util.hh: omatcopy, flip_layout"]}
{"id": "C18", "title": "symmetrize mirrors one triangle and touches nothing else", "statement": "After symmetrize(layout, uplo, n, A, lda), with lda >= n, mat(A) is symmetric, agrees with the old matrix on the uplo triangle including the diagonal, and every location outside the n x n matrix is unchanged; a second call changes nothing.", "quantifier": "all n, lda >= n, layouts, uplo, contents", "why_tests_cant": "holds for all sizes and contents", "anchors": ["RandBLAS/util.hh: symmetrize"]}
{"id": "C19", "title": "overwrite_triangle zeroes exactly the requested triangle", "statement": "For k >= 0, overwrite_triangle zeroes exactly the entries (i,j) of mat(A) with j >= i+k (Upper) or i >= j+k (Lower) and leaves everything else, including padding, unchanged; it raises an error if to_overwrite is neither Upper nor Lower, and (documented) if k is negative.", "quantifier": "all n, k, lda >= n, layouts, contents", "why_tests_cant": "holds for all sizes; boundary diagonal is an off-by-one risk; negative k is outside what tests exercise", "anchors": ["RandBLAS/util.hh: overwrite_triangle"]}
{"id": "C20", "title": "transpose_square transposes in place", "statement": "After transpose_square(A, n, lda) with lda >= n, mat(A) is the transpose of the old matrix, nothing outside the n x n matrix changes, and applying it twice restores the buffer.", "quantifier": "all n, lda >= n, contents", "why_tests_cant": "holds for all sizes and contents", "anchors": ["RandBLAS/util.hh: transpose_square"]}
{"id": "C21", "title": "require_symmetric decides symmetry exactly", "statement": "For tol >= 0 the check passes iff |A_ij - A_ji| <= (|A_ij| + |A_ji| + 1)*tol for all i,j < n; with tol = 0 it passes iff mat(A) is symmetric; with tol < 0 it always passes and reads nothing. It never writes.", "quantifier": "all n, lda >= n, layouts, tolerances, contents", "why_tests_cant": "decision over all matrices", "anchors": ["RandBLAS/util.hh: require_symmetric"]}
{"id": "C22", "title": "weights_to_cdf produces a normalised cumulative distribution", "statement": "If every weight is >= error_if_below and the sum of positive parts is large enough, weights_to_cdf overwrites w by partial sums of max(0,w) divided by the total: nondecreasing, nonnegative, last entry 1. Otherwise an error is raised. It touches exactly n elements.", "quantifier": "all n, weight vectors, thresholds", "why_tests_cant": "all weight vectors; exact characterisation of the error cases", "anchors": ["RandBLAS/util.hh: weights_to_cdf"]}
{"id": "C23", "title": "sample_indices_iid inverts the CDF", "statement": "Given a nondecreasing cdf ending at 1 and uniforms u in (0,1], sample i is the least index j with cdf[j] >= u_i, where u_i is the i-th value of the random stream from the given state; the index is in {0..n-1}, never has zero probability mass, and the returned state is state + ceil(k/len_c).", "quantifier": "all n, k, cdfs, states, generators", "why_tests_cant": "every cdf with plateaus and every stream", "anchors": ["RandBLAS/util.hh: sample_indices_iid"]}
{"id": "C24", "title": "sample_indices_iid_uniform gives in-range indices", "statement": "For uniforms u in [0,1) every sample is floor(n*u) in {0..n-1}; the returned state is state + ceil(k/len_c) (ceil(2k/(2*(len_c/2))) with sign outputs); sample i depends only on its own position of the stream, and every sign is +1 or -1.", "quantifier": "all n, k, states, generators", "why_tests_cant": "every value the generator can produce, including the extremes of its range", "anchors": ["RandBLAS/util.hh: sample_indices_iid_uniform, uneg11_to_u01"]}
{"id": "C25", "title": "Sorting COO data permutes triplets and yields the requested order", "statement": "sort_coo_data(order, A) leaves the multiset of (row, col, value) triplets unchanged, makes them lexicographically sorted by (col,row) for CSC or (row,col) for CSR and records the order; for order None the arrays do not change. The sort type computed for a COOMatrix is CSC (CSR) only if the data is sorted that way.", "quantifier": "all triplet lists including duplicates, every sort implementation permitted by the standard", "why_tests_cant": "all permutations and duplicates", "anchors": ["RandBLAS/sparse_data/coo_matrix.hh: sort_coo_data, coo_sort_type, increasing_by_csr, increasing_by_csc"]}
{"id": "C26", "title": "COO to CSC/CSR conversion preserves the matrix", "statement": "coo_to_csc and coo_to_csr produce a well-formed compressed matrix (pointer array starting at 0, nondecreasing, ending at nnz, with the indices of each column/row in its slice) representing the same matrix as the COO input, and the COO object represents the same matrix afterwards.", "quantifier": "all COO matrices with in-range indices, any sort order, duplicates, empty rows and columns", "why_tests_cant": "pointer-array construction has boundary cases (empty leading/trailing columns) for every sparsity pattern", "anchors": ["RandBLAS/sparse_data/conversions.hh: coo_to_csc, coo_to_csr", "RandBLAS/sparse_data/base.hh: sorted_nonzero_locations_to_pointer_array"]}
{"id": "C27", "title": "CSC/CSR to COO conversion preserves the matrix", "statement": "csc_to_coo and csr_to_coo produce a COO matrix with the same entries as the compressed input.", "quantifier": "all well-formed CSC/CSR matrices", "why_tests_cant": "all sparsity patterns; the repository has no test of these two functions", "anchors": ["RandBLAS/sparse_data/conversions.hh: csc_to_coo, csr_to_coo"]}
{"id": "C28", "title": "Dense to sparse to dense is the identity (up to the drop tolerance)", "statement": "dense_to_coo/csc/csr keep exactly the entries with |a| > abs_tol; converting back with *_to_dense yields the matrix with the small entries replaced by zero; with abs_tol = 0 the round trip is the identity; nnz_in_dense counts the kept entries. Locations outside the dense matrix are not touched.", "quantifier": "all shapes, strides/layouts, contents, tolerances", "why_tests_cant": "all sparsity patterns and layouts", "anchors": ["RandBLAS/sparse_data/base.hh: nnz_in_dense", "RandBLAS/sparse_data/coo_matrix.hh: dense_to_coo, coo_to_dense", "RandBLAS/sparse_data/csc_matrix.hh: dense_to_csc, csc_to_dense", "RandBLAS/sparse_data/csr_matrix.hh: dense_to_csr, csr_to_dense"]}
{"id": "C29", "title": "Transposed views represent the transpose", "statement": "transpose(COO), transpose_as_csr(CSC) and transpose_as_csc(CSR) represent the transposed matrix, are well formed when the input is, share (do not own) memory when share_memory is requested, and transposing twice gives the original matrix.", "quantifier": "all sparse matrices", "why_tests_cant": "all patterns", "anchors": ["RandBLAS/sparse_data/coo_matrix.hh: transpose", "RandBLAS/sparse_data/conversions.hh: transpose_as_csr, transpose_as_csc"]}
{"id": "C30", "title": "Re-indexing between zero- and one-based is lossless", "statement": "reindex_inplace to the other index base shifts every stored index by one (and the pointer array for compressed formats as documented by the code), and re-indexing back restores the object exactly; re-indexing to the current base changes nothing.", "quantifier": "all sparse matrices in the three formats", "why_tests_cant": "all patterns and sizes", "anchors": ["RandBLAS/sparse_data/conversions.hh: reindex_inplace"]}
{"id": "C31", "title": "left_spmm computes C = alpha*op(submat(A))*op(B) + beta*C", "statement": "For a sparse A in COO, CSC or CSR format and dense B, C in any layout, left_spmm sets every entry of the d x n matrix C to alpha * sum_k op(submat(A))_ik op(B)_kj + beta*C_ij, accessing A, B and C only inside their bounds, changes no location of the C buffer outside the d x n matrix, and leaves the matrix represented by A unchanged.", "quantifier": "all dimensions, sparsity patterns (duplicates, unsorted, empty), layouts, transposes, offsets, leading dimensions, scalars", "why_tests_cant": "all patterns; special-case code paths depend on the pattern", "anchors": ["RandBLAS/sparse_data/spmm_dispatch.hh: left_spmm", "RandBLAS/sparse_data/coo_spmm_impl.hh", "RandBLAS/sparse_data/csc_spmm_impl.hh", "RandBLAS/sparse_data/csr_spmm_impl.hh"]}
{"id": "C32", "title": "right_spmm computes C = alpha*op(A)*op(submat(B)) + beta*C", "statement": "right_spmm with a sparse right factor computes the corresponding product by reduction to left_spmm on transposed layouts.", "quantifier": "all dimensions, patterns, layouts, transposes, offsets, scalars", "why_tests_cant": "the reduction must be right for all 8 layout/op combinations and all shapes", "anchors": ["RandBLAS/sparse_data/spmm_dispatch.hh: right_spmm"]}
{"id": "C33", "title": "SpMM results do not depend on threads, schedules or iteration order", "statement": "For every kernel the parallel loop iterations write disjoint parts of C and read only shared data no iteration writes; for every number of threads and every interleaving of their memory accesses the final C equals that of the sequential execution, bit for bit (no algebraic laws assumed of the scalar operations).", "quantifier": "every thread count, schedule (static or dynamic), interleaving; every scalar type", "why_tests_cant": "tests run one schedule; floating-point addition is not associative so order matters", "anchors": ["RandBLAS/sparse_data/coo_spmm_impl.hh: apply_coo_left_jki_p11", "RandBLAS/sparse_data/csc_spmm_impl.hh: apply_csc_left_jki_p11, apply_csc_left_kib_rowmajor_1p1", "RandBLAS/sparse_data/csr_spmm_impl.hh: apply_csr_left_jik_p11, apply_csr_left_ikb_rowmajor"]}
{"id": "C34", "title": "beta = 0 overwrites C and alpha = 0 ignores the operands", "statement": "With beta = 0 the result of a product does not depend on the prior content of C (which may be NaN or uninitialised); with alpha = 0 left_spmm returns beta*C without reading A or B.", "quantifier": "all arguments, all prior contents", "why_tests_cant": "for every prior content including NaN and uninitialised memory", "anchors": ["RandBLAS/sparse_data/spmm_dispatch.hh: left_spmm", "RandBLAS/util.hh: safe_scal"]}
{"id": "C35", "title": "The row blocks of the threaded CSC kernel partition the rows", "statement": "For every number of threads T >= 1 and every d >= 0 the row blocks assigned to the T threads are disjoint and cover {0..d-1}, so each row of C is updated by exactly one thread.", "quantifier": "all T, d", "why_tests_cant": "machines have one thread count; d < T and d mod T != 0 are corner cases", "anchors": ["RandBLAS/sparse_data/csc_spmm_impl.hh: apply_csc_left_kib_rowmajor_1p1"]}
{"id": "C36", "title": "sketch_general with a dense operator computes the scaled product", "statement": "sketch_general(layout, opS, opA, d, n, m, alpha, S, ro_s, co_s, A, lda, beta, B, ldb) sets B to alpha*op(submat(S))*op(A) + beta*B for a DenseSkOp S; the right-sketching overload sets B to alpha*op(A)*op(submat(S)) + beta*B; locations of B outside the matrix are unchanged.", "quantifier": "all dimensions, layouts, transposes, offsets, leading dimensions, scalars, operators with either natural layout", "why_tests_cant": "16+ parameter combinations times all shapes; layout mismatch is resolved by flipping transposes", "anchors": ["RandBLAS/skge.hh: lskge3, rskge3, sketch_general", "RandBLAS/dense_skops.hh: submatrix_as_blackbox"]}
{"id": "C37", "title": "sketch_general with a sparse operator computes the scaled product", "statement": "Same statement as C36 for a SparseSkOp S, left and right.", "quantifier": "all dimensions, layouts, transposes, offsets, scalars, filled and unfilled operators", "why_tests_cant": "as C36, and the control flow depends on whether S was filled before", "anchors": ["RandBLAS/skge.hh: lskges, rskges"]}
{"id": "C38", "title": "Sketching gives the same result whether or not the operator was materialised first", "statement": "Calling a sketching function with an operator that has not been filled gives the same result as calling fill_dense/fill_sparse on it first; the operator's seed is not changed, and an unfilled dense operator is still unfilled afterwards.", "quantifier": "all operators, windows and data", "why_tests_cant": "two different code paths (implicit submatrix generation vs. explicit buffer) must agree for all inputs", "anchors": ["RandBLAS/skge.hh: lskge3, rskge3, lskges, rskges", "RandBLAS/dense_skops.hh: submatrix_as_blackbox", "RandBLAS/sparse_skops.hh: coo_view_of_skop"]}
{"id": "C39", "title": "sketch_vector computes y = alpha*op(submat(S))*x + beta*y", "statement": "sketch_vector with strides incx, incy >= 1 updates exactly the entries y[i*incy] and reads exactly x[j*incx].", "quantifier": "all dimensions, strides, offsets, scalars", "why_tests_cant": "strides are passed as leading dimensions of a one-column matrix; must be right for all sizes", "anchors": ["RandBLAS/skve.hh: sketch_vector"]}
{"id": "C40", "title": "sketch_symmetric checks symmetry and then computes the product", "statement": "sketch_symmetric raises an error iff A fails the tolerance check (with sym_check_tol), and otherwise computes alpha*submat(S)*A + beta*B (left) or alpha*A*submat(S) + beta*B (right); when it raises, B is unchanged.", "quantifier": "all dimensions, tolerances, layouts, offsets, data", "why_tests_cant": "decision over all matrices", "anchors": ["RandBLAS/sksy.hh: sketch_symmetric"]}
{"id": "C41", "title": "sketch_sparse computes the product of a dense operator and a sparse matrix", "statement": "sketch_sparse computes alpha*op(submat(S))*op(A) + beta*B (left) and alpha*op(A)*op(submat(S)) + beta*B (right) for A in COO, CSC or CSR format.", "quantifier": "all dimensions, patterns, layouts, transposes, offsets, scalars", "why_tests_cant": "all patterns and shapes", "anchors": ["RandBLAS/sparse_data/sksp.hh: lsksp3, rsksp3, sketch_sparse"]}
{"id": "C42", "title": "Invalid dimensions are rejected before anything is written", "statement": "The sketching and SpMM functions raise an error, with B (or C) unchanged, whenever a submatrix exceeds the operator or a leading dimension is too small; for valid arguments no error is raised.", "quantifier": "all argument values", "why_tests_cant": "decision over all integer arguments", "anchors": ["RandBLAS/skge.hh", "RandBLAS/sparse_data/spmm_dispatch.hh", "RandBLAS/sparse_data/sksp.hh"]}
{"id": "C43", "title": "Operators and sparse matrices manage their memory safely", "statement": "In every sequence of constructing, filling, moving and destroying sketching operators and sparse matrices: no allocation is freed twice, nothing is used after it was freed, memory not owned by an object is never freed by it, and when all objects have been destroyed every array allocated by the library has been freed exactly once.", "quantifier": "all finite histories of operations on any number of objects", "why_tests_cant": "histories are unbounded", "anchors": ["RandBLAS/dense_skops.hh: DenseSkOp, fill_dense", "RandBLAS/sparse_skops.hh: SparseSkOp, fill_sparse", "RandBLAS/sparse_data/coo_matrix.hh: COOMatrix, reserve_coo", "RandBLAS/sparse_data/csc_matrix.hh", "RandBLAS/sparse_data/csr_matrix.hh", "rtd/source/tutorial/memory.rst"]}
{"id": "C44", "title": "reserve_* never overwrites a non-null pointer", "statement": "reserve_coo/reserve_csc/reserve_csr raise an error, changing nothing, if the object does not own its memory or already has index or value arrays; otherwise they set nnz and, if nnz is positive, attach fresh arrays of nnz elements (an existing pointer array of a compressed matrix is kept, a missing one is created).", "quantifier": "all object states and arguments", "why_tests_cant": "decision over all states", "anchors": ["RandBLAS/sparse_data/coo_matrix.hh: reserve_coo", "RandBLAS/sparse_data/csc_matrix.hh: reserve_csc", "RandBLAS/sparse_data/csr_matrix.hh: reserve_csr"]}
{"id": "C45", "title": "RNGState copies are faithful and equality is component-wise", "statement": "Two RNGStates compare equal iff counter and key agree in every word; copies and assignments compare equal; constructing from an integer k gives counter zero and key k; incrementing the counter by a then b equals incrementing by a+b, and increments wrap with period 2^(width*len_c).", "quantifier": "all states and increments", "why_tests_cant": "2^192 states", "anchors": ["RandBLAS/base.hh: RNGState"]}
{"id": "C46", "title": "The isometry scale normalises the operator", "statement": "For SparseDist with Short axis, isometry_scale^2 times the squared norm of every short-axis vector is exactly 1; with Long axis isometry_scale^2 times the squared Frobenius norm is exactly max(n_rows,n_cols); for DenseDist with independent variance-one entries isometry_scale^2 * E||S x||^2 = ||x||^2 for wide operators.", "quantifier": "all distributions, all samples (sparse) or expectations (dense)", "why_tests_cant": "holds for every sample / in expectation", "anchors": ["RandBLAS/dense_skops.hh: DenseDist", "RandBLAS/sparse_skops.hh: isometry_scale, SparseDist"]}
{"id": "C47", "title": "Sampling is a deterministic function of (distribution, seed)", "statement": "Filling an operator twice, or filling two operators with equal dist and seed, gives the same data; the seed state object is never modified; the result does not depend on the previous content of the buffers.", "quantifier": "all operators, all previous buffer contents, all histories", "why_tests_cant": "for every prior memory content", "anchors": ["RandBLAS/dense_skops.hh: fill_dense", "RandBLAS/sparse_skops.hh: fill_sparse"]}
{"id": "C48", "title": "Multiplying by an unsorted COO matrix leaves it representing the same matrix", "statement": "COO-based products re-sort the triplets of the caller's object in place; afterwards the multiset of triplets, and for CSR/CSC-sorted input the sort flag and sortedness, are as before.", "quantifier": "all COO matrices and products", "why_tests_cant": "all patterns", "anchors": ["RandBLAS/sparse_data/coo_spmm_impl.hh: apply_coo_left_jki_p11", "RandBLAS/sparse_data/coo_matrix.hh: sort_coo_data"]}
{"id": "C49", "title": "Sketches of blocks add up", "statement": "Sketching with consecutive column windows of one operator and accumulating (beta=1 after the first) equals sketching the stacked data at once: submat(S)[:, 0:m1]*A1 + submat(S)[:, m1:m1+m2]*A2 = submat(S)[:,0:m1+m2]*[A1;A2].", "quantifier": "all operators, splits and data", "why_tests_cant": "streaming claim for all splits", "anchors": ["rtd/source/tutorial/sketch_updates.rst", "RandBLAS/skge.hh: lskge3"]}
{"id": "C50", "title": "print_buff_to_stream prints every entry once, in row order", "statement": "The printed text consists of the label, an opening, one line per row listing the row's entries left to right separated by commas, with the style's row separators, and a closing; reads stay inside the matrix.", "quantifier": "all shapes, strides, styles, contents", "why_tests_cant": "all shapes including single rows and columns", "anchors": ["RandBLAS/util.hh: print_buff_to_stream"]}
{"id": "C51", "title": "Sorted nonzero locations become a pointer array", "statement": "sorted_nonzero_locations_to_pointer_array replaces a nondecreasing list of row (or column) indices by the pointer array whose p-th element is the number of indices smaller than p, touching nothing else; for a list that is not nondecreasing it raises an error and changes nothing.", "quantifier": "all lists, all numbers of rows or columns", "why_tests_cant": "all lists, in-place aliasing of input and output", "anchors": ["RandBLAS/sparse_data/base.hh: sorted_nonzero_locations_to_pointer_array"]}
{"id": "C52", "title": "The documented memory policy is respected", "statement": "No function of the library frees an array that existed when it was called; only destructors do. A function overwrites a pointer member of an object only if that member is null and the object owns its memory, and it never changes own_memory (apart from moving from the object).", "quantifier": "all finite histories of operations on any number of objects, with exceptions at any point", "why_tests_cant": "histories are unbounded", "anchors": ["rtd/source/tutorial/memory.rst", "RandBLAS/dense_skops.hh: DenseSkOp, fill_dense", "RandBLAS/sparse_skops.hh: SparseSkOp, fill_sparse", "RandBLAS/sparse_data/coo_matrix.hh: reserve_coo", "RandBLAS/sparse_data/csc_matrix.hh", "RandBLAS/sparse_data/csr_matrix.hh", "RandBLAS/sparse_data/conversions.hh"]}
{"id": "C53", "title": "print_sparse prints the operator's nonzeros", "statement": "print_sparse writes the kind and dimensions of the operator and the row indices, column indices and values of its nonzeros, in storage order, and nothing else; for an operator that was not filled it says that the pointers are null.", "quantifier": "all sparse operators, filled or not, for every number of merged samples", "why_tests_cant": "merging is random; reading elements that were never written usually goes unnoticed", "anchors": ["RandBLAS/sparse_skops.hh: print_sparse"]}
{"id": "C54", "title": "The text of an RNG state identifies the state", "statement": "Writing a state to a stream writes the words of its counter and its key in decimal, so that two states are written as the same text only if they are equal; the state is not modified.", "quantifier": "all states, all word widths and array lengths", "why_tests_cant": "states are too many to enumerate", "anchors": ["RandBLAS/base.hh: operator<<"]}
{"id": "C55", "title": "Rounding errors of sparse products and sketches are bounded", "statement": "In floating-point arithmetic with unit roundoff u, every entry of C that a sparse product computes (left_spmm, right_spmm, sketch_general with a sparse operator) differs from the exact alpha*op(submat(A))*op(B) + beta*C by at most ((1+u)^(k+3) - 1) times the same expression in absolute values, k being the number of stored entries in the row (or column) of the sparse factor.", "quantifier": "all floating-point formats without overflow and underflow, all formats, layouts, transposes, windows, storage orders, thread counts and schedules", "why_tests_cant": "a bound for all inputs cannot be tested; the order of summation depends on format, layout and schedule", "anchors": ["RandBLAS/sparse_data/spmm_dispatch.hh: left_spmm, right_spmm", "RandBLAS/sparse_data/coo_spmm_impl.hh", "RandBLAS/sparse_data/csc_spmm_impl.hh", "RandBLAS/sparse_data/csr_spmm_impl.hh", "RandBLAS/skge.hh: lskges, rskges"]}
{"id": "C56", "title": "Index arithmetic of dense sampling does not overflow", "statement": "Whenever a dense distribution can be constructed, sampling any window of the operator and computing its next state either raises an exception or computes every array position and counter increment without overflow of int64_t or int, so that the data are the ones that unbounded integers would give.", "quantifier": "all distributions that the constructor accepts, all windows, layouts and states", "why_tests_cant": "operators for which the integers overflow do not fit into the memory of a test machine, although a window of them does", "anchors": ["RandBLAS/dense_skops.hh: fill_dense_submat_impl, fill_dense_unpacked, compute_next_state, DenseDist"]}
{"id": "C57", "title": "Index arithmetic of sparse sampling does not overflow", "statement": "Whenever the arguments of a sparse distribution meet the documented conditions and the index type can number rows and columns, constructing the distribution, computing the next state and filling the operator compute every index, array position and counter increment without overflow, so that the data are the ones that unbounded integers would give; the same holds of sampling indices with and without replacement.", "quantifier": "all distributions, all signed index types of at most 64 bits, all generators and states", "why_tests_cant": "arrays with 2^31 elements are too large for unit tests", "anchors": ["RandBLAS/sparse_skops.hh: SparseDist, compute_next_state, sparse::repeated_fisher_yates, fill_sparse_unpacked_nosub", "RandBLAS/util.hh: sample_indices_iid_uniform"]}
{"id": "C58", "title": "Sampling without replacement has a bounded bias", "statement": "If the generator's words are independent and uniform over {0..M-1} and n <= M, every sequence of k distinct indices is drawn with a probability that differs from 1/(n(n-1)...(n-k+1)) by a factor between (1-n/M)^k and (1+n/M)^k.", "quantifier": "all k <= n, all M", "why_tests_cant": "a statement about all M^k word sequences", "anchors": ["RandBLAS/sparse_skops.hh: repeated_fisher_yates"]}
{"id": "C59", "title": "Short-axis sparse operators preserve squared norms on average over the signs", "statement": "For a SparseDist with major axis Short, fix the positions of the nonzeros and average over all choices of the sign words of the generator: the average of ||isometry_scale * S x||^2 is exactly ||x||^2 for wide S (and of ||isometry_scale * S^T x||^2 for tall S), for every x.", "quantifier": "all distributions, generators, seeds and vectors", "why_tests_cant": "an average over 2^N sign choices, for every vector", "anchors": ["RandBLAS/sparse_skops.hh: SparseDist, isometry_scale, repeated_fisher_yates, fill_sparse"]}
{"id": "C60", "title": "Long-axis sparse operators preserve squared norms on average up to the bias of the sampled indices", "statement": "If the generator's words are independent and uniform, the average of ||isometry_scale * S x||^2 for a wide SparseDist with major axis Long is n * sum_l p_l x_l^2, p_l being the probability of index l out of n; with uniform values at the midpoints of M equal intervals |p_l - 1/n| <= 1/M, so the average is ||x||^2 up to a factor 1 +- n/M. The same holds of S^T for tall operators.", "quantifier": "all distributions, generators with symmetric words, seeds and vectors", "why_tests_cant": "an average over all word sequences, for every vector", "anchors": ["RandBLAS/sparse_skops.hh: SparseDist, isometry_scale, fill_sparse", "RandBLAS/util.hh: sample_indices_iid_uniform"]}
{"id": "C61", "title": "Dense operators preserve squared norms on average", "statement": "If the generator's words are independent and uniform, the average of ||isometry_scale * S x||^2 for a wide DenseDist with major axis Long is v * ||x||^2, v being the mean square of an entry: 1 - 1/M^2 for the uniform family with values at the midpoints of M intervals, half the mean square radius for the exact Box-Muller transform. The same holds of S^T for tall operators.", "quantifier": "all distributions, both families, generators with symmetric words, seeds and vectors", "why_tests_cant": "an average over all word sequences, for every vector", "anchors": ["RandBLAS/dense_skops.hh: DenseDist, fill_dense", "RandBLAS/random_gen.hh: boxmul, uneg11"]}
{"id": "C62", "title": "Cholesky decomposition of the test support library", "statement": "If the symmetric matrix with the stored upper triangle is positive definite, potrf_upper returns 0 and overwrites the upper triangle with the upper triangular R with positive diagonal and R^T R = A; nothing else is written and the result does not depend on the block size. If the matrix is not positive definite, the number returned is the order of the first leading block that is not.", "quantifier": "all n, lda >= n, block sizes and matrices", "why_tests_cant": "for all matrices and block sizes; tests try a few random matrices that are positive definite", "anchors": ["test/handrolled_lapack.hh: potrf_upper_sequential, potrf_upper"]}
{"id": "C63", "title": "Cholesky QR of the test support library", "statement": "chol_qr overwrites the m x n matrix A with linearly independent columns by Q and the array R by an upper triangular matrix with positive diagonal such that A = Q R and Q has orthonormal columns, with and without the second pass and for every block size. These Q and R are unique. Nothing else is written.", "quantifier": "all m, n, block sizes, matrices with linearly independent columns", "why_tests_cant": "for all matrices and sizes; tests compare a few random matrices up to rounding", "anchors": ["test/handrolled_lapack.hh: chol_qr"]}
{"id": "C64", "title": "Block Gram-Schmidt of the test support library", "statement": "qr_block_cgs and qr_block_cgs2 compute the same Q and R as chol_qr for every block size, leading dimension of R and size of the given work vector, reading and writing only A, R and the workspace that their comments ask for. More columns than rows are an error.", "quantifier": "all m >= n, ldr, block sizes, work vectors, matrices with linearly independent columns", "why_tests_cant": "for all sizes and block sizes, including memory safety of the workspace", "anchors": ["test/handrolled_lapack.hh: qr_block_cgs, qr_block_cgs2"]}
{"id": "C65", "title": "Gershgorin test of the test support library", "statement": "extremal_eigvals_converged_gershgorin leaves the n x n matrix G unchanged. It compares the radius with tol times the centre for the Gershgorin disc that reaches lowest and for the one that reaches highest. If it returns true and G is symmetric, every eigenvalue of G lies between (1 - tol) times a diagonal entry and (1 + tol) times a diagonal entry.", "quantifier": "all n >= 1, matrices, tolerances", "why_tests_cant": "for all matrices; tests never call it directly", "anchors": ["test/handrolled_lapack.hh: extremal_eigvals_converged_gershgorin"]}
{"id": "C66", "title": "Cholesky iteration of the test support library", "statement": "posdef_eig_chol_iteration terminates without error for every positive definite matrix with n >= 1. The entries of eigvals sum to the trace of A. If the return value is nonnegative, all eigenvalues of A lie between (1 - tol) times an entry and (1 + tol) times an entry of eigvals, and all entries of eigvals lie between the extreme eigenvalues of A; otherwise it is -max_iters. Nothing but A and eigvals is written.", "quantifier": "all n >= 1, positive definite A, tolerances, iteration limits, block sizes", "why_tests_cant": "for all matrices and numbers of iterations; tests try a few matrices with known spectrum", "anchors": ["test/handrolled_lapack.hh: posdef_eig_chol_iteration"]}
{"id": "C67", "title": "Power method of the test support library", "statement": "For a positive definite matrix A and k >= 1 iterations from a nonzero vector x, power_method returns the Rayleigh quotient of A^(k-1) x and leaves the normalised vector A^k x. The estimate lies between the smallest and the largest eigenvalue, and one more iteration does not decrease it. exeigs_powermethod does so for A and for the inverse of A, so that both estimates lie between the extreme eigenvalues; a matrix that is not symmetric is an error.", "quantifier": "all n >= 1, k >= 1, positive definite A, nonzero start vectors, work vectors", "why_tests_cant": "for all matrices, start vectors and iteration counts; tests compare a few with a tolerance", "anchors": ["test/handrolled_lapack.hh: power_method, exeigs_powermethod"]}
{"id": "C68", "title": "Total least squares example", "statement": "Given an m x (n+1) array [A, b] with n < m, total_least_squares computes a vector x such that (A + E) x = b + r for some perturbation [E, r] whose Frobenius norm is smallest among all perturbations [E', r'] for which some x' solves (A + E') x' = b + r', provided that the last component of the last right singular vector is not zero. Only AB, the workspace and x are written.", "quantifier": "all m > n, ldab, matrices, every singular value decomposition that LAPACK may return", "why_tests_cant": "optimality over all perturbations and solutions; the example only prints a residual", "anchors": ["examples/total-least-squares/tls_dense_skop.cc: total_least_squares", "examples/total-least-squares/tls_sparse_skop.cc: total_least_squares"]}
{"id": "C69", "title": "Data of the total least squares example", "statement": "init_noisy_data stores in AB the sampled m x n matrix A, followed by A X + E, where X is the n x d matrix of ones and E is the sampled m x d matrix of noise. Nothing else is written.", "quantifier": "all m, n, d, sampled numbers", "why_tests_cant": "for all sizes; the example is only run with one right-hand side", "anchors": ["examples/total-least-squares/tls_dense_skop.cc: init_noisy_data", "examples/total-least-squares/tls_sparse_skop.cc: init_noisy_data"]}
{"id": "C70", "title": "Sum of two coordinate matrices", "statement": "sum_of_coo_matrices(A, B) returns a coordinate matrix of the same size that represents A + B and has no duplicates; its positions are those of A and of B. The iteration order of the hash map does not matter.", "quantifier": "all matrices A, B of equal size, iteration orders", "why_tests_cant": "all sparsity patterns, duplicates, index bases and hash orders", "anchors": ["examples/sparse-low-rank-approx/svd_rank1_plus_noise.cc: sum_of_coo_matrices"]}
{"id": "C71", "title": "QB decomposition of a sparse matrix", "statement": "qb_decompose_sparse_matrix(A, k, Q, B, p, ...) returns Q with k orthonormal columns and B = Q^T A. The range of Q contains the range of A (A^T A)^(p/2) S0 where S0 is the sampled n x k matrix if p is even and A^T times the sampled m x k matrix if p is odd. If the range of A S0 is that of A, then Q B = A. A is not changed (up to the order of its entries).", "quantifier": "all sparse matrices A, 1 <= k <= min(m, n), p >= 0, sampled numbers, thread schedules", "why_tests_cant": "exactness for every matrix and number of passes; the examples print run times and angles", "anchors": ["examples/sparse-low-rank-approx/svd_rank1_plus_noise.cc: qb_decompose_sparse_matrix", "examples/sparse-low-rank-approx/svd_matrixmarket.cc: qb_decompose_sparse_matrix"]}
{"id": "C72", "title": "From a QB decomposition to a singular value decomposition", "statement": "qb_to_svd(m, n, k, Q, svals, ldq, B, ldb, work, lwork), given Q with orthonormal columns and a k x n matrix B, overwrites Q, svals, B by U, s, V^T with orthonormal columns of U and V, nonnegative nonincreasing s and U diag(s) V^T = Q B, for every lwork >= k^2 that is the size of the work array; nothing else is written.", "quantifier": "all m, k <= n, leading dimensions, matrices Q, B, sizes of the work array", "why_tests_cant": "out-of-bounds writes do not show in tests; exactness for all matrices", "anchors": ["examples/sparse-low-rank-approx/svd_rank1_plus_noise.cc: qb_to_svd", "examples/sparse-low-rank-approx/svd_matrixmarket.cc: qb_to_svd"]}
{"id": "C73", "title": "Permuting the columns of a matrix", "statement": "col_swap(m, n, k, A, lda, idx) with different column numbers idx[0], ..., idx[k-1] (from 1) permutes the columns of the m x n matrix A so that the first k are the columns idx[0], ..., idx[k-1] of the original. If idx arises from k exchanges of position i with a later one, all n columns follow idx. Nothing else is written; k > n is an error.", "quantifier": "all m, k <= n, lda, matrices, index arrays", "why_tests_cant": "for all permutations; the example only calls it with the pivots of one matrix", "anchors": ["examples/sparse-low-rank-approx/qrcp_matrixmarket.cc: col_swap"]}
{"id": "C74", "title": "From a sketch to a truncated QR decomposition with column pivoting", "statement": "Given a left sketch Y = S A of a sparse m x n matrix A whose k rows are independent, sketch_to_tqrcp returns a permutation piv of 1..n, namely that of a QR decomposition of Y with column pivoting, a matrix Q with k orthonormal columns such that A(:, piv(:k)) = Q R with an invertible upper triangular R, and overwrites Y by Q^T A(:, piv), whose first k columns are upper triangular. Nothing else is written.", "quantifier": "all CSC matrices A, 1 <= k <= min(m, n), leading dimensions, sketches of rank k, every pivoted QR decomposition LAPACK may return", "why_tests_cant": "exactness for all matrices, sketches and leading dimensions; the example prints an error norm", "anchors": ["examples/sparse-low-rank-approx/qrcp_matrixmarket.cc: sketch_to_tqrcp"]}
{"id": "C75", "title": "Row stabilisation by LU", "statement": "lu_row_stabilize(m, n, A, piv) with m < n replaces the m x n matrix A by a unit upper triangular (trapezoidal) matrix whose rows span the same space, or throws an error if a pivot of the LU decomposition with partial pivoting is at most the tolerance. Nothing outside A and the first m elements of piv is written; m >= n is an error before anything is written.", "quantifier": "all matrices, m < n, tolerances, every LU decomposition with partial pivoting that LAPACK may return", "why_tests_cant": "exactness for all matrices, in particular those with a small last pivot", "anchors": ["examples/sparse-low-rank-approx/qrcp_matrixmarket.cc: lu_row_stabilize"]}
{"id": "C76", "title": "Row stabilisation by LQ", "statement": "qr_row_stabilize(m, n, A, tau) with m < n replaces the m x n matrix A by a matrix X with orthonormal rows such that A = L X with a lower triangular L; if the rows of A are independent, the rows of X span the same space. Nothing outside A and the first m elements of tau is written; m >= n is an error.", "quantifier": "all matrices, m < n, every LQ decomposition that LAPACK may return", "why_tests_cant": "exactness for all matrices", "anchors": ["examples/sparse-low-rank-approx/qrcp_matrixmarket.cc: qr_row_stabilize"]}
{"id": "C77", "title": "Orthogonalisation of rows by sketching", "statement": "sketch_orthogonalize_rows(m, n, A, work, d, key) replaces A by X with A = L X, L lower triangular. If it returns 0, the rows of X span the row space of A and the sketch X S has orthonormal rows, where S is the n x d sparse operator determined by the key. If it returns 1, the sketch was nearly singular and the rows of X are orthonormal. Nothing outside A and the m x d matrix in work is written.", "quantifier": "all matrices, 1 <= m <= d, m < n, 2 <= d, keys, tolerances, every LQ decomposition that LAPACK may return", "why_tests_cant": "exactness for all matrices and keys", "anchors": ["examples/sparse-low-rank-approx/qrcp_matrixmarket.cc: sketch_orthogonalize_rows"]}
{"id": "C78", "title": "Power iteration for a column sketch", "statement": "power_iter_col_sketch(A, k, Y, p, state, work, sm) computes Y = S A for a k x m matrix S such that the rows of Z = Om (A A^T)^(p/2) A (Om: the random k x m matrix for even p, the random k x n matrix times A^T for odd p) are combinations of the rows of Y. Without stabilisation Y = Z; with LQ and p >= 1, S has orthonormal rows; if the rows of Z are independent the rows of Y span the same space and are independent. Only Y and work are written.", "quantifier": "all CSC matrices A, all p >= 0, 1 <= k <= m, all stabilisations, all random matrices", "why_tests_cant": "for every number of passes (induction) and all matrices; the example prints pivots", "anchors": ["examples/sparse-low-rank-approx/qrcp_matrixmarket.cc: power_iter_col_sketch"]}
{"id": "C79", "title": "The whole computation of the pivoted QR example", "statement": "run(A, k, p, sm) computes a permutation of the columns of A, given by a pivoted QR decomposition of a matrix whose rows span the same space as those of Om (A A^T)^(p/2) A, a matrix Q with orthonormal columns that span the first k permuted columns of A, and the upper trapezoidal matrix R = Q^T A(:, piv), provided the rows of Om (A A^T)^(p/2) A are independent.", "quantifier": "all CSC matrices A without duplicates, all p >= 0, 1 <= k <= min(m, n), stabilisations, random matrices", "why_tests_cant": "end-to-end exactness for all matrices, ranks and pass counts", "anchors": ["examples/sparse-low-rank-approx/qrcp_matrixmarket.cc: run"]}
{"id": "C80", "title": "Distortion of a vector by a short-axis sparse operator", "statement": "If the words of the generator are independent and uniform over M values, a d x m (d <= m) sparse operator with major axis Short and k nonzeros per column, scaled by isometry_scale, preserves the squared norm of a vector x on average, the mean squared deviation is at most 2/d (1 + d/M)^k (|x|^4 - sum x_j^4), and hence the fraction of the choices of words for which the squared norm changes by more than the relative amount eps is at most 2 (1 + d/M)^k / (d eps^2). The same holds for the transpose of a tall operator.", "quantifier": "all d, m, k, x, eps, seeds, all even M >= d; the average is over all words of the generator", "why_tests_cant": "a distribution over all seeds and keys: tests sample a few keys and vectors", "anchors": ["RandBLAS/sparse_skops.hh: fill_sparse, repeated_fisher_yates", "RandBLAS/sparse_skops.hh: isometry_scale", "test/test_basic_rng/test_distortion.cc"]}
{"id": "C81", "title": "Sketching with a short-axis sparse operator preserves the norms of columns", "statement": "sketch_general with a short-axis sparse operator that has not been sampled, alpha = isometry_scale and beta = 0 yields a matrix each of whose columns (left sketches; for right sketches: rows) has, on average over the words of the generator, the squared norm of the same column of op(A), and whose squared norm differs from it by more than the relative amount eps for at most a fraction 2 (1 + d/M)^k / (d eps^2) of the choices of words.", "quantifier": "all dimensions, layouts, leading dimensions, op(A), matrices A, wide operators applied as they are and tall ones transposed", "why_tests_cant": "as C80, through the whole call chain of sketch_general", "anchors": ["RandBLAS/skge.hh: sketch_general", "RandBLAS/sparse_skops.hh: fill_sparse"]}
{"id": "C82", "title": "Distortion of a vector by a dense operator", "statement": "If the words of the generator are independent and uniform over M values, a d x m window of a dense operator (or the transpose of a window), scaled by d^(-1/2), preserves the squared norm of a vector x on average up to the factor v (v = 1 - 1/M^2 for the uniform family, 1 - (2 + log 2M)/(2M) <= v <= 1 for the Gaussian one), and the fraction of the choices of words for which the squared norm changes by more than the relative amount eps is at most (2/d + 1/M^4)/eps^2 for the uniform and (2/d + (2 + log 2M)/M)/eps^2 for the Gaussian family.", "quantifier": "all operators, windows, both families and natural layouts, x, eps, seeds; the average is over all words of the generator", "why_tests_cant": "a distribution over all seeds and keys: tests sample a few keys and vectors", "anchors": ["RandBLAS/dense_skops.hh: fill_dense_unpacked", "RandBLAS/dense_skops.hh: isometry_scale", "test/test_basic_rng/test_distortion.cc"]}
{"id": "C83", "title": "Sketching with a dense operator preserves the norms of columns or rows", "statement": "sketch_general with a dense operator that has not been filled, alpha = d^(-1/2) and beta = 0 yields a matrix each of whose columns (left sketches) or rows (right sketches) has, on average over the words of the generator, v times the squared norm of the same column or row of op(A), and whose squared norm changes by more than the relative amount eps for at most the fraction of the choices of words given in C82.", "quantifier": "all dimensions, windows of the operator, layouts, leading dimensions, op(A), op(S), matrices A", "why_tests_cant": "as C82, through the whole call chain of sketch_general", "anchors": ["RandBLAS/skge.hh: sketch_general, lskge3, rskge3", "RandBLAS/dense_skops.hh: fill_dense_unpacked"]}
{"id": "C84", "title": "Sketches embed whole subspaces", "statement": "sketch_general with a new operator (short-axis sparse with alpha = isometry_scale, or dense with alpha = d^(-1/2)) and beta = 0 yields a matrix S A with | |S A z|^2 - |A z|^2 | <= eps |A z|^2 for all vectors z at once (right sketches: for the row space), except for a fraction of the choices of words of at most r^2 V / eps^2, where r bounds the rank of A and V is the variance bound of C80 or C82, about 2/d. For such a matrix the kernel of S A is that of A, and the minimiser of |S A z| over any set of vectors z minimises |A z| up to the factor ((1+eps)/(1-eps))^(1/2).", "quantifier": "all dimensions, windows, layouts, leading dimensions, op(A), op(S), matrices A of rank at most r, distortions eps > 0 (eps < 1 for the consequences)", "why_tests_cant": "it quantifies over all vectors z, all words the generator may yield and all matrices; a test samples few of each", "anchors": ["RandBLAS/skge.hh: sketch_general", "RandBLAS/sparse_skops.hh: repeated_fisher_yates, isometry_scale", "RandBLAS/dense_skops.hh: fill_dense_unpacked"]}
{"id": "C85", "title": "The sketched total least squares programs compute a near-optimal solution", "statement": "The randomised part of the two example programs for total least squares (sample the operator from the seed, SAB = S [A, b], solve with the singular value decomposition of SAB) returns a solution of the total least squares problem for S [A, b]; if [A, b] has a gap between its smallest singular value and that of A, then except for a fraction of the choices of words of at most (n+1)^2 V / eps^2 it returns x that solves (A + E) x = b + r with |[E, r]|^2 at most (1+eps)/(1-eps) times that of every perturbation for which the equations have a solution.", "quantifier": "all problems, sketch dimensions > n, seeds, words of the generator, nonzeros per column, eps in (0, 1); all decompositions that the LAPACK routine may compute", "why_tests_cant": "optimality is over all perturbations of all problems and the fraction is over all words; the example prints one residual", "anchors": ["examples/total-least-squares/tls_dense_skop.cc:138-171", "examples/total-least-squares/tls_sparse_skop.cc:140-178", "examples/total-least-squares/tls_dense_skop.cc: total_least_squares"]}
{"id": "C86", "title": "The low-rank approximation programs recover matrices of low rank", "statement": "The randomised part of the two sparse low-rank programs (qb_decompose_sparse_matrix with fresh Gaussian samples and p power steps, then qb_to_svd) writes orthonormal U and V and sorted nonnegative singular values with U diag(s) V^T = Q Q^T A, for an orthonormal Q whose span contains that of the powered sketch; and if A has rank at most r then, except for a fraction of the choices of words of at most r^2 (w (1 + 2/k) - 2 v + 1), about 2 r^2 / k, the result is a singular value decomposition of A itself. The programs stay within their arrays.", "quantifier": "all sparse matrices of supported formats, all k <= m, k < n, numbers of power steps, seeds, words of the generator, thread schedules, sizes of the work array; all factorisations that the LAPACK routines may compute", "why_tests_cant": "exactness is over all matrices of the given rank and the fraction is over all words; an overrun by k elements is rarely seen by a test", "anchors": ["examples/sparse-low-rank-approx/svd_rank1_plus_noise.cc:218-297, 327-336", "examples/sparse-low-rank-approx/svd_matrixmarket.cc:221-238"]}
{"id": "C87", "title": "A sketch can be enlarged with a second operator", "statement": "Let D1, D2 and D be long-axis distributions for d1, d2 and d1+d2 rows (left) or columns (right), S1 and S have the same seed and let S1.next_state be the seed of S2. Sketching with S1 into the first block of B and with S2 into the second, sketching with the two blocks of S as submatrices, and sketching once with S give the same contents of B; S2.next_state = S.next_state; and the isometry scale of D is (alpha1^-2 + alpha2^-2)^(-1/2).", "quantifier": "all sizes with d1+d2 less than the long dimension, families, numbers of nonzeros, seeds, generators, layouts, leading dimensions, alpha, beta, data, operators filled or not", "why_tests_cant": "equality of three workflows for all sizes and seeds", "anchors": ["rtd/source/tutorial/sketch_updates.rst:25-116", "RandBLAS/skge.hh", "RandBLAS/dense_skops.hh: compute_next_state", "RandBLAS/sparse_skops.hh: compute_next_state"]}
{"id": "C88", "title": "Data can be added to a sketch", "statement": "Let D1 and D be short-axis distributions for m and m+k columns (left) or rows (right), with the same seed. Sketching the first data with S1 and adding the sketch of k further rows (columns) of data with the trailing k columns (rows) of S gives the same contents of B as sketching the stacked data with S; and if d < k the trailing part of S is the operator from the d x k distribution with seed S1.next_state.", "quantifier": "all sizes with d < m and k > 0, families, numbers of nonzeros, seeds, generators, layouts, leading dimensions, alpha, beta, data, operators filled or not", "why_tests_cant": "equality of two workflows for all sizes and seeds", "anchors": ["rtd/source/tutorial/sketch_updates.rst:118-278", "RandBLAS/skge.hh"]}
{"id": "C89", "title": "Operators are independent random matrices", "statement": "If the words of the generator are independent and uniform, then the distribution of an operator does not depend on its seed; the major-axis vectors of an operator are independent and identically distributed; operators drawn one after the other, each seeded with the next state stored by its predecessor, are mutually independent as long as they use no more counters than there are, and operators with different keys are always independent; the entries of a uniform operator are independent, each sqrt(3) times one word's value, and those of a Gaussian operator are independent pairs from the Box-Muller transformation of two words.", "quantifier": "all sizes, families, numbers of nonzeros, axes, seeds, sequences of operators of any mix and length, and events", "why_tests_cant": "a statement about the joint distribution over all seeds and words", "anchors": ["RandBLAS/dense_skops.hh:60-200", "RandBLAS/sparse_skops.hh:60-260", "rtd/source/tutorial/sampling_skops.rst:35-110", "rtd/source/tutorial/distributions.rst:150-180", "rtd/source/tutorial/sketch_updates.rst:170-250"]}
{"id": "C90", "title": "Operators with different scalar types are the same up to conversion", "statement": "Operators with the same distribution and seed but different scalar types (float and double) agree: Gaussian and short-axis sparse operators entry by entry after conversion; uniform operators are the same numbers times the constant sqrt(3) of each type; long-axis sparse operators have the same positions, signs and multiplicities, each entry being the sign times the square root of the multiplicity in its type.", "quantifier": "all sizes, numbers of nonzeros, seeds, generators, scalar types and conversions", "why_tests_cant": "equality of two instantiations of the templates for all seeds", "anchors": ["rtd/source/tutorial/sampling_skops.rst:63-66", "RandBLAS/random_gen.hh:95-187", "RandBLAS/sparse_skops.hh:429-541", "RandBLAS/util.hh:475-512"]}
{"id": "C91", "title": "With alpha = 0 the data matrix is not accessed", "statement": "If alpha is zero, sketch_general, sketch_vector, sketch_symmetric and sketch_sparse do not access the data matrix (documented: 'If zero, then A is not accessed'): the outcome does not depend on what A points to, and A need not be initialised or allocated.", "quantifier": "all operators, dimensions, layouts, transposes, offsets, scalars, states of B, all pairs of data matrices", "why_tests_cant": "absence of reads for every argument; a test with a valid A cannot observe it", "anchors": ["RandBLAS/skge.hh", "RandBLAS/skve.hh", "RandBLAS/sksy.hh", "RandBLAS/sparse_data/sksp.hh"]}
{"id": "C92", "title": "Distortion of a vector by a long-axis sparse operator", "statement": "Let S be a long-axis sparse operator (k nonzeros per major-axis vector, d vectors of length n) with ideal words, scaled with isometry_scale. For each vector x, |S x|^2 has the mean n*sum p_j x_j^2 and, if sum x_j^4 <= rho |x|^4, the fraction of choices of words for which | |S x|^2 - |x|^2 | > eps |x|^2 is at most ((2(1+n/M)^2 + (1+n/M) n rho / k)/d + (n/M)^2)/eps^2, where M is the number of words. The condition on x is needed: column j of S is zero with probability exactly (1-p_j)^(kd), so that the j-th unit vector is mapped to zero.", "quantifier": "all shapes, k, seeds, vectors, eps, all ideal generators with symmetric signs", "why_tests_cant": "a statement about all choices of the random words; tests look at a few seeds", "anchors": ["RandBLAS/sparse_skops.hh", "RandBLAS/util.hh", "RandBLAS/base.hh"]}
{"id": "C93", "title": "Sketching with a long-axis sparse operator: probability of failure and of distortion", "statement": "sketch_general with a new long-axis sparse operator that is used whole (op(S) has d rows of length m >= 2; right sketches: beta = 0): for every choice of the random words the call is undefined behaviour or yields the documented result. It is undefined for exactly the fraction p_0^(kd) of the choices of the words, where p_0 is the fraction of words mapped to index 0. With alpha = isometry_scale it returns and preserves the squared norm of a column of op(A) up to the factor eps, except for a fraction of at most the bound of C92 plus p_0^(kd).", "quantifier": "all shapes, layouts, transposes, leading dimensions, data matrices, seeds, eps; all choices of the random words", "why_tests_cant": "as C92, through the whole call chain of sketch_general; the failing choices of words are too rare to be met by tests", "anchors": ["RandBLAS/skge.hh", "RandBLAS/sparse_skops.hh", "RandBLAS/sparse_data/coo_spmm_impl.hh"]}
{"id": "C94", "title": "Dense operators distort a vector with exponentially small probability", "statement": "Let op(X) be any d x m window of a dense operator (or the transpose of a window), alpha^2 = 1/d and 0 < eps <= 1. For every fixed vector x, the fraction of the choices of the random words for which ||alpha op(X) x||^2 exceeds (1+eps)||x||^2 is at most exp(-d eps^2/8), and the fraction for which it is below (1-eps)||x||^2 is at most exp(-d eps(eps-2 delta)/8), where 1-delta is a lower bound of the mean square of the entries. The exact conversions of words to scalars of both families (midpoints; Box-Muller with midpoints) have the exponential moments this needs, with delta = 1/M^2 (uniform) and (2+log 2M)/(2M) (Gaussian), M being the number of words.", "quantifier": "all dense distributions, seeds, windows, transposes, vectors x, eps in (0,1]; all choices of the random words", "why_tests_cant": "a tail bound over all words; the failure probabilities are too small to be estimated by sampling, and entries that share a pair of words are dependent", "anchors": ["RandBLAS/dense_skops.hh", "RandBLAS/random_gen.hh"]}
{"id": "C95", "title": "sketch_general with a dense operator preserves all pairwise distances (Johnson-Lindenstrauss)", "statement": "sketch_general with a dense operator that has not been filled, alpha^2 = 1/d, beta = 0 and 0 < eps <= 1 returns and preserves all squared distances between the n columns of op(A) (right sketches: the rows) up to the relative error eps, for all but a fraction n(n-1) exp(-d eps(eps-2 delta)/8) of the choices of the random words. With delta <= eps/4 and d >= 16 log(n^2/eta)/eps^2 the fraction is at most eta.", "quantifier": "all shapes, windows, layouts, transposes, leading dimensions, data matrices, seeds, eps in (0,1]; all choices of the random words", "why_tests_cant": "as C94, through the whole call chain of sketch_general", "anchors": ["RandBLAS/skge.hh", "RandBLAS/dense_skops.hh"]}
{"id": "C96", "title": "sketch_general with a dense operator embeds subspaces with exponentially small probability of failure", "statement": "sketch_general with a dense operator that has not been filled, alpha^2 = 1/d, beta = 0 and 0 < eps <= 2 returns a matrix B with | |B z|^2 - |op(A) z|^2 | <= eps |op(A) z|^2 for all vectors z at once (right sketches: the same for the transposes), for all but a fraction 2*9^r exp(-d eps(eps-4 delta)/32) of the choices of the random words, where r bounds the rank of op(A) and 1-delta is a lower bound of the mean square of the entries. With delta <= eps/8 and d >= 64(3r + log(2/eta))/eps^2 the fraction is at most eta.", "quantifier": "all shapes, windows, layouts, transposes, leading dimensions, data matrices, ranks, seeds, eps; all choices of the random words", "why_tests_cant": "a statement about infinitely many vectors z and all choices of the words; the failure probabilities are too small to be sampled", "anchors": ["RandBLAS/skge.hh", "RandBLAS/dense_skops.hh"]}
{"id": "C97", "title": "Example programs with dense operators fail with exponentially small probability", "statement": "Total least squares with a dense operator with d rows: if the problem [A, b] with n unknowns has a gap, the program returns a solution up to the factor (1+eps)/(1-eps), for all but a fraction 2*9^(n+1) exp(-d eps(eps-4 delta)/32) of the choices of the random words. Low rank SVD: if the sparse matrix A has rank at most r, the program returns a singular value decomposition of rank k of A itself, for all but a fraction 2*9^r exp(-k eps(eps-4 delta)/32), for every eps < 1.", "quantifier": "all sizes, data, seeds, eps in (0,1), thread schedules, all choices of the random words; svd and orthonormalisation as LAPACK documents them", "why_tests_cant": "as C96; the programs are only run by hand on single problems", "anchors": ["examples/total-least-squares/tls_dense_skop.cc", "examples/sparse-low-rank-approx/svd_matrixmarket.cc", "examples/sparse-low-rank-approx/svd_rank1_plus_noise.cc"]}
{"id": "C98", "title": "The supplied generators never repeat a block within their period", "statement": "For each of the Philox and Threefry generators that RandBLAS includes (in particular the default Philox4x32), every number of rounds and every key: the block of words is a bijective function of the counter. Hence the blocks after two different numbers of increments of a state (below 2^64) differ; with a uniformly distributed counter the words of a block are exactly independent and uniform; two different major-axis vectors of a dense operator (at least as long as a block) are never equal, nor are a vector of an operator and a vector of an operator of the same family seeded with its next_state. The exact conversions of their words to real numbers satisfy the assumptions of C83, C94 and C96. Blocks at different counters of one key are not exactly independent, as the probabilistic properties assume: they never coincide.", "quantifier": "all keys (2^64 to 2^256), counters, numbers of rounds, distributions, seeds; the eight generator classes", "why_tests_cant": "the known-answer tests check three inputs per generator; injectivity over 2^128 counters and all keys cannot be sampled", "anchors": ["RandBLAS/random_gen.hh:76-77", "RandBLAS/base.hh:53", "test/test_basic_rng/r123_kat_vectors.txt", "RandBLAS/dense_skops.hh"]}
{"id": "C99", "title": "Uniform values in floating-point arithmetic reach the ends of the interval", "statement": "The uniform values are computed from words in float (32-bit words) or double (64-bit words). For every word and every tie-breaking rule of round-to-nearest the value lies in [-1,1], is within 2^(2-p) of the exact value and has the sign of the word, so signs are exactly balanced; the radius word of the Gaussian transform converts to a number in (0,1], so no infinity or NaN arises. A sample of sample_indices_iid_uniform is in {0..n-1} for all words but those above 2^(w-1) - 2^(w-2-p), for which the value is exactly 1 and the sample is n. For every supported generator, every key and every n there is a counter whose first sample is n, for every long-axis distribution one for which the filled operator has an entry past the end of the long axis, and for a distribution without mass at 0 one for which sample_indices_iid returns 0. With a uniformly distributed counter the probability per sample is between 63/2^32 and 64/2^32 for the default generator.", "quantifier": "all words, roundings to nearest, supported generators, numbers of rounds, keys, n up to 2^53, long-axis distributions, map iteration orders", "why_tests_cant": "64 of 2^32 words trigger it; tests of the sampled indices draw far fewer", "anchors": ["RandBLAS/random_gen.hh:143-153", "RandBLAS/util.hh:434-437", "RandBLAS/util.hh:476-508", "RandBLAS/sparse_skops.hh:508-541"]}
{"id": "C100", "title": "Rounding errors of sketches with dense operators are bounded", "statement": "In floating-point arithmetic with unit roundoff u, every entry of B that sketch_general computes with a dense operator differs from the exact alpha*op(submat(S))*op(A) + beta*B by at most ((1+u)^(m+3) - 1) times the same expression in absolute values, m being the inner dimension and S consisting of the sampled (rounded) numbers. For sketch_sparse, m is replaced by the number of stored entries in the column (or row) of the data matrix.", "quantifier": "all floating-point formats without overflow and underflow, all dense operators, filled or not, all layouts, transposes, windows, scalars; BLAS products summed in index order", "why_tests_cant": "a bound for all inputs cannot be tested; tests compare with a tolerance for a few random matrices", "anchors": ["RandBLAS/skge.hh: lskge3, rskge3, sketch_general", "RandBLAS/sparse_data/sksp.hh: lsksp3, rsksp3, sketch_sparse", "RandBLAS/dense_skops.hh: submatrix_as_blackbox"]}
{"id": "C101", "title": "weights_to_cdf and sample_indices_iid in floating-point arithmetic", "statement": "With p significant bits, weights_to_cdf gives nonnegative nondecreasing elements at most 1 that differ from the exact cumulative distribution by at most n+2 rounding factors in each direction; an index whose weight is not positive gets no mass; the last element is 1 or exactly 1 - 2^-p. It is not always 1, as sample_indices_iid requires: the weights 41, 0, ..., 0 in single and 49, 0, ..., 0 in double precision give the second value. Whenever that happens there is, for every supported generator and every key, a counter for which the sample drawn is n, one past the end. Samples drawn from words (as signed 32-bit integers) up to 2^31 - 2^8 (single) or below 2^31 - 2^6 (double) are in {0..n-1}, are the least index whose element reaches the uniform value, and have positive weight unless that value is 0.", "quantifier": "all weights, lengths, thresholds, roundings to nearest, generators, keys, states, k; no overflow or underflow", "why_tests_cant": "depends on the last bit of 1/sum times sum and on 64 of 2^32 words; tests use a few weights and compare frequencies", "anchors": ["RandBLAS/util.hh:418-432", "RandBLAS/util.hh:434-437", "RandBLAS/util.hh:452-474"]}
{"id": "C102", "title": "Distributions have their documented members and reject exactly the documented arguments", "statement": "DenseDist(n_rows, n_cols, ...) raises an error exactly if a dimension is not positive, SparseDist exactly if a dimension is not positive or vec_nnz is not in {1..dim_major}. Otherwise dim_major is the smaller dimension for major axis Short and the larger for Long, dim_minor the other one, full_nnz = vec_nnz * dim_minor, and natural_layout is the one given by the table in its documentation.", "quantifier": "all dimensions, families, major axes, vec_nnz", "why_tests_cant": "all argument combinations, including square ones where code and table differ", "anchors": ["RandBLAS/dense_skops.hh:187-199", "RandBLAS/dense_skops.hh:223-323", "RandBLAS/sparse_skops.hh:125-219"]}
{"id": "C103", "title": "Index arithmetic of sparse products does not overflow", "statement": "A product of a sparse and a dense matrix (left_spmm, right_spmm) computed with int64_t sizes and with stored indices of w bits has the same effect as the product computed with unbounded integers: no intermediate index leaves its type, and nothing is lost in conversions.", "quantifier": "all layouts, transpositions, sizes, windows, formats, index types, schedules whose arrays can be allocated", "why_tests_cant": "products with more than 2^31 nonzeros are too large for tests", "anchors": ["RandBLAS/sparse_data/spmm_dispatch.hh:48-200", "RandBLAS/sparse_data/coo_spmm_impl.hh:47-163", "RandBLAS/sparse_data/csc_spmm_impl.hh:45-215", "RandBLAS/sparse_data/csr_spmm_impl.hh:47-158", "RandBLAS/sparse_data/base.hh:68-91"]}
{"id": "C104", "title": "Index arithmetic of sketches does not overflow", "statement": "sketch_general and sketch_sparse computed with int64_t sizes and with stored indices of w bits have the same effect as with unbounded integers: the result is the sketch, and arguments whose window leaves the operator raise an error.", "quantifier": "all layouts, transpositions, sizes, windows, operators (dense and sparse, filled or not), index types, schedules", "why_tests_cant": "needs operators with more than 2^31 nonzeros or offsets near 2^63", "anchors": ["RandBLAS/base.hh:233-243", "RandBLAS/dense_skops.hh:652-664", "RandBLAS/skge.hh:152-200", "RandBLAS/skge.hh:305-353", "RandBLAS/skge.hh:463-490", "RandBLAS/skge.hh:596-624", "RandBLAS/sparse_data/sksp.hh:132-182", "RandBLAS/sparse_data/sksp.hh:277-326"]}
{"id": "C105", "title": "The conjugate transpose of real data is the transpose", "statement": "A call of spmm, sketch_general, sketch_sparse or sketch_vector with blas::Op::ConjTrans for an operand has the same effect as the call with Trans for it.", "quantifier": "all layouts, operations for the other operand, sizes, windows, operators, sparse formats", "why_tests_cant": "the enumeration has a third value that no test passes; each function compares with one of the other two", "anchors": ["RandBLAS/sparse_data/spmm_dispatch.hh:48-200", "RandBLAS/skge.hh:152-353", "RandBLAS/skge.hh:463-624", "RandBLAS/skve.hh:140-164", "RandBLAS/skve.hh:232-246", "RandBLAS/sparse_data/sksp.hh:132-326", "RandBLAS/base.hh:220-226"]}
{"id": "C106", "title": "make_signal_matrix makes the same rank-one matrix in dense and in sparse form", "statement": "make_signal_matrix with zero vectors u, v, a zero dense and an empty sparse matrix sets u and v to unit vectors with exactly vec_nnz nonzeros of equal magnitude; the dense and the sparse matrix are both signal_scale * u * v^T, the sparse one without duplicates.", "quantifier": "all sizes, vec_nnz up to both sizes, scales, generators, states", "why_tests_cant": "tests run no example; the two forms are never compared", "anchors": ["examples/sparse-low-rank-approx/svd_rank1_plus_noise.cc:149-180"]}
{"id": "C107", "title": "iid_sparsify_random_dense and make_noise_matrix: entries are zero with the requested probability", "statement": "iid_sparsify_random_dense sets the entries of a matrix to independent values; each is zero with probability prob_of_zero and otherwise an entry of a uniform random operator. Nothing else is written. make_noise_matrix gives the same scaled matrix in dense and in sparse form, the latter with exactly the nonzeros.", "quantifier": "all sizes, strides, probabilities, generators, states, schedules; words independent and uniform for the probabilities", "why_tests_cant": "a probability over all generator outputs", "anchors": ["examples/sparse-low-rank-approx/svd_rank1_plus_noise.cc:72-100", "examples/sparse-low-rank-approx/svd_rank1_plus_noise.cc:183-202"]}
{"id": "C108", "title": "The test matrix of the low-rank example is the same in dense and in sparse form", "statement": "The matrices mat_dense and mat_sparse that main builds from the signal and the noise are equal.", "quantifier": "all sizes, parameters, generators, states, hash-map orders", "why_tests_cant": "tests run no example; the program prints no comparison", "anchors": ["examples/sparse-low-rank-approx/svd_rank1_plus_noise.cc:299-328"]}
{"id": "C109", "title": "from_matrix_market returns the matrix in the file", "statement": "The COO matrix returned has the dimensions and exactly the entries that were read, in the order of the file, zero-based.", "quantifier": "all files (as read by the external reader)", "why_tests_cant": "files with 2^31 entries are too large for tests", "anchors": ["examples/sparse-low-rank-approx/svd_matrixmarket.cc:68-89", "examples/sparse-low-rank-approx/qrcp_matrixmarket.cc:70-92"]}
{"id": "C110", "title": "Calls that share an operator or a sparse matrix can run at the same time", "statement": "A sketch or a sparse product uses its operator and its data matrix as inputs only: it stores to no element of their arrays and to none of their members. Several threads can therefore use the same operator or the same sparse matrix at the same time, each with its own result.", "quantifier": "all formats, entries and orders of entries, operations, sizes, scalars; filled and unfilled operators", "why_tests_cant": "a data race shows up only for some interleavings, and tests make one call at a time", "anchors": ["RandBLAS/sparse_data/coo_spmm_impl.hh:80-163", "RandBLAS/sparse_data/spmm_dispatch.hh:48-200", "RandBLAS/skge.hh:463-490", "RandBLAS/skge.hh:596-624", "RandBLAS/sparse_skops.hh:640-645", "RandBLAS/sparse_data/sksp.hh:132-326"]}
{"id": "C111", "title": "The dense utilities, sketch_vector, sketch_symmetric and sample_indices_iid are correct with machine integers", "statement": "symmetrize, overwrite_triangle, transpose_square, require_symmetric, flip_layout, sketch_vector, sketch_symmetric and sample_indices_iid have the results of C17-C21, C23, C39 and C40 although indices are computed in int64_t and samples are stored in the caller's integer type, whenever all entries of the matrices have positions below 2^63.", "quantifier": "all sizes, leading dimensions, offsets, operators; index types of any width", "why_tests_cant": "needs sizes near 2^31 and 2^63", "anchors": ["RandBLAS/util.hh:60-147", "RandBLAS/util.hh:300-392", "RandBLAS/util.hh:452-474", "RandBLAS/skve.hh:140-164", "RandBLAS/sksy.hh:158-177", "RandBLAS/sksy.hh:293-312"]}
{"id": "C112", "title": "Conversions and re-indexing of sparse matrices are correct for every index type, or report an error", "statement": "coo_to_csc and coo_to_csr into a matrix with narrower indices either represent the same matrix (C26) or raise an error; reindex_inplace represents the same matrix (C30) for every index type that can hold the indices of the given matrix.", "quantifier": "all matrices, index types of any width, index bases", "why_tests_cant": "needs matrices with 2^31 rows or entries for the default types", "anchors": ["RandBLAS/sparse_data/conversions.hh:42-103", "RandBLAS/sparse_data/conversions.hh:173-220"]}
{"id": "C113", "title": "The Kolmogorov-Smirnov lookup returns the critical value for the requested sample size and significance", "statement": "critical_value_rep(n, sig) and critical_value_rep_mutator return the smallest tabulated sample size at least n, the largest tabulated level at most sig, and the critical value of the test for these two; arguments outside the table raise an error.", "quantifier": "all sample sizes and significance levels, all integer types of the caller", "why_tests_cant": "a critical value that is too large makes statistical tests pass; no test can notice", "anchors": ["test/test_basic_rng/rng_common.hh:47-168", "test/test_basic_rng/rng_common.hh:173-184"]}
{"id": "C114", "title": "The statistical tests accept exactly the samples whose empirical distribution is within the critical value", "statement": "The Kolmogorov-Smirnov testers for index samples and for continuous samples pass if and only if the supremum over all arguments of the distance between empirical and true distribution function is within the critical value; the distribution functions supplied are those of the uniform and the normal distribution.", "quantifier": "all sample lists, distribution functions, critical values", "why_tests_cant": "the supremum is over uncountably many arguments; the testers evaluate it at the samples only", "anchors": ["test/test_basic_rng/test_discrete.cc:84-101", "test/test_basic_rng/test_continuous.cc:55-108", "test/test_basic_rng/rng_common.hh:173-184", "test/test_basic_rng/rng_common.hh:264-277"]}
{"id": "C115", "title": "The test of sampling without replacement compares with the right distribution", "statement": "hypergeometric_pmf(N,K,D,k) is the probability that a random subset of D out of N elements contains exactly k of K distinguished ones, with the mean and variance that hypergeometric_mean and hypergeometric_variance return; fisher_yates_cdf is the empirical distribution function of the number of indices below K in a block; and if the words of the generator are uniform, this number has the hypergeometric distribution for the indices that repeated_fisher_yates draws.", "quantifier": "all parameters, samples, generators", "why_tests_cant": "probabilities over all generator outputs; all parameters", "anchors": ["test/test_basic_rng/rng_common.hh:190-260", "test/test_basic_rng/test_discrete.cc:196-262", "RandBLAS/sparse_skops.hh:51-110"]}
{"id": "C116", "title": "Sparse vectors follow the documented distribution", "statement": "If all words of the generator are independent and uniform, each long-axis vector of a filled sparse operator has the documented law: vec_nnz locations are drawn independently with replacement, and an index that is drawn l times holds sqrt(l) or -sqrt(l), each with probability 1/2, independently of the locations and of the other indices. Each short-axis vector has exactly vec_nnz nonzeros, whose locations are drawn without replacement and whose values are independent signs. The locations are uniform up to a factor between (1 - n/M)^vec_nnz and (1 + n/M)^vec_nnz for vectors of length n and M words.", "quantifier": "all sparse distributions, seeds, generators, vectors of the operator, sets of locations, multiplicities and signs", "why_tests_cant": "a probability over all generator outputs; a test sees one seed", "anchors": ["RandBLAS/sparse_skops.hh:51-110", "RandBLAS/sparse_skops.hh:140-160", "RandBLAS/sparse_skops.hh:431-545", "RandBLAS/util.hh:477-516", "rtd/source/tutorial/distributions.rst:151-208"]}
{"id": "C117", "title": "Sketching a submatrix of a sparse matrix", "statement": "lsksp3 and rsksp3, which take offsets into the sparse data matrix, compute alpha*op(submat(S))*op(submat(A)) + beta*B (or with the factors exchanged) for every submatrix inside a COO matrix and for the whole of a CSC or CSR matrix, write nothing outside B and keep the entries of A. A submatrix that exceeds the matrix, and a proper submatrix of a CSC or CSR matrix, is rejected with an error, and nothing is changed.", "quantifier": "all layouts, transposes, dimensions, offsets into operator and matrix, scalars, leading dimensions, filled and unfilled dense operators, all three formats", "why_tests_cant": "unbounded input space; offsets into the data matrix combine with offsets into the operator, the layout and the transposes", "anchors": ["RandBLAS/sparse_data/sksp.hh:132-182", "RandBLAS/sparse_data/sksp.hh:277-326", "RandBLAS/sparse_data/spmm_dispatch.hh:60-150", "rtd/source/FAQ.rst:15-25"]}
{"id": "C118", "title": "The comparison helpers of the tests accept exactly what agrees up to the tolerances", "statement": "approx_equal, buffs_approx_equal (with one tolerance, with increments, with a bound for each element) and matrices_approx_equal report no failure exactly if every compared pair of numbers differs by at most the absolute tolerance or the relative tolerance times the larger magnitude (or the given bound); otherwise they report a place where this is not so (for arrays the first one). In particular a result that is infinite or NaN is not accepted in place of a finite number.", "quantifier": "all arrays, sizes, increments, layouts, transposes, leading dimensions and tolerances", "why_tests_cant": "the tests of the library pass through these helpers, so a test cannot show that they reject wrong results", "anchors": ["test/comparison.hh:60-93", "test/comparison.hh:109-179", "test/comparison.hh:182-249"]}
{"id": "C119", "title": "The major axis of a dense operator does not matter statistically", "statement": "If all words of the generator are independent and uniform, a dense operator is a matrix of independent identically distributed entries, so that operators of the same size and family have the same law for both values of major_axis and for all seeds (\"from a statistical perspective there is absolutely no difference\").", "quantifier": "all sizes, both families, both axes, all seeds, all events about the matrix", "why_tests_cant": "a probability over all generator outputs; a test sees a few seeds and a few events", "anchors": ["RandBLAS/dense_skops.hh:60-170", "RandBLAS/dense_skops.hh:530-575", "RandBLAS/random_gen.hh:92-185", "rtd/source/tutorial/distributions.rst:106-128"]}
{"id": "C120", "title": "One nonzero per vector: CountSketch and sampling with replacement", "statement": "A short-axis operator with vec_nnz = 1 is a CountSketch: sketching from the left adds each row of op(A), times a random sign, to one random row of the result; from the right the same with columns. A long-axis operator with vec_nnz = 1 is plain row (or column) sampling with replacement: each row of the result is a row of op(A) chosen uniformly and independently of the others.", "quantifier": "all operators with vec_nnz = 1, both sides, layouts and transposes, all data and scalars, all events about rows and signs over all generator outputs", "why_tests_cant": "a statement about all data matrices and about probabilities over all generator outputs", "anchors": ["RandBLAS/sparse_skops.hh:52-130", "RandBLAS/sparse_skops.hh:425-545", "RandBLAS/skge.hh:560-800", "rtd/source/updates/index.rst:29-33", "rtd/source/tutorial/distributions.rst:165-200"]}
{"id": "C121", "title": "Sketches with dense operators have the largest possible rank", "statement": "The sketch of op(A) with a d-row (or d-column) window of a dense operator has rank min{d, rank(op(A))}, except with a probability of at most min{d, rank(op(A))} times 2^-31 (Gaussian entries from 32-bit words) or 2^-32 (uniform entries), for every matrix A and without any condition on d. The same holds for sparse data.", "quantifier": "all data matrices of any size and rank, both sides, layouts, transposes, windows, both families and major axes; probability over all generator outputs", "why_tests_cant": "a statement about all data matrices and a failure probability of order 1e-10 that no sampling experiment can resolve", "anchors": ["rtd/source/tutorial/distributions.rst:44-52", "RandBLAS/skge.hh:560-800", "RandBLAS/sparse_data/sksp.hh", "RandBLAS/dense_skops.hh:60-240"]}
{"id": "C122", "title": "The low-rank programs are exact with k = rank(A)", "statement": "If A has rank at most k, the sparse low-rank programs compute a singular value decomposition of A itself from a sketch with k columns, for every A and every number of passes, except with a probability of at most rank(A) times 2^-31. No oversampling is needed.", "quantifier": "all sparse matrices of rank at most k, all numbers of passes, sizes and seeds; probability over all generator outputs", "why_tests_cant": "a statement about all low-rank matrices with a failure probability of order 1e-9", "anchors": ["examples/sparse-low-rank-approx/svd_matrixmarket.cc", "examples/sparse-low-rank-approx/svd_rank1_plus_noise.cc"]}
{"id": "C123", "title": "The pivoted QR program succeeds for every matrix of rank at least k", "statement": "For every sparse matrix of rank at least k the pivoted QR program computes a truncated QR decomposition with column pivoting, without division by zero and without reading or writing out of bounds, except with a probability of at most k^2 times 2^-30. The program samples its Gaussian matrix in row-major order and reads it in column-major order, which does not spoil this.", "quantifier": "all sparse matrices of rank at least k, all numbers of passes, all supported stabilisers, sizes and seeds; probability over all generator outputs", "why_tests_cant": "a statement about all matrices with a failure probability of order 1e-9", "anchors": ["examples/sparse-low-rank-approx/qrcp_matrixmarket.cc"]}
{"id": "C124", "title": "The product tests compare with the documented product", "statement": "The helpers of the product tests compute what they claim. An explicit copy of an operator is its matrix. The references are alpha*op(submat(S))*op(A) + beta*B and alpha*op(A)*op(submat(S)) + beta*B for every operator, window, layout, transposition, leading dimension and scalar. A random-data test accepts a product routine exactly if every entry of its result is within a stated tolerance of the exact product, and otherwise reports an offending entry; an identity test accepts exactly if the result is close to alpha*submat(S) + beta*B or to the transpose of S. The products of the library pass, and the tolerance admits correctly rounded results.", "quantifier": "all dense and sparse operators and sparse matrices, windows, layouts, transpositions, sizes, scalars, seeds, and all programs under test", "why_tests_cant": "The tests are used as evidence that the library is right; whether the evidence is sound is a statement about all programs they might be run on.", "anchors": ["test/test_matmul_cores/linop_common.hh:63-127", "test/test_matmul_cores/linop_common.hh:183-373", "test/test_matmul_cores/linop_common.hh:374-457", "test/test_matmul_cores/linop_common.hh:506-573", "test/test_matmul_cores/linop_common.hh:575-698"]}
{"id": "C125", "title": "The distortion test accepts embeddings and rejects the others", "statement": "The subspace-distortion test never fails for a sampled matrix whose scaled singular values are all within the distortion, whatever its start vectors and number of iterations. If it passes, then the largest and smallest singular values are within the distortion up to the tolerance of the power method, provided that the start vectors are not nearly orthogonal to the extremal singular vectors, for the number of iterations it computes. Over random words, the test fails with a probability exponentially small in the number of rows. The number of columns that it uses is the smallest one with the inequality that its comment states. The number of iterations is at least the number that its bounds ask for.", "quantifier": "all sizes, seeds, families, distortions, tolerances, numbers of iterations and generators", "why_tests_cant": "The test is run for a few seeds and sizes; that a pass means anything is a statement about all matrices and start vectors.", "anchors": ["test/test_basic_rng/test_distortion.cc:49-117", "test/handrolled_lapack.hh:214-300"]}
{"id": "C126", "title": "Sparse test data and conversion tests", "statement": "The random sparse matrices of the tests have independent entries; each is zero with the requested probability and otherwise the entry of a uniform operator, and nothing outside the matrix is written. The COO matrix made from a diagonal has the given values on the diagonal with the given offset, each once, and zeros elsewhere; diagonals that do not fit in the matrix are refused. The conversion tests accept the conversions of the library: diagonal matrices of every size and offset survive the conversion from COO to CSC or CSR and from there to dense, and random sparse matrices survive the conversion to CSC, CSR or COO and back, in both layouts.", "quantifier": "all sizes, offsets, layouts, strides, probabilities, seeds, schedules and generators", "why_tests_cant": "The tests run on a few small sizes with one seed; that the data has the intended law and that the conversions are right are statements about all of them.", "anchors": ["test/test_datastructures/test_spmats/common.hh:48-131", "test/test_datastructures/test_spmats/test_csc.cc:50-110", "test/test_datastructures/test_spmats/test_csr.cc:75-134", "test/test_datastructures/test_spmats/test_coo.cc:72-88"]}
{"id": "C127", "title": "What an error says", "statement": "An error that is raised because a condition of the library does not hold carries the text of the condition and the name of the function; an error with a formatted message carries the message. If a matrix is not symmetric up to the tolerance, the error names the first pair of positions that violates the check, with the violation and the tolerance. A condition that holds raises no error.", "quantifier": "all conditions, texts, function names and messages; all matrices, orders, layouts, strides and tolerances", "why_tests_cant": "The tests look for three short texts; whether a message is complete, whether the positions are the right ones and whether formatting it is defined depends on its length, on the order of the matrix and on the types of the arguments.", "anchors": ["RandBLAS/exceptions.hh:57-101", "RandBLAS/exceptions.hh:111-147", "RandBLAS/exceptions.hh:185-199", "RandBLAS/util.hh:126-147"]}
{"id": "C128", "title": "Transposition, sort-order, diagonal and operator-conversion tests", "statement": "The tests that transpose a random CSR matrix as CSC and a random CSC matrix as CSR, as a view and as a copy, that expand a diagonal CSR matrix, and that compare a sketching operator with its COO view accept the library for every size, probability, seed and axis. The test that sorts a random COO matrix in CSC, CSR and CSC order accepts it as well.", "quantifier": "all sizes, probabilities, seeds, generators, axes, numbers of nonzeros, schedules and sorting routines that sort", "why_tests_cant": "The tests run for a few small sizes and seeds; that they raise no false alarm for other ones, and for which ones they do, are statements about all sizes and seeds.", "anchors": ["test/test_datastructures/test_spmats/test_conversions.cc:48-102", "test/test_datastructures/test_spmats/test_coo.cc:44-166", "test/test_datastructures/test_spmats/test_csr.cc:51-73"]}
{"id": "C129", "title": "The sample of a sparse operator depends on its distribution and its seed only", "statement": "Filling a sparse operator does not depend on what its arrays contain before or on who owns them: operators with the same distribution and seed state get the same number of nonzeros and the same triples in the same order. Filling an operator again changes nothing. Filling three arrays of the user with the unpacked routine gives the same triples as filling an operator, and the state it returns is the next state that the operator announces.", "quantifier": "all distributions, axes, seeds, generators, contents and owners of the arrays", "why_tests_cant": "Tests fill new or zeroed arrays; that no element of the result is left over from before, for all contents and sizes and with merged duplicates, is a statement about all runs.", "anchors": ["RandBLAS/sparse_skops.hh:429-580"]}
{"id": "C130", "title": "The tests of sparse operators accept the library and reject duplicates", "statement": "The helper that checks for a fixed number of nonzeros per row or column accepts an array exactly if the indices of each vector are distinct and otherwise names the first duplicate. The construction tests accept all short-axis and long-axis operators of the library; the test of the unpacked routine and the ownership test accept them as well.", "quantifier": "all dimensions, numbers of nonzeros, seeds and generators", "why_tests_cant": "The tests run for four numbers of nonzeros and three keys; whether they raise false alarms for other ones is a statement about all sizes and seeds.", "anchors": ["test/test_datastructures/test_sparseskop.cc:57-172"]}
{"id": "C131", "title": "The tests of dense operators accept the library", "statement": "For every generator and seed: the reference matrix of the tests is the matrix of the documented counter layout; the tests that compare windows of an operator with windows of the reference matrix find no difference and end; the result of filling does not depend on the number of threads; operators with exchanged dimensions are transposes of each other in opposite layouts; an operator made of two halves, the second from the next state of the first, equals the whole operator; and the computed next state is the one that filling returns.", "quantifier": "all sizes, windows, positions, families, seeds, generators and thread schedules", "why_tests_cant": "Each test runs a few sizes and three keys; that no size, key or schedule gives a false alarm or an endless loop is a statement about all of them.", "anchors": ["test/test_datastructures/test_denseskop.cc:38-70", "test/test_datastructures/test_denseskop.cc:165-260", "test/test_datastructures/test_denseskop.cc:300-465"]}
{"id": "C132", "title": "Sketching vectors, symmetric and sparse data preserves geometry too", "statement": "What C81, C93, C95 and C96 say of sketch_general holds for the other entry points: with alpha squared equal to one over the sketch size and a new dense operator, sketch_sparse from either side, sketch_vector and sketch_symmetric from either side return a matrix whose norms and pairwise distances are, within the stated accuracy and outside a set of words of the stated probability, those of the data, and which embeds the span of the data; with a new sparse operator and its isometry scale sketch_vector keeps the squared norm on average (short axis) and within the stated accuracy with the stated probability.", "quantifier": "all data, sizes, submatrices, strides and leading dimensions, sparse formats with a supported product, families, accuracies, and all assignments of words to counters", "why_tests_cant": "The claim is about the distribution over all words and about all data; tests check the products for a few seeds and never the geometry.", "anchors": ["RandBLAS/sparse_data/sksp.hh", "RandBLAS/skve.hh", "RandBLAS/sksy.hh", "RandBLAS/skge.hh"]}
{"id": "C133", "title": "The tests of sketch_vector and sketch_symmetric accept a correct library", "statement": "For every size, stride, leading dimension, scalars, side and axis the test helpers for sketch_vector and sketch_symmetric report no difference: the results equal gemv and symm with the filled operator, from either side and in either layout. Whatever implementation is tested, the helpers report a difference exactly if the result differs from that product. The random symmetric matrix the tests use is symmetric and, as its comment says, its upper triangle holds the entries of the leading block of a random operator.", "quantifier": "all sizes, strides, leading dimensions, scalars, sides, axes, generators, schedules, seeds and nonnegative absolute tolerances", "why_tests_cant": "The tests run for a few sizes and seeds; whether a helper can report a false difference, or silently test less than it says, is a statement about all of them.", "anchors": ["test/test_matmul_wrappers/test_sketch_vector.cc", "test/test_matmul_wrappers/test_sketch_symmetric.cc", "test/comparison.hh", "RandBLAS/skve.hh", "RandBLAS/sksy.hh"]}
{"id": "C134", "title": "The tests of sketch_sparse accept a correct library and find every difference", "statement": "The helpers behind the sketch_sparse tests sketch a sparse identity matrix and compare with the operator itself. Whatever implementation is tested, they report a difference exactly if some entry of the result is not close to the corresponding entry of alpha * submat(S) + beta * B, or of the transpose of S. The library passes them from both sides, in both layouts, for every window and for operators that have been filled or not. The sparse identity is the identity for every order that fits in an int; above that building it is undefined. The left submatrix fixture raises an error unless the window is smaller than the operator in both directions.", "quantifier": "all sizes with the order of the identity at most the largest int, all windows, layouts, scalars, generators, schedules, seeds and nonnegative absolute tolerances; all implementations under test for the comparison", "why_tests_cant": "The tests run for a few sizes and seeds; that a helper can neither report a false difference nor miss one is a statement about all of them.", "anchors": ["test/test_matmul_wrappers/test_sketch_sparse.cc", "test/comparison.hh", "RandBLAS/sparse_data/sksp.hh"]}
{"id": "C135", "title": "The tests of the dense factorisations accept correct routines and find every difference", "statement": "The test helpers for the small dense linear algebra routines (Cholesky, Cholesky QR, block Gram-Schmidt, Cholesky iteration, power method) compare what they say they compare, whatever routine is tested: the product of the triangular factor with itself against the Gram matrix, Q^T Q against the identity, Q R against the data within a componentwise bound, and the returned eigenvalues against the known ones. They report a difference exactly if there is one. The routines that come with the tests pass in exact arithmetic for every size and block size if the random matrix has independent columns. The generator of random matrices with given eigenvalues returns a symmetric positive definite matrix with exactly these eigenvalues and rejects eigenvalues that are not positive.", "quantifier": "all sizes whose element counts fit in an int, all block sizes, generators, schedules, seeds and tolerances; all routines under test for the comparisons", "why_tests_cant": "The tests run for a few sizes and seeds; that they can neither report a false difference nor miss one is a statement about all of them and about all routines.", "anchors": ["test/test_handrolled_lapack.cc:25-81", "test/test_handrolled_lapack.cc:132-204", "test/test_handrolled_lapack.cc:244-283", "test/test_handrolled_lapack.cc:306-329"]}
{"id": "C136", "title": "The tests of sparse products accept a correct library and find every difference", "statement": "The fixtures of the sparse-times-dense tests run left_spmm and right_spmm on a random matrix with small entries removed, in each of the three sparse formats, and compare with dense arithmetic on the same numbers. The test matrix is, in every format, the random matrix with the entries up to the threshold set to zero, and a probability outside the unit interval is rejected. Whatever product is tested, each of the twelve fixtures (identity, scalars, windows of the sparse and of the dense factor, transposes of either, from the left and from the right) reports a difference exactly if some entry of the result is outside the tolerance around the dense result. The library passes all of them.", "quantifier": "all sizes, windows, layouts, scalars, thresholds, keys, generators, schedules and tolerances; the three formats; all products under test for the comparison", "why_tests_cant": "The tests run for a few sizes and keys; that a fixture can neither report a false difference nor miss one is a statement about all of them and about all implementations.", "anchors": ["test/test_matmul_cores/test_spmm/spmm_test_helpers.hh:43-196", "test/test_matmul_cores/test_spmm/test_spmm_coo.cc:40-49", "test/test_matmul_cores/test_spmm/test_spmm_csc.cc:41-50", "test/test_matmul_cores/test_spmm/test_spmm_csr.cc:41-50", "test/test_matmul_cores/linop_common.hh"]}
{"id": "C137", "title": "The tests of the sketching kernels accept a correct library and find every difference", "statement": "The fixtures for products with dense and sparse sketching operators (sketch_eye, apply, transpose_S, submatrix_S, submatrix_A, alpha_beta, transpose_A, from the left and from the right) make an operator from a key, filled or not, and compare its product with dense arithmetic on the matrix it represents. The operator is made without an error for every valid size, and its matrix is determined by the distribution and the key. Whatever product is tested, each fixture reports a difference exactly if some entry of the result is further from the exact product than the tolerance, and leaves no undefined behaviour of its own. The library passes every fixture with a dense operator, and every fixture with a sparse operator whose short-axis vectors guarantee a nonzero outside the first column (row, from the right) of the window used. Windows that are not smaller than the operator, or operators with no or too many nonzeros per vector, are rejected with an error.", "quantifier": "all sizes, windows, layouts, scalars, major axes, nonzero counts, keys, generators and tolerances; all products under test for the comparison", "why_tests_cant": "The tests run for a few sizes and keys; that a fixture can neither report a false difference nor miss one is a statement about all of them and about all implementations.", "anchors": ["test/test_matmul_cores/test_lskge3.cc:45-108", "test/test_matmul_cores/test_rskge3.cc:46-104", "test/test_matmul_cores/test_lskges.cc:49-149", "test/test_matmul_cores/test_rskges.cc:49-99", "test/test_matmul_cores/linop_common.hh"]}
{"id": "C138", "title": "The histogram test and the tests of the error macros decide what they claim to", "statement": "The uniform-histogram test draws the first 1000 blocks of a generator, converts the words, sorts the numbers into 26 equal bins of [-1, 1] and compares the text of the counts with a reference. In exact arithmetic it runs without undefined behaviour for every generator and passes exactly if every count is that of the reference; every number is counted once. In single precision it writes past the end of its array as soon as one of the words is so large that the converted number rounds to 1. The tests of randblas_require and randblas_error_if_msg pass for every condition text, function name and message of at most 255 characters without conversions, and pass only if an error with this text was raised.", "quantifier": "all generators, keys, conversions, word widths and references; all condition texts, messages and function names", "why_tests_cant": "The test is run for one generator at a time with the key zero, and only against one recorded text; that it is in bounds and can neither miss nor invent a difference is a statement about all generators.", "anchors": ["test/test_basic_rng/test_r123.cc:568-607", "test/test_exceptions.cc:14-46", "RandBLAS/exceptions.hh:115-199"]}
{"id": "C139", "title": "The test of the mean and standard deviation of dense operators measures them, and rarely fails for ideal words", "statement": "The test fills an operator and checks the mean and the standard deviation of its entries. It runs without undefined behaviour for every size and generator; the first check holds exactly if the mean of the entries that fill_dense writes is within the tolerance of zero, the second exactly if there is more than one entry and the square root of their sample variance is within the tolerance of the expected value. For ideal words the sample mean is zero on average, its mean square is the mean square of an entry divided by the number of entries, and the sample variance is on average the mean square of an entry, so that the expected values of the test are right. The share of the choices of words for which a check fails is bounded; for the fixtures it is at most 14 % (500 x 500), 34 % (203 x 503) and 83 % (203 x 203).", "quantifier": "all sizes, generators, seeds, schedules, tolerances and expected values; for the shares, all conversions of words with the stated symmetry and moments", "why_tests_cant": "The test is run with three keys; that it computes these statistics, and how likely a correct library is to fail it, are statements about all generators and all words.", "anchors": ["test/test_datastructures/test_denseskop.cc:97-158", "RandBLAS/dense_skops.hh:304-321"]}
{"id": "C140", "title": "The tests of index sampling decide what they are meant to, and pass for the library except for one or two words", "statement": "Each test of sampling with and without replacement is characterised in terms of the uniform values behind the samples. The range test passes exactly if no value is 1 and otherwise reports the first one. The Kolmogorov-Smirnov tests draw the tabulated number of samples and pass exactly if for every index the share of uniform values below the distribution function there is within the critical value of it. The test of degenerate distributions (no index of weight zero is drawn; a small negative weight is clipped) passes exactly if no value is 0. The tests of the returned states pass for all generators, offsets and numbers of samples without overflow of the 32-bit word; for other samplers their outcome depends only on how far the counter is advanced, and a sampler that never advances it passes. Drawing r1 and then r2 times without replacement gives the same indices and state as drawing r1 + r2 times, so that test passes. The Kolmogorov-Smirnov test of sampling without replacement passes for k of n indices exactly if the share of draws with at most c indices below k is within the critical value of the hypergeometric probability, for every c; its loop over k ends, and includes every k up to 10.", "quantifier": "all generators with uniform values in the stated interval, all seeds, numbers of indices and samples, weights, significance levels and offsets (in the documented ranges)", "why_tests_cant": "The tests are run with a few seeds and sizes. Which streams make them fail, and which wrong samplers they accept, are statements about all streams and samplers.", "anchors": ["test/test_basic_rng/test_discrete.cc:73-83", "test/test_basic_rng/test_discrete.cc:103-214", "test/test_basic_rng/test_discrete.cc:246-329", "RandBLAS/util.hh:418-520", "RandBLAS/sparse_skops.hh:236-241"]}
{"id": "C141", "title": "The tests of the scalar distributions decide how far the generated values are from the law they stand for", "statement": "For a number of samples and a significance level in the tables, the test fills a vector with the tabulated number of values, without undefined behaviour or an error, and passes exactly if for every real x the share of values that are at most x is within the critical value of the probability of at most x: under the uniform law on [-1, 1] for the values of the uniform family (before their scaling by sqrt 3), under the standard normal law for those of the Gaussian family. Value t is made from the words at counter t / len of the given state. Outside the tables the test is an error. The outcome does not depend on the order of the values, so dependent values can pass.", "quantifier": "all generators, states, schedules of the parallel fill, numbers of samples and significance levels", "why_tests_cant": "The test itself is run with a few seeds and looks at the finitely many sample points. That it decides a statement about all reals, for every stream, is not something a run can show.", "anchors": ["test/test_basic_rng/test_continuous.cc:55-120", "RandBLAS/dense_skops.hh:304-321", "RandBLAS/dense_skops.hh:538-601"]}
{"id": "C142", "title": "The tests of printing write the matrices their labels describe", "statement": "The tests of printing compare their output with nothing. What they write is: for the small matrices, the label and the right number of rows and columns of pi with 9 digits; for the larger ones, with any sizes of at least 2, matrices of pi with 3 digits where the one negative number is in the first column (second row) of the first matrix and in the first row (second column) of the others, as the labels say, and the third matrix is the transpose of the first. Nothing outside the vector is read.", "quantifier": "all formats of numbers, both styles, all sizes of at least 2, all previous contents of the stream", "why_tests_cant": "The tests are inspected by eye (a comment in the file says so); no assertion is made.", "anchors": ["test/test_io.cc:22-66", "RandBLAS/util.hh:186-249"]}
