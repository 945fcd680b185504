{
 "C02": {
  "note": "Debug builds: proved in full. Release builds: FALSE of the code (C02_refuted_release, any even word size); the part with r*c < 2^w is proved (C02_new_release_partial).",
  "status": "partial"
 },
 "C03": {
  "note": "Equal-length literals: proved. The second half (ragged literals are rejected) is FALSE of the code: refuted by a ragged literal that is accepted.",
  "status": "partial"
 },
 "C14": {
  "note": "Exact characterisation for debug builds (C14_mt_debug); FALSE beyond rows*(rows*cols-2) < 2^w: debug panics, release does not terminate on a column vector of 2^(w-1) elements.",
  "status": "partial"
 },
 "C18": {
  "note": "FALSE of the code: out-of-range blocks are accepted and wrap to the next row, the full block is rejected. The exact acceptance condition is proved (C18_accepts_iff_partial).",
  "status": "partial"
 },
 "C22": {
  "note": "FALSE of the code as stated: permute_rows(&[]) and zero(0,n) return a matrix without rows, whose cols() panics (C22_refuted_permute, C22_refuted_zero), and get_mut_data lets the caller store any number of elements (C22_refuted_raw). Proved for all histories whose raw writes keep the length: rows are always complete (C22_rectangular_partial); full well-formedness when moreover no call asks for an empty matrix (C22_wf_partial). Histories cover all of matrix.rs, m!, read_csv, LU, Cholesky, QR, SVD::new, SVD::direct, EigenDecomposition; any element operations (laws of signs where eigenvalues are computed).",
  "status": "partial"
 },
 "C23": {
  "note": "FALSE of the code as stated: after get_mut_data().push(..), cr() returns a matrix containing memory that was never written (C23_refuted_raw). Proved for all histories whose writes through get_mut_data keep the number of elements (C23_no_uninit_partial), over matrix.rs, m!, read_csv, LU, Cholesky, QR, SVD::new, SVD::direct and EigenDecomposition, with arbitrary element operations (NaN included); assumptions: element operations themselves do not read uninitialised memory (class Clean) and, only where eigenvalues are computed, the laws of signs (class Signs, shown for reals and IEEE doubles).",
  "status": "partial"
 },
 "C27": {
  "note": "FALSE of the code for non-integer p with a negative entry (C27_refuted_negative_entry: |x^p| is computed, x^p has no real value); proved for nonnegative vectors and for integer p (C27_pnorm_partial).",
  "status": "partial"
 },
 "C28": {
  "note": "Exact arithmetic over any linearly ordered field; C29's bound is part of C28_lu.",
  "status": "proved"
 },
 "C33": {
  "note": "FALSE of the code for tall systems: C33_refuted_tall shows every returned X has m rows (only its first n rows solve n of the equations). Wide systems are rejected (None or an index panic): C33_wide_partial.",
  "status": "partial"
 },
 "C36": {
  "note": "FALSE of the code for every tall matrix (C36_refuted_tall: the last m-n columns of get_q() are zero); proved for square and wide matrices (C36_orthogonal_partial); the first n columns are orthonormal (C36_columns_partial).",
  "status": "partial"
 },
 "C37": {
  "note": "FALSE of the code for wide matrices (C37_refuted_wide: index panic); proved for rows >= cols (C37_isFullRank_partial).",
  "status": "partial"
 },
 "C38": {
  "note": "FALSE of the code: every tall full-rank system panics (C38_refuted_tall); for square nonsingular systems solve is right for all right-hand sides if and only if every diagonal entry of the triangular factor is -1 (C38_square_iff; wrong normalisation of the Householder vectors), so it is wrong for every matrix with determinant other than 0, 1, -1 (C38_refuted_det; 2x=2 is 'solved' by x=3, C38_refuted_square). Proved: None on rank deficiency, result shape, row mismatch panics.",
  "status": "partial"
 },
 "C42": {
  "note": "Exact real arithmetic (square roots exact); total correctness including termination of the implicit QR iteration (Wilkinson shift: M = (e[p-2]s[p-1])^2*|e[p-3]s[p-2]| shrinks by 4/5 per step until an entry is below the absolute tolerance).",
  "status": "proved"
 },
 "C43": {
  "note": "Exact real arithmetic; bound counts at most min(m,n)-1 deflations.",
  "status": "proved"
 },
 "C44": {
  "note": "FALSE of the code for every tall matrix (C44_refuted_tall: rank() panics); proved for rows <= cols (C44_rank_partial).",
  "status": "partial"
 },
 "C45": {
  "note": "Exact real arithmetic; excludes every panic, division by zero and uninitialised read.",
  "status": "proved"
 },
 "C46": {
  "note": "Exact real arithmetic; stronger than stated: termination and get_d() included.",
  "status": "proved"
 },
 "C47": {
  "note": "FALSE of the code for tall matrices (C47_refuted_tall: the rows below the leading square block are silently ignored); wide matrices panic (C47_wide_partial).",
  "status": "partial"
 },
 "C48": {
  "note": "Exact real arithmetic; excludes every panic, division by zero and uninitialised read.",
  "status": "proved"
 },
 "C56": {
  "note": "Exact real arithmetic; total correctness including termination of the QL iteration (Wilkinson shift).",
  "status": "proved"
 },
 "C59": {
  "note": "FALSE of the code: zero matrices (and any matrix for which a computed eigenvalue of A'A is 0) panic in unwrap (C59_refuted_zero); for tall matrices U is never orthogonal, its last m-n columns are zero (C59_refuted_tall). Proved: exact reconstruction U*S*V' = A, V orthogonal, first n columns of U orthonormal up to an explicit bound, whenever the computed eigenvalues are positive (C59_direct_partial), in particular for well-conditioned full-rank matrices (C59_well_conditioned_partial); wide matrices reduce to their transposes (C59_wide).",
  "status": "partial"
 },
 "C61": {
  "note": "Any arithmetic satisfying the standard model Fp; Bin F shows binary formats with gradual underflow and overflow satisfy it.",
  "status": "proved"
 },
 "C62": {
  "note": "Any arithmetic satisfying the standard model Fp. The error bound assumes the factors are finite; C62_finite gives a sufficient condition.",
  "status": "proved"
 },
 "C63": {
  "note": "Any arithmetic satisfying the standard model Fp. The bound assumes the factors and the result are finite.",
  "status": "proved"
 },
 "C64": {
  "note": "Any arithmetic satisfying the standard model Fp. C64_accepts gives a sufficient condition for acceptance and finiteness.",
  "status": "proved"
 },
 "C65": {
  "note": "The model bounds iterations by a budget; this shows that the budget does not influence the outcome.",
  "status": "proved"
 },
 "C66": {
  "note": "F64 is an instance. Left-over work variables of the back-substitution are a parameter of the model (C70).",
  "status": "proved"
 },
 "C67": {
  "note": "Non-termination for all-NaN matrices over any arithmetic with the laws of NaN; the finite example is evaluated by the kernel on IEEE binary64 (Verif/IEEE.lean) up to the NaN state, then the general theorem applies.",
  "status": "proved"
 },
 "C68": {
  "note": "As C67.",
  "status": "proved"
 },
 "C69": {
  "note": "Any arithmetic with total division and square root and the laws of signs; F64 is an instance.",
  "status": "proved"
 },
 "C70": {
  "note": "newWith takes the stale values as a parameter, one triple per vector; new is newWith with zeros, so every theorem about new transfers.",
  "status": "proved"
 },
 "C71": {
  "note": "Products: proved in full (C71_mul, both build modes). Debug builds: proved for the constructors (C71_debug; zero is the zeroing part of id, see also C02_new_debug). Release builds: FALSE of the code for zero (C02_refuted_release_zero), random (C71_refuted_random), and id/block_diag with more rows than columns (C71_refuted_id: id(2^63+3, 2) stores 6 elements); proved for diag and for id/block_diag with rows <= columns (C71_release_partial).",
  "status": "partial"
 },
 "C78": {
  "status": "proved",
  "note": "The module is commented out of the crate and does not compile; modelled as written (see Verif/Model/Power.lean)."
 },
 "C79": {
  "status": "partial",
  "note": "FALSE of the code: for a negative dominant eigenvalue the iterates alternate in sign and the call never returns (C79_refuted_negative, for every tolerance below 2); max_elem reads element 1 over and over, so an eigenvector that is zero in its first two elements is never reached (C79_refuted_head: diag(1,1,2)). Proved for a positive dominant eigenvalue whose eigenvector has a nonzero element among the first two, if no iterate has zeros there (C79_converges_partial). In floating point a NaN in the start vector is never left (C79_nan)."
 },
 "C80": {
  "status": "partial",
  "note": "FALSE of sub_matrix in release builds: it checks only the differences of its arguments, so start_row = 2^63 on a matrix with two columns wraps to row 0 and a block outside the matrix is returned (C80_refuted_subMatrix; in a debug build, or without wrapping, the call panics). Proved for sub_matrix in debug builds and whenever the first index does not wrap, and for all the other functions in both builds."
 },
 "C82": {
  "status": "partial",
  "note": "FALSE of mt in debug builds: it holds one element in a local variable while the product no_rows * idx can overflow, so a caught overflow panic loses an element (C82_refuted_mt: 2^h rows and two columns on a 2h-bit machine; the element is overwritten by another one). What does hold for mt (C82_mt): shape and number of elements are as before and every element is one of the old ones. Everything else is proved for all closures, element types and points of panic. Closures that panic in destructors or abort are not modelled."
 },
 "C81": {
  "status": "proved",
  "note": "Effects are modelled by a state monad over an arbitrary world; runs are compared as functions of the world with List.mapM / foldlM."
 },
 "C84": {
  "status": "proved",
  "note": "Integer types are modelled as integers with a range, overflow and division as Rust documents them (trusted)."
 },
 "C89": {
  "status": "proved",
  "note": "The condition on subnormal entries is needed: on [0,x,0;0,0,0;0,0,0] with x = 2^-1074 the call never returns (C89_refuted_subnormal), because the negligibility threshold eps*norm rounds to 0."
 },
 "C100": {
  "status": "proved",
  "note": "Standard model without overflow and underflow. The assumption is needed: for f64 and a column of subnormal numbers U is far from orthogonal (C100_refuted_subnormal)."
 },
 "C105": {
  "status": "proved",
  "note": "Standard model without overflow and underflow. The assumption is needed: for f64 and a matrix of subnormal numbers the eigenvalues and eigenvectors are far off (C105_refuted_subnormal)."
 },
 "C106": {
  "status": "proved",
  "note": "Standard model without overflow and underflow; eigenvalues only (the returned eigenvectors of nonsymmetric matrices in rounded arithmetic are not covered). The iteration need not converge, so returning is a hypothesis."
 },
 "C107": {
  "status": "proved",
  "note": "Rounded version: standard model without overflow and underflow."
 },
 "C108": {
  "status": "proved",
  "note": "Standard model without overflow and underflow, with commutative products and no roots of negative numbers. The conditions are needed: C108_refuted_panic (f64, full rank, panics), C108_refuted_orthogonal (U far from orthogonal)."
 },
 "C109": {
  "status": "proved",
  "note": "Exact arithmetic over any linearly ordered field."
 },
 "C110": {
  "status": "proved",
  "note": "f64 with overflow and gradual underflow. No hypothesis about computed quantities."
 },
 "C111": {
  "status": "proved",
  "note": "f64 with overflow and gradual underflow. No hypothesis about computed quantities."
 },
 "C112": {
  "status": "proved",
  "note": "f64 with overflow and gradual underflow. No hypothesis about computed quantities. The hypothesis on the smallest singular value excludes numerically rank-deficient matrices, for which C77 still applies."
 },
 "C113": {
  "status": "proved",
  "note": "f64. C113_pinverse: pinverse succeeds, is finite, and close to the exact Moore-Penrose inverse; hypotheses and bound only about the given matrix. C113_left_inverse and C113_least_squares are consequences (z is characterised as a minimiser of |b - A z|, not by a formula). C103 remains the statement for any Fp arithmetic and with the computed factors; C103_refuted_panics shows that a condition on the squared condition number is needed."
 },
 "C114": {
  "status": "proved",
  "note": "f64. C114_result: a stopping step is an approximate eigenpair with positive mu, whatever happened in the steps before (overflow included: a step with an infinity or NaN does not pass the comparison). C114_symmetric: an exact eigenvalue within the residual. Nothing is claimed about termination or which eigenvalue (C79 and its refuted statements)."
 },
 "C115": {
  "status": "proved",
  "note": "C115_exact and C115_f64: the shape of the factors (BandFactors), no nonsingularity assumed. C115_hessenberg, C115_tridiagonal: growth, exact arithmetic; examples attain both bounds."
 },
 "C116": {
  "status": "proved",
  "note": "C116_factors, C116_residual, C116_solve, C116_inverse, C116_det (given a bound on the inverse), C116_dominant (row dominance, no hypothesis on an inverse) and C116_none; example: the spline matrix 4, 1 for n up to 32768."
 },
 "C117": {
  "status": "proved",
  "note": "C117_factors, C117_solve, C117_inverse, C117_det; no hypothesis on an inverse. Example: the spline matrix for n up to 32768 (det: 200)."
 },
 "C118": {
  "status": "proved",
  "note": "C118_singular, C118_bounded, C118_qr; C118_equal_columns shows that a repeated column is not recognised, an example that det can be NaN."
 },
 "C119": {
  "status": "proved",
  "note": "C119_inverse, C119_tests, C119_det_qr, C119_cholesky, C119_gram."
 },
 "C120": {
  "status": "proved",
  "note": "C120_svd_stable, C120_svd_transpose, C120_svd_norm, C120_eigen_stable, C120_eigen_range, C120_symmetric, C120_gram, C120_direct."
 },
 "C121": {
  "status": "proved",
  "note": "C121_factors, C121_singular, C121_solve, C121_inverse, C121_det, C121_qr, C121_cholesky, C121_cholesky_solve, C121_mul; counterexamples for row scaling and for QRDecomposition::solve."
 },
 "C122": {
  "status": "proved",
  "note": "C122_eigen (the whole outcome, fuel exhaustion included), C122_get (get_d)."
 },
 "C123": {
  "status": "proved",
  "note": "C123_norms, C123_arith, C123_power, C123_pinverse; counterexample for is_symmetric."
 },
 "C124": {
  "status": "proved",
  "note": "C124_profile, C124_blocks, C124_first, C124_solve."
 },
 "C125": {
  "status": "proved",
  "note": "C125_mul, C125_lu, C125_cholesky."
 }
}