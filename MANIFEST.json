{
 "claims": [
  {
   "property": "C01",
   "status": "proved",
   "theorems": [
    "LA.Props.C01_new_spec",
    "LA.Props.C01_new_panics",
    "LA.Props.C01_new_ofM",
    "LA.Props.C01_vector",
    "LA.Props.C01_rowVector",
    "LA.Props.C01_constructible_iff"
   ],
   "note": ""
  },
  {
   "property": "C02",
   "status": "partial",
   "theorems": [
    "LA.Props.C02_new_debug",
    "LA.Props.C02_new_release_partial",
    "LA.Props.C02_refuted_release",
    "LA.Props.C02_refuted_release_zero"
   ],
   "note": "Debug builds: proved in full. Release builds: FALSE of the code (C02_refuted_release, any even word size); the part with r*c < 2^w is proved (C02_new_release_partial)."
  },
  {
   "property": "C03",
   "status": "partial",
   "theorems": [
    "LA.Props.C03_macro_rectangular",
    "LA.Props.C03_macro_accepts_iff",
    "LA.Props.C03_ragged_literal_accepted"
   ],
   "note": "Equal-length literals: proved. The second half (ragged literals are rejected) is FALSE of the code: refuted by a ragged literal that is accepted."
  },
  {
   "property": "C04",
   "status": "proved",
   "theorems": [
    "LA.Props.C04_get",
    "LA.Props.C04_get_forms",
    "LA.Props.C04_set",
    "LA.Props.C04_getMrefWrite",
    "LA.Props.C04_get_set"
   ],
   "note": ""
  },
  {
   "property": "C05",
   "status": "proved",
   "theorems": [
    "LA.Props.C05_id",
    "LA.Props.C05_id_square",
    "LA.Props.C05_zero",
    "LA.Props.C05_diag",
    "LA.Props.C05_blockDiag",
    "LA.Props.C05_blockDiag_panics",
    "LA.Props.C05_zeroVector",
    "LA.Props.C05_oneVector"
   ],
   "note": ""
  },
  {
   "property": "C06",
   "status": "proved",
   "theorems": [
    "LA.Props.C06_map",
    "LA.Props.C06_mmap",
    "LA.Props.C06_map_id",
    "LA.Props.C06_map_map"
   ],
   "note": ""
  },
  {
   "property": "C07",
   "status": "proved",
   "theorems": [
    "LA.Props.C07_reduce",
    "LA.Props.C07_reduce_panics"
   ],
   "note": ""
  },
  {
   "property": "C08",
   "status": "proved",
   "theorems": [
    "LA.Props.C08_add",
    "LA.Props.C08_sub",
    "LA.Props.C08_elemMul",
    "LA.Props.C08_elemDiv",
    "LA.Props.C08_neg",
    "LA.Props.C08_scale",
    "LA.Props.C08_shape_mismatch"
   ],
   "note": ""
  },
  {
   "property": "C09",
   "status": "proved",
   "theorems": [
    "LA.Props.C09_mutating_agree"
   ],
   "note": ""
  },
  {
   "property": "C10",
   "status": "proved",
   "theorems": [
    "LA.Props.C10_mul_general",
    "LA.Props.C10_mul",
    "LA.Props.C10_mul_panics"
   ],
   "note": ""
  },
  {
   "property": "C11",
   "status": "proved",
   "theorems": [
    "LA.Props.C11_transpose_mul",
    "LA.Props.C11_add_comm",
    "LA.Props.C11_add_assoc",
    "LA.Props.C11_zero",
    "LA.Props.C11_mul_assoc",
    "LA.Props.C11_id",
    "LA.Props.C11_distrib",
    "LA.Props.C11_scale",
    "LA.Props.C11_sub_eq_add_neg",
    "LA.Props.C11_operator_forms"
   ],
   "note": ""
  },
  {
   "property": "C12",
   "status": "proved",
   "theorems": [
    "LA.Props.C12_transpose",
    "LA.Props.C12_involutive"
   ],
   "note": ""
  },
  {
   "property": "C13",
   "status": "proved",
   "theorems": [
    "LA.Props.C13_mt",
    "LA.Props.C13_mt_transpose"
   ],
   "note": ""
  },
  {
   "property": "C14",
   "status": "partial",
   "theorems": [
    "LA.Props.C14_mt_word_partial",
    "LA.Props.C14_mt_debug",
    "LA.Props.C14_refuted_release"
   ],
   "note": "Exact characterisation for debug builds (C14_mt_debug); FALSE beyond rows*(rows*cols-2) < 2^w: debug panics, release does not terminate on a column vector of 2^(w-1) elements."
  },
  {
   "property": "C15",
   "status": "proved",
   "theorems": [
    "LA.Props.C15_cr",
    "LA.Props.C15_cr_panics",
    "LA.Props.C15_cb",
    "LA.Props.C15_cb_panics"
   ],
   "note": ""
  },
  {
   "property": "C16",
   "status": "proved",
   "theorems": [
    "LA.Props.C16_minor",
    "LA.Props.C16_minor_panics"
   ],
   "note": ""
  },
  {
   "property": "C17",
   "status": "proved",
   "theorems": [
    "LA.Props.C17_subMatrix"
   ],
   "note": ""
  },
  {
   "property": "C18",
   "status": "partial",
   "theorems": [
    "LA.Props.C18_refuted_out_of_range_accepted",
    "LA.Props.C18_refuted_full_block_rejected",
    "LA.Props.C18_accepts_iff_partial"
   ],
   "note": "FALSE of the code: out-of-range blocks are accepted and wrap to the next row, the full block is rejected. The exact acceptance condition is proved (C18_accepts_iff_partial)."
  },
  {
   "property": "C19",
   "status": "proved",
   "theorems": [
    "LA.Props.C19_getColumn",
    "LA.Props.C19_getColumn_panics"
   ],
   "note": ""
  },
  {
   "property": "C20",
   "status": "proved",
   "theorems": [
    "LA.Props.C20_permuteRows",
    "LA.Props.C20_permuteColumns",
    "LA.Props.C20_permuteRows_panics",
    "LA.Props.C20_permuteColumns_panics",
    "LA.Props.C20_rows_inverse",
    "LA.Props.C20_columns_inverse"
   ],
   "note": ""
  },
  {
   "property": "C21",
   "status": "proved",
   "theorems": [
    "LA.Props.C21_filterRows",
    "LA.Props.C21_filterColumns",
    "LA.Props.C21_selectRows",
    "LA.Props.C21_selectColumns",
    "LA.Props.C21_select_panics"
   ],
   "note": ""
  },
  {
   "property": "C22",
   "status": "partial",
   "theorems": [
    "LA.Props.C22_rectangular_partial",
    "LA.Props.C22_wf_partial",
    "LA.Props.C22_refuted_raw",
    "LA.Props.C22_refuted_permute",
    "LA.Props.C22_refuted_zero"
   ],
   "note": "FALSE of the code as stated: permute_rows(&[]) and zero(0,n) return a matrix without rows, whose cols() panics (C22_refuted_permute, C22_refuted_zero), and get_mut_data lets the caller store any number of elements (C22_refuted_raw). Proved for all histories whose raw writes keep the length: rows are always complete (C22_rectangular_partial); full well-formedness when moreover no call asks for an empty matrix (C22_wf_partial). Histories cover all of matrix.rs, m!, read_csv, LU, Cholesky, QR, SVD::new, SVD::direct, EigenDecomposition; any element operations (laws of signs where eigenvalues are computed)."
  },
  {
   "property": "C23",
   "status": "partial",
   "theorems": [
    "LA.Props.C23_no_uninit_partial",
    "LA.Props.C23_plain_partial",
    "LA.Props.C23_signs_partial",
    "LA.Props.C23_refuted_raw"
   ],
   "note": "FALSE of the code as stated: after get_mut_data().push(..), cr() returns a matrix containing memory that was never written (C23_refuted_raw). Proved for all histories whose writes through get_mut_data keep the number of elements (C23_no_uninit_partial), over matrix.rs, m!, read_csv, LU, Cholesky, QR, SVD::new, SVD::direct and EigenDecomposition, with arbitrary element operations (NaN included); assumptions: element operations themselves do not read uninitialised memory (class Clean) and, only where eigenvalues are computed, the laws of signs (class Signs, shown for reals and IEEE doubles)."
  },
  {
   "property": "C24",
   "status": "proved",
   "theorems": [
    "LA.Props.C24_approxEq",
    "LA.Props.C24_approxEq_shape",
    "LA.Props.C24_approxEq_refl_symm",
    "LA.Props.C24_not_transitive",
    "LA.Props.C24_isSymmetric",
    "LA.Props.C24_isSymmetric_of_symm",
    "LA.Props.C24_isSymmetric_nonsquare",
    "LA.Props.C24_isSquare"
   ],
   "note": ""
  },
  {
   "property": "C25",
   "status": "proved",
   "theorems": [
    "LA.Props.C25_trace_rect",
    "LA.Props.C25_trace",
    "LA.Props.C25_trace_laws"
   ],
   "note": ""
  },
  {
   "property": "C26",
   "status": "proved",
   "theorems": [
    "LA.Props.C26_norm1",
    "LA.Props.C26_norm2",
    "LA.Props.C26_normInf",
    "LA.Props.C26_frobenius",
    "LA.Props.C26_frobenius_laws",
    "LA.Props.C26_vector_laws",
    "LA.Props.C26_vector_norms_panic"
   ],
   "note": ""
  },
  {
   "property": "C27",
   "status": "partial",
   "theorems": [
    "LA.Props.C27_pnorm_partial",
    "LA.Props.C27_refuted_negative_entry"
   ],
   "note": "FALSE of the code for non-integer p with a negative entry (C27_refuted_negative_entry: |x^p| is computed, x^p has no real value); proved for nonnegative vectors and for integer p (C27_pnorm_partial)."
  },
  {
   "property": "C28",
   "status": "proved",
   "theorems": [
    "LA.Props.C28_lu",
    "LA.Props.C28_api"
   ],
   "note": "Exact arithmetic over any linearly ordered field; C29's bound is part of C28_lu."
  },
  {
   "property": "C29",
   "status": "proved",
   "theorems": [
    "LA.Props.C29_multipliers"
   ],
   "note": ""
  },
  {
   "property": "C30",
   "status": "proved",
   "theorems": [
    "LA.Props.C30_det",
    "LA.Props.C30_det_nonsquare",
    "LA.Props.C30_det_laws"
   ],
   "note": ""
  },
  {
   "property": "C31",
   "status": "proved",
   "theorems": [
    "LA.Props.C31_isSingular",
    "LA.Props.C31_nonsquare"
   ],
   "note": ""
  },
  {
   "property": "C32",
   "status": "proved",
   "theorems": [
    "LA.Props.C32_solve",
    "LA.Props.C32_solve_none",
    "LA.Props.C32_solve_iff",
    "LA.Props.C32_solve_rows"
   ],
   "note": ""
  },
  {
   "property": "C33",
   "status": "partial",
   "theorems": [
    "LA.Props.C33_wide_partial",
    "LA.Props.C33_refuted_tall"
   ],
   "note": "FALSE of the code for tall systems: C33_refuted_tall shows every returned X has m rows (only its first n rows solve n of the equations). Wide systems are rejected (None or an index panic): C33_wide_partial."
  },
  {
   "property": "C34",
   "status": "proved",
   "theorems": [
    "LA.Props.C34_inverse",
    "LA.Props.C34_inverse_none",
    "LA.Props.C34_api",
    "LA.Props.C34_nonsquare"
   ],
   "note": ""
  },
  {
   "property": "C35",
   "status": "proved",
   "theorems": [
    "LA.Props.C35_qr",
    "LA.Props.C35_api"
   ],
   "note": ""
  },
  {
   "property": "C36",
   "status": "partial",
   "theorems": [
    "LA.Props.C36_orthogonal_partial",
    "LA.Props.C36_refuted_tall",
    "LA.Props.C36_columns_partial"
   ],
   "note": "FALSE of the code for every tall matrix (C36_refuted_tall: the last m-n columns of get_q() are zero); proved for square and wide matrices (C36_orthogonal_partial); the first n columns are orthonormal (C36_columns_partial)."
  },
  {
   "property": "C37",
   "status": "partial",
   "theorems": [
    "LA.Props.C37_isFullRank_partial",
    "LA.Props.C37_wide_partial",
    "LA.Props.C37_refuted_wide"
   ],
   "note": "FALSE of the code for wide matrices (C37_refuted_wide: index panic); proved for rows >= cols (C37_isFullRank_partial)."
  },
  {
   "property": "C38",
   "status": "partial",
   "theorems": [
    "LA.Props.C38_none_partial",
    "LA.Props.C38_shape_partial",
    "LA.Props.C38_refuted_tall",
    "LA.Props.C38_mismatch",
    "LA.Props.C38_refuted_square",
    "LA.Props.C38_square_iff",
    "LA.Props.C38_refuted_det"
   ],
   "note": "FALSE of the code: every tall full-rank system panics (C38_refuted_tall); for square nonsingular systems solve is right for all right-hand sides if and only if every diagonal entry of the triangular factor is -1 (C38_square_iff; wrong normalisation of the Householder vectors), so it is wrong for every matrix with determinant other than 0, 1, -1 (C38_refuted_det; 2x=2 is 'solved' by x=3, C38_refuted_square). Proved: None on rank deficiency, result shape, row mismatch panics."
  },
  {
   "property": "C39",
   "status": "proved",
   "theorems": [
    "LA.Props.C39_pinverse",
    "LA.Props.C39_panics",
    "LA.Props.C39_wide"
   ],
   "note": ""
  },
  {
   "property": "C40",
   "status": "proved",
   "theorems": [
    "LA.Props.C40_cholesky",
    "LA.Props.C40_iff",
    "LA.Props.C40_nonsquare",
    "LA.Props.C40_gram"
   ],
   "note": ""
  },
  {
   "property": "C41",
   "status": "proved",
   "theorems": [
    "LA.Props.C41_solve",
    "LA.Props.C41_mismatch"
   ],
   "note": ""
  },
  {
   "property": "C42",
   "status": "proved",
   "theorems": [
    "LA.Props.C42_svd"
   ],
   "note": "Exact real arithmetic (square roots exact); total correctness including termination of the implicit QR iteration (Wilkinson shift: M = (e[p-2]s[p-1])^2*|e[p-3]s[p-2]| shrinks by 4/5 per step until an entry is below the absolute tolerance)."
  },
  {
   "property": "C43",
   "status": "proved",
   "theorems": [
    "LA.Props.C43_reconstruct"
   ],
   "note": "Exact real arithmetic; bound counts at most min(m,n)-1 deflations."
  },
  {
   "property": "C44",
   "status": "partial",
   "theorems": [
    "LA.Props.C44_rank_partial",
    "LA.Props.C44_refuted_tall"
   ],
   "note": "FALSE of the code for every tall matrix (C44_refuted_tall: rank() panics); proved for rows <= cols (C44_rank_partial)."
  },
  {
   "property": "C45",
   "status": "proved",
   "theorems": [
    "LA.Props.C45_tridiagonal"
   ],
   "note": "Exact real arithmetic; excludes every panic, division by zero and uninitialised read."
  },
  {
   "property": "C46",
   "status": "proved",
   "theorems": [
    "LA.Props.C46_symmetric"
   ],
   "note": "Exact real arithmetic; stronger than stated: termination and get_d() included."
  },
  {
   "property": "C47",
   "status": "partial",
   "theorems": [
    "LA.Props.C47_wide_partial",
    "LA.Props.C47_refuted_tall"
   ],
   "note": "FALSE of the code for tall matrices (C47_refuted_tall: the rows below the leading square block are silently ignored); wide matrices panic (C47_wide_partial)."
  },
  {
   "property": "C48",
   "status": "proved",
   "theorems": [
    "LA.Props.C48_hessenberg"
   ],
   "note": "Exact real arithmetic; excludes every panic, division by zero and uninitialised read."
  },
  {
   "property": "C49",
   "status": "proved",
   "theorems": [
    "LA.Props.C49_pairs",
    "LA.Props.C49_small_terminates"
   ],
   "note": ""
  },
  {
   "property": "C50",
   "status": "proved",
   "theorems": [
    "LA.Props.C50_cdiv"
   ],
   "note": ""
  },
  {
   "property": "C51",
   "status": "proved",
   "theorems": [
    "LA.Props.C51_hypot",
    "LA.Props.C51_hypot_no_overflow"
   ],
   "note": ""
  },
  {
   "property": "C52",
   "status": "proved",
   "theorems": [
    "LA.Props.C52_readCsv",
    "LA.Props.C52_empty",
    "LA.Props.C52_noFile",
    "LA.Props.C52_table",
    "LA.Props.C52_roundtrip"
   ],
   "note": ""
  },
  {
   "property": "C53",
   "status": "proved",
   "theorems": [
    "LA.Props.C53_fmt",
    "LA.Props.C53_aligned",
    "LA.Props.C53_total"
   ],
   "note": ""
  },
  {
   "property": "C54",
   "status": "proved",
   "theorems": [
    "LA.Props.C54_random"
   ],
   "note": ""
  },
  {
   "property": "C55",
   "status": "proved",
   "theorems": [
    "LA.Props.C55_pure_call",
    "LA.Props.C55_mut_call",
    "LA.Props.C55_history",
    "LA.Props.C55_mut_value"
   ],
   "note": ""
  },
  {
   "property": "C56",
   "status": "proved",
   "theorems": [
    "LA.Props.C56_symmetric_reconstruct"
   ],
   "note": "Exact real arithmetic; total correctness including termination of the QL iteration (Wilkinson shift)."
  },
  {
   "property": "C57",
   "status": "proved",
   "theorems": [
    "LA.Props.C57_eigenvalues"
   ],
   "note": ""
  },
  {
   "property": "C58",
   "status": "proved",
   "theorems": [
    "LA.Props.C58_eigenvectors"
   ],
   "note": ""
  },
  {
   "property": "C59",
   "status": "partial",
   "theorems": [
    "LA.Props.C59_direct_partial",
    "LA.Props.C59_well_conditioned_partial",
    "LA.Props.C59_wide",
    "LA.Props.C59_refuted_zero",
    "LA.Props.C59_refuted_tall"
   ],
   "note": "FALSE of the code: zero matrices (and any matrix for which a computed eigenvalue of A'A is 0) panic in unwrap (C59_refuted_zero); for tall matrices U is never orthogonal, its last m-n columns are zero (C59_refuted_tall). Proved: exact reconstruction U*S*V' = A, V orthogonal, first n columns of U orthonormal up to an explicit bound, whenever the computed eigenvalues are positive (C59_direct_partial), in particular for well-conditioned full-rank matrices (C59_well_conditioned_partial); wide matrices reduce to their transposes (C59_wide)."
  },
  {
   "property": "C60",
   "status": "proved",
   "theorems": [
    "LA.Props.C60_lu",
    "LA.Props.C60_solve",
    "LA.Props.C60_cholesky",
    "LA.Props.C60_qr",
    "LA.Props.C60_svd"
   ],
   "note": ""
  },
  {
   "property": "C61",
   "status": "proved",
   "theorems": [
    "LA.Props.C61_mul",
    "LA.Props.C61_mul_finite",
    "LA.Props.C61_f64"
   ],
   "note": "Any arithmetic satisfying the standard model Fp; Bin F shows binary formats with gradual underflow and overflow satisfy it."
  },
  {
   "property": "C62",
   "status": "proved",
   "theorems": [
    "LA.Props.C62_lu",
    "LA.Props.C62_finite",
    "LA.Props.C62_f64"
   ],
   "note": "Any arithmetic satisfying the standard model Fp. The error bound assumes the factors are finite; C62_finite gives a sufficient condition."
  },
  {
   "property": "C63",
   "status": "proved",
   "theorems": [
    "LA.Props.C63_solve"
   ],
   "note": "Any arithmetic satisfying the standard model Fp. The bound assumes the factors and the result are finite."
  },
  {
   "property": "C64",
   "status": "proved",
   "theorems": [
    "LA.Props.C64_cholesky",
    "LA.Props.C64_accepts",
    "LA.Props.C64_solve"
   ],
   "note": "Any arithmetic satisfying the standard model Fp. C64_accepts gives a sufficient condition for acceptance and finiteness."
  },
  {
   "property": "C65",
   "status": "proved",
   "theorems": [
    "LA.Props.C65_budget"
   ],
   "note": "The model bounds iterations by a budget; this shows that the budget does not influence the outcome."
  },
  {
   "property": "C66",
   "status": "proved",
   "theorems": [
    "LA.Props.C66_eigen",
    "LA.Props.C66_panics"
   ],
   "note": "F64 is an instance. Left-over work variables of the back-substitution are a parameter of the model (C70)."
  },
  {
   "property": "C67",
   "status": "proved",
   "theorems": [
    "LA.Props.C67_nan",
    "LA.Props.C67_overflow"
   ],
   "note": "Non-termination for all-NaN matrices over any arithmetic with the laws of NaN; the finite example is evaluated by the kernel on IEEE binary64 (Verif/IEEE.lean) up to the NaN state, then the general theorem applies."
  },
  {
   "property": "C68",
   "status": "proved",
   "theorems": [
    "LA.Props.C68_nan",
    "LA.Props.C68_overflow"
   ],
   "note": "As C67."
  },
  {
   "property": "C69",
   "status": "proved",
   "theorems": [
    "LA.Props.C69_svd",
    "LA.Props.C69_eigen"
   ],
   "note": "Any arithmetic with total division and square root and the laws of signs; F64 is an instance."
  },
  {
   "property": "C70",
   "status": "proved",
   "theorems": [
    "LA.Props.C70_leftover"
   ],
   "note": "newWith takes the stale values as a parameter, one triple per vector; new is newWith with zeros, so every theorem about new transfers."
  },
  {
   "property": "C71",
   "status": "partial",
   "theorems": [
    "LA.Props.C71_mul",
    "LA.Props.C71_debug",
    "LA.Props.C71_release_partial",
    "LA.Props.C71_refuted_id",
    "LA.Props.C71_refuted_random"
   ],
   "note": "Products: proved in full (C71_mul, both build modes). Debug builds: proved for the constructors (C71_debug; zero is the zeroing part of id, see also C02_new_debug). Release builds: FALSE of the code for zero (C02_refuted_release_zero), random (C71_refuted_random), and id/block_diag with more rows than columns (C71_refuted_id: id(2^63+3, 2) stores 6 elements); proved for diag and for id/block_diag with rows <= columns (C71_release_partial)."
  },
  {
   "property": "C72",
   "status": "proved",
   "theorems": [
    "LA.Props.C72_elementwise",
    "LA.Props.C72_trace",
    "LA.Props.C72_norm1",
    "LA.Props.C72_frobenius",
    "LA.Props.C72_norm2",
    "LA.Props.C72_normInf"
   ],
   "note": ""
  },
  {
   "property": "C73",
   "status": "proved",
   "theorems": [
    "LA.Props.C73_hypot",
    "LA.Props.C73_f64"
   ],
   "note": ""
  },
  {
   "property": "C74",
   "status": "proved",
   "theorems": [
    "LA.Props.C74_det",
    "LA.Props.C74_inverse"
   ],
   "note": ""
  },
  {
   "property": "C75",
   "status": "proved",
   "theorems": [
    "LA.Props.C75_elementwise",
    "LA.Props.C75_mul",
    "LA.Props.C75_trace",
    "LA.Props.C75_norms",
    "LA.Props.C75_normInf",
    "LA.Props.C75_approxEq",
    "LA.Props.C75_det",
    "LA.Props.C75_solve",
    "LA.Props.C75_inverse",
    "LA.Props.C75_cholesky",
    "LA.Props.C75_cholesky_accepts",
    "LA.Props.C75_hypot"
   ],
   "note": ""
  },
  {
   "property": "C76",
   "status": "proved",
   "theorems": [
    "LA.Props.C76_refl",
    "LA.Props.C76_symm",
    "LA.Props.C76_approxEq",
    "LA.Props.C76_isSymmetric"
   ],
   "note": ""
  },
  {
   "property": "C77",
   "status": "proved",
   "theorems": [
    "LA.Props.C77_backward",
    "LA.Props.C77_factors",
    "LA.Props.C77_f64"
   ],
   "note": ""
  },
  {
   "property": "C78",
   "status": "proved",
   "theorems": [
    "LA.Props.C78_result",
    "LA.Props.C78_shapes",
    "LA.Props.C78_total"
   ],
   "note": "The module is commented out of the crate and does not compile; modelled as written (see Verif/Model/Power.lean)."
  },
  {
   "property": "C79",
   "status": "partial",
   "theorems": [
    "LA.Props.C79_converges_partial",
    "LA.Props.C79_refuted_negative",
    "LA.Props.C79_refuted_head",
    "LA.Props.C79_nan"
   ],
   "note": "FALSE of the code: for a negative dominant eigenvalue the iterates alternate in sign and the call never returns (C79_refuted_negative, for every tolerance below 2); max_elem reads element 1 over and over, so an eigenvector that is zero in its first two elements is never reached (C79_refuted_head: diag(1,1,2)). Proved for a positive dominant eigenvalue whose eigenvector has a nonzero element among the first two, if no iterate has zeros there (C79_converges_partial). In floating point a NaN in the start vector is never left (C79_nan)."
  },
  {
   "property": "C80",
   "status": "partial",
   "theorems": [
    "LA.Props.C80_access",
    "LA.Props.C80_trace",
    "LA.Props.C80_t",
    "LA.Props.C80_getColumn",
    "LA.Props.C80_minor",
    "LA.Props.C80_concat",
    "LA.Props.C80_permuteRows",
    "LA.Props.C80_permuteColumns",
    "LA.Props.C80_subMatrix_partial",
    "LA.Props.C80_refuted_subMatrix"
   ],
   "note": "FALSE of sub_matrix in release builds: it checks only the differences of its arguments, so start_row = 2^63 on a matrix with two columns wraps to row 0 and a block outside the matrix is returned (C80_refuted_subMatrix; in a debug build, or without wrapping, the call panics). Proved for sub_matrix in debug builds and whenever the first index does not wrap, and for all the other functions in both builds."
  },
  {
   "property": "C81",
   "status": "proved",
   "theorems": [
    "LA.Props.C81_map",
    "LA.Props.C81_random",
    "LA.Props.C81_filterRows",
    "LA.Props.C81_filterColumns",
    "LA.Props.C81_reduce",
    "LA.Props.C81_readCsv",
    "LA.Props.C81_agrees"
   ],
   "note": "Effects are modelled by a state monad over an arbitrary world; runs are compared as functions of the world with List.mapM / foldlM."
  },
  {
   "property": "C82",
   "status": "partial",
   "theorems": [
    "LA.Props.C82_mmap",
    "LA.Props.C82_unary",
    "LA.Props.C82_binary",
    "LA.Props.C82_shapes",
    "LA.Props.C82_mmul",
    "LA.Props.C82_partway",
    "LA.Props.C82_set",
    "LA.Props.C82_mt",
    "LA.Props.C82_agrees",
    "LA.Props.C82_mt_agrees",
    "LA.Props.C82_refuted_mt",
    "LA.Props.C82_history"
   ],
   "note": "FALSE of mt in debug builds: it holds one element in a local variable while the product no_rows * idx can overflow, so a caught overflow panic loses an element (C82_refuted_mt: 2^h rows and two columns on a 2h-bit machine; the element is overwritten by another one). What does hold for mt (C82_mt): shape and number of elements are as before and every element is one of the old ones. Everything else is proved for all closures, element types and points of panic. Closures that panic in destructors or abort are not modelled."
  },
  {
   "property": "C83",
   "status": "proved",
   "theorems": [
    "LA.Props.C83_mul",
    "LA.Props.C83_entrywise",
    "LA.Props.C83_binary",
    "LA.Props.C83_shapes",
    "LA.Props.C83_agrees"
   ],
   "note": ""
  },
  {
   "property": "C84",
   "status": "proved",
   "theorems": [
    "LA.Props.C84_debug",
    "LA.Props.C84_release",
    "LA.Props.C84_div",
    "LA.Props.C84_mul_debug",
    "LA.Props.C84_mul_release"
   ],
   "note": "Integer types are modelled as integers with a range, overflow and division as Rust documents them (trusted)."
  },
  {
   "property": "C85",
   "status": "proved",
   "theorems": [
    "LA.Props.C85_comm",
    "LA.Props.C85_transpose_mul",
    "LA.Props.C85_gram",
    "LA.Props.C85_neg",
    "LA.Props.C85_signs",
    "LA.Props.C85_id",
    "LA.Props.C85_zero"
   ],
   "note": ""
  },
  {
   "property": "C86",
   "status": "proved",
   "theorems": [
    "LA.Props.C86_mul",
    "LA.Props.C86_elementwise",
    "LA.Props.C86_products",
    "LA.Props.C86_trace",
    "LA.Props.C86_norm1",
    "LA.Props.C86_integers"
   ],
   "note": ""
  },
  {
   "property": "C87",
   "status": "proved",
   "theorems": [
    "LA.Props.C87_iff",
    "LA.Props.C87_exact",
    "LA.Props.C87_refl",
    "LA.Props.C87_equivalence",
    "LA.Props.C87_congr",
    "LA.Props.C87_approxEq",
    "LA.Props.C87_division"
   ],
   "note": ""
  },
  {
   "property": "C88",
   "status": "proved",
   "theorems": [
    "LA.Props.C88_column",
    "LA.Props.C88_permuteRows",
    "LA.Props.C88_permuteColumns",
    "LA.Props.C88_blocks",
    "LA.Props.C88_local"
   ],
   "note": ""
  },
  {
   "property": "C89",
   "status": "proved",
   "theorems": [
    "LA.Props.C89_real",
    "LA.Props.C89_distinct",
    "LA.Props.C89_f64",
    "LA.Props.C89_refuted_subnormal"
   ],
   "note": "The condition on subnormal entries is needed: on [0,x,0;0,0,0;0,0,0] with x = 2^-1074 the call never returns (C89_refuted_subnormal), because the negligibility threshold eps*norm rounds to 0."
  },
  {
   "property": "C90",
   "status": "proved",
   "theorems": [
    "LA.Props.C90_real",
    "LA.Props.C90_f64"
   ],
   "note": ""
  },
  {
   "property": "C91",
   "status": "proved",
   "theorems": [
    "LA.Props.C91_solve",
    "LA.Props.C91_inverse",
    "LA.Props.C91_cholesky",
    "LA.Props.C91_none",
    "LA.Props.C91_some"
   ],
   "note": ""
  },
  {
   "property": "C92",
   "status": "proved",
   "theorems": [
    "LA.Props.C92_select",
    "LA.Props.C92_column",
    "LA.Props.C92_concat",
    "LA.Props.C92_inverse",
    "LA.Props.C92_cholesky"
   ],
   "note": ""
  },
  {
   "property": "C93",
   "status": "proved",
   "theorems": [
    "LA.Props.C93_factors",
    "LA.Props.C93_solve",
    "LA.Props.C93_inverse",
    "LA.Props.C93_det"
   ],
   "note": ""
  },
  {
   "property": "C94",
   "status": "proved",
   "theorems": [
    "LA.Props.C94_solve",
    "LA.Props.C94_inverse",
    "LA.Props.C94_factors",
    "LA.Props.C94_det",
    "LA.Props.C94_neg",
    "LA.Props.C94_cholesky",
    "LA.Props.C94_cholesky_solve"
   ],
   "note": ""
  },
  {
   "property": "C95",
   "status": "proved",
   "theorems": [
    "LA.Props.C95_factors",
    "LA.Props.C95_solve",
    "LA.Props.C95_none",
    "LA.Props.C95_det",
    "LA.Props.C95_diagonal",
    "LA.Props.C95_inverse",
    "LA.Props.C95_permutation"
   ],
   "note": ""
  },
  {
   "property": "C96",
   "status": "proved",
   "theorems": [
    "LA.Props.C96_factors",
    "LA.Props.C96_mul",
    "LA.Props.C96_pinverse",
    "LA.Props.C96_zeros",
    "LA.Props.C96_zero_pivot"
   ],
   "note": ""
  },
  {
   "property": "C97",
   "status": "proved",
   "theorems": [
    "LA.Props.C97_factors",
    "LA.Props.C97_product",
    "LA.Props.C97_rank"
   ],
   "note": ""
  },
  {
   "property": "C98",
   "status": "proved",
   "theorems": [
    "LA.Props.C98_lu",
    "LA.Props.C98_lu_wide",
    "LA.Props.C98_qr",
    "LA.Props.C98_cholesky",
    "LA.Props.C98_cholesky_none"
   ],
   "note": ""
  },
  {
   "property": "C99",
   "status": "proved",
   "theorems": [
    "LA.Props.C99_svd",
    "LA.Props.C99_direct",
    "LA.Props.C99_square",
    "LA.Props.C99_trace",
    "LA.Props.C99_symmetric",
    "LA.Props.C99_cholesky"
   ],
   "note": ""
  },
  {
   "property": "C100",
   "status": "proved",
   "theorems": [
    "LA.Props.C100_no_panic",
    "LA.Props.C100_backward",
    "LA.Props.C100_orthogonal",
    "LA.Props.C100_residual",
    "LA.Props.C100_double",
    "LA.Props.C100_refuted_subnormal"
   ],
   "note": "Standard model without overflow and underflow. The assumption is needed: for f64 and a column of subnormal numbers U is far from orthogonal (C100_refuted_subnormal)."
  },
  {
   "property": "C101",
   "status": "proved",
   "theorems": [
    "LA.Props.C101_exact",
    "LA.Props.C101_rounded",
    "LA.Props.C101_low_rank",
    "LA.Props.C101_vectors",
    "LA.Props.C101_norm"
   ],
   "note": ""
  },
  {
   "property": "C102",
   "status": "proved",
   "theorems": [
    "LA.Props.C102_symmetric",
    "LA.Props.C102_trace"
   ],
   "note": ""
  },
  {
   "property": "C103",
   "status": "proved",
   "theorems": [
    "LA.Props.C103_pinverse",
    "LA.Props.C103_forward",
    "LA.Props.C103_panics",
    "LA.Props.C103_refuted_panics",
    "LA.Props.C103_refuted_wide"
   ],
   "note": ""
  },
  {
   "property": "C104",
   "status": "proved",
   "theorems": [
    "LA.Props.C104_backward",
    "LA.Props.C104_semidefinite",
    "LA.Props.C104_rejects",
    "LA.Props.C104_refuted_nan",
    "LA.Props.C104_solve",
    "LA.Props.C104_accepts"
   ],
   "note": ""
  },
  {
   "property": "C105",
   "status": "proved",
   "theorems": [
    "LA.Props.C105_no_panic",
    "LA.Props.C105_backward",
    "LA.Props.C105_orthogonal",
    "LA.Props.C105_residual",
    "LA.Props.C105_vectors",
    "LA.Props.C105_eigenvalues",
    "LA.Props.C105_trace",
    "LA.Props.C105_double",
    "LA.Props.C105_refuted_subnormal"
   ],
   "note": "Standard model without overflow and underflow. The assumption is needed: for f64 and a matrix of subnormal numbers the eigenvalues and eigenvectors are far off (C105_refuted_subnormal)."
  },
  {
   "property": "C106",
   "status": "proved",
   "theorems": [
    "LA.Props.C106_eigenvalues",
    "LA.Props.C106_residual",
    "LA.Props.C106_trace",
    "LA.Props.C106_bound",
    "LA.Props.C106_double"
   ],
   "note": "Standard model without overflow and underflow; eigenvalues only (the returned eigenvectors of nonsymmetric matrices in rounded arithmetic are not covered). The iteration need not converge, so returning is a hypothesis."
  },
  {
   "property": "C107",
   "status": "proved",
   "theorems": [
    "LA.Props.C107_rank_exact",
    "LA.Props.C107_rank_rounded",
    "LA.Props.C107_distance",
    "LA.Props.C107_tall"
   ],
   "note": "Rounded version: standard model without overflow and underflow."
  },
  {
   "property": "C108",
   "status": "proved",
   "theorems": [
    "LA.Props.C108_no_panic",
    "LA.Props.C108_factors",
    "LA.Props.C108_singular_values",
    "LA.Props.C108_vectors",
    "LA.Props.C108_residual",
    "LA.Props.C108_orthogonal",
    "LA.Props.C108_wide",
    "LA.Props.C108_double",
    "LA.Props.C108_refuted_panic",
    "LA.Props.C108_refuted_orthogonal"
   ],
   "note": "Standard model without overflow and underflow, with commutative products and no roots of negative numbers. The conditions are needed: C108_refuted_panic (f64, full rank, panics), C108_refuted_orthogonal (U far from orthogonal)."
  },
  {
   "property": "C109",
   "status": "proved",
   "theorems": [
    "LA.Props.C109_growth",
    "LA.Props.C109_factors",
    "LA.Props.C109_growth_sharp",
    "LA.Props.C109_dominant",
    "LA.Props.C109_solve",
    "LA.Props.C109_solution_bound"
   ],
   "note": "Exact arithmetic over any linearly ordered field."
  },
  {
   "property": "C110",
   "status": "proved",
   "theorems": [
    "LA.Props.C110_factors",
    "LA.Props.C110_solve",
    "LA.Props.C110_inverse",
    "LA.Props.C110_det",
    "LA.Props.C110_det_sign",
    "LA.Props.C110_none"
   ],
   "note": "f64 with overflow and gradual underflow. No hypothesis about computed quantities."
  },
  {
   "property": "C111",
   "status": "proved",
   "theorems": [
    "LA.Props.C111_solve"
   ],
   "note": "f64 with overflow and gradual underflow. No hypothesis about computed quantities."
  },
  {
   "property": "C112",
   "status": "proved",
   "theorems": [
    "LA.Props.C112_factorisation",
    "LA.Props.C112_product"
   ],
   "note": "f64 with overflow and gradual underflow. No hypothesis about computed quantities. The hypothesis on the smallest singular value excludes numerically rank-deficient matrices, for which C77 still applies."
  },
  {
   "property": "C113",
   "status": "proved",
   "theorems": [
    "LA.Props.C113_pinverse",
    "LA.Props.C113_left_inverse",
    "LA.Props.C113_least_squares"
   ],
   "note": "f64. C113_pinverse: pinverse succeeds, is finite, and close to the exact Moore-Penrose inverse; hypotheses and bound only about the given matrix. C113_left_inverse and C113_least_squares are consequences (z is characterised as a minimiser of |b - A z|, not by a formula). C103 remains the statement for any Fp arithmetic and with the computed factors; C103_refuted_panics shows that a condition on the squared condition number is needed."
  },
  {
   "property": "C114",
   "status": "proved",
   "theorems": [
    "LA.Props.C114_result",
    "LA.Props.C114_symmetric"
   ],
   "note": "f64. C114_result: a stopping step is an approximate eigenpair with positive mu, whatever happened in the steps before (overflow included: a step with an infinity or NaN does not pass the comparison). C114_symmetric: an exact eigenvalue within the residual. Nothing is claimed about termination or which eigenvalue (C79 and its refuted statements)."
  },
  {
   "property": "C115",
   "status": "proved",
   "theorems": [
    "LA.Props.C115_exact",
    "LA.Props.C115_hessenberg",
    "LA.Props.C115_tridiagonal",
    "LA.Props.C115_f64"
   ],
   "note": "C115_exact and C115_f64: the shape of the factors (BandFactors), no nonsingularity assumed. C115_hessenberg, C115_tridiagonal: growth, exact arithmetic; examples attain both bounds."
  },
  {
   "property": "C116",
   "status": "proved",
   "theorems": [
    "LA.Props.C116_factors",
    "LA.Props.C116_solve",
    "LA.Props.C116_residual",
    "LA.Props.C116_dominant",
    "LA.Props.C116_inverse",
    "LA.Props.C116_none",
    "LA.Props.C116_det"
   ],
   "note": "C116_factors, C116_residual, C116_solve, C116_inverse, C116_det (given a bound on the inverse), C116_dominant (row dominance, no hypothesis on an inverse) and C116_none; example: the spline matrix 4, 1 for n up to 32768."
  },
  {
   "property": "C117",
   "status": "proved",
   "theorems": [
    "LA.Props.C117_factors",
    "LA.Props.C117_solve",
    "LA.Props.C117_inverse",
    "LA.Props.C117_det"
   ],
   "note": "C117_factors, C117_solve, C117_inverse, C117_det; no hypothesis on an inverse. Example: the spline matrix for n up to 32768 (det: 200)."
  },
  {
   "property": "C118",
   "status": "proved",
   "theorems": [
    "LA.Props.C118_singular",
    "LA.Props.C118_bounded",
    "LA.Props.C118_qr",
    "LA.Props.C118_equal_columns"
   ],
   "note": "C118_singular, C118_bounded, C118_qr; C118_equal_columns shows that a repeated column is not recognised, an example that det can be NaN."
  },
  {
   "property": "C119",
   "status": "proved",
   "theorems": [
    "LA.Props.C119_inverse",
    "LA.Props.C119_tests",
    "LA.Props.C119_det_qr",
    "LA.Props.C119_cholesky",
    "LA.Props.C119_gram"
   ],
   "note": "C119_inverse, C119_tests, C119_det_qr, C119_cholesky, C119_gram."
  },
  {
   "property": "C120",
   "status": "proved",
   "theorems": [
    "LA.Props.C120_svd_stable",
    "LA.Props.C120_svd_transpose",
    "LA.Props.C120_svd_norm",
    "LA.Props.C120_eigen_stable",
    "LA.Props.C120_eigen_range",
    "LA.Props.C120_symmetric",
    "LA.Props.C120_direct",
    "LA.Props.C120_gram"
   ],
   "note": "C120_svd_stable, C120_svd_transpose, C120_svd_norm, C120_eigen_stable, C120_eigen_range, C120_symmetric, C120_gram, C120_direct."
  },
  {
   "property": "C121",
   "status": "proved",
   "theorems": [
    "LA.Props.C121_factors",
    "LA.Props.C121_singular",
    "LA.Props.C121_solve",
    "LA.Props.C121_inverse",
    "LA.Props.C121_det",
    "LA.Props.C121_qr",
    "LA.Props.C121_cholesky",
    "LA.Props.C121_cholesky_solve",
    "LA.Props.C121_mul"
   ],
   "note": "C121_factors, C121_singular, C121_solve, C121_inverse, C121_det, C121_qr, C121_cholesky, C121_cholesky_solve, C121_mul; counterexamples for row scaling and for QRDecomposition::solve."
  },
  {
   "property": "C122",
   "status": "proved",
   "theorems": [
    "LA.Props.C122_eigen",
    "LA.Props.C122_get"
   ],
   "note": "C122_eigen (the whole outcome, fuel exhaustion included), C122_get (get_d)."
  },
  {
   "property": "C123",
   "status": "proved",
   "theorems": [
    "LA.Props.C123_norms",
    "LA.Props.C123_arith",
    "LA.Props.C123_power",
    "LA.Props.C123_pinverse"
   ],
   "note": "C123_norms, C123_arith, C123_power, C123_pinverse; counterexample for is_symmetric."
  },
  {
   "property": "C124",
   "status": "proved",
   "theorems": [
    "LA.Props.C124_profile",
    "LA.Props.C124_blocks",
    "LA.Props.C124_first",
    "LA.Props.C124_solve"
   ],
   "note": "C124_profile, C124_blocks, C124_first, C124_solve."
  },
  {
   "property": "C125",
   "status": "proved",
   "theorems": [
    "LA.Props.C125_mul",
    "LA.Props.C125_lu",
    "LA.Props.C125_cholesky"
   ],
   "note": "C125_mul, C125_lu, C125_cholesky."
  }
 ]
}