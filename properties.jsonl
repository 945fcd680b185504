{"id": "C01", "title": "Construction accepts exactly the consistent shapes", "statement": "Matrix::new(r,c,data) succeeds exactly when r>0, c>0 and r*c = data.len(); then rows()=r, cols()=c, get_data() is data and get(i,j) = data[i*c+j] for all i<r, j<c. In every other case it panics. vector(d)/row_vector(d) succeed exactly for non-empty d and give the n-by-1 / 1-by-n matrix holding d in order.", "quantifier": "all r, c, all vectors of any length over any element type", "why_tests_cant": "infinitely many shapes and lengths; tests pick four", "anchors": ["src/matrix.rs: Matrix::new, vector, row_vector, rows, cols, get_data"]}
{"id": "C02", "title": "Constructed dimensions match storage under machine arithmetic", "statement": "For a w-bit usize, a matrix returned by Matrix::new(r,c,data) really stores r*c elements (as numbers, not modulo 2^w).", "quantifier": "all word sizes w, all r,c < 2^w, both overflow modes (debug: checked, release: wrapping)", "why_tests_cant": "the failing inputs have dimensions of order 2^(w/2) and never appear in tests", "anchors": ["src/matrix.rs: Matrix::new, Matrix::zero, Matrix::id"]}
{"id": "C03", "title": "m! literal builds the written rows", "statement": "m!(row_0; row_1; ...) with k>0 rows that all have the same length c>0 evaluates to the k-by-c matrix whose (i,j) entry is the j-th item of row i; a literal whose rows do not all have the same length does not build a matrix.", "quantifier": "all literals: any number of rows, any row lengths", "why_tests_cant": "literal shapes are unbounded; the ragged case with divisible total is not covered by tests", "anchors": ["src/macros.rs: m!, m_rec!, m_one!", "src/matrix.rs: Matrix::new"]}
{"id": "C04", "title": "Element access is exact and bounds-checked", "statement": "On an r-by-c matrix get, get_ref, get_mref and m[(i,j)] all yield the (i,j) entry when i<r and j<c and panic otherwise; set(i,j,v) (and writing through get_mref) panics out of range, otherwise afterwards get(i,j)=v, every other entry and the shape are unchanged.", "quantifier": "all matrices of any shape and element type, all i, j, all values", "why_tests_cant": "index space is unbounded; aliasing of row-major offsets cannot be excluded by sampling", "anchors": ["src/matrix.rs: get, get_ref, get_mref, set, Index::index"]}
{"id": "C05", "title": "Structured constructors have the documented entries", "statement": "id(m,n) has 1 on the main diagonal and 0 elsewhere; zero(m,n) is 0 everywhere; diag(d) is square with d on the diagonal; block_diag(m,n,d) is m-by-n with d on the main diagonal and 0 elsewhere and panics unless d.len()=min(m,n); zero_vector(n)/one_vector(n) are n-by-1 constant.", "quantifier": "all m, n > 0, all data vectors, all element types", "why_tests_cant": "unbounded shapes; wide and tall cases use different offsets", "anchors": ["src/matrix.rs: id, zero, diag, block_diag, zero_vector, one_vector"]}
{"id": "C06", "title": "map / mmap apply the function entrywise", "statement": "map(f) returns a matrix of the same shape whose (i,j) entry is f of the original entry; mmap(f) leaves the receiver equal to map(f); hence map(id)=id and map(g).map(f)=map(f after g).", "quantifier": "all matrices, all pure functions f", "why_tests_cant": "functions and shapes are unbounded", "anchors": ["src/matrix.rs: map, mmap"]}
{"id": "C07", "title": "reduce folds every column top to bottom", "statement": "reduce(init,f) panics unless init.len()=cols(); otherwise it returns the 1-by-c row whose j-th entry is f(...f(f(init[j], a[0,j]), a[1,j])..., a[r-1,j]).", "quantifier": "all matrices, all init vectors, all pure functions f", "why_tests_cant": "wrap-around index arithmetic must be right for every shape", "anchors": ["src/matrix.rs: reduce"]}
{"id": "C08", "title": "Elementwise arithmetic is entrywise and shape-checked", "statement": "For equal shapes, a+b, a-b, elem_mul, elem_div return the matrix of entrywise results; for different shapes they panic; -a and scale(k) act entrywise. This holds for any element operations, including rounding ones.", "quantifier": "all pairs of matrices, all element types/operations", "why_tests_cant": "needs all shapes and arbitrary (even non-associative) arithmetic", "anchors": ["src/matrix.rs: Add::add, Sub::sub, Neg::neg, scale, elem_mul, elem_div"]}
{"id": "C09", "title": "Mutating operations agree with their pure counterparts", "statement": "After a.madd(b), a.msub(b), a.melem_mul(b), a.melem_div(b), a.mscale(k), a.mneg(), a.mmul(b), the receiver is exactly what a+b, a-b, a.elem_mul(b), a.elem_div(b), a.scale(k), -a, a*b return, and each mutating form panics exactly when the pure form does.", "quantifier": "all matrices (well-formed or not), all element types/operations, including panicking divisions", "why_tests_cant": "bit-exact agreement for every input cannot be sampled", "anchors": ["src/matrix.rs: madd, msub, melem_mul, melem_div, mscale, mneg, mmul"]}
{"id": "C10", "title": "Matrix product", "statement": "a*b panics unless a.cols()=b.rows(); otherwise it is a.rows()-by-b.cols() and entry (i,j) is the left-to-right sum 0 + a[i,0]*b[0,j] + ... ; over any semiring this is the mathematical matrix product.", "quantifier": "all pairs of matrices, all element types", "why_tests_cant": "all shapes, all element arithmetic", "anchors": ["src/matrix.rs: Mul::mul, mmul"]}
{"id": "C11", "title": "Algebraic laws", "statement": "Over a commutative ring (in particular wrapping machine integers): + is commutative and associative with zero(m,n) neutral, (a*b)*c = a*(b*c), id is a two-sided unit, * distributes over +, (a*b)' = b'*a', a-a = 0, scale distributes. All operator forms (by value / by reference) coincide.", "quantifier": "all compatible matrices over any commutative ring", "why_tests_cant": "universally quantified identities", "anchors": ["src/matrix.rs: Add, Sub, Mul, Neg impls, id, zero, t, scale"]}
{"id": "C12", "title": "Transpose", "statement": "t() of an r-by-c matrix is c-by-r with entry (j,i) equal to entry (i,j); t().t() is the original matrix.", "quantifier": "all well-formed matrices of any shape and element type", "why_tests_cant": "stride/wrap-around index walk must be right for all shapes", "anchors": ["src/matrix.rs: t"]}
{"id": "C13", "title": "In-place transpose", "statement": "On every well-formed matrix mt() terminates without panicking and leaves the receiver equal to t().", "quantifier": "all well-formed matrices of any shape and element type", "why_tests_cant": "cycle-following permutation: cycle structure depends number-theoretically on the shape; two shapes are tested", "anchors": ["src/matrix.rs: mt, t"]}
{"id": "C14", "title": "In-place transpose under machine arithmetic", "statement": "With a w-bit usize, mt() leaves the receiver equal to t() for every matrix that fits in memory.", "quantifier": "all word sizes, all shapes with r*c < 2^w", "why_tests_cant": "failing shapes need more than 2^(w/2) elements", "anchors": ["src/matrix.rs: mt"]}
{"id": "C15", "title": "Concatenation", "statement": "cr(b) (and a | &b) panics unless row counts agree, otherwise it is [a b]; cb(b) panics unless column counts agree, otherwise it is [a; b].", "quantifier": "all pairs of matrices", "why_tests_cant": "all shape pairs", "anchors": ["src/matrix.rs: cr, cb, BitOr::bitor"]}
{"id": "C16", "title": "minor deletes one row and one column", "statement": "minor(i,j) panics unless i<r, j<c, r>1, c>1; otherwise it is (r-1)-by-(c-1) and its entries are the original ones with row i and column j skipped, in order.", "quantifier": "all matrices, all i, j", "why_tests_cant": "all shapes and deletion points", "anchors": ["src/matrix.rs: minor"]}
{"id": "C17", "title": "sub_matrix returns the requested block (proper in-range blocks)", "statement": "If sr<er<=r, sc<ec<=c, er-sr<r and ec-sc<c then sub_matrix(sr,sc,er,ec) is the (er-sr)-by-(ec-sc) matrix with entry (i,j) equal to entry (sr+i, sc+j).", "quantifier": "all matrices, all such ranges", "why_tests_cant": "all shapes/ranges", "anchors": ["src/matrix.rs: sub_matrix"]}
{"id": "C18", "title": "sub_matrix accepts exactly the in-range blocks", "statement": "sub_matrix(sr,sc,er,ec) panics whenever the requested block does not lie inside the matrix, and succeeds for every non-empty block that does.", "quantifier": "all matrices, all sr, sc, er, ec", "why_tests_cant": "one out-of-range call is tested; others silently succeed", "anchors": ["src/matrix.rs: sub_matrix"]}
{"id": "C19", "title": "get_column", "statement": "get_column(j) panics unless j<c; otherwise it is the r-by-1 matrix of the j-th column.", "quantifier": "all matrices, all j", "why_tests_cant": "all shapes", "anchors": ["src/matrix.rs: get_column"]}
{"id": "C20", "title": "Row/column permutation and selection by index", "statement": "permute_rows(p) for non-empty p panics if some p[k] >= r, otherwise it is the p.len()-by-c matrix whose row k is row p[k]; permute_columns likewise. Permuting by a permutation and then by its inverse restores the matrix.", "quantifier": "all matrices, all index vectors (also with repeats)", "why_tests_cant": "all shapes and index vectors", "anchors": ["src/matrix.rs: permute_rows, permute_columns"]}
{"id": "C21", "title": "Filtering and boolean selection", "statement": "filter_rows(f)/select_rows(s) return exactly the rows for which f/s is true, in order (same for columns); select_* panics when the selector length differs from the dimension.", "quantifier": "all matrices, all predicates/selectors keeping at least one row/column", "why_tests_cant": "all shapes/predicates", "anchors": ["src/matrix.rs: filter_rows, filter_columns, select_rows, select_columns"]}
{"id": "C22", "title": "Well-formedness is preserved by every history of operations", "statement": "Starting from constructed matrices, after any sequence of API operations that do not panic every matrix satisfies rows()>0, cols()>0 and get_data().len() = rows()*cols().", "quantifier": "all finite operation histories", "why_tests_cant": "histories are unbounded; an empty selection breaks it", "anchors": ["src/matrix.rs: all constructors and operations"]}
{"id": "C23", "title": "No uninitialised memory is observed", "statement": "Although result buffers are allocated uninitialised, no operation reads an element before writing it and no returned matrix contains an element that was not written.", "quantifier": "all inputs of all operations that allocate", "why_tests_cant": "uninitialised reads are invisible to ordinary tests", "anchors": ["src/internalutil.rs: alloc_dirty_vec", "src/matrix.rs: all users", "src/decomp/lu.rs", "src/decomp/qr.rs", "src/decomp/cholesky.rs", "src/decomp/eigen.rs", "src/decomp/svd.rs"]}
{"id": "C24", "title": "Approximate equality and symmetry predicates", "statement": "a.approx_eq(b) is true exactly when shapes agree and all entries differ by less than 1e-6 (so it is reflexive and symmetric in exact arithmetic but not transitive); is_symmetric() is true exactly for square matrices whose mirrored entries differ by less than 1e-6; is_square/is_not_square/is_non_symmetric are as named.", "quantifier": "all matrices", "why_tests_cant": "all shapes/values; tolerance boundary", "anchors": ["src/matrix.rs: approx_eq, is_symmetric, is_non_symmetric, is_square, is_not_square", "src/approxeq.rs: ApproxEq"]}
{"id": "C25", "title": "trace", "statement": "trace() is the sum of the min(r,c) diagonal entries; for square matrices it is the mathematical trace, so it is linear, invariant under t(), and trace(a*b)=trace(b*a).", "quantifier": "all matrices", "why_tests_cant": "all shapes", "anchors": ["src/matrix.rs: trace"]}
{"id": "C26", "title": "Norms", "statement": "On column vectors vector_1_norm is the sum of absolute values, vector_inf_norm the largest absolute value, vector_euclidean_norm/length/vector_2_norm the square root of the sum of squares; frobenius_norm is the square root of the sum of squares of all entries; all are >= 0, zero only for the zero matrix, absolutely homogeneous and satisfy the triangle inequality; the vector norms panic on matrices with more than one column.", "quantifier": "all matrices/vectors over the reals", "why_tests_cant": "universally quantified inequalities", "anchors": ["src/matrix.rs: vector_1_norm, vector_inf_norm, vector_euclidean_norm, vector_2_norm, length, frobenius_norm"]}
{"id": "C27", "title": "p-norm", "statement": "vector_p_norm(p) equals (sum |x_i|^p)^(1/p) for every vector and every p >= 1.", "quantifier": "all real vectors, all real p >= 1", "why_tests_cant": "tests only use odd or even integer p", "anchors": ["src/matrix.rs: vector_p_norm"]}
{"id": "C28", "title": "LU factorisation", "statement": "For every m-by-n matrix A, LUDecomposition::new succeeds and get_p()*A = get_l()*get_u() in exact arithmetic, get_l() is m-by-min(m,n) unit lower trapezoidal, get_u() is min(m,n)-by-n upper trapezoidal, get_piv() is a permutation of 0..m, and get_p() is its permutation matrix. No division by zero is ever performed.", "quantifier": "all matrices of any shape over any ordered field", "why_tests_cant": "rank-deficient inputs of every shape", "anchors": ["src/decomp/lu.rs: LUDecomposition::new, get_l, get_u, get_p, get_piv"]}
{"id": "C29", "title": "LU partial pivoting bounds the multipliers", "statement": "Every entry of get_l() has absolute value at most 1.", "quantifier": "all matrices over any ordered field", "why_tests_cant": "all inputs", "anchors": ["src/decomp/lu.rs: LUDecomposition::new, get_l"]}
{"id": "C30", "title": "Determinant", "statement": "det() panics on non-square matrices; on square ones it equals the mathematical determinant (exact arithmetic), hence is multiplicative, alternating, and invariant under transposition.", "quantifier": "all square matrices over any ordered field", "why_tests_cant": "all sizes; sign bookkeeping of pivots", "anchors": ["src/matrix.rs: det", "src/decomp/lu.rs: LUDecomposition::det"]}
{"id": "C31", "title": "Singularity test", "statement": "is_singular() is true exactly when the determinant is 0 and is_non_singular() is its negation; both panic on non-square input.", "quantifier": "all square matrices over any ordered field", "why_tests_cant": "all inputs", "anchors": ["src/matrix.rs: is_singular, is_non_singular", "src/decomp/lu.rs: is_singular, is_non_singular"]}
{"id": "C32", "title": "solve on square systems", "statement": "For square A and B with as many rows: solve(B) returns Some(X) iff A is non-singular, and then X has B's shape, A*X = B, and X is the only such matrix; it returns None iff A is singular; it panics when row counts differ.", "quantifier": "all square A, all right-hand sides with any number of columns, exact arithmetic", "why_tests_cant": "all sizes and values", "anchors": ["src/matrix.rs: solve", "src/decomp/lu.rs: LUDecomposition::solve"]}
{"id": "C33", "title": "solve on non-square systems", "statement": "For an m-by-n A with m != n, solve(B) either rejects the system or returns an n-row X with A*X = B (or a least-squares X).", "quantifier": "all rectangular A, all B", "why_tests_cant": "never exercised by tests", "anchors": ["src/matrix.rs: solve", "src/decomp/lu.rs: LUDecomposition::solve, is_non_singular"]}
{"id": "C34", "title": "inverse", "statement": "inverse() panics on non-square input, returns None iff the determinant is 0, and otherwise Some(X) with A*X = X*A = I.", "quantifier": "all square matrices over any ordered field", "why_tests_cant": "all sizes and values", "anchors": ["src/matrix.rs: inverse"]}
{"id": "C35", "title": "QR factorisation", "statement": "For every m-by-n real A, QRDecomposition::new, get_q, get_r succeed, get_r() is m-by-n upper trapezoidal, and get_q()*get_r() = A in exact arithmetic; no division by zero or square root of a negative number occurs.", "quantifier": "all real matrices of any shape and rank", "why_tests_cant": "rank-deficient and rectangular inputs", "anchors": ["src/decomp/qr.rs: QRDecomposition::new, get_q, get_r"]}
{"id": "C36", "title": "QR orthogonality", "statement": "get_q() is an m-by-m orthogonal matrix.", "quantifier": "all real matrices of any shape", "why_tests_cant": "tests only check Q*R = A", "anchors": ["src/decomp/qr.rs: get_q"]}
{"id": "C37", "title": "QR rank test", "statement": "is_full_rank() is true exactly when the columns of A are linearly independent, and never panics.", "quantifier": "all real matrices of any shape", "why_tests_cant": "wide inputs index past the diagonal", "anchors": ["src/decomp/qr.rs: is_full_rank"]}
{"id": "C38", "title": "QR least-squares solve", "statement": "For A with full column rank and any B with as many rows, QRDecomposition::solve(B) returns Some(X) with X minimising |A*X - B|; it returns None when A is rank deficient.", "quantifier": "all real A, B", "why_tests_cant": "no test calls it", "anchors": ["src/decomp/qr.rs: solve"]}
{"id": "C39", "title": "Pseudo-inverse", "statement": "For A with linearly independent columns pinverse() returns the Moore-Penrose inverse (A'A)^-1 A' (in particular pinverse()*A = I); otherwise it panics.", "quantifier": "all real matrices", "why_tests_cant": "all shapes and ranks", "anchors": ["src/matrix.rs: pinverse"]}
{"id": "C40", "title": "Cholesky exists exactly for symmetric positive definite matrices", "statement": "CholeskyDecomposition::new(A) is Some iff A is square, symmetric and positive definite; then get_l() is lower triangular with positive diagonal and get_l()*get_l()' = A, and it is the only such matrix; it never panics and never divides by zero.", "quantifier": "all real matrices of any shape", "why_tests_cant": "definiteness is a universally quantified statement", "anchors": ["src/decomp/cholesky.rs: CholeskyDecomposition::new, get_l"]}
{"id": "C41", "title": "Cholesky solve", "statement": "For every A accepted by CholeskyDecomposition::new and every B with as many rows, solve(B) returns X with A*X = B; it panics when row counts differ.", "quantifier": "all SPD A, all B", "why_tests_cant": "all sizes", "anchors": ["src/decomp/cholesky.rs: CholeskyDecomposition::solve"]}
{"id": "C42", "title": "SVD terminates with orthogonal factors and sorted singular values", "statement": "For every non-empty real matrix A, SVD::new(A) terminates without a panic, a division by zero or an uninitialised read; U (m-by-m) and V (n-by-n) are orthogonal, S is m-by-n, zero off the diagonal, with S[0][0] >= S[1][1] >= ... >= 0 (exact arithmetic).", "quantifier": "all real matrices of any shape", "why_tests_cant": "the iteration count is data dependent and termination rests on a convergence argument (Wilkinson shift)", "anchors": ["src/decomp/svd.rs: SVD::new, get_u, get_s, get_v"]}
{"id": "C43", "title": "SVD reconstructs the input", "statement": "Whenever SVD::new(A) returns, U*S*V' = A up to the deflation tolerance: the Frobenius error is at most (number of deflations) * (tiny + 2*eps*|A|_F) in exact arithmetic.", "quantifier": "all real matrices, any number of iterations", "why_tests_cant": "iteration count is data dependent", "anchors": ["src/decomp/svd.rs: SVD::new"]}
{"id": "C44", "title": "SVD rank", "statement": "rank() never panics and returns the number of singular values above max(m,n)*sigma_max*eps.", "quantifier": "all real matrices", "why_tests_cant": "tall inputs are not tested", "anchors": ["src/decomp/svd.rs: SVD::rank"]}
{"id": "C45", "title": "Symmetric eigendecomposition: tridiagonalisation", "statement": "For symmetric A the first phase yields orthogonal V and a symmetric tridiagonal T with A = V*T*V' exactly, without division by zero.", "quantifier": "all real symmetric matrices", "why_tests_cant": "all sizes and values", "anchors": ["src/decomp/eigen.rs: tred2"]}
{"id": "C46", "title": "Symmetric eigendecomposition: result", "statement": "Whenever EigenDecomposition::new(A) returns on a symmetric A, all imaginary parts are 0, the real eigenvalues are sorted in decreasing order and V is orthogonal (exact arithmetic).", "quantifier": "all real symmetric matrices, any number of QL iterations", "why_tests_cant": "iteration count is data dependent", "anchors": ["src/decomp/eigen.rs: tred2, tql2, EigenDecomposition::new"]}
{"id": "C47", "title": "Eigendecomposition rejects non-square input", "statement": "EigenDecomposition::new(A) panics when A is not square.", "quantifier": "all non-square matrices", "why_tests_cant": "no test passes a rectangular matrix", "anchors": ["src/decomp/eigen.rs: EigenDecomposition::new"]}
{"id": "C48", "title": "Nonsymmetric eigendecomposition: Hessenberg reduction", "statement": "The first phase yields an orthogonal V and an upper Hessenberg H with A = V*H*V' exactly, without division by zero.", "quantifier": "all real square matrices", "why_tests_cant": "all sizes and values", "anchors": ["src/decomp/eigen.rs: orthes"]}
{"id": "C49", "title": "Complex eigenvalues come in adjacent conjugate pairs", "statement": "In a returned decomposition every positive imaginary part at position i is followed by its negative at i+1 with the same real part, and every negative one is preceded by its conjugate; get_d() therefore never panics and is block diagonal with blocks [l] and [l, m; -m, l].", "quantifier": "all real square matrices, any number of iterations", "why_tests_cant": "iteration count is data dependent", "anchors": ["src/decomp/eigen.rs: hqr2, get_d, get_real_eigenvalues, get_imag_eigenvalues"]}
{"id": "C50", "title": "Complex division helper", "statement": "The internal complex division used for eigenvectors computes (xr+i*xi)/(yr+i*yi) exactly for every nonzero divisor.", "quantifier": "all real xr, xi, yr, yi", "why_tests_cant": "continuum of inputs; two code branches", "anchors": ["src/decomp/eigen.rs: cdiv"]}
{"id": "C51", "title": "hypot", "statement": "hypot(a,b) = sqrt(a^2+b^2) for all reals, without dividing by zero and without any intermediate larger than sqrt(2)*max(|a|,|b|) or 2.", "quantifier": "all reals", "why_tests_cant": "continuum of inputs", "anchors": ["src/internalutil.rs: hypot"]}
{"id": "C52", "title": "CSV reading", "statement": "read_csv of a text whose lines each hold the same number c of comma separated fields yields the matrix of parsed, trimmed fields; a text with lines of different field counts, or with no lines, panics. Writing a matrix as CSV and reading it back returns the matrix.", "quantifier": "all texts, all parsers", "why_tests_cant": "no tests at all", "anchors": ["src/util.rs: read_csv"]}
{"id": "C53", "title": "Debug formatting is aligned and total", "statement": "Formatting never panics; it is a newline followed by one line per row, each '|' + right-aligned cells + ' |', and all row lines have the same length.", "quantifier": "all matrices, all element renderings", "why_tests_cant": "no tests check the text", "anchors": ["src/matrix.rs: Debug::fmt, print"]}
{"id": "C54", "title": "random has the requested shape", "statement": "random(r,c) is an r-by-c matrix whose entries are consecutive draws of the generator in row-major order.", "quantifier": "all r, c > 0, all generator outputs", "why_tests_cant": "unbounded shapes", "anchors": ["src/matrix.rs: random"]}
{"id": "C55", "title": "Calls change only their receiver", "statement": "A call changes no matrix other than the receiver of a `&mut self` method (set, mmap, mt, mneg, mscale, madd, msub, melem_mul, melem_div, mmul): along any history of API calls a matrix that is never used as a mutable receiver keeps its shape and its elements, and calls on `&self` create at most one new matrix.", "quantifier": "all histories of calls, all matrices", "why_tests_cant": "unbounded histories; aliasing bugs only show in combination", "anchors": ["src/matrix.rs: mt, mneg, madd, msub, mmul, mscale, set, mmap and all by-value methods"]}
{"id": "C56", "title": "Symmetric eigendecomposition: reconstruction and termination", "statement": "For every symmetric A, EigenDecomposition::new(A) terminates and V*diag(d)*V' differs from A by at most 9*n*2^-52 times the Frobenius norm of A (exact arithmetic; only deflations lose information).", "quantifier": "all real symmetric matrices of all sizes", "why_tests_cant": "continuum of inputs; termination of a data dependent iteration", "anchors": ["src/decomp/eigen.rs: tred2, tql2, EigenDecomposition::new"]}
{"id": "C57", "title": "Nonsymmetric eigenvalues are those of a nearby matrix", "statement": "When EigenDecomposition::new(A) returns on a nonsymmetric A, the values d[i] + i*e[i] are, with multiplicity, exactly the roots of the characteristic polynomial of a matrix B; each deflation or QR step of the run adds a relative error of at most (4n+24)*2^-52 to ||A - B|| (exact arithmetic; only dropped entries lose information).", "quantifier": "all nonsymmetric real square matrices, any number of QR steps", "why_tests_cant": "continuum of inputs, data dependent iteration count", "anchors": ["src/decomp/eigen.rs: orthes, hqr2, EigenDecomposition::new"]}
{"id": "C58", "title": "Nonsymmetric eigenvectors satisfy A*V = V*D", "statement": "When EigenDecomposition::new(A) returns on a nonsymmetric A, with D = get_d(): every column of A*V - V*D is at most (n*2^-52 + (1+(4n+24)*2^-52)^steps - 1) * ||A|| times the norm of the same column of V (columns of an exactly repeated complex pair excepted), and eigenvector columns are not zero.", "quantifier": "all nonsymmetric real square matrices, any number of QR steps", "why_tests_cant": "continuum of inputs, data dependent iteration count", "anchors": ["src/decomp/eigen.rs: hqr2, EigenDecomposition::new, get_d, get_v"]}
{"id": "C59", "title": "SVD by the direct method", "statement": "SVD::direct(A) returns orthogonal U and V and a diagonal S with decreasing non-negative entries such that U*S*V' = A, for every non-empty matrix (exact arithmetic).", "quantifier": "all real matrices of any shape", "why_tests_cant": "rank-deficient and tall inputs are only tested for reconstruction of one sample, never for orthogonality", "anchors": ["src/decomp/svd.rs: SVD::direct"]}
{"id": "C60", "title": "Decompositions never panic, whatever the element arithmetic", "statement": "LU::new/get_l/get_u/is_non_singular, solve, inverse, det, Cholesky::new/solve, QR::new/get_h/get_r/get_q return a value of the documented shape on every non-empty matrix, and SVD::new never panics (it returns matrices of the documented shapes or keeps iterating), for any element arithmetic in which division and square root always return, in particular IEEE floats with NaN, infinities and rounding.", "quantifier": "all shapes, all element values including NaN, all float arithmetics", "why_tests_cant": "rounding, NaN and comparisons with NaN take paths no exact-arithmetic argument covers", "anchors": ["src/decomp/lu.rs, src/decomp/cholesky.rs, src/decomp/qr.rs, src/decomp/svd.rs: new"]}
{"id": "C61", "title": "Rounding error of the matrix product", "statement": "Computed in floating point (unit roundoff u, underflow unit eta), entry (i,j) of a*b with inner dimension p differs from the exact one by at most ((1+u)^(p+1) - 1) * sum_k |a_ik||b_kj| + p*(1+u)^p*eta whenever it is finite, and it is finite whenever that sum of absolute values, enlarged by the same factor, is in range (for f64: entries at most 2^500 and at most a million columns).", "quantifier": "all shapes, all finite element values, every binary floating-point format", "why_tests_cant": "rounding depends on every bit of the input; bounds must hold for all inputs and sizes", "anchors": ["src/matrix.rs: Mul, mmul"]}
{"id": "C62", "title": "Backward error and growth of the LU decomposition", "statement": "In floating point the computed factors satisfy |P*A - L*U| <= ((1+u)^(r+1) - 1) * |L||U| plus an underflow term, r = min(m,n); every multiplier is at most 1+u+eta in absolute value; entries of U grow at most by 3 per step, so the factors are finite when 3^r times the largest entry is in range (for f64: r <= 100 and entries at most 2^800).", "quantifier": "all shapes, all finite element values, every binary floating-point format", "why_tests_cant": "the error of elimination accumulates over all steps; no sample bounds it", "anchors": ["src/decomp/lu.rs: LUDecomposition::new, get_l, get_u, get_piv"]}
{"id": "C63", "title": "Backward error of solve", "statement": "In floating point solve returns None exactly when a computed diagonal entry of U is zero; otherwise the residual |P*B - P*A*X| of a finite result is at most ((1+u)^(3n+1) - 1) * |L||U||X| plus an underflow term.", "quantifier": "all square systems with finite element values, every binary floating-point format", "why_tests_cant": "rounding errors of factorisation and both substitutions combine", "anchors": ["src/decomp/lu.rs: solve; src/matrix.rs: solve"]}
{"id": "C64", "title": "Cholesky in floating point", "statement": "In floating point an accepted matrix satisfies |A - L*L'| <= ((1+u)^(n+2) - 1) * |L||L|' plus an underflow term, L is lower triangular with positive diagonal, and the residual of solve is at most ((1+u)^(3n+2) - 1) * |L||L|'|X| plus an underflow term; every symmetric matrix that is positive definite with a margin of about ((1+u)^(n+4) - 1) times its largest entry is accepted with a finite factor.", "quantifier": "all finite matrices, every binary floating-point format", "why_tests_cant": "acceptance near singularity depends on rounding; no sample settles it", "anchors": ["src/decomp/cholesky.rs: CholeskyDecomposition::new, get_l, solve"]}
{"id": "C65", "title": "A call with an internal loop has one outcome", "statement": "mt, SVD::new, SVD::direct and EigenDecomposition::new are deterministic: if a call is over after some number of iterations, with a value or a panic, then it has that outcome whatever the number of iterations allowed.", "quantifier": "all matrices, all element arithmetics, all numbers of iterations", "why_tests_cant": "quantifies over all run lengths", "anchors": ["src/matrix.rs: mt; src/decomp/svd.rs: SVD::new, SVD::direct; src/decomp/eigen.rs: EigenDecomposition::new"]}
{"id": "C66", "title": "Which panics the eigendecomposition can raise in floating point", "statement": "For any element arithmetic with total division and square root and the usual laws of signs (in particular f64), EigenDecomposition::new on a matrix with at least as many rows as columns either keeps iterating, or returns n real parts, n imaginary parts and an n-by-n V on which get_d does not panic; the only panic is an index out of bounds for symmetric input (it does occur, for finite f64 matrices such as [0,1e-160;1e-160,1e160]); for nonsymmetric input there is no panic.", "quantifier": "all shapes m >= n > 0, all element values including NaN and infinities, all arithmetics with these laws, any number of iterations", "why_tests_cant": "the paths taken after NaN or overflow are not reached by tests", "anchors": ["src/decomp/eigen.rs: EigenDecomposition::new, orthes, hqr2, tred2, tql2, get_d"]}
{"id": "C67", "title": "The eigenvalue iteration does not stop on NaN", "statement": "EigenDecomposition::new on a matrix of NaNs with n >= 3 never returns and never panics; the same happens for finite f64 matrices whose squares overflow, such as 1e160*[1,2,3;4,5,6;7,8,10].", "quantifier": "all shapes with at least 3 columns, all numbers of iterations", "why_tests_cant": "non-termination is not testable", "anchors": ["src/decomp/eigen.rs: hqr2, EigenDecomposition::new"]}
{"id": "C68", "title": "The SVD iteration does not stop on NaN", "statement": "SVD::new on a matrix of NaNs with at least two rows and two columns never returns and never panics; the same happens for finite f64 matrices whose norm overflows, such as the 3-by-3 matrix of 8e307.", "quantifier": "all shapes with at least 2 rows and columns, all numbers of iterations", "why_tests_cant": "non-termination is not testable", "anchors": ["src/decomp/svd.rs: SVD::new"]}
{"id": "C69", "title": "Small decompositions always stop", "statement": "SVD::new on a matrix with one row or one column always returns with the documented shapes, and EigenDecomposition::new on a matrix with one or two columns that does not compare symmetric always returns within n iterations; this holds for NaN and infinite entries too, so the sizes in C67 and C68 are the smallest at which NaN makes them hang.", "quantifier": "all shapes with min(m,n)=1 (SVD), all nonsymmetric shapes with n <= 2 (eigenvalues), all element values including NaN and infinities, all arithmetics with these laws", "why_tests_cant": "termination for every value, including those that break every comparison", "anchors": ["src/decomp/svd.rs: SVD::new; src/decomp/eigen.rs: EigenDecomposition::new, hqr2"]}
{"id": "C70", "title": "Stale variables do not influence eigenvectors", "statement": "The back-substitution of EigenDecomposition::new shares work variables between vectors and with the preceding iteration; the result does not depend on the values these variables hold when a vector is started, for any matrix, in f64 (NaN and infinities included) and in exact arithmetic.", "quantifier": "all matrices, all stale values, all numbers of iterations", "why_tests_cant": "the branch that could read a stale value is only entered in states tests do not construct", "anchors": ["src/decomp/eigen.rs: hqr2, EigenDecomposition::new"]}
{"id": "C71", "title": "Sizes that overflow are detected", "statement": "For a w-bit usize, a*b, id(m,n), zero(m,n), diag(v), block_diag(m,n,v) and random(m,n) return the m-by-n matrix asked for, or panic when its number of elements cannot be counted or allocated; they never return a matrix with another number of elements.", "quantifier": "all sizes, all word sizes, debug and release builds", "why_tests_cant": "overflow needs sizes near the word size", "anchors": ["src/matrix.rs: Mul, id, zero, diag, block_diag, random; src/internalutil.rs: alloc_dirty_vec"]}
{"id": "C72", "title": "Rounding errors of entrywise operations, trace and norms", "statement": "For a finite result: each entry of a+b, a-b, a.elem_mul(b), a.scale(k) is off by one rounding; trace() by at most ((1+u)^r-1) times the sum of the |a_ii|, r = min(rows, cols); vector_1_norm() by a factor (1+u)^n; vector_euclidean_norm(), vector_2_norm(), length() and frobenius_norm() of k entries by a relative (1+u)^(k+2)-1 plus an underflow term; vector_inf_norm() is exact. trace and the norms are finite when the sum they form (of squares, for the Euclidean ones) leaves room for the rounding errors.", "quantifier": "all shapes, all entries of any floating-point format", "why_tests_cant": "tests compare with tolerances on samples", "anchors": ["src/matrix.rs: Add, Sub, elem_mul, scale, trace, vector_1_norm, vector_euclidean_norm, vector_inf_norm, frobenius_norm"]}
{"id": "C73", "title": "hypot in floating point", "statement": "hypot(a, b), the root of a^2+b^2 on which all decompositions rest, of finite a and b is finite and has a relative error of a few roundings unless the true value itself is beyond the range: squaring neither overflows nor underflows. For f64 the error is at most 2^-50 of the value plus 2^-1074, for all values up to 2^1022.", "quantifier": "all pairs of finite numbers", "why_tests_cant": "the dangerous magnitudes are rare", "anchors": ["src/internalutil.rs: hypot"]}
{"id": "C74", "title": "Rounding errors of determinant and inverse", "statement": "The computed det(a) is, up to n roundings (and underflow), the exact determinant of a matrix that differs from a by the backward error of the factorisation; inverse() returns None exactly if a computed pivot is zero, and otherwise the residual I - a*x is at most ((1+u)^(3n+1)-1) |L||U||X| plus an underflow term.", "quantifier": "all square matrices with finite factors, any floating-point format", "why_tests_cant": "tests compare with tolerances on samples", "anchors": ["src/matrix.rs: det, inverse", "src/decomp/lu.rs: new, det, solve"]}
{"id": "C75", "title": "NaN is not lost", "statement": "In IEEE arithmetic a NaN entry of an operand reaches the result: entry (i,j) of a+b, a-b, a.elem_mul(b), a.scale(k) and of a*b is NaN if an entry it depends on is; trace (NaN on the diagonal), vector_1_norm, vector_euclidean_norm, vector_2_norm, length, frobenius_norm and det are NaN; approx_eq is false; solve returns None or a solution with a NaN in each column affected, inverse None or a NaN in every column; Cholesky returns None for a NaN off the diagonal. The exceptions: vector_inf_norm passes over NaNs that are not in the first entry; hypot(NaN, 0) is 0; Cholesky accepts a NaN on the diagonal (its factor then holds NaNs, and solving with it gives NaNs in every column).", "quantifier": "all shapes, all entries, all positions of the NaNs", "why_tests_cant": "the positions and the mixture with infinities and zeros are not enumerable", "anchors": ["src/matrix.rs: Add, Sub, Mul, elem_mul, scale, trace, norms, approx_eq, det, solve, inverse", "src/decomp/lu.rs: new, det, solve", "src/decomp/cholesky.rs: new, solve", "src/internalutil.rs: hypot"]}
{"id": "C76", "title": "Approximate equality on f64", "statement": "On f64, a.approx_eq(b) is symmetric in a and b and false for different shapes; it is true only if all entries of both are finite and differ by less than 1e-6 (up to one part in 2^50), and true if they do. So a.approx_eq(a) is true exactly if a has no NaN and no infinity. is_symmetric is the same test of the entries off the diagonal against their mirror images; the diagonal may hold anything.", "quantifier": "all shapes, all f64 values including NaN and infinities", "why_tests_cant": "equality near the tolerance and infinities minus infinities need every value", "anchors": ["src/matrix.rs: approx_eq, is_symmetric", "src/approxeq.rs: approx_eq"]}
{"id": "C77", "title": "QR decomposition in floating point", "statement": "If get_r() and get_h() are finite and no squared diagonal entry of R underflows or overflows, QRDecomposition is backward stable: there is an exactly orthogonal Q such that each column of a differs from that of Q*get_r() by a relative error of min(m,n) times a few m roundings (plus an underflow term), and the first min(m,n) columns of get_q() differ from those of Q by as much; so they are orthonormal and get_q()*get_r() is a, up to rounding. For f64, diagonal entries between 2^-480 and 2^500 and (m+4)*min(m,n) <= 2^40, the relative error is at most (m+4)*min(m,n)*2^-47. Outside this range it fails silently: the column 1e-170 gives NaN, columns of norm about 1e154 finite but wrong factors.", "quantifier": "all shapes, all entries of any floating-point format within the range", "why_tests_cant": "tests compare with tolerances on samples", "anchors": ["src/decomp/qr.rs: QRDecomposition::new, get_q, get_r, get_h"]}
{"id": "C78", "title": "A vector returned by power_method is an approximate eigenvector", "statement": "In exact arithmetic, if power_method(a, q, eps) returns y, there is l > 0 with |a*y - l*y| <= |a|_F * eps, and the first two elements of y have largest absolute value 1. A matrix that is not square, a start vector of another length or with several columns panics. For float elements nothing else panics: the call returns an n-by-1 matrix, the same however long one waits, or does not return.", "quantifier": "all square matrices, start vectors, tolerances, numbers of iterations", "why_tests_cant": "the iteration count is unbounded", "anchors": ["src/eig/powermethod.rs: power_method, max_elem (the module is commented out of src/lib.rs)"]}
{"id": "C79", "title": "power_method stops when there is a dominant eigenvalue", "statement": "If q is a sum of eigenvectors of a and one of their eigenvalues is larger in absolute value than the others, power_method(a, q, eps) returns for every eps > 0.", "quantifier": "all matrices, start vectors and tolerances", "why_tests_cant": "the iteration count is unbounded", "anchors": ["src/eig/powermethod.rs: power_method, max_elem"]}
{"id": "C80", "title": "Index arithmetic with machine words", "statement": "On a machine with w-bit usize, in debug and release builds alike, get, set, trace, t, get_column, minor, cr, cb, permute_rows, permute_columns and sub_matrix on matrices that fit in memory return what they return when indices are computed with unbounded integers, and panic if that would panic; no index wraps to another element. If the result is too large to be counted or allocated, the call panics.", "quantifier": "all matrices of at most cap elements, 2*cap+2 <= 2^w, all word sizes, all index arguments including those near 2^w", "why_tests_cant": "a test cannot allocate the sizes, nor try all index arguments", "anchors": ["src/matrix.rs: get, set, get_ref, get_mref, trace, t, get_column, minor, cr, cb, permute_rows, permute_columns, sub_matrix"]}
{"id": "C81", "title": "Closures are called once per element, in order", "statement": "map, reduce, filter_rows, filter_columns, the element generator of random and the parser of read_csv are called in a fixed order, once for each element (row, column, field), each with the arguments the documentation suggests, and not at all after the first call that panics; so side effects of the closure (counters, logs, generators) are predictable, and the result is made of the answers in that order.", "quantifier": "all closures, with any side effects and any panics, all shapes, all files", "why_tests_cant": "the closure is arbitrary code", "anchors": ["src/matrix.rs: map, reduce, filter_rows, filter_columns, random", "src/util.rs: read_csv"]}
{"id": "C82", "title": "What a panic leaves behind", "statement": "If a mutating call (mmap, mneg, mscale, madd, msub, melem_mul, melem_div, mmul, mt, set) panics half way, because of a closure, an element operation or a check, and the panic is caught, the receiver is still a matrix of the same shape: the elements already visited hold their new values, the others the old ones; a shape mismatch and a panic in mmul change nothing; set changes nothing if it panics; mt loses no element. So after any history of calls and caught panics the matrix can be used on.", "quantifier": "all closures and element types, all points at which they panic, all histories", "why_tests_cant": "the panic can occur at every element, the histories are unbounded", "anchors": ["src/matrix.rs: mmap, mneg, mscale, madd, msub, melem_mul, melem_div, mmul, mt, set"]}
{"id": "C83", "title": "Element operations are performed in a fixed order", "statement": "-a, scale, +, -, elem_mul and elem_div perform one element operation per entry, in row-major order, with the operands in the order written; a*b forms each entry, row by row, as ((0 + a_i0*b_0j) + a_i1*b_1j) + ..., and nothing else; so for element types whose operators panic, log or are not associative the outcome is determined. A shape mismatch panics before any element operation.", "quantifier": "all element types, with any operators, all shapes", "why_tests_cant": "the operators are arbitrary code", "anchors": ["src/matrix.rs: Neg, scale, Add, Sub, elem_mul, elem_div, Mul"]}
{"id": "C84", "title": "Matrices of integers", "statement": "For i8...i128 and u8...u128 in debug builds: a+b, a-b, a.elem_mul(b), -a and a.scale(k) are exact if all entries of the result fit in the type and panic otherwise; a*b is exact if all products and all partial sums (from the left) fit, and panics otherwise. In release builds every entry is the exact one modulo 2^bits, even if partial sums overflow. elem_div truncates towards zero, and panics in both builds if a divisor is zero or a quotient does not fit.", "quantifier": "all integer types, all shapes, all entries", "why_tests_cant": "overflow depends on all entries and the order of addition", "anchors": ["src/matrix.rs: Neg, scale, Add, Sub, elem_mul, elem_div, Mul"]}
{"id": "C85", "title": "Laws of algebra that survive rounding", "statement": "For f64: a+b = b+a, a.elem_mul(b) = b.elem_mul(a), (a*b).t() = b.t()*a.t(), -(-a) = a, a-b = a+(-b), a.scale(1) = a and a.scale(-1) = -a bit for bit (NaN counting as one value); a.t()*a and a*a.t() are exactly symmetric, with no negative diagonal entry; b-a = -(a-b), (-a)*b = a*(-b) = -(a*b) and a+0 = a up to the sign of zeros; a finite matrix times the identity, on either side, is itself with -0 turned into +0, and an infinite or NaN entry turns the rest of its row (column) into NaN; a-a is 0 where a is finite and NaN elsewhere.", "quantifier": "all f64 matrices, including infinities, NaN and signed zeros", "why_tests_cant": "one rounding difference in 2^64 entries would break them", "anchors": ["src/matrix.rs: Add, Sub, Mul, Neg, elem_mul, scale, t, id, zero"]}
{"id": "C86", "title": "Exactness on small fixed-point numbers", "statement": "For f64 matrices whose entries are integer multiples of a power of two (integers, halves, quarters ...), +, -, negation, elem_mul, scale, *, trace and vector_1_norm are exact as long as the result, and for *, trace and the norm the sum of the absolute values of the terms, is at most 2^53 units. In particular the product of matrices of integers bounded by s and t, with inner dimension n and n*s*t <= 2^53, is the integer product.", "quantifier": "all shapes, all such entries, all units 2^e within the exponent range", "why_tests_cant": "the set of inputs is astronomically large", "anchors": ["src/matrix.rs: Add, Sub, Mul, Neg, elem_mul, scale, trace", "src/norm.rs: vector_1_norm"]}
{"id": "C87", "title": "Equality of matrices", "statement": "a == b holds if and only if the shapes agree and all entries are ==. For element types with exact == it is equality of values. For f64 it is symmetric and transitive, a == a holds if and only if a has no NaN, equal operands give equal results for +, -, *, elem_mul, scale and negation if the result has no NaN (not for elem_div: 1/0 and 1/-0 differ), and equal finite matrices are approx_eq.", "quantifier": "all matrices of any shapes and element types", "why_tests_cant": "relations between unboundedly many matrices", "anchors": ["src/matrix.rs: derive(PartialEq) for Matrix, approx_eq"]}
{"id": "C88", "title": "Rows and columns of a product are independent", "statement": "For any element type: a column of a*b is a times that column of b; selecting or repeating rows of a (columns of b) selects the rows (columns) of the product; products of concatenated matrices are concatenated products; entry (i,j) depends only on row i of a and column j of b.", "quantifier": "all shapes, all index lists, all element operations", "why_tests_cant": "must hold for every element type, lawful or not", "anchors": ["src/matrix.rs: Mul, get_column, permute_rows, permute_columns, cr, cb, get"]}
{"id": "C89", "title": "Eigenvalues of an upper triangular matrix", "statement": "EigenDecomposition::new on an upper triangular matrix that is not diagonal returns after at most n QR steps with the diagonal of the matrix as real parts, in order, and zero imaginary parts: exactly so for f64 with no NaN and no subnormal entry (infinities allowed; -0 becomes +0). In exact arithmetic V is upper triangular and invertible, and if the diagonal has no repetition A = V*D*V^-1 exactly; in general each column is an eigenvector up to 2^-52 * sum|a_ij| relative to its entries.", "quantifier": "all upper triangular matrices of every size", "why_tests_cant": "all sizes and all entries; the iteration has no bound in general", "anchors": ["src/decomp/eigen.rs: new, orthes, hqr2, get_d, get_v"]}
{"id": "C90", "title": "Eigenvalues of a diagonal matrix", "statement": "EigenDecomposition::new on a diagonal matrix returns without iterating: the eigenvalues are the diagonal in descending order, the imaginary parts are zero, V is the permutation matrix of the sort (the identity if the diagonal was in order), D the sorted diagonal matrix, and A = V*D*V^T exactly. For f64 bit for bit (-0 becomes +0), for all entries but NaN, infinities and subnormal numbers included.", "quantifier": "all diagonal matrices of every size", "why_tests_cant": "all sizes and all entries; the iteration has no bound in general", "anchors": ["src/decomp/eigen.rs: new, tred2, tql2, get_d, get_v"]}
{"id": "C91", "title": "Forward error, and when solve gives up", "statement": "For a nonsingular A, the x returned by solve(b) (and by Cholesky::solve, and the matrix returned by inverse()) differs from the exact A^-1 b by at most |A^-1| times an explicit residual bound, computed from the factors; solve and inverse return None only if some matrix within the backward error of the factorization is singular, so a matrix further from all singular ones is always solved.", "quantifier": "all matrices and right-hand sides with finite factors, all floating-point formats", "why_tests_cant": "rounding errors for every input", "anchors": ["src/matrix.rs: solve, inverse", "src/decomp/lu.rs: new, solve", "src/decomp/cholesky.rs: new, solve"]}
{"id": "C92", "title": "Right-hand sides are solved one by one", "statement": "Solving with several right-hand sides gives, bit for bit, what solving for each column alone gives: for any selection, order or repetition of columns of b, and for b.cr(c); None does not depend on the right-hand side. Column j of inverse() is solve(e_j). The same holds for Cholesky::solve.", "quantifier": "all matrices, right-hand sides and selections of columns, all floating-point formats", "why_tests_cant": "bitwise equality for every input and every selection", "anchors": ["src/matrix.rs: solve, inverse, cr, get_column", "src/decomp/lu.rs: solve", "src/decomp/cholesky.rs: solve"]}
{"id": "C93", "title": "The order of the equations does not matter", "statement": "For f64, if the factors of a are finite, all multipliers are below 1 in absolute value (no ties between pivots) and no pivot except possibly the last is zero, then permuting the rows of a leaves get_l() and get_u() bitwise the same; permuting a and b together leaves solve(b) bitwise the same; inverse() has its columns permuted alike, and det() is the same up to the sign of the permutation, exactly. With ties this is false (a 2 x 2 example gives different last digits).", "quantifier": "all f64 matrices without ties, all permutations of the rows", "why_tests_cant": "bitwise equality for every matrix and all n! permutations", "anchors": ["src/matrix.rs: solve, inverse, det, permute_rows, permute_columns", "src/decomp/lu.rs: new, get_l, get_u, get_piv, det, solve"]}
{"id": "C94", "title": "Changing signs", "statement": "For f64, changing the signs of rows and columns of a (and of the rows and columns of b accordingly) leaves the pivots as they are and changes the signs of l, u, det(), solve(b) and inverse() as in exact arithmetic, and nothing else, to the last bit; only the signs of zeros may differ, and None stays None. In particular (-a).solve(b) = a.solve(-b) = -a.solve(b), (-a).solve(-b) = a.solve(b); replacing -0 by 0 in the input changes at most signs of zeros in the output. The same holds for CholeskyDecomposition::new and solve for symmetric changes of rows and columns.", "quantifier": "all f64 matrices including infinities and NaN, all patterns of signs", "why_tests_cant": "bitwise equality for every matrix and all 4^n sign patterns", "anchors": ["src/matrix.rs: solve, inverse, det, Neg", "src/decomp/lu.rs: new, get_l, get_u, get_piv, det, solve", "src/decomp/cholesky.rs: new, get_l, solve"]}
{"id": "C95", "title": "Triangular systems, diagonal and permutation matrices", "statement": "For f64, if the rows of a are those of a finite upper triangular matrix t in any order, the pivots are that order, l is the identity and u is t, with no rounding; solve(b) for finite b is back substitution with t; a zero on the diagonal of t gives None; det() is the sign of the order times the product of the diagonal from the top. If t is diagonal, the solution and the inverse are the correctly rounded quotients, if those are finite (an overflow in one unknown spoils the others). For a permutation matrix solve, inverse (the transpose) and det are exact. Only signs of zeros may differ.", "quantifier": "all finite upper triangular f64 matrices of every size, all orders of the rows, all finite right-hand sides", "why_tests_cant": "bitwise equality for every matrix and all n! orders", "anchors": ["src/matrix.rs: solve, inverse, det", "src/decomp/lu.rs: new, get_l, get_u, get_piv, det, solve"]}
{"id": "C96", "title": "Changing signs in the QR decomposition", "statement": "For f64, changing the signs of rows and columns of a changes the signs of get_h(), get_r(), get_q() and pinverse() as in exact arithmetic, and nothing else, to the last bit (only signs of zeros may differ), if no pivot entry is lost in its reflection (in particular none is zero) where the sign of the diagonal changes; pinverse panics for both or for neither. Replacing 0 by -0 changes at most signs of zeros, for every matrix. Products follow the signs of their factors. If a pivot is exactly zero the claim is false: negating the column (0, 1) does not negate R.", "quantifier": "all f64 matrices of any shape including infinities and NaN, all patterns of signs", "why_tests_cant": "bitwise equality for every matrix and all 2^(m+n) sign patterns", "anchors": ["src/decomp/qr.rs: new, get_h, get_r, get_q", "src/matrix.rs: pinverse, Mul"]}
{"id": "C97", "title": "Singular values of a diagonal matrix", "statement": "For a finite diagonal f64 matrix of any shape, SVD::new returns within min(m,n) iterations, without rounding, overflow or underflow: the singular values are exactly the absolute values of the diagonal, in descending order; the columns of U and V are unit vectors up to sign, in the order of the singular values; the rest of S is zero; U * S * V.t() computed in f64 is the matrix (only signs of zeros may differ). For m <= n rank() is the number of entries above max(m,n)*|largest|*2^-52 in absolute value.", "quantifier": "all finite diagonal f64 matrices of every shape, zeros and negative numbers of any magnitude included", "why_tests_cant": "all shapes and entries; the iteration has no bound in general", "anchors": ["src/decomp/svd.rs: new, get_u, get_s, get_v, rank", "src/matrix.rs: Mul, t"]}
{"id": "C98", "title": "Appended columns and leading blocks", "statement": "The decompositions work from left to right. For [a | b] = a.cr(b): get_h(), get_r() and the first columns of get_q() of the QR decomposition of [a | b] are those of a, bit for bit; get_l(), get_u() and get_piv() of its LU decomposition are those of a up to exchanges of rows beyond the n-th made for the columns of b (none, if a has at least as many columns as rows). The Cholesky factor of a leading block is the leading block of the Cholesky factor; if a leading block is rejected, so is the matrix.", "quantifier": "all matrices a, b of all shapes and contents (NaN, infinities, rank-deficient), all arithmetics with total division and square root", "why_tests_cant": "bitwise equality for every input and every extension", "anchors": ["src/decomp/lu.rs: new, get_l, get_u, get_piv", "src/decomp/qr.rs: new, get_h, get_r, get_q", "src/decomp/cholesky.rs: new, get_l", "src/matrix.rs: cr"]}
{"id": "C99", "title": "Transposed input", "statement": "For a matrix that is not square, SVD::new and SVD::direct of the transpose return, bit for bit, U and V exchanged and S transposed, with the same number of iterations and the same panics. For square matrices this is false (a 1 x 1 example). trace() of the transpose is the same for every arithmetic; for f64 is_symmetric() is the same, and CholeskyDecomposition::new accepts both or neither, with factors that differ at most in signs of zeros.", "quantifier": "all matrices, every iteration budget", "why_tests_cant": "bitwise equality for every input, over an iteration without a bound", "anchors": ["src/decomp/svd.rs: new, direct", "src/matrix.rs: t, trace, is_symmetric", "src/decomp/cholesky.rs: new"]}
{"id": "C100", "title": "SVD in rounded arithmetic", "statement": "If every operation is correct up to a relative error u (no overflow, no underflow), SVD::new does not panic, divide by zero or take the root of a negative number. What it returns within k iterations is the exact singular value decomposition of a matrix that differs from a by at most delta*(|a| + 2^-915) in the Frobenius norm, up to errors delta*sqrt(m), delta*sqrt(n) in U and V, where delta depends on u, m, n and k only (about min(m,n)*(k+1)*(10*max(m,n)+9)*2^-48 for u = 2^-53). So U and V are orthogonal up to rounding, the product U*S*V' is a up to rounding, and the diagonal of S is non-negative and sorted, whatever the condition of a.", "quantifier": "all matrices of all shapes and contents, all arithmetics of the standard model, every number of iterations", "why_tests_cant": "error bounds over all inputs and all patterns of rounding errors, over an iteration without a bound", "anchors": ["src/decomp/svd.rs: new, get_u, get_s, get_v"]}
{"id": "C101", "title": "Computed singular values", "statement": "The k-th entry on the diagonal of the S returned by SVD::new is the k-th singular value of a: in exact arithmetic up to (min(m,n)-1)*(2^-966 + 2^-51*|a|) (the entries the code neglects), in rounded arithmetic up to delta*(|a| + 2^-915) with the delta of C100; the Frobenius norm of S is that of a up to the same bound. No matrix of rank at most k is closer to a than the k-th entry, and a maps the columns of V to the columns of U times the diagonal entries, up to rounding.", "quantifier": "all matrices of all shapes and contents, all exact decompositions to compare with, every number of iterations", "why_tests_cant": "all inputs; the exact singular values are not computable", "anchors": ["src/decomp/svd.rs: new, get_s"]}
{"id": "C102", "title": "Computed eigenvalues", "statement": "In exact arithmetic, for a symmetric matrix the k-th value returned by EigenDecomposition::new is the k-th largest eigenvalue (root of the characteristic polynomial) up to 9*n*2^-52*|a|. For any other square matrix the returned values sum up to the trace of a within sqrt(n) times the backward error of C57, and the imaginary parts sum up to zero.", "quantifier": "all square matrices, every number of iterations", "why_tests_cant": "all inputs; exact eigenvalues are not computable", "anchors": ["src/decomp/eigen.rs: new, get_real_eigenvalues, get_imag_eigenvalues"]}
{"id": "C103", "title": "pinverse in rounded arithmetic", "statement": "In floating point, pinverse() panics exactly if a pivot of the computed R^T R is zero; otherwise the returned X satisfies the normal equations A^T A X = A^T up to an explicit error (a few roundings times |A|^3 |Z| and |L||U||Z||A|, where Z is the computed inverse of R^T R and L, U its factors, plus underflow), so for independent columns it differs from (A^T A)^-1 A^T by at most |(A^T A)^-1| times that. It panics only if A^T A is within the rounding errors of a singular matrix. Independent columns alone do not prevent the panic ([1,1;2^-30,0] panics), and a wide matrix need not panic as it does in exact arithmetic: for the row (7, 0.3) the answer is zero.", "quantifier": "all matrices of all shapes with finite factors, all floating-point formats", "why_tests_cant": "rounding errors for every input", "anchors": ["src/matrix.rs: pinverse, inverse, Mul, t", "src/decomp/qr.rs: new, get_r", "src/decomp/lu.rs: new, solve"]}
{"id": "C104", "title": "Cholesky on doubles, in terms of the matrix alone", "statement": "For f64 and n <= 2^20: an accepted finite matrix with finite factor satisfies |a - L*L'|[i][k] <= (n+3)*2^-52*sqrt(a[i][i]*a[k][k]) (diagonal entries increased by 2^-900 for underflow), is positive semidefinite up to that error, and solve(b) has a residual of at most (3n+3)*2^-52*sum_k sqrt(a[i][i]*a[k][k])*|x[k]| plus underflow, whatever the condition of a. A matrix whose quadratic form is more negative somewhere is rejected, unless the factor overflows; a symmetric matrix with smallest eigenvalue at least n*(n+6)*2^-51 times its largest entry is accepted with a finite factor. Overflow can make new accept an indefinite finite matrix, with a factor containing NaN.", "quantifier": "all finite f64 matrices of up to 2^20 rows, all right-hand sides", "why_tests_cant": "rounding errors for every input", "anchors": ["src/decomp/cholesky.rs: new, get_l, solve"]}
{"id": "C105", "title": "Eigendecomposition of symmetric matrices in rounded arithmetic", "statement": "If every operation is correct up to a relative error u <= 1/1000 (no overflow, no underflow), EigenDecomposition::new of a symmetric matrix does not panic, divide by zero or take the root of a negative number. What it returns within k iterations per eigenvalue is the exact eigendecomposition of a matrix that differs from a by at most delta*|a| in the Frobenius norm, up to an error delta*sqrt(n) in V, where delta depends on u, n and k only (about n*(k*(n+1)+4)*(70*n+287)*2^-47 for u = 2^-53). So V is orthogonal and V*get_d()*V' is a up to rounding, the imaginary parts are zero, the eigenvalues are sorted in decreasing order, the k-th one is the k-th largest eigenvalue of a up to delta*|a|, they sum up to the trace, and a maps the columns of V to multiples of themselves, up to rounding.", "quantifier": "all symmetric matrices of all sizes and contents, all arithmetics of the standard model with u <= 1/1000, every number of iterations", "why_tests_cant": "error bounds over all inputs and all patterns of rounding errors, over an iteration without a bound", "anchors": ["src/decomp/eigen.rs: new, get_d, get_v, get_real_eigenvalues, get_imag_eigenvalues"]}
{"id": "C106", "title": "Eigenvalues of nonsymmetric matrices in rounded arithmetic", "statement": "If every operation is correct up to a relative error u <= 1/1000 (no overflow, no underflow), the values d + i*e that EigenDecomposition::new returns for a nonsymmetric square matrix a are exactly the eigenvalues, with multiplicity, of a matrix that differs from a by at most delta*|a| in the Frobenius norm, where delta depends on u, n and the number k of iterations per eigenvalue only (at most 18500*(k+1)*n^2*2^-52 for u = 2^-53). Values that are not real come in conjugate pairs next to each other, the one with positive imaginary part first, exactly; the imaginary parts sum up to zero exactly and the real parts to the trace up to rounding; every value has an approximate eigenvector with residual at most delta*|a|, and none exceeds (1+delta)*|a| in modulus.", "quantifier": "all nonsymmetric square matrices of all sizes and contents, all arithmetics of the standard model with u <= 1/1000, every number of iterations", "why_tests_cant": "error bounds over all inputs and all patterns of rounding errors, over an iteration without a bound", "anchors": ["src/decomp/eigen.rs: new, get_real_eigenvalues, get_imag_eigenvalues"]}
{"id": "C107", "title": "rank() in terms of the true singular values", "statement": "For a matrix with at most as many rows as columns, rank() of the computed SVD counts every true singular value of a above max(m,n)*2^-52*(sigma_0 + beta) + beta and none that is at most max(m,n)*2^-52*(sigma_0 - beta) - beta, where beta is the error of the computed singular values (C101), in exact and (up to four roundings of the threshold) in rounded arithmetic; so it is the number of singular values above the threshold unless one of them lies within the error of it, and no matrix of smaller rank is closer to a than the threshold, up to rounding. With more rows than columns rank() panics, in rounded arithmetic too.", "quantifier": "all matrices, all arithmetics of the standard model, every number of iterations", "why_tests_cant": "error bounds over all inputs and all patterns of rounding errors; the true singular values are not computable", "anchors": ["src/decomp/svd.rs: rank, new"]}
{"id": "C108", "title": "SVD::direct in rounded arithmetic", "statement": "If every operation is correct up to a relative error u <= 1/1000 (no overflow, no underflow), products commute and negative numbers have no root, SVD::direct of a tall or square matrix returns U with zero columns at the end, a diagonal S with positive entries, decreasing up to rounding, and V within h of an orthogonal matrix, such that U*S = A*V and U*S*V' = A up to rounding relative to |A|, whatever the condition of A. The squares of the entries of S are the squares of the singular values of A up to a small multiple of |A|^2, and two of the first n columns of U are orthonormal up to a small multiple of |A|^2 / (s_i*s_j) - not better: U can be far from orthogonal. It does not panic if the square of the smallest singular value exceeds that error; without the condition it can panic on matrices of full rank. For wide matrices the factors are those of the transpose, exchanged.", "quantifier": "all non-empty matrices, all arithmetics of the standard model with u <= 1/1000, every number of iterations", "why_tests_cant": "error bounds over all inputs and all patterns of rounding errors, over an iteration without a bound", "anchors": ["src/decomp/svd.rs: direct", "src/decomp/eigen.rs: new", "src/matrix.rs: inverse, block_diag, Mul, t"]}
{"id": "C109", "title": "Growth of entries, and diagonally dominant systems", "statement": "In exact arithmetic, an entry in row k of get_u() is at most 2^k times the largest entry of a, and this bound cannot be improved: for every t < 1 and every n there is an n x n matrix with entries of at most 1 for which the last entry of get_u() is (1+t)^(n-1). If a is the product of a unit lower triangular matrix with all other entries below 1 in absolute value and an upper triangular one with nonzero diagonal, new() returns exactly these factors, without exchanges. For a matrix that is strictly diagonally dominant by columns this is the case: get_piv() is the identity, the multipliers in a column sum up to less than 1, an entry of get_u() is at most the sum of its column in a, and every pivot has the sign of the diagonal entry. Systems that are dominant by columns or by rows are always solved; if each diagonal entry exceeds the sum of the others in its row by g, the solution is at most max|b|/g; det() has the sign of the product of the diagonal.", "quantifier": "all matrices over any ordered field, all sizes, all right-hand sides", "why_tests_cant": "unbounded sizes and values", "anchors": ["src/decomp/lu.rs: new, get_l, get_u, get_piv", "src/matrix.rs: solve, det"]}
{"id": "C110", "title": "solve, inverse and det of doubles, in terms of the matrix alone", "statement": "For f64, order n <= 100, entries of at most M (2^-900 <= M <= 2^800): lu() overflows nowhere, its factors are at most 1+2^-52 and (1+2^-52)*M*3^k, and |a[piv][c] - L*U| <= (n+1)*3^n*2^-52*M. solve and inverse return None only if some x != 0 has |a*x| <= (n+1)*3^n*2^-52*M*sum|x|. If K bounds the row sums of |a^-1|, n^3*3^n*K*M <= 2^49, and |b|, K*|b| <= 2^700, then solve(b) returns Some finite x with residual at most (3n+1)*3^n*2^-52*M*sum|x| + 2^-900*(1+M) and |x - a^-1*b| at most K*((3n+1)*3^n*2^-51*M*sum|a^-1*b| + 2^-899*(1+M)); the same for inverse(). det() is finite if (1+3^n*M)^n <= 2^1000, differs from the determinant by at most n*(n*(n+1)*3^n*K*M+1)*2^-51 times it plus 2^-900*(1+3^n*M)^n, and has its sign if that is at most a quarter of it. No assumption about computed values is left.", "quantifier": "all finite f64 matrices of up to 100 rows, all right-hand sides", "why_tests_cant": "rounding errors, overflow and underflow for every input", "anchors": ["src/decomp/lu.rs: new, get_l, get_u, get_piv, solve, det", "src/matrix.rs: solve, inverse, det, lu"]}
{"id": "C111", "title": "Solving positive definite systems of doubles with Cholesky", "statement": "For f64, order n <= 2^20, a symmetric matrix a with entries of at most M (2^-800 <= M <= 2^700) and x'*a*x >= lam*|x|^2 with n^3*M <= 2^48*lam, and right-hand sides of at most 2^700 and 2^700*lam: Cholesky::new accepts a, solve(b) overflows nowhere and returns finite x with residual at most (3n+4)*2^-52*M*sum|x| + 2^-900*(1+M), and |x - a^-1*b| <= n*(3n+4)*2^-51*(M/lam)*|a^-1*b| + 2*sqrt(n)*2^-900*(1+M)/lam in the Euclidean norm. No assumption about computed values is left, and no growth factor.", "quantifier": "all finite symmetric f64 matrices of up to 2^20 rows, all right-hand sides", "why_tests_cant": "rounding errors, overflow and underflow for every input", "anchors": ["src/decomp/cholesky.rs: new, solve"]}
{"id": "C112", "title": "QR decomposition of doubles, in terms of the matrix alone", "statement": "For f64, m >= n >= 1 with (m+4)*n <= 2^40, a finite matrix a whose columns have Euclidean norm at most 2^460 and whose smallest singular value sigma (|a*y| >= sigma*|y| for all y) is at least 2^-460 and at least (m+4)*n*2^-44 times the Frobenius norm of a: QRDecomposition::new, get_r, get_h and get_q overflow nowhere, is_full_rank() is true, the diagonal entries of get_r() are at least sigma/4 in absolute value, and there is an exactly orthogonal Q such that every column of a - Q*R is at most (m+4)*n*2^-47 times the column of a (plus 2^-500) and the first n columns of get_q() differ from those of Q by at most (m+4)*n*2^-47 + 2^-500. So these columns are orthonormal up to (m+4)*n*2^-45, and every column of a - get_q()*get_r() is at most sqrt(m)*(m+4)*n*2^-45 times the column of a plus 2^-470. No assumption about computed values is left.", "quantifier": "all finite f64 matrices with at least as many rows as columns in the stated range", "why_tests_cant": "rounding errors, overflow and underflow for every input", "anchors": ["src/decomp/qr.rs: new, get_r, get_q, get_h, is_full_rank"]}
{"id": "C113", "title": "pinverse of doubles, in terms of the matrix alone", "statement": "For f64, m >= n >= 1, a finite matrix a with Frobenius norm F <= 2^340 and a lower bound sigma >= 2^-340 of its singular values (|a*y| >= sigma*|y| for all y), with k = F/sigma, (m+4)*n*k^2 <= 2^40 and n^4*3^n*k^2 <= 2^47: pinverse() does not panic, overflows nowhere and returns a finite matrix that differs from the Moore-Penrose inverse (a'a)^-1 a' in the Frobenius norm by at most (n^3*3^n*k^3*2^-45 + (m+4)*n*k^2*2^-44)/sigma. So pinverse()*a is the identity up to n^3*3^n*k^4*2^-45 + (m+4)*n*k^3*2^-44, and pinverse()*b is the least-squares solution for b up to that first bound times |b|. No assumption about computed values is left.", "quantifier": "all finite f64 matrices with at least as many rows as columns in the stated range, all right-hand sides", "why_tests_cant": "rounding errors, overflow and underflow for every input", "anchors": ["src/matrix.rs: pinverse, inverse, t", "src/decomp/qr.rs: new, get_r", "src/decomp/lu.rs: new, solve"]}
{"id": "C114", "title": "power_method on doubles", "statement": "For f64, n <= 2^20 and a finite tolerance eps: if power_method returns a vector y, then all entries of the matrix a are finite, y is finite, eps >= 0, the larger of |y[0]| and |y[1]| is 1 up to 2^-50, and y is an approximate eigenvector: for some mu > 0, |a*y - mu*y| <= (1+2^-29)*|a|*(eps + 2^-500) + ((n+1)*|a|*2^-52 + mu*2^-53)*|y| + 2^-900*(1+mu) in the Euclidean norm (|a| the Frobenius norm). If a is symmetric, some eigenvalue l of a satisfies |l - mu|*|y| <= that bound. Nothing is assumed about the start vector or the number of iterations.", "quantifier": "all f64 matrices of up to 2^20 rows, all start vectors, all finite tolerances, every number of iterations", "why_tests_cant": "rounding errors, overflow and underflow for every input, over an iteration without a bound", "anchors": ["src/eig/powermethod.rs: power_method, max_elem (the module is commented out of src/lib.rs)"]}
{"id": "C115", "title": "LU of band matrices", "statement": "If the entries of an m x n matrix more than b places below and more than q places above the diagonal are zero, then in the factors returned by LU::new no row moves up more than b places, the multipliers of a row of get_l() start where the row of the matrix starts, each column of get_l() has at most b nonzero entries below the diagonal, get_u() has at most b+q superdiagonals, and at most q if get_piv() is the identity. This holds in exact arithmetic, singular matrices included, and for f64 (zeros of either sign) whenever the factors are finite. In exact arithmetic pivoting on an upper Hessenberg matrix lets row k of get_u() grow at most by the factor k+1, and on a tridiagonal matrix the diagonal of get_u() by at most 2 and the other entries not at all.", "quantifier": "all m x n matrices with the given zeros, all b, q, over any ordered field; all f64 matrices", "why_tests_cant": "exchanges of rows move the zeros for every choice of pivots", "anchors": ["src/decomp/lu.rs: new, get_l, get_u, get_piv"]}
{"id": "C116", "title": "Tridiagonal systems of doubles", "statement": "For an n x n tridiagonal f64 matrix (n at most 10^6) of finite entries of magnitude at most M, with 2^-900 <= M <= 2^800, LU::new gives finite factors with get_l() at most 1 + 2^-52 and get_u() at most (2 + 2^-27) M in magnitude, get_u() zero outside the diagonal and two superdiagonals, and L U within 5 (n + 1) 2^-52 M of the permuted matrix. Every finite answer x of solve has a residual of at most 5 (3n + 1) 2^-52 M times the sum of |x|, plus an underflow term. If the row sums of the inverse are at most K with n^3 K M <= 2^46 (or if the diagonal outweighs the rest of each row by a gap of at least n^3 M / 2^46), solve does answer, the answer is finite, and its error is at most K times such a residual. The same holds of inverse, and det is then off by a relative error of at most n (5 n (n+1) K M + 1) 2^-51 plus an underflow term (if (1 + 5M)^n <= 2^1000). solve and inverse answer None only for matrices that are nearly singular: some nonzero x has |A x| at most 5 (n + 1) 2^-52 M times the sum of |x|.", "quantifier": "all tridiagonal f64 matrices and right-hand sides in the stated range, all n up to 10^6", "why_tests_cant": "roundoff, growth and overflow over all doubles", "anchors": ["src/decomp/lu.rs: new, get_l, get_u, solve", "src/matrix.rs: solve, inverse, det"]}
{"id": "C117", "title": "Column dominant systems of doubles", "statement": "Let A be an n x n f64 matrix of finite entries of magnitude at most M (2^-900 <= M <= 2^800) whose diagonal entries outweigh the rest of their column by at least a gap d > 0, with n^3 M <= 2^46 d. Then LU::new exchanges no rows, is_non_singular() is true, the entries of each column of get_l() below the diagonal sum to at most 1, get_u() is finite and at most twice the diagonal entry of its column, its diagonal has the signs of that of A, and L U is within 3n(n+1) 2^-52 M of A. solve answers with finite numbers whose residual is at most 3n(3n+1) 2^-52 M times the sum of |x| plus an underflow term, and whose distance to the exact solution (in the sum norm) is at most 2n/d times such a quantity; so does inverse; det has a small relative error plus an underflow term (if n^4 M <= 2^46 d and (1 + 4M)^n <= 2^1000).", "quantifier": "all f64 matrices with dominant columns in the stated range, all right-hand sides up to 2^700 min(1, d), all n", "why_tests_cant": "roundoff, growth, overflow and pivoting over all doubles", "anchors": ["src/decomp/lu.rs: new, get_l, get_u, get_piv, is_non_singular, solve", "src/matrix.rs: solve, inverse, det"]}
{"id": "C118", "title": "A row or column of zeros is recognised in floating point", "statement": "In floating point the factors of a singular matrix are in general not exactly singular (the f64 matrix with rows 49, 49 and 1, 1 is inverted). But if a square f64 matrix has a row or a column that consists of zeros (of either sign), and get_l() and get_u() are finite (which is guaranteed for n <= 100 and finite entries of magnitude at most 2^800), then is_non_singular() is false, solve and inverse answer None, and det is a zero, or NaN if the product of other pivots overflows. If a column of a matrix with rows >= cols consists of zeros and get_h() and get_r() are finite, that column of get_r() consists of zeros, is_full_rank() is false and QR::solve answers None.", "quantifier": "all f64 matrices with a row or column of zeros, all right-hand sides, all sizes", "why_tests_cant": "rounding behaviour over all doubles; zero multipliers, signed zeros", "anchors": ["src/decomp/lu.rs: new, is_non_singular, solve, det", "src/matrix.rs: solve, inverse, det", "src/decomp/qr.rs: new, is_full_rank, get_r, solve"]}
{"id": "C119", "title": "The decompositions agree with each other", "statement": "In exact arithmetic what one decomposition says about a matrix can be read off from another. For square matrices QR's is_full_rank(), is_non_singular() and inverse().is_some() agree, and pinverse() returns exactly then, the inverse. inverse of a transpose, a product and an inverse are the transpose, the reversed product and the matrix; solve(B) = inverse() * B; det(A) det(inverse) = 1. |det()| is the product of the diagonal of get_r() in magnitude, and for positive definite matrices det() is the square of the product of the diagonal of Cholesky's get_l(), and Cholesky's solve returns what solve returns. For a matrix with independent columns the Cholesky factor of t() * A is get_r() transposed up to signs, and its solve of t() * B is pinverse() * B, the least squares solution.", "quantifier": "all real matrices (the inverse laws: any ordered field), all right-hand sides", "why_tests_cant": "equalities between different algorithms for every input", "anchors": ["src/matrix.rs: det, solve, inverse, pinverse, is_non_singular", "src/decomp/qr.rs: new, get_r, is_full_rank", "src/decomp/cholesky.rs: new, get_l, solve"]}
{"id": "C120", "title": "Computed spectra are stable, and agree with each other", "statement": "Up to rounding errors with explicit bounds: when B is A with rows or columns permuted or negated, or multiplied by orthogonal matrices, or perturbed by a matrix of Frobenius norm eta, or transposed, the singular values SVD::new computes for the two matrices differ by at most eta; so do the eigenvalues EigenDecomposition computes for symmetric matrices (under B close to U A U^T). The largest computed singular value bounds |Ax|/|x| from above and, for tall matrices, the smallest from below; the extreme computed eigenvalues of a symmetric matrix bound x^T A x / x^T x. For a symmetric matrix the computed singular values are the absolute values of the computed eigenvalues, sorted; the eigenvalues computed for A^T A are the squares of the singular values computed for A (and zeros), and SVD::direct and SVD::new compute the same values.", "quantifier": "all matrices of floating-point numbers (no overflow or underflow) for which the runs return, all orthogonal matrices, all vectors", "why_tests_cant": "relates two runs, or a run to every vector, for every input", "anchors": ["src/decomp/svd.rs: new, direct", "src/decomp/eigen.rs: new"]}
{"id": "C121", "title": "Changing units by powers of two changes no digit", "statement": "Without overflow and underflow (f64 with unlimited exponents, every operation rounded) multiplying column j of A by 2^t[j] leaves the LU pivots, L, is_non_singular and the QR factor Q and is_full_rank unchanged and multiplies column j of U, R and H by 2^t[j], the determinant by the product of the powers, row i of the inverse and of the solution by 2^-t[i] (and column j of the solution by 2^r[j] when column j of the right-hand side is multiplied by 2^r[j]), exactly; for Cholesky the same holds with row i and column i multiplied by 2^s[i]: the same matrices are refused, row i of L is multiplied by 2^s[i], row i of the solution by 2^-s[i] (right-hand side in the units of the equations); in products the units of the inner dimension cancel. (Row scaling does change LU pivots, and QRDecomposition::solve is not consistent in units: both are shown by counterexamples.)", "quantifier": "all matrices of floating-point numbers (no overflow or underflow), all sizes, all integer exponents", "why_tests_cant": "relates two runs of the program for every input and every choice of units", "anchors": ["src/decomp/lu.rs: new, get_l, get_u, get_piv, det, solve, inverse, is_non_singular", "src/decomp/qr.rs: new, get_q, get_r, get_h, is_full_rank", "src/decomp/cholesky.rs: new, solve", "src/matrix.rs: Mul"]}
{"id": "C122", "title": "The units of a symmetric matrix do not change its eigenvectors", "statement": "Without overflow and underflow (f64 with unlimited exponents, every operation rounded), for a symmetric matrix A and an integer k: EigenDecomposition of A*2^k takes the same steps as that of A (it ends for one exactly when it ends for the other, with the same number of iterations), the computed eigenvectors are the same in every digit, the computed eigenvalues are exactly 2^k times those of A and in the same order, and get_d is multiplied by exactly 2^k. (Not claimed for the general, non-symmetric branch and for the SVD, whose exceptional shift 0.964 and constant `tiny` are absolute numbers.)", "quantifier": "all symmetric matrices of floating-point numbers (no overflow or underflow), all sizes, all integers k, all numbers of iterations", "why_tests_cant": "relates two runs of an iteration for every input and every choice of unit", "anchors": ["src/decomp/eigen.rs: new, get_d, get_v"]}
{"id": "C123", "title": "Norms, products, the power method and the pseudo-inverse do not depend on units", "statement": "Without overflow and underflow (f64 with unlimited exponents, every operation rounded), for every matrix, also one whose shape makes the operation panic: multiplying the operands by powers of two multiplies trace, length, vector_1_norm, vector_inf_norm, frobenius_norm, mul, add, sub, scale, t by exactly the power that is right on paper, and they panic for the same arguments; power_method with A*2^k and q*2^l takes the same number of steps as with A and q and returns the same vector; pinverse(A*2^k) is exactly 2^-k pinverse(A) and panics for the same matrices. (is_symmetric and approx_eq do depend on the unit, because of the absolute tolerance 1e-6: shown by a counterexample.)", "quantifier": "all matrices of floating-point numbers (no overflow or underflow), all shapes, all integer exponents, all numbers of iterations", "why_tests_cant": "relates two runs of the program for every input and every choice of units", "anchors": ["src/matrix.rs: trace, length, vector_1_norm, vector_inf_norm, frobenius_norm, Mul, Add, Sub, scale, t, pinverse", "src/eig/powermethod.rs: power_method"]}
{"id": "C124", "title": "Zeros and unconnected blocks in the Cholesky decomposition", "statement": "For doubles, with all rounding: if Cholesky::new accepts a matrix and get_l is finite, then the zeros at the beginning of a row of the matrix are zeros of the same row of get_l (no fill-in outside the profile). For a block diagonal matrix (two systems that are not connected, the zeros of any sign), the decomposition of the whole consists of the decompositions of the blocks, bit for bit: if the first block is refused so is the whole; if it is accepted with a finite factor, the whole is refused exactly when the second block is, and otherwise get_l has the two factors of the blocks on its diagonal and zeros elsewhere. solve then returns, when the solutions of the two blocks are finite, the solutions of the blocks one above the other (up to the sign of zeros).", "quantifier": "all block diagonal matrices of doubles of all sizes, also with infinities and NaN in the second block; all finite factors", "why_tests_cant": "relates the runs on the whole and on the blocks for all sizes and inputs", "anchors": ["src/decomp/cholesky.rs: new, get_l, solve"]}
{"id": "C125", "title": "Zero right-hand sides of doubles", "statement": "For doubles: a column of zeros (of any sign) of the right operand gives a column of zeros of the product, when the left operand is finite; LU::solve with finite get_l and get_u returns None only when get_u has a zero on its diagonal and otherwise a matrix in which the columns that belong to zero right-hand sides are zero; the same holds for Cholesky::solve with a finite get_l. No rounding residue appears, whatever the other columns are (also infinite or NaN).", "quantifier": "all sizes, all matrices of doubles with finite factors, all right-hand sides", "why_tests_cant": "must hold for every matrix and every number of columns", "anchors": ["src/matrix.rs: Mul, solve", "src/decomp/lu.rs: solve", "src/decomp/cholesky.rs: solve"]}
