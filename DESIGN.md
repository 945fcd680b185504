# Formal model of rust-la in Lean 4: design

## What is modelled

The crate is a pure library: dense row-major matrices (`src/matrix.rs`), LU, QR, Cholesky, SVD and
eigen decompositions (`src/decomp/*.rs`), a CSV reader (`src/util.rs`), a literal macro (`src/macros.rs`),
approximate equality and `hypot`.  Every public function of these files gets a Lean definition that follows the
Rust text loop by loop.

* **Result monad.** `R a := Except Err a`.  A Rust panic is an explicit error value: `assert` (failed `assert!`),
  `oob` (slice index), `arith` (usize underflow, division/remainder by zero), `unwrap`.  Three more error values are not
  panics but events the theorems must exclude: `uninit` (an element of an `alloc_dirty_vec` buffer is read, or
  returned, before it was written), `undef` (exact arithmetic leaves the field: division by zero, square root of a
  negative), `fuel` (an unbounded Rust loop used up the step budget given to the model).
* **Memory.** `Vec<T>` is `List T` with bounds-checked `idx`/`setIdx`.  A buffer from `alloc_dirty_vec` is
  `List (Option T)`, `none` being an uninitialised cell; `freeze` turns it into a `List T`, failing with
  `uninit` if some cell was never written.
* **Loops.** `for i in lo..hi` is `loop lo hi state body`; `.rev()` is `loopRev`; both are structural recursions.
  `while`/`loop` take a fuel argument.
* **usize** is `Nat` (unbounded), except in the modules about machine arithmetic (C02, C14, C80), where multiplication is
  taken modulo 2^w (release) or checked (debug).  Subtractions that could underflow are checked.
* **Element types.** Functions are generic.  `+ - * neg 0 1` are arbitrary total operations (`Add`, `Mul`, ... without
  laws), so structural theorems hold for rounding floats and wrapping integers too.  In C81-C84 closures and operators may also panic and have side effects
  (`Act`, a state monad with panics in which the state survives a panic).  Division, square root, comparisons,
  `abs`, `max`, `powf` and the numeric constants come from a class `FloatOps` (division and square root may fail).
  Theorems about values (LU, QR, ...) instantiate it with *exact arithmetic* over an ordered field or the reals, in
  which division by zero and square roots of negatives are errors, so that a theorem `f x = .ok y` includes
  "no division by zero happens".

## How properties are stated

`Verif/Spec.lean` defines `ofM : Matrix (Fin m) (Fin n) a -> Mat a`, the row-major storage of a mathematical
(Mathlib) matrix.  Theorems read like `mul (ofM A) (ofM B) = .ok (ofM (A * B))`, with Mathlib's own
product, transpose, determinant, `PosDef`, and so on as the specification.  Property theorems are in
`Verif/Props/`, helper lemmas in `Verif/Proofs/`, the model in `Verif/Model/`.

## Plan per property

| Id | Model | Proof |
|---|---|---|
| C01 | `Mat.new`, `vector`, `rowVector` | direct, index lemma for row-major lists |
| C02 | `newW w mode` (word arithmetic) | debug: proved; release: refuted by witness, partial under r*c < 2^w |
| C03 | `mMacro : List (List a)` | flatten lemma; ragged literals refuted by witness |
| C04 | `get`, `getRef`, `getMref`, `set`, `index` | row-major injectivity |
| C05 | constructors with dirty buffers | loop invariants |
| C06-C09 | elementwise loops | generic fill lemma |
| C10, C11 | `mul` | loop invariant, then Mathlib ring laws through `ofM` |
| C12 | `t` | invariant on the walking index |
| C13 | `mt` | cycle-following: the index map is a permutation of Z/(rc-1); invariant over visited cycles |
| C14 | `mtW` | no-wrap condition; refuted by witness beyond it |
| C15-C21 | block and permutation operations | loop invariants |
| C22 | a register machine over all matrix operations | induction over histories; refuted for empty selections and for raw writes through `get_mut_data`, partial otherwise |
| C23 | `uninit` error, all calls of a history | every cell is written before it is read (`Safe`, `SafeDecomp`); refuted after a raw write through `get_mut_data` that changes the length |
| C24-C27 | predicates and norms | loop invariants + Mathlib norms |
| C28-C34 | `LU.new`, `solve`, ... | invariant P*A = L*U column by column; `Matrix.det` |
| C35-C39 | Householder QR | invariant: product of reflections; Mathlib orthogonal group |
| C40, C41 | Cholesky | row invariant, uniqueness of factorisation, `Matrix.PosDef` |
| C42-C44 | SVD (`Model/SVD`) | Householder bidiagonalisation (`SVDBid`), generation of U and V (`SVDGen`), invariant U*B*V^T = A + perturbation over the four cases of the main loop (`SVDStep`, `SVDLoop`, `SVDMain`), and *termination*: the implicit QR step with the Wilkinson shift is the shifted QR step on B^T*B (`SVDChase`), whose last off-diagonal product shrinks (`Wilk`, `SVDIter`) |
| C45, C46, C56 | `tred2`, `tql2` | orthogonal similarity (`EigTred*`), rotations (`EigTql*`), convergence of the Wilkinson-shifted QL iteration (`Wilk`) |
| C47 | `Eigen.new` | direct; tall input refuted |
| C48 | `orthes` | `House`, Hessenberg zeros |
| C49, C57, C58 | `hqr2` | invariant: quasi-triangular deflated part similar to A + E, explicit bound on E (`EigHqr*`, `Part`); back substitution (`EigBack*`, `EigVecs`, `EigNonsym`) |
| C50, C51 | `cdiv`, `hypot` | case split |
| C52 | text as list of characters | split/join round trip |
| C53 | rendering to list of characters | length induction |
| C54 | generator as a list of draws | fill lemma |
| C55 | histories (`Model/History`) | case analysis over all calls |
| C59 | `SVD::direct` (`Model/Direct`) | from C56 applied to A^T*A; zero and tall matrices refuted |
| C60 | LU, Cholesky, QR, SVD models over an arbitrary `FloatOps` (only `Total`: division and sqrt return) | weakest-precondition rules `Runs` for loops: all indices in range, all buffers written before `freeze`; instance for IEEE doubles; eigenvalues excluded (with a NaN the search of tql2 for a small subdiagonal element runs past the end), QR.solve excluded |
| C61-C64 | the same models over `Fp` (`Verif/Rounding.lean`): the standard model of floating-point arithmetic with overflow and gradual underflow; instances `Bin F` (binary formats, f32/f64) and `QF` (computable, for examples) | operation-by-operation description of the runs (`RndLU`, `RndSolve`, `RndChol`), error of dot products and substitutions (`Flops`), growth with partial pivoting (`Overflow`), Schur complements for acceptance (`RndChol3`) |
| C65 | budgets of the four unbounded loops | `Upto`: by induction on the budget, a larger budget gives the same result (`Proofs/Mono`) |
| C66 | the eigenvalue models over an arbitrary `FloatOps` with `Total` and `Signs` (laws of signs: `0 < 0` false, square roots not negative, ...) | `Runs` rules (`RunsEigen*`); the panic is evaluated on `F64`, a computable model of IEEE binary64 (`Verif/IEEE.lean`; `Fp F64` in `IEEEFp.lean`) |
| C67, C68 | the same models over arithmetic with NaN (`NaNs`) | NaN propagates through every write (`NaN`, `NaNEigen`); a NaN active block is an invariant of the iteration; finite examples: evaluate on `F64` until NaN, then the invariant (`Diverge`) |
| C69 | the same models, any arithmetic | a decreasing active block: with one column (SVD) or two (eigenvalues) every step deflates whatever the comparisons say (`RunsSVD`, `RunsEigen2`) |
| C70 | `Eigen.newWith` with the initial values of `z`, `r`, `s` of each vector as a parameter | relational loop lemma (`Sim`): after the iteration imaginary parts are NaN, zero, or in pairs (`Prd`), so a stale value is read only when NaN makes the result NaN anyway (`Leftover`) |
| C71 | `Model/Word`: product and constructors with machine arithmetic (`mulW`, `addW`) and bounded allocation | a sequential fill of too small a buffer reaches its end before an index wraps; counterexample `id(2^(w-1)+3, 2)` |
| C72 | `Fp` arithmetic (Verif/Rounding.lean) on the models of trace and norms | induction over the sums (`fsum_err`, `fdot_err`), perturbation of the square root |
| C73 | `hypot` in `Fp` arithmetic, and in `F64` | propagation of the errors through b/a, its square, 1 + ., the root and the product; each intermediate value is at most 4 |
| C74 | `det`, `inverse` in `Fp` arithmetic | C62/C63 and the error of a product of n numbers |
| C75 | the models over any arithmetic with the NaN laws `NaNs` (instance `F64`) | the exact recurrences each result satisfies (`LU.Rnd.Col`, `Cholesky.Rnd.Part`, sums as `facc`), NaN propagated along them |
| C76 | `approx_eq`, `is_symmetric` over `F64` | reduction of the early-exit loops to a conjunction of element tests; error of one subtraction and of the constant |
| C77 | `QR::new`, `get_q`, `get_r`, `get_h` over any `Fp` format, and `F64` | trace of the operations (`Step`, `Back`), error of one computed reflection against the exact reflection of the stored vector, induction over the reflections; numeric bounds for `F64`; examples show that the range condition is needed |
| C78 | `max_elem`, `power_method` (module commented out of the crate) | induction over the iterations; `a*y - l*y = a*(y - v)` for the last two iterates and Cauchy-Schwarz; any total arithmetic for the absence of panics |
| C79 | same | limit of the scaled powers (continuity of the scaling) gives the stop test; refutations by invariants of the iterates |
| C80 | element access, blocks, concatenation, permutation, trace with index arithmetic checked (debug) or modulo 2^w (release) | the machine run is equal to the unbounded run, step by step, since every index used is below a stored length; `sub_matrix` checks only differences, so it is false for it in release builds |
| C81 | `map`, `reduce`, `filter_*`, `random`, `read_csv` as runs in a state monad over an arbitrary world, with closures that may panic (Verif/Model/Effects.lean) | the loop over the indices is `List.mapM` / `foldlM` over the elements, by induction on the part still to be done |
| C82 | the mutating operations in the same monad, the receiver being part of the world, so that it is observed after a panic | the loop is an in-place sweep (specified recursively); invariants for `mt`; agreement with the model without effects; refuted for `mt` by running the first steps symbolically |
| C83 | arithmetic with element operators in the same monad | as C81, the product by flattening the two outer loops |
| C84 | the element operators of the integer types: range, wrapping, quotient (Verif/Model/Integers.lean) | C83 instantiated; wrapping is the unique value in range congruent to the exact one, so a wrapped sum of wrapped products is the wrapped exact entry |
| C85 | arithmetic of matrices over `F64` | laws of one operation (Verif/Proofs/F64Alg.lean), `Agree` = equal up to the sign of zero, lifted to folds by induction |
| C86 | same | a multiple `z·2^e`, `|z| ≤ 2^53`, is representable, so the rounding of an exact result of this form is itself; induction over the sums |
| C87 | derived `PartialEq` (Verif/Model/Equality.lean), `approx_eq` | list recursion; `==` of `F64` is `Agree` without NaN |
| C88 | `*` with selection and concatenation, any element operations | both sides are the same fold, entry by entry |
| C89 | `Eigen.new`, `getD` on upper triangular input, ℝ and `F64` | every reflection of `orthes` is skipped, every deflation test succeeds at once (`Deflates`), back substitution as in C58 |
| C90 | `Eigen.new`, `getD` on diagonal input, ℝ and `F64` | `tred2` takes the zero branch throughout, the search of `tql2` stops at once, selection sort invariant with a permutation |
| C91 | as C62–C64, C74, real inverse `A⁻¹` of the values | `x - A⁻¹ b = A⁻¹ (A x - b)` with the residual bounds of C63, C64 and C74; the determinant of `A + E = P L U` is plus or minus the product of the pivots |
| C92 | `Mat.solve`, `Mat.inverse`, `Cholesky.solve`, any `Fp` arithmetic | the recurrences of forward and back substitution determine each column of the result |
| C93 | `LU.new`, `Mat.solve`, `inverse`, `det` on `F64` | induction on the columns: without ties the pivot of each column is determined by the rows, whatever their order; multipliers of absolute value one are the ties |
| C94 | `LU.new`, `Mat.solve`, `inverse`, `det`, `Cholesky.new`, `Cholesky.solve` on `F64` | relational invariant of the two runs of `LU.new`: entries agree up to `s i * t j` and the sign of zero; pivots are compared by absolute value, so they agree; induction over the recurrences of substitution and of Cholesky |
| C95 | `LU.new`, `Mat.solve`, `inverse`, `det` on `F64` | in column `c` only one remaining row is nonzero, so the multipliers are zero and elimination subtracts zeros: induction over columns on the recurrences of C93 (`pivots_unique`); back substitution by C92's recurrences |
| C96 | `QR.new`, `getH`, `getR`, `getQ`, `Mat.mul`, `Mat.pinverse` on `F64` | the sequence of operations of C72 (`new_rnd`, `getQ_rnd`), step by step for both matrices: squares are equal bit for bit, so the norms are; a nonzero pivot carries its sign to the diagonal of R; the denominators are equal bit for bit even if they underflow |
| C97 | `SVD.new`, `rank`, `Mat.mul`, `Mat.t` on `F64` | invariants with "equal up to signs of zeros": `hypot` with a zero is the absolute value, the reflection vectors are `2e_k`, so the reduction finds nothing to do, `U` starts as a diagonal of signs and `V` as the identity; every iteration of the main loop finds a negligible `e` (the test cannot fail on zero, even when the sum overflows), fixes a sign and inserts (permutation invariant `MD`); products have one nonzero term. |
| C98 | `LU.new`, `QR.new`, `Cholesky.new` and accessors | simulation of the two runs of `LU.new` on buffers that agree on the first `n` columns, then an invariant "only rows at or below `j` are exchanged" for the other columns; for QR and Cholesky the operation sequences (`Step`, `Back`, `Part`) determine the entries one by one. |
| C99 | `SVD.new`, `SVD.direct`, `Mat.trace`, `isSymmetric`, `Cholesky.new` | the code handles wide matrices through the transpose: unfolding, with the involution of `t` on the (well-formed) result; Cholesky through C94 with trivial signs. |
| C100 | `SVD.new` over `Sfp` (`Verif/Standard.lean`): the standard model without overflow and underflow; instances exact reals (u = 0) and `Fu` (`Verif/Unbounded.lean`, 53 bits, unbounded exponents, u = 2^-53, computable) | each rotation, reflection and deflation is an exact orthogonal transformation up to a relative error (`Std*`); invariant of the iteration: factors and residual relative to exact orthogonal matrices, error compounding per step |
| C101 | the same, plus Weyl's inequality for singular values | `Proofs/Weyl`: k+1 unknowns, k equations; corollary of C43 and C100 |
| C102 | `Eigen.new` over the reals | Weyl's inequality for symmetric matrices (`Proofs/WeylSym`, through C101's by a shift), trace as sum of the roots of the characteristic polynomial |
| C103 | `Mat.pinverse` over any `Fp` format | C77 (QR), C61 (products), C74 (inverse) put together in the Frobenius norm; `f64` counterexamples by evaluation in the kernel |
| C104 | `Cholesky.new`, `solve` over `F64` | C64 with the factor eliminated: row norms of L against the diagonal of A (Cauchy-Schwarz), numerical constants of `f64`; NaN counterexample by evaluation in the kernel |
| C105 | `Eigen.new` on symmetric matrices over `Sfp` | each reflection of `tred2`, each QL sweep, shift and deflation of `tql2` is an exact orthogonal similarity up to a relative error (`StdEig*`), error compounding per step as in C100; eigenvalues by Weyl's inequality (`Proofs/WeylSym`) |
| C106 | `Eigen.new` on nonsymmetric matrices over `Sfp` | each reflection of `orthes`, each double-shift sweep, deflation, exceptional shift and 2 x 2 block of `hqr2` is an exact orthogonal similarity up to a relative error (`StdOrth*`, `StdHqr*`), compounded per sweep; the eigenvalues of the final quasi-triangular matrix by `charpoly_Tf` |
| C107 | `SVD.rank` over the reals and over `Sfp` | the loop counts an initial segment of the sorted computed values; comparison with Mathlib's singular values by C101 |
| C108 | `SVD.direct` over `Sfp` | rounded product, C105 on the rounded `A'A`, the inverse of a diagonal matrix by LU is a diagonal matrix up to `n+1` roundings, norm estimates, Weyl's inequality |
| C109 | `LU.new`, `solve`, `det`, exact | induction over the rows of `U`; factors with multipliers below 1 are unique; Schur complements of dominant matrices are dominant |
| C110 | `LU.new`, `solve`, `inverse`, `det`, f64 | C62 growth bound; the computed `U` has an inverse close to that of `A`, hence neither substitution overflows (induction over the rows, from the end); C63, C74; determinants near a given matrix by expansion over permutations |
| C111 | `Cholesky.new`, `solve`, f64 | C104 accepts and bounds the factor; `L L'` keeps half of the quadratic form, so the row and column sums of the inverse of `L` are bounded; hence neither substitution overflows (induction in the order of substitution); residual to error by the quadratic form |
| C112 | `QR.new`, `getR`, `getH`, `getQ`, `isFullRank`, f64 | induction over the reflections: the errors so far (C77) and a vector in the kernel of the first `k` rows bound the rest of column `k` below by the smallest singular value, so the norm, the denominator, the quotients and the updated columns neither overflow nor underflow |
| C113 | `Mat.pinverse`, f64 | C112 for `R`; the computed `RᵀR` is within `(m+4) n 2^-45 F²` of `AᵀA`, so it still stretches by `σ²/2`; C110 for its inverse; C61 for the product; the three errors added (`GramInv.pinv_err`); least squares through the normal equations |
| C114 | `Mat.powerMethod`, f64 | One step analysed with `Fp`: product, scaling by the reciprocal of the largest of the first two entries, norm of the difference; a comparison that holds excludes infinities and NaN; induction over the iterations. `near_eigenvalue` from the spectral theorem |
| C115 | `LU.new` | Zeros followed through the loops for any arithmetic satisfying `Zeros` (a zero times a finite number is zero, an exchange needs a nonzero entry); counting argument for the rows still waiting; induction on the partial sums for the growth |
| C116 | `LU.new`, `solve` | The zeros of C115 leave at most two nonzero terms in each dot product, so the growth of partial pivoting is 2 plus roundoff (invariant over the columns); forward substitution has at most one term per column, bounded by a potential; Varah's bound for dominant rows |
| C117 | `LU.new`, `solve`, `inverse`, `det` | Invariant over the columns of the column-oriented elimination: with L's column sums at most 1 the remaining part of each column keeps its dominance up to accumulated roundoff, so the diagonal entry is the strict maximum and stays the pivot; the inverse is bounded by 1/d; perturbation and determinant bounds as in C110 |
| C118 | `LU.new`, `isNonSingular`, `solve`, `inverse`, `det`, `QR.new`, `isFullRank` | Operation-by-operation description of the factorisations; zeros are preserved by products with finite numbers (induction over rows and columns) |
| C119 | `det`, `solve`, `inverse`, `pinverse`, `QR.new`, `Cholesky.new` | Consequences of C28-C41: uniqueness of the inverse and of the Cholesky factor, orthogonality, normal equations |
| C120 | `SVD.new`, `SVD.direct`, `Eigen.new` over `Sfp` | Backward errors of C100, C105, C108 and Weyl's inequalities for singular values and eigenvalues |
| C121 | `LU`, `QR`, `Cholesky`, `Mat.mul` over `Fu` | Rounding commutes with powers of two (`rnd_scale`, `rt_scale`); simulation of the two runs, entry by entry with its exponent |
| C122 | `Eigen.new` on a symmetric matrix, `Eigen.getD`, over `Fu` | Simulation of the two runs (tred2, tql2, hypot, sorting): each scalar of the second run is the first run's times a power of two fixed by its role; all tests compare quantities of the same role |
| C123 | `Mat` norms and arithmetic, `Mat.powerMethod`, `Mat.pinverse`, over `Fu` | Simulation of the two runs (`Sim2`), stated as equality of the whole outcomes with `Except.map`; `pinverse` from C121 |
| C124 | `Cholesky.new`, `solve` over `F64` | From the recurrence of the factor (`Cholesky.Rnd.Part`, shared with C85/C98): zeros at the left of a row propagate, dot products skip zeros (signed zeros included), and the factor of a block is the unique solution of its recurrence; `solve` by the two substitutions, up to the sign of zeros (`F64.Agree`) |
| C125 | `Mat.mul`, `LU.solve`, `Cholesky.solve` over `F64` | From the operation by operation description of the substitutions (C63, C64): zeros are closed under the operations used, products with finite factors included |

Properties found FALSE of the code keep their English statement, a `_refuted` theorem gives the counterexample (usually a whole
family of inputs), and a `_partial` theorem proves the part that holds.  Found this way: C02, C03, C14, C18, C22, C23, C27, C33, C36, C37,
C38, C44, C47, C59, C71, C79, C80, C82 (see the notes in MANIFEST.json).

## What is not modelled

Floating-point rounding, overflow to infinity and NaN as values, except in C60-C70, C72-C77, C85-C87, C89-C101, C103-C108, C110-C118, C120-C125 (the structural properties C22, C23, C55 hold for any element
operations, so also for them).  NaN payloads and `powf` on `F64` are not modelled.  The values that the work variables
`z`, `r`, `s` of hqr2 hold at the start of a vector are a parameter of the model, see C70.  Also not modelled: real memory allocation, file-system errors, performance.  `src/eig/powermethod.rs` is commented out of
`src/lib.rs:27-29` (it does not compile); it is modelled as written (`Verif/Model/Power.lean`).  `print` (src/matrix.rs:538) writes the modelled `Debug` text to the terminal.
`get_data`, `get_s`, `get_v`, `get_real_eigenvalues`, `get_imag_eigenvalues` are field reads (record projections of the model).

## Trusted base

Lean's kernel; axioms `propext`, `Classical.choice`, `Quot.sound` (listed per theorem by `#print axioms`), no others; the faithfulness
of the hand translation, each definition citing file and lines; the assumptions of the classes `Fp` (`Verif/Rounding.lean`) and `Sfp` (`Verif/Standard.lean`) where a theorem is
stated for them (`F64` is proved to be an instance of the first; `Sfp` excludes overflow and underflow, so C100, C101, C105, C106, C108 and the rounded part of C107 say nothing of runs in which they occur; proved
instances: exact reals and `Fu`); the reading of the specification vocabulary (`Verif/Spec.lean`, `Verif/Exact.lean`
and Mathlib's definitions).
