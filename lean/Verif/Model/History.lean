import Verif.Model.Macro
import Verif.Model.Cholesky
import Verif.Model.QR
import Verif.Model.Text
import Verif.Model.Direct

/-!
# Histories of API calls

A store of matrices on which the operations of the crate that create or change a matrix are executed one after the
other.  The operations themselves are the ones modelled in the other modules; this file only composes them.
-/

namespace LA

/-- One API call.  Matrix arguments are positions in the store. -/
inductive Op (α : Type) where
  /-- `Matrix::new` (src/matrix.rs:26) -/
  | new (r c : Nat) (d : List α)
  /-- `Matrix::vector` (src/matrix.rs:32) -/
  | vector (d : List α)
  /-- `Matrix::row_vector` (src/matrix.rs:37) -/
  | rowVector (d : List α)
  /-- `m!(…)` (src/macros.rs:11) -/
  | lit (rows : List (List α))
  /-- `read_csv` (src/util.rs:9); a parser result `none` is a panic of the parser -/
  | readCsv (cr : Bool) (ws : Char → Bool) (file : Option (List Char)) (parser : List Char → Option α)
  /-- `Matrix::id` (src/matrix.rs:112) -/
  | ident (m n : Nat)
  /-- `Matrix::zero` (src/matrix.rs:124) -/
  | zero (m n : Nat)
  /-- `Matrix::diag` (src/matrix.rs:136) -/
  | diag (d : List α)
  /-- `Matrix::block_diag` (src/matrix.rs:149) -/
  | blockDiag (m n : Nat) (d : List α)
  /-- `Matrix::zero_vector` (src/matrix.rs:165) -/
  | zeroVector (n : Nat)
  /-- `Matrix::one_vector` (src/matrix.rs:173) -/
  | oneVector (n : Nat)
  /-- `Matrix::random` (src/matrix.rs:571) -/
  | random (draw : Nat → α) (m n : Nat)
  /-- `map` (src/matrix.rs:65) -/
  | map (i : Nat) (f : α → α)
  /-- `reduce` (src/matrix.rs:83) -/
  | reduce (i : Nat) (init : List α) (f : α → α → α)
  /-- `scale` (src/matrix.rs:189) -/
  | scale (i : Nat) (k : α)
  /-- unary minus (src/matrix.rs:584) -/
  | neg (i : Nat)
  /-- `t` (src/matrix.rs:347) -/
  | t (i : Nat)
  /-- `minor` (src/matrix.rs:391) -/
  | minor (i row col : Nat)
  /-- `sub_matrix` (src/matrix.rs:414) -/
  | subMatrix (i sr sc er ec : Nat)
  /-- `get_column` (src/matrix.rs:437) -/
  | getColumn (i col : Nat)
  /-- `permute_rows` (src/matrix.rs:451) -/
  | permuteRows (i : Nat) (l : List Nat)
  /-- `permute_columns` (src/matrix.rs:472) -/
  | permuteColumns (i : Nat) (l : List Nat)
  /-- `filter_rows` (src/matrix.rs:494) -/
  | filterRows (i : Nat) (f : Mat α → Nat → Bool)
  /-- `filter_columns` (src/matrix.rs:504) -/
  | filterColumns (i : Nat) (f : Mat α → Nat → Bool)
  /-- `select_rows` (src/matrix.rs:514) -/
  | selectRows (i : Nat) (s : List Bool)
  /-- `select_columns` (src/matrix.rs:525) -/
  | selectColumns (i : Nat) (s : List Bool)
  /-- `+` (src/matrix.rs:604) -/
  | add (i j : Nat)
  /-- `-` (src/matrix.rs:644) -/
  | sub (i j : Nat)
  /-- `*` (src/matrix.rs:684) -/
  | mul (i j : Nat)
  /-- `elem_mul` (src/matrix.rs:225) -/
  | elemMul (i j : Nat)
  /-- `elem_div` (src/matrix.rs:249) -/
  | elemDiv (i j : Nat)
  /-- `cr` (src/matrix.rs:305) and `|` (src/matrix.rs:735) -/
  | cr (i j : Nat)
  /-- `cb` (src/matrix.rs:330) -/
  | cb (i j : Nat)
  /-- `solve` (src/matrix.rs:758) -/
  | solve (i j : Nat)
  /-- `inverse` (src/matrix.rs:762) -/
  | inverse (i : Nat)
  /-- `pinverse` (src/matrix.rs:777) -/
  | pinverse (i : Nat)
  /-- `LUDecomposition::new(a).get_l()` (src/decomp/lu.rs:104, 184) -/
  | luL (i : Nat)
  /-- `LUDecomposition::new(a).get_u()` (src/decomp/lu.rs:104, 204) -/
  | luU (i : Nat)
  /-- `LUDecomposition::new(a).get_p()` (src/decomp/lu.rs:104, 217) -/
  | luP (i : Nat)
  /-- `CholeskyDecomposition::new(a)`, `get_l()` of the result (src/decomp/cholesky.rs:56, 113) -/
  | cholL (i : Nat)
  /-- `CholeskyDecomposition::new(a)`, `solve(b)` with the result (src/decomp/cholesky.rs:56, 116) -/
  | cholSolve (i j : Nat)
  /-- `QRDecomposition::new(a).get_h()` (src/decomp/qr.rs:26, 119) -/
  | qrH (i : Nat)
  /-- `QRDecomposition::new(a).get_r()` (src/decomp/qr.rs:26, 135) -/
  | qrR (i : Nat)
  /-- `QRDecomposition::new(a).get_q()` (src/decomp/qr.rs:26, 151) -/
  | qrQ (i : Nat)
  /-- `QRDecomposition::new(a).solve(b)` (src/decomp/qr.rs:26, 199) -/
  | qrSolve (i j : Nat)
  /-- `SVD::new(a).get_u()` (src/decomp/svd.rs:31, 427), with a step budget -/
  | svdU (fuel i : Nat)
  /-- `SVD::new(a).get_s()` (src/decomp/svd.rs:31, 431) -/
  | svdS (fuel i : Nat)
  /-- `SVD::new(a).get_v()` (src/decomp/svd.rs:31, 435) -/
  | svdV (fuel i : Nat)
  /-- `SVD::direct(a).get_u()` (src/decomp/svd.rs:454, 427), with a step budget -/
  | directU (fuel i : Nat)
  /-- `SVD::direct(a).get_s()` (src/decomp/svd.rs:454, 431) -/
  | directS (fuel i : Nat)
  /-- `SVD::direct(a).get_v()` (src/decomp/svd.rs:454, 435) -/
  | directV (fuel i : Nat)
  /-- `EigenDecomposition::new(a).get_v()` (src/decomp/eigen.rs:755, 816), with a step budget -/
  | eigV (fuel i : Nat)
  /-- `EigenDecomposition::new(a).get_d()` (src/decomp/eigen.rs:755, 822) -/
  | eigD (fuel i : Nat)
  /-- assignment through `get_mut_data` (src/matrix.rs:52): any vector can be stored -/
  | setData (i : Nat) (d : List α)
  /-- `set` (src/matrix.rs:299), or a write through `get_mref` (src/matrix.rs:59) -/
  | set (i row col : Nat) (v : α)
  /-- `mmap` (src/matrix.rs:77) -/
  | mmap (i : Nat) (f : α → α)
  /-- `mneg` (src/matrix.rs:183) -/
  | mneg (i : Nat)
  /-- `mscale` (src/matrix.rs:201) -/
  | mscale (i : Nat) (k : α)
  /-- `madd` (src/matrix.rs:207) -/
  | madd (i j : Nat)
  /-- `msub` (src/matrix.rs:216) -/
  | msub (i j : Nat)
  /-- `melem_mul` (src/matrix.rs:240) -/
  | melemMul (i j : Nat)
  /-- `melem_div` (src/matrix.rs:264) -/
  | melemDiv (i j : Nat)
  /-- `mmul` (src/matrix.rs:273) -/
  | mmul (i j : Nat)
  /-- `mt` (src/matrix.rs:365), with a step budget -/
  | mt (fuel i : Nat)

/-- The matrices alive at some point of a history. -/
abbrev Store (α : Type) := List (Mat α)

/-- What a call does with the matrix it produces. -/
inductive Dest where
  /-- a new matrix is returned -/
  | fresh
  /-- the matrix at this position of the store is replaced (`&mut self` methods) -/
  | inPlace (i : Nat)

namespace Op
variable {α : Type} [Zero α] [One α] [Add α] [Sub α] [Neg α] [Mul α] [FloatOps α]

/-- Where the result goes: the `m…` methods and `set` change their receiver, everything else returns a new matrix. -/
def dest : Op α → Dest
  | set i _ _ _ | mmap i _ | mneg i | mscale i _ | madd i _ | msub i _ | melemMul i _ | melemDiv i _ | mmul i _
  | mt _ i | setData i _ => .inPlace i
  | _ => .fresh

/-- Executes a call on the matrices of the store (see the constructors for the cited code).  `none`: the call returns
`None`. -/
def eval (st : Store α) : Op α → R (Option (Mat α))
  | new r c d => some <$> Mat.new r c d
  | vector d => some <$> Mat.vector d
  | rowVector d => some <$> Mat.rowVector d
  | lit rows => some <$> mMacro rows
  | readCsv c ws file parser => some <$> LA.readCsv c ws file (fun s => unwrap (parser s))
  | ident m n => some <$> Mat.id m n
  | zero m n => some <$> Mat.zero m n
  | diag d => some <$> Mat.diag d
  | blockDiag m n d => some <$> Mat.blockDiag m n d
  | zeroVector n => some <$> Mat.zeroVector n
  | oneVector n => some <$> Mat.oneVector n
  | random draw m n => some <$> Mat.random draw m n
  | map i f => do return some (← (← idx st i).map f)
  | reduce i init f => do return some (← (← idx st i).reduce init f)
  | scale i k => do return some (← (← idx st i).scale k)
  | neg i => do return some (← (← idx st i).neg)
  | t i => do return some (← (← idx st i).t)
  | minor i r c => do return some (← (← idx st i).minor r c)
  | subMatrix i sr sc er ec => do return some (← (← idx st i).subMatrix sr sc er ec)
  | getColumn i c => do return some (← (← idx st i).getColumn c)
  | permuteRows i l => do return some (← (← idx st i).permuteRows l)
  | permuteColumns i l => do return some (← (← idx st i).permuteColumns l)
  | filterRows i f => do return some (← (← idx st i).filterRows f)
  | filterColumns i f => do return some (← (← idx st i).filterColumns f)
  | selectRows i s => do return some (← (← idx st i).selectRows s)
  | selectColumns i s => do return some (← (← idx st i).selectColumns s)
  | add i j => do return some (← (← idx st i).add (← idx st j))
  | sub i j => do return some (← (← idx st i).sub (← idx st j))
  | mul i j => do return some (← (← idx st i).mul (← idx st j))
  | elemMul i j => do return some (← (← idx st i).elemMul (← idx st j))
  | elemDiv i j => do return some (← (← idx st i).elemDiv (← idx st j))
  | cr i j => do return some (← (← idx st i).cr (← idx st j))
  | cb i j => do return some (← (← idx st i).cb (← idx st j))
  | solve i j => do (← idx st i).solve (← idx st j)
  | inverse i => do (← idx st i).inverse
  | pinverse i => do return some (← (← idx st i).pinverse)
  | luL i => do return some (← (← LU.new (← idx st i)).getL)
  | luU i => do return some (← (← LU.new (← idx st i)).getU)
  | luP i => do return some (← (← LU.new (← idx st i)).getP)
  | cholL i => do return (← Cholesky.new (← idx st i)).map Cholesky.getL
  | cholSolve i j => do
    match ← Cholesky.new (← idx st i) with
    | none => return none
    | some c => return some (← c.solve (← idx st j))
  | qrH i => do return some (← (← QR.new (← idx st i)).getH)
  | qrR i => do return some (← (← QR.new (← idx st i)).getR)
  | qrQ i => do return some (← (← QR.new (← idx st i)).getQ)
  | qrSolve i j => do (← QR.new (← idx st i)).solve (← idx st j)
  | svdU fuel i => do return some (← SVD.new fuel (← idx st i)).u
  | svdS fuel i => do return some (← SVD.new fuel (← idx st i)).s
  | svdV fuel i => do return some (← SVD.new fuel (← idx st i)).v
  | directU fuel i => do return some (← SVD.direct fuel (← idx st i)).u
  | directS fuel i => do return some (← SVD.direct fuel (← idx st i)).s
  | directV fuel i => do return some (← SVD.direct fuel (← idx st i)).v
  | eigV fuel i => do return some (← Eigen.new fuel (← idx st i)).v
  | eigD fuel i => do return some (← (← Eigen.new fuel (← idx st i)).getD)
  | setData i d => do return some ⟨(← idx st i).rows, d⟩
  | set i r c v => do return some (← (← idx st i).set r c v)
  | mmap i f => do return some (← (← idx st i).mmap f)
  | mneg i => do return some (← (← idx st i).mneg)
  | mscale i k => do return some (← (← idx st i).mscale k)
  | madd i j => do return some (← (← idx st i).madd (← idx st j))
  | msub i j => do return some (← (← idx st i).msub (← idx st j))
  | melemMul i j => do return some (← (← idx st i).melemMul (← idx st j))
  | melemDiv i j => do return some (← (← idx st i).melemDiv (← idx st j))
  | mmul i j => do return some (← (← idx st i).mmul (← idx st j))
  | mt fuel i => do return some (← (← idx st i).mt fuel)

end Op

variable {α : Type} [Zero α] [One α] [Add α] [Sub α] [Neg α] [Mul α] [FloatOps α]

/-- One call of a history. -/
def exec (st : Store α) (op : Op α) : R (Store α) := do
  match ← op.eval st with
  | none => return st
  | some a =>
    match op.dest with
    | .fresh => return st ++ [a]
    | .inPlace i => setIdx st i a

/-- A history of calls, starting from the store `st`. -/
def run (st : Store α) (ops : List (Op α)) : R (Store α) := ops.foldlM exec st

end LA
