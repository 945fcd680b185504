import Verif.Model.Matrix

/-! # Model of src/decomp/cholesky.rs:51-143 (`CholeskyDecomposition`) -/

namespace LA
variable {α : Type}

/-- `CholeskyDecomposition<T>` (src/decomp/cholesky.rs:51-53). -/
structure Cholesky (α : Type) where
  /-- `l` -/
  l : Mat α
deriving DecidableEq, Repr

namespace Cholesky

/-- src/decomp/cholesky.rs:71-92: the entries of row `j` left of the diagonal. State: `data`, `d`; leaves with `()` for
`return None`. -/
def row [Zero α] [Add α] [Sub α] [Mul α] [FloatOps α] (m : Mat α) (n j : Nat) (data : Buf α) :
    R (Flow (Buf α × α) Unit) :=
  loopF 0 j (data, (0 : α)) fun k (data, d) => do
    let s ← loop 0 k (0 : α) fun i s => do return s + (← rd data (k * n + i)) * (← rd data (j * n + i))
    let s ← RDiv.rdiv ((← m.get j k) - s) (← rd data (k * n + k))
    let data ← wr data (j * n + k) s
    let d := d + s * s
    if !(FloatOps.eq (← m.get k j) (← m.get j k)) then return .ret ()
    return .next (data, d)

/-- src/decomp/cholesky.rs:64-106: one iteration of the outer loop. -/
def step [Zero α] [Add α] [Sub α] [Mul α] [FloatOps α] (m : Mat α) (n j : Nat) (data : Buf α) :
    R (Flow (Buf α) Unit) := do
  match ← row m n j data with
  | .ret () => return .ret ()
  | .next (data, d) =>
    let d := (← m.get j j) - d
    if FloatOps.le d 0 then return .ret ()
    let data ← wr data (j * n + j) (← FloatOps.sqrt d)
    let data ← loop (j + 1) n data fun k data => wr data (j * n + k) 0
    return .next data

/-- `CholeskyDecomposition::new` (src/decomp/cholesky.rs:56-110). -/
def new [Zero α] [Add α] [Sub α] [Mul α] [FloatOps α] (m : Mat α) : R (Option (Cholesky α)) := do
  if m.rows != (← m.cols) then return none
  let n := m.rows
  match ← loopF 0 n (alloc α (n * n)) fun j data => step m n j data with
  | .ret () => return none
  | .next data => return some ⟨← Mat.new n n (← freeze data)⟩

/-- `get_l` (src/decomp/cholesky.rs:113). -/
def getL (x : Cholesky α) : Mat α := x.l

/-- src/decomp/cholesky.rs:124-131: `L*Y = B`. -/
def forward [Sub α] [Mul α] [FloatOps α] (l : List α) (n nx : Nat) (x : List α) : R (List α) :=
  loop 0 n x fun k x => loop 0 nx x fun j x => do
    let x ← loop 0 k x fun i x => do
      setIdx x (k * nx + j) ((← idx x (k * nx + j)) - (← idx x (i * nx + j)) * (← idx l (k * n + i)))
    setIdx x (k * nx + j) (← RDiv.rdiv (← idx x (k * nx + j)) (← idx l (k * n + k)))

/-- src/decomp/cholesky.rs:134-141: `L'*X = Y`. -/
def backward [Sub α] [Mul α] [FloatOps α] (l : List α) (n nx : Nat) (x : List α) : R (List α) :=
  loopRev 0 n x fun k x => loop 0 nx x fun j x => do
    let x ← loop (k + 1) n x fun i x => do
      setIdx x (k * nx + j) ((← idx x (k * nx + j)) - (← idx x (i * nx + j)) * (← idx l (i * n + k)))
    setIdx x (k * nx + j) (← RDiv.rdiv (← idx x (k * nx + j)) (← idx l (k * n + k)))

/-- `solve` (src/decomp/cholesky.rs:116-144). -/
def solve [Sub α] [Mul α] [FloatOps α] (c : Cholesky α) (b : Mat α) : R (Mat α) := do
  assert (c.l.rows == b.rows)
  let n := c.l.rows
  let nx ← b.cols
  let x ← forward c.l.data n nx b.data
  let x ← backward c.l.data n nx x
  Mat.new n nx x

end Cholesky
end LA
