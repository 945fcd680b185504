import Verif.Model.LU

/-! # Model of src/decomp/qr.rs:20-239 (`QRDecomposition`) and of src/matrix.rs:777-785 (`pinverse`) -/

namespace LA
variable {α : Type}

/-- `QRDecomposition<T>` (src/decomp/qr.rs:20-23). -/
structure QR (α : Type) where
  /-- `qr` -/
  qr : Mat α
  /-- `rdiag` -/
  rdiag : List α
deriving DecidableEq, Repr

namespace QR

/-- src/decomp/qr.rs:92-104: reflect column `column`. -/
def reflectColumn [Zero α] [Add α] [Mul α] [FloatOps α] (minor m n : Nat) (a : α) (column : Nat) (q : List α) :
    R (List α) := do
  let xu ← loop minor m (0 : α) fun row xu => do
    return xu + (← idx q (row * n + minor)) * (← idx q (row * n + column))
  let factor ← RDiv.rdiv xu (a * (← idx q (minor * n + minor)))
  loop minor m q fun row q => do
    setIdx q (row * n + column) ((← idx q (row * n + column)) + factor * (← idx q (row * n + minor)))

/-- `perform_householder_reflection` (src/decomp/qr.rs:45-106). The caller's `qrdata` and `rdiag` are returned. -/
def reflect [Zero α] [Add α] [Sub α] [Neg α] [Mul α] [FloatOps α] (minor : Nat) (q : List α) (m n : Nat)
    (rdiag : Buf α) : R (List α × Buf α) := do
  let nrm ← loop minor m (0 : α) fun i s => do
    let c ← idx q (i * n + minor)
    return s + c * c
  let a ← (do
    if FloatOps.lt 0 (← idx q (minor * n + minor)) then return -(← FloatOps.sqrt nrm) else FloatOps.sqrt nrm)
  let rdiag ← wr rdiag minor a
  if !(FloatOps.eq a 0) then
    let q ← setIdx q (minor * n + minor) ((← idx q (minor * n + minor)) - a)
    let q ← loop (minor + 1) n q fun column q => reflectColumn minor m n a column q
    return (q, rdiag)
  else return (q, rdiag)

/-- `QRDecomposition::new` (src/decomp/qr.rs:26-42). -/
def new [Zero α] [Add α] [Sub α] [Neg α] [Mul α] [FloatOps α] (a : Mat α) : R (QR α) := do
  let n ← a.cols
  let m := a.rows
  let (q, rdiag) ← loop 0 (min m n) (a.data, alloc α (min m n)) fun minor (q, rdiag) => reflect minor q m n rdiag
  return ⟨← Mat.new m n q, ← freeze rdiag⟩

/-- `is_full_rank` (src/decomp/qr.rs:108-115). -/
def isFullRank [Zero α] [FloatOps α] (x : QR α) : R Bool := do
  match ← loopF 0 (← x.qr.cols) () fun j () => do
    if FloatOps.eq (← idx x.rdiag j) 0 then return .ret false else return .next () with
  | .ret b => return b
  | .next () => return true

/-- `get_h` (src/decomp/qr.rs:119-132). -/
def getH [Zero α] (x : QR α) : R (Mat α) := do
  let n ← x.qr.cols
  let m := x.qr.rows
  let h ← loop 0 m (alloc α (m * n)) fun i h => loop 0 n h fun j h => do
    wr h (i * n + j) (← (if i ≥ j then idx x.qr.data (i * n + j) else return 0))
  Mat.new m n (← freeze h)

/-- `get_r` (src/decomp/qr.rs:135-148). -/
def getR [Zero α] (x : QR α) : R (Mat α) := do
  let m := x.qr.rows
  let n ← x.qr.cols
  let r ← loop 0 m (alloc α (m * n)) fun i r => loop 0 n r fun j r => do
    wr r (i * n + j) (← (if i < j then idx x.qr.data (i * n + j) else if i = j then idx x.rdiag i else return 0))
  Mat.new m n (← freeze r)

/-- src/decomp/qr.rs:179-189: reflect column `column` of `qdata`. -/
def unreflectColumn [Zero α] [Add α] [Mul α] [FloatOps α] (x : QR α) (minor m n column : Nat) (q : List α) :
    R (List α) := do
  let xu ← loop minor m (0 : α) fun row xu => do
    return xu + (← idx x.qr.data (row * n + minor)) * (← idx q (row * m + column))
  let factor ← RDiv.rdiv xu ((← idx x.rdiag minor) * (← idx x.qr.data (minor * n + minor)))
  loop minor m q fun row q => do
    setIdx q (row * m + column) ((← idx q (row * m + column)) + factor * (← idx x.qr.data (row * n + minor)))

/-- `get_q` (src/decomp/qr.rs:151-194). -/
def getQ [Zero α] [One α] [Add α] [Mul α] [FloatOps α] (x : QR α) : R (Mat α) := do
  let n ← x.qr.cols
  let m := x.qr.rows
  let q ← loop 0 (min m n) (List.replicate (m * m) (0 : α)) fun minor q => setIdx q (minor * m + minor) 1
  let q ← loopRev 0 (min m n) q fun minor q => do
    if !(FloatOps.eq (← idx x.qr.data (minor * n + minor)) 0) then
      loop minor m q fun column q => unreflectColumn x minor m n column q
    else return q
  Mat.new m m q

/-- src/decomp/qr.rs:213-222: one reflection applied to column `j` of the right-hand side. -/
def solveColumn [Zero α] [Add α] [Neg α] [Mul α] [FloatOps α] (x : QR α) (m n nx k j : Nat) (b : List α) :
    R (List α) := do
  let s ← loop k m (0 : α) fun i s => do
    return s + (← idx x.qr.data (i * n + k)) * (← idx b (i * nx + j))
  let s ← RDiv.rdiv (-s) (← idx x.qr.data (k * n + k))
  loop k m b fun i b => do
    setIdx b (i * nx + j) ((← idx b (i * nx + j)) + s * (← idx x.qr.data (i * n + k)))

/-- src/decomp/qr.rs:226-235: back substitution. -/
def backSubst [Sub α] [Mul α] [FloatOps α] (x : QR α) (n nx : Nat) (b : List α) : R (List α) :=
  loopRev 0 n b fun k b => do
    let b ← loop 0 nx b fun j b => do
      setIdx b (k * nx + j) (← RDiv.rdiv (← idx b (k * nx + j)) (← idx x.rdiag k))
    loop 0 k b fun i b => loop 0 nx b fun j b => do
      setIdx b (i * nx + j) ((← idx b (i * nx + j)) - (← idx b (k * nx + j)) * (← idx x.qr.data (i * n + k)))

/-- `solve` (src/decomp/qr.rs:199-238). -/
def solve [Zero α] [Add α] [Sub α] [Neg α] [Mul α] [FloatOps α] (x : QR α) (b : Mat α) : R (Option (Mat α)) := do
  assert (b.rows == x.qr.rows)
  if !(← x.isFullRank) then return none
  let nx ← b.cols
  let n ← x.qr.cols
  let m := x.qr.rows
  let d ← loop 0 n b.data fun k d => loop 0 nx d fun j d => solveColumn x m n nx k j d
  let d ← backSubst x n nx d
  return some (← Mat.new n nx d)

end QR

/-- `pinverse` (src/matrix.rs:777-785). -/
def Mat.pinverse [Zero α] [One α] [Add α] [Sub α] [Neg α] [Mul α] [FloatOps α] (a : Mat α) : R (Mat α) := do
  let qr ← QR.new a
  let r ← qr.getR
  let inv ← unwrap (← (← (← r.t).mul r).inverse)
  inv.mul (← a.t)

end LA
