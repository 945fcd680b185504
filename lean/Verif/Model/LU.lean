import Verif.Model.Matrix

/-!
# Model of src/decomp/lu.rs:95-279 (`LUDecomposition`) and of src/matrix.rs:753-775 (`det`, `solve`, `inverse`,
`is_singular`, `is_non_singular`)
-/

namespace LA
variable {α : Type}

/-- `LUDecomposition<T>` (src/decomp/lu.rs:95-101). -/
structure LU (α : Type) where
  /-- `lu` -/
  lu : Mat α
  /-- `pospivsign` -/
  pos : Bool
  /-- `piv` -/
  piv : List Nat
deriving DecidableEq, Repr

namespace LU

/-- src/decomp/lu.rs:122-129: compute column `j` of `L` and `U` (before division by the pivot). -/
def column [Zero α] [Add α] [Sub α] [Mul α] (m n j : Nat) (d : List α) : R (List α) :=
  loop 0 m d fun i d => do
    let s ← loop 0 (min i j) (0 : α) fun k s => do
      return s + (← idx d (i * n + k)) * (← idx d (k * n + j))
    setIdx d (i * n + j) ((← idx d (i * n + j)) - s)

/-- src/decomp/lu.rs:132-137: the row with the largest entry of column `j`, at or below the diagonal. -/
def pivot [FloatOps α] (m n j : Nat) (d : List α) : R Nat :=
  loop (j + 1) m j fun i p => do
    if FloatOps.lt (FloatOps.abs (← idx d (p * n + j))) (FloatOps.abs (← idx d (i * n + j))) then return i
    else return p

/-- src/decomp/lu.rs:141-145: exchange rows `p` and `j`. -/
def swapRows (n p j : Nat) (d : List α) : R (List α) :=
  loop 0 n d fun k d => do
    let t ← idx d (p * n + k)
    let d ← setIdx d (p * n + k) (← idx d (j * n + k))
    setIdx d (j * n + k) t

/-- src/decomp/lu.rs:147-149: exchange entries `p` and `j` of the pivot vector. -/
def swapPiv (p j : Nat) (piv : List Nat) : R (List Nat) := do
  let k ← idx piv p
  let piv ← setIdx piv p (← idx piv j)
  setIdx piv j k

/-- src/decomp/lu.rs:156-160: divide the subdiagonal part of column `j` by the pivot, unless that is zero. -/
def scale [Zero α] [FloatOps α] (m n j : Nat) (d : List α) : R (List α) := do
  -- `(j < m) && (ludata[j * n + j] != 0)` is short-circuiting
  if j < m then
    if !(FloatOps.eq (← idx d (j * n + j)) 0) then
      loop (j + 1) m d fun i d => do
        setIdx d (i * n + j) (← RDiv.rdiv (← idx d (i * n + j)) (← idx d (j * n + j)))
    else return d
  else return d

/-- src/decomp/lu.rs:116-161: one iteration of the outer loop. State: `ludata`, `pivdata`, `pospivsign`. -/
def step [Zero α] [Add α] [Sub α] [Mul α] [FloatOps α] (m n j : Nat) (s : List α × List Nat × Bool) :
    R (List α × List Nat × Bool) := do
  let d ← column m n j s.1
  let p ← pivot m n j d
  let (d, piv, pos) ← (if p != j then do
      let d ← swapRows n p j d
      let piv ← swapPiv p j s.2.1
      return (d, piv, !s.2.2)
    else return (d, s.2.1, s.2.2))
  let d ← scale m n j d
  return (d, piv, pos)

/-- `LUDecomposition::new` (src/decomp/lu.rs:104-168). -/
def new [Zero α] [Add α] [Sub α] [Mul α] [FloatOps α] (a : Mat α) : R (LU α) := do
  let m := a.rows
  let n ← a.cols
  let pivdata ← loop 0 m (alloc Nat m) fun i d => wr d i i
  let pivdata ← freeze pivdata
  let (d, piv, pos) ← loop 0 n (a.data, pivdata, true) fun j s => step m n j s
  return ⟨← Mat.new m n d, pos, piv⟩

/-- `is_non_singular` (src/decomp/lu.rs:174-182). -/
def isNonSingular [Zero α] [FloatOps α] (x : LU α) : R Bool := do
  let n ← x.lu.cols
  let o ← loopF 0 n () fun j _ => do
    if FloatOps.eq (← idx x.lu.data (j * n + j)) 0 then return Flow.ret false else return Flow.next ()
  match o with
  | .ret r => return r
  | .next _ => return true

/-- `is_singular` (src/decomp/lu.rs:170-172). -/
def isSingular [Zero α] [FloatOps α] (x : LU α) : R Bool := do return !(← x.isNonSingular)

/-- `get_l` (src/decomp/lu.rs:184-202). -/
def getL [Zero α] [One α] (x : LU α) : R (Mat α) := do
  let m := x.lu.rows
  let c ← x.lu.cols
  let n := if x.lu.rows ≥ c then c else x.lu.rows
  let d ← loop 0 m (alloc α (m * n)) fun i d => loop 0 n d fun j d => do
    wr d (i * n + j) (← (if i > j then idx x.lu.data (i * c + j) else if i = j then return 1 else return 0))
  Mat.new m n (← freeze d)

/-- `get_u` (src/decomp/lu.rs:204-215). -/
def getU [Zero α] (x : LU α) : R (Mat α) := do
  let c ← x.lu.cols
  let m := if x.lu.rows ≥ c then c else x.lu.rows
  let n := c
  let d ← loop 0 m (alloc α (m * n)) fun i d => loop 0 n d fun j d => do
    wr d (i * n + j) (← (if i ≤ j then idx x.lu.data (i * n + j) else return 0))
  Mat.new m n (← freeze d)

/-- `get_p` (src/decomp/lu.rs:217-220). -/
def getP [Zero α] [One α] (x : LU α) : R (Mat α) := do
  let len := x.piv.length
  (← Mat.id len len).permuteRows x.piv

/-- `get_piv` (src/decomp/lu.rs:222). -/
def getPiv (x : LU α) : List Nat := x.piv

/-- `det` (src/decomp/lu.rs:224-232). -/
def det [One α] [Neg α] [Mul α] (x : LU α) : R α := do
  assert (x.lu.rows == (← x.lu.cols))
  let n ← x.lu.cols
  loop 0 n (if x.pos then 1 else -1) fun j d => do return d * (← idx x.lu.data (j * n + j))

/-- src/decomp/lu.rs:245-254: right hand side with permuted rows. The loops write every cell when `piv.len() = m`; the
buffer is then used as an initialised vector (`freeze` reports an error otherwise). -/
def rhs (piv : List Nat) (m nx : Nat) (b : Mat α) : R (List α) := do
  let (x, _) ← loop 0 piv.length (alloc α (m * nx), 0) fun i s => loop 0 nx s fun j (x, di) => do
    let x ← wr x di (← idx b.data ((← idx piv i) * (← b.cols) + j))
    return (x, di + 1)
  freeze x

/-- src/decomp/lu.rs:257-263: forward substitution. -/
def forward [Sub α] [Mul α] (lu : List α) (n c nx : Nat) (x : List α) : R (List α) :=
  loop 0 n x fun k x => loop (k + 1) n x fun i x => loop 0 nx x fun j x => do
    setIdx x (i * nx + j) ((← idx x (i * nx + j)) - (← idx x (k * nx + j)) * (← idx lu (i * c + k)))

/-- src/decomp/lu.rs:266-275: back substitution. -/
def backward [Sub α] [Mul α] [FloatOps α] (lu : List α) (n c nx : Nat) (x : List α) : R (List α) :=
  loopRev 0 n x fun k x => do
    let x ← loop 0 nx x fun j x => do
      setIdx x (k * nx + j) (← RDiv.rdiv (← idx x (k * nx + j)) (← idx lu (k * c + k)))
    loop 0 k x fun i x => loop 0 nx x fun j x => do
      setIdx x (i * nx + j) ((← idx x (i * nx + j)) - (← idx x (k * nx + j)) * (← idx lu (i * c + k)))

/-- `LUDecomposition::solve` (src/decomp/lu.rs:237-278). -/
def solve [Zero α] [Sub α] [Mul α] [FloatOps α] (x : LU α) (b : Mat α) : R (Option (Mat α)) := do
  let m := x.lu.rows
  let n ← x.lu.cols
  assert (b.rows == m)
  if !(← x.isNonSingular) then return none
  let nx ← b.cols
  let xd ← rhs x.piv m nx b
  let xd ← forward x.lu.data n (← x.lu.cols) nx xd
  let xd ← backward x.lu.data n (← x.lu.cols) nx xd
  return some (← Mat.new x.lu.rows (← b.cols) xd)

end LU

namespace Mat
variable [Zero α] [One α] [Add α] [Sub α] [Neg α] [Mul α] [FloatOps α]

/-- `det` (src/matrix.rs:753-756). -/
def det (a : Mat α) : R α := do
  assert ((← a.cols) == a.rows)
  (← LU.new a).det

/-- `solve` (src/matrix.rs:758-760). -/
def solve (a b : Mat α) : R (Option (Mat α)) := do (← LU.new a).solve b

/-- `inverse` (src/matrix.rs:762-765). -/
def inverse (a : Mat α) : R (Option (Mat α)) := do
  assert (a.rows == (← a.cols))
  (← LU.new a).solve (← Mat.id a.rows a.rows)

/-- `is_non_singular` (src/matrix.rs:772-775). -/
def isNonSingular (a : Mat α) : R Bool := do
  assert (a.rows == (← a.cols))
  (← LU.new a).isNonSingular

/-- `is_singular` (src/matrix.rs:767-770). -/
def isSingular (a : Mat α) : R Bool := do return !(← a.isNonSingular)

end Mat
end LA
