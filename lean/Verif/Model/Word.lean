import Verif.Model.Matrix

/-!
# Machine-word (`usize`) arithmetic where it matters: `Matrix::new`, the constructors, the product, `mt`

The rest of the model uses unbounded naturals.  Here products of `usize` values are either checked (debug builds: the
overflow panics) or taken modulo `2^w` (release builds).
-/

namespace LA

/-- Overflow behaviour of the build. -/
inductive Mode where
  /-- debug build: overflow panics -/
  | debug
  /-- release build: overflow wraps -/
  | release
deriving DecidableEq

/-- `a * b` on `w`-bit `usize`. -/
def mulW (mode : Mode) (w a b : Nat) : R Nat :=
  match mode with
  | .debug => if a * b < 2 ^ w then .ok (a * b) else .error .arith
  | .release => .ok (a * b % 2 ^ w)

/-- `a + b` on `w`-bit `usize`. -/
def addW (mode : Mode) (w a b : Nat) : R Nat :=
  match mode with
  | .debug => if a + b < 2 ^ w then .ok (a + b) else .error .arith
  | .release => .ok ((a + b) % 2 ^ w)

/-- `alloc_dirty_vec` (src/internalutil.rs:6-13) with a bound on the number of elements that can be allocated: beyond it
`Vec::with_capacity` panics. -/
def allocW (α : Type) (cap n : Nat) : R (Buf α) := if n ≤ cap then .ok (alloc α n) else .error .arith

namespace Mat
variable {α : Type}

/-- The zeroing loop of the constructors (src/matrix.rs:115-117, 127-129, 140-142, 155-157) on a bounded allocation. -/
def zeroFillW [Zero α] (cap n : Nat) : R (Buf α) := do
  loop 0 n (← allocW α cap n) fun i d => wr d i 0

/-- The machine index `row * cols + col`. -/
def indexW (mode : Mode) (w row cols col : Nat) : R Nat := do addW mode w (← mulW mode w row cols) col

/-- `Matrix::id` (src/matrix.rs:112-122) with machine arithmetic. -/
def idW [Zero α] [One α] (mode : Mode) (w cap m n : Nat) : R (Mat α) := do
  let d ← zeroFillW cap (← mulW mode w m n)
  let d ← loop 0 (min m n) d fun i d => do wr d (← indexW mode w i n i) 1
  return ⟨m, ← freeze d⟩

/-- `Matrix::random` (src/matrix.rs:571-578) with machine arithmetic. -/
def randomW (mode : Mode) (w cap : Nat) (draw : Nat → α) (noRows noCols : Nat) : R (Mat α) := do
  let elems ← mulW mode w noRows noCols
  let d ← loop 0 elems (← allocW α cap elems) fun i d => wr d i (draw i)
  return ⟨noRows, ← freeze d⟩

/-- `&a * &m` (src/matrix.rs:688-707) with machine arithmetic in the size and the destination index (the source indices are
those of `get_ref`, which are below the number of stored elements). -/
def mulMatW [Zero α] [Add α] [Mul α] (mode : Mode) (w cap : Nat) (a m : Mat α) : R (Mat α) := do
  let ac ← a.cols
  assert (ac == m.rows)
  let mc ← m.cols
  let d ← loop 0 a.rows (← allocW α cap (← mulW mode w a.rows mc)) fun row d =>
    loop 0 mc d fun col d => do
      let res ← loop 0 ac (0 : α) fun k res => do return res + (← a.getRef row k) * (← m.getRef k col)
      wr d (← indexW mode w row mc col) res
  return ⟨a.rows, ← freeze d⟩

/-- `Matrix::new` (src/matrix.rs:26-30) with the machine product. -/
def newW (mode : Mode) (w noRows noCols : Nat) (data : List α) : R (Mat α) := do
  assert ((← mulW mode w noRows noCols) == data.length)
  assert (decide (noRows > 0) && decide (noCols > 0))
  return ⟨noRows, data⟩

/-- `Matrix::diag` (src/matrix.rs:136-147) with machine arithmetic. -/
def diagW [Zero α] (mode : Mode) (w cap : Nat) (data : List α) : R (Mat α) := do
  let size := data.length
  let d ← zeroFillW cap (← mulW mode w size size)
  let d ← loop 0 size d fun i d => do wr d (← indexW mode w i size i) (← idx data i)
  newW mode w size size (← freeze d)

/-- `Matrix::block_diag` (src/matrix.rs:149-163) with machine arithmetic. -/
def blockDiagW [Zero α] (mode : Mode) (w cap m n : Nat) (data : List α) : R (Mat α) := do
  let minDim := min m n
  assert (data.length == minDim)
  let d ← zeroFillW cap (← mulW mode w m n)
  let d ← loop 0 minDim d fun i d => do wr d (← indexW mode w i n i) (← idx data i)
  newW mode w m n (← freeze d)

/-- `Matrix::zero` (src/matrix.rs:124-134) with the machine product. -/
def zeroW [Zero α] (mode : Mode) (w noRows noCols : Nat) : R (Mat α) := do
  let elems ← mulW mode w noRows noCols
  let d ← zeroFill elems
  return ⟨noRows, ← freeze d⟩

/-- The inner `loop` of `mt` (src/matrix.rs:375-385) with the machine product `self.no_rows * idx`. -/
def mtCycleW (mode : Mode) (w rows last cycleIdx : Nat) :
    Nat → Nat → α → List α → List Bool → R (List α × List Bool)
  | 0, _, _, _, _ => .error .fuel
  | fuel + 1, i, prev, data, visited => do
    let i ← umod (← mulW mode w rows i) last
    let cur ← idx data i
    let data ← setIdx data i prev
    if i = cycleIdx then
      return (data, visited)
    else
      let visited ← setIdx visited i true
      mtCycleW mode w rows last cycleIdx fuel i cur data visited

/-- `mt` (src/matrix.rs:365-389) with the machine product. -/
def mtW (mode : Mode) (w : Nat) (fuel : Nat) (a : Mat α) : R (Mat α) := do
  let visited := List.replicate a.data.length false
  let last ← usub a.data.length 1
  let (data, _) ← loop 1 last (a.data, visited) fun cycleIdx (data, visited) => do
    if ← idx visited cycleIdx then
      return (data, visited)
    else
      let prev ← idx data cycleIdx
      mtCycleW mode w a.rows last cycleIdx fuel cycleIdx prev data visited
  let a' : Mat α := ⟨a.rows, data⟩
  return ⟨← a'.cols, data⟩

end Mat
end LA
