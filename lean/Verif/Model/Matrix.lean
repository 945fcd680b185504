import Verif.Model.Prim

/-!
# Model of src/matrix.rs (lines 19-740): construction, access, elementwise and block operations

`usize` is `Nat` here; see `Verif/Model/Word.lean` for machine-word arithmetic.
`clone()` on elements is the identity (`T : Copy`).  A method taking `&mut self` returns the new matrix.
-/

namespace LA

/-- `struct Matrix<T>` (src/matrix.rs:19-23): row count and row-major storage. -/
structure Mat (α : Type) where
  /-- `no_rows` -/
  rows : Nat
  /-- `data` -/
  data : List α
deriving DecidableEq, Repr

namespace Mat

variable {α β : Type}

/-- `Matrix::new` (src/matrix.rs:26-30). -/
def new (noRows noCols : Nat) (data : List α) : R (Mat α) := do
  assert (noRows * noCols == data.length)
  assert (decide (noRows > 0) && decide (noCols > 0))
  return ⟨noRows, data⟩

/-- `Matrix::vector` (src/matrix.rs:32-35). -/
def vector (data : List α) : R (Mat α) := do
  assert (decide (data.length > 0))
  return ⟨data.length, data⟩

/-- `Matrix::row_vector` (src/matrix.rs:37-40). -/
def rowVector (data : List α) : R (Mat α) := do
  assert (decide (data.length > 0))
  return ⟨1, data⟩

/-- `cols()` (src/matrix.rs:46): panics (division by zero) when there are no rows. -/
def cols (a : Mat α) : R Nat := udiv a.data.length a.rows

/-- `get_ref(row, col)` (src/matrix.rs:54-57): the referenced value. -/
def getRef (a : Mat α) (row col : Nat) : R α := do
  -- `row < self.no_rows && col < self.cols()` is short-circuiting
  assert (decide (row < a.rows))
  let c ← a.cols
  assert (decide (col < c))
  idx a.data (row * c + col)

/-- `*get_mref(row, col) = val` (src/matrix.rs:59-63): writing through the returned reference. -/
def getMrefWrite (a : Mat α) (row col : Nat) (val : α) : R (Mat α) := do
  assert (decide (row < a.rows))
  let c ← a.cols
  assert (decide (col < c))
  return ⟨a.rows, ← setIdx a.data (row * c + col) val⟩

/-- `*get_mref(row, col)` (src/matrix.rs:59-63): reading through the returned reference. -/
def getMrefRead (a : Mat α) (row col : Nat) : R α := do
  assert (decide (row < a.rows))
  let c ← a.cols
  assert (decide (col < c))
  idx a.data (row * c + col)

/-- `map` (src/matrix.rs:65-75). -/
def map (a : Mat α) (f : α → β) : R (Mat β) := do
  let elems := a.data.length
  let d ← loop 0 elems (alloc β elems) fun i d => do wr d i (f (← idx a.data i))
  return ⟨a.rows, ← freeze d⟩

/-- `mmap` (src/matrix.rs:77-81). -/
def mmap (a : Mat α) (f : α → α) : R (Mat α) := do
  let d ← loop 0 a.data.length a.data fun i d => do setIdx d i (f (← idx d i))
  return ⟨a.rows, d⟩

/-- `reduce` (src/matrix.rs:83-98). -/
def reduce (a : Mat α) (init : List β) (f : β → α → β) : R (Mat β) := do
  assert (init.length == (← a.cols))
  let (data, _) ← loop 0 a.data.length (init, 0) fun i (data, k) => do
    let data ← setIdx data k (f (← idx data k) (← idx a.data i))
    let k ← umod (k + 1) data.length
    return (data, k)
  return ⟨1, data⟩

/-- `is_square` (src/matrix.rs:100-103). -/
def isSquare (a : Mat α) : R Bool := do return a.rows == (← a.cols)

/-- `is_not_square` (src/matrix.rs:105-108). -/
def isNotSquare (a : Mat α) : R Bool := do return !(← a.isSquare)

/-- The loop `for i in 0..elems { d[i] = num::zero(); }` shared by the constructors
(src/matrix.rs:115-117, 127-129, 140-142, 155-157, 167-169). -/
def zeroFill [Zero α] (n : Nat) : R (Buf α) := loop 0 n (alloc α n) fun i d => wr d i 0

/-- `Matrix::id` (src/matrix.rs:112-122). -/
def id [Zero α] [One α] (m n : Nat) : R (Mat α) := do
  let d ← zeroFill (m * n)
  let d ← loop 0 (min m n) d fun i d => wr d (i * n + i) 1
  return ⟨m, ← freeze d⟩

/-- `Matrix::zero` (src/matrix.rs:124-134). -/
def zero [Zero α] (noRows noCols : Nat) : R (Mat α) := do
  let d ← zeroFill (noRows * noCols)
  return ⟨noRows, ← freeze d⟩

/-- `Matrix::diag` (src/matrix.rs:136-147). -/
def diag [Zero α] (data : List α) : R (Mat α) := do
  let size := data.length
  let d ← zeroFill (size * size)
  let d ← loop 0 size d fun i d => do wr d (i * size + i) (← idx data i)
  new size size (← freeze d)

/-- `Matrix::block_diag` (src/matrix.rs:149-163). -/
def blockDiag [Zero α] (m n : Nat) (data : List α) : R (Mat α) := do
  let minDim := min m n
  assert (data.length == minDim)
  let d ← zeroFill (m * n)
  let d ← loop 0 minDim d fun i d => do wr d (i * n + i) (← idx data i)
  new m n (← freeze d)

/-- `Matrix::zero_vector` (src/matrix.rs:165-171). -/
def zeroVector [Zero α] (noRows : Nat) : R (Mat α) := do
  let d ← zeroFill noRows
  return ⟨noRows, ← freeze d⟩

/-- `Matrix::one_vector` (src/matrix.rs:173-179). -/
def oneVector [One α] (noRows : Nat) : R (Mat α) := do
  let d ← loop 0 noRows (alloc α noRows) fun i d => wr d i 1
  return ⟨noRows, ← freeze d⟩

/-- `mneg` (src/matrix.rs:183-187). -/
def mneg [Neg α] (a : Mat α) : R (Mat α) := do
  let d ← loop 0 a.data.length a.data fun i d => do setIdx d i (-(← idx d i))
  return ⟨a.rows, d⟩

/-- `scale` (src/matrix.rs:189-199). -/
def scale [Mul α] (a : Mat α) (factor : α) : R (Mat α) := do
  let elems := a.data.length
  let d ← loop 0 elems (alloc α elems) fun i d => do wr d i (factor * (← idx a.data i))
  return ⟨a.rows, ← freeze d⟩

/-- `mscale` (src/matrix.rs:201-205). -/
def mscale [Mul α] (a : Mat α) (factor : α) : R (Mat α) := do
  let d ← loop 0 a.data.length a.data fun i d => do setIdx d i (factor * (← idx d i))
  return ⟨a.rows, d⟩

/-- The two shape assertions of the binary elementwise operations (src/matrix.rs:208-209, 217-218, 226-227,
241-242, 250-251, 265-266, 608-609, 648-649). -/
def assertSameShape (a m : Mat α) : R Unit := do
  assert (a.rows == m.rows)
  assert ((← a.cols) == (← m.cols))

/-- `madd` (src/matrix.rs:207-214). -/
def madd [Add α] (a m : Mat α) : R (Mat α) := do
  assertSameShape a m
  let d ← loop 0 a.data.length a.data fun i d => do setIdx d i ((← idx d i) + (← idx m.data i))
  return ⟨a.rows, d⟩

/-- `msub` (src/matrix.rs:216-223). -/
def msub [Sub α] (a m : Mat α) : R (Mat α) := do
  assertSameShape a m
  let d ← loop 0 a.data.length a.data fun i d => do setIdx d i ((← idx d i) - (← idx m.data i))
  return ⟨a.rows, d⟩

/-- `elem_mul` (src/matrix.rs:225-238). -/
def elemMul [Mul α] (a m : Mat α) : R (Mat α) := do
  assertSameShape a m
  let elems := a.data.length
  let d ← loop 0 elems (alloc α elems) fun i d => do wr d i ((← idx a.data i) * (← idx m.data i))
  return ⟨a.rows, ← freeze d⟩

/-- `melem_mul` (src/matrix.rs:240-247). -/
def melemMul [Mul α] (a m : Mat α) : R (Mat α) := do
  assertSameShape a m
  let d ← loop 0 a.data.length a.data fun i d => do setIdx d i ((← idx d i) * (← idx m.data i))
  return ⟨a.rows, d⟩

/-- `elem_div` (src/matrix.rs:249-262). -/
def elemDiv [RDiv α] (a m : Mat α) : R (Mat α) := do
  assertSameShape a m
  let elems := a.data.length
  let d ← loop 0 elems (alloc α elems) fun i d => do
    wr d i (← RDiv.rdiv (← idx a.data i) (← idx m.data i))
  return ⟨a.rows, ← freeze d⟩

/-- `melem_div` (src/matrix.rs:264-271). -/
def melemDiv [RDiv α] (a m : Mat α) : R (Mat α) := do
  assertSameShape a m
  let d ← loop 0 a.data.length a.data fun i d => do
    setIdx d i (← RDiv.rdiv (← idx d i) (← idx m.data i))
  return ⟨a.rows, d⟩

/-- `get` (src/matrix.rs:294-297). -/
def get (a : Mat α) (row col : Nat) : R α := do
  assert (decide (row < a.rows))
  let c ← a.cols
  assert (decide (col < c))
  idx a.data (row * c + col)

/-- `mmul` (src/matrix.rs:273-289): elements are read with `get`. -/
def mmul [Zero α] [Add α] [Mul α] (a m : Mat α) : R (Mat α) := do
  let ac ← a.cols
  assert (ac == m.rows)
  let mc ← m.cols
  let d ← loop 0 a.rows (alloc α (a.rows * mc)) fun row d =>
    loop 0 mc d fun col d => do
      let res ← loop 0 ac (0 : α) fun k res => do return res + (← a.get row k) * (← m.get k col)
      wr d (row * mc + col) res
  return ⟨a.rows, ← freeze d⟩

/-- `set` (src/matrix.rs:299-303). -/
def set (a : Mat α) (row col : Nat) (val : α) : R (Mat α) := do
  assert (decide (row < a.rows))
  let c ← a.cols
  assert (decide (col < c))
  return ⟨a.rows, ← setIdx a.data (row * c + col) val⟩

/-- `cr` (src/matrix.rs:305-328): concatenation to the right. State: buffer, `src_idx1`, `src_idx2`, `dest_idx`. -/
def cr (a m : Mat α) : R (Mat α) := do
  assert (a.rows == m.rows)
  let elems := a.data.length + m.data.length
  let (d, _, _, _) ← loop 0 a.rows (alloc α elems, 0, 0, 0) fun _ (d, s1, s2, di) => do
    let (d, s1, di) ← loop 0 (← a.cols) (d, s1, di) fun _ (d, s1, di) => do
      let d ← wr d di (← idx a.data s1)
      return (d, s1 + 1, di + 1)
    let (d, s2, di) ← loop 0 (← m.cols) (d, s2, di) fun _ (d, s2, di) => do
      let d ← wr d di (← idx m.data s2)
      return (d, s2 + 1, di + 1)
    return (d, s1, s2, di)
  return ⟨a.rows, ← freeze d⟩

/-- `cb` (src/matrix.rs:330-345): concatenation at the bottom. -/
def cb (a m : Mat α) : R (Mat α) := do
  assert ((← a.cols) == (← m.cols))
  let elems := a.data.length + m.data.length
  let d ← loop 0 a.data.length (alloc α elems) fun i d => do wr d i (← idx a.data i)
  let offset := a.data.length
  let d ← loop 0 m.data.length d fun i d => do wr d (offset + i) (← idx m.data i)
  return ⟨a.rows + m.rows, ← freeze d⟩

/-- `t` (src/matrix.rs:347-363). State: buffer and `src_idx`. -/
def t (a : Mat α) : R (Mat α) := do
  let elems := a.data.length
  let (d, _) ← loop 0 elems (alloc α elems, 0) fun i (d, src) => do
    let d ← wr d i (← idx a.data src)
    let src := src + (← a.cols)
    let src := if src ≥ elems then src - elems + 1 else src
    return (d, src)
  return ⟨← a.cols, ← freeze d⟩

/-- The inner `loop { … }` of `mt` (src/matrix.rs:375-385): follow one cycle, starting after `idx`.
`last` is `self.data.len() - 1`.  An unbounded Rust loop, hence the fuel. -/
def mtCycle (rows last cycleIdx : Nat) : Nat → Nat → α → List α → List Bool → R (List α × List Bool)
  | 0, _, _, _, _ => .error .fuel
  | fuel + 1, i, prev, data, visited => do
    let i ← umod (rows * i) last
    let cur ← idx data i
    let data ← setIdx data i prev
    if i = cycleIdx then
      return (data, visited)
    else
      let visited ← setIdx visited i true
      mtCycle rows last cycleIdx fuel i cur data visited

/-- `mt` (src/matrix.rs:365-389). `fuel` bounds the number of steps of each inner `loop`. -/
def mt (fuel : Nat) (a : Mat α) : R (Mat α) := do
  let visited := List.replicate a.data.length false
  let last ← usub a.data.length 1
  let (data, _) ← loop 1 last (a.data, visited) fun cycleIdx (data, visited) => do
    if ← idx visited cycleIdx then
      return (data, visited)
    else
      let prev ← idx data cycleIdx
      mtCycle a.rows last cycleIdx fuel cycleIdx prev data visited
  let a' : Mat α := ⟨a.rows, data⟩
  return ⟨← a'.cols, data⟩

/-- `minor` (src/matrix.rs:391-412). State: buffer, `source_row_idx`, `dest_idx`. -/
def minor (a : Mat α) (row col : Nat) : R (Mat α) := do
  assert (decide (row < a.rows))
  let c ← a.cols
  assert (decide (col < c) && decide (a.rows > 1) && decide (c > 1))
  let elems := (c - 1) * (a.rows - 1)
  let (d, _, _) ← loop 0 a.rows (alloc α elems, 0, 0) fun curRow (d, srcRow, di) => do
    let (d, di) ←
      if curRow ≠ row then
        loop 0 c (d, di) fun curCol (d, di) => do
          if curCol ≠ col then
            let d ← wr d di (← idx a.data (srcRow + curCol))
            return (d, di + 1)
          else return (d, di)
      else pure (d, di)
    return (d, srcRow + c, di)
  return ⟨a.rows - 1, ← freeze d⟩

/-- `sub_matrix` (src/matrix.rs:414-435). State: buffer, `src_idx`, `dest_idx`. -/
def subMatrix (a : Mat α) (startRow startCol endRow endCol : Nat) : R (Mat α) := do
  assert (decide (startRow < endRow))
  assert (decide (startCol < endCol))
  assert (decide (endRow - startRow < a.rows))
  let c ← a.cols
  assert (decide (endCol - startCol < c) && startRow != endRow && startCol != endCol)
  let rows := endRow - startRow
  let cols := endCol - startCol
  let elems := rows * cols
  let (d, _, _) ← loop 0 rows (alloc α elems, startRow * c + startCol, 0) fun _ (d, src, di) => do
    let d ← loop 0 cols d fun colOffset d => do wr d (di + colOffset) (← idx a.data (src + colOffset))
    return (d, src + c, di + cols)
  return ⟨rows, ← freeze d⟩

/-- `get_column` (src/matrix.rs:437-449). State: buffer, `src_idx`. -/
def getColumn (a : Mat α) (column : Nat) : R (Mat α) := do
  assert (decide (column < (← a.cols)))
  let (d, _) ← loop 0 a.rows (alloc α a.rows, column) fun i (d, src) => do
    let d ← wr d i (← idx a.data src)
    return (d, src + (← a.cols))
  return ⟨a.rows, ← freeze d⟩

/-- `permute_rows` (src/matrix.rs:451-470). State: buffer, `dest_idx`. -/
def permuteRows (a : Mat α) (rows : List Nat) : R (Mat α) := do
  let noRows := rows.length
  let noCols ← a.cols
  let elems := noRows * noCols
  let (d, _) ← loop 0 noRows (alloc α elems, 0) fun row (d, di) => do
    let rowIdx := (← idx rows row) * noCols
    assert (decide ((← idx rows row) < a.rows))
    loop 0 noCols (d, di) fun col (d, di) => do
      let d ← wr d di (← idx a.data (rowIdx + col))
      return (d, di + 1)
  return ⟨noRows, ← freeze d⟩

/-- `permute_columns` (src/matrix.rs:472-492). State: buffer, `dest_idx`, `row_idx`. -/
def permuteColumns (a : Mat α) (columns : List Nat) : R (Mat α) := do
  let noRows := a.rows
  let noCols := columns.length
  let elems := noRows * noCols
  let (d, _, _) ← loop 0 noRows (alloc α elems, 0, 0) fun _ (d, di, rowIdx) => do
    let (d, di) ← loop 0 noCols (d, di) fun col (d, di) => do
      assert (decide ((← idx columns col) < (← a.cols)))
      let d ← wr d di (← idx a.data (rowIdx + (← idx columns col)))
      return (d, di + 1)
    return (d, di, rowIdx + (← a.cols))
  return ⟨noRows, ← freeze d⟩

/-- The index-collecting loop of `filter_*` / `select_*` (src/matrix.rs:496-500, 506-510, 517-521, 528-532):
`for i in 0..n { if keep(i) { v.push(i) } }`. -/
def collect (n : Nat) (keep : Nat → R Bool) : R (List Nat) :=
  loop 0 n ([] : List Nat) fun i v => do if ← keep i then return v ++ [i] else return v

/-- `filter_rows` (src/matrix.rs:494-502). -/
def filterRows (a : Mat α) (f : Mat α → Nat → Bool) : R (Mat α) := do
  let rows ← collect a.rows fun row => return f a row
  a.permuteRows rows

/-- `filter_columns` (src/matrix.rs:504-512). -/
def filterColumns (a : Mat α) (f : Mat α → Nat → Bool) : R (Mat α) := do
  let cols ← collect (← a.cols) fun col => return f a col
  a.permuteColumns cols

/-- `select_rows` (src/matrix.rs:514-523). -/
def selectRows (a : Mat α) (selector : List Bool) : R (Mat α) := do
  assert (a.rows == selector.length)
  let rows ← collect selector.length fun i => idx selector i
  a.permuteRows rows

/-- `select_columns` (src/matrix.rs:525-534). -/
def selectColumns (a : Mat α) (selector : List Bool) : R (Mat α) := do
  assert ((← a.cols) == selector.length)
  let cols ← collect selector.length fun i => idx selector i
  a.permuteColumns cols

/-- `Matrix::random` (src/matrix.rs:571-578); `draw k` is the value returned by the `k`-th call of `rand::random`. -/
def random (draw : Nat → α) (noRows noCols : Nat) : R (Mat α) := do
  let elems := noRows * noCols
  let d ← loop 0 elems (alloc α elems) fun i d => wr d i (draw i)
  return ⟨noRows, ← freeze d⟩

/-- `Neg for &Matrix` (src/matrix.rs:584-594). -/
def neg [Neg α] (a : Mat α) : R (Mat α) := do
  let elems := a.data.length
  let d ← loop 0 elems (alloc α elems) fun i d => do wr d i (-(← idx a.data i))
  return ⟨a.rows, ← freeze d⟩

/-- `Neg for Matrix` (src/matrix.rs:597-602). -/
def negOwned [Neg α] (a : Mat α) : R (Mat α) := neg a

/-- `&a + &m` (src/matrix.rs:607-620). -/
def add [Add α] (a m : Mat α) : R (Mat α) := do
  assertSameShape a m
  let elems := a.data.length
  let d ← loop 0 elems (alloc α elems) fun i d => do wr d i ((← idx a.data i) + (← idx m.data i))
  return ⟨a.rows, ← freeze d⟩

/-- `&a - &m` (src/matrix.rs:647-660). -/
def sub [Sub α] (a m : Mat α) : R (Mat α) := do
  assertSameShape a m
  let elems := a.data.length
  let d ← loop 0 elems (alloc α elems) fun i d => do wr d i ((← idx a.data i) - (← idx m.data i))
  return ⟨a.rows, ← freeze d⟩

/-- `&a * &m` (src/matrix.rs:688-707): elements are read with `get_ref`. -/
def mul [Zero α] [Add α] [Mul α] (a m : Mat α) : R (Mat α) := do
  let ac ← a.cols
  assert (ac == m.rows)
  let mc ← m.cols
  let d ← loop 0 a.rows (alloc α (a.rows * mc)) fun row d =>
    loop 0 mc d fun col d => do
      let res ← loop 0 ac (0 : α) fun k res => do return res + (← a.getRef row k) * (← m.getRef k col)
      wr d (row * mc + col) res
  return ⟨a.rows, ← freeze d⟩

/-- `a + m` with an owned left and/or right operand (src/matrix.rs:623-642): all forward to `&a + &m`. -/
def addOwned [Add α] (a m : Mat α) : R (Mat α) := add a m

/-- `a - m` with an owned left and/or right operand (src/matrix.rs:663-682): all forward to `&a - &m`. -/
def subOwned [Sub α] (a m : Mat α) : R (Mat α) := sub a m

/-- `a * m` with an owned left and/or right operand (src/matrix.rs:710-726): all forward to `&a * &m`. -/
def mulOwned [Zero α] [Add α] [Mul α] (a m : Mat α) : R (Mat α) := mul a m

/-- `a[(y, x)]` (src/matrix.rs:728-733). -/
def index (a : Mat α) (yx : Nat × Nat) : R α := a.getRef yx.1 yx.2

/-- `a | &rhs` (src/matrix.rs:735-740). -/
def bitor (a rhs : Mat α) : R (Mat α) := a.cr rhs

end Mat
end LA
