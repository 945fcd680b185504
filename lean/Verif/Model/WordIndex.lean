import Verif.Model.Word
import Verif.Model.Norm

/-!
# Machine-word (`usize`) arithmetic in the index computations of src/matrix.rs

As `Verif/Model/Matrix.lean`, but every `+` and `*` on `usize` is checked (debug builds) or taken modulo `2^w` (release builds), and
allocations of more than `cap` elements panic.
-/

namespace LA.Mat
variable {α : Type}

/-- `get` (src/matrix.rs:294-297), also `get_ref` (54-57), with machine arithmetic. -/
def getW (mode : Mode) (w : Nat) (a : Mat α) (row col : Nat) : R α := do
  assert (decide (row < a.rows))
  let c ← a.cols
  assert (decide (col < c))
  idx a.data (← indexW mode w row c col)

/-- `set` (src/matrix.rs:299-303), also writing through `get_mref` (59-63), with machine arithmetic. -/
def setW (mode : Mode) (w : Nat) (a : Mat α) (row col : Nat) (val : α) : R (Mat α) := do
  assert (decide (row < a.rows))
  let c ← a.cols
  assert (decide (col < c))
  return ⟨a.rows, ← setIdx a.data (← indexW mode w row c col) val⟩

/-- `cr` (src/matrix.rs:305-328) with machine arithmetic. -/
def crW (mode : Mode) (w cap : Nat) (a m : Mat α) : R (Mat α) := do
  assert (a.rows == m.rows)
  let elems ← addW mode w a.data.length m.data.length
  let (d, _, _, _) ← loop 0 a.rows (← allocW α cap elems, 0, 0, 0) fun _ (d, s1, s2, di) => do
    let (d, s1, di) ← loop 0 (← a.cols) (d, s1, di) fun _ (d, s1, di) => do
      let d ← wr d di (← idx a.data s1)
      return (d, ← addW mode w s1 1, ← addW mode w di 1)
    let (d, s2, di) ← loop 0 (← m.cols) (d, s2, di) fun _ (d, s2, di) => do
      let d ← wr d di (← idx m.data s2)
      return (d, ← addW mode w s2 1, ← addW mode w di 1)
    return (d, s1, s2, di)
  return ⟨a.rows, ← freeze d⟩

/-- `cb` (src/matrix.rs:330-345) with machine arithmetic. -/
def cbW (mode : Mode) (w cap : Nat) (a m : Mat α) : R (Mat α) := do
  assert ((← a.cols) == (← m.cols))
  let elems ← addW mode w a.data.length m.data.length
  let d ← loop 0 a.data.length (← allocW α cap elems) fun i d => do wr d i (← idx a.data i)
  let offset := a.data.length
  let d ← loop 0 m.data.length d fun i d => do wr d (← addW mode w offset i) (← idx m.data i)
  return ⟨← addW mode w a.rows m.rows, ← freeze d⟩

/-- `t` (src/matrix.rs:347-363) with machine arithmetic. -/
def tW (mode : Mode) (w cap : Nat) (a : Mat α) : R (Mat α) := do
  let elems := a.data.length
  let (d, _) ← loop 0 elems (← allocW α cap elems, 0) fun i (d, src) => do
    let d ← wr d i (← idx a.data src)
    let src ← addW mode w src (← a.cols)
    let src ← if src ≥ elems then addW mode w (src - elems) 1 else pure src
    return (d, src)
  return ⟨← a.cols, ← freeze d⟩

/-- `minor` (src/matrix.rs:391-412) with machine arithmetic. -/
def minorW (mode : Mode) (w cap : Nat) (a : Mat α) (row col : Nat) : R (Mat α) := do
  assert (decide (row < a.rows))
  let c ← a.cols
  assert (decide (col < c) && decide (a.rows > 1) && decide (c > 1))
  let elems ← mulW mode w (c - 1) (a.rows - 1)
  let (d, _, _) ← loop 0 a.rows (← allocW α cap elems, 0, 0) fun curRow (d, srcRow, di) => do
    let (d, di) ←
      if curRow ≠ row then
        loop 0 c (d, di) fun curCol (d, di) => do
          if curCol ≠ col then
            let d ← wr d di (← idx a.data (← addW mode w srcRow curCol))
            return (d, ← addW mode w di 1)
          else return (d, di)
      else pure (d, di)
    return (d, ← addW mode w srcRow c, di)
  return ⟨a.rows - 1, ← freeze d⟩

/-- `sub_matrix` (src/matrix.rs:414-435) with machine arithmetic. -/
def subMatrixW (mode : Mode) (w cap : Nat) (a : Mat α) (startRow startCol endRow endCol : Nat) : R (Mat α) := do
  assert (decide (startRow < endRow))
  assert (decide (startCol < endCol))
  assert (decide (endRow - startRow < a.rows))
  let c ← a.cols
  assert (decide (endCol - startCol < c) && startRow != endRow && startCol != endCol)
  let rows := endRow - startRow
  let cols := endCol - startCol
  let elems ← mulW mode w rows cols
  let b ← allocW α cap elems
  let src ← indexW mode w startRow c startCol
  let (d, _, _) ← loop 0 rows (b, src, 0) fun _ (d, src, di) => do
    let d ← loop 0 cols d fun colOffset d => do
      wr d (← addW mode w di colOffset) (← idx a.data (← addW mode w src colOffset))
    return (d, ← addW mode w src c, ← addW mode w di cols)
  return ⟨rows, ← freeze d⟩

/-- `get_column` (src/matrix.rs:437-449) with machine arithmetic. -/
def getColumnW (mode : Mode) (w cap : Nat) (a : Mat α) (column : Nat) : R (Mat α) := do
  assert (decide (column < (← a.cols)))
  let (d, _) ← loop 0 a.rows (← allocW α cap a.rows, column) fun i (d, src) => do
    let d ← wr d i (← idx a.data src)
    return (d, ← addW mode w src (← a.cols))
  return ⟨a.rows, ← freeze d⟩

/-- `permute_rows` (src/matrix.rs:451-470) with machine arithmetic. -/
def permuteRowsW (mode : Mode) (w cap : Nat) (a : Mat α) (rows : List Nat) : R (Mat α) := do
  let noRows := rows.length
  let noCols ← a.cols
  let elems ← mulW mode w noRows noCols
  let (d, _) ← loop 0 noRows (← allocW α cap elems, 0) fun row (d, di) => do
    let rowIdx ← mulW mode w (← idx rows row) noCols
    assert (decide ((← idx rows row) < a.rows))
    loop 0 noCols (d, di) fun col (d, di) => do
      let d ← wr d di (← idx a.data (← addW mode w rowIdx col))
      return (d, ← addW mode w di 1)
  return ⟨noRows, ← freeze d⟩

/-- `permute_columns` (src/matrix.rs:472-492) with machine arithmetic. -/
def permuteColumnsW (mode : Mode) (w cap : Nat) (a : Mat α) (columns : List Nat) : R (Mat α) := do
  let noRows := a.rows
  let noCols := columns.length
  let elems ← mulW mode w noRows noCols
  let (d, _, _) ← loop 0 noRows (← allocW α cap elems, 0, 0) fun _ (d, di, rowIdx) => do
    let (d, di) ← loop 0 noCols (d, di) fun col (d, di) => do
      assert (decide ((← idx columns col) < (← a.cols)))
      let d ← wr d di (← idx a.data (← addW mode w rowIdx (← idx columns col)))
      return (d, ← addW mode w di 1)
    return (d, di, ← addW mode w rowIdx (← a.cols))
  return ⟨noRows, ← freeze d⟩

/-- `trace` (src/matrix.rs:743-751) with machine arithmetic. -/
def traceW [Zero α] [Add α] (mode : Mode) (w : Nat) (a : Mat α) : R α := do
  let (sum, _) ← loop 0 (min a.rows (← a.cols)) ((0 : α), 0) fun _ (sum, i) => do
    return (sum + (← idx a.data i), ← addW mode w i (← addW mode w (← a.cols) 1))
  return sum

end LA.Mat
