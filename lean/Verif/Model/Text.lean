import Verif.Model.Matrix

/-!
# Model of the text interfaces: `Debug::fmt` (src/matrix.rs:543-568) and `read_csv` (src/util.rs:9-35)

Strings are lists of characters.  `ws` is the predicate behind `str::trim` (Unicode white space); it is a parameter.
-/

namespace LA
variable {α : Type}

/-- `str::len()`: length in bytes (UTF-8). -/
def blen (s : List Char) : Nat := (s.map Char.utf8Size).sum

/-- src/matrix.rs:546-550: the longest rendering. `render` is the element's own `{:?}`. -/
def maxWidth (render : α → List Char) (data : List α) : Nat :=
  data.foldl (fun maxlen elem => let l := blen (render elem); if maxlen > l then maxlen else l) 0

/-- `Debug::fmt` (src/matrix.rs:545-567): the text that is written. Writing to the formatter is assumed to succeed. -/
def Mat.fmt (render : α → List Char) (a : Mat α) : R (List Char) :=
  let w := maxWidth render a.data
  loop 0 a.rows ['\n'] fun row out => do
    let out := out ++ ['|']
    let out ← loop 0 (← a.cols) out fun col out => do
      let v ← a.getRef row col
      let slen := blen (render v)
      let padding ← loop 0 (← usub w slen) [' '] fun _ p => return p ++ [' ']
      return out ++ (padding ++ render v)
    return out ++ [' ', '|', '\n']

/-- `str::split(",")`: the pieces between the separators (always at least one). -/
def splitOn (sep : Char) : List Char → List (List Char)
  | [] => [[]]
  | c :: s =>
    if c = sep then [] :: splitOn sep s
    else match splitOn sep s with
      | [] => [[c]]
      | p :: ps => (c :: p) :: ps

/-- `BufRead::lines()`: the text cut at line feeds; a final line feed does not start another line.  With `cr`, a carriage
return before the line feed is removed too (the behaviour of newer standard libraries). -/
def lines (cr : Bool) (text : List Char) : List (List Char) :=
  let strip (l : List Char) : List Char := if cr && l.getLast? == some '\r' then l.dropLast else l
  match splitOn '\n' text with
  | [] => []
  | ps =>
    -- all pieces but the last were ended by a line feed
    ps.dropLast.map strip ++ (match ps.getLast? with | some [] => [] | some l => [l] | none => [])

/-- `str::trim()`. -/
def trim (ws : Char → Bool) (s : List Char) : List Char := ((s.dropWhile ws).reverse.dropWhile ws).reverse

/-- src/util.rs:16-30: one line. State: `data`, `row_count`, `col_count`. -/
def csvLine (ws : Char → Bool) (parser : List Char → R α) (s : List α × Nat × Option Nat) (line : List Char) :
    R (List α × Nat × Option Nat) := do
  let (data, rowCount, colCount) := s
  let elementCount := data.length
  let data ← (splitOn ',' line).foldlM (fun data item => do return data ++ [← parser (trim ws item)]) data
  let lineColCount ← usub data.length elementCount
  let colCount ← (match colCount with
    | none => (return some lineColCount : R (Option Nat))
    | some c => do
      assert (c == lineColCount)
      return some c)
  return (data, rowCount + 1, colCount)

/-- `read_csv` (src/util.rs:9-35).  `file` is `none` when the file cannot be opened; its contents are valid UTF-8.  The
parser may panic, hence its result type. -/
def readCsv (cr : Bool) (ws : Char → Bool) (file : Option (List Char)) (parser : List Char → R α) : R (Mat α) := do
  let text ← unwrap file
  let (data, rowCount, colCount) ← (lines cr text).foldlM (csvLine ws parser) ([], 0, none)
  assert colCount.isSome
  Mat.new rowCount (← unwrap colCount) data

end LA
