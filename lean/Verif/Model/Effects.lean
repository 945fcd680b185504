import Verif.Model.Matrix
import Verif.Model.Word
import Verif.Model.Text

/-!
# Calls with side effects that end in a panic

In `Verif/Model/Matrix.lean` closures and element operations are total functions without side effects, and a run that panics has no final
state.  Here closures and element operations may read and write a world `σ` (a `Cell` they capture, a log, the terminal) and may panic; the
world, and for the mutating operations the receiver, are observed after a panic too (by a destructor or by the caller of `catch_unwind`).
-/

namespace LA

/-- A run that starts in a world `σ` and ends with a value or a panic, and in any case with a world. -/
def Act (σ β : Type) := σ → R β × σ

namespace Act
variable {σ τ β γ : Type}

instance : Monad (Act σ) where
  pure b := fun s => (.ok b, s)
  bind x f := fun s =>
    match x s with
    | (.ok b, s') => f b s'
    | (.error e, s') => (.error e, s')

/-- A run without side effects. -/
def lift (r : R β) : Act σ β := fun s => (r, s)

/-- `k` iterations of `body`, with loop index `i, i+1, …, i+k-1`. -/
def forN {δ : Type} : Nat → Nat → δ → (Nat → δ → Act σ δ) → Act σ δ
  | 0, _, d, _ => pure d
  | k + 1, i, d, body => do let d' ← body i d; forN k (i + 1) d' body

/-- `for i in 0..n { body }`. -/
def for0 {δ : Type} (n : Nat) (d : δ) (body : Nat → δ → Act σ δ) : Act σ δ := forN n 0 d body

/-- A run that touches the world only, inside a call that holds a receiver `τ`. -/
def world (x : Act σ β) : Act (σ × τ) β := fun s => ((x s.1).1, ((x s.1).2, s.2))

end Act

/-- The operators of an element type, which may panic (integers in debug builds, division of integers by zero) and, for element types of
the user, have side effects. -/
class ElemOps (σ α : Type) where
  /-- `num::zero()` -/
  zero : α
  /-- `-x` -/
  neg : α → Act σ α
  /-- `x + y` -/
  add : α → α → Act σ α
  /-- `x - y` -/
  sub : α → α → Act σ α
  /-- `x * y` -/
  mul : α → α → Act σ α
  /-- `x / y` -/
  div : α → α → Act σ α

namespace Mat
open Act
variable {σ α β : Type}

/-- `self.data[i]` (read). -/
def peek (i : Nat) : Act (σ × Mat α) α := fun s => (idx s.2.data i, s)

/-- `self.data[i] = x`. -/
def poke (i : Nat) (x : α) : Act (σ × Mat α) Unit := fun s =>
  if i < s.2.data.length then (.ok (), s.1, ⟨s.2.rows, s.2.data.set i x⟩) else (.error .oob, s)

/-- `self`. -/
def self : Act (σ × Mat α) (Mat α) := fun s => (.ok s.2, s)

/-- `self.data = d`. -/
def setData (d : List α) : Act (σ × Mat α) Unit := fun s => (.ok (), s.1, ⟨s.2.rows, d⟩)

/-- `self.no_rows = r`. -/
def setRows (r : Nat) : Act (σ × Mat α) Unit := fun s => (.ok (), s.1, ⟨r, s.2.data⟩)

/-- `map` (src/matrix.rs:65-75). -/
def mapA (f : α → Act σ β) (a : Mat α) : Act σ (Mat β) := do
  let elems := a.data.length
  let d ← for0 elems (alloc β elems) fun i d => do
    let y ← f (← lift (idx a.data i))
    lift (wr d i y)
  return ⟨a.rows, ← lift (freeze d)⟩

/-- `mmap` (src/matrix.rs:77-81). -/
def mmapA (f : α → Act σ α) : Act (σ × Mat α) Unit := do
  let a ← self
  for0 a.data.length () fun i _ => do
    let y ← world (f (← peek i))
    poke i y

/-- `reduce` (src/matrix.rs:83-98). -/
def reduceA (init : List β) (f : β → α → Act σ β) (a : Mat α) : Act σ (Mat β) := do
  lift (assert (init.length == (← lift a.cols)))
  let (data, _) ← for0 a.data.length (init, 0) fun i (data, k) => do
    let y ← f (← lift (idx data k)) (← lift (idx a.data i))
    let data ← lift (setIdx data k y)
    let k ← lift (umod (k + 1) data.length)
    return (data, k)
  return ⟨1, data⟩

/-- `filter_rows` (src/matrix.rs:494-502). -/
def filterRowsA (f : Mat α → Nat → Act σ Bool) (a : Mat α) : Act σ (Mat α) := do
  let rows ← for0 a.rows ([] : List Nat) fun row v => do if ← f a row then return v ++ [row] else return v
  lift (a.permuteRows rows)

/-- `filter_columns` (src/matrix.rs:504-512). -/
def filterColumnsA (f : Mat α → Nat → Act σ Bool) (a : Mat α) : Act σ (Mat α) := do
  let cols ← for0 (← lift a.cols) ([] : List Nat) fun col v => do if ← f a col then return v ++ [col] else return v
  lift (a.permuteColumns cols)

/-- `random` (src/matrix.rs:571-578); `draw` is `rand::random`, the generator is part of the world. -/
def randomA (draw : Act σ α) (noRows noCols : Nat) : Act σ (Mat α) := do
  let elems := noRows * noCols
  let d ← for0 elems (alloc α elems) fun i d => do
    let y ← draw
    lift (wr d i y)
  return ⟨noRows, ← lift (freeze d)⟩

/-- `set` (src/matrix.rs:299-303), also writing through `get_mref` (59-63). -/
def setA (row col : Nat) (val : α) : Act (σ × Mat α) Unit := do
  let a ← self
  lift (assert (decide (row < a.rows)))
  let c ← lift a.cols
  lift (assert (decide (col < c)))
  poke (row * c + col) val

section
variable [ElemOps σ α]

/-- `mneg` (src/matrix.rs:183-187). -/
def mnegA : Act (σ × Mat α) Unit := do
  let a ← self
  for0 a.data.length () fun i _ => do
    let y ← world (ElemOps.neg (← peek i))
    poke i y

/-- `mscale` (src/matrix.rs:201-205). -/
def mscaleA (factor : α) : Act (σ × Mat α) Unit := do
  let a ← self
  for0 a.data.length () fun i _ => do
    let y ← world (ElemOps.mul factor (← peek i))
    poke i y

/-- `madd` (src/matrix.rs:207-214). -/
def maddA (m : Mat α) : Act (σ × Mat α) Unit := do
  let a ← self
  lift (assertSameShape a m)
  for0 a.data.length () fun i _ => do
    let y ← world (ElemOps.add (← peek i) (← lift (idx m.data i)))
    poke i y

/-- `msub` (src/matrix.rs:216-223). -/
def msubA (m : Mat α) : Act (σ × Mat α) Unit := do
  let a ← self
  lift (assertSameShape a m)
  for0 a.data.length () fun i _ => do
    let y ← world (ElemOps.sub (← peek i) (← lift (idx m.data i)))
    poke i y

/-- `melem_mul` (src/matrix.rs:240-247). -/
def melemMulA (m : Mat α) : Act (σ × Mat α) Unit := do
  let a ← self
  lift (assertSameShape a m)
  for0 a.data.length () fun i _ => do
    let y ← world (ElemOps.mul (← peek i) (← lift (idx m.data i)))
    poke i y

/-- `melem_div` (src/matrix.rs:264-271). -/
def melemDivA (m : Mat α) : Act (σ × Mat α) Unit := do
  let a ← self
  lift (assertSameShape a m)
  for0 a.data.length () fun i _ => do
    let y ← world (ElemOps.div (← peek i) (← lift (idx m.data i)))
    poke i y

/-- `-&a` (src/matrix.rs:584-594). -/
def negA (a : Mat α) : Act σ (Mat α) := do
  let elems := a.data.length
  let d ← for0 elems (alloc α elems) fun i d => do
    let y ← ElemOps.neg (← lift (idx a.data i))
    lift (wr d i y)
  return ⟨a.rows, ← lift (freeze d)⟩

/-- `scale` (src/matrix.rs:189-199). -/
def scaleA (factor : α) (a : Mat α) : Act σ (Mat α) := do
  let elems := a.data.length
  let d ← for0 elems (alloc α elems) fun i d => do
    let y ← ElemOps.mul factor (← lift (idx a.data i))
    lift (wr d i y)
  return ⟨a.rows, ← lift (freeze d)⟩

/-- `&a + &m` (src/matrix.rs:607-620). -/
def addA (a m : Mat α) : Act σ (Mat α) := do
  lift (assertSameShape a m)
  let elems := a.data.length
  let d ← for0 elems (alloc α elems) fun i d => do
    let y ← ElemOps.add (← lift (idx a.data i)) (← lift (idx m.data i))
    lift (wr d i y)
  return ⟨a.rows, ← lift (freeze d)⟩

/-- `&a - &m` (src/matrix.rs:647-660). -/
def subA (a m : Mat α) : Act σ (Mat α) := do
  lift (assertSameShape a m)
  let elems := a.data.length
  let d ← for0 elems (alloc α elems) fun i d => do
    let y ← ElemOps.sub (← lift (idx a.data i)) (← lift (idx m.data i))
    lift (wr d i y)
  return ⟨a.rows, ← lift (freeze d)⟩

/-- `elem_mul` (src/matrix.rs:225-238). -/
def elemMulA (a m : Mat α) : Act σ (Mat α) := do
  lift (assertSameShape a m)
  let elems := a.data.length
  let d ← for0 elems (alloc α elems) fun i d => do
    let y ← ElemOps.mul (← lift (idx a.data i)) (← lift (idx m.data i))
    lift (wr d i y)
  return ⟨a.rows, ← lift (freeze d)⟩

/-- `elem_div` (src/matrix.rs:249-262). -/
def elemDivA (a m : Mat α) : Act σ (Mat α) := do
  lift (assertSameShape a m)
  let elems := a.data.length
  let d ← for0 elems (alloc α elems) fun i d => do
    let y ← ElemOps.div (← lift (idx a.data i)) (← lift (idx m.data i))
    lift (wr d i y)
  return ⟨a.rows, ← lift (freeze d)⟩

/-- `&a * &m` (src/matrix.rs:688-707). -/
def mulA (a m : Mat α) : Act σ (Mat α) := do
  let ac ← lift a.cols
  lift (assert (ac == m.rows))
  let mc ← lift m.cols
  let d ← for0 a.rows (alloc α (a.rows * mc)) fun row d =>
    for0 mc d fun col d => do
      let res ← for0 ac (ElemOps.zero σ) fun k res => do
        let p ← ElemOps.mul (← lift (a.getRef row k)) (← lift (m.getRef k col))
        ElemOps.add res p
      lift (wr d (row * mc + col) res)
  return ⟨a.rows, ← lift (freeze d)⟩

/-- `mmul` (src/matrix.rs:273-289): the receiver is written once, at the end. -/
def mmulA (m : Mat α) : Act (σ × Mat α) Unit := do
  let a ← self
  let ac ← lift a.cols
  lift (assert (ac == m.rows))
  let mc ← lift m.cols
  let d ← for0 a.rows (alloc α (a.rows * mc)) fun row d =>
    for0 mc d fun col d => do
      let res ← for0 ac (ElemOps.zero σ) fun k res => do
        let p ← world (ElemOps.mul (← lift (a.get row k)) (← lift (m.get k col)))
        world (ElemOps.add res p)
      lift (wr d (row * mc + col) res)
  setData (← lift (freeze d))

end

/-- The inner `loop { … }` of `mt` (src/matrix.rs:375-385) with the machine product; the receiver is written in place. -/
def mtCycleA (mode : Mode) (w : Nat) (rows last cycleIdx : Nat) : Nat → Nat → α → List Bool → Act (σ × Mat α) (List Bool)
  | 0, _, _, _ => lift (.error .fuel)
  | fuel + 1, i, prev, visited => do
    let i ← lift (umod (← lift (mulW mode w rows i)) last)
    let cur ← peek i
    poke i prev
    if i = cycleIdx then
      return visited
    else
      let visited ← lift (setIdx visited i true)
      mtCycleA mode w rows last cycleIdx fuel i cur visited

/-- `mt` (src/matrix.rs:365-389) with the machine product; the receiver is written in place. -/
def mtA (mode : Mode) (w : Nat) (fuel : Nat) : Act (σ × Mat α) Unit := do
  let a ← self
  let visited := List.replicate a.data.length false
  let last ← lift (usub a.data.length 1)
  let _ ← forN (last - 1) 1 visited fun cycleIdx visited => do
    if ← lift (idx visited cycleIdx) then
      return visited
    else
      let prev ← peek cycleIdx
      mtCycleA mode w a.rows last cycleIdx fuel cycleIdx prev visited
  let a' ← self
  setRows (← lift a'.cols)

end Mat

/-- src/util.rs:16-30: one line of a CSV file. State: `data`, `row_count`, `col_count`. -/
def csvLineA {σ α : Type} (ws : Char → Bool) (parser : List Char → Act σ α) (s : List α × Nat × Option Nat) (line : List Char) :
    Act σ (List α × Nat × Option Nat) := do
  let (data, rowCount, colCount) := s
  let elementCount := data.length
  let data ← (splitOn ',' line).foldlM (fun data item => do return data ++ [← parser (trim ws item)]) data
  let lineColCount ← Act.lift (usub data.length elementCount)
  let colCount ← (match colCount with
    | none => (return some lineColCount : Act σ (Option Nat))
    | some c => do
      Act.lift (assert (c == lineColCount))
      return some c)
  return (data, rowCount + 1, colCount)

/-- `read_csv` (src/util.rs:9-35), see `readCsv`; the parser may have side effects. -/
def readCsvA {σ α : Type} (cr : Bool) (ws : Char → Bool) (file : Option (List Char)) (parser : List Char → Act σ α) : Act σ (Mat α) := do
  let text ← Act.lift (unwrap file)
  let (data, rowCount, colCount) ← (lines cr text).foldlM (csvLineA ws parser) ([], 0, none)
  Act.lift (assert colCount.isSome)
  Act.lift (Mat.new rowCount (← Act.lift (unwrap colCount)) data)

end LA
