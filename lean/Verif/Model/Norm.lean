import Verif.Model.Matrix

/-!
# Model of src/matrix.rs:742-870 (trace, norms, approximate equality) and of src/internalutil.rs:18-28 (`hypot`)

`det`, `solve`, `inverse`, `is_singular`, `pinverse` are in the modules of the decompositions they call.
-/

namespace LA
variable {α : Type}

/-- `approx_eq` on elements (src/approxeq.rs:19-30 and 34-46): `|a - b| < 1e-6`. -/
def approxEqElem [Sub α] [FloatOps α] (a b : α) : Bool :=
  FloatOps.lt (FloatOps.abs (a - b)) (FloatOps.cst 1 1000000)

/-- `hypot` (src/internalutil.rs:18-28). -/
def hypot [Zero α] [One α] [Add α] [Mul α] [FloatOps α] (a b : α) : R α := do
  if FloatOps.lt (FloatOps.abs b) (FloatOps.abs a) then
    let r ← RDiv.rdiv b a
    return FloatOps.abs a * (← FloatOps.sqrt (1 + r * r))
  else if !(FloatOps.eq b 0) then
    let r ← RDiv.rdiv a b
    return FloatOps.abs b * (← FloatOps.sqrt (1 + r * r))
  else
    return 0

namespace Mat

/-- `trace` (src/matrix.rs:743-751). State: sum and storage index. -/
def trace [Zero α] [Add α] (a : Mat α) : R α := do
  let (sum, _) ← loop 0 (min a.rows (← a.cols)) ((0 : α), 0) fun _ (sum, i) => do
    return (sum + (← idx a.data i), i + ((← a.cols) + 1))
  return sum

/-- `vector_euclidean_norm` (src/matrix.rs:788-797). -/
def vectorEuclideanNorm [Zero α] [Add α] [Mul α] [FloatOps α] (a : Mat α) : R α := do
  assert ((← a.cols) == 1)
  let s ← loop 0 a.data.length (0 : α) fun i s => do return s + (← idx a.data i) * (← idx a.data i)
  FloatOps.sqrt s

/-- `length` (src/matrix.rs:799-802). -/
def length [Zero α] [Add α] [Mul α] [FloatOps α] (a : Mat α) : R α := a.vectorEuclideanNorm

/-- `vector_1_norm` (src/matrix.rs:804-813). -/
def vector1Norm [Zero α] [Add α] [FloatOps α] (a : Mat α) : R α := do
  assert ((← a.cols) == 1)
  loop 0 a.data.length (0 : α) fun i s => do return s + FloatOps.abs (← idx a.data i)

/-- `vector_2_norm` (src/matrix.rs:815-818). -/
def vector2Norm [Zero α] [Add α] [Mul α] [FloatOps α] (a : Mat α) : R α := a.vectorEuclideanNorm

/-- `vector_p_norm` (src/matrix.rs:820-829): sums `|x^p|`, not `|x|^p`. -/
def vectorPNorm [Zero α] [One α] [Add α] [FloatOps α] (a : Mat α) (p : α) : R α := do
  assert ((← a.cols) == 1)
  let s ← loop 0 a.data.length (0 : α) fun i s => do
    return s + FloatOps.abs (← FloatOps.powf (← idx a.data i) p)
  FloatOps.powf s (← RDiv.rdiv 1 p)

/-- `frobenius_norm` (src/matrix.rs:831-838). -/
def frobeniusNorm [Zero α] [Add α] [Mul α] [FloatOps α] (a : Mat α) : R α := do
  let s ← loop 0 a.data.length (0 : α) fun i s => do return s + (← idx a.data i) * (← idx a.data i)
  FloatOps.sqrt s

/-- `vector_inf_norm` (src/matrix.rs:840-852). -/
def vectorInfNorm [FloatOps α] (a : Mat α) : R α := do
  assert ((← a.cols) == 1)
  let m0 := FloatOps.abs (← idx a.data 0)
  loop 1 a.data.length m0 fun i cur => do
    let v := FloatOps.abs (← idx a.data i)
    if FloatOps.lt cur v then return v else return cur

/-- `is_symmetric` (src/matrix.rs:854-863). -/
def isSymmetric [Sub α] [FloatOps α] (a : Mat α) : R Bool := do
  if a.rows != (← a.cols) then return false
  let o ← loopF 1 a.rows () fun row _ => do
    let o ← loopF 0 row () fun col _ => do
      if !(approxEqElem (← a.get row col) (← a.getRef col row)) then return Flow.ret false
      else return Flow.next ()
    match o with
    | .ret r => return Flow.ret r
    | .next _ => return Flow.next ()
  match o with
  | .ret r => return r
  | .next _ => return true

/-- `is_non_symmetric` (src/matrix.rs:865-868). -/
def isNonSymmetric [Sub α] [FloatOps α] (a : Mat α) : R Bool := do return !(← a.isSymmetric)

/-- `approx_eq` (src/matrix.rs:870-876). -/
def approxEq [Sub α] [FloatOps α] (a m : Mat α) : R Bool := do
  if a.rows != m.rows then return false
  if (← a.cols) != (← m.cols) then return false
  let o ← loopF 0 a.data.length () fun i _ => do
    if !(approxEqElem (← idx a.data i) (← idx m.data i)) then return Flow.ret false
    else return Flow.next ()
  match o with
  | .ret r => return r
  | .next _ => return true

end Mat
end LA
