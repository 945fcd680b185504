import Verif.Model.Matrix

/-!
# `==` on matrices
-/

namespace LA
variable {α : Type}

/-- `==` on vectors of elements: equal lengths, then element by element. -/
def vecEq (eq : α → α → Bool) : List α → List α → Bool
  | [], [] => true
  | x :: xs, y :: ys => eq x y && vecEq eq xs ys
  | _, _ => false

/-- `a == b` (src/matrix.rs:19, `derive(PartialEq)`): the fields in order; `eq` is `==` on elements. -/
def Mat.eqWith (eq : α → α → Bool) (a b : Mat α) : Bool := a.rows == b.rows && vecEq eq a.data b.data

/-- `a == b` for float elements. -/
def Mat.eq [FloatOps α] (a b : Mat α) : Bool := Mat.eqWith FloatOps.eq a b

end LA
