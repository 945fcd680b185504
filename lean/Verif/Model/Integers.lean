import Verif.Model.Effects

/-!
# The integer element types of Rust

`i8 … i128`, `isize`, `u8 … u128`, `usize` as elements of a matrix.  A value is an `Int`.  Overflow of `+ - *` and negation panics in debug
builds and wraps in release builds; `/` truncates towards zero and panics in both on a zero divisor and on `MIN / -1`.
-/

namespace LA

/-- A type of `bits + 1` bits (`bits = 31` is `i32` or `u32`). -/
structure IntTy where
  /-- `i…` or `u…` -/
  signed : Bool
  /-- one less than the number of bits -/
  bits : Nat

namespace IntTy

/-- Values of the type. -/
def InRange (t : IntTy) (z : Int) : Prop :=
  if t.signed then -2 ^ t.bits ≤ z ∧ z < 2 ^ t.bits else 0 ≤ z ∧ z < 2 ^ (t.bits + 1)

instance (t : IntTy) (z : Int) : Decidable (t.InRange z) := by unfold InRange; infer_instance

/-- Two's complement: the value with the same low bits. -/
def wrap (t : IntTy) (z : Int) : Int :=
  if t.signed then (z + 2 ^ t.bits) % 2 ^ (t.bits + 1) - 2 ^ t.bits else z % 2 ^ (t.bits + 1)

/-- The result of an operation whose mathematical value is `z`. -/
def result {σ : Type} (t : IntTy) : Mode → Int → Act σ Int
  | .debug, z => Act.lift (if t.InRange z then .ok z else .error .arith)
  | .release, z => pure (t.wrap z)

/-- `x / y`. -/
def quotient {σ : Type} (t : IntTy) (x y : Int) : Act σ Int :=
  Act.lift (if y = 0 then .error .arith else if t.InRange (x.tdiv y) then .ok (x.tdiv y) else .error .arith)

/-- The operators. -/
def ops {σ : Type} (t : IntTy) (mode : Mode) : ElemOps σ Int where
  zero := 0
  neg x := t.result mode (-x)
  add x y := t.result mode (x + y)
  sub x y := t.result mode (x - y)
  mul x y := t.result mode (x * y)
  div x y := t.quotient x y

end IntTy
end LA
