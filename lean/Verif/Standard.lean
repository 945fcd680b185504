import Verif.Exact

/-!
# The standard model of floating-point arithmetic

`Sfp α` states the textbook model of rounded arithmetic (no overflow, no underflow): each basic operation returns a number that
differs from the exact result by at most `u` times the exact result; negation, absolute value, maximum and comparisons are exact.
Division by zero and the square root of a negative number are unconstrained (they may also panic).

Exact real arithmetic is an instance with `u = 0`; `f64` with an unbounded exponent range is one with `u = 2^-53`
(`Verif/Unbounded.lean`).
-/

namespace LA

/-- The standard model of floating-point arithmetic. -/
class Sfp (α : Type) [Zero α] [One α] [Add α] [Sub α] [Neg α] [Mul α] [FloatOps α] where
  /-- the real number a value stands for -/
  val : α → ℝ
  /-- unit roundoff -/
  u : ℝ
  u_nonneg : 0 ≤ u
  u_lt_one : u < 1
  zero : val 0 = 0
  one : val 1 = 1
  neg : ∀ x, val (-x) = -val x
  abs : ∀ x, val (FloatOps.abs x) = |val x|
  max : ∀ x y, val (FloatOps.max x y) = max (val x) (val y)
  add : ∀ x y, |val (x + y) - (val x + val y)| ≤ u * |val x + val y|
  sub : ∀ x y, |val (x - y) - (val x - val y)| ≤ u * |val x - val y|
  mul : ∀ x y, |val (x * y) - val x * val y| ≤ u * |val x * val y|
  div : ∀ x y, val y ≠ 0 → ∃ z, RDiv.rdiv x y = .ok z ∧ |val z - val x / val y| ≤ u * |val x / val y|
  sqrt : ∀ x, 0 ≤ val x → ∃ z, FloatOps.sqrt x = .ok z ∧ |val z - Real.sqrt (val x)| ≤ u * Real.sqrt (val x)
  lt : ∀ x y, FloatOps.lt x y = true ↔ val x < val y
  le : ∀ x y, FloatOps.le x y = true ↔ val x ≤ val y
  eq : ∀ x y, FloatOps.eq x y = true ↔ val x = val y
  cst : ∀ (p : Int) (q : Nat), |val (FloatOps.cst p q) - (p : ℝ) / (q : ℝ)| ≤ u * |(p : ℝ) / (q : ℝ)|

/-- Exact real arithmetic: no rounding. -/
noncomputable instance : Sfp ℝ where
  val := id
  u := 0
  u_nonneg := le_rfl
  u_lt_one := one_pos
  zero := rfl
  one := rfl
  neg _ := rfl
  abs _ := rfl
  max _ _ := rfl
  add _ _ := by simp
  sub _ _ := by simp
  mul _ _ := by simp
  div x y h := ⟨x / y, Exact.rdiv_ok x y h, by simp⟩
  sqrt x h := ⟨Real.sqrt x, if_neg (not_lt.2 h), by simp⟩
  lt := Exact.lt_iff
  le := Exact.le_iff
  eq := Exact.eq_iff
  cst p q := by rw [Exact.cst_eq]; simp

end LA
