import Verif.Model.Prim
import Mathlib.Analysis.SpecialFunctions.Pow.Real

/-!
# Exact arithmetic

The element operations of the model, interpreted exactly.  An operation without an exact value (division by zero,
square root of a negative number, a fractional power of a negative number) is the error `undef`.
-/

namespace LA

/-- The operations of `K` are the exact ones of the ordered field `K` (`sqrt` and `powf` are not constrained). -/
class Exact (K : Type) [Field K] [LinearOrder K] [FloatOps K] : Prop where
  rdiv_ok : ∀ a b : K, b ≠ 0 → RDiv.rdiv a b = .ok (a / b)
  rdiv_zero : ∀ a : K, RDiv.rdiv a 0 = .error .undef
  abs_eq : ∀ a : K, FloatOps.abs a = |a|
  lt_iff : ∀ a b : K, FloatOps.lt a b = true ↔ a < b
  le_iff : ∀ a b : K, FloatOps.le a b = true ↔ a ≤ b
  eq_iff : ∀ a b : K, FloatOps.eq a b = true ↔ a = b
  max_eq : ∀ a b : K, FloatOps.max a b = max a b
  cst_eq : ∀ (p : Int) (q : Nat), FloatOps.cst p q = ((p : K) / (q : K))

open Classical in
/-- Exact real arithmetic. -/
noncomputable instance realOps : FloatOps ℝ where
  rdiv a b := if b = 0 then .error .undef else .ok (a / b)
  sqrt a := if a < 0 then .error .undef else .ok (Real.sqrt a)
  abs a := |a|
  lt a b := decide (a < b)
  le a b := decide (a ≤ b)
  eq a b := decide (a = b)
  max a b := max a b
  powf x y :=
    if 0 < x then .ok (x ^ y)
    else if x = 0 then (if y < 0 then .error .undef else .ok ((0 : ℝ) ^ y))
    else if ∃ n : ℤ, y = n then .ok (x ^ y)
    else .error .undef
  cst p q := (p : ℝ) / (q : ℝ)

instance : Exact ℝ where
  rdiv_ok a b h := if_neg h
  rdiv_zero a := if_pos rfl
  abs_eq _ := rfl
  lt_iff a b := by simp [FloatOps.lt]
  le_iff a b := by simp [FloatOps.le]
  eq_iff a b := by simp [FloatOps.eq]
  max_eq _ _ := rfl
  cst_eq _ _ := rfl

/-- Exact rational arithmetic (no square roots); used for concrete examples. -/
instance ratOps : FloatOps ℚ where
  rdiv a b := if b = 0 then .error .undef else .ok (a / b)
  sqrt _ := .error .undef
  abs a := |a|
  lt a b := decide (a < b)
  le a b := decide (a ≤ b)
  eq a b := decide (a = b)
  max a b := max a b
  powf _ _ := .error .undef
  cst p q := (p : ℚ) / (q : ℚ)

instance : Exact ℚ where
  rdiv_ok a b h := if_neg h
  rdiv_zero a := if_pos rfl
  abs_eq _ := rfl
  lt_iff a b := by simp [FloatOps.lt]
  le_iff a b := by simp [FloatOps.le]
  eq_iff a b := by simp [FloatOps.eq]
  max_eq _ _ := rfl
  cst_eq _ _ := rfl

end LA
