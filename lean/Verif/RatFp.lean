import Verif.Rounding

/-!
# A computable instance of `Fp`

Rational numbers with exact `+ - * /` (division by zero gives a value that is not finite) and square roots rounded to 20 bits: used to
check by evaluation that the hypotheses of the rounding-error theorems are met.
-/

namespace LA

/-- A rational number, or `none` for what is not finite. -/
structure QF where
  /-- the number -/
  v : Option ℚ
deriving DecidableEq

namespace QF

/-- An operation: not finite when an argument is not. -/
def op2 (f : ℚ → ℚ → ℚ) (x y : QF) : QF :=
  match x.v, y.v with
  | some a, some b => ⟨some (f a b)⟩
  | _, _ => ⟨none⟩

/-- Comparisons: false when an argument is not finite. -/
def cmp (f : ℚ → ℚ → Bool) (x y : QF) : Bool :=
  match x.v, y.v with
  | some a, some b => f a b
  | _, _ => false

/-- A rational number close to the square root. -/
def root (x : ℚ) : ℚ := (Nat.sqrt (x.num.toNat * x.den * 4 ^ 20) : ℚ) / (2 ^ 20 * x.den)

instance : Zero QF := ⟨⟨some 0⟩⟩
instance : One QF := ⟨⟨some 1⟩⟩
instance : Add QF := ⟨op2 (· + ·)⟩
instance : Sub QF := ⟨op2 (· - ·)⟩
instance : Mul QF := ⟨op2 (· * ·)⟩
instance : Neg QF := ⟨fun x => ⟨x.v.map Neg.neg⟩⟩

instance : FloatOps QF where
  rdiv x y := .ok (if y.v = some 0 then ⟨none⟩ else op2 (· / ·) x y)
  sqrt x := .ok (match x.v with
    | some a => if a < 0 then ⟨none⟩ else ⟨some (root a)⟩
    | none => ⟨none⟩)
  abs x := ⟨x.v.map fun a => |a|⟩
  lt := cmp fun a b => decide (a < b)
  le := cmp fun a b => decide (a ≤ b)
  eq := cmp fun a b => decide (a = b)
  max x y := if cmp (fun a b => decide (a < b)) x y then y else x
  powf x _ := .ok x
  cst p q := ⟨some (p / q)⟩

/-- The real number. -/
noncomputable def toReal (x : QF) : ℝ := ((x.v.getD 0 : ℚ) : ℝ)

theorem root_err (x : ℚ) (hx : 0 ≤ x) : 0 ≤ (root x : ℝ) ∧ |(root x : ℝ) - Real.sqrt x| ≤ 1 / 2 ^ 20 * Real.sqrt x ∧
    |(root x : ℝ) - Real.sqrt x| ≤ 1 / 2 ^ 20 * (root x : ℝ) := by
  rcases hx.eq_or_lt with h | h
  · rw [← h]; simp [root]
  set N := x.num.toNat * x.den with hN
  have hnum : 0 < x.num := Rat.num_pos.mpr h
  have hden := x.den_pos
  have hN1 : 1 ≤ N := Nat.mul_pos (by omega) hden
  have hd : (0 : ℝ) < x.den := by exact_mod_cast hden
  have hx' : (x : ℝ) = N / (x.den * x.den) := by
    have h1 : (x : ℝ) = (x.num.toNat : ℝ) / x.den := by
      conv_lhs => rw [← Rat.num_div_den x]
      push_cast
      congr 1
      exact_mod_cast (Int.toNat_of_nonneg hnum.le).symm
    rw [h1, hN]; push_cast; field_simp
  have hs : Real.sqrt x = Real.sqrt N / x.den := by
    rw [hx', Real.sqrt_div (by positivity), Real.sqrt_mul_self hd.le]
  set s := Nat.sqrt (N * 4 ^ 20)
  have h1 : (s : ℝ) ≤ 2 ^ 20 * Real.sqrt N := by
    have a : s * s ≤ N * 4 ^ 20 := Nat.sqrt_le _
    have b : (s : ℝ) * s ≤ N * 4 ^ 20 := by exact_mod_cast a
    refine abs_le_of_sq_le_sq' ?_ (by positivity) |>.2
    rw [mul_pow, Real.sq_sqrt (by positivity)]
    nlinarith
  have h2 : 2 ^ 20 * Real.sqrt N ≤ s + 1 := by
    have a : N * 4 ^ 20 < (s + 1) * (s + 1) := Nat.lt_succ_sqrt _
    have b : (N : ℝ) * 4 ^ 20 < (s + 1) * (s + 1) := by exact_mod_cast a
    refine abs_le_of_sq_le_sq' ?_ (by positivity) |>.2
    rw [mul_pow, Real.sq_sqrt (by positivity)]
    nlinarith
  have h3 : (2 : ℝ) ^ 20 ≤ s := by
    have : 2 ^ 20 ≤ s := Nat.le_sqrt.mpr (by nlinarith)
    exact_mod_cast this
  have h4 : (1 : ℝ) ≤ Real.sqrt N := Real.one_le_sqrt.mpr (by exact_mod_cast hN1)
  have hr : (root x : ℝ) = s / (2 ^ 20 * x.den) := by unfold root; push_cast; rfl
  rw [hr, hs]
  have e : (s : ℝ) / (2 ^ 20 * x.den) - Real.sqrt N / x.den = (s - 2 ^ 20 * Real.sqrt N) / (2 ^ 20 * x.den) := by field_simp
  have ha : |(s : ℝ) - 2 ^ 20 * Real.sqrt N| ≤ 1 := abs_le.mpr ⟨by linarith, by linarith⟩
  rw [e, abs_div, abs_of_pos (show (0 : ℝ) < 2 ^ 20 * x.den by positivity)]
  refine ⟨by positivity, ?_, ?_⟩
  · rw [div_le_iff₀ (by positivity)]
    calc _ ≤ (1 : ℝ) := ha
      _ ≤ Real.sqrt N := h4
      _ = _ := by field_simp
  · rw [div_le_iff₀ (by positivity)]
    have : (1 : ℝ) / 2 ^ 20 * (s / (2 ^ 20 * x.den)) * (2 ^ 20 * x.den) = s / 2 ^ 20 := by field_simp
    rw [this, le_div_iff₀ (by positivity)]
    calc _ ≤ (1 : ℝ) * 2 ^ 20 := by gcongr
      _ ≤ s := by linarith

theorem op2_fin {f : ℚ → ℚ → ℚ} {x y : QF} (h : (op2 f x y).v ≠ none) :
    x.v ≠ none ∧ y.v ≠ none ∧ (op2 f x y).v = some (f (x.v.getD 0) (y.v.getD 0)) := by
  obtain ⟨_ | a⟩ := x
  · exact absurd rfl h
  · obtain ⟨_ | b⟩ := y
    · exact absurd rfl h
    · exact ⟨by simp, by simp, rfl⟩

theorem op2_is {f : ℚ → ℚ → ℚ} {x y : QF} (hx : x.v ≠ none) (hy : y.v ≠ none) : (op2 f x y).v ≠ none := by
  obtain ⟨_ | a⟩ := x
  · exact absurd rfl hx
  · obtain ⟨_ | b⟩ := y
    · exact absurd rfl hy
    · simp [op2]

theorem cmp_fin {f : ℚ → ℚ → Bool} {P : ℝ → ℝ → Prop} (h : ∀ a b : ℚ, f a b = true ↔ P a b)
    (x y : QF) (hx : x.v ≠ none) (hy : y.v ≠ none) : cmp f x y = true ↔ P x.toReal y.toReal := by
  obtain ⟨_ | a⟩ := x
  · exact absurd rfl hx
  · obtain ⟨_ | b⟩ := y
    · exact absurd rfl hy
    · exact h a b

theorem zero_le (t : ℝ) (h : 0 ≤ t) : |(0 : ℝ)| ≤ 1 / 2 ^ 20 * t := by rw [abs_zero]; positivity

noncomputable instance : Fp QF where
  val := toReal
  fin x := x.v ≠ none
  u := 1 / 2 ^ 20
  η := 0
  Ω := 2 ^ 1000
  u_nonneg := by positivity
  u_lt_one := by norm_num
  η_nonneg := le_rfl
  zero := ⟨Option.some_ne_none _, by change ((0 : ℚ) : ℝ) = 0; simp⟩
  one := ⟨Option.some_ne_none _, by change ((1 : ℚ) : ℝ) = 1; simp⟩
  neg x hx := by
    obtain ⟨_ | a⟩ := x
    · exact absurd rfl hx
    · exact ⟨by simp [Neg.neg], by change ((-a : ℚ) : ℝ) = -(a : ℝ); push_cast; rfl⟩
  neg_fin x hx := by
    obtain ⟨_ | a⟩ := x
    · exact absurd rfl hx
    · simp
  abs x := by
    obtain ⟨_ | a⟩ := x
    · exact ⟨by simp [FloatOps.abs], fun h => absurd rfl h⟩
    · exact ⟨by simp [FloatOps.abs], fun _ => by change ((|a| : ℚ) : ℝ) = |(a : ℝ)|; push_cast; rfl⟩
  add x y h := by
    obtain ⟨h1, h2, h3⟩ := op2_fin h
    have e : (x + y).toReal - (x.toReal + y.toReal) = 0 := by
      unfold toReal; rw [show (x + y).v = some _ from h3]; simp
    rw [e]
    exact ⟨h1, h2, zero_le _ (abs_nonneg _), zero_le _ (abs_nonneg _)⟩
  sub x y h := by
    obtain ⟨h1, h2, h3⟩ := op2_fin h
    have e : (x - y).toReal - (x.toReal - y.toReal) = 0 := by
      unfold toReal; rw [show (x - y).v = some _ from h3]; simp
    rw [e]
    exact ⟨h1, h2, zero_le _ (abs_nonneg _), zero_le _ (abs_nonneg _)⟩
  mul x y h := by
    obtain ⟨h1, h2, h3⟩ := op2_fin h
    have e : (x * y).toReal - (x.toReal * y.toReal) = 0 := by
      unfold toReal; rw [show (x * y).v = some _ from h3]; simp
    rw [e, add_zero, add_zero]
    exact ⟨h1, h2, zero_le _ (abs_nonneg _), zero_le _ (abs_nonneg _)⟩
  div_total _ _ := ⟨_, rfl⟩
  div x y z hz hf := by
    have hz : (if y.v = some 0 then (⟨none⟩ : QF) else op2 (· / ·) x y) = z := by simpa [RDiv.rdiv] using hz
    by_cases h0 : y.v = some 0
    · rw [if_pos h0] at hz; subst hz; exact absurd rfl hf
    · rw [if_neg h0] at hz
      subst hz
      obtain ⟨h1, h2, h3⟩ := op2_fin hf
      have e : (op2 (· / ·) x y).toReal - x.toReal / y.toReal = 0 := by
        unfold toReal; rw [h3]; simp
      rw [e, add_zero, add_zero]
      refine ⟨h1, fun _ => ⟨?_, zero_le _ (abs_nonneg _), zero_le _ (abs_nonneg _)⟩⟩
      intro h
      obtain ⟨_ | b⟩ := y
      · exact h2 rfl
      · have h : (b : ℝ) = 0 := h
        exact h0 (by simpa using h)
  sqrt_total _ := ⟨_, rfl⟩
  sqrt x z hz hf := by
    obtain ⟨_ | a⟩ := x
    · have hz : (⟨none⟩ : QF) = z := by simpa [FloatOps.sqrt] using hz
      subst hz; exact absurd rfl hf
    · have hz : (if a < 0 then (⟨none⟩ : QF) else ⟨some (root a)⟩) = z := by simpa [FloatOps.sqrt] using hz
      by_cases h0 : a < 0
      · rw [if_pos h0] at hz; subst hz; exact absurd rfl hf
      · rw [if_neg h0] at hz
        subst hz
        have ha : 0 ≤ a := not_lt.mp h0
        exact ⟨by simp, by change (0 : ℝ) ≤ a; exact_mod_cast ha, root_err a ha⟩
  lt x y := cmp_fin (fun a b => by simp) x y
  le x y := cmp_fin (fun a b => by simp) x y
  eq x y := cmp_fin (P := fun a b => a = b) (fun a b => by simp) x y
  mul_self x h := by
    obtain ⟨h1, h2, h3⟩ := op2_fin h
    change 0 ≤ (x * x).toReal
    unfold toReal
    rw [show (x * x).v = some _ from h3]
    simp [mul_self_nonneg]
  add_fin x y hx hy _ := op2_is hx hy
  sub_fin x y hx hy _ := op2_is hx hy
  mul_fin x y hx hy _ := op2_is hx hy
  div_fin x y z hz hx hy h0 _ := by
    have hz : (if y.v = some 0 then (⟨none⟩ : QF) else op2 (· / ·) x y) = z := by simpa [RDiv.rdiv] using hz
    rw [if_neg (by
      intro e
      apply h0
      unfold toReal; rw [e]; simp)] at hz
    rw [← hz]
    exact op2_is hx hy
  sqrt_fin x z hz hx h0 _ := by
    obtain ⟨_ | a⟩ := x
    · exact absurd rfl hx
    · have hz : (if a < 0 then (⟨none⟩ : QF) else ⟨some (root a)⟩) = z := by simpa [FloatOps.sqrt] using hz
      have h0 : (0 : ℝ) ≤ a := h0
      have ha : 0 ≤ a := by exact_mod_cast h0
      rw [if_neg (not_lt.mpr ha)] at hz
      rw [← hz]; simp

/-- A matrix of rationals. -/
def mat {m n : Nat} (A : Matrix (Fin m) (Fin n) ℚ) : Matrix (Fin m) (Fin n) QF := fun i j => ⟨some (A i j)⟩

end QF
end LA
