import Verif.Model.Prim
import Mathlib.Analysis.SpecialFunctions.Pow.Real
import Mathlib.Data.Int.Log

/-!
# Rounded arithmetic

`Fp α` states what IEEE 754 guarantees about a binary floating-point type with rounding to nearest: each basic operation whose
result is finite has finite operands, and its result differs from the exact one by at most `u` times the exact result (and `u`
times the computed result), plus `η` for products and quotients that may underflow; a result that rounding cannot push beyond the
largest finite number `Ω` is finite.  For `f64`, `u = 2^-53` and `η = 2^-1075`;
for `f32`, `u = 2^-24` and `η = 2^-150`.  Comparisons of finite numbers are exact.  NaN and infinities are the values that are not
finite; nothing is assumed about them, except that an operation on them gives no finite result (`x / inf = 0` excepted).

`Bin F` is an instance: the numbers of a format `F` with given precision, smallest exponent (gradual underflow) and largest number.
-/

namespace LA

/-- The standard model of floating-point arithmetic, with overflow and gradual underflow. -/
class Fp (α : Type) [Zero α] [One α] [Add α] [Sub α] [Neg α] [Mul α] [FloatOps α] where
  /-- the real number a finite value stands for -/
  val : α → ℝ
  /-- neither infinite nor NaN -/
  fin : α → Prop
  /-- unit roundoff -/
  u : ℝ
  /-- underflow unit -/
  η : ℝ
  /-- largest finite number -/
  Ω : ℝ
  u_nonneg : 0 ≤ u
  u_lt_one : u < 1
  η_nonneg : 0 ≤ η
  zero : fin 0 ∧ val 0 = 0
  one : fin 1 ∧ val 1 = 1
  neg : ∀ x, fin x → fin (-x) ∧ val (-x) = -val x
  neg_fin : ∀ x, fin (-x) → fin x
  abs : ∀ x, (fin (FloatOps.abs x) ↔ fin x) ∧ (fin x → val (FloatOps.abs x) = |val x|)
  add : ∀ x y, fin (x + y) → fin x ∧ fin y ∧ |val (x + y) - (val x + val y)| ≤ u * |val x + val y| ∧
    |val (x + y) - (val x + val y)| ≤ u * |val (x + y)|
  sub : ∀ x y, fin (x - y) → fin x ∧ fin y ∧ |val (x - y) - (val x - val y)| ≤ u * |val x - val y| ∧
    |val (x - y) - (val x - val y)| ≤ u * |val (x - y)|
  mul : ∀ x y, fin (x * y) → fin x ∧ fin y ∧ |val (x * y) - val x * val y| ≤ u * |val x * val y| + η ∧
    |val (x * y) - val x * val y| ≤ u * |val (x * y)| + η
  div_total : ∀ x y : α, ∃ z, RDiv.rdiv x y = .ok z
  div : ∀ x y z : α, RDiv.rdiv x y = .ok z → fin z → fin x ∧ (fin y → val y ≠ 0 ∧
    |val z - val x / val y| ≤ u * |val x / val y| + η ∧ |val z - val x / val y| ≤ u * |val z| + η)
  sqrt_total : ∀ x : α, ∃ z, FloatOps.sqrt x = .ok z
  sqrt : ∀ x z : α, FloatOps.sqrt x = .ok z → fin z → fin x ∧ 0 ≤ val x ∧ 0 ≤ val z ∧
    |val z - Real.sqrt (val x)| ≤ u * Real.sqrt (val x) ∧ |val z - Real.sqrt (val x)| ≤ u * val z
  lt : ∀ x y : α, fin x → fin y → (FloatOps.lt x y = true ↔ val x < val y)
  le : ∀ x y : α, fin x → fin y → (FloatOps.le x y = true ↔ val x ≤ val y)
  eq : ∀ x y : α, fin x → fin y → (FloatOps.eq x y = true ↔ val x = val y)
  mul_self : ∀ x, fin (x * x) → 0 ≤ val (x * x)
  add_fin : ∀ x y, fin x → fin y → (1 + u) * |val x + val y| ≤ Ω → fin (x + y)
  sub_fin : ∀ x y, fin x → fin y → (1 + u) * |val x - val y| ≤ Ω → fin (x - y)
  mul_fin : ∀ x y, fin x → fin y → (1 + u) * |val x * val y| + η ≤ Ω → fin (x * y)
  div_fin : ∀ x y z : α, RDiv.rdiv x y = .ok z → fin x → fin y → val y ≠ 0 → (1 + u) * |val x / val y| + η ≤ Ω → fin z
  sqrt_fin : ∀ x z : α, FloatOps.sqrt x = .ok z → fin x → 0 ≤ val x → (1 + u) * Real.sqrt (val x) ≤ Ω → fin z

section
variable (α : Type) [Zero α] [One α] [Add α] [Sub α] [Neg α] [Mul α] [FloatOps α] [Fp α]

/-- The relative error `(1+u)^k - 1` of `k` roundings. -/
def Fp.γ (k : Nat) : ℝ := (1 + Fp.u α) ^ k - 1

/-- The absolute error `k*(1+u)^k*η` of `k` underflows. -/
def Fp.θ (k : Nat) : ℝ := k * (1 + Fp.u α) ^ k * Fp.η α

end

/-! ## Binary formats -/

/-- A binary floating-point format: `p` significant bits, smallest normal number `2^emin`, largest number `big`. -/
structure Format where
  /-- precision -/
  p : Nat
  /-- exponent of the smallest normal number -/
  emin : Int
  /-- largest finite number -/
  big : ℝ
  hp : 1 ≤ p
  hmin : emin + p ≤ 1

/-- `f64` -/
noncomputable def Format.f64 : Format := ⟨53, -1022, (2 - 2 ^ (-52 : Int)) * 2 ^ (1023 : Int), by norm_num, by norm_num⟩

/-- `f32` -/
noncomputable def Format.f32 : Format := ⟨24, -126, (2 - 2 ^ (-23 : Int)) * 2 ^ (127 : Int), by norm_num, by norm_num⟩

namespace Format
variable (F : Format)

/-- The smallest positive number. -/
noncomputable def q : ℝ := 2 ^ (F.emin - F.p + 1)

/-- The exponent of the last place of the numbers near `x`. -/
noncomputable def lastExp (x : ℝ) : Int := max (Int.log 2 |x|) F.emin - F.p + 1

/-- `x` rounded to nearest, as a multiple of the smallest positive number. -/
noncomputable def rndK (x : ℝ) : Int :=
  round (x / 2 ^ F.lastExp x) * 2 ^ (max (Int.log 2 |x|) F.emin - F.emin).toNat

/-- `x` rounded to nearest. -/
noncomputable def rnd (x : ℝ) : ℝ := F.rndK x * F.q

/-- Unit roundoff. -/
noncomputable def ur : ℝ := 2 ^ (-(F.p : Int))

/-- Underflow unit. -/
noncomputable def uu : ℝ := 2 ^ (F.emin - F.p)

theorem q_pos : 0 < F.q := by unfold q; positivity
theorem uu_pos : 0 < F.uu := by unfold uu; positivity
theorem ur_pos : 0 < F.ur := by unfold ur; positivity
theorem ur_lt : F.ur < 1 := by
  unfold ur
  have := F.hp
  exact zpow_lt_one_of_neg₀ (by norm_num) (by omega)

theorem rnd_eq (x : ℝ) : F.rnd x = round (x / 2 ^ F.lastExp x) * 2 ^ F.lastExp x := by
  unfold rnd rndK q
  push_cast
  rw [mul_assoc]
  congr 1
  have h : ((max (Int.log 2 |x|) F.emin - F.emin).toNat : Int) = max (Int.log 2 |x|) F.emin - F.emin :=
    Int.toNat_of_nonneg (by omega)
  rw [← zpow_natCast (2 : ℝ), ← zpow_add₀ (by norm_num), h]
  congr 1
  unfold lastExp
  ring

theorem err (x : ℝ) : |F.rnd x - x| ≤ 2 ^ F.lastExp x / 2 := by
  rw [rnd_eq]
  have hpos : (0 : ℝ) < 2 ^ F.lastExp x := by positivity
  have h := abs_sub_round (x / 2 ^ F.lastExp x)
  have e : (round (x / 2 ^ F.lastExp x) : ℝ) * 2 ^ F.lastExp x - x =
      -((x / 2 ^ F.lastExp x - round (x / 2 ^ F.lastExp x)) * 2 ^ F.lastExp x) := by field_simp; ring
  rw [e, abs_neg, abs_mul, abs_of_pos hpos]
  calc _ ≤ 1 / 2 * (2 : ℝ) ^ F.lastExp x := by gcongr
    _ = _ := by ring

theorem half_zpow (k : Int) : (2 : ℝ) ^ (k + 1) / 2 = 2 ^ k := by
  rw [zpow_add₀ (by norm_num), zpow_one]; field_simp

/-- Relative error in the normal range. -/
theorem err_normal {x : ℝ} (h : (2 : ℝ) ^ F.emin ≤ |x|) :
    |F.rnd x - x| ≤ F.ur * |x| ∧ |F.rnd x - x| ≤ F.ur * |F.rnd x| := by
  have hx : 0 < |x| := lt_of_lt_of_le (by positivity) h
  have hlog : F.emin ≤ Int.log 2 |x| := by
    have := (Int.zpow_le_iff_le_log (b := 2) (by norm_num) hx (x := F.emin)).mp (by simpa using h)
    exact this
  have hle : (2 : ℝ) ^ Int.log 2 |x| ≤ |x| := by
    have := Int.zpow_log_le_self (b := 2) (by norm_num) hx
    simpa using this
  have hl : F.lastExp x = (Int.log 2 |x| - F.p) + 1 := by unfold lastExp; omega
  have he := F.err x
  rw [hl, half_zpow] at he
  have hu : (2 : ℝ) ^ (Int.log 2 |x| - F.p) = F.ur * 2 ^ (Int.log 2 |x|) := by
    unfold ur; rw [← zpow_add₀ (by norm_num)]; congr 1; ring
  rw [hu] at he
  refine ⟨he.trans (mul_le_mul_of_nonneg_left hle F.ur_pos.le), he.trans (mul_le_mul_of_nonneg_left ?_ F.ur_pos.le)⟩
  -- the rounded number is at least the power of two
  rw [rnd_eq, hl, abs_mul, abs_of_pos (show (0 : ℝ) < 2 ^ (Int.log 2 |x| - F.p + 1) by positivity)]
  have hp := F.hp
  have e2 : (2 : ℝ) ^ Int.log 2 |x| = (2 : ℝ) ^ (F.p - 1 : Nat) * 2 ^ (Int.log 2 |x| - F.p + 1) := by
    rw [← zpow_natCast, ← zpow_add₀ (by norm_num)]; congr 1; push_cast [Nat.cast_sub hp]; ring
  rw [e2]
  refine mul_le_mul_of_nonneg_right ?_ (by positivity)
  have hP : (0 : ℝ) < 2 ^ (Int.log 2 |x| - F.p + 1) := by positivity
  rcases le_total 0 x with h0 | h0
  · rw [abs_of_nonneg h0] at hle e2 hP ⊢
    have : ((2 : ℝ) ^ (F.p - 1 : Nat)) ≤ x / 2 ^ (Int.log 2 x - F.p + 1) := by
      rw [le_div_iff₀ hP, ← e2]; exact hle
    have h3 : ((2 : Int) ^ (F.p - 1 : Nat)) ≤ round (x / 2 ^ (Int.log 2 x - F.p + 1)) := by
      rw [round_eq, Int.le_floor]; push_cast; linarith
    refine le_trans ?_ (le_abs_self _)
    exact_mod_cast h3
  · rw [abs_of_nonpos h0] at hle e2 hP ⊢
    have : x / 2 ^ (Int.log 2 (-x) - F.p + 1) ≤ -((2 : ℝ) ^ (F.p - 1 : Nat)) := by
      rw [div_le_iff₀ hP, neg_mul, ← e2]; linarith
    have h3 : round (x / 2 ^ (Int.log 2 (-x) - F.p + 1)) ≤ -((2 : Int) ^ (F.p - 1 : Nat)) := by
      rw [round_eq, Int.floor_le_iff]; push_cast; linarith
    refine le_trans ?_ (neg_le_abs _)
    have h4 : (round (x / 2 ^ (Int.log 2 (-x) - F.p + 1)) : ℝ) ≤ -((2 : ℝ) ^ (F.p - 1 : Nat)) := by exact_mod_cast h3
    linarith

theorem lastExp_small {x : ℝ} (h : |x| < (2 : ℝ) ^ F.emin) : F.lastExp x = F.emin - F.p + 1 ∨ x = 0 := by
  by_cases hx : x = 0
  · exact Or.inr hx
  left
  have hx : 0 < |x| := abs_pos.mpr hx
  have : Int.log 2 |x| < F.emin := by
    have := (Int.lt_zpow_iff_log_lt (b := 2) (by norm_num) hx (x := F.emin)).mp (by simpa using h)
    exact this
  unfold lastExp; omega

theorem rnd_zero : F.rnd 0 = 0 := by rw [rnd_eq]; simp

/-- Absolute error in the subnormal range. -/
theorem err_small {x : ℝ} (h : |x| < (2 : ℝ) ^ F.emin) : |F.rnd x - x| ≤ F.uu := by
  rcases F.lastExp_small h with hl | hl
  · have := F.err x
    rw [hl, half_zpow] at this
    exact this
  · rw [hl, rnd_zero]; simpa using F.uu_pos.le

theorem err_any (x : ℝ) : |F.rnd x - x| ≤ F.ur * |x| + F.uu ∧ |F.rnd x - x| ≤ F.ur * |F.rnd x| + F.uu := by
  have hu := F.uu_pos
  have hr := F.ur_pos
  rcases le_or_gt ((2 : ℝ) ^ F.emin) |x| with h | h
  · have := F.err_normal h
    exact ⟨by linarith [this.1], by linarith [this.2]⟩
  · have := F.err_small h
    exact ⟨by nlinarith [abs_nonneg x], by nlinarith [abs_nonneg (F.rnd x)]⟩

/-- Sums of numbers of the format do not underflow. -/
theorem err_grid (k : Int) : |F.rnd (k * F.q) - k * F.q| ≤ F.ur * |k * F.q| ∧
    |F.rnd (k * F.q) - k * F.q| ≤ F.ur * |F.rnd (k * F.q)| := by
  rcases le_or_gt ((2 : ℝ) ^ F.emin) |k * F.q| with h | h
  · exact F.err_normal h
  · have : F.rnd (k * F.q) = k * F.q := by
      rcases F.lastExp_small h with hl | hl
      · rw [rnd_eq, hl]
        change (round ((k : ℝ) * F.q / F.q) : ℝ) * F.q = k * F.q
        rw [mul_div_assoc, div_self F.q_pos.ne', mul_one, round_intCast]
      · rw [hl, rnd_zero]
    rw [this, sub_self, abs_zero]
    have := F.ur_pos
    constructor <;> positivity

/-- Square roots do not underflow. -/
theorem err_sqrt (k : Int) (hk : 0 ≤ k) :
    |F.rnd (Real.sqrt (k * F.q)) - Real.sqrt (k * F.q)| ≤ F.ur * |Real.sqrt (k * F.q)| ∧
    |F.rnd (Real.sqrt (k * F.q)) - Real.sqrt (k * F.q)| ≤ F.ur * |F.rnd (Real.sqrt (k * F.q))| := by
  have hr := F.ur_pos
  rcases hk.eq_or_lt with h | h
  · rw [← h]; simp [rnd_zero]
  · refine F.err_normal ?_
    rw [abs_of_nonneg (Real.sqrt_nonneg _)]
    apply Real.le_sqrt_of_sq_le
    have h1 : (1 : ℝ) ≤ k := by exact_mod_cast h
    have h2 : ((2 : ℝ) ^ F.emin) ^ 2 ≤ F.q := by
      unfold q
      rw [← zpow_natCast, ← zpow_mul]
      have := F.hmin; have := F.hp
      exact zpow_le_zpow_right₀ (by norm_num) (by push_cast; omega)
    nlinarith [F.q_pos]

theorem rnd_nonneg {x : ℝ} (h : 0 ≤ x) : 0 ≤ F.rnd x := by
  rw [rnd_eq]
  have : (0 : ℝ) < 2 ^ F.lastExp x := by positivity
  refine mul_nonneg ?_ this.le
  have h2 : (0 : Int) ≤ round (x / 2 ^ F.lastExp x) := by
    rw [round_eq, Int.le_floor]; push_cast; positivity
  exact_mod_cast h2

/-- The integer that stands for `1`. -/
noncomputable def oneK : Int := 2 ^ (F.p - 1 - F.emin).toNat

theorem oneK_eq : (F.oneK : ℝ) * F.q = 1 := by
  unfold oneK q
  push_cast
  have hp := F.hp
  have hm := F.hmin
  have h : ((F.p - 1 - F.emin).toNat : Int) = F.p - 1 - F.emin := Int.toNat_of_nonneg (by omega)
  rw [← zpow_natCast, ← zpow_add₀ (by norm_num), h]
  rw [show (F.p - 1 - F.emin + (F.emin - F.p + 1) : Int) = 0 by ring, zpow_zero]

end Format

/-- A number of the format `F`: `some k` is `k` times the smallest positive number, `none` is an infinity or NaN. -/
structure Bin (F : Format) where
  /-- the multiple -/
  k : Option Int

namespace Bin
variable {F : Format}

/-- The value of a finite number. -/
noncomputable def toReal (x : Bin F) : ℝ := (x.k.getD 0 : Int) * F.q

open Classical in
/-- `x` rounded to the format; too large numbers overflow. -/
noncomputable def ofReal (F : Format) (x : ℝ) : Bin F := ⟨if |F.rnd x| ≤ F.big then some (F.rndK x) else none⟩

/-- An operation: not finite when an argument is not. -/
noncomputable def op2 (f : ℝ → ℝ → ℝ) (x y : Bin F) : Bin F :=
  match x.k, y.k with
  | some a, some b => ofReal F (f (a * F.q) (b * F.q))
  | _, _ => ⟨none⟩

instance : Zero (Bin F) := ⟨⟨some 0⟩⟩
noncomputable instance : One (Bin F) := ⟨⟨some F.oneK⟩⟩
noncomputable instance : Add (Bin F) := ⟨op2 (· + ·)⟩
noncomputable instance : Sub (Bin F) := ⟨op2 (· - ·)⟩
noncomputable instance : Mul (Bin F) := ⟨op2 (· * ·)⟩
instance : Neg (Bin F) := ⟨fun x => ⟨x.k.map Neg.neg⟩⟩

/-- Comparisons: false when an argument is not finite. -/
def cmp (f : Int → Int → Bool) (x y : Bin F) : Bool :=
  match x.k, y.k with
  | some a, some b => f a b
  | _, _ => false

open Classical in
noncomputable instance : FloatOps (Bin F) where
  rdiv x y := .ok (if y.k = some 0 then ⟨none⟩ else op2 (· / ·) x y)
  sqrt x := .ok (match x.k with
    | some a => if a < 0 then ⟨none⟩ else ofReal F (Real.sqrt (a * F.q))
    | none => ⟨none⟩)
  abs x := ⟨x.k.map fun a => |a|⟩
  lt := cmp fun a b => decide (a < b)
  le := cmp fun a b => decide (a ≤ b)
  eq := cmp fun a b => decide (a = b)
  max x y := if cmp (fun a b => decide (a < b)) x y then y else x
  powf x y := .ok (op2 (· ^ ·) x y)
  cst p q := ofReal F (p / q)

theorem ofReal_fin {x : ℝ} (h : (ofReal F x).k ≠ none) : (ofReal F x).toReal = F.rnd x := by
  unfold ofReal at h ⊢
  unfold toReal
  dsimp only at h ⊢
  split at h
  · next h2 => rw [if_pos h2]; rfl
  · exact absurd rfl h

theorem op2_fin {f : ℝ → ℝ → ℝ} {x y : Bin F} (h : (op2 f x y).k ≠ none) :
    x.k ≠ none ∧ y.k ≠ none ∧ (op2 f x y).toReal = F.rnd (f x.toReal y.toReal) := by
  obtain ⟨x⟩ := x
  obtain ⟨y⟩ := y
  cases x with
  | none => exact absurd rfl h
  | some a =>
    cases y with
    | none => exact absurd rfl h
    | some b => exact ⟨by simp, by simp, ofReal_fin h⟩

theorem ofReal_is {x : ℝ} (h : |F.rnd x| ≤ F.big) : (ofReal F x).k ≠ none := by
  unfold ofReal
  rw [if_pos h]; simp

theorem op2_is {f : ℝ → ℝ → ℝ} {x y : Bin F} (hx : x.k ≠ none) (hy : y.k ≠ none)
    (h : |F.rnd (f x.toReal y.toReal)| ≤ F.big) : (op2 f x y).k ≠ none := by
  obtain ⟨_ | a⟩ := x
  · exact absurd rfl hx
  · obtain ⟨_ | b⟩ := y
    · exact absurd rfl hy
    · exact ofReal_is h

theorem le_q {a b : Int} : ((a : ℝ) * F.q ≤ b * F.q) ↔ a ≤ b := by
  rw [mul_le_mul_iff_left₀ F.q_pos]; exact Int.cast_le
theorem lt_q {a b : Int} : ((a : ℝ) * F.q < b * F.q) ↔ a < b := by
  rw [mul_lt_mul_iff_left₀ F.q_pos]; exact Int.cast_lt
theorem eq_q {a b : Int} : ((a : ℝ) * F.q = b * F.q) ↔ a = b := by
  rw [mul_left_inj' F.q_pos.ne']; exact Int.cast_inj

theorem cmp_fin {f : Int → Int → Bool} {P : ℝ → ℝ → Prop} (h : ∀ a b : Int, f a b = true ↔ P (a * F.q) (b * F.q))
    (x y : Bin F) (hx : x.k ≠ none) (hy : y.k ≠ none) : cmp f x y = true ↔ P x.toReal y.toReal := by
  obtain ⟨x⟩ := x
  obtain ⟨y⟩ := y
  cases x with
  | none => exact absurd rfl hx
  | some a =>
    cases y with
    | none => exact absurd rfl hy
    | some b => exact h a b

theorem exists_k (x : Bin F) (y : Bin F) : (∃ k : Int, x.toReal + y.toReal = k * F.q) ∧ ∃ k : Int, x.toReal - y.toReal = k * F.q := by
  unfold toReal
  exact ⟨⟨x.k.getD 0 + y.k.getD 0, by push_cast; ring⟩, ⟨x.k.getD 0 - y.k.getD 0, by push_cast; ring⟩⟩

/-- The numbers of a binary format satisfy the standard model. -/
noncomputable instance : Fp (Bin F) where
  val := toReal
  fin x := x.k ≠ none
  u := F.ur
  η := F.uu
  Ω := F.big
  u_nonneg := F.ur_pos.le
  u_lt_one := F.ur_lt
  η_nonneg := F.uu_pos.le
  zero := ⟨Option.some_ne_none _, by change ((0 : Int) : ℝ) * F.q = 0; simp⟩
  one := ⟨Option.some_ne_none _, F.oneK_eq⟩
  neg x hx := by
    obtain ⟨_ | a⟩ := x
    · exact absurd rfl hx
    · exact ⟨by simp [Neg.neg], by
        change ((-a : Int) : ℝ) * F.q = -((a : ℝ) * F.q)
        push_cast; ring⟩
  neg_fin x hx := by
    obtain ⟨_ | a⟩ := x
    · exact absurd rfl hx
    · simp
  abs x := by
    obtain ⟨_ | a⟩ := x
    · exact ⟨by simp [FloatOps.abs], fun h => absurd rfl h⟩
    · exact ⟨by simp [FloatOps.abs], fun _ => by
        change ((|a| : Int) : ℝ) * F.q = |(a : ℝ) * F.q|
        rw [abs_mul, abs_of_pos F.q_pos]; push_cast; rfl⟩
  add x y h := by
    obtain ⟨h1, h2, h3⟩ := op2_fin h
    refine ⟨h1, h2, ?_⟩
    obtain ⟨k, hk⟩ := (exists_k x y).1
    have := F.err_grid k
    change (x + y).toReal = F.rnd (x.toReal + y.toReal) at h3
    rw [h3, hk]; exact this
  sub x y h := by
    obtain ⟨h1, h2, h3⟩ := op2_fin h
    refine ⟨h1, h2, ?_⟩
    obtain ⟨k, hk⟩ := (exists_k x y).2
    have := F.err_grid k
    change (x - y).toReal = F.rnd (x.toReal - y.toReal) at h3
    rw [h3, hk]; exact this
  mul x y h := by
    obtain ⟨h1, h2, h3⟩ := op2_fin h
    refine ⟨h1, h2, ?_⟩
    change (x * y).toReal = F.rnd (x.toReal * y.toReal) at h3
    rw [h3]; exact F.err_any _
  div_total _ _ := ⟨_, rfl⟩
  div x y z hz hf := by
    have hz : (if y.k = some 0 then (⟨none⟩ : Bin F) else op2 (· / ·) x y) = z := by
      simpa [RDiv.rdiv] using hz
    by_cases h0 : y.k = some 0
    · rw [if_pos h0] at hz; subst hz; exact absurd rfl hf
    · rw [if_neg h0] at hz
      subst hz
      obtain ⟨h1, h2, h3⟩ := op2_fin hf
      refine ⟨h1, fun _ => ⟨?_, ?_⟩⟩
      · intro h
        obtain ⟨_ | b⟩ := y
        · exact h2 rfl
        · have h : (b : ℝ) * F.q = 0 := h
          rcases mul_eq_zero.mp h with h | h
          · exact h0 (by simpa using h)
          · exact F.q_pos.ne' h
      · rw [h3]; exact F.err_any _
  sqrt_total _ := ⟨_, rfl⟩
  sqrt x z hz hf := by
    obtain ⟨_ | a⟩ := x
    · have hz : (⟨none⟩ : Bin F) = z := by simpa [FloatOps.sqrt] using hz
      subst hz; exact absurd rfl hf
    · have hz : (if a < 0 then (⟨none⟩ : Bin F) else ofReal F (Real.sqrt (a * F.q))) = z := by
        simpa [FloatOps.sqrt] using hz
      by_cases h0 : a < 0
      · rw [if_pos h0] at hz; subst hz; exact absurd rfl hf
      · rw [if_neg h0] at hz
        subst hz
        have h3 := ofReal_fin hf
        have hv : toReal (⟨some a⟩ : Bin F) = a * F.q := rfl
        rw [hv, h3]
        have h4 := F.err_sqrt a (by omega)
        have h5 := F.rnd_nonneg (Real.sqrt_nonneg (a * F.q))
        have ha : (0 : ℝ) ≤ a := by exact_mod_cast (by omega : 0 ≤ a)
        rw [abs_of_nonneg (Real.sqrt_nonneg _), abs_of_nonneg h5] at h4
        exact ⟨by simp, mul_nonneg ha F.q_pos.le, h5, h4⟩
  lt x y := cmp_fin (fun a b => by simpa using (lt_q (F := F)).symm) x y
  le x y := cmp_fin (fun a b => by simpa using (le_q (F := F)).symm) x y
  eq x y := cmp_fin (P := fun a b => a = b) (fun a b => by simpa using (eq_q (F := F)).symm) x y
  mul_self x h := by
    obtain ⟨-, -, h3⟩ := op2_fin h
    change (x * x).toReal = F.rnd (x.toReal * x.toReal) at h3
    rw [h3]; exact F.rnd_nonneg (mul_self_nonneg _)
  add_fin x y hx hy h := by
    refine op2_is hx hy (le_trans ?_ h)
    obtain ⟨k, hk⟩ := (exists_k x y).1
    have := (F.err_grid k).1
    rw [← hk] at this
    have := abs_sub_abs_le_abs_sub (F.rnd (x.toReal + y.toReal)) (x.toReal + y.toReal)
    linarith
  sub_fin x y hx hy h := by
    refine op2_is hx hy (le_trans ?_ h)
    obtain ⟨k, hk⟩ := (exists_k x y).2
    have := (F.err_grid k).1
    rw [← hk] at this
    have := abs_sub_abs_le_abs_sub (F.rnd (x.toReal - y.toReal)) (x.toReal - y.toReal)
    linarith
  mul_fin x y hx hy h := by
    refine op2_is hx hy (le_trans ?_ h)
    have := (F.err_any (x.toReal * y.toReal)).1
    have := abs_sub_abs_le_abs_sub (F.rnd (x.toReal * y.toReal)) (x.toReal * y.toReal)
    linarith
  div_fin x y z hz hx hy h0 h := by
    have hz : (if y.k = some 0 then (⟨none⟩ : Bin F) else op2 (· / ·) x y) = z := by
      simpa [RDiv.rdiv] using hz
    rw [if_neg (by
      intro e
      apply h0
      unfold toReal; rw [e]; simp)] at hz
    rw [← hz]
    refine op2_is hx hy (le_trans ?_ h)
    have := (F.err_any (x.toReal / y.toReal)).1
    have := abs_sub_abs_le_abs_sub (F.rnd (x.toReal / y.toReal)) (x.toReal / y.toReal)
    linarith
  sqrt_fin x z hz hx h0 h := by
    obtain ⟨_ | a⟩ := x
    · exact absurd rfl hx
    · have hz : (if a < 0 then (⟨none⟩ : Bin F) else ofReal F (Real.sqrt (a * F.q))) = z := by
        simpa [FloatOps.sqrt] using hz
      have h0 : (0 : ℝ) ≤ a * F.q := h0
      have ha : 0 ≤ a := by
        have := (le_q (F := F) (a := 0) (b := a)).mp (by simpa using h0)
        exact this
      rw [if_neg (by omega)] at hz
      rw [← hz]
      refine ofReal_is (le_trans ?_ h)
      have h4 := (F.err_sqrt a ha).1
      rw [abs_of_nonneg (Real.sqrt_nonneg _)] at h4
      have := abs_sub_abs_le_abs_sub (F.rnd (Real.sqrt (a * F.q))) (Real.sqrt (a * F.q))
      rw [abs_of_nonneg (Real.sqrt_nonneg (a * F.q))] at this
      change |F.rnd (Real.sqrt (a * F.q))| ≤ (1 + F.ur) * Real.sqrt (a * F.q)
      linarith

theorem f64_u : Fp.u (Bin .f64) = 1 / 2 ^ 53 := by
  change Format.f64.ur = _
  unfold Format.ur Format.f64
  norm_num

theorem f64_η : Fp.η (Bin .f64) = 1 / 2 ^ 1075 := by
  change Format.f64.uu = _
  unfold Format.uu Format.f64
  rw [show (-1022 - ((53 : Nat) : Int)) = -(1075 : Nat) by norm_num, zpow_neg, zpow_natCast, one_div]

theorem f64_η_le : Fp.η (Bin .f64) ≤ 1 / 2 ^ 53 := by
  rw [f64_η]
  exact one_div_le_one_div_of_le (by positivity) (pow_le_pow_right₀ (by norm_num) (by norm_num))

theorem f64_Ω : (2 : ℝ) ^ 1023 ≤ Fp.Ω (Bin .f64) := by
  change _ ≤ Format.f64.big
  unfold Format.f64
  dsimp only
  rw [show ((1023 : Int)) = (1023 : Nat) by norm_num, zpow_natCast]
  have : (1 : ℝ) ≤ 2 - 2 ^ (-52 : Int) := by norm_num
  exact le_mul_of_one_le_left (by positivity) this

/-- Few roundings. -/
theorem f64_pow {k : Nat} (h : k ≤ 2 ^ 40) : (1 + Fp.u (Bin .f64)) ^ k ≤ 1 + 2 * k * Fp.u (Bin .f64) := by
  rw [f64_u]
  induction k with
  | zero => norm_num
  | succ k ih =>
    have ih := ih (by omega)
    have hk : ((k + 1 : Nat) : ℝ) ≤ 2 ^ 40 := by exact_mod_cast h
    push_cast at hk ⊢
    rw [pow_succ]
    have h0 : (0 : ℝ) ≤ k := Nat.cast_nonneg k
    have := mul_le_mul_of_nonneg_right ih (show (0 : ℝ) ≤ 1 + 1 / 2 ^ 53 by positivity)
    refine this.trans ?_
    norm_num at hk ⊢
    nlinarith

end Bin
end LA
