import Verif.Standard
import Verif.Model.SVD

/-! # Relative errors: products of roundings -/

set_option linter.unusedSectionVars false

namespace LA

/-- `ρ` is within `k` roundings of one. -/
def Wt (w : ℝ) (k : Nat) (ρ : ℝ) : Prop := 1 ≤ ρ * w ^ k ∧ ρ ≤ w ^ k

/-- `x` is `y` up to `k` roundings. -/
def Rt (w : ℝ) (k : Nat) (x y : ℝ) : Prop := ∃ ρ, Wt w k ρ ∧ x = ρ * y

section
variable {w : ℝ}

theorem pw_pos (hw : 1 ≤ w) (k : Nat) : 0 < w ^ k := pow_pos (by linarith) k
theorem pw_one (hw : 1 ≤ w) (k : Nat) : 1 ≤ w ^ k := one_le_pow₀ hw

theorem Wt.pos (hw : 1 ≤ w) {k : Nat} {ρ : ℝ} (h : Wt w k ρ) : 0 < ρ := by
  by_contra h0
  have := mul_nonpos_of_nonpos_of_nonneg (not_lt.1 h0) (pw_pos hw k).le
  have := h.1
  linarith

theorem Wt.one : Wt w 0 1 := by simp [Wt]

theorem Wt.mono (hw : 1 ≤ w) {k l : Nat} {ρ : ℝ} (h : Wt w k ρ) (hkl : k ≤ l) : Wt w l ρ := by
  have h1 : w ^ k ≤ w ^ l := pow_le_pow_right₀ hw hkl
  exact ⟨h.1.trans (mul_le_mul_of_nonneg_left h1 (h.pos hw).le), h.2.trans h1⟩

theorem Wt.mul (hw : 1 ≤ w) {k l : Nat} {ρ σ : ℝ} (h : Wt w k ρ) (h' : Wt w l σ) : Wt w (k + l) (ρ * σ) := by
  have p := h.pos hw
  have p' := h'.pos hw
  have a := pw_pos hw k
  have b := pw_pos hw l
  refine ⟨?_, ?_⟩
  · rw [pow_add, show ρ * σ * (w ^ k * w ^ l) = (ρ * w ^ k) * (σ * w ^ l) by ring]
    calc (1 : ℝ) = 1 * 1 := by ring
      _ ≤ _ := mul_le_mul h.1 h'.1 zero_le_one (by positivity)
  · rw [pow_add]
    exact mul_le_mul h.2 h'.2 p'.le a.le

theorem Wt.inv (hw : 1 ≤ w) {k : Nat} {ρ : ℝ} (h : Wt w k ρ) : Wt w k ρ⁻¹ := by
  have p := h.pos hw
  constructor
  · rw [inv_mul_eq_div, le_div_iff₀ p, one_mul]; exact h.2
  · rw [inv_le_iff_one_le_mul₀ p]; exact h.1.trans (le_of_eq (mul_comm _ _))

theorem Wt.sqrt (hw : 1 ≤ w) {k : Nat} {ρ : ℝ} (h : Wt w (2 * k) ρ) : Wt w k (Real.sqrt ρ) := by
  have a := pw_pos hw k
  have e : w ^ (2 * k) = w ^ k * w ^ k := by rw [two_mul, pow_add]
  constructor
  · rw [← Real.sqrt_sq a.le, ← Real.sqrt_mul (h.pos hw).le]
    rw [Real.one_le_sqrt, sq, ← e]
    exact h.1
  · rw [Real.sqrt_le_left a.le, sq, ← e]
    exact h.2

/-- Distance from one. -/
theorem Wt.sub (hw : 1 ≤ w) {k : Nat} {ρ : ℝ} (h : Wt w k ρ) : |ρ - 1| ≤ w ^ k - 1 := by
  have a := pw_one hw k
  have p := h.pos hw
  rw [abs_le]
  refine ⟨?_, by linarith [h.2]⟩
  have h1 := h.1
  by_contra hc
  have : ρ < 2 - w ^ k := by linarith
  nlinarith [mul_lt_mul_of_pos_right this (pw_pos hw k), sq_nonneg (w ^ k - 1)]

/-- A weighted mean of weights. -/
theorem Wt.mean (hw : 1 ≤ w) {k : Nat} {ρ σ a b : ℝ} (h : Wt w k ρ) (h' : Wt w k σ) (ha : 0 ≤ a) (hb : 0 ≤ b) :
    ∃ τ, Wt w k τ ∧ ρ * a + σ * b = τ * (a + b) := by
  rcases eq_or_lt_of_le (add_nonneg ha hb) with h0 | h0
  · have : a = 0 := by linarith
    have : b = 0 := by linarith
    exact ⟨ρ, h, by subst a; subst b; ring⟩
  · refine ⟨(ρ * a + σ * b) / (a + b), ⟨?_, ?_⟩, by field_simp⟩
    · rw [div_mul_eq_mul_div, le_div_iff₀ h0]
      nlinarith [mul_le_mul_of_nonneg_right h.1 ha, mul_le_mul_of_nonneg_right h'.1 hb]
    · rw [div_le_iff₀ h0]
      nlinarith [mul_le_mul_of_nonneg_right h.2 ha, mul_le_mul_of_nonneg_right h'.2 hb]

theorem Rt.refl (x : ℝ) : Rt w 0 x x := ⟨1, Wt.one, by ring⟩

theorem Rt.mono (hw : 1 ≤ w) {k l : Nat} {x y : ℝ} (h : Rt w k x y) (hkl : k ≤ l) : Rt w l x y := by
  obtain ⟨ρ, h1, h2⟩ := h
  exact ⟨ρ, h1.mono hw hkl, h2⟩

theorem Rt.trans (hw : 1 ≤ w) {k l : Nat} {x y z : ℝ} (h : Rt w k x y) (h' : Rt w l y z) : Rt w (k + l) x z := by
  obtain ⟨ρ, h1, h2⟩ := h
  obtain ⟨σ, h3, h4⟩ := h'
  exact ⟨ρ * σ, h1.mul hw h3, by rw [h2, h4]; ring⟩

theorem Rt.mul (hw : 1 ≤ w) {k l : Nat} {x y x' y' : ℝ} (h : Rt w k x y) (h' : Rt w l x' y') : Rt w (k + l) (x * x') (y * y') := by
  obtain ⟨ρ, h1, h2⟩ := h
  obtain ⟨σ, h3, h4⟩ := h'
  exact ⟨ρ * σ, h1.mul hw h3, by rw [h2, h4]; ring⟩

theorem Rt.inv (hw : 1 ≤ w) {k : Nat} {x y : ℝ} (h : Rt w k x y) : Rt w k x⁻¹ y⁻¹ := by
  obtain ⟨ρ, h1, h2⟩ := h
  exact ⟨ρ⁻¹, h1.inv hw, by rw [h2, mul_inv]⟩

theorem Rt.div (hw : 1 ≤ w) {k l : Nat} {x y x' y' : ℝ} (h : Rt w k x y) (h' : Rt w l x' y') : Rt w (k + l) (x / x') (y / y') := by
  rw [div_eq_mul_inv, div_eq_mul_inv]
  exact h.mul hw (h'.inv hw)

theorem Rt.neg {k : Nat} {x y : ℝ} (h : Rt w k x y) : Rt w k (-x) (-y) := by
  obtain ⟨ρ, h1, h2⟩ := h
  exact ⟨ρ, h1, by rw [h2]; ring⟩

theorem Rt.abs (hw : 1 ≤ w) {k : Nat} {x y : ℝ} (h : Rt w k x y) : Rt w k |x| |y| := by
  obtain ⟨ρ, h1, h2⟩ := h
  exact ⟨ρ, h1, by rw [h2, abs_mul, abs_of_pos (h1.pos hw)]⟩

theorem Rt.sqrt (hw : 1 ≤ w) {k : Nat} {x y : ℝ} (h : Rt w (2 * k) x y) : Rt w k (Real.sqrt x) (Real.sqrt y) := by
  obtain ⟨ρ, h1, h2⟩ := h
  exact ⟨_, h1.sqrt hw, by rw [h2, Real.sqrt_mul (h1.pos hw).le]⟩

/-- The sum of two quantities that are not negative. -/
theorem Rt.add (hw : 1 ≤ w) {k : Nat} {x y x' y' : ℝ} (h : Rt w k x y) (h' : Rt w k x' y') (hy : 0 ≤ y) (hy' : 0 ≤ y') :
    Rt w k (x + x') (y + y') := by
  obtain ⟨ρ, h1, h2⟩ := h
  obtain ⟨σ, h3, h4⟩ := h'
  obtain ⟨τ, h5, h6⟩ := h1.mean hw h3 hy hy'
  exact ⟨τ, h5, by rw [h2, h4, h6]⟩

theorem Rt.sub (hw : 1 ≤ w) {k : Nat} {x y : ℝ} (h : Rt w k x y) : |x - y| ≤ (w ^ k - 1) * |y| := by
  obtain ⟨ρ, h1, h2⟩ := h
  rw [h2, show ρ * y - y = (ρ - 1) * y by ring, abs_mul]
  exact mul_le_mul_of_nonneg_right (h1.sub hw) (abs_nonneg _)

theorem Rt.ne (hw : 1 ≤ w) {k : Nat} {x y : ℝ} (h : Rt w k x y) (hy : y ≠ 0) : x ≠ 0 := by
  obtain ⟨ρ, h1, h2⟩ := h
  rw [h2]
  exact mul_ne_zero (h1.pos hw).ne' hy

theorem Rt.zero_iff (hw : 1 ≤ w) {k : Nat} {x y : ℝ} (h : Rt w k x y) : x = 0 ↔ y = 0 := by
  refine ⟨fun hx => by_contra fun hy => h.ne hw hy hx, fun hy => ?_⟩
  obtain ⟨ρ, h1, h2⟩ := h
  rw [h2, hy, mul_zero]

theorem Rt.nonneg (hw : 1 ≤ w) {k : Nat} {x y : ℝ} (h : Rt w k x y) (hy : 0 ≤ y) : 0 ≤ x := by
  obtain ⟨ρ, h1, h2⟩ := h
  rw [h2]
  exact mul_nonneg (h1.pos hw).le hy

theorem Rt.pos (hw : 1 ≤ w) {k : Nat} {x y : ℝ} (h : Rt w k x y) (hy : 0 < y) : 0 < x := by
  obtain ⟨ρ, h1, h2⟩ := h
  rw [h2]
  exact mul_pos (h1.pos hw) hy

theorem Rt.le (hw : 1 ≤ w) {k : Nat} {x y : ℝ} (h : Rt w k x y) (hy : 0 ≤ y) : x ≤ w ^ k * y := by
  obtain ⟨ρ, h1, h2⟩ := h
  rw [h2]
  exact mul_le_mul_of_nonneg_right h1.2 hy

/-- A rounded combination `ρ (σ a + τ b)`. -/
theorem comb_err (hw : 1 ≤ w) {k : Nat} {x a b : ℝ} {σ τ : ℝ} (hσ : Wt w k σ) (hτ : Wt w k τ) (hx : x = σ * a + τ * b) :
    |x - (a + b)| ≤ (w ^ k - 1) * (|a| + |b|) := by
  rw [hx, show σ * a + τ * b - (a + b) = (σ - 1) * a + (τ - 1) * b by ring]
  refine (abs_add_le _ _).trans ?_
  rw [abs_mul, abs_mul, mul_add]
  exact add_le_add (mul_le_mul_of_nonneg_right (hσ.sub hw) (abs_nonneg _)) (mul_le_mul_of_nonneg_right (hτ.sub hw) (abs_nonneg _))

end

/-! ## Operations -/

variable {α : Type} [Zero α] [One α] [Add α] [Sub α] [Neg α] [Mul α] [FloatOps α] [Sfp α]

/-- `1 / (1 - u)`: the largest factor of one rounding, in either direction. -/
noncomputable def Sfp.w (α : Type) [Zero α] [One α] [Add α] [Sub α] [Neg α] [Mul α] [FloatOps α] [Sfp α] : ℝ := (1 - Sfp.u α)⁻¹

namespace Std
open Sfp

theorem w_one : 1 ≤ w α := by
  have h1 := u_nonneg (α := α)
  have h2 := u_lt_one (α := α)
  unfold w
  exact (one_le_inv₀ (by linarith)).2 (by linarith)

theorem rt_of_err {x y : ℝ} (h : |x - y| ≤ u α * |y|) : Rt (w α) 1 x y := by
  have h1 := u_nonneg (α := α)
  have h2 := u_lt_one (α := α)
  by_cases hy : y = 0
  · subst hy
    rw [abs_zero, mul_zero, sub_zero] at h
    have : x = 0 := abs_eq_zero.1 (le_antisymm h (abs_nonneg _))
    exact ⟨1, Wt.one.mono w_one zero_le_one, by rw [this]; ring⟩
  · have h3 : |x / y - 1| ≤ u α := by
      rw [show x / y - 1 = (x - y) / y by field_simp, abs_div, div_le_iff₀ (abs_pos.2 hy)]
      exact h
    rw [abs_le] at h3
    refine ⟨x / y, ⟨?_, ?_⟩, by field_simp⟩
    · rw [pow_one, w, ← div_eq_mul_inv, le_div_iff₀ (by linarith)]
      linarith
    · rw [pow_one, w, ← one_div, le_div_iff₀ (by linarith)]
      nlinarith

theorem add_rt (x y : α) : Rt (w α) 1 (val (x + y)) (val x + val y) := rt_of_err (Sfp.add x y)
theorem sub_rt (x y : α) : Rt (w α) 1 (val (x - y)) (val x - val y) := rt_of_err (Sfp.sub x y)
theorem mul_rt (x y : α) : Rt (w α) 1 (val (x * y)) (val x * val y) := rt_of_err (Sfp.mul x y)
theorem div_rt (x : α) {y : α} (h : val y ≠ 0) : ∃ z, RDiv.rdiv x y = .ok z ∧ Rt (w α) 1 (val z) (val x / val y) := by
  obtain ⟨z, h1, h2⟩ := Sfp.div x y h
  exact ⟨z, h1, rt_of_err h2⟩
theorem sqrt_rt {x : α} (h : 0 ≤ val x) : ∃ z, FloatOps.sqrt x = .ok z ∧ Rt (w α) 1 (val z) (Real.sqrt (val x)) := by
  obtain ⟨z, h1, h2⟩ := Sfp.sqrt x h
  exact ⟨z, h1, rt_of_err (by rwa [abs_of_nonneg (Real.sqrt_nonneg _)])⟩
theorem cst_rt (p : Int) (q : Nat) : Rt (w α) 1 (val (FloatOps.cst p q : α)) ((p : ℝ) / (q : ℝ)) := rt_of_err (Sfp.cst p q)

/-- Products with operands that are themselves rounded. -/
theorem mul_rt' {k l : Nat} {x y : α} {a b : ℝ} (h : Rt (w α) k (val x) a) (h' : Rt (w α) l (val y) b) :
    Rt (w α) (1 + (k + l)) (val (x * y)) (a * b) := (mul_rt x y).trans w_one (h.mul w_one h')

/-- `fl(x + y)` where `x` and `y` have weights. -/
theorem add_wt {k : Nat} {x y : α} {a b : ℝ} (h : Rt (w α) k (val x) a) (h' : Rt (w α) k (val y) b) :
    ∃ σ τ, Wt (w α) (k + 1) σ ∧ Wt (w α) (k + 1) τ ∧ val (x + y) = σ * a + τ * b := by
  obtain ⟨ρ, r1, r2⟩ := add_rt x y
  obtain ⟨σ, s1, s2⟩ := h
  obtain ⟨τ, t1, t2⟩ := h'
  refine ⟨ρ * σ, ρ * τ, ?_, ?_, by rw [r2, s2, t2]; ring⟩
  · rw [add_comm]; exact r1.mul w_one s1
  · rw [add_comm]; exact r1.mul w_one t1

theorem sub_wt {k : Nat} {x y : α} {a b : ℝ} (h : Rt (w α) k (val x) a) (h' : Rt (w α) k (val y) b) :
    ∃ σ τ, Wt (w α) (k + 1) σ ∧ Wt (w α) (k + 1) τ ∧ val (x - y) = σ * a + τ * (-b) := by
  obtain ⟨ρ, r1, r2⟩ := sub_rt x y
  obtain ⟨σ, s1, s2⟩ := h
  obtain ⟨τ, t1, t2⟩ := h'
  refine ⟨ρ * σ, ρ * τ, ?_, ?_, by rw [r2, s2, t2]; ring⟩
  · rw [add_comm]; exact r1.mul w_one s1
  · rw [add_comm]; exact r1.mul w_one t1

theorem hyp_aux {a b : ℝ} (ha : a ≠ 0) : |a| * Real.sqrt (1 + b / a * (b / a)) = Real.sqrt (a ^ 2 + b ^ 2) := by
  rw [← Real.sqrt_sq_eq_abs, ← Real.sqrt_mul (sq_nonneg a)]
  congr 1
  field_simp

/-- `hypot` is accurate to four roundings. -/
theorem hypot_rt (a b : α) : ∃ t, hypot a b = .ok t ∧ Rt (w α) 4 (val t) (Real.sqrt (val a ^ 2 + val b ^ 2)) := by
  have hw : 1 ≤ w α := w_one
  have main : ∀ a b : α, val a ≠ 0 → ∃ r z, RDiv.rdiv b a = .ok r ∧ FloatOps.sqrt (1 + r * r) = .ok z ∧
      Rt (w α) 4 (val (FloatOps.abs a * z)) (Real.sqrt (val a ^ 2 + val b ^ 2)) := by
    intro a b ha
    obtain ⟨r, r1, r2⟩ := div_rt b ha
    have h1 : Rt (w α) 3 (val (r * r)) (val b / val a * (val b / val a)) := mul_rt' r2 r2
    have h2 : Rt (w α) 4 (val (1 + r * r)) (1 + val b / val a * (val b / val a)) := by
      refine (add_rt 1 (r * r)).trans hw (l := 3) ?_
      rw [Sfp.one]
      exact (Rt.mono hw (Rt.refl 1) (by omega)).add hw h1 zero_le_one (mul_self_nonneg _)
    have h3 : 0 ≤ val (1 + r * r) := h2.nonneg hw (by have := mul_self_nonneg (val b / val a); linarith)
    obtain ⟨z, z1, z2⟩ := sqrt_rt h3
    refine ⟨r, z, r1, z1, ?_⟩
    have h4 : Rt (w α) 3 (val z) (Real.sqrt (1 + val b / val a * (val b / val a))) :=
      z2.trans hw (Rt.sqrt hw (k := 2) h2)
    rw [← hyp_aux ha, ← Sfp.abs]
    exact mul_rt' (k := 0) (Rt.refl _) h4
  unfold hypot
  by_cases h : FloatOps.lt (FloatOps.abs b) (FloatOps.abs a) = true
  · rw [if_pos h]
    rw [Sfp.lt, Sfp.abs, Sfp.abs] at h
    have ha : val a ≠ 0 := fun h0 => by
      rw [h0, abs_zero] at h; exact absurd h (not_lt.2 (abs_nonneg _))
    obtain ⟨r, z, r1, r2, r3⟩ := main a b ha
    rw [r1]
    simp only [Except.bind, bind, pure, Except.pure]
    rw [r2]
    exact ⟨_, rfl, r3⟩
  · rw [if_neg h]
    by_cases h0 : FloatOps.eq b 0 = true
    · rw [if_neg (by simp [h0])]
      rw [Sfp.eq, Sfp.zero] at h0
      rw [Sfp.lt, Sfp.abs, Sfp.abs, h0, abs_zero, not_lt] at h
      have ha : val a = 0 := abs_eq_zero.1 (le_antisymm h (abs_nonneg _))
      refine ⟨0, rfl, ?_⟩
      rw [Sfp.zero, ha, h0]
      norm_num
      exact (Rt.refl 0).mono hw (by omega)
    · rw [if_pos (by simpa using h0)]
      rw [Sfp.eq, Sfp.zero] at h0
      obtain ⟨r, z, r1, r2, r3⟩ := main b a h0
      rw [r1]
      simp only [Except.bind, bind, pure, Except.pure]
      rw [r2]
      rw [add_comm (val b ^ 2)] at r3
      exact ⟨_, rfl, r3⟩

/-- A computed rotation: close to an exact one that maps `(a, b)` to `(τ, 0)`. -/
structure Rot (a b t cs sn : α) (τ c s : ℝ) : Prop where
  unit : c ^ 2 + s ^ 2 = 1
  top : c * val a + s * val b = τ
  bot : -s * val a + c * val b = 0
  pos : 0 < τ
  t : Rt (w α) 4 (val t) τ
  cs : Rt (w α) 5 (val cs) c
  sn : Rt (w α) 5 (val sn) s

theorem rot_facts {a b : α} (h : val b ≠ 0) : ∃ t cs sn τ c s, hypot a b = .ok t ∧ RDiv.rdiv a t = .ok cs ∧
    RDiv.rdiv b t = .ok sn ∧ Rot a b t cs sn τ c s ∧ s ≠ 0 := by
  have hw : 1 ≤ w α := w_one
  obtain ⟨t, t1, t2⟩ := hypot_rt a b
  have hp : 0 < val a ^ 2 + val b ^ 2 := by positivity
  have ht : 0 < Real.sqrt (val a ^ 2 + val b ^ 2) := Real.sqrt_pos.2 hp
  have hs : Real.sqrt (val a ^ 2 + val b ^ 2) ^ 2 = val a ^ 2 + val b ^ 2 := Real.sq_sqrt hp.le
  have ht0 : val t ≠ 0 := t2.ne hw ht.ne'
  obtain ⟨cs, c1, c2⟩ := div_rt a ht0
  obtain ⟨sn, s1, s2⟩ := div_rt b ht0
  generalize Real.sqrt (val a ^ 2 + val b ^ 2) = τ at *
  refine ⟨t, cs, sn, τ, val a / τ, val b / τ, t1, c1, s1, ⟨?_, ?_, ?_, ht, t2, ?_, ?_⟩, div_ne_zero h ht.ne'⟩
  · rw [div_pow, div_pow, hs, ← add_div, div_self hp.ne']
  · field_simp
    rw [hs]
  · field_simp
    ring
  · exact c2.trans hw ((Rt.refl (val a)).div hw t2)
  · exact s2.trans hw ((Rt.refl (val b)).div hw t2)

theorem Rot.c_le {a b t cs sn : α} {τ c s : ℝ} (h : Rot a b t cs sn τ c s) : |c| ≤ 1 ∧ |s| ≤ 1 := by
  have := h.unit
  constructor <;> rw [abs_le] <;> constructor <;> nlinarith [sq_nonneg c, sq_nonneg s]

/-- `cs * x + sn * y`. -/
theorem comb1 {cs sn x y : α} {c s : ℝ} (hc : Rt (w α) 5 (val cs) c) (hs : Rt (w α) 5 (val sn) s) (h1 : |c| ≤ 1) (h2 : |s| ≤ 1) :
    |val (cs * x + sn * y) - (c * val x + s * val y)| ≤ (w α ^ 7 - 1) * (|val x| + |val y|) := by
  obtain ⟨σ, τ, q1, q2, q3⟩ := add_wt (mul_rt' hc (Rt.refl (val x))) (mul_rt' hs (Rt.refl (val y)))
  refine (comb_err w_one q1 q2 q3).trans ?_
  refine mul_le_mul_of_nonneg_left ?_ (sub_nonneg.2 (pw_one (w_one (α := α)) 7))
  rw [abs_mul, abs_mul]
  exact add_le_add (mul_le_of_le_one_left (abs_nonneg _) h1) (mul_le_of_le_one_left (abs_nonneg _) h2)

/-- `-sn * x + cs * y`. -/
theorem comb2 {cs sn x y : α} {c s : ℝ} (hc : Rt (w α) 5 (val cs) c) (hs : Rt (w α) 5 (val sn) s) (h1 : |c| ≤ 1) (h2 : |s| ≤ 1) :
    |val (-sn * x + cs * y) - (-s * val x + c * val y)| ≤ (w α ^ 7 - 1) * (|val x| + |val y|) := by
  have hs' : Rt (w α) 5 (val (-sn)) (-s) := by rw [Sfp.neg]; exact hs.neg
  exact comb1 hs' hc (by rwa [abs_neg]) h1

/-- `cs * x - sn * y`. -/
theorem comb3 {cs sn x y : α} {c s : ℝ} (hc : Rt (w α) 5 (val cs) c) (hs : Rt (w α) 5 (val sn) s) (h1 : |c| ≤ 1) (h2 : |s| ≤ 1) :
    |val (cs * x - sn * y) - (c * val x - s * val y)| ≤ (w α ^ 7 - 1) * (|val x| + |val y|) := by
  obtain ⟨σ, τ, q1, q2, q3⟩ := sub_wt (mul_rt' hc (Rt.refl (val x))) (mul_rt' hs (Rt.refl (val y)))
  rw [sub_eq_add_neg (c * val x)]
  refine (comb_err w_one q1 q2 q3).trans ?_
  refine mul_le_mul_of_nonneg_left ?_ (sub_nonneg.2 (pw_one (w_one (α := α)) 7))
  rw [abs_neg, abs_mul, abs_mul]
  exact add_le_add (mul_le_of_le_one_left (abs_nonneg _) h1) (mul_le_of_le_one_left (abs_nonneg _) h2)

/-- `cs * x`. -/
theorem comb0 {cs x : α} {c : ℝ} (hc : Rt (w α) 5 (val cs) c) (h1 : |c| ≤ 1) :
    |val (cs * x) - c * val x| ≤ (w α ^ 7 - 1) * |val x| := by
  have := ((mul_rt' hc (Rt.refl (val x))).mono w_one (show 1 + (5 + 0) ≤ 7 by omega)).sub w_one
  refine this.trans (mul_le_mul_of_nonneg_left ?_ (sub_nonneg.2 (pw_one (w_one (α := α)) 7)))
  rw [abs_mul]
  exact mul_le_of_le_one_left (abs_nonneg _) h1

end Std
end LA
