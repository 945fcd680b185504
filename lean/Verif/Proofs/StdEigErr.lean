import Verif.Proofs.StdEigTred

/-! # Errors of sums of products -/

set_option linter.unusedSectionVars false

namespace LA
open Finset Matrix

/-- `x` is `s` up to `k` roundings of quantities whose absolute values sum to `a`. -/
def Ws (w : ℝ) (k : Nat) (x s a : ℝ) : Prop := |x - s| ≤ (w ^ k - 1) * a ∧ |s| ≤ a

section
variable {w : ℝ}

theorem Ws.nonneg {k : Nat} {x s a : ℝ} (h : Ws w k x s a) : 0 ≤ a := (abs_nonneg _).trans h.2

theorem Rt.ws (hw : 1 ≤ w) {k : Nat} {x y : ℝ} (h : Rt w k x y) : Ws w k x y |y| := ⟨h.sub hw, le_rfl⟩

theorem Ws.mono (hw : 1 ≤ w) {k l : Nat} {x s a : ℝ} (h : Ws w k x s a) (hkl : k ≤ l) : Ws w l x s a :=
  ⟨h.1.trans (mul_le_mul_of_nonneg_right (sub_le_sub_right (pow_le_pow_right₀ hw hkl) 1) h.nonneg), h.2⟩

theorem Ws.abs_le (hw : 1 ≤ w) {k : Nat} {x s a : ℝ} (h : Ws w k x s a) : |x| ≤ w ^ k * a := by
  have h1 : |x| ≤ |x - s| + |s| := by
    have := abs_add_le (x - s) s
    rwa [sub_add_cancel] at this
  have := h.1
  have := h.2
  linarith

theorem Ws.mul (hw : 1 ≤ w) {k l : Nat} {x s a x' s' a' : ℝ} (h : Ws w k x s a) (h' : Ws w l x' s' a') :
    Ws w (k + l) (x * x') (s * s') (a * a') := by
  refine ⟨?_, by rw [abs_mul]; exact mul_le_mul h.2 h'.2 (abs_nonneg _) h.nonneg⟩
  rw [show x * x' - s * s' = (x - s) * x' + s * (x' - s') by ring]
  refine (abs_add_le _ _).trans ?_
  rw [abs_mul, abs_mul]
  have h1 := mul_le_mul h.1 (h'.abs_le hw) (abs_nonneg _) (mul_nonneg (sub_nonneg.2 (pw_one hw k)) h.nonneg)
  have h2 := mul_le_mul h.2 h'.1 (abs_nonneg _) h.nonneg
  rw [pow_add]
  linarith

theorem Ws.add {k : Nat} {x s a x' s' a' : ℝ} (h : Ws w k x s a) (h' : Ws w k x' s' a') :
    Ws w k (x + x') (s + s') (a + a') := by
  refine ⟨?_, (abs_add_le _ _).trans (add_le_add h.2 h'.2)⟩
  rw [show x + x' - (s + s') = (x - s) + (x' - s') by ring, mul_add]
  exact (abs_add_le _ _).trans (add_le_add h.1 h'.1)

theorem Ws.neg {k : Nat} {x s a : ℝ} (h : Ws w k x s a) : Ws w k (-x) (-s) a := by
  refine ⟨?_, by rw [abs_neg]; exact h.2⟩
  rw [show -x - -s = -(x - s) by ring, abs_neg]
  exact h.1

theorem Ws.sub {k : Nat} {x s a x' s' a' : ℝ} (h : Ws w k x s a) (h' : Ws w k x' s' a') :
    Ws w k (x - x') (s - s') (a + a') := by
  rw [sub_eq_add_neg, sub_eq_add_neg]
  exact h.add h'.neg

/-- A rounded value. -/
theorem Rt.ws_trans (hw : 1 ≤ w) {k l : Nat} {x y s a : ℝ} (h : Rt w k x y) (h' : Ws w l y s a) : Ws w (k + l) x s a := by
  obtain ⟨ρ, h1, h2⟩ := h
  have h3 : Ws w k ρ 1 1 := ⟨by rw [mul_one]; exact h1.sub hw, by norm_num⟩
  have h4 := h3.mul hw h'
  rwa [one_mul, one_mul, ← h2] at h4

end

namespace Std
open Sfp SVD

variable {α : Type} [Zero α] [One α] [Add α] [Sub α] [Neg α] [Mul α] [FloatOps α] [Sfp α]

theorem ws_mul {k l : Nat} {x y : α} {s a s' a' : ℝ} (h : Ws (w α) k (val x) s a) (h' : Ws (w α) l (val y) s' a') :
    Ws (w α) (1 + (k + l)) (val (x * y)) (s * s') (a * a') := (mul_rt x y).ws_trans w_one (h.mul w_one h')

theorem ws_add {k : Nat} {x y : α} {s a s' a' : ℝ} (h : Ws (w α) k (val x) s a) (h' : Ws (w α) k (val y) s' a') :
    Ws (w α) (1 + k) (val (x + y)) (s + s') (a + a') := (add_rt x y).ws_trans w_one (h.add h')

theorem ws_sub {k : Nat} {x y : α} {s a s' a' : ℝ} (h : Ws (w α) k (val x) s a) (h' : Ws (w α) k (val y) s' a') :
    Ws (w α) (1 + k) (val (x - y)) (s - s') (a + a') := (sub_rt x y).ws_trans w_one (h.sub h')

theorem ws_div {k l : Nat} {x y : α} {s a b : ℝ} (h : Ws (w α) k (val x) s a) (h' : Rt (w α) l (val y) b) (hb : 0 < b) :
    Ws (w α) (1 + (k + l)) (val (dv x y)) (s / b) (a / b) := by
  have h1 := (dv_ok x (h'.ne w_one hb.ne')).2
  refine h1.ws_trans w_one ?_
  have h2 := (h'.inv w_one).ws w_one
  rw [abs_of_pos (inv_pos.2 hb)] at h2
  rw [div_eq_mul_inv, div_eq_mul_inv, div_eq_mul_inv]
  exact h.mul w_one h2

theorem ws_facc {K : Nat} {p : Nat → α} {s a : Nat → ℝ} : ∀ c, (∀ t, t < c → Ws (w α) K (val (p t)) (s t) (a t)) →
    Ws (w α) (K + c) (val (facc (· + ·) 0 p c)) (∑ t ∈ range c, s t) (∑ t ∈ range c, a t) := by
  intro c
  induction c with
  | zero =>
    intro _
    rw [facc, Sfp.zero, Finset.sum_range_zero, Finset.sum_range_zero]
    exact ⟨by simp, by simp⟩
  | succ c ih =>
    intro h
    rw [facc, Finset.sum_range_succ, Finset.sum_range_succ]
    have h1 := ih fun t ht => h t (by omega)
    exact (ws_add h1 ((h c (by omega)).mono w_one (by omega))).mono w_one (by omega)

/-- A sum of quantities that are not negative. -/
theorem rt_facc {K : Nat} {p : Nat → α} {s : Nat → ℝ} (hs : ∀ t, 0 ≤ s t) : ∀ c, (∀ t, t < c → Rt (w α) K (val (p t)) (s t)) →
    Rt (w α) (K + c) (val (facc (· + ·) 0 p c)) (∑ t ∈ range c, s t) := by
  intro c
  have hw : 1 ≤ w α := w_one
  induction c with
  | zero =>
    intro _
    rw [facc, Sfp.zero, Finset.sum_range_zero]
    exact (Rt.refl 0).mono hw (by omega)
  | succ c ih =>
    intro h
    rw [facc, Finset.sum_range_succ]
    have h1 := ih fun t ht => h t (by omega)
    have h2 := h1.add hw ((h c (by omega)).mono hw (show K ≤ K + c by omega)) (Finset.sum_nonneg fun t _ => hs t) (hs c)
    exact ((add_rt _ _).trans hw h2).mono hw (by omega)

end Std
end LA
