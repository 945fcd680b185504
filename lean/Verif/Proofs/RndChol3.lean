import Verif.Proofs.RndChol2
import Verif.Proofs.Overflow
import Mathlib.LinearAlgebra.Matrix.NonsingularInverse
import Mathlib.Algebra.Order.BigOperators.Ring.Finset

/-! # Matrices with a margin of positive definiteness are accepted -/

set_option linter.unusedSectionVars false

namespace LA
open Finset
namespace Cholesky.Rnd

/-- If `a` is positive definite with margin `ε`, and the rows of a triangle and one more row `l` reproduce its entries up to `ε`,
then the Schur complement of that row exceeds `ε`. -/
theorem schur {n : Nat} {a : Fin n → Fin n → ℝ} {ε : ℝ} (hε : 0 ≤ ε)
    (hpd : ∀ x : Fin n → ℝ, x ≠ 0 → ε * (∑ i, |x i|) ^ 2 < ∑ i, ∑ k, x i * a i k * x k)
    (hsym : ∀ i k, a i k = a k i) (j : Fin n) (k : Nat) (hk : k ≤ j.1) (L : Nat → Nat → ℝ) (l : Nat → ℝ)
    (hz : ∀ i t, i < k → i < t → L i t = 0) (hd : ∀ i, i < k → L i i ≠ 0)
    (h1 : ∀ (i c : Fin n), i.1 < k → c.1 ≤ i.1 → |a i c - ∑ t ∈ range k, L i t * L c t| ≤ ε)
    (h2 : ∀ c : Fin n, c.1 < k → |a j c - ∑ t ∈ range k, l t * L c t| ≤ ε) :
    ε < a j j - ∑ t ∈ range k, l t * l t := by
  have hj := j.2
  -- a vector annihilated by the triangle
  obtain ⟨y, hy⟩ : ∃ y : Fin k → ℝ, ∀ t : Fin k, (∑ i : Fin k, y i * L i t) = -l t := by
    let T : Matrix (Fin k) (Fin k) ℝ := Matrix.of fun i t => L i t
    have hdet : T.det ≠ 0 := by
      rw [Matrix.det_of_lowerTriangular T (fun i t hit => hz i t i.2 hit)]
      exact Finset.prod_ne_zero_iff.mpr fun i _ => hd i i.2
    have hu : IsUnit T.det := isUnit_iff_ne_zero.mpr hdet
    refine ⟨Matrix.vecMul (fun t : Fin k => -l t) T⁻¹, fun t => ?_⟩
    have : Matrix.vecMul (Matrix.vecMul (fun t : Fin k => -l t) T⁻¹) T = fun t : Fin k => -l t := by
      rw [Matrix.vecMul_vecMul, Matrix.nonsing_inv_mul T hu, Matrix.vecMul_one]
    have := congrFun this t
    exact this
  let x : Fin n → ℝ := fun i => if h : i.1 < k then y ⟨i, h⟩ else if i = j then 1 else 0
  let row : Fin n → Nat → ℝ := fun i t => if i.1 < k then L i t else if i = j then l t else 0
  have hxj : x j = 1 := by simp [x, show ¬ j.1 < k by omega]
  have hrj : row j = l := by funext t; simp [row, show ¬ j.1 < k by omega]
  have hrk : ∀ i : Fin n, i.1 < k → row i = L i := by intro i hi; funext t; simp [row, hi]
  have hx0 : x ≠ 0 := fun h => by
    have := congrFun h j
    rw [hxj] at this; exact one_ne_zero this
  have hann : ∀ t, t < k → ∑ i, x i * row i t = 0 := by
    intro t ht
    have e : ∀ i : Fin n, x i * row i t = (if h : i.1 < k then y ⟨i, h⟩ * L i t else 0) + if i = j then l t else 0 := by
      intro i
      by_cases h : i.1 < k
      · have : i ≠ j := fun e => by rw [e] at h; omega
        simp [x, row, h, this]
      · by_cases e : i = j
        · simp [x, row, h, e, show ¬ j.1 < k by omega]
        · simp [x, row, h, e]
    rw [sum_congr rfl fun i _ => e i, sum_add_distrib, Finset.sum_ite_eq' univ j]
    simp only [mem_univ, if_true]
    have e2 : ∑ i : Fin n, (if h : i.1 < k then y ⟨i, h⟩ * L i t else 0) = ∑ i : Fin k, y i * L i t := by
      have a1 := Finset.sum_range (n := n) (fun i => if h : i < k then y ⟨i, h⟩ * L i t else 0)
      have a2 := Finset.sum_range (n := k) (fun i => if h : i < k then y ⟨i, h⟩ * L i t else 0)
      rw [← a1]
      have a3 : ∑ i : Fin k, y i * L i t = ∑ i : Fin k, (if h : i.1 < k then y ⟨i, h⟩ * L i t else 0) :=
        sum_congr rfl fun i _ => by rw [dif_pos i.2]
      rw [a3, ← a2]
      symm
      refine Finset.sum_subset (range_mono (by omega)) fun i _ hi => ?_
      rw [mem_range] at hi
      rw [dif_neg hi]
    rw [e2, hy ⟨t, ht⟩]; ring
  -- the quadratic form of the product of the rows vanishes
  have hq : ∑ i, ∑ c, x i * (∑ t ∈ range k, row i t * row c t) * x c = 0 := by
    have e : ∀ i, ∑ c, x i * (∑ t ∈ range k, row i t * row c t) * x c = ∑ t ∈ range k, x i * row i t * ∑ c, x c * row c t := by
      intro i
      have : ∀ c, x i * (∑ t ∈ range k, row i t * row c t) * x c = ∑ t ∈ range k, x i * row i t * (x c * row c t) := by
        intro c
        rw [mul_sum, sum_mul]
        exact sum_congr rfl fun t _ => by ring
      rw [sum_congr rfl fun c _ => this c, sum_comm]
      exact sum_congr rfl fun t _ => by rw [mul_sum]
    rw [sum_congr rfl fun i _ => e i]
    refine sum_eq_zero fun i _ => sum_eq_zero fun t ht => ?_
    rw [hann t (mem_range.mp ht), mul_zero]
  set w := a j j - ∑ t ∈ range k, l t * l t with hw
  have hterm : ∀ i c, x i * a i c * x c ≤ x i * (∑ t ∈ range k, row i t * row c t) * x c + ε * (|x i| * |x c|) +
      if i = j then (if c = j then w - ε else 0) else 0 := by
    intro i c
    have key : ∀ i c : Fin n, |a i c - ∑ t ∈ range k, row i t * row c t| ≤ ε →
        x i * a i c * x c ≤ x i * (∑ t ∈ range k, row i t * row c t) * x c + ε * (|x i| * |x c|) := by
      intro i c h
      have h3 : x i * (a i c - ∑ t ∈ range k, row i t * row c t) * x c ≤ ε * (|x i| * |x c|) := by
        refine (le_abs_self _).trans ?_
        rw [abs_mul, abs_mul]
        calc _ = |a i c - ∑ t ∈ range k, row i t * row c t| * (|x i| * |x c|) := by ring
          _ ≤ _ := mul_le_mul_of_nonneg_right h (by positivity)
      have h4 : x i * (a i c - ∑ t ∈ range k, row i t * row c t) * x c =
        x i * a i c * x c - x i * (∑ t ∈ range k, row i t * row c t) * x c := by ring
      linarith
    by_cases hi : i = j
    · subst hi
      by_cases hc : c = i
      · subst hc
        simp only [if_true, hxj, hrj, abs_one]
        rw [hw]; linarith
      · rw [if_pos rfl, if_neg hc, add_zero]
        by_cases hck : c.1 < k
        · refine key i c ?_
          rw [hrj, hrk c hck]
          exact h2 c hck
        · have : x c = 0 := by simp [x, hck, hc]
          rw [this]; simp
    · rw [if_neg hi, add_zero]
      by_cases hik : i.1 < k
      · refine (?_ : x i * a i c * x c ≤ x i * (∑ t ∈ range k, row i t * row c t) * x c + ε * (|x i| * |x c|))
        by_cases hc : c = j
        · subst hc
          refine key i c ?_
          rw [hrj, hrk i hik, hsym, show ∑ t ∈ range k, L i t * l t = ∑ t ∈ range k, l t * L i t from sum_congr rfl fun t _ => mul_comm _ _]
          exact h2 i hik
        · by_cases hck : c.1 < k
          · refine key i c ?_
            rw [hrk i hik, hrk c hck]
            rcases le_total c.1 i.1 with h | h
            · exact h1 i c hik h
            · rw [hsym, show ∑ t ∈ range k, L i t * L c t = ∑ t ∈ range k, L c t * L i t from sum_congr rfl fun t _ => mul_comm _ _]
              exact h1 c i hck h
          · have : x c = 0 := by simp [x, hck, hc]
            rw [this]; simp
      · have : x i = 0 := by simp [x, hik, hi]
        rw [this]; simp
  have hsum : ∑ i, ∑ c, x i * a i c * x c ≤ ε * (∑ i, |x i|) ^ 2 + (w - ε) := by
    calc _ ≤ ∑ i, ∑ c, (x i * (∑ t ∈ range k, row i t * row c t) * x c + ε * (|x i| * |x c|) +
            if i = j then (if c = j then w - ε else 0) else 0) := sum_le_sum fun i _ => sum_le_sum fun c _ => hterm i c
      _ = _ := by
        simp only [sum_add_distrib]
        rw [hq, zero_add]
        congr 1
        · rw [sq, sum_mul_sum, mul_sum]
          exact sum_congr rfl fun i _ => by rw [mul_sum]
        · have : ∀ i : Fin n, (∑ c : Fin n, if i = j then (if c = j then w - ε else 0) else 0) = if i = j then w - ε else 0 := by
            intro i
            by_cases hi : i = j
            · simp [hi]
            · simp [hi]
          rw [sum_congr rfl fun i _ => this i]
          simp
  have := hpd x hx0
  linarith

variable {α : Type} [Zero α] [One α] [Add α] [Sub α] [Neg α] [Mul α] [FloatOps α] [Fp α]
open Fp

/-- What is assumed of the matrix. -/
structure Margin (n : Nat) (A : Nat → Nat → α) (D ε : ℝ) : Prop where
  fin : ∀ i k, i < n → k < n → fin (A i k)
  sym : ∀ i k, i < n → k < n → val (A i k) = val (A k i)
  nonneg : 0 ≤ D
  eps : γ α (n + 4) * D + θ α n + η α * Real.sqrt D ≤ ε
  bd : ∀ i k, i < n → k < n → |val (A i k)| + ε ≤ D
  pd : ∀ x : Fin n → ℝ, x ≠ 0 → ε * (∑ i, |x i|) ^ 2 < ∑ i : Fin n, ∑ k : Fin n, x i * val (A i k) * x k
  big : 2 * (1 + u α) ^ (n + 1) * D + θ α n ≤ Ω α
  root : (1 + u α) * Real.sqrt D + η α ≤ Ω α

theorem Margin.eps_nonneg {n : Nat} {A : Nat → Nat → α} {D ε : ℝ} (h : Margin n A D ε) : 0 ≤ ε := by
  refine le_trans ?_ h.eps
  have := γ_nonneg (α := α) (n + 4)
  have := θ_nonneg (α := α) n
  have := η_nonneg (α := α)
  have := Real.sqrt_nonneg D
  have := h.nonneg
  positivity

/-- A finished row. -/
structure Good (A L : Nat → Nat → α) (D ε : ℝ) (i : Nat) : Prop where
  fin : ∀ t, t ≤ i → fin (L i t)
  zero : ∀ t, i < t → val (L i t) = 0
  pos : 0 < val (L i i)
  err : ∀ c, c ≤ i → |val (A i c) - ∑ t ∈ range (c + 1), val (L i t) * val (L c t)| ≤ ε
  sq : ∑ t ∈ range (i + 1), val (L i t) * val (L i t) ≤ D

theorem dot_le {x y : Nat → ℝ} {k : Nat} {D : ℝ} (hx : ∑ t ∈ range k, x t * x t ≤ D) (hy : ∑ t ∈ range k, y t * y t ≤ D) :
    ∑ t ∈ range k, |x t * y t| ≤ D := by
  have : ∑ t ∈ range k, |x t * y t| ≤ ∑ t ∈ range k, (x t * x t + y t * y t) * (1 / 2) := by
    refine sum_le_sum fun t _ => ?_
    rw [abs_le]
    constructor <;> nlinarith [sq_nonneg (x t + y t), sq_nonneg (x t - y t)]
  rw [← Finset.sum_mul, sum_add_distrib] at this
  linarith

/-- One subtraction `a - Σ x y` when everything is bounded by `D`. -/
theorem sub_step {a : α} {x y : Nat → α} {k : Nat} {D : ℝ} (ha : fin a) (haD : |val a| ≤ D)
    (hxy : ∀ t, t < k → fin (x t) ∧ fin (y t)) (hV : ∑ t ∈ range k, |val (x t) * val (y t)| ≤ D)
    (hΩ : 2 * (1 + u α) ^ (k + 2) * D + θ α (k + 1) ≤ Ω α) :
    fin (a - fdot x y k) ∧ |val (a - fdot x y k)| ≤ 2 * (1 + u α) ^ (k + 2) * D + θ α (k + 1) ∧
    |val a - (∑ t ∈ range k, val (x t) * val (y t)) - val (a - fdot x y k)| ≤ γ α (k + 3) * D + θ α (k + 1) := by
  have hu := u_nonneg (α := α)
  have hη := η_nonneg (α := α)
  have h1u := one_u (α := α)
  have hD : 0 ≤ D := (abs_nonneg _).trans haD
  have hp := one_le_pow (α := α) (k + 1)
  have hθ := θ_succ (α := α) k
  have hθ0 := θ_nonneg (α := α) k
  have hη1 : 0 ≤ (1 + u α) * η α := by positivity
  have hPV : (1 + u α) ^ (k + 1) * (∑ t ∈ range k, |val (x t) * val (y t)|) ≤ (1 + u α) ^ (k + 1) * D :=
    mul_le_mul_of_nonneg_left hV (by linarith)
  have hP0 : 0 ≤ (1 + u α) ^ (k + 1) * D := by positivity
  have hPD : D ≤ (1 + u α) ^ (k + 1) * D := by nlinarith
  have e2 : 2 * (1 + u α) ^ (k + 2) * D = (1 + u α) * ((1 + u α) ^ (k + 1) * D + (1 + u α) ^ (k + 1) * D) := by ring
  have hgrow : (1 + u α) ^ (k + 1) * D + (1 + u α) ^ (k + 1) * D + θ α k ≤
      (1 + u α) * ((1 + u α) ^ (k + 1) * D + (1 + u α) ^ (k + 1) * D) + (1 + u α) * θ α k := by nlinarith
  have f1 : fin (fdot x y k) := fdot_fin x y k hxy (by linarith)
  have b1 := fdot_abs x y k f1
  have b2 : |val a - val (fdot x y k)| ≤ (1 + u α) ^ (k + 1) * D + (1 + u α) ^ (k + 1) * D + θ α k := by
    have := abs_sub (val a) (val (fdot x y k))
    linarith
  have b3 := mul_le_mul_of_nonneg_left b2 (show 0 ≤ 1 + u α by linarith)
  have f2 : fin (a - fdot x y k) := Fp.sub_fin _ _ ha f1 (by linarith)
  have b4 := (Fp.sub _ _ f2).2.2.1
  have b5 := abs_sub_abs_le_abs_sub (val (a - fdot x y k)) (val a - val (fdot x y k))
  refine ⟨f2, by linarith, ?_⟩
  have b6 := (fdot_err x y k f1).2
  have b7 : γ α (k + 1) * (∑ t ∈ range k, |val (x t) * val (y t)|) ≤ γ α (k + 1) * D := mul_le_mul_of_nonneg_left hV (γ_nonneg _)
  have b8 : |val a - (∑ t ∈ range k, val (x t) * val (y t)) - val (a - fdot x y k)| ≤
      |val (a - fdot x y k) - (val a - val (fdot x y k))| + |val (fdot x y k) - ∑ t ∈ range k, val (x t) * val (y t)| := by
    calc |val a - (∑ t ∈ range k, val (x t) * val (y t)) - val (a - fdot x y k)|
        = |-(val (a - fdot x y k) - (val a - val (fdot x y k))) + (val (fdot x y k) - ∑ t ∈ range k, val (x t) * val (y t))| := by ring_nf
      _ ≤ |-(val (a - fdot x y k) - (val a - val (fdot x y k)))| + |val (fdot x y k) - ∑ t ∈ range k, val (x t) * val (y t)| := abs_add_le _ _
      _ = _ := by rw [abs_neg]
  have b9 := mul_le_mul_of_nonneg_left b2 hu
  have b10 : γ α (k + 3) * D = γ α (k + 1) * D + (2 * u α + u α * u α) * ((1 + u α) ^ (k + 1) * D) := by unfold γ; ring
  have b11 : 0 ≤ u α * u α * ((1 + u α) ^ (k + 1) * D) := by positivity
  linarith

section Rows
variable {n : Nat} {A L : Nat → Nat → α} {D ε : ℝ} (hM : Margin n A D ε)
include hM

/-- Applying `schur` to finished rows and a row `l`. -/
theorem schur_rows {j k : Nat} (hj : j < n) (hk : k ≤ j) (hg : ∀ i, i < k → Good A L D ε i) (l : Nat → ℝ)
    (h2 : ∀ c, c < k → |val (A j c) - ∑ t ∈ range (c + 1), l t * val (L c t)| ≤ ε) :
    ε < val (A j j) - ∑ t ∈ range k, l t * l t := by
  have hext : ∀ (f : Nat → ℝ) c, c < k → ∑ t ∈ range k, f t * val (L c t) = ∑ t ∈ range (c + 1), f t * val (L c t) := by
    intro f c hc
    symm
    refine Finset.sum_subset (range_mono (by omega)) fun t _ ht => ?_
    rw [mem_range] at ht
    rw [(hg c hc).zero t (by omega), mul_zero]
  refine schur (a := fun i k => val (A i k)) hM.eps_nonneg hM.pd (fun i k => hM.sym i k i.2 k.2) ⟨j, hj⟩ k hk
    (fun i t => val (L i t)) l (fun i t hi ht => (hg i hi).zero t ht) (fun i hi => (hg i hi).pos.ne') ?_ ?_
  · intro i c hi hc
    rw [hext (fun t => val (L i t)) c (by omega)]
    exact (hg i hi).err c hc
  · intro c hc
    rw [hext l c hc]
    exact h2 c hc

theorem row_good {j : Nat} (hj : j < n) (hg : ∀ i, i < j → Good A L D ε i)
    (hlo : ∀ k, k < j → RDiv.rdiv (A j k - fdot (fun t => L k t) (fun t => L j t) k) (L k k) = .ok (L j k)) (k : Nat) (hk : k ≤ j) :
    (∀ t, t < k → fin (L j t)) ∧
    (∀ c, c < k → |val (A j c) - ∑ t ∈ range (c + 1), val (L j t) * val (L c t)| ≤ ε) ∧
    ε < val (A j j) - ∑ t ∈ range k, val (L j t) * val (L j t) := by
  have hu := u_nonneg (α := α)
  have hη := η_nonneg (α := α)
  have h1u := one_u (α := α)
  have hD := hM.nonneg
  have hε := hM.eps_nonneg
  have heps := hM.eps
  have hsD := Real.sqrt_nonneg D
  induction k with
  | zero =>
    refine ⟨fun t ht => by omega, fun t ht => by omega, ?_⟩
    exact schur_rows (L := L) hM hj (Nat.zero_le j) (fun i hi => by omega) (fun t => val (L j t)) (fun c hc => by omega)
  | succ k ih =>
    obtain ⟨i1, i2, i3⟩ := ih (by omega)
    have hkj : k < j := by omega
    have hgk := hg k hkj
    have hjj := hM.bd j j hj hj
    have hjD : ∑ t ∈ range k, val (L j t) * val (L j t) ≤ D := by
      have := le_abs_self (val (A j j)); linarith
    have hkk2 : (∑ t ∈ range k, val (L k t) * val (L k t)) + val (L k k) * val (L k k) ≤ D := by
      have := hgk.sq; rwa [sum_range_succ] at this
    have hkD : ∑ t ∈ range k, val (L k t) * val (L k t) ≤ D := by
      nlinarith [mul_self_nonneg (val (L k k))]
    have hp2 : val (L k k) * val (L k k) ≤ D := by
      have : 0 ≤ ∑ t ∈ range k, val (L k t) * val (L k t) := sum_nonneg fun _ _ => mul_self_nonneg _
      linarith
    have hp := hgk.pos
    have hpD : val (L k k) ≤ Real.sqrt D := Real.le_sqrt_of_sq_le (by rw [sq]; exact hp2)
    have hbd := hM.bd j k hj (by omega)
    have hΩ : 2 * (1 + u α) ^ (k + 2) * D + θ α (k + 1) ≤ Ω α := by
      refine le_trans ?_ hM.big
      have h1 : (1 + u α) ^ (k + 2) ≤ (1 + u α) ^ (n + 1) := pow_le_pow_right₀ h1u (by omega)
      have h2 := mul_le_mul_of_nonneg_right h1 hD
      have h3 := θ_mono (α := α) (show k + 1 ≤ n by omega)
      linarith
    obtain ⟨f1, f2, f3⟩ := sub_step (a := A j k) (x := fun t => L k t) (y := fun t => L j t) (k := k) (D := D)
      (hM.fin j k hj (by omega)) (by linarith) (fun t ht => ⟨hgk.fin t (by omega), i1 t ht⟩) (dot_le hkD hjD) hΩ
    rw [show ∑ t ∈ range k, val (L k t) * val (L j t) = ∑ t ∈ range k, val (L j t) * val (L k t) from
      sum_congr rfl fun t _ => mul_comm _ _] at f3
    have hg3 : γ α (k + 3) * D ≤ γ α (n + 4) * D := mul_le_mul_of_nonneg_right (γ_mono (by omega)) hD
    have hθ1 := θ_mono (α := α) (show k + 1 ≤ n by omega)
    have hdiv := hlo k hkj
    generalize A j k - fdot (fun t => L k t) (fun t => L j t) k = s at *
    have hηD : 0 ≤ η α * Real.sqrt D := by positivity
    -- with the exact quotient in place of the computed one
    have sch : ∀ q : ℝ, |val (A j k) - (∑ t ∈ range k, val (L j t) * val (L k t)) - q * val (L k k)| ≤ ε →
        ε < val (A j j) - ((∑ t ∈ range k, val (L j t) * val (L j t)) + q * q) := by
      intro q hq
      have := schur_rows hM hj hk (fun i hi => hg i (by omega)) (fun t => if t = k then q else val (L j t)) (by
        intro c hc
        have e : ∀ c, c ≤ k → ∑ t ∈ range c, (if t = k then q else val (L j t)) * val (L c t) =
            ∑ t ∈ range c, val (L j t) * val (L c t) := fun c hc => sum_congr rfl fun t ht => by
          rw [mem_range] at ht
          rw [if_neg (by omega)]
        rcases Nat.lt_succ_iff_lt_or_eq.mp hc with h | h
        · have := i2 c h
          rw [sum_congr rfl (g := fun t => val (L j t) * val (L c t)) fun t ht => by
            rw [mem_range] at ht
            rw [if_neg (by omega)]]
          exact this
        · subst h
          rw [sum_range_succ, e c le_rfl, if_pos rfl, ← sub_sub]
          exact hq)
      rw [sum_range_succ, if_pos rfl, sum_congr rfl (g := fun t => val (L j t) * val (L j t)) fun t ht => by
            rw [mem_range] at ht
            rw [if_neg (by omega)]] at this
      exact this
    have hq := sch (val s / val (L k k)) (by
      rw [div_mul_cancel₀ _ hp.ne']
      linarith)
    have hqD : |val s / val (L k k)| ≤ Real.sqrt D := by
      refine Real.abs_le_sqrt ?_
      have : 0 ≤ ∑ t ∈ range k, val (L j t) * val (L j t) := sum_nonneg fun _ _ => mul_self_nonneg _
      have := le_abs_self (val (A j j))
      rw [sq]; linarith
    have hz : fin (L j k) := by
      refine Fp.div_fin _ _ _ hdiv f1 (hgk.fin k le_rfl) hp.ne' (le_trans ?_ hM.root)
      have := mul_le_mul_of_nonneg_left hqD (show 0 ≤ 1 + u α by linarith)
      linarith
    obtain ⟨-, hd⟩ := Fp.div _ _ _ hdiv hz
    obtain ⟨-, hd, -⟩ := hd (hgk.fin k le_rfl)
    have hzs : |val s - val (L j k) * val (L k k)| ≤ u α * |val s| + η α * Real.sqrt D := by
      have e : val s - val (L j k) * val (L k k) = -((val (L j k) - val s / val (L k k)) * val (L k k)) := by field_simp; ring
      rw [e, abs_neg, abs_mul, abs_of_pos hp]
      calc |val (L j k) - val s / val (L k k)| * val (L k k) ≤ (u α * |val s / val (L k k)| + η α) * val (L k k) := by gcongr
        _ = u α * |val s| + η α * val (L k k) := by rw [abs_div, abs_of_pos hp]; field_simp
        _ ≤ _ := by gcongr
    have herr : |val (A j k) - (∑ t ∈ range k, val (L j t) * val (L k t)) - val (L j k) * val (L k k)| ≤ ε := by
      have h1 : |val (A j k) - (∑ t ∈ range k, val (L j t) * val (L k t)) - val (L j k) * val (L k k)| ≤
          |val (A j k) - (∑ t ∈ range k, val (L j t) * val (L k t)) - val s| + |val s - val (L j k) * val (L k k)| := by
        calc |val (A j k) - (∑ t ∈ range k, val (L j t) * val (L k t)) - val (L j k) * val (L k k)|
            = |(val (A j k) - (∑ t ∈ range k, val (L j t) * val (L k t)) - val s) + (val s - val (L j k) * val (L k k))| := by ring_nf
          _ ≤ _ := abs_add_le _ _
      have h2 := mul_le_mul_of_nonneg_left f2 hu
      have h3 : γ α (k + 3) * D + u α * (2 * (1 + u α) ^ (k + 2) * D) ≤ γ α (k + 5) * D := by
        have : γ α (k + 5) * D = γ α (k + 3) * D + (1 + u α) ^ (k + 2) * D * ((1 + u α) * (2 * u α + u α * u α)) := by unfold γ; ring
        rw [this]
        have h4 : (1 + u α) ^ (k + 2) * D * (2 * u α) ≤ (1 + u α) ^ (k + 2) * D * ((1 + u α) * (2 * u α + u α * u α)) :=
          mul_le_mul_of_nonneg_left (by nlinarith) (by positivity)
        linarith
      have h4 : γ α (k + 5) * D ≤ γ α (n + 4) * D := mul_le_mul_of_nonneg_right (γ_mono (by omega)) hD
      have h5 : (1 + u α) * θ α (k + 1) ≤ θ α n := by
        have := θ_succ (α := α) (k + 1)
        have h6 := θ_mono (α := α) (show k + 1 + 1 ≤ n by omega)
        have : 0 ≤ (1 + u α) * η α := by positivity
        linarith
      linarith
    refine ⟨?_, ?_, ?_⟩
    · intro t ht
      rcases Nat.lt_succ_iff_lt_or_eq.mp ht with h | h
      · exact i1 t h
      · rw [h]; exact hz
    · intro c hc
      rcases Nat.lt_succ_iff_lt_or_eq.mp hc with h | h
      · exact i2 c h
      · rw [h, sum_range_succ, ← sub_sub]; exact herr
    · rw [sum_range_succ]
      exact sch _ herr

/-- The pivot of a row is positive and accurate. -/
theorem pivot_good {j : Nat} (hj : j < n) (hg : ∀ i, i < j → Good A L D ε i)
    (hlo : ∀ k, k < j → RDiv.rdiv (A j k - fdot (fun t => L k t) (fun t => L j t) k) (L k k) = .ok (L j k)) :
    fin (A j j - fdot (fun t => L j t) (fun t => L j t) j) ∧
    0 < val (A j j - fdot (fun t => L j t) (fun t => L j t) j) ∧ val (A j j - fdot (fun t => L j t) (fun t => L j t) j) ≤ D ∧
    |val (A j j) - (∑ t ∈ range j, val (L j t) * val (L j t)) - val (A j j - fdot (fun t => L j t) (fun t => L j t) j)| ≤
      γ α (j + 3) * D + θ α (j + 1) := by
  obtain ⟨i1, i2, i3⟩ := row_good hM hj hg hlo j le_rfl
  have hu := u_nonneg (α := α)
  have hη := η_nonneg (α := α)
  have h1u := one_u (α := α)
  have hD := hM.nonneg
  have hε := hM.eps_nonneg
  have heps := hM.eps
  have hsD := Real.sqrt_nonneg D
  have hjj := hM.bd j j hj hj
  have hle := le_abs_self (val (A j j))
  have hsq0 : 0 ≤ ∑ t ∈ range j, val (L j t) * val (L j t) := sum_nonneg fun _ _ => mul_self_nonneg _
  have hjD : ∑ t ∈ range j, val (L j t) * val (L j t) ≤ D := by linarith
  have hΩ : 2 * (1 + u α) ^ (j + 2) * D + θ α (j + 1) ≤ Ω α := by
    refine le_trans ?_ hM.big
    have h1 : (1 + u α) ^ (j + 2) ≤ (1 + u α) ^ (n + 1) := pow_le_pow_right₀ h1u (by omega)
    have h2 := mul_le_mul_of_nonneg_right h1 hD
    have h3 := θ_mono (α := α) (show j + 1 ≤ n by omega)
    linarith
  obtain ⟨f1, f2, f3⟩ := sub_step (a := A j j) (x := fun t => L j t) (y := fun t => L j t) (k := j) (D := D)
    (hM.fin j j hj hj) (by linarith) (fun t ht => ⟨i1 t ht, i1 t ht⟩) (dot_le hjD hjD) hΩ
  have hg3 : γ α (j + 3) * D ≤ γ α (n + 4) * D := mul_le_mul_of_nonneg_right (γ_mono (by omega)) hD
  have hθ1 := θ_mono (α := α) (show j + 1 ≤ n by omega)
  have hηD : 0 ≤ η α * Real.sqrt D := by positivity
  have h4 := abs_le.mp f3
  exact ⟨f1, by linarith [h4.2], by linarith [h4.1], f3⟩

theorem rows_good {j : Nat} (hj : j ≤ n) (hP : Part n A L j) : ∀ i, i < j → Good A L D ε i := by
  intro i
  induction i using Nat.strong_induction_on with
  | _ i ih =>
    intro hij
    have hg : ∀ i', i' < i → Good A L D ε i' := fun i' h => ih i' h (by omega)
    have hin : i < n := by omega
    obtain ⟨i1, i2, i3⟩ := row_good hM hin hg (fun k hk => hP.lo i k hij hk) i le_rfl
    obtain ⟨p1, p2, p3, p4⟩ := pivot_good hM hin hg (fun k hk => hP.lo i k hij hk)
    have hdg := (hP.dg i hij).1
    have hu := u_nonneg (α := α)
    have hη := η_nonneg (α := α)
    have h1u := one_u (α := α)
    have hD := hM.nonneg
    have heps := hM.eps
    have hsD := Real.sqrt_nonneg D
    have hηD : 0 ≤ η α * Real.sqrt D := by positivity
    have hjj := hM.bd i i hin hin
    have hle := le_abs_self (val (A i i))
    generalize A i i - fdot (fun t => L i t) (fun t => L i t) i = w at *
    have hz : fin (L i i) := by
      refine Fp.sqrt_fin _ _ hdg p1 p2.le (le_trans ?_ hM.root)
      have := mul_le_mul_of_nonneg_left (Real.sqrt_le_sqrt p3) (show 0 ≤ 1 + u α by linarith)
      linarith
    obtain ⟨-, -, z0, z1, -⟩ := Fp.sqrt _ _ hdg hz
    have hs := Real.sqrt_pos.mpr p2
    have hw : Real.sqrt (val w) * Real.sqrt (val w) = val w := Real.mul_self_sqrt p2.le
    have z2 := abs_le.mp z1
    have hul := u_lt_one (α := α)
    have hpos : 0 < val (L i i) := by nlinarith [z2.1]
    have hz3 : val (L i i) ≤ (1 + u α) * Real.sqrt (val w) := by linarith [z2.2]
    have hzw : |val w - val (L i i) * val (L i i)| ≤ γ α 2 * D := by
      have e : val w - val (L i i) * val (L i i) = -((val (L i i) - Real.sqrt (val w)) * (val (L i i) + Real.sqrt (val w))) := by
        nlinarith
      rw [e, abs_neg, abs_mul, abs_of_pos (show 0 < val (L i i) + Real.sqrt (val w) by linarith)]
      calc |val (L i i) - Real.sqrt (val w)| * (val (L i i) + Real.sqrt (val w))
          ≤ (u α * Real.sqrt (val w)) * ((1 + u α) * Real.sqrt (val w) + Real.sqrt (val w)) :=
            mul_le_mul z1 (by linarith) (by linarith) (by positivity)
        _ = γ α 2 * (Real.sqrt (val w) * Real.sqrt (val w)) := by unfold γ; ring
        _ ≤ _ := by rw [hw]; exact mul_le_mul_of_nonneg_left p3 (γ_nonneg 2)
    have herr : |val (A i i) - ((∑ t ∈ range i, val (L i t) * val (L i t)) + val (L i i) * val (L i i))| ≤ ε := by
      have h1 : |val (A i i) - ((∑ t ∈ range i, val (L i t) * val (L i t)) + val (L i i) * val (L i i))| ≤
          |val (A i i) - (∑ t ∈ range i, val (L i t) * val (L i t)) - val w| + |val w - val (L i i) * val (L i i)| := by
        calc |val (A i i) - ((∑ t ∈ range i, val (L i t) * val (L i t)) + val (L i i) * val (L i i))|
            = |(val (A i i) - (∑ t ∈ range i, val (L i t) * val (L i t)) - val w) + (val w - val (L i i) * val (L i i))| := by ring_nf
          _ ≤ _ := abs_add_le _ _
      have h2 : γ α (i + 3) * D + γ α 2 * D ≤ γ α (n + 4) * D := by
        rw [← add_mul]
        refine mul_le_mul_of_nonneg_right ?_ hD
        exact (LU.Rnd.γ_add_le _ _).trans (γ_mono (by omega))
      have hθ1 := θ_mono (α := α) (show i + 1 ≤ n by omega)
      linarith
    refine ⟨?_, ?_, hpos, ?_, ?_⟩
    · intro t ht
      rcases ht.eq_or_lt with h | h
      · rw [h]; exact hz
      · exact i1 t h
    · intro t ht
      rw [hP.zero i t hij ht, Fp.zero.2]
    · intro c hc
      rcases hc.eq_or_lt with h | h
      · rw [h, sum_range_succ]; exact herr
      · exact i2 c h
    · rw [sum_range_succ]
      have := (abs_le.mp herr).1
      linarith

theorem not_stop : ¬ Stop n A := by
  rintro (⟨i, k, hi, hk, h⟩ | ⟨j, L, hj, hP, hlo, hle⟩)
  · replace hk : k < n := hk.trans hi
    have := (Fp.eq _ _ (hM.fin k i hk hi) (hM.fin i k hi hk)).mpr (hM.sym k i hk hi)
    rw [this] at h; cases h
  · obtain ⟨p1, p2, -⟩ := pivot_good hM hj (rows_good hM hj.le hP) hlo
    have := (Fp.le _ _ p1 Fp.zero.1).mp hle
    rw [Fp.zero.2] at this
    linarith

end Rows

end Cholesky.Rnd
end LA
