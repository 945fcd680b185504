import Mathlib.Analysis.InnerProductSpace.PiL2
import Mathlib.LinearAlgebra.Matrix.DotProduct
import Mathlib.Tactic.Linarith
import Mathlib.Tactic.FieldSimp

/-! # Householder reflections computed with errors: the real analysis -/

set_option linter.unusedSectionVars false

namespace LA.RQ
open Finset

variable {m : Nat}

/-- The Euclidean norm. -/
noncomputable def l2 (f : Fin m → ℝ) : ℝ := √(∑ i, f i ^ 2)

theorem l2_eq (f : Fin m → ℝ) : l2 f = ‖(WithLp.toLp 2 f : EuclideanSpace ℝ (Fin m))‖ := by
  rw [EuclideanSpace.norm_eq]
  unfold l2
  simp

theorem l2_nonneg (f : Fin m → ℝ) : 0 ≤ l2 f := Real.sqrt_nonneg _

theorem l2_sq (f : Fin m → ℝ) : l2 f ^ 2 = ∑ i, f i ^ 2 := Real.sq_sqrt (Finset.sum_nonneg fun _ _ => sq_nonneg _)

theorem l2_add (f g : Fin m → ℝ) : l2 (f + g) ≤ l2 f + l2 g := by
  rw [l2_eq, l2_eq, l2_eq]
  exact norm_add_le _ _

theorem l2_sub_comm (f g : Fin m → ℝ) : l2 (f - g) = l2 (g - f) := by
  unfold l2
  congr 1
  exact Finset.sum_congr rfl fun i _ => by simp only [Pi.sub_apply]; ring

theorem l2_tri (f g h : Fin m → ℝ) : l2 (f - h) ≤ l2 (f - g) + l2 (g - h) := by
  have := l2_add (f - g) (g - h)
  rwa [sub_add_sub_cancel] at this

theorem l2_le_add (f g : Fin m → ℝ) : l2 f ≤ l2 g + l2 (f - g) := by
  have := l2_add g (f - g)
  rwa [add_sub_cancel] at this

theorem l2_mono {f g : Fin m → ℝ} (h : ∀ i, |f i| ≤ g i) : l2 f ≤ l2 g :=
  Real.sqrt_le_sqrt (Finset.sum_le_sum fun i _ => by
    rw [← sq_abs (f i)]
    exact pow_le_pow_left₀ (abs_nonneg _) (h i) 2)

theorem l2_smul (c : ℝ) (f : Fin m → ℝ) : l2 (c • f) = |c| * l2 f := by
  rw [l2_eq, l2_eq, ← Real.norm_eq_abs, ← norm_smul]
  rfl

theorem l2_abs (f : Fin m → ℝ) : l2 (fun i => |f i|) = l2 f := by
  unfold l2
  congr 1
  exact Finset.sum_congr rfl fun i _ => sq_abs _

theorem l2_const (t : ℝ) (ht : 0 ≤ t) : l2 (fun _ : Fin m => t) = √m * t := by
  unfold l2
  rw [Finset.sum_const, Finset.card_univ, Fintype.card_fin, nsmul_eq_mul, Real.sqrt_mul (Nat.cast_nonneg _), Real.sqrt_sq ht]

theorem sum_abs_le (f g : Fin m → ℝ) : ∑ i, |f i * g i| ≤ l2 f * l2 g := by
  have h := Real.sum_mul_le_sqrt_mul_sqrt Finset.univ (fun i => |f i|) (fun i => |g i|)
  simp only [sq_abs] at h
  simp only [abs_mul]
  exact h

theorem dot_le (f g : Fin m → ℝ) : |∑ i, f i * g i| ≤ l2 f * l2 g :=
  (Finset.abs_sum_le_sum_abs _ _).trans (sum_abs_le f g)

theorem abs_le_l2 (f : Fin m → ℝ) (i : Fin m) : |f i| ≤ l2 f := by
  refine abs_le_of_sq_le_sq ?_ (l2_nonneg f)
  rw [l2_sq]
  exact Finset.single_le_sum (f := fun i => f i ^ 2) (fun _ _ => sq_nonneg _) (Finset.mem_univ i)

theorem l2_zero : l2 (0 : Fin m → ℝ) = 0 := by simp [l2]

/-- Orthogonal matrices keep the norm. -/
theorem l2_orth {P : Matrix (Fin m) (Fin m) ℝ} (h : P.transpose * P = 1) (f : Fin m → ℝ) : l2 (P.mulVec f) = l2 f := by
  unfold l2
  congr 1
  have e : ∀ g : Fin m → ℝ, ∑ i, g i ^ 2 = g ⬝ᵥ g := fun g => Finset.sum_congr rfl fun i _ => sq _
  rw [e, e, Matrix.dotProduct_mulVec, ← Matrix.mulVec_transpose, Matrix.mulVec_mulVec, h, Matrix.one_mulVec]

/-! ## Reflections -/

/-- The reflection that maps `u` to `-u` (the identity for `u = 0`). -/
noncomputable def house (u : Fin m → ℝ) : Matrix (Fin m) (Fin m) ℝ := 1 - (2 / (u ⬝ᵥ u)) • Matrix.vecMulVec u u

theorem house_transpose (u : Fin m → ℝ) : (house u).transpose = house u := by
  unfold house
  rw [Matrix.transpose_sub, Matrix.transpose_one, Matrix.transpose_smul, Matrix.transpose_vecMulVec]

theorem house_mulVec (u w : Fin m → ℝ) (i : Fin m) : (house u).mulVec w i = w i - 2 * (u ⬝ᵥ w) / (u ⬝ᵥ u) * u i := by
  unfold house
  rw [Matrix.sub_mulVec, Matrix.one_mulVec, Matrix.smul_mulVec, Matrix.vecMulVec_mulVec]
  simp only [Pi.sub_apply, Pi.smul_apply, smul_eq_mul, MulOpposite.smul_eq_mul_unop, MulOpposite.unop_op]
  ring

theorem house_zero : house (0 : Fin m → ℝ) = 1 := by
  unfold house
  simp

theorem house_sq (u : Fin m → ℝ) : house u * house u = 1 := by
  by_cases h : u ⬝ᵥ u = 0
  · rw [dotProduct_self_eq_zero] at h
    rw [h, house_zero, Matrix.one_mul]
  · have hsq : Matrix.vecMulVec u u * Matrix.vecMulVec u u = (u ⬝ᵥ u) • Matrix.vecMulVec u u := by
      ext i j
      rw [Matrix.mul_apply, Matrix.smul_apply]
      simp only [Matrix.vecMulVec_apply, dotProduct, smul_eq_mul, Finset.sum_mul]
      exact Finset.sum_congr rfl fun t _ => by ring
    unfold house
    rw [Matrix.sub_mul, Matrix.mul_sub, Matrix.mul_sub, Matrix.one_mul, Matrix.one_mul, Matrix.mul_one, Matrix.smul_mul, Matrix.mul_smul, hsq,
      smul_smul, smul_smul]
    have : 2 / (u ⬝ᵥ u) * (2 / (u ⬝ᵥ u)) * (u ⬝ᵥ u) = 2 / (u ⬝ᵥ u) + 2 / (u ⬝ᵥ u) := by field_simp; ring
    rw [this, add_smul]
    abel

theorem house_orth (u : Fin m → ℝ) : (house u).transpose * house u = 1 := by rw [house_transpose, house_sq]

/-- `H_0 · H_1 ⋯ H_{k-1}` for the reflections `H_t` of the vectors `u t`. -/
noncomputable def houses (u : Nat → Fin m → ℝ) : Nat → Matrix (Fin m) (Fin m) ℝ
  | 0 => 1
  | k + 1 => houses u k * house (u k)

theorem houses_orth (u : Nat → Fin m → ℝ) (k : Nat) : (houses u k).transpose * houses u k = 1 ∧ houses u k * (houses u k).transpose = 1 := by
  have h : (houses u k).transpose * houses u k = 1 := by
    induction k with
    | zero => simp [houses]
    | succ k ih => rw [houses, Matrix.transpose_mul, Matrix.mul_assoc, ← Matrix.mul_assoc _ (houses u k), ih, Matrix.one_mul, house_orth]
  exact ⟨h, mul_eq_one_comm.1 h⟩

theorem houses_congr {u v : Nat → Fin m → ℝ} {k : Nat} (h : ∀ t, t < k → u t = v t) : houses u k = houses v k := by
  induction k with
  | zero => rfl
  | succ k ih => rw [houses, houses, ih fun t ht => h t (by omega), h k (by omega)]

/-! ## Errors -/

/-- The numbers of one step: `xk` is the entry on the diagonal, `r2` the sum of squares below it, `a` the computed (signed) norm, `uk` the
computed difference `xk - a`. -/
theorem house_scalars {r2 xk a uk ε μ e : ℝ} (hr : 0 ≤ r2) (hs : a * xk ≤ 0) (hN : |a ^ 2 - (r2 + xk ^ 2)| ≤ e * a ^ 2)
    (hu : |uk - (xk - a)| ≤ μ * |uk|) (hμ : 0 ≤ μ) (hμε : 4 * μ ≤ ε) (he : e ≤ 102 / 100 * ε) (hε : ε ≤ 1 / 64) :
    a ^ 2 ≤ 102 / 100 * (r2 + uk ^ 2) ∧ |(r2 + uk ^ 2) + 2 * (a * uk)| ≤ 21 / 10 * ε * (r2 + uk ^ 2) ∧
    |(xk - uk) ^ 2 - (r2 + xk ^ 2)| ≤ 21 / 10 * ε * (r2 + uk ^ 2) ∧ r2 + uk ^ 2 ≤ 9 * (r2 + xk ^ 2) := by
  have hμ1 : μ ≤ 1 / 256 := by linarith
  have hε0 : 0 ≤ ε := by linarith
  obtain ⟨τ, hτ⟩ : ∃ τ, τ = uk - (xk - a) := ⟨_, rfl⟩
  rw [← hτ] at hu
  have huk := sq_nonneg uk
  have hxk := sq_nonneg xk
  have ha := sq_nonneg a
  have hτ2 := sq_nonneg τ
  have sqle : ∀ {x c : ℝ}, |x| ≤ c * |uk| → x ^ 2 ≤ c ^ 2 * uk ^ 2 := by
    intro x c h
    rw [← sq_abs x, ← sq_abs uk, ← mul_pow]
    exact pow_le_pow_left₀ (abs_nonneg _) h 2
  have hμ2 : μ ^ 2 ≤ 1 / 256 * μ := by rw [sq]; exact mul_le_mul_of_nonneg_right hμ1 hμ
  have t3 : τ ^ 2 ≤ 1 / 256 * μ * uk ^ 2 := (sqle hu).trans (mul_le_mul_of_nonneg_right hμ2 huk)
  -- (xk - a)² = (uk - τ)² ≤ (1+μ)² uk²
  have e1 : uk - τ = xk - a := by rw [hτ]; ring
  have h1 : |xk - a| ≤ (1 + μ) * |uk| := by
    rw [← e1]
    calc |uk - τ| ≤ |uk| + |τ| := abs_sub _ _
      _ ≤ _ := by linarith
  have h3 : (1 + μ) ^ 2 ≤ 101 / 100 := by
    have e : (1 + μ) ^ 2 = 1 + 2 * μ + μ ^ 2 := by ring
    linarith
  have h4 : (xk - a) ^ 2 ≤ 101 / 100 * uk ^ 2 := (sqle h1).trans (mul_le_mul_of_nonneg_right h3 huk)
  have e2 : (xk - a) ^ 2 = xk ^ 2 + a ^ 2 - 2 * (a * xk) := by ring
  have h5 : xk ^ 2 + a ^ 2 ≤ 101 / 100 * uk ^ 2 := by linarith
  have hμu : μ * uk ^ 2 ≤ ε / 4 * uk ^ 2 := mul_le_mul_of_nonneg_right (by linarith) huk
  have hμu0 := mul_nonneg hμ huk
  have prod : ∀ {x : ℝ}, x ^ 2 ≤ 101 / 100 * uk ^ 2 → |x * τ| ≤ 3 / 8 * ε * uk ^ 2 := by
    intro x hx
    have : |x| ≤ 101 / 100 * |uk| := by
      refine abs_le_of_sq_le_sq ?_ (by positivity)
      rw [mul_pow, sq_abs]
      linarith
    rw [abs_mul]
    have := mul_le_mul this hu (abs_nonneg _) (by positivity)
    have e : 101 / 100 * |uk| * (μ * |uk|) = 101 / 100 * (μ * uk ^ 2) := by rw [← sq_abs uk]; ring
    rw [e] at this
    linarith
  have xt := abs_le.mp (prod (x := xk) (by linarith))
  have at' := abs_le.mp (prod (x := a) (by linarith))
  have hεr := mul_nonneg hε0 hr
  have hεu := mul_nonneg hε0 huk
  have hNa : |a ^ 2 - (r2 + xk ^ 2)| ≤ 104 / 100 * ε * uk ^ 2 := by
    refine hN.trans ?_
    have h6 : e * a ^ 2 ≤ 102 / 100 * ε * a ^ 2 := mul_le_mul_of_nonneg_right he ha
    have h7 : ε * a ^ 2 ≤ ε * (101 / 100 * uk ^ 2) := mul_le_mul_of_nonneg_left (by linarith) hε0
    linarith
  have hNa' := abs_le.mp hNa
  have huε : uk = xk - a + τ := by rw [hτ]; ring
  refine ⟨by linarith, ?_, ?_, ?_⟩
  · have e2 : r2 + uk ^ 2 + 2 * (a * uk) = -(a ^ 2 - (r2 + xk ^ 2)) + 2 * (xk * τ) + τ ^ 2 := by
      rw [huε]; ring
    rw [e2, abs_le]
    constructor <;> linarith
  · have e2 : (xk - uk) ^ 2 - (r2 + xk ^ 2) = (a ^ 2 - (r2 + xk ^ 2)) - 2 * (a * τ) + τ ^ 2 := by
      rw [huε]; ring
    rw [e2, abs_le]
    constructor <;> linarith
  · have h7 : |uk| ≤ 257 / 256 * |xk - a| + 1 / 256 * (1 / 128) * |uk| := by
      have := abs_sub_abs_le_abs_sub uk τ
      rw [e1] at this
      have h8 : μ * |uk| ≤ 1 / 256 * |uk| := mul_le_mul_of_nonneg_right hμ1 (abs_nonneg _)
      linarith [abs_nonneg uk, abs_nonneg (xk - a)]
    have h8 : |uk| ≤ 101 / 100 * |xk - a| := by linarith [abs_nonneg (xk - a)]
    have h9 : uk ^ 2 ≤ (101 / 100) ^ 2 * (xk - a) ^ 2 := by
      rw [← sq_abs uk, ← sq_abs (xk - a), ← mul_pow]
      exact pow_le_pow_left₀ (abs_nonneg _) h8 2
    have h10 : (xk - a) ^ 2 ≤ 2 * (xk ^ 2 + a ^ 2) := by
      have := sq_nonneg (xk + a)
      have e : (xk + a) ^ 2 = xk ^ 2 + a ^ 2 + 2 * (a * xk) := by ring
      linarith
    have h11 : a ^ 2 ≤ 102 / 100 * (r2 + xk ^ 2) := by
      have h12 := (abs_le.mp hN).2
      have : e * a ^ 2 ≤ 1 / 60 * a ^ 2 := mul_le_mul_of_nonneg_right (by linarith) ha
      linarith
    linarith

/-- The sums of the own column. -/
theorem own_sums {u w : Fin m → ℝ} {k : Fin m} (h0 : ∀ i, i < k → u i = 0) (h1 : ∀ i, k < i → u i = w i) :
    ∃ r2, 0 ≤ r2 ∧ u ⬝ᵥ u = r2 + u k ^ 2 ∧ u ⬝ᵥ w = r2 + u k * w k ∧ r2 + w k ^ 2 = ∑ i, (if k ≤ i then w i ^ 2 else 0) ∧ r2 + w k ^ 2 ≤ l2 w ^ 2 := by
  have hne : ∀ i, i ≠ k → u i * w i = u i ^ 2 ∧ u i ^ 2 = (if k ≤ i then w i ^ 2 else 0) := by
    intro i hi
    rcases lt_or_gt_of_ne hi with h | h
    · rw [h0 i h, if_neg (not_le.mpr h)]; simp
    · rw [h1 i h, if_pos h.le]; exact ⟨(sq _).symm, rfl⟩
  have e4 : ∑ i ∈ Finset.univ.erase k, u i ^ 2 + w k ^ 2 = ∑ i, (if k ≤ i then w i ^ 2 else 0) := by
    rw [← Finset.sum_erase_add _ _ (Finset.mem_univ k), if_pos le_rfl]
    congr 1
    exact Finset.sum_congr rfl fun i hi => (hne i (Finset.ne_of_mem_erase hi)).2
  refine ⟨∑ i ∈ Finset.univ.erase k, u i ^ 2, Finset.sum_nonneg fun _ _ => sq_nonneg _, ?_, ?_, e4, ?_⟩
  · rw [dotProduct, ← Finset.sum_erase_add _ _ (Finset.mem_univ k), ← sq]
    congr 1
    exact Finset.sum_congr rfl fun i _ => (sq _).symm
  · rw [dotProduct, ← Finset.sum_erase_add _ _ (Finset.mem_univ k)]
    congr 1
    exact Finset.sum_congr rfl fun i hi => (hne i (Finset.ne_of_mem_erase hi)).1
  · rw [e4, l2_sq]
    refine Finset.sum_le_sum fun i _ => ?_
    split
    · exact le_rfl
    · exact sq_nonneg _

theorem dot_self_l2 (u : Fin m → ℝ) : u ⬝ᵥ u = l2 u ^ 2 := by
  rw [l2_sq, dotProduct]
  exact Finset.sum_congr rfl fun i _ => (sq _).symm

/-- The column that is zeroed: the reflection maps it to a multiple of the coordinate vector, nearly. -/
theorem own_col {u w t : Fin m → ℝ} {k : Fin m} {a ε μ e : ℝ} (h0 : ∀ i, i < k → u i = 0) (h1 : ∀ i, k < i → u i = w i)
    (ht : ∀ i, t i = if i < k then w i else if i = k then a else 0) (hs : a * w k ≤ 0) (ha : a ≠ 0)
    (hN : |a ^ 2 - ∑ i, (if k ≤ i then w i ^ 2 else 0)| ≤ e * a ^ 2)
    (hu : |u k - (w k - a)| ≤ μ * |u k|) (hμ : 0 ≤ μ) (hμε : 4 * μ ≤ ε) (he : e ≤ 102 / 100 * ε) (hε : ε ≤ 1 / 64) :
    l2 ((house u).mulVec w - t) ≤ 8 * ε * l2 w ∧ a ^ 2 ≤ 102 / 100 * l2 u ^ 2 ∧ |l2 u ^ 2 + 2 * (a * u k)| ≤ 21 / 10 * ε * l2 u ^ 2 ∧
      l2 u ^ 2 ≤ 9 * ∑ i, (if k ≤ i then w i ^ 2 else 0) := by
  obtain ⟨r2, hr, e1, e2, e3, e4⟩ := own_sums h0 h1
  rw [← e3] at hN ⊢
  obtain ⟨s1, s2, s3, s4⟩ := house_scalars hr hs hN hu hμ hμε he hε
  have hS : l2 u ^ 2 = r2 + u k ^ 2 := by rw [← dot_self_l2, e1]
  rw [← hS] at s1 s2 s3 s4
  have hε0 : 0 ≤ ε := by linarith
  have hlu := l2_nonneg u
  have hlw := l2_nonneg w
  have hup : l2 u ≤ 3 * l2 w := by
    refine le_of_sq_le_sq ?_ (by positivity) |> fun h => h
    rw [mul_pow]; linarith
  have hpos : 0 < l2 u ^ 2 := by
    have : 0 < a ^ 2 := by positivity
    linarith
  refine ⟨?_, s1, s2, s4⟩
  have hd : (house u).mulVec w - t = (1 - 2 * (u ⬝ᵥ w) / (u ⬝ᵥ u)) • u + fun i => if i = k then -(u k - (w k - a)) else 0 := by
    funext i
    rw [Pi.sub_apply, house_mulVec, ht i, Pi.add_apply, Pi.smul_apply, smul_eq_mul]
    rcases lt_trichotomy i k with h | h | h
    · rw [if_pos h, h0 i h, if_neg h.ne]; ring
    · subst h; rw [if_neg (lt_irrefl _), if_pos rfl, if_pos rfl]; ring
    · rw [if_neg (not_lt.mpr h.le), if_neg h.ne', if_neg h.ne', h1 i h]; ring
  have hc : |1 - 2 * (u ⬝ᵥ w) / (u ⬝ᵥ u)| ≤ 21 / 10 * ε := by
    rw [dot_self_l2, show (1 : ℝ) - 2 * (u ⬝ᵥ w) / l2 u ^ 2 = ((w k - u k) ^ 2 - (r2 + w k ^ 2)) / l2 u ^ 2 by
      rw [eq_div_iff hpos.ne', sub_mul, div_mul_cancel₀ _ hpos.ne', hS, e2]; ring, abs_div, abs_of_pos hpos, div_le_iff₀ hpos]
    exact s3
  have hl : l2 (fun i => if i = k then -(u k - (w k - a)) else 0) ≤ μ * l2 u := by
    have : l2 (fun i => if i = k then -(u k - (w k - a)) else 0) = |u k - (w k - a)| := by
      unfold l2
      rw [Finset.sum_eq_single k]
      · dsimp only; rw [if_pos rfl, Real.sqrt_sq_eq_abs, abs_neg]
      · intro i _ hi; dsimp only; rw [if_neg hi]; simp
      · simp
    rw [this]
    exact hu.trans (mul_le_mul_of_nonneg_left (abs_le_l2 u k) hμ)
  rw [hd]
  refine (l2_add _ _).trans ?_
  rw [l2_smul]
  have a1 : |1 - 2 * (u ⬝ᵥ w) / (u ⬝ᵥ u)| * l2 u ≤ 21 / 10 * ε * l2 u := mul_le_mul_of_nonneg_right hc hlu
  have a2 : μ * l2 u ≤ ε / 4 * l2 u := mul_le_mul_of_nonneg_right (by linarith) hlu
  have a3 : ε * l2 u ≤ ε * (3 * l2 w) := mul_le_mul_of_nonneg_left hup hε0
  have a4 := mul_nonneg hε0 hlw
  linarith

/-- A computed reflection of a vector. -/
theorem apply_err {u w y : Fin m → ℝ} {D b f g θ η μ ε : ℝ} (hS : 0 < l2 u) (hD : |D - ∑ i, u i * w i| ≤ g * (l2 u * l2 w) + θ)
    (hb : |b + l2 u ^ 2 / 2| ≤ 2 * ε * l2 u ^ 2) (hf : |f - D / b| ≤ μ * |D / b| + η)
    (hy : ∀ i, |y i - (w i + f * u i)| ≤ μ * |w i| + 3 * μ * |f * u i| + 2 * η)
    (hg0 : 0 ≤ g) (hg : g ≤ ε) (hμ : 0 ≤ μ) (hμε : 4 * μ ≤ ε) (hε : ε ≤ 1 / 64) (hθ : 0 ≤ θ) (hη : 0 ≤ η) :
    l2 (y - (house u).mulVec w) ≤ 16 * ε * l2 w + 3 * (θ / l2 u + η * l2 u + η * √m) := by
  have hε0 : 0 ≤ ε := by linarith
  have hlw := l2_nonneg w
  have hSS : 0 < l2 u ^ 2 := by positivity
  -- the denominator
  have hb1 : 15 / 32 * l2 u ^ 2 ≤ |b| := by
    have h := (abs_le.mp hb).2
    have h2 : ε * l2 u ^ 2 ≤ 1 / 64 * l2 u ^ 2 := mul_le_mul_of_nonneg_right hε hSS.le
    rw [abs_of_neg (by linarith)]
    linarith
  have hb0 : b ≠ 0 := by
    intro e; rw [e, abs_zero] at hb1; linarith
  have hbp : 0 < |b| := abs_pos.mpr hb0
  -- the numerator
  have hd := dot_le u w
  set d := ∑ i, u i * w i with hd'
  have hP : 0 ≤ l2 u * l2 w := by positivity
  have hDabs : |D| ≤ l2 u * l2 w + (g * (l2 u * l2 w) + θ) := by
    calc |D| = |d + (D - d)| := by ring_nf
      _ ≤ |d| + |D - d| := abs_add_le _ _
      _ ≤ _ := by linarith
  -- f is near -2 d / S
  have hff : |f - -(2 * d / l2 u ^ 2)| * |b| ≤ μ * |D| + η * |b| + |D - d| + |d| * (4 * ε) := by
    have e1 : (f - -(2 * d / l2 u ^ 2)) * b = (f - D / b) * b + (D - d) + d * ((b + l2 u ^ 2 / 2) * 2 / l2 u ^ 2) := by
      field_simp; ring
    rw [← abs_mul, e1]
    have a1 : |(f - D / b) * b| ≤ μ * |D| + η * |b| := by
      rw [abs_mul]
      calc |f - D / b| * |b| ≤ (μ * |D / b| + η) * |b| := mul_le_mul_of_nonneg_right hf hbp.le
        _ = _ := by rw [abs_div]; field_simp
    have a2 : |d * ((b + l2 u ^ 2 / 2) * 2 / l2 u ^ 2)| ≤ |d| * (4 * ε) := by
      rw [abs_mul]
      refine mul_le_mul_of_nonneg_left ?_ (abs_nonneg _)
      rw [abs_div, abs_mul, abs_of_pos hSS, abs_two, div_le_iff₀ hSS]
      linarith
    calc _ ≤ |(f - D / b) * b| + |D - d| + |d * ((b + l2 u ^ 2 / 2) * 2 / l2 u ^ 2)| := abs_add_three _ _ _
      _ ≤ _ := by linarith
  -- times ‖u‖
  have hkey : |f - -(2 * d / l2 u ^ 2)| * l2 u ≤ 23 / 2 * ε * l2 w + 23 / 10 * (θ / l2 u) + η * l2 u := by
    have h1 : |f - -(2 * d / l2 u ^ 2)| - η ≤ (μ * |D| + |D - d| + |d| * (4 * ε)) / |b| := by
      rw [le_div_iff₀ hbp]; linarith
    have h2 : μ * |D| + |D - d| + |d| * (4 * ε) ≤ 53 / 10 * ε * (l2 u * l2 w) + 21 / 20 * θ := by
      have q1 : μ * |D| ≤ ε / 4 * |D| := mul_le_mul_of_nonneg_right (by linarith) (abs_nonneg _)
      have q2 : ε * |D| ≤ ε * (l2 u * l2 w + (g * (l2 u * l2 w) + θ)) := mul_le_mul_of_nonneg_left hDabs hε0
      have q3 : g * (l2 u * l2 w) ≤ ε * (l2 u * l2 w) := mul_le_mul_of_nonneg_right hg hP
      have q4 : |d| * (4 * ε) ≤ l2 u * l2 w * (4 * ε) := mul_le_mul_of_nonneg_right hd (by linarith)
      have q5 : ε * (g * (l2 u * l2 w)) ≤ 1 / 64 * (ε * (l2 u * l2 w)) := mul_le_mul hε q3 (by positivity) (by norm_num)
      have q6 : ε * θ ≤ 1 / 64 * θ := mul_le_mul_of_nonneg_right hε hθ
      have q7 := mul_nonneg hε0 hP
      linarith
    have h3 : (μ * |D| + |D - d| + |d| * (4 * ε)) / |b| ≤ (53 / 10 * ε * (l2 u * l2 w) + 21 / 20 * θ) / (15 / 32 * l2 u ^ 2) :=
      div_le_div₀ (by positivity) h2 (by positivity) hb1
    have h4 : (53 / 10 * ε * (l2 u * l2 w) + 21 / 20 * θ) / (15 / 32 * l2 u ^ 2) * l2 u =
        53 / 10 * (32 / 15) * ε * l2 w + 21 / 20 * (32 / 15) * (θ / l2 u) := by
      field_simp
    have h5 := mul_le_mul_of_nonneg_right (h1.trans h3) hS.le
    rw [h4, sub_mul] at h5
    have p1 : 0 ≤ θ / l2 u := by positivity
    have p2 : 0 ≤ ε * l2 w := by positivity
    linarith
  -- assemble
  have hdu : |2 * d / l2 u ^ 2| * l2 u ≤ 2 * l2 w := by
    rw [abs_div, abs_mul, abs_two, abs_of_pos hSS, div_mul_eq_mul_div, div_le_iff₀ hSS]
    have := mul_le_mul_of_nonneg_left hd (by positivity : (0 : ℝ) ≤ 2 * l2 u)
    calc 2 * |d| * l2 u = 2 * l2 u * |d| := by ring
      _ ≤ _ := this
      _ = _ := by ring
  have hfu : |f| * l2 u ≤ 2 * l2 w + |f - -(2 * d / l2 u ^ 2)| * l2 u := by
    have : |f| ≤ |f - -(2 * d / l2 u ^ 2)| + |2 * d / l2 u ^ 2| := by
      calc |f| = |(f - -(2 * d / l2 u ^ 2)) - 2 * d / l2 u ^ 2| := by ring_nf
        _ ≤ _ := abs_sub _ _
    have := mul_le_mul_of_nonneg_right this hS.le
    linarith
  have hsplit : y - (house u).mulVec w = (y - fun i => w i + f * u i) + (f - -(2 * d / l2 u ^ 2)) • u := by
    funext i
    rw [Pi.sub_apply, house_mulVec, Pi.add_apply, Pi.sub_apply, Pi.smul_apply, smul_eq_mul, dot_self_l2, dotProduct, ← hd']
    ring
  have hy1 : l2 (y - fun i => w i + f * u i) ≤ μ * l2 w + 3 * μ * (|f| * l2 u) + 2 * η * √m := by
    have h1 : l2 (y - fun i => w i + f * u i) ≤ l2 ((fun i => μ * |w i| + 3 * μ * |f * u i|) + fun _ => 2 * η) :=
      l2_mono fun i => hy i
    have h2 := l2_add (fun i => μ * |w i| + 3 * μ * |f * u i|) (fun _ : Fin m => 2 * η)
    have h3 := l2_add (μ • fun i => |w i|) ((3 * μ * |f|) • fun i => |u i|)
    have e1 : (fun i => μ * |w i| + 3 * μ * |f * u i|) = (μ • fun i => |w i|) + (3 * μ * |f|) • fun i => |u i| := by
      funext i
      simp only [Pi.add_apply, Pi.smul_apply, smul_eq_mul, abs_mul]
      ring
    have hp3 : 0 ≤ 3 * μ * |f| := by positivity
    rw [l2_smul, l2_smul, l2_abs, l2_abs, abs_of_nonneg hμ, abs_of_nonneg hp3] at h3
    rw [l2_const _ (by linarith : (0 : ℝ) ≤ 2 * η), e1] at h2
    rw [e1] at h1
    linarith
  rw [hsplit]
  refine (l2_add _ _).trans ?_
  rw [l2_smul]
  have c1 : μ * (|f| * l2 u) ≤ ε / 4 * (|f| * l2 u) := mul_le_mul_of_nonneg_right (by linarith) (by positivity)
  have c2 : ε * (|f| * l2 u) ≤ ε * (2 * l2 w + |f - -(2 * d / l2 u ^ 2)| * l2 u) := mul_le_mul_of_nonneg_left hfu hε0
  have c3 : ε * (|f - -(2 * d / l2 u ^ 2)| * l2 u) ≤ 1 / 64 * (|f - -(2 * d / l2 u ^ 2)| * l2 u) :=
    mul_le_mul_of_nonneg_right hε (by positivity)
  have c4 : μ * l2 w ≤ ε / 4 * l2 w := mul_le_mul_of_nonneg_right (by linarith) hlw
  have c5 : 0 ≤ ε * l2 w := by positivity
  have c6 : 0 ≤ θ / l2 u := by positivity
  have c7 : 0 ≤ η * l2 u := by positivity
  have c8 : 0 ≤ η * √m := by positivity
  linarith

/-! ## Sequences of reflections -/

/-- The error after `k` steps, each with relative error `c` and absolute error `τ t`. -/
theorem chain {u : Nat → Fin m → ℝ} {w : Nat → Fin m → ℝ} {c : ℝ} {τ : Nat → ℝ} {r : Nat} (hc : 0 ≤ c) (hτ : ∀ t, t < r → 0 ≤ τ t)
    (h : ∀ t, t < r → l2 ((house (u t)).mulVec (w t) - w (t + 1)) ≤ c * l2 (w t) + τ t) {k : Nat} (hk : k ≤ r) :
    l2 ((houses u k).transpose.mulVec (w 0) - w k) ≤ ((1 + c) ^ k - 1) * l2 (w 0) + (1 + c) ^ k * ∑ t ∈ range k, τ t := by
  induction k with
  | zero => simp [houses, l2_zero]
  | succ k ih =>
    have ih := ih (by omega)
    have hs := h k (by omega)
    have e1 : (houses u (k + 1)).transpose.mulVec (w 0) = (house (u k)).mulVec ((houses u k).transpose.mulVec (w 0)) := by
      rw [houses, Matrix.transpose_mul, house_transpose, Matrix.mulVec_mulVec]
    rw [e1]
    have h1 := l2_tri ((house (u k)).mulVec ((houses u k).transpose.mulVec (w 0))) ((house (u k)).mulVec (w k)) (w (k + 1))
    rw [← Matrix.mulVec_sub, l2_orth (house_orth _)] at h1
    have h2 := l2_le_add (w k) ((houses u k).transpose.mulVec (w 0))
    rw [l2_orth (P := (houses u k).transpose) (by rw [Matrix.transpose_transpose]; exact (houses_orth u k).2), l2_sub_comm] at h2
    generalize l2 ((houses u k).transpose.mulVec (w 0) - w k) = e at *
    have h3 : c * l2 (w k) ≤ c * (l2 (w 0) + e) := mul_le_mul_of_nonneg_left h2 hc
    have h4 : (1 + c) * e ≤ (1 + c) * (((1 + c) ^ k - 1) * l2 (w 0) + (1 + c) ^ k * ∑ t ∈ range k, τ t) :=
      mul_le_mul_of_nonneg_left ih (by linarith)
    have h5 : τ k ≤ (1 + c) ^ (k + 1) * τ k :=
      le_mul_of_one_le_left (hτ k (by omega)) (one_le_pow₀ (by linarith))
    rw [sum_range_succ]
    calc _ ≤ e + (c * (l2 (w 0) + e) + τ k) := by linarith
      _ = (1 + c) * e + c * l2 (w 0) + τ k := by ring
      _ ≤ (1 + c) * (((1 + c) ^ k - 1) * l2 (w 0) + (1 + c) ^ k * ∑ t ∈ range k, τ t) + c * l2 (w 0) + (1 + c) ^ (k + 1) * τ k := by linarith
      _ = _ := by ring

/-- The same for reflections that are applied from the last to the first. -/
theorem chain_rev {u : Nat → Fin m → ℝ} {w : Nat → Fin m → ℝ} {c : ℝ} {τ : Nat → ℝ} {r : Nat} (hc : 0 ≤ c) (hτ : ∀ t, t < r → 0 ≤ τ t)
    (h : ∀ t, t < r → l2 ((house (u t)).mulVec (w (t + 1)) - w t) ≤ c * l2 (w (t + 1)) + τ t) :
    l2 ((houses u r).mulVec (w r) - w 0) ≤ ((1 + c) ^ r - 1) * l2 (w r) + (1 + c) ^ r * ∑ t ∈ range r, τ t := by
  induction r with
  | zero => simp [houses, l2_zero]
  | succ r ih =>
    have hs := h r (by omega)
    have ih := ih (fun t ht => hτ t (by omega)) (fun t ht => h t (by omega))
    have e1 : (houses u (r + 1)).mulVec (w (r + 1)) = (houses u r).mulVec ((house (u r)).mulVec (w (r + 1))) := by
      rw [houses, Matrix.mulVec_mulVec]
    have h1 := l2_tri ((houses u r).mulVec ((house (u r)).mulVec (w (r + 1)))) ((houses u r).mulVec (w r)) (w 0)
    rw [← Matrix.mulVec_sub, l2_orth (houses_orth u r).1] at h1
    rw [e1]
    have h2 := l2_le_add (w r) ((house (u r)).mulVec (w (r + 1)))
    rw [l2_orth (house_orth _), l2_sub_comm] at h2
    have hp : 1 ≤ (1 + c) ^ r := one_le_pow₀ (by linarith)
    have h3 := hs
    generalize l2 ((house (u r)).mulVec (w (r + 1)) - w r) = e at *
    have h4 : ((1 + c) ^ r - 1) * l2 (w r) ≤ ((1 + c) ^ r - 1) * (l2 (w (r + 1)) + e) := mul_le_mul_of_nonneg_left h2 (by linarith)
    have h5 : (1 + c) ^ r * e ≤ (1 + c) ^ r * (c * l2 (w (r + 1)) + τ r) := mul_le_mul_of_nonneg_left h3 (by linarith)
    have hsum : 0 ≤ ∑ t ∈ range r, τ t := sum_nonneg fun t ht => hτ t (by rw [mem_range] at ht; omega)
    have h6 : (1 + c) ^ r * (∑ t ∈ range r, τ t + τ r) ≤ (1 + c) ^ (r + 1) * (∑ t ∈ range r, τ t + τ r) :=
      mul_le_mul_of_nonneg_right (pow_le_pow_right₀ (by linarith) (by omega)) (add_nonneg hsum (hτ r (by omega)))
    rw [sum_range_succ]
    calc _ ≤ e + (((1 + c) ^ r - 1) * (l2 (w (r + 1)) + e) + (1 + c) ^ r * ∑ t ∈ range r, τ t) := by linarith
      _ = ((1 + c) ^ r - 1) * l2 (w (r + 1)) + (1 + c) ^ r * e + (1 + c) ^ r * ∑ t ∈ range r, τ t := by ring
      _ ≤ ((1 + c) ^ r - 1) * l2 (w (r + 1)) + (1 + c) ^ r * (c * l2 (w (r + 1)) + τ r) + (1 + c) ^ r * ∑ t ∈ range r, τ t := by linarith
      _ = ((1 + c) ^ (r + 1) - 1) * l2 (w (r + 1)) + (1 + c) ^ r * (∑ t ∈ range r, τ t + τ r) := by ring
      _ ≤ _ := by linarith

end LA.RQ
