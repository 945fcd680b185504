import Mathlib.Analysis.SpecialFunctions.Pow.Real

/-! # The contraction of a QL step with Wilkinson's shift -/

namespace LA

theorem cubic_bound {u : ℝ} (h : 0 ≤ u) : u * (1 - u ^ 2) ≤ 2 / 5 := by
  nlinarith [mul_nonneg (show (0 : ℝ) ≤ u + 1.16 by linarith) (sq_nonneg (u - 0.58))]

theorem wilk {b γ D D1 p1 r c2 s2 κ p : ℝ} (hb : b ≠ 0) (hD : D * D1 = b ^ 2) (hDb : |D| ≤ |b|) (hr : 0 < r)
    (hr2 : r ^ 2 = p1 ^ 2 + b ^ 2) (hp1 : p1 = c2 * D1 - s2 * κ * γ) (hκ : |κ| ≤ 1) (hcs : c2 ^ 2 + s2 ^ 2 = 1)
    (hp : p = p1 / r * D - b / r * c2 * b) :
    p = -(b / r) * s2 * κ * γ * b / D1 ∧ |b / r * p| ^ 3 ≤ 2 * (b ^ 2 * |γ|) ∧
      (b / r * p) ^ 2 * |s2 * r| ≤ 4 / 5 * (b ^ 2 * |γ|) := by
  have hD1 : D1 ≠ 0 := by
    intro h; rw [h, mul_zero] at hD
    exact hb (pow_eq_zero_iff (by norm_num) |>.1 hD.symm)
  obtain ⟨q, hq⟩ : ∃ q, q = s2 * κ * γ := ⟨_, rfl⟩
  have hp1' : p1 = c2 * D1 - q := by rw [hp1, hq]
  have hpr : p = -(D * q) / r := by
    rw [hp, hp1']
    field_simp
    linear_combination c2 * hD
  refine ⟨?_, ?_⟩
  · rw [hpr, hq]
    have : D = b ^ 2 / D1 := by field_simp; exact hD
    rw [this]
    field_simp
  have hB : 0 < |b| := abs_pos.2 hb
  have hs2 : |s2| ≤ 1 := abs_le.2 ⟨by nlinarith [sq_nonneg c2], by nlinarith [sq_nonneg c2]⟩
  have hc2 : |c2| ≤ 1 := abs_le.2 ⟨by nlinarith [sq_nonneg s2], by nlinarith [sq_nonneg s2]⟩
  have hQ : |q| ≤ |s2| * |γ| := by
    rw [hq, abs_mul, abs_mul]
    have := mul_le_mul_of_nonneg_left hκ (mul_nonneg (abs_nonneg s2) (abs_nonneg γ))
    nlinarith
  have hTD : |D| * |D1| = |b| ^ 2 := by rw [← abs_mul, hD, abs_pow]
  have hQ2 : |q| ≤ |c2| * |D1| + |p1| := by
    have : q = c2 * D1 - p1 := by rw [hp1']; ring
    rw [this, ← abs_mul]
    exact abs_sub _ _
  have hsq : s2 ^ 2 = |s2| ^ 2 := (sq_abs _).symm
  have hcq : c2 ^ 2 = |c2| ^ 2 := (sq_abs _).symm
  have hr3 : r ^ 2 = |p1| ^ 2 + |b| ^ 2 := by rw [sq_abs, sq_abs]; exact hr2
  have he : |b / r * p| = |b| * |D| * |q| / r ^ 2 := by
    rw [hpr, abs_mul, abs_div, abs_div, abs_neg, abs_mul, abs_of_pos hr]
    field_simp
  have hb2 : b ^ 2 = |b| ^ 2 := (sq_abs _).symm
  have hcs' : |c2| ^ 2 + |s2| ^ 2 = 1 := by rw [sq_abs, sq_abs]; exact hcs
  rw [← sq_abs (b / r * p), he, abs_mul, abs_of_pos hr, hb2]
  clear hb hD hr2 hp1 hκ hcs hp hD1 hq hp1' hpr hsq hcq he hb2
  generalize hB' : |b| = B at *
  generalize hT' : |D| = T at *
  have hT : 0 ≤ T := hT' ▸ abs_nonneg D
  generalize hQ' : |q| = Q at *
  have hQn : 0 ≤ Q := hQ' ▸ abs_nonneg q
  generalize hS' : |s2| = S at *
  have hS : 0 ≤ S := hS' ▸ abs_nonneg s2
  generalize hC' : |c2| = C at *
  have hC : 0 ≤ C := hC' ▸ abs_nonneg c2
  generalize hG' : |γ| = Gm at *
  have hG : 0 ≤ Gm := hG' ▸ abs_nonneg γ
  generalize hP' : |p1| = P at *
  have hP : 0 ≤ P := hP' ▸ abs_nonneg p1
  generalize hE' : |D1| = E at *
  have hE : 0 ≤ E := hE' ▸ abs_nonneg D1
  clear hB' hT' hQ' hS' hC' hG' hP' hE'
  have hBr : B ≤ r := by
    by_contra h; push Not at h; nlinarith [sq_nonneg P]
  have hTQ : T * Q ≤ B ^ 2 * C + T * P := by
    have := mul_le_mul_of_nonneg_left hQ2 hT
    nlinarith
  have hr4 : 0 < r ^ 2 := by positivity
  constructor
  · rw [div_pow, div_le_iff₀ (by positivity)]
    have h1 : T * Q ≤ B * (B + P) := by
      nlinarith [mul_le_mul_of_nonneg_left hc2 (sq_nonneg B), mul_le_mul_of_nonneg_right hDb hP]
    have h2 : (T * Q) ^ 2 ≤ 2 * B ^ 2 * r ^ 2 := by
      have h3 := pow_le_pow_left₀ (mul_nonneg hT hQn) h1 2
      rw [hr3]
      nlinarith [mul_nonneg (sq_nonneg B) (sq_nonneg (B - P))]
    have h4 : B * T ≤ r ^ 2 := by nlinarith
    have h5 : B ^ 2 ≤ r ^ 2 := by nlinarith [sq_nonneg P]
    have h6 : B * T * (T * Q) ^ 2 ≤ 2 * (r ^ 2) ^ 3 := by
      calc B * T * (T * Q) ^ 2 ≤ r ^ 2 * (2 * B ^ 2 * r ^ 2) := mul_le_mul h4 h2 (sq_nonneg _) (by positivity)
        _ = 2 * r ^ 2 * r ^ 2 * B ^ 2 := by ring
        _ ≤ 2 * r ^ 2 * r ^ 2 * r ^ 2 := mul_le_mul_of_nonneg_left h5 (by positivity)
        _ = _ := by ring
    have h7 : Q ≤ Gm := by nlinarith
    calc (B * T * Q) ^ 3 = B ^ 2 * (B * T * (T * Q) ^ 2) * Q := by ring
      _ ≤ B ^ 2 * (2 * (r ^ 2) ^ 3) * Gm := by
          refine mul_le_mul (mul_le_mul_of_nonneg_left h6 (sq_nonneg B)) h7 hQn (by positivity)
      _ = _ := by ring
  · have h1 : T ^ 2 * Q * S ^ 2 ≤ 4 / 5 * r ^ 3 := by
      have e1 : T ^ 2 * Q * S ^ 2 ≤ T * (B ^ 2 * C + T * P) * S ^ 2 := by
        have := mul_le_mul_of_nonneg_left hTQ (mul_nonneg hT (sq_nonneg S))
        nlinarith
      have e2 : C * (1 - C ^ 2) ≤ 2 / 5 := cubic_bound hC
      have e3 : P / r * (1 - (P / r) ^ 2) ≤ 2 / 5 := cubic_bound (by positivity)
      have e4 : P * B ^ 2 ≤ 2 / 5 * r ^ 3 := by
        have h8 : P / r * (1 - (P / r) ^ 2) * r ^ 3 = P * (r ^ 2 - P ^ 2) := by field_simp
        have h9 : r ^ 2 - P ^ 2 = B ^ 2 := by rw [hr3]; ring
        rw [h9] at h8
        rw [← h8]
        exact mul_le_mul_of_nonneg_right e3 (by positivity)
      have e5 : S ^ 2 = 1 - C ^ 2 := by linarith
      have e6 : T * B ^ 2 * (C * S ^ 2) ≤ r ^ 3 * (2 / 5) := by
        rw [e5]
        refine mul_le_mul ?_ e2 (mul_nonneg hC (by rw [← e5]; positivity)) (by positivity)
        calc T * B ^ 2 ≤ B * B ^ 2 := mul_le_mul_of_nonneg_right hDb (sq_nonneg B)
          _ = B ^ 3 := by ring
          _ ≤ r ^ 3 := pow_le_pow_left₀ hB.le hBr 3
      have e7 : T ^ 2 * P * S ^ 2 ≤ B ^ 2 * P * 1 := by
        refine mul_le_mul (mul_le_mul_of_nonneg_right (pow_le_pow_left₀ hT hDb 2) hP) (by nlinarith) (sq_nonneg S) (by positivity)
      calc _ ≤ _ := e1
        _ = T * B ^ 2 * (C * S ^ 2) + T ^ 2 * P * S ^ 2 := by ring
        _ ≤ r ^ 3 * (2 / 5) + B ^ 2 * P * 1 := add_le_add e6 e7
        _ ≤ _ := by linarith
    have e8 : (B * T * Q / r ^ 2) ^ 2 * (S * r) = B ^ 2 * T ^ 2 * Q * (Q * S) / r ^ 3 := by field_simp
    rw [e8, div_le_iff₀ (by positivity)]
    calc B ^ 2 * T ^ 2 * Q * (Q * S) ≤ B ^ 2 * T ^ 2 * Q * (S * Gm * S) := by
          refine mul_le_mul_of_nonneg_left (mul_le_mul_of_nonneg_right hQ hS) (by positivity)
      _ = B ^ 2 * Gm * (T ^ 2 * Q * S ^ 2) := by ring
      _ ≤ B ^ 2 * Gm * (4 / 5 * r ^ 3) := mul_le_mul_of_nonneg_left h1 (by positivity)
      _ = _ := by ring

end LA
