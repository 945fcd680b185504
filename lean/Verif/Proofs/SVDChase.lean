import Verif.Proofs.Wilk

/-! # The chase of `SVD::new` as a QR step with Wilkinson's shift: the algebra -/

set_option linter.unusedSectionVars false

namespace LA
namespace SVD

/-- One step of the chase keeps the bulge proportional. -/
theorem chase_alg {S E s σ c1 n1 c2 n2 f' s' : ℝ} (h1 : c1 ^ 2 + n1 ^ 2 = 1) (hn1 : n1 ≠ 0)
    (hJ : c1 * S * E = n1 * (S ^ 2 - σ)) (h2 : c2 ^ 2 + n2 ^ 2 = 1)
    (h6 : -n2 * (c1 * S + n1 * E) + c2 * (n1 * s) = 0)
    (hf : f' = c2 * (c1 * E - n1 * S) + n2 * (c1 * s)) (hs : s' = -n2 * (c1 * E - n1 * S) + c2 * (c1 * s)) :
    f' * s' = n2 * (c2 * (s ^ 2 - σ) - n2 * (E * s)) ∧ f' * s' * c2 = n2 * (s' ^ 2 - σ) := by
  obtain ⟨F, hF⟩ : ∃ F, F = c1 * S + n1 * E := ⟨_, rfl⟩
  obtain ⟨E2, hE2⟩ : ∃ E2, E2 = c1 * E - n1 * S := ⟨_, rfl⟩
  obtain ⟨G, hG⟩ : ∃ G, G = n1 * s := ⟨_, rfl⟩
  rw [← hF, ← hG] at h6
  rw [← hE2] at hf hs
  have hcG : c2 * G = n2 * F := by linarith
  have hE : n1 * F + c1 * E2 = E := by rw [hF, hE2]; linear_combination E * h1
  have hS : c1 * F - n1 * E2 = S := by rw [hF, hE2]; linear_combination S * h1
  have hA : n1 * S ^ 2 - c1 * S * E = -(E2 * S) := by rw [hE2]; ring
  have hσ : n1 * σ = -(E2 * S) := by linear_combination hA + hJ
  have hss : s = G / n1 := by rw [hG]; field_simp
  have k1 : f' * s' = n2 * (c2 * (s ^ 2 - σ) - n2 * (E * s)) := by
    refine mul_left_cancel₀ hn1 ?_
    have e1 : n1 * s = G := hG.symm
    have e2 : n1 * (f' * s') = c2 * n2 * (c1 * (c1 * (s * G)) - n1 * E2 ^ 2) + (c2 ^ 2 - n2 ^ 2) * c1 * G * E2 := by
      rw [hf, hs, ← e1]; ring
    rw [e2]
    have e3 : s * G * n1 ^ 2 = G * G * n1 := by rw [← e1]; ring
    have e4 : n1 * (n2 * (c2 * (s ^ 2 - σ) - n2 * (E * s))) = n2 * c2 * (s * G - n1 * σ) - n2 ^ 2 * E * G := by
      rw [← e1]; ring
    rw [e4, hσ]
    have e5 : s * G * c1 ^ 2 = s * G - G * G * n1 := by rw [← e3]; linear_combination s * G * h1
    linear_combination c2 * n2 * e5 + (-n2 * n1 * G) * hcG + c1 * E2 * c2 * hcG - n2 ^ 2 * G * hE + c2 * n2 * E2 * hS
  refine ⟨k1, ?_⟩
  refine mul_left_cancel₀ hn1 ?_
  have e1 : n1 * s = G := hG.symm
  rw [k1]
  obtain ⟨w, hw⟩ : ∃ w, F = w * n1 := ⟨F / n1, by field_simp⟩
  have e6 : c2 * s = n2 * w := by
    refine mul_left_cancel₀ hn1 ?_
    linear_combination hcG + c2 * e1 + n2 * hw
  have e7 : s' = -n2 * E2 + c1 * (n2 * w) := by rw [hs, ← e6]; ring
  have e8 : n2 * (c2 * (s ^ 2 - σ) - n2 * (E * s)) * c2 =
      n2 * ((c2 * s) ^ 2 - c2 ^ 2 * σ - n2 * E * (c2 * s)) := by ring
  have e9 : c2 ^ 2 = 1 - n2 ^ 2 := by linarith
  rw [e8, e7, e6, e9, ← hE]
  rw [← hS, hw] at hσ
  rw [hw]
  linear_combination n2 ^ 3 * hσ - n1 * n2 ^ 3 * w ^ 2 * h1

theorem cos_le {c s : ℝ} (h : c ^ 2 + s ^ 2 = 1) : |c| ≤ 1 :=
  abs_le.2 ⟨by nlinarith [sq_nonneg s], by nlinarith [sq_nonneg s]⟩

theorem dir_norm {t ρ c2 n2 p1 b : ℝ} (ht : 0 < t) (hρ : ρ ≠ 0) (h : c2 ^ 2 + n2 ^ 2 = 1) (h1 : t * c2 = ρ * p1)
    (h2 : t * n2 = ρ * b) : ∃ r ε, 0 < r ∧ ε ^ 2 = 1 ∧ r ^ 2 = p1 ^ 2 + b ^ 2 ∧ r * c2 = ε * p1 ∧ r * n2 = ε * b ∧
      t = |ρ| * r := by
  have hp : 0 < |ρ| := abs_pos.2 hρ
  have hs : |ρ| ^ 2 = ρ ^ 2 := sq_abs ρ
  refine ⟨t / |ρ|, ρ / |ρ|, by positivity, ?_, ?_, ?_, ?_, ?_⟩
  · rw [div_pow, hs, div_self (pow_ne_zero 2 hρ)]
  · rw [div_pow, hs, div_eq_iff (pow_ne_zero 2 hρ)]
    linear_combination (-t ^ 2) * h + (t * c2 + ρ * p1) * h1 + (t * n2 + ρ * b) * h2
  · rw [div_mul_eq_mul_div, div_mul_eq_mul_div, h1]
  · rw [div_mul_eq_mul_div, div_mul_eq_mul_div, h2]
  · field_simp

/-- State of the chase after its step `j`; `s`, `e` are the entries before the chase. -/
def Ch (s e : Nat → ℝ) (σ : ℝ) (k j : Nat) (s' e' : Nat → ℝ) (f g : ℝ) : Prop :=
  ∃ c sn κ s2 κ2 r ε p1, c ^ 2 + sn ^ 2 = 1 ∧ sn ≠ 0 ∧ 0 < r ∧ ε ^ 2 = 1 ∧
    p1 = κ * (s j ^ 2 + e j ^ 2 - σ) - s2 * κ2 * (e (j - 1) * s j) ∧ r ^ 2 = p1 ^ 2 + (e j * s (j + 1)) ^ 2 ∧
    r * c = ε * p1 ∧ r * sn = ε * (e j * s (j + 1)) ∧ κ ^ 2 + s2 ^ 2 = 1 ∧ |κ2| ≤ 1 ∧
    e' (j + 1) = c * e (j + 1) ∧ g = sn * e (j + 1) ∧
    f * s' (j + 1) = sn * (c * (s (j + 1) ^ 2 - σ) - sn * κ * (e j * s (j + 1))) ∧
    f * s' (j + 1) * c = sn * (s' (j + 1) ^ 2 - σ) ∧ (j = k → s2 = 0) ∧
    (k < j → |e' (j - 1) * s' j| = |s2 * r|)

theorem ch_first {s e : Nat → ℝ} {σ f g sc : ℝ} {k : Nat} (hsc : 0 < sc) (hf : f * sc = s k ^ 2 - σ) (hg : g * sc = s k * e k)
    (hs : s k ≠ 0) (he : e k ≠ 0) {c1 n1 t1 c2 n2 t2 f' g' : ℝ} {s' e' : Nat → ℝ}
    (h1 : c1 ^ 2 + n1 ^ 2 = 1) (h2 : c1 * f + n1 * g = t1) (h3 : -n1 * f + c1 * g = 0)
    (h4 : c2 ^ 2 + n2 ^ 2 = 1) (h5 : c2 * (c1 * s k + n1 * e k) + n2 * (n1 * s (k + 1)) = t2)
    (h6 : -n2 * (c1 * s k + n1 * e k) + c2 * (n1 * s (k + 1)) = 0) (hn2 : n2 ≠ 0)
    (hf' : f' = c2 * (c1 * e k - n1 * s k) + n2 * (c1 * s (k + 1))) (hg' : g' = n2 * e (k + 1))
    (s2 : s' (k + 1) = -n2 * (c1 * e k - n1 * s k) + c2 * (c1 * s (k + 1)))
    (e1 : e' (k + 1) = c2 * e (k + 1)) (ht1 : 0 < t1) (ht2 : 0 < t2) : Ch s e σ k k s' e' f' g' := by
  have f1 : t1 * c1 = f := by rw [← h2]; linear_combination f * h1 + n1 * h3
  have g1 : t1 * n1 = g := by rw [← h2]; linear_combination g * h1 - c1 * h3
  have F2 : t2 * c2 = c1 * s k + n1 * e k := by rw [← h5]; linear_combination (c1 * s k + n1 * e k) * h4 + n2 * h6
  have G2 : t2 * n2 = n1 * s (k + 1) := by rw [← h5]; linear_combination (n1 * s (k + 1)) * h4 - c2 * h6
  have hg0 : g ≠ 0 := fun h => by
    rw [h, zero_mul] at hg; exact mul_ne_zero hs he hg.symm
  have hn1 : n1 ≠ 0 := fun h => hg0 (by rw [← g1, h, mul_zero])
  have hJ : c1 * s k * e k = n1 * (s k ^ 2 - σ) := by
    refine mul_left_cancel₀ (mul_pos ht1 hsc).ne' ?_
    linear_combination sc * s k * e k * f1 - sc * (s k ^ 2 - σ) * g1 + s k * e k * hf - (s k ^ 2 - σ) * hg
  obtain ⟨a1, a2⟩ := chase_alg (f' := f') h1 hn1 hJ h4 h6 hf' s2
  obtain ⟨r, ε, r1, r2, r3, r4, r5, -⟩ := dir_norm (t := t1 * t2 * sc) (ρ := s k) (p1 := s k ^ 2 + e k ^ 2 - σ)
    (b := e k * s (k + 1)) (by positivity) hs h4
    (by linear_combination t1 * sc * F2 + sc * s k * f1 + sc * e k * g1 + s k * hf + e k * hg)
    (by linear_combination t1 * sc * G2 + sc * s (k + 1) * g1 + s (k + 1) * hg)
  refine ⟨c2, n2, 1, 0, 0, r, ε, s k ^ 2 + e k ^ 2 - σ, h4, hn2, r1, r2, by ring, r3, r4, r5, by norm_num, by norm_num, e1,
    hg', ?_, a2, fun _ => rfl, fun h => absurd h (lt_irrefl _)⟩
  rw [a1, mul_one]

theorem ch_next {s e : Nat → ℝ} {σ f g : ℝ} {k j : Nat} (hkj : k ≤ j) {s0 e0 : Nat → ℝ} (hC : Ch s e σ k j s0 e0 f g)
    (hej : e (j + 1) ≠ 0) (hsj : s0 (j + 1 + 1) = s (j + 1 + 1)) (hee : e0 (j + 1 + 1) = e (j + 1 + 1))
    {c1 n1 t1 c2 n2 t2 f' g' : ℝ} {s' e' : Nat → ℝ}
    (h1 : c1 ^ 2 + n1 ^ 2 = 1) (h2 : c1 * f + n1 * g = t1) (h3 : -n1 * f + c1 * g = 0)
    (h4 : c2 ^ 2 + n2 ^ 2 = 1) (h5 : c2 * (c1 * s0 (j + 1) + n1 * e0 (j + 1)) + n2 * (n1 * s0 (j + 1 + 1)) = t2)
    (h6 : -n2 * (c1 * s0 (j + 1) + n1 * e0 (j + 1)) + c2 * (n1 * s0 (j + 1 + 1)) = 0) (hn2 : n2 ≠ 0)
    (hf' : f' = c2 * (c1 * e0 (j + 1) - n1 * s0 (j + 1)) + n2 * (c1 * s0 (j + 1 + 1))) (hg' : g' = n2 * e0 (j + 1 + 1))
    (q1 : s' (j + 1) = t2) (q2 : s' (j + 1 + 1) = -n2 * (c1 * e0 (j + 1) - n1 * s0 (j + 1)) + c2 * (c1 * s0 (j + 1 + 1)))
    (q3 : e' (j + 1 + 1) = c2 * e0 (j + 1 + 1)) (q4 : e' j = t1) (ht1 : 0 < t1) (ht2 : 0 < t2) :
    Ch s e σ k (j + 1) s' e' f' g' := by
  obtain ⟨c, sn, κ, s2, κ2, r, ε, p1, d1, d2, d3, d4, d5, d6, d7, d8, d9, d10, d11, d12, d13, d14, d15, d16⟩ := hC
  have f1 : t1 * c1 = f := by rw [← h2]; linear_combination f * h1 + n1 * h3
  have g1 : t1 * n1 = g := by rw [← h2]; linear_combination g * h1 - c1 * h3
  rw [hsj] at h5 h6 hf' q2
  rw [hee] at hg' q3
  have F2 : t2 * c2 = c1 * s0 (j + 1) + n1 * e0 (j + 1) := by
    rw [← h5]; linear_combination (c1 * s0 (j + 1) + n1 * e0 (j + 1)) * h4 + n2 * h6
  have G2 : t2 * n2 = n1 * s (j + 1 + 1) := by rw [← h5]; linear_combination (n1 * s (j + 1 + 1)) * h4 - c2 * h6
  have hg0 : g ≠ 0 := by rw [d12]; exact mul_ne_zero d2 hej
  have hn1 : n1 ≠ 0 := fun h => hg0 (by rw [← g1, h, mul_zero])
  have hJ : c1 * s0 (j + 1) * e0 (j + 1) = n1 * (s0 (j + 1) ^ 2 - σ) := by
    refine mul_left_cancel₀ ht1.ne' ?_
    rw [d11]
    linear_combination s0 (j + 1) * c * e (j + 1) * f1 - (s0 (j + 1) ^ 2 - σ) * g1 - (s0 (j + 1) ^ 2 - σ) * d12 + e (j + 1) * d14
  obtain ⟨a1, a2⟩ := chase_alg (f' := f') h1 hn1 hJ h4 h6 hf' q2
  obtain ⟨r', ε', r1, r2, r3, r4, r5, r6⟩ := dir_norm (t := t1 * t2) (ρ := sn)
    (p1 := c * (s (j + 1) ^ 2 + e (j + 1) ^ 2 - σ) - sn * κ * (e j * s (j + 1)))
    (b := e (j + 1) * s (j + 1 + 1)) (by positivity) d2 h4
    (by
      rw [d11] at F2
      linear_combination t1 * F2 + s0 (j + 1) * f1 + c * e (j + 1) * g1 + c * e (j + 1) * d12 + d13)
    (by linear_combination t1 * G2 + s (j + 1 + 1) * g1 + s (j + 1 + 1) * d12)
  have hκ : |κ| ≤ 1 := cos_le d9
  have z1 : f' * s' (j + 1 + 1) = n2 * (c2 * (s (j + 1 + 1) ^ 2 - σ) - n2 * c * (e (j + 1) * s (j + 1 + 1))) := by
    rw [a1, d11]
    ring
  have z2 : |e' (j + 1 - 1) * s' (j + 1)| = |sn * r'| := by
    rw [Nat.add_sub_cancel, q4, q1, r6, abs_mul, abs_mul, abs_abs]
  have z3 : j + 1 = k → sn = 0 := fun h => by omega
  exact ⟨c2, n2, c, sn, κ, r', ε', c * (s (j + 1) ^ 2 + e (j + 1) ^ 2 - σ) - sn * κ * (e j * s (j + 1)), h4, hn2, r1, r2,
    rfl, r3, r4, r5, d1, hκ, q3, hg', z1, a2, z3, fun _ => z2⟩

/-- What a complete chase achieves: the last off-diagonal entry of `B·Bᵀ` shrinks. -/
def Conv (k p : Nat) (s e s' e' : Nat → ℝ) : Prop :=
  (k + 2 = p → e' (p - 2) * s' (p - 1) = 0) ∧
  (k + 2 < p → (e' (p - 2) * s' (p - 1)) ^ 2 * |e' (p - 3) * s' (p - 2)| ≤
    4 / 5 * ((e (p - 2) * s (p - 1)) ^ 2 * |e (p - 3) * s (p - 2)|))

theorem ch_last {s e : Nat → ℝ} {σ f g : ℝ} {k j : Nat} (hkj : k ≤ j) {s0 e0 : Nat → ℝ} (hC : Ch s e σ k j s0 e0 f g)
    (hb : e j * s (j + 1) ≠ 0)
    (hD : (s (j + 1) ^ 2 - σ) * (s j ^ 2 + e j ^ 2 - σ) = (e j * s (j + 1)) ^ 2)
    (hDb : |s (j + 1) ^ 2 - σ| ≤ |e j * s (j + 1)|) {e' : Nat → ℝ} (he' : e' j = f) (he2 : ∀ i, i ≠ j → e' i = e0 i) :
    Conv k (j + 2) s e s0 e' := by
  obtain ⟨c, sn, κ, s2, κ2, r, ε, p1, d1, d2, d3, d4, d5, d6, d7, d8, d9, d10, d11, d12, d13, d14, d15, d16⟩ := hC
  obtain ⟨w1, -, w3⟩ := wilk hb hD hDb d3 d6 d5 d10 d9 rfl
  have hfs : (f * s0 (j + 1)) ^ 2 =
      (e j * s (j + 1) / r * (p1 / r * (s (j + 1) ^ 2 - σ) - e j * s (j + 1) / r * κ * (e j * s (j + 1)))) ^ 2 := by
    have hc : c = ε * p1 / r := by field_simp; linarith
    have hsn : sn = ε * (e j * s (j + 1)) / r := by field_simp; linarith
    rw [d13, hc, hsn]
    have h4 : ε ^ 4 = 1 := by rw [show ε ^ 4 = (ε ^ 2) ^ 2 by ring, d4]; norm_num
    field_simp
    linear_combination (e j * s (j + 1)) ^ 2 * (p1 * (s (j + 1) ^ 2 - σ) - e j ^ 2 * s (j + 1) ^ 2 * κ) ^ 2 * h4
  constructor
  · intro h
    have hjk : j = k := by omega
    have h0 := d15 hjk
    show e' j * s0 (j + 1) = 0
    rw [he', ← pow_eq_zero_iff (two_ne_zero), hfs, w1, h0]
    ring
  · intro h
    show (e' j * s0 (j + 1)) ^ 2 * |e' (j - 1) * s0 j| ≤ _
    rw [he', he2 (j - 1) (by omega), d16 (by omega), hfs]
    exact w3

end SVD
end LA
