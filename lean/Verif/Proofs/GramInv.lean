import Verif.Proofs.RndHouse
import Verif.Proofs.Orth
import Verif.Proofs.StdFrob
import Verif.Proofs.Weyl
import Mathlib.LinearAlgebra.Matrix.NonsingularInverse
import Mathlib.LinearAlgebra.Matrix.ToLinearEquiv

/-! # Lower bounds for `AᵀA` and for matrices close to it -/

namespace LA.GramInv
open LA Finset Matrix
open _root_.LA.RQ (l2)
set_option linter.unusedSectionVars false

variable {m n p : Nat}

theorem dot_le (f g : Fin m → ℝ) : f ⬝ᵥ g ≤ l2 f * l2 g :=
  (sum_le_sum fun _ _ => le_abs_self _).trans (RQ.sum_abs_le f g)

theorem dot_self (f : Fin m → ℝ) : f ⬝ᵥ f = l2 f ^ 2 := by
  rw [RQ.l2_sq]
  exact sum_congr rfl fun i _ => (sq _).symm

theorem entry_le_l2 (f : Fin m → ℝ) (i : Fin m) : |f i| ≤ l2 f := by
  refine Real.le_sqrt_of_sq_le ?_
  rw [sq_abs]
  exact single_le_sum (f := fun i => f i ^ 2) (fun _ _ => sq_nonneg _) (mem_univ i)

theorem frob_cols (M : Matrix (Fin m) (Fin n) ℝ) : frob M = l2 (fun j => l2 fun i => M i j) := by
  unfold frob RQ.l2
  rw [sum_comm]
  congr 1
  refine sum_congr rfl fun j _ => ?_
  rw [Real.sq_sqrt (sum_nonneg fun _ _ => sq_nonneg _)]

theorem frob_rows (M : Matrix (Fin m) (Fin n) ℝ) : frob M = l2 (fun i => l2 fun j => M i j) := by
  rw [← frob_transpose, frob_cols]
  rfl

theorem l2_mulVec_le (M : Matrix (Fin m) (Fin n) ℝ) (x : Fin n → ℝ) : l2 (M *ᵥ x) ≤ frob M * l2 x := by
  have h : l2 (M *ᵥ x) ≤ l2 (l2 x • fun i => l2 fun j => M i j) := by
    refine RQ.l2_mono fun i => ?_
    simp only [Pi.smul_apply, smul_eq_mul]
    rw [mul_comm]
    exact (abs_sum_le_sum_abs _ _).trans (RQ.sum_abs_le _ _)
  rwa [RQ.l2_smul, abs_of_nonneg (RQ.l2_nonneg _), ← frob_rows, mul_comm] at h

/-- A matrix that does not shorten vectors too much, multiplied from the left. -/
theorem frob_mul_left_le {Z : Matrix (Fin n) (Fin n) ℝ} {c : ℝ} (hc : 0 ≤ c) (h : ∀ x, l2 (Z *ᵥ x) ≤ c * l2 x) (M : Matrix (Fin n) (Fin p) ℝ) :
    frob (Z * M) ≤ c * frob M := by
  rw [frob_cols, frob_cols, ← abs_of_nonneg hc, ← RQ.l2_smul]
  refine RQ.l2_mono fun j => ?_
  rw [abs_of_nonneg (RQ.l2_nonneg _)]
  exact h fun i => M i j

theorem frob_mul_right_le {Z : Matrix (Fin n) (Fin p) ℝ} {c : ℝ} (hc : 0 ≤ c) (h : ∀ x, l2 (Zᵀ *ᵥ x) ≤ c * l2 x) (M : Matrix (Fin m) (Fin n) ℝ) :
    frob (M * Z) ≤ c * frob M := by
  rw [frob_rows, frob_rows, ← abs_of_nonneg hc, ← RQ.l2_smul]
  refine RQ.l2_mono fun i => ?_
  rw [abs_of_nonneg (RQ.l2_nonneg _)]
  have e : (fun j => (M * Z) i j) = Zᵀ *ᵥ (fun k => M i k) := by
    funext j
    simp only [Matrix.mul_apply, mulVec, dotProduct, transpose_apply]
    exact sum_congr rfl fun k _ => mul_comm _ _
  rw [e]
  exact h _

section
variable {B : Matrix (Fin m) (Fin n) ℝ} {σ : ℝ}

/-- `AᵀA` stretches by the square of the smallest singular value. -/
theorem gram_lower (hσ0 : 0 ≤ σ) (hσ : ∀ y, σ * l2 y ≤ l2 (B *ᵥ y)) (x : Fin n → ℝ) : σ ^ 2 * l2 x ≤ l2 ((Bᵀ * B) *ᵥ x) := by
  have h1 : l2 (B *ᵥ x) ^ 2 = x ⬝ᵥ ((Bᵀ * B) *ᵥ x) := by
    rw [← dot_self, ← mulVec_mulVec, mulVec_transpose, dotProduct_comm x, ← dotProduct_mulVec]
  have h2 := dot_le x ((Bᵀ * B) *ᵥ x)
  have h3 : (σ * l2 x) ^ 2 ≤ l2 (B *ᵥ x) ^ 2 := pow_le_pow_left₀ (mul_nonneg hσ0 (RQ.l2_nonneg _)) (hσ x) 2
  rcases (RQ.l2_nonneg x).eq_or_lt with h | h
  · rw [← h, mul_zero]; exact RQ.l2_nonneg _
  · refine le_of_mul_le_mul_left ?_ h
    rw [h1] at h3
    calc l2 x * (σ ^ 2 * l2 x) = (σ * l2 x) ^ 2 := by ring
      _ ≤ _ := h3.trans h2

theorem near_lower (hσ0 : 0 ≤ σ) (hσ : ∀ y, σ * l2 y ≤ l2 (B *ᵥ y)) {G : Matrix (Fin n) (Fin n) ℝ} (hG : frob (Bᵀ * B - G) ≤ σ ^ 2 / 2)
    (x : Fin n → ℝ) : σ ^ 2 / 2 * l2 x ≤ l2 (G *ᵥ x) := by
  have h1 := gram_lower hσ0 hσ x
  have h2 := RQ.l2_le_add ((Bᵀ * B) *ᵥ x) (G *ᵥ x)
  rw [← sub_mulVec] at h2
  have h3 := l2_mulVec_le (Bᵀ * B - G) x
  have h4 := mul_le_mul_of_nonneg_right hG (RQ.l2_nonneg x)
  linarith

end

section
variable {G : Matrix (Fin n) (Fin n) ℝ} {c : ℝ}

theorem det_ne (hc : 0 < c) (h : ∀ x, c * l2 x ≤ l2 (G *ᵥ x)) : G.det ≠ 0 := by
  intro hd
  obtain ⟨v, hv, hv0⟩ := Matrix.exists_mulVec_eq_zero_iff.mpr hd
  refine hv (funext fun i => ?_)
  have h1 := h v
  rw [hv0, RQ.l2_zero] at h1
  have h2 : l2 v ≤ 0 := nonpos_of_mul_nonpos_right h1 hc
  have h3 := entry_le_l2 v i
  exact abs_nonpos_iff.mp (h3.trans h2)

theorem inv_le (hc : 0 < c) (h : ∀ x, c * l2 x ≤ l2 (G *ᵥ x)) (b : Fin n → ℝ) : l2 (G⁻¹ *ᵥ b) ≤ 1 / c * l2 b := by
  have h1 := h (G⁻¹ *ᵥ b)
  rw [mulVec_mulVec, Matrix.mul_nonsing_inv _ (isUnit_iff_ne_zero.mpr (det_ne hc h)), one_mulVec] at h1
  rw [one_div_mul_eq_div, le_div_iff₀ hc, mul_comm]
  exact h1

theorem inv_row (hc : 0 < c) (h : ∀ x, c * l2 x ≤ l2 (G *ᵥ x)) (i : Fin n) : ∑ j, |G⁻¹ i j| ≤ √n / c := by
  have h1 := inv_le hc h fun j => if 0 ≤ G⁻¹ i j then 1 else -1
  have h2 : l2 (fun j => if 0 ≤ G⁻¹ i j then (1 : ℝ) else -1) = √n := by
    unfold RQ.l2
    congr 1
    rw [sum_congr rfl (g := fun _ => (1 : ℝ)) (fun j _ => by beta_reduce; split <;> norm_num)]
    simp
  have h3 := (le_abs_self _).trans (entry_le_l2 (G⁻¹ *ᵥ fun j => if 0 ≤ G⁻¹ i j then 1 else -1) i)
  have h4 : (G⁻¹ *ᵥ fun j => if 0 ≤ G⁻¹ i j then 1 else -1) i = ∑ j, |G⁻¹ i j| := by
    show ∑ j, G⁻¹ i j * (if 0 ≤ G⁻¹ i j then 1 else -1) = _
    refine sum_congr rfl fun j _ => ?_
    split
    · next hj => rw [mul_one, abs_of_nonneg hj]
    · next hj => rw [abs_of_neg (not_le.mp hj)]; ring
  rw [h4] at h3
  rw [h2, one_div_mul_eq_div] at h1
  exact h3.trans h1

theorem col_eq (G : Matrix (Fin n) (Fin n) ℝ) (j : Fin n) : (fun i => G i j) = G *ᵥ Pi.single j 1 := by
  rw [mulVec_single_one]; rfl

theorem l2_single (j : Fin n) : l2 (Pi.single j (1 : ℝ)) = 1 := by
  have : ∑ i, (Pi.single j (1 : ℝ) : Fin n → ℝ) i ^ 2 = 1 := by
    rw [sum_eq_single j]
    · simp
    · intro i _ hi; simp [hi]
    · simp
  unfold RQ.l2
  rw [this, Real.sqrt_one]

theorem inv_col (hc : 0 < c) (h : ∀ x, c * l2 x ≤ l2 (G *ᵥ x)) (j : Fin n) : l2 (fun i => G⁻¹ i j) ≤ 1 / c := by
  have := inv_le hc h (Pi.single j 1)
  rwa [l2_single, mul_one, ← col_eq] at this

theorem sum_abs_l2 (f : Fin n → ℝ) : ∑ i, |f i| ≤ √n * l2 f := by
  have := RQ.sum_abs_le f (fun _ => 1)
  rw [RQ.l2_const _ zero_le_one, mul_one] at this
  simpa [mul_comm] using this

theorem inv_colsum (hc : 0 < c) (h : ∀ x, c * l2 x ≤ l2 (G *ᵥ x)) (j : Fin n) : ∑ i, |G⁻¹ i j| ≤ √n / c := by
  refine (sum_abs_l2 _).trans ?_
  rw [div_eq_mul_one_div]
  exact mul_le_mul_of_nonneg_left (inv_col hc h j) (Real.sqrt_nonneg _)

theorem inv_frob (hc : 0 < c) (h : ∀ x, c * l2 x ≤ l2 (G *ᵥ x)) : frob G⁻¹ ≤ √n / c := by
  have h1 := frob_mul_left_le (by positivity) (inv_le hc h) (1 : Matrix (Fin n) (Fin n) ℝ)
  rw [Matrix.mul_one, frob_one] at h1
  rw [div_eq_mul_one_div, mul_comm]
  exact h1

end

/-- The Moore-Penrose inverse, multiplied from the right. -/
theorem mul_pinv_le {B : Matrix (Fin m) (Fin n) ℝ} {σ : ℝ} (hσ0 : 0 < σ) (hσ : ∀ y, σ * l2 y ≤ l2 (B *ᵥ y)) (M : Matrix (Fin p) (Fin n) ℝ) :
    frob (M * ((Bᵀ * B)⁻¹ * Bᵀ)) ≤ 1 / σ * frob M := by
  refine frob_mul_right_le (by positivity) (fun x => ?_) M
  have hl := gram_lower hσ0.le hσ
  have hc : 0 < σ ^ 2 := by positivity
  rw [transpose_mul, transpose_transpose, transpose_nonsing_inv, transpose_mul, transpose_transpose, ← mulVec_mulVec]
  set y := (Bᵀ * B)⁻¹ *ᵥ x with hy
  have h1 : l2 (B *ᵥ y) ^ 2 = y ⬝ᵥ x := by
    have : (Bᵀ * B) *ᵥ y = x := by
      rw [hy, mulVec_mulVec, Matrix.mul_nonsing_inv _ (isUnit_iff_ne_zero.mpr (det_ne hc hl)), one_mulVec]
    rw [← dot_self, ← this, ← mulVec_mulVec, mulVec_transpose, dotProduct_comm y, ← dotProduct_mulVec]
  have h2 := dot_le y x
  have h3 := inv_le hc hl x
  rw [← hy] at h3
  have h4 := mul_le_mul_of_nonneg_right h3 (RQ.l2_nonneg x)
  have h5 : l2 (B *ᵥ y) ^ 2 ≤ (1 / σ * l2 x) ^ 2 := by
    rw [h1]
    refine (h2.trans h4).trans (le_of_eq ?_)
    ring
  exact (pow_le_pow_iff_left₀ (RQ.l2_nonneg _) (mul_nonneg (by positivity) (RQ.l2_nonneg _)) two_ne_zero).mp h5

/-- The error of an approximate Moore-Penrose inverse that was computed from a matrix `G` close to `AᵀA`. -/
theorem pinv_err {B : Matrix (Fin m) (Fin n) ℝ} {σ e : ℝ} (hσ0 : 0 < σ) (hσ : ∀ y, σ * l2 y ≤ l2 (B *ᵥ y)) {G Z : Matrix (Fin n) (Fin n) ℝ}
    (hG : frob (Bᵀ * B - G) ≤ e) (he : e ≤ σ ^ 2 / 2) (X : Matrix (Fin n) (Fin m) ℝ) :
    frob (X - (Bᵀ * B)⁻¹ * Bᵀ) ≤ frob (X - Z * Bᵀ) + frob (Z - G⁻¹) * frob B + 2 * e / σ ^ 3 := by
  have hl := gram_lower hσ0.le hσ
  have hn := near_lower hσ0.le hσ (hG.trans he)
  have hc : 0 < σ ^ 2 := by positivity
  have hc2 : 0 < σ ^ 2 / 2 := by positivity
  have e1 : X - (Bᵀ * B)⁻¹ * Bᵀ = (X - Z * Bᵀ) + (Z - G⁻¹) * Bᵀ + G⁻¹ * ((Bᵀ * B - G) * ((Bᵀ * B)⁻¹ * Bᵀ)) := by
    have i1 : (Bᵀ * B) * (Bᵀ * B)⁻¹ = 1 := Matrix.mul_nonsing_inv _ (isUnit_iff_ne_zero.mpr (det_ne hc hl))
    have i2 : G⁻¹ * G = 1 := Matrix.nonsing_inv_mul _ (isUnit_iff_ne_zero.mpr (det_ne hc2 hn))
    have : G⁻¹ * ((Bᵀ * B - G) * ((Bᵀ * B)⁻¹ * Bᵀ)) = G⁻¹ * ((Bᵀ * B) * (Bᵀ * B)⁻¹ * Bᵀ) - G⁻¹ * G * ((Bᵀ * B)⁻¹ * Bᵀ) := by
      rw [Matrix.sub_mul, Matrix.mul_sub, Matrix.mul_assoc (Bᵀ * B), Matrix.mul_assoc G⁻¹ G]
    rw [this, i1, i2, Matrix.one_mul, Matrix.one_mul, Matrix.sub_mul]
    abel
  rw [e1]
  have a1 := frob_add_le ((X - Z * Bᵀ) + (Z - G⁻¹) * Bᵀ) (G⁻¹ * ((Bᵀ * B - G) * ((Bᵀ * B)⁻¹ * Bᵀ)))
  have a2 := frob_add_le (X - Z * Bᵀ) ((Z - G⁻¹) * Bᵀ)
  have a3 := frob_mul_le (Z - G⁻¹) Bᵀ
  rw [frob_transpose] at a3
  have a4 := frob_mul_left_le (by positivity) (inv_le hc2 hn) ((Bᵀ * B - G) * ((Bᵀ * B)⁻¹ * Bᵀ))
  have a5 := mul_pinv_le hσ0 hσ (Bᵀ * B - G)
  have a6 : 1 / (σ ^ 2 / 2) * frob ((Bᵀ * B - G) * ((Bᵀ * B)⁻¹ * Bᵀ)) ≤ 1 / (σ ^ 2 / 2) * (1 / σ * e) :=
    mul_le_mul_of_nonneg_left (a5.trans (mul_le_mul_of_nonneg_left hG (by positivity))) (by positivity)
  have a7 : 1 / (σ ^ 2 / 2) * (1 / σ * e) = 2 * e / σ ^ 3 := by field_simp
  linarith

/-- A least-squares solution satisfies the normal equations. -/
theorem normal_eq {B : Matrix (Fin m) (Fin n) ℝ} {b : Fin m → ℝ} {z : Fin n → ℝ} (hz : ∀ y, l2 (b - B *ᵥ z) ≤ l2 (b - B *ᵥ y)) :
    Bᵀ *ᵥ b = (Bᵀ * B) *ᵥ z := by
  obtain ⟨r, hr⟩ : ∃ r, r = b - B *ᵥ z := ⟨_, rfl⟩
  rw [← hr] at hz
  have h0 : Bᵀ *ᵥ r = 0 := by
    obtain ⟨g, hg⟩ : ∃ g, g = Bᵀ *ᵥ r := ⟨_, rfl⟩
    rw [← hg]
    have key : ∀ t : ℝ, 2 * t * l2 g ^ 2 ≤ t ^ 2 * l2 (B *ᵥ g) ^ 2 := by
      intro t
      have h1 := hz (z + t • g)
      have e : b - B *ᵥ (z + t • g) = r - t • (B *ᵥ g) := by
        rw [hr, mulVec_add, mulVec_smul]; abel
      rw [e] at h1
      have h2 := pow_le_pow_left₀ (RQ.l2_nonneg _) h1 2
      rw [← dot_self (r - t • (B *ᵥ g)), sub_dotProduct, dotProduct_sub, dotProduct_sub, dot_self r, dotProduct_smul, smul_dotProduct,
        smul_dotProduct, dotProduct_smul, dot_self (B *ᵥ g), dotProduct_comm (B *ᵥ g) r] at h2
      have h3 : r ⬝ᵥ (B *ᵥ g) = l2 g ^ 2 := by
        rw [dotProduct_mulVec, ← mulVec_transpose, ← hg, dot_self]
      rw [h3] at h2
      simp only [smul_eq_mul] at h2
      linarith
    have hg0 : l2 g ^ 2 = 0 := by
      set a := l2 g ^ 2 with ha
      set c := l2 (B *ᵥ g) ^ 2 with hc
      have ha0 : 0 ≤ a := sq_nonneg _
      have hc0 : 0 ≤ c := sq_nonneg _
      have h2 : 0 < c + 1 := by linarith
      by_contra hne
      have hapos : 0 < a := lt_of_le_of_ne ha0 (Ne.symm hne)
      have h6 := key (a / (c + 1))
      have h7 : 2 * (a / (c + 1)) * a * (c + 1) ^ 2 ≤ (a / (c + 1)) ^ 2 * c * (c + 1) ^ 2 := mul_le_mul_of_nonneg_right h6 (sq_nonneg _)
      have h8 : 2 * (a / (c + 1)) * a * (c + 1) ^ 2 = a ^ 2 * (2 * (c + 1)) := by field_simp
      have h9 : (a / (c + 1)) ^ 2 * c * (c + 1) ^ 2 = a ^ 2 * c := by field_simp
      rw [h8, h9] at h7
      have := le_of_mul_le_mul_left h7 (by positivity)
      linarith
    funext i
    have := entry_le_l2 g i
    rw [pow_eq_zero_iff two_ne_zero] at hg0
    rw [hg0] at this
    exact abs_nonpos_iff.mp this
  have h1 : b = r + B *ᵥ z := by rw [hr]; abel
  rw [h1, mulVec_add, h0, zero_add, mulVec_mulVec]

end LA.GramInv
