import Verif.Props.Accuracy
import Mathlib.LinearAlgebra.Matrix.NonsingularInverse

/-!
# C91: how far computed solutions are from the exact ones, and when `solve` gives up

C63, C64 and C74 bound residuals.  Here they are turned into bounds for the distance to the exact solution, and into a statement about
the matrices for which `solve` and `inverse` return `None`: those close to a singular matrix.
-/

namespace LA.Props
open LA Finset Fp
set_option linter.unusedSectionVars false

variable {α : Type} [Zero α] [One α] [Add α] [Sub α] [Neg α] [Mul α] [FloatOps α] [Fp α] {n p : Nat}

/-- The bound of C62 for row `i` of `L`, column `c` of `U`. -/
noncomputable def factorErr (L U : Matrix (Fin n) (Fin n) α) (i c : Fin n) : ℝ :=
  γ α (n + 1) * (∑ k, |val (L i k)| * |val (U k c)|) + θ α n + (1 + u α) * η α * ∑ k, |val (U k c)|

/-- The bound of C63 for row `i` of `L`, column `j` of the right-hand side. -/
noncomputable def solveErr (L U : Matrix (Fin n) (Fin n) α) (X : Matrix (Fin n) (Fin p) α) (i : Fin n) (j : Fin p) : ℝ :=
  γ α (3 * n + 1) * (∑ k, |val (L i k)| * ∑ c, |val (U k c)| * |val (X c j)|) +
    η α * (1 + u α) ^ (2 * n) * (n + (∑ k, |val (L i k)| * (n + |val (U k k)|)) + ∑ c, (n + ∑ k, |val (U k c)|) * |val (X c j)|)

/-- The bound of C64 for row `i`, column `j` of the right-hand side. -/
noncomputable def cholErr (L : Matrix (Fin n) (Fin n) α) (X : Matrix (Fin n) (Fin p) α) (i : Fin n) (j : Fin p) : ℝ :=
  γ α (3 * n + 2) * (∑ k, |val (L i k)| * ∑ c, |val (L c k)| * |val (X c j)|) +
    η α * (1 + u α) ^ (2 * n) * ((n + |val (L i i)|) + (∑ k, |val (L i k)| * (n + |val (L k k)|)) +
      ∑ c, (n + |val (L (min i c) (min i c))|) * |val (X c j)|)

/-- From a residual to an error: `x - A⁻¹ b = A⁻¹ (A x - b)`. -/
theorem forward {A : Matrix (Fin n) (Fin n) ℝ} (hA : IsUnit A) (B X : Matrix (Fin n) (Fin p) ℝ) {r : Fin n → Fin p → ℝ}
    (h : ∀ i j, |B i j - ∑ c, A i c * X c j| ≤ r i j) (i : Fin n) (j : Fin p) : |X i j - (A⁻¹ * B) i j| ≤ ∑ k, |A⁻¹ i k| * r k j := by
  have h1 : X - A⁻¹ * B = A⁻¹ * (A * X - B) := by
    rw [Matrix.mul_sub, ← Matrix.mul_assoc, Matrix.nonsing_inv_mul _ ((Matrix.isUnit_iff_isUnit_det _).1 hA), Matrix.one_mul]
  have h2 : X i j - (A⁻¹ * B) i j = (A⁻¹ * (A * X - B)) i j := by rw [← h1]; rfl
  rw [h2, Matrix.mul_apply]
  refine (abs_sum_le_sum_abs _ _).trans (sum_le_sum fun k _ => ?_)
  rw [abs_mul]
  refine mul_le_mul_of_nonneg_left ?_ (abs_nonneg _)
  have := h k j
  rw [abs_sub_comm] at this
  exact this

/-- The computed factors multiply to a matrix close to `A`, row by row. -/
theorem factor_near (hn : 0 < n) (A : Matrix (Fin n) (Fin n) α) :
    ∃ (x : LU α) (σ : Equiv.Perm (Fin n)) (L U : Matrix (Fin n) (Fin n) α),
      LU.new (ofM A) = .ok x ∧ x.getPiv = (List.ofFn fun i => (σ i).1) ∧ x.getL = .ok (ofM L) ∧ x.getU = .ok (ofM U) ∧
      ((∀ i k, fin (L i k)) → (∀ k c, fin (U k c)) → ∃ E : Matrix (Fin n) (Fin n) ℝ, (∀ i c, |E (σ i) c| ≤ factorErr L U i c) ∧
        (A.map val + E).det = Equiv.Perm.sign σ * ∏ i, val (U i i)) := by
  obtain ⟨G, σ, h1, h2⟩ := LU.Rnd.new_ofM hn hn A
  have hL' := LU.Rnd.getL_ok G hn hn (decide (Equiv.Perm.sign σ = 1)) (List.ofFn fun i => (σ i).1)
  have hU' := LU.Rnd.getU_ok G hn hn (decide (Equiv.Perm.sign σ = 1)) (List.ofFn fun i => (σ i).1)
  have hF : ∀ (_ : ∀ i k, fin (LU.Rnd.lowerA n n G i k)) (_ : ∀ k c, fin (LU.Rnd.upperA n n G k c)) (i c : Fin n),
    |val (ext A (σ i) c) - ∑ k, val (LU.Rnd.lowerA n n G i k) * val (LU.Rnd.upperA n n G k c)| ≤
      γ α (n + 1) * (∑ k, |val (LU.Rnd.lowerA n n G i k)| * |val (LU.Rnd.upperA n n G k c)|) + θ α n +
        (1 + u α) * η α * ∑ k, |val (LU.Rnd.upperA n n G k c)| := by
    have hmin : min n n = n := Nat.min_self n
    have := LU.Rnd.factor_err h2
    rw [hmin] at this
    exact fun hL hU => this hL hU
  rw [Nat.min_self] at hL' hU'
  refine ⟨_, σ, _, _, h1, rfl, hL', hU', fun hL hU => ?_⟩
  refine ⟨Matrix.of fun i c => (∑ k, val (LU.Rnd.lowerA n n G (σ.symm i) k) * val (LU.Rnd.upperA n n G k c)) - val (A i c), fun i c => ?_, ?_⟩
  · have := hF hL hU i c
    rw [ext_fin] at this
    rw [Matrix.of_apply, Equiv.symm_apply_apply, abs_sub_comm]
    exact this
  · have e1 : (A.map val + Matrix.of fun i c => (∑ k, val (LU.Rnd.lowerA n n G (σ.symm i) k) * val (LU.Rnd.upperA n n G k c)) - val (A i c)) =
        (((LU.Rnd.lowerA n n G).map val) * ((LU.Rnd.upperA n n G).map val)).submatrix σ.symm id := by
      ext i c
      simp [Matrix.mul_apply]
    have hl : ((LU.Rnd.lowerA n n G).map val).det = 1 := by
      rw [Matrix.det_of_isLowerTriangular]
      · exact prod_eq_one fun i _ => by simp [LU.Rnd.lowerA, Fp.one.2]
      · intro i j hij
        have : i.1 < j.1 := hij
        simp only [LU.Rnd.lowerA, Matrix.map_apply, Matrix.of_apply]
        rw [if_neg (by omega), if_neg (by omega), Fp.zero.2]
    have hu : ((LU.Rnd.upperA n n G).map val).det = ∏ i, val (LU.Rnd.upperA n n G i i) := by
      rw [Matrix.det_of_isUpperTriangular]
      · rfl
      · intro i j hij
        have : j.1 < i.1 := hij
        simp only [LU.Rnd.upperA, Matrix.map_apply, Matrix.of_apply]
        rw [if_neg (by omega), Fp.zero.2]
    rw [e1, Matrix.det_permute, Matrix.det_mul, hl, hu, one_mul, Equiv.Perm.sign_symm]

/-- C91: if `A` is nonsingular and `solve(b)` returns `x` with finite `L`, `U`, `x`, then `x` differs from `A⁻¹ b` by at most
`|A⁻¹|` times the residual bound of C63 (row `k` of the bound belongs to row `σ k` of `A`). -/
theorem C91_solve (hn : 0 < n) (hp : 0 < p) (A : Matrix (Fin n) (Fin n) α) (B : Matrix (Fin n) (Fin p) α) (hA : IsUnit (A.map val)) :
    ∃ (x : LU α) (σ : Equiv.Perm (Fin n)) (L U : Matrix (Fin n) (Fin n) α),
      LU.new (ofM A) = .ok x ∧ x.getPiv = (List.ofFn fun i => (σ i).1) ∧ x.getL = .ok (ofM L) ∧ x.getU = .ok (ofM U) ∧
      ∀ X : Matrix (Fin n) (Fin p) α, (ofM A).solve (ofM B) = .ok (some (ofM X)) →
        (∀ i k, fin (L i k)) → (∀ k c, fin (U k c)) → (∀ i j, fin (X i j)) → ∀ i j,
          |val (X i j) - ((A.map val)⁻¹ * B.map val) i j| ≤ ∑ k, |(A.map val)⁻¹ i (σ k)| * solveErr L U X k j := by
  obtain ⟨x, σ, L, U, h1, h2, h3, h4, h5⟩ := C63_solve hn hp A B
  refine ⟨x, σ, L, U, h1, h2, h3, h4, fun X hX hL hU hF i j => ?_⟩
  rcases h5 with ⟨-, h5⟩ | ⟨-, X', h5, h6⟩
  · rw [h5] at hX; simp at hX
  · have e : X' = X := ofM_inj (by rw [h5] at hX; simpa using hX)
    subst e
    have h7 := h6 hL hU hF
    have h8 := forward hA (B.map val) (X'.map val) (r := fun i j => solveErr L U X' (σ.symm i) j) (fun i j => by
      have := h7 (σ.symm i) j
      rw [Equiv.apply_symm_apply] at this
      exact this) i j
    refine h8.trans (le_of_eq ?_)
    rw [← Equiv.sum_comp σ]
    simp only [Equiv.symm_apply_apply]

/-- C91: the same for `inverse()`. -/
theorem C91_inverse (hn : 0 < n) (A : Matrix (Fin n) (Fin n) α) (hA : IsUnit (A.map val)) :
    ∃ (x : LU α) (σ : Equiv.Perm (Fin n)) (L U : Matrix (Fin n) (Fin n) α),
      LU.new (ofM A) = .ok x ∧ x.getPiv = (List.ofFn fun i => (σ i).1) ∧ x.getL = .ok (ofM L) ∧ x.getU = .ok (ofM U) ∧
      ∀ X : Matrix (Fin n) (Fin n) α, (ofM A).inverse = .ok (some (ofM X)) →
        (∀ i k, fin (L i k)) → (∀ k c, fin (U k c)) → (∀ i j, fin (X i j)) → ∀ i j,
          |val (X i j) - (A.map val)⁻¹ i j| ≤ ∑ k, |(A.map val)⁻¹ i (σ k)| * solveErr L U X k j := by
  obtain ⟨x, σ, L, U, h1, h2, h3, h4, h5⟩ := C74_inverse hn A
  refine ⟨x, σ, L, U, h1, h2, h3, h4, fun X hX hL hU hF i j => ?_⟩
  rcases h5 with ⟨-, h5⟩ | ⟨-, X', h5, h6⟩
  · rw [h5] at hX; simp at hX
  · have e : X' = X := ofM_inj (by rw [h5] at hX; simpa using hX)
    subst e
    have h7 := h6 hL hU hF
    have h8 := forward hA 1 (X'.map val) (r := fun i j => solveErr L U X' (σ.symm i) j) (fun i j => by
      have := h7 (σ.symm i) j
      rw [Equiv.apply_symm_apply] at this
      exact this) i j
    rw [Matrix.mul_one] at h8
    refine h8.trans (le_of_eq ?_)
    rw [← Equiv.sum_comp σ]
    simp only [Equiv.symm_apply_apply]

/-- C91: the same for `Cholesky::solve`. -/
theorem C91_cholesky (hn : 0 < n) (hp : 0 < p) (A : Matrix (Fin n) (Fin n) α) (hfin : ∀ i j, fin (A i j)) (B : Matrix (Fin n) (Fin p) α)
    (hA : IsUnit (A.map val)) (c : Cholesky α) (hc : Cholesky.new (ofM A) = .ok (some c)) :
    ∃ (L : Matrix (Fin n) (Fin n) α) (X : Matrix (Fin n) (Fin p) α), c.getL = ofM L ∧ c.solve (ofM B) = .ok (ofM X) ∧
      ((∀ i j, fin (L i j)) → (∀ i j, fin (X i j)) → ∀ i j,
        |val (X i j) - ((A.map val)⁻¹ * B.map val) i j| ≤ ∑ k, |(A.map val)⁻¹ i k| * cholErr L X k j) := by
  obtain ⟨L, X, h1, h2, h3⟩ := C64_solve hn hp A hfin B c hc
  exact ⟨L, X, h1, h2, fun hL hX i j => forward hA (B.map val) (X.map val) (h3 hL hX) i j⟩

/-- C91: `solve` and `inverse` return `None` only if `A` is singular or close to a singular matrix: if the factors are finite, there is
a matrix `E`, with entries within the backward error of C62, such that `A + E` is singular. -/
theorem C91_none (hn : 0 < n) (hp : 0 < p) (A : Matrix (Fin n) (Fin n) α) (B : Matrix (Fin n) (Fin p) α) :
    ∃ (x : LU α) (σ : Equiv.Perm (Fin n)) (L U : Matrix (Fin n) (Fin n) α),
      LU.new (ofM A) = .ok x ∧ x.getPiv = (List.ofFn fun i => (σ i).1) ∧ x.getL = .ok (ofM L) ∧ x.getU = .ok (ofM U) ∧
      ((∀ i k, fin (L i k)) → (∀ k c, fin (U k c)) → (ofM A).solve (ofM B) = .ok none ∨ (ofM A).inverse = .ok none →
        ∃ E : Matrix (Fin n) (Fin n) ℝ, (∀ i c, |E (σ i) c| ≤ factorErr L U i c) ∧ (A.map val + E).det = 0) := by
  obtain ⟨x, σ, L, U, h1, h2, h3, h4, h5⟩ := factor_near hn A
  refine ⟨x, σ, L, U, h1, h2, h3, h4, fun hL hU hnone => ?_⟩
  obtain ⟨E, hE, hdet⟩ := h5 hL hU
  refine ⟨E, hE, ?_⟩
  have hz : ∃ i, FloatOps.eq (U i i) 0 = true := by
    rcases hnone with h | h
    · obtain ⟨x', s', L', U', k1, -, -, k4, k5⟩ := C63_solve hn hp A B
      obtain rfl : x' = x := by rw [h1] at k1; exact (Except.ok.inj k1).symm
      obtain rfl : U' = U := ofM_inj (by rw [h4] at k4; exact (Except.ok.inj k4).symm)
      rcases k5 with k5 | ⟨-, X, k5, -⟩
      · exact k5.1
      · rw [h] at k5; simp at k5
    · obtain ⟨x', s', L', U', k1, -, -, k4, k5⟩ := C74_inverse hn A
      obtain rfl : x' = x := by rw [h1] at k1; exact (Except.ok.inj k1).symm
      obtain rfl : U' = U := ofM_inj (by rw [h4] at k4; exact (Except.ok.inj k4).symm)
      rcases k5 with k5 | ⟨-, X, k5, -⟩
      · exact k5.1
      · rw [h] at k5; simp at k5
  obtain ⟨i, hi⟩ := hz
  have : val (U i i) = 0 := by rw [(Fp.eq _ _ (hU i i) Fp.zero.1).1 hi, Fp.zero.2]
  rw [hdet, prod_eq_zero (mem_univ i) this, mul_zero]

/-- C91: conversely, a matrix further away from all singular ones than the backward error is always solved. -/
theorem C91_some (hn : 0 < n) (hp : 0 < p) (A : Matrix (Fin n) (Fin n) α) (B : Matrix (Fin n) (Fin p) α) :
    ∃ (x : LU α) (σ : Equiv.Perm (Fin n)) (L U : Matrix (Fin n) (Fin n) α),
      LU.new (ofM A) = .ok x ∧ x.getPiv = (List.ofFn fun i => (σ i).1) ∧ x.getL = .ok (ofM L) ∧ x.getU = .ok (ofM U) ∧
      ((∀ i k, fin (L i k)) → (∀ k c, fin (U k c)) →
        (∀ E : Matrix (Fin n) (Fin n) ℝ, (∀ i c, |E (σ i) c| ≤ factorErr L U i c) → (A.map val + E).det ≠ 0) →
        (∃ X : Matrix (Fin n) (Fin p) α, (ofM A).solve (ofM B) = .ok (some (ofM X))) ∧
        ∃ X : Matrix (Fin n) (Fin n) α, (ofM A).inverse = .ok (some (ofM X))) := by
  obtain ⟨x, σ, L, U, h1, h2, h3, h4, h5⟩ := C91_none hn hp A B
  refine ⟨x, σ, L, U, h1, h2, h3, h4, fun hL hU hE => ⟨?_, ?_⟩⟩
  · obtain ⟨_, _, _, _, -, -, -, -, k⟩ := C63_solve hn hp A B
    rcases k with k | ⟨-, X, k, -⟩
    · obtain ⟨E, e1, e2⟩ := h5 hL hU (Or.inl k.2)
      exact absurd e2 (hE E e1)
    · exact ⟨X, k⟩
  · obtain ⟨_, _, _, _, -, -, -, -, k⟩ := C74_inverse hn A
    rcases k with k | ⟨-, X, k, -⟩
    · obtain ⟨E, e1, e2⟩ := h5 hL hU (Or.inr k.2)
      exact absurd e2 (hE E e1)
    · exact ⟨X, k⟩

theorem val_mat {m k : Nat} (A : Matrix (Fin m) (Fin k) ℚ) : (QF.mat A).map val = Matrix.of fun i j => (A i j : ℝ) := rfl

/-- The hypotheses of C91 are met: the matrix is nonsingular, `solve` and `inverse` answer, and everything is finite. -/
example : IsUnit ((QF.mat !![1, 2; 3, 4]).map val) ∧ (∀ i j, fin (QF.mat (!![1, 2; 3, 4] : Matrix (Fin 2) (Fin 2) ℚ) i j)) ∧
    (ofM (QF.mat !![1, 2; 3, 4])).solve (ofM (QF.mat !![5; 6])) = .ok (some (ofM (QF.mat !![-4; 9/2]))) ∧
    (ofM (QF.mat !![1, 2; 3, 4])).inverse = .ok (some (ofM (QF.mat !![-2, 1; 3/2, -1/2]))) := by
  refine ⟨?_, fun i j => by simp [QF.mat, Fp.fin], by decide +kernel, by decide +kernel⟩
  rw [Matrix.isUnit_iff_isUnit_det, val_mat, Matrix.det_fin_two]
  norm_num [Matrix.of_apply]

/-- A positive definite matrix for `C91_cholesky`. -/
example : IsUnit ((QF.mat !![4, 2; 2, 10]).map val) ∧ Cholesky.new (ofM (QF.mat !![4, 2; 2, 10])) = .ok (some ⟨ofM (QF.mat !![2, 0; 1, 3])⟩) := by
  refine ⟨?_, by decide +kernel⟩
  rw [Matrix.isUnit_iff_isUnit_det, val_mat, Matrix.det_fin_two]
  norm_num [Matrix.of_apply]

/-- `C91_none` is not vacuous: a singular matrix, with `None` from both, and finite factors. -/
example : (ofM (QF.mat !![1, 2; 2, 4])).solve (ofM (QF.mat !![5; 6])) = .ok none ∧ (ofM (QF.mat !![1, 2; 2, 4])).inverse = .ok none ∧
    LU.new (ofM (QF.mat !![1, 2; 2, 4])) = .ok ⟨ofM (QF.mat !![2, 4; 1/2, 0]), false, [1, 0]⟩ := by
  refine ⟨?_, ?_, ?_⟩ <;> decide +kernel

/-- No double is exactly one third. -/
theorem third (x : F64) : 3 * x.toReal - 1 ≠ 0 := by
  cases x with
  | fin s k h =>
    intro h0
    have e : (3 * F64.sgn s k : ℝ) = (2 : ℝ) ^ 1074 := by
      have : (3 * F64.sgn s k : ℝ) * F64.U = 1 := by simp only [F64.toReal] at h0; linarith
      unfold F64.U at this
      generalize hP : (2 : ℝ) ^ 1074 = P at *
      have hP0 : P ≠ 0 := by rw [← hP]; positivity
      field_simp at this
      linarith
    have e' : (3 * F64.sgn s k : ℤ) = 2 ^ 1074 := by exact_mod_cast e
    have h3 : (3 : ℤ) ∣ 2 ^ 1074 := ⟨_, e'.symm⟩
    have h4 : (3 : ℕ) ∣ 2 ^ 1074 := by exact_mod_cast h3
    have := Nat.prime_three.dvd_of_dvd_pow h4
    omega
  | inf s => simp [F64.toReal]
  | nan => simp [F64.toReal]

/-- Nonsingular matrices for which `solve` on doubles returns `None` do exist: `[3, 1; 1, d]` with `d` the double nearest to one third: the determinant `3 d - 1` is not
zero, but the last pivot is computed as `d - fl(1/3) * 1 = 0`. -/
example : (ofM (!![F64.ofRat 3 1, F64.ofRat 1 1; F64.ofRat 1 1, F64.ofRat 1 3] : Matrix (Fin 2) (Fin 2) F64)).solve
    (ofM (!![F64.ofRat 1 1; F64.ofRat 1 1] : Matrix (Fin 2) (Fin 1) F64)) = .ok none ∧
    3 * (F64.ofRat 1 3).toReal - 1 ≠ 0 :=
  ⟨by decide +kernel, third _⟩

end LA.Props
