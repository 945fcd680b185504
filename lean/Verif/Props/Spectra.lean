import Verif.Props.DirectRounding

/-!
# C120: computed spectra are stable, and agree with each other

`SVD::new` and `EigenDecomposition::new` are run on matrices whose entries come from a floating-point type `α` (`Sfp α`: every operation is
correct up to a relative error `u`, no overflow or underflow).

* `C120_svd_stable`: when `B` is `U₁ A U₂` with orthogonal `U₁`, `U₂`, up to an error of norm `η` (in particular when rows or columns are
  permuted or change sign, or the entries are perturbed), the computed singular values of `A` and `B` differ by at most `η` and the rounding errors.
* `C120_svd_transpose`: the same for `B` close to the transpose of `A`.
* `C120_svd_norm`: the largest computed singular value bounds `|A x| / |x|` from above and, for `n ≤ m`, the smallest from below.
* `C120_eigen_stable`, `C120_eigen_range`: the same for the eigenvalues of symmetric matrices, and `xᵀ A x`.
* `C120_symmetric`: for a symmetric matrix the computed singular values are the absolute values of the computed eigenvalues in decreasing order.
* `C120_gram`: the eigenvalues computed for a matrix close to `AᵀA` are the squares of the singular values computed for `A`.
* `C120_direct`: `SVD::new` and `SVD::direct` compute the same squares.

All up to rounding, with the error bounds of C100 (`svdError`), C105 (`eigError`) and C108 (`squareError`).
-/

namespace LA.Props

open Finset Matrix

variable {α : Type} [Zero α] [One α] [Add α] [Sub α] [Neg α] [Mul α] [FloatOps α] [Sfp α]

/-- The bound of C100 on the error of the singular values. -/
noncomputable def svdAbs (α : Type) [Zero α] [One α] [Add α] [Sub α] [Neg α] [Mul α] [FloatOps α] [Sfp α] {m n : Nat}
    (A : Matrix (Fin m) (Fin n) ℝ) (fuel : Nat) : ℝ := svdError (Sfp.u α) m n fuel * (frobenius A + 1 / 2 ^ 915)

/-- C120: stability of the computed singular values. -/
theorem C120_svd_stable {m n : Nat} (hm : 0 < m) (hn : 0 < n) (A B : Matrix (Fin m) (Fin n) α) {U₁ : Matrix (Fin m) (Fin m) ℝ}
    {U₂ : Matrix (Fin n) (Fin n) ℝ} (h₁ : Orthogonal U₁) (h₂ : Orthogonal U₂) {fuel fuel' : Nat} {x y : SVD α}
    (hx : SVD.new fuel (ofM A) = .ok x) (hy : SVD.new fuel' (ofM B) = .ok y) :
    ∃ s t : Nat → α, x.s = ofM (Matrix.of fun (i : Fin m) (j : Fin n) => if i.1 = j.1 then s i else 0) ∧
      y.s = ofM (Matrix.of fun (i : Fin m) (j : Fin n) => if i.1 = j.1 then t i else 0) ∧ ∀ k, k < min m n →
      |Sfp.val (s k) - Sfp.val (t k)| ≤ frobenius (values B - U₁ * values A * U₂) + svdAbs α (values A) fuel + svdAbs α (values B) fuel' := by
  obtain ⟨U, V, s, rfl, h1, h2, P, Q, hP, hQ, -, -, h3⟩ := C100_backward hm hn A hx
  obtain ⟨U', V', t, rfl, k1, k2, P', Q', hP', hQ', -, -, k3⟩ := C100_backward hm hn B hy
  refine ⟨s, t, rfl, rfl, fun k hk => ?_⟩
  have h₁' : Orth U₁ := h₁
  have h₂' : Orth U₂ := h₂
  have a1 := (sing_diag (s := fun i => Sfp.val (s i)) (h₁'.mul hP) (h₂'.transpose.mul hQ) h1 h2).close
    (sing_diag (s := fun i => Sfp.val (t i)) hP' hQ' k1 k2) (k := k) (by omega)
  rw [if_pos (by omega), if_pos (by omega), abs_sub_comm] at a1
  refine a1.trans ?_
  change frob (values A - P * rectDiag m n (fun i => Sfp.val (s i)) * Qᵀ) ≤ svdAbs α (values A) fuel at h3
  change frob (values B - P' * rectDiag m n (fun i => Sfp.val (t i)) * Q'ᵀ) ≤ svdAbs α (values B) fuel' at k3
  change frob (U₁ * P * rectDiag m n (fun i => Sfp.val (s i)) * (U₂ᵀ * Q)ᵀ - P' * rectDiag m n (fun i => Sfp.val (t i)) * Q'ᵀ) ≤
    frob (values B - U₁ * values A * U₂) + svdAbs α (values A) fuel + svdAbs α (values B) fuel'
  set S := rectDiag m n (fun i => Sfp.val (s i))
  set T := rectDiag m n (fun i => Sfp.val (t i))
  have e1 : U₁ * P * S * (U₂ᵀ * Q)ᵀ = U₁ * (P * S * Qᵀ) * U₂ := by
    rw [transpose_mul, transpose_transpose]; simp only [Matrix.mul_assoc]
  have e2 : frob (U₁ * values A * U₂ - U₁ * (P * S * Qᵀ) * U₂) = frob (values A - P * S * Qᵀ) := by
    rw [← Matrix.sub_mul, ← Matrix.mul_sub, frob_mul_orth _ h₂', frob_mul_left _ h₁']
  rw [e1]
  have t1 := frob_tri (U₁ * (P * S * Qᵀ) * U₂) (U₁ * values A * U₂) (P' * T * Q'ᵀ)
  have t2 := frob_tri (U₁ * values A * U₂) (values B) (P' * T * Q'ᵀ)
  rw [frob_sub_comm (U₁ * (P * S * Qᵀ) * U₂) (U₁ * values A * U₂), e2] at t1
  rw [frob_sub_comm (U₁ * values A * U₂) (values B)] at t2
  linarith

/-- C120: the singular values of the transpose. -/
theorem C120_svd_transpose {m n : Nat} (hm : 0 < m) (hn : 0 < n) (A : Matrix (Fin m) (Fin n) α) (B : Matrix (Fin n) (Fin m) α)
    {fuel fuel' : Nat} {x y : SVD α} (hx : SVD.new fuel (ofM A) = .ok x) (hy : SVD.new fuel' (ofM B) = .ok y) :
    ∃ s t : Nat → α, x.s = ofM (Matrix.of fun (i : Fin m) (j : Fin n) => if i.1 = j.1 then s i else 0) ∧
      y.s = ofM (Matrix.of fun (i : Fin n) (j : Fin m) => if i.1 = j.1 then t i else 0) ∧ ∀ k, k < min m n →
      |Sfp.val (s k) - Sfp.val (t k)| ≤ frobenius (values B - (values A)ᵀ) + svdAbs α (values A) fuel + svdAbs α (values B) fuel' := by
  obtain ⟨U, V, s, rfl, h1, h2, P, Q, hP, hQ, -, -, h3⟩ := C100_backward hm hn A hx
  obtain ⟨U', V', t, rfl, k1, k2, P', Q', hP', hQ', -, -, k3⟩ := C100_backward hn hm B hy
  refine ⟨s, t, rfl, rfl, fun k hk => ?_⟩
  rw [min_comm] at k1 k2
  have a1 := (sing_diag (m := n) (n := m) (s := fun i => Sfp.val (s i)) hQ hP (fun i j h h' => h1 i j h (by omega)) (fun i h => h2 i (by omega))).close
    (sing_diag (m := n) (n := m) (s := fun i => Sfp.val (t i)) hP' hQ' (fun i j h h' => k1 i j h (by omega)) (fun i h => k2 i (by omega))) (k := k) (by omega)
  rw [if_pos (by omega), if_pos (by omega), abs_sub_comm] at a1
  refine a1.trans ?_
  change frob (values A - P * rectDiag m n (fun i => Sfp.val (s i)) * Qᵀ) ≤ svdAbs α (values A) fuel at h3
  change frob (values B - P' * rectDiag n m (fun i => Sfp.val (t i)) * Q'ᵀ) ≤ svdAbs α (values B) fuel' at k3
  change frob (Q * rectDiag n m (fun i => Sfp.val (s i)) * Pᵀ - P' * rectDiag n m (fun i => Sfp.val (t i)) * Q'ᵀ) ≤
    frob (values B - (values A)ᵀ) + svdAbs α (values A) fuel + svdAbs α (values B) fuel'
  have e0 : rectDiag n m (fun i => Sfp.val (s i)) = (rectDiag m n (fun i => Sfp.val (s i)))ᵀ := by
    ext i j
    simp only [rectDiag, of_apply, transpose_apply]
    by_cases h : i.1 = j.1
    · rw [if_pos h, if_pos h.symm, h]
    · rw [if_neg h, if_neg (Ne.symm h)]
  rw [e0]
  set S := rectDiag m n (fun i => Sfp.val (s i))
  set T := rectDiag n m (fun i => Sfp.val (t i))
  have e1 : Q * Sᵀ * Pᵀ = (P * S * Qᵀ)ᵀ := by rw [transpose_mul, transpose_mul, transpose_transpose, Matrix.mul_assoc]
  have e2 : frob ((values A)ᵀ - (P * S * Qᵀ)ᵀ) = frob (values A - P * S * Qᵀ) := by rw [← transpose_sub, frob_transpose]
  rw [e1]
  have t1 := frob_tri (P * S * Qᵀ)ᵀ (values A)ᵀ (P' * T * Q'ᵀ)
  have t2 := frob_tri (values A)ᵀ (values B) (P' * T * Q'ᵀ)
  rw [frob_sub_comm (P * S * Qᵀ)ᵀ (values A)ᵀ, e2] at t1
  rw [frob_sub_comm (values A)ᵀ (values B)] at t2
  linarith

theorem sum_col {n : Nat} (y : Fin n → ℝ) : frob (Matrix.of fun i (_ : Fin 1) => y i) = Real.sqrt (∑ i, y i ^ 2) := by
  unfold frob
  congr 1
  exact sum_congr rfl fun i _ => by simp

theorem mul_col {m n : Nat} (A : Matrix (Fin m) (Fin n) ℝ) (y : Fin n → ℝ) :
    A * (Matrix.of fun i (_ : Fin 1) => y i) = Matrix.of fun i (_ : Fin 1) => (A *ᵥ y) i := by
  ext i j
  rw [Matrix.mul_apply]
  rfl

/-- C120: the largest and the smallest computed singular value bound what `A` does to the length of a vector. -/
theorem C120_svd_norm {m n : Nat} (hm : 0 < m) (hn : 0 < n) (A : Matrix (Fin m) (Fin n) α) {fuel : Nat} {x : SVD α}
    (hx : SVD.new fuel (ofM A) = .ok x) :
    ∃ s : Nat → α, x.s = ofM (Matrix.of fun (i : Fin m) (j : Fin n) => if i.1 = j.1 then s i else 0) ∧ ∀ y : Fin n → ℝ,
      Real.sqrt (∑ i, (values A *ᵥ y) i ^ 2) ≤ (Sfp.val (s 0) + svdAbs α (values A) fuel) * Real.sqrt (∑ i, y i ^ 2) ∧
      (n ≤ m → (Sfp.val (s (n - 1)) - svdAbs α (values A) fuel) * Real.sqrt (∑ i, y i ^ 2) ≤ Real.sqrt (∑ i, (values A *ᵥ y) i ^ 2)) := by
  obtain ⟨U, V, s, rfl, h1, h2, P, Q, hP, hQ, -, -, h3⟩ := C100_backward hm hn A hx
  refine ⟨s, rfl, fun y => ?_⟩
  change frob (values A - P * rectDiag m n (fun i => Sfp.val (s i)) * Qᵀ) ≤ svdAbs α (values A) fuel at h3
  have hS := sing_diag (s := fun i => Sfp.val (s i)) hP hQ h1 h2
  change Sing (P * rectDiag m n (fun i => Sfp.val (s i)) * Qᵀ) Q _ at hS
  rw [← sum_col, ← sum_col, ← mul_col]
  set S := rectDiag m n (fun i => Sfp.val (s i))
  set Y : Matrix (Fin n) (Fin 1) ℝ := Matrix.of fun i _ => y i with hY
  have hQ' : Orth Q := hQ
  have e1 : Q * (Qᵀ * Y) = Y := by rw [← Matrix.mul_assoc, hQ'.right, Matrix.one_mul]
  have e2 : frob (Qᵀ * Y) = frob Y := frob_mul_left _ hQ'.transpose
  have e3 : values A * Y = P * S * Qᵀ * Y + (values A - P * S * Qᵀ) * Y := by rw [← Matrix.add_mul]; congr 1; abel
  have e4 : frob ((values A - P * S * Qᵀ) * Y) ≤ svdAbs α (values A) fuel * frob Y :=
    (frob_mul_le _ _).trans (mul_le_mul_of_nonneg_right h3 (frob_nonneg _))
  constructor
  · have q := hS.le (k := 0) hn (y := Qᵀ * Y) (fun i h => absurd h (by omega))
    rw [e1, e2, if_pos hm] at q
    rw [e3]
    have := frob_add_le (P * S * Qᵀ * Y) ((values A - P * S * Qᵀ) * Y)
    linarith
  · intro hnm
    have q := hS.ge (k := n - 1) (by omega) (y := Qᵀ * Y) (fun i h => absurd h (by have := i.2; omega))
    rw [e1, e2, if_pos (by omega)] at q
    have := frob_sub_le (values A * Y) ((values A - P * S * Qᵀ) * Y)
    rw [show values A * Y - (values A - P * S * Qᵀ) * Y = P * S * Qᵀ * Y by rw [e3]; abel] at this
    linarith

/-- C120: stability of the computed eigenvalues of symmetric matrices. -/
theorem C120_eigen_stable {n : Nat} (hn : 0 < n) (hu : Sfp.u α ≤ 1 / 1000) (A B : Matrix (Fin n) (Fin n) α) (hA : (values A).IsSymm)
    (hB : (values B).IsSymm) {U : Matrix (Fin n) (Fin n) ℝ} (hU : Orthogonal U) {fuel fuel' : Nat} {x y : Eigen α}
    (hx : Eigen.new fuel (ofM A) = .ok x) (hy : Eigen.new fuel' (ofM B) = .ok y) :
    ∃ d e : Fin n → α, x.d = List.ofFn d ∧ y.d = List.ofFn e ∧ ∀ k, |Sfp.val (d k) - Sfp.val (e k)| ≤
      frobenius (values B - U * values A * Uᵀ) + eigError (Sfp.u α) n fuel * frobenius (values A) +
        eigError (Sfp.u α) n fuel' * frobenius (values B) := by
  obtain ⟨V, d, z, rfl, -, -, ho, Q, hQ, -, h3⟩ := C105_backward hn hu A hA hx
  obtain ⟨V', e, z', rfl, -, -, ho', Q', hQ', -, k3⟩ := C105_backward hn hu B hB hy
  refine ⟨d, e, rfl, rfl, fun k => ?_⟩
  have hU' : Orth U := hU
  have key := weyl_sym (l := fun i => if h : i < n then Sfp.val (d ⟨i, h⟩) else 0) (d := fun i => if h : i < n then Sfp.val (e ⟨i, h⟩) else 0)
    (hU'.mul hQ) hQ' (fun i j hij hj => by
      simp only [dif_pos hj, dif_pos (show i < n by omega)]
      exact ho _ _ (show (⟨i, by omega⟩ : Fin n) ≤ ⟨j, hj⟩ from hij)) (fun i j hij hj => by
      simp only [dif_pos hj, dif_pos (show i < n by omega)]
      exact ho' _ _ (show (⟨i, by omega⟩ : Fin n) ≤ ⟨j, hj⟩ from hij)) k.2
  simp only [Fin.is_lt, dif_pos, Fin.eta] at key
  rw [abs_sub_comm] at key
  refine key.trans ?_
  change frob (values A - Q * Matrix.diagonal (fun i => Sfp.val (d i)) * Qᵀ) ≤ eigError (Sfp.u α) n fuel * frob (values A) at h3
  change frob (values B - Q' * Matrix.diagonal (fun i => Sfp.val (e i)) * Q'ᵀ) ≤ eigError (Sfp.u α) n fuel' * frob (values B) at k3
  set D := Matrix.diagonal (fun i => Sfp.val (d i))
  set E := Matrix.diagonal (fun i => Sfp.val (e i))
  change frob _ ≤ frob (values B - U * values A * Uᵀ) + eigError (Sfp.u α) n fuel * frob (values A) + eigError (Sfp.u α) n fuel' * frob (values B)
  have e1 : U * Q * D * (U * Q)ᵀ = U * (Q * D * Qᵀ) * Uᵀ := by
    rw [transpose_mul]; simp only [Matrix.mul_assoc]
  have e2 : frob (U * values A * Uᵀ - U * (Q * D * Qᵀ) * Uᵀ) = frob (values A - Q * D * Qᵀ) := by
    rw [← Matrix.sub_mul, ← Matrix.mul_sub, frob_mul_right _ hU', frob_mul_left _ hU']
  rw [e1]
  have t1 := frob_tri (U * (Q * D * Qᵀ) * Uᵀ) (U * values A * Uᵀ) (Q' * E * Q'ᵀ)
  have t2 := frob_tri (U * values A * Uᵀ) (values B) (Q' * E * Q'ᵀ)
  rw [frob_sub_comm (U * (Q * D * Qᵀ) * Uᵀ) (U * values A * Uᵀ), e2] at t1
  rw [frob_sub_comm (U * values A * Uᵀ) (values B)] at t2
  linarith

/-- C120: the largest and the smallest computed eigenvalue bound the quadratic form. -/
theorem C120_eigen_range {n : Nat} (hn : 0 < n) (hu : Sfp.u α ≤ 1 / 1000) (A : Matrix (Fin n) (Fin n) α) (hA : (values A).IsSymm)
    {fuel : Nat} {x : Eigen α} (hx : Eigen.new fuel (ofM A) = .ok x) :
    ∃ d : Fin n → α, x.d = List.ofFn d ∧ ∀ y : Fin n → ℝ,
      (Sfp.val (d ⟨n - 1, by omega⟩) - eigError (Sfp.u α) n fuel * frobenius (values A)) * (y ⬝ᵥ y) ≤ y ⬝ᵥ (values A *ᵥ y) ∧
      y ⬝ᵥ (values A *ᵥ y) ≤ (Sfp.val (d ⟨0, hn⟩) + eigError (Sfp.u α) n fuel * frobenius (values A)) * (y ⬝ᵥ y) := by
  obtain ⟨V, d, z, rfl, -, -, ho, Q, hQ, -, h3⟩ := C105_backward hn hu A hA hx
  refine ⟨d, rfl, fun y => ?_⟩
  change frob (values A - Q * Matrix.diagonal (fun i => Sfp.val (d i)) * Qᵀ) ≤ eigError (Sfp.u α) n fuel * frob (values A) at h3
  change (_ - eigError (Sfp.u α) n fuel * frob (values A)) * _ ≤ _ ∧ _ ≤ (_ + eigError (Sfp.u α) n fuel * frob (values A)) * _
  set D := Matrix.diagonal (fun i => Sfp.val (d i)) with hD
  set ε := eigError (Sfp.u α) n fuel * frob (values A)
  set E := values A - Q * D * Qᵀ with hE
  have hQ' : Orth Q := hQ
  set w := Qᵀ *ᵥ y with hw
  have hyw : w ⬝ᵥ w = y ⬝ᵥ y := by
    rw [hw, dotProduct_mulVec, ← mulVec_transpose, transpose_transpose, mulVec_mulVec, hQ'.right, one_mulVec]
  have e1 : y ⬝ᵥ (values A *ᵥ y) = w ⬝ᵥ (D *ᵥ w) + y ⬝ᵥ (E *ᵥ y) := by
    have : values A = Q * D * Qᵀ + E := by rw [hE]; abel
    rw [this, add_mulVec, dotProduct_add]
    congr 1
    rw [Matrix.mul_assoc, ← mulVec_mulVec, ← mulVec_mulVec, dotProduct_mulVec, ← mulVec_transpose]
  have hy0 : 0 ≤ y ⬝ᵥ y := by
    rw [dotProduct]; exact sum_nonneg fun i _ => mul_self_nonneg _
  have e2 : |y ⬝ᵥ (E *ᵥ y)| ≤ ε * (y ⬝ᵥ y) := by
    have q : Matrix.of (fun (_ : Fin 1) i => y i) * (E * Matrix.of (fun i (_ : Fin 1) => y i)) = Matrix.of fun _ _ => y ⬝ᵥ (E *ᵥ y) := by
      ext i j
      rw [mul_col, Matrix.mul_apply]
      rfl
    have q1 := abs_le_frob (Matrix.of (fun (_ : Fin 1) i => y i) * (E * Matrix.of (fun i (_ : Fin 1) => y i))) 0 0
    rw [q, of_apply, ← q] at q1
    have q2 : frob (Matrix.of (fun (_ : Fin 1) i => y i)) = frob (Matrix.of (fun i (_ : Fin 1) => y i)) := by
      rw [← frob_transpose]; rfl
    have q3 : frob (Matrix.of (fun i (_ : Fin 1) => y i)) * frob (Matrix.of (fun i (_ : Fin 1) => y i)) = y ⬝ᵥ y := by
      rw [sum_col, Real.mul_self_sqrt (sum_nonneg fun i _ => sq_nonneg _), dotProduct]
      exact sum_congr rfl fun i _ => sq _
    refine q1.trans ((frob_mul_le _ _).trans ?_)
    have q4 := frob_mul_le E (Matrix.of (fun i (_ : Fin 1) => y i))
    have q5 := mul_le_mul_of_nonneg_right h3 (frob_nonneg (Matrix.of (fun i (_ : Fin 1) => y i)))
    calc _ ≤ frob (Matrix.of (fun (_ : Fin 1) i => y i)) * (ε * frob (Matrix.of (fun i (_ : Fin 1) => y i))) :=
          mul_le_mul_of_nonneg_left (q4.trans q5) (frob_nonneg _)
      _ = ε * (frob (Matrix.of (fun i (_ : Fin 1) => y i)) * frob (Matrix.of (fun i (_ : Fin 1) => y i))) := by rw [q2]; ring
      _ = _ := by rw [q3]
  have e3 : w ⬝ᵥ (D *ᵥ w) = ∑ i, Sfp.val (d i) * (w i * w i) := by
    rw [dotProduct]
    refine sum_congr rfl fun i _ => ?_
    rw [hD, mulVec_diagonal]; ring
  have e4 : ∀ c : ℝ, c * (y ⬝ᵥ y) = ∑ i, c * (w i * w i) := by
    intro c; rw [← hyw, dotProduct, mul_sum]
  have e5 := abs_le.1 e2
  rw [e1, e3]
  constructor
  · rw [sub_mul, e4 (Sfp.val _)]
    have : ∑ i, Sfp.val (d ⟨n - 1, by omega⟩) * (w i * w i) ≤ ∑ i, Sfp.val (d i) * (w i * w i) :=
      sum_le_sum fun i _ => mul_le_mul_of_nonneg_right (ho _ _ (show i.1 ≤ n - 1 by have := i.2; omega)) (mul_self_nonneg _)
    linarith [e5.1]
  · rw [add_mul, e4 (Sfp.val _)]
    have : ∑ i, Sfp.val (d i) * (w i * w i) ≤ ∑ i, Sfp.val (d ⟨0, hn⟩) * (w i * w i) :=
      sum_le_sum fun i _ => mul_le_mul_of_nonneg_right (ho _ _ (Nat.zero_le _)) (mul_self_nonneg _)
    linarith [e5.2]

/-- C120: the singular values of a symmetric matrix are the absolute values of its eigenvalues. -/
theorem C120_symmetric {n : Nat} (hn : 0 < n) (hu : Sfp.u α ≤ 1 / 1000) (A : Matrix (Fin n) (Fin n) α) (hA : (values A).IsSymm)
    {fuel fuel' : Nat} {x : SVD α} {y : Eigen α} (hx : SVD.new fuel (ofM A) = .ok x) (hy : Eigen.new fuel' (ofM A) = .ok y) :
    ∃ (s : Nat → α) (d : Fin n → α) (π : Equiv.Perm (Fin n)),
      x.s = ofM (Matrix.of fun (i : Fin n) (j : Fin n) => if i.1 = j.1 then s i else 0) ∧ y.d = List.ofFn d ∧
      (∀ i j, i ≤ j → |Sfp.val (d (π j))| ≤ |Sfp.val (d (π i))|) ∧
      ∀ k : Fin n, |Sfp.val (s k) - (|Sfp.val (d (π k))|)| ≤ svdAbs α (values A) fuel + eigError (Sfp.u α) n fuel' * frobenius (values A) := by
  obtain ⟨U, V, s, rfl, h1, h2, P, Q, hP, hQ, -, -, h3⟩ := C100_backward hn hn A hx
  obtain ⟨V', d, z, rfl, -, -, -, W, hW, -, k3⟩ := C105_backward hn hu A hA hy
  obtain ⟨π, hπ⟩ : ∃ π : Equiv.Perm (Fin n), Monotone ((fun i => -|Sfp.val (d i)|) ∘ π) := ⟨_, Tuple.monotone_sort _⟩
  have ho : ∀ i j : Fin n, i ≤ j → |Sfp.val (d (π j))| ≤ |Sfp.val (d (π i))| := fun i j h => neg_le_neg_iff.1 (hπ h)
  refine ⟨s, d, π, rfl, rfl, ho, fun k => ?_⟩
  change frob (values A - P * rectDiag n n (fun i => Sfp.val (s i)) * Qᵀ) ≤ svdAbs α (values A) fuel at h3
  change frob (values A - W * Matrix.diagonal (fun i => Sfp.val (d i)) * Wᵀ) ≤ eigError (Sfp.u α) n fuel' * frob (values A) at k3
  change _ ≤ svdAbs α (values A) fuel + eigError (Sfp.u α) n fuel' * frob (values A)
  set g : Fin n → ℝ := fun i => if Sfp.val (d i) < 0 then -1 else 1 with hg
  have hgg : ∀ i, g i * g i = 1 := by intro i; simp only [hg]; split_ifs <;> norm_num
  have hgd : ∀ i, g i * |Sfp.val (d i)| = Sfp.val (d i) := by
    intro i
    simp only [hg]
    split_ifs with h
    · rw [abs_of_neg h]; ring
    · rw [abs_of_nonneg (not_lt.1 h)]; ring
  have hWW : ∀ j k, ∑ i, W i j * W i k = if j = k then 1 else 0 := by
    intro j k
    have : (Wᵀ * W) j k = (1 : Matrix (Fin n) (Fin n) ℝ) j k := by rw [show Wᵀ * W = 1 from hW]
    rw [Matrix.mul_apply, Matrix.one_apply] at this
    exact this
  have o1 : Orth (Matrix.of fun i j => W i (π j)) := by
    unfold Orth
    ext i j
    rw [Matrix.mul_apply, Matrix.one_apply]
    simp only [transpose_apply, of_apply]
    rw [hWW]
    simp
  have o2 : Orth (Matrix.of fun i j => W i (π j) * g (π j)) := by
    unfold Orth
    ext i j
    rw [Matrix.mul_apply, Matrix.one_apply]
    simp only [transpose_apply, of_apply]
    have : ∀ l, W l (π i) * g (π i) * (W l (π j) * g (π j)) = W l (π i) * W l (π j) * (g (π i) * g (π j)) := fun l => by ring
    simp only [this]
    rw [← sum_mul, hWW]
    by_cases h : i = j
    · rw [h, if_pos rfl, if_pos rfl, hgg]; norm_num
    · rw [if_neg (fun q => h (π.injective q)), if_neg h, zero_mul]
  set c : Nat → ℝ := fun i => if h : i < n then |Sfp.val (d (π ⟨i, h⟩))| else 0 with hc
  have a1 := (sing_diag (m := n) (s := c) o2 o1 (fun i j hij hj => by
      simp only [hc, dif_pos (show i < n by omega), dif_pos (show j < n by omega)]
      exact ho _ _ hij) (fun i hi => by
      simp only [hc, dif_pos (show i < n by omega)]
      exact abs_nonneg _)).close (sing_diag (s := fun i => Sfp.val (s i)) hP hQ h1 h2) k.2
  rw [if_pos k.2, if_pos k.2, show c k = |Sfp.val (d (π k))| by simp only [hc, dif_pos k.2]] at a1
  refine a1.trans ?_
  have e1 : (Matrix.of fun i j => W i (π j) * g (π j)) * Matrix.of (fun (i : Fin n) (j : Fin n) => if i.1 = j.1 then c i else 0) *
      (Matrix.of fun i j => W i (π j))ᵀ = W * Matrix.diagonal (fun i => Sfp.val (d i)) * Wᵀ := by
    rw [rect_diagonal]
    ext i j
    rw [Matrix.mul_apply, Matrix.mul_apply]
    simp only [Matrix.mul_diagonal, of_apply, transpose_apply]
    rw [← Equiv.sum_comp π (fun l => W i l * Sfp.val (d l) * W j l)]
    refine sum_congr rfl fun l _ => ?_
    rw [show c l = |Sfp.val (d (π l))| by simp only [hc, dif_pos l.2], mul_assoc (W i (π l)), hgd]
  rw [e1]
  change frob (_ - P * rectDiag n n (fun i => Sfp.val (s i)) * Qᵀ) ≤ _
  have t1 := frob_tri (W * Matrix.diagonal (fun i => Sfp.val (d i)) * Wᵀ) (values A) (P * rectDiag n n (fun i => Sfp.val (s i)) * Qᵀ)
  rw [frob_sub_comm (W * Matrix.diagonal (fun i => Sfp.val (d i)) * Wᵀ) (values A)] at t1
  linarith

/-- The squares of the computed singular values. -/
theorem svd_square {m n : Nat} (hm : 0 < m) (hn : 0 < n) (A : Matrix (Fin m) (Fin n) α) {fuel : Nat} {x : SVD α}
    (hx : SVD.new fuel (ofM A) = .ok x) :
    ∃ s : Nat → α, x.s = ofM (Matrix.of fun (i : Fin m) (j : Fin n) => if i.1 = j.1 then s i else 0) ∧ ∀ k, k < min m n →
      |Sfp.val (s k) ^ 2 - singularValue (values A) k ^ 2| ≤ svdAbs α (values A) fuel * (2 * frobenius (values A) + svdAbs α (values A) fuel) := by
  obtain ⟨s, h1, h2⟩ := C101_rounded hm hn A hx
  refine ⟨s, h1, fun k hk => ?_⟩
  have h3 := h2 k hk
  change |Sfp.val (s k) - singularValue (values A) k| ≤ svdAbs α (values A) fuel at h3
  set e := svdAbs α (values A) fuel
  have h0 : 0 ≤ singularValue (values A) k := (Matrix.toEuclideanLin (values A)).singularValues_nonneg k
  have h4 : singularValue (values A) k ≤ frob (values A) := by
    have := singular_sq_le (values A) (k := k) (by omega)
    exact (abs_le_of_sq_le_sq' this (frob_nonneg _)).2
  change _ ≤ e * (2 * frob (values A) + e)
  rw [show Sfp.val (s k) ^ 2 - singularValue (values A) k ^ 2 = (Sfp.val (s k) - singularValue (values A) k) * (Sfp.val (s k) + singularValue (values A) k) by ring, abs_mul]
  refine mul_le_mul h3 ?_ (abs_nonneg _) ((abs_nonneg _).trans h3)
  have h5 : Sfp.val (s k) + singularValue (values A) k = (Sfp.val (s k) - singularValue (values A) k) + 2 * singularValue (values A) k := by ring
  rw [h5]
  refine (abs_add_le _ _).trans ?_
  rw [abs_of_nonneg (by linarith : 0 ≤ 2 * singularValue (values A) k)]
  linarith

/-- C120: `SVD::new` and `SVD::direct` find the same singular values. -/
theorem C120_direct {m n : Nat} (ha : Commutes α) (hn : 0 < n) (hnm : n ≤ m) (hu : Sfp.u α ≤ 1 / 1000) (A : Matrix (Fin m) (Fin n) α)
    {fuel fuel' : Nat} {x y : SVD α} (hx : SVD.new fuel (ofM A) = .ok x) (hy : SVD.direct fuel' (ofM A) = .ok y) :
    ∃ s t : Nat → α, x.s = ofM (Matrix.of fun (i : Fin m) (j : Fin n) => if i.1 = j.1 then s i else 0) ∧
      y.s = ofM (Matrix.of fun (i : Fin m) (j : Fin n) => if i.1 = j.1 then t i else 0) ∧ ∀ k, k < n →
      |Sfp.val (s k) ^ 2 - Sfp.val (t k) ^ 2| ≤ svdAbs α (values A) fuel * (2 * frobenius (values A) + svdAbs α (values A) fuel) +
        squareError (Sfp.u α) m n fuel' * frobenius (values A) ^ 2 := by
  obtain ⟨s, h1, h2⟩ := svd_square (by omega) hn A hx
  obtain ⟨t, k1, k2⟩ := C108_singular_values ha hn hnm hu A hy
  refine ⟨s, t, h1, k1, fun k hk => ?_⟩
  have a1 := h2 k (by omega)
  have a2 := k2 k hk
  have a3 := abs_sub_le (Sfp.val (s k) ^ 2) (singularValue (values A) k ^ 2) (Sfp.val (t k) ^ 2)
  rw [abs_sub_comm (singularValue (values A) k ^ 2)] at a3
  linarith

/-- C120: the eigenvalues of `AᵀA` are the squares of the singular values of `A`, and zeros. -/
theorem C120_gram {m n : Nat} (hm : 0 < m) (hn : 0 < n) (hu : Sfp.u α ≤ 1 / 1000) (A : Matrix (Fin m) (Fin n) α) (B : Matrix (Fin n) (Fin n) α)
    (hB : (values B).IsSymm) {fuel fuel' : Nat} {x : SVD α} {y : Eigen α} (hx : SVD.new fuel (ofM A) = .ok x)
    (hy : Eigen.new fuel' (ofM B) = .ok y) :
    ∃ (s : Nat → α) (d : Fin n → α), x.s = ofM (Matrix.of fun (i : Fin m) (j : Fin n) => if i.1 = j.1 then s i else 0) ∧ y.d = List.ofFn d ∧
      ∀ k : Fin n, |(if k.1 < m then Sfp.val (s k) ^ 2 else 0) - Sfp.val (d k)| ≤
        frobenius (values B - (values A)ᵀ * values A) + svdAbs α (values A) fuel * (2 * frobenius (values A) + svdAbs α (values A) fuel) +
          eigError (Sfp.u α) n fuel' * frobenius (values B) := by
  obtain ⟨s, h1, h2⟩ := svd_square hm hn A hx
  obtain ⟨V', d, z, rfl, -, -, ho, W, hW, -, k3⟩ := C105_backward hn hu B hB hy
  refine ⟨s, d, h1, rfl, fun k => ?_⟩
  change frob (values B - W * Matrix.diagonal (fun i => Sfp.val (d i)) * Wᵀ) ≤ eigError (Sfp.u α) n fuel' * frob (values B) at k3
  set D := Matrix.diagonal (fun i => Sfp.val (d i)) with hD
  have t1 := frob_tri ((values A)ᵀ * values A) (values B) (W * D * Wᵀ)
  rw [frob_sub_comm _ (values B)] at t1
  set δ : Nat → ℝ := fun i => if h : i < n then Sfp.val (d ⟨i, h⟩) else 0 with hδ
  have eD : (fun i : Fin n => δ i) = fun i => Sfp.val (d i) := by
    funext i
    simp only [hδ, dif_pos i.2]
  have a1 := eig_close (A := values A) (d := δ) hW (fun i j hij hj => by
    simp only [hδ, dif_pos hj, dif_pos (show i < n by omega)]
    exact ho _ _ (show (⟨i, by omega⟩ : Fin n) ≤ ⟨j, hj⟩ from hij)) (le_of_eq_of_le (by rw [eD]) t1) k.2
  rw [show δ k = Sfp.val (d k) by simp only [hδ, dif_pos k.2]] at a1
  have a2 : |(if k.1 < m then Sfp.val (s k) ^ 2 else 0) - singularValue (values A) k ^ 2| ≤
      svdAbs α (values A) fuel * (2 * frobenius (values A) + svdAbs α (values A) fuel) := by
    split_ifs with h
    · exact h2 k (by have := k.2; omega)
    · have : singularValue (values A) k = 0 := singular_rank _ ((Matrix.rank_le_card_height _).trans (by simpa using not_lt.1 h))
      rw [this]
      have h0 : 0 ≤ svdAbs α (values A) fuel := mul_nonneg (svdError_nonneg m n fuel) (add_nonneg (frob_nonneg _) (by positivity))
      have : 0 ≤ svdAbs α (values A) fuel * (2 * frobenius (values A) + svdAbs α (values A) fuel) :=
        mul_nonneg h0 (add_nonneg (mul_nonneg (by norm_num) (frob_nonneg _)) h0)
      simpa using this
  have a3 := abs_sub_le (if k.1 < m then Sfp.val (s k) ^ 2 else 0) (singularValue (values A) k ^ 2) (Sfp.val (d k))
  rw [abs_sub_comm (singularValue (values A) k ^ 2)] at a3
  change _ ≤ frob (values B - (values A)ᵀ * values A) + _ + eigError (Sfp.u α) n fuel' * frob (values B)
  linarith

/-- `sampleFu` with two rows exchanged and one negated. -/
def sampleFu2 : Matrix (Fin 3) (Fin 2) Fu := !![⟨-2⟩, ⟨7 / 2⟩; ⟨1⟩, ⟨4⟩; ⟨-5⟩, ⟨-1 / 8⟩]

theorem sampleFu2_runs : ∃ x, SVD.new 10 (ofM sampleFu2) = .ok x := by
  have h1 : (match SVD.new 10 (ofM sampleFu2) with | .ok _ => true | .error _ => false) = true := by decide +kernel
  rcases h : SVD.new 10 (ofM sampleFu2) with _ | x
  · rw [h] at h1; cases h1
  · exact ⟨x, rfl⟩

theorem svdAbs_sample {m n : Nat} (A : Matrix (Fin m) (Fin n) ℝ) (hm : m ≤ 3) (hn : n ≤ 3) : svdAbs Fu A 10 ≤ 1 / 2 ^ 30 * (frobenius A + 1 / 2 ^ 915) := by
  refine mul_le_mul_of_nonneg_right ?_ (add_nonneg (frob_nonneg _) (by positivity))
  interval_cases m <;> interval_cases n <;>
  · refine (C100_double (by norm_num) (by norm_num)).trans ?_
    norm_num

/-- The hypotheses of `C120_svd_stable` are met, with `η = 0` and different matrices: rows exchanged and negated. -/
example : ∃ (x y : SVD Fu) (s t : Nat → Fu), SVD.new 10 (ofM sampleFu) = .ok x ∧ SVD.new 10 (ofM sampleFu2) = .ok y ∧
    x.s = ofM (Matrix.of fun (i : Fin 3) (j : Fin 2) => if i.1 = j.1 then s i else 0) ∧
    y.s = ofM (Matrix.of fun (i : Fin 3) (j : Fin 2) => if i.1 = j.1 then t i else 0) ∧
    ∀ k, k < 2 → |Sfp.val (s k) - Sfp.val (t k)| ≤
      1 / 2 ^ 30 * (frobenius (values sampleFu) + 1 / 2 ^ 915) + 1 / 2 ^ 30 * (frobenius (values sampleFu2) + 1 / 2 ^ 915) := by
  obtain ⟨x, hx⟩ := sample_runs.1
  obtain ⟨y, hy⟩ := sampleFu2_runs
  obtain ⟨s, t, h1, h2, h3⟩ := C120_svd_stable (by norm_num) (by norm_num) sampleFu sampleFu2
    (U₁ := !![0, 1, 0; 1, 0, 0; 0, 0, -1]) (U₂ := 1)
    (by unfold Orthogonal; ext i j; fin_cases i <;> fin_cases j <;> simp [Matrix.mul_apply, Fin.sum_univ_three])
    (by simp [Orthogonal]) hx hy
  refine ⟨x, y, s, t, hx, hy, h1, h2, fun k hk => (h3 k hk).trans ?_⟩
  have e : values sampleFu2 - !![(0 : ℝ), 1, 0; 1, 0, 0; 0, 0, -1] * values sampleFu * (1 : Matrix (Fin 2) (Fin 2) ℝ) = 0 := by
    have e1 : values sampleFu = !![(1 : ℝ), 4; -2, 7 / 2; 5, 1 / 8] := by
      ext i j
      fin_cases i <;> fin_cases j <;> simp [values, sampleFu, Sfp.val]
    have e2 : values sampleFu2 = !![(-2 : ℝ), 7 / 2; 1, 4; -5, -1 / 8] := by
      ext i j
      fin_cases i <;> fin_cases j <;> simp [values, sampleFu2, Sfp.val]
    rw [e1, e2, Matrix.mul_one]
    ext i j
    fin_cases i <;> fin_cases j <;> simp [Matrix.mul_apply, Fin.sum_univ_three] <;> norm_num
  rw [e]
  have h0 : frobenius (0 : Matrix (Fin 3) (Fin 2) ℝ) = 0 := by simp [frobenius]
  rw [h0, zero_add]
  exact add_le_add (svdAbs_sample _ le_rfl (by norm_num)) (svdAbs_sample _ le_rfl (by norm_num))

theorem sampleSym_svd : ∃ x, SVD.new 10 (ofM sampleSym) = .ok x := by
  have h1 : (match SVD.new 10 (ofM sampleSym) with | .ok _ => true | .error _ => false) = true := by decide +kernel
  rcases h : SVD.new 10 (ofM sampleSym) with _ | x
  · rw [h] at h1; cases h1
  · exact ⟨x, rfl⟩

/-- The hypotheses of `C120_symmetric` are met by a 3 × 3 matrix with a negative eigenvalue. -/
example : ∃ (x : SVD Fu) (y : Eigen Fu) (s : Nat → Fu) (d : Fin 3 → Fu) (π : Equiv.Perm (Fin 3)),
    SVD.new 10 (ofM sampleSym) = .ok x ∧ Eigen.new 10 (ofM sampleSym) = .ok y ∧ y.d = List.ofFn d ∧
    ∀ k : Fin 3, |Sfp.val (s k) - (|Sfp.val (d (π k))|)| ≤
      1 / 2 ^ 30 * (frobenius (values sampleSym) + 1 / 2 ^ 915) + 1 / 2 ^ 30 * frobenius (values sampleSym) := by
  obtain ⟨x, hx⟩ := sampleSym_svd
  obtain ⟨y, hy⟩ := sampleSym_runs.1
  obtain ⟨s, d, π, h1, h2, -, h3⟩ := C120_symmetric (by norm_num) (show (1 / 2 ^ 53 : ℝ) ≤ 1 / 1000 by norm_num) sampleSym sampleSym_symm hx hy
  refine ⟨x, y, s, d, π, hx, hy, h2, fun k => (h3 k).trans (add_le_add (svdAbs_sample _ le_rfl le_rfl) (mul_le_mul_of_nonneg_right ?_ (frob_nonneg _)))⟩
  refine (C105_double (n := 3) (fuel := 10) (by norm_num) (by norm_num)).trans ?_
  norm_num

/-- The hypotheses of `C120_direct` are met. -/
example : ∃ (x y : SVD Fu), SVD.new 10 (ofM sampleFu) = .ok x ∧ SVD.direct 10 (ofM sampleFu) = .ok y := by
  obtain ⟨x, hx⟩ := sample_runs.1
  obtain ⟨y, hy⟩ := sampleFu_runs
  exact ⟨x, y, hx, hy⟩

end LA.Props
