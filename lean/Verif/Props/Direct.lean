import Verif.Proofs.Direct
import Verif.Props.Eigen

/-!
# C59: singular value decomposition by the direct method

The step budget `fuel` bounds the iterations of the eigenvalue decomposition.  `SVD::direct` itself has no budget.
-/

set_option linter.unusedSectionVars false

namespace LA.Props
open Finset Matrix

/-- C59, the part that holds: for `m ≥ n` let `d` be the (decreasing) eigenvalues and `V` the orthogonal eigenvectors that
`EigenDecomposition::new` computes for `AᵀA`.  If all of them are positive, `SVD::direct(A)` returns `U`,
`S = diag(√d)`, `V` with `U·S·Vᵀ = A` exactly; the first `n` columns of `U` are orthonormal up to
`9n·2⁻⁵²·‖AᵀA‖ / (σᵢσⱼ)`, the remaining ones are zero.  If one of them is zero and none negative, it panics.  If one is
negative, the square root of a negative number is taken (NaN in floating point).  Missing: full rank is not enough in
general (the eigenvalues are inexact), and `U` is orthogonal only for square matrices (`C59_refuted_tall`). -/
theorem C59_direct_partial {m n : Nat} (hn : 0 < n) (hnm : n ≤ m) (A : Matrix (Fin m) (Fin n) ℝ) :
    ∃ (N : Nat) (V : Matrix (Fin n) (Fin n) ℝ) (d : Nat → ℝ), Vᵀ * V = 1 ∧ (∀ i j, i ≤ j → j < n → d j ≤ d i) ∧
      frobenius (Aᵀ * A - V * Matrix.diagonal (fun i : Fin n => d i) * Vᵀ) ≤ 9 * n * (1 / 2 ^ 52) * frobenius (Aᵀ * A) ∧
      ((∀ i, i < n → 0 < d i) → ∃ U : Matrix (Fin m) (Fin m) ℝ,
        (∀ fuel, N ≤ fuel → SVD.direct fuel (ofM A) = .ok ⟨ofM U, ofM (rectDiag m n fun i => Real.sqrt (d i)), ofM V⟩) ∧
        U * rectDiag m n (fun i => Real.sqrt (d i)) * Vᵀ = A ∧
        (∀ i j : Fin m, i.1 < n → j.1 < n → |(Uᵀ * U - 1) i j| ≤
          9 * n * (1 / 2 ^ 52) * frobenius (Aᵀ * A) / (Real.sqrt (d i) * Real.sqrt (d j))) ∧
        (∀ i j : Fin m, n ≤ j.1 → U i j = 0)) ∧
      ((∀ i, i < n → 0 ≤ d i) → (∃ i, i < n ∧ d i = 0) → ∀ fuel, N ≤ fuel → SVD.direct fuel (ofM A) = .error .unwrap) ∧
      ((∃ i, i < n ∧ d i < 0) → ∀ fuel, N ≤ fuel → SVD.direct fuel (ofM A) = .error .undef) := by
  obtain ⟨N, V, δ, hG, hf⟩ := SVD.directTall_run (show 0 < m by omega) hn A
  have hrun : ∀ fuel, N ≤ fuel → SVD.direct fuel (ofM A) = SVD.tail (ofM A) (ofM V) (List.ofFn fun i : Fin n => δ i) := by
    intro fuel h
    unfold SVD.direct
    rw [ofM_cols A (by omega), ok_bind, ofM_rows, if_neg (by omega)]
    rcases hf fuel with h1 | ⟨h1, -⟩
    · exact h1
    · omega
  have hb : (n : ℝ) * (9 * Eigen.eps * frob (Aᵀ * A)) = 9 * n * (1 / 2 ^ 52) * frobenius (Aᵀ * A) := by
    rw [Eigen.eps_val]
    show (n : ℝ) * (9 * _ * frob (Aᵀ * A)) = 9 * n * (1 / 2 ^ 52) * frob (Aᵀ * A)
    ring
  refine ⟨N, V, δ, hG.orth, fun i j hij hj => ?_, ?_, fun hpos => ?_, fun h1 h2 fuel h => ?_, fun h1 fuel h => ?_⟩
  · rcases Nat.lt_or_eq_of_le hij with h | h
    · exact hG.ord i j h hj
    · rw [h]
  · exact le_trans hG.close (le_of_eq hb)
  · refine ⟨SVD.dirU A V fun i => Real.sqrt (δ i), fun fuel h => ?_, ?_, fun i j hi hj => ?_, fun i j hj => ?_⟩
    · rw [hrun fuel h, SVD.tail_pos hn hnm A V hpos]
      rfl
    · exact SVD.dirU_eq hnm A hG.orth fun i hi => (Real.sqrt_pos.2 (hpos i hi)).ne'
    · have hsi := Real.sqrt_pos.2 (hpos i hi)
      have hsj := Real.sqrt_pos.2 (hpos j hj)
      have h1 := SVD.symGood_entry hG ⟨i, hi⟩ ⟨j, hj⟩
      rw [hb] at h1
      rw [le_div_iff₀ (mul_pos hsi hsj)]
      refine le_trans (le_of_eq ?_) h1
      rw [← abs_of_pos (mul_pos hsi hsj), ← abs_mul]
      congr 1
      have e1 : (Vᵀ * (Aᵀ * A) * V) ⟨i, hi⟩ ⟨j, hj⟩ = ∑ k, (A * V) k ⟨i, hi⟩ * (A * V) k ⟨j, hj⟩ := by
        rw [← Matrix.mul_assoc, ← transpose_mul, Matrix.mul_assoc, mul_apply]
        rfl
      rw [Matrix.sub_apply, Matrix.sub_apply, e1, mul_apply]
      simp only [transpose_apply, SVD.dirU, of_apply, hi, hj, dif_pos]
      have e2 : ∑ k, (A * V) k ⟨i, hi⟩ / Real.sqrt (δ i) * ((A * V) k ⟨j, hj⟩ / Real.sqrt (δ j)) =
          (∑ k, (A * V) k ⟨i, hi⟩ * (A * V) k ⟨j, hj⟩) / (Real.sqrt (δ i) * Real.sqrt (δ j)) := by
        rw [Finset.sum_div]
        exact Finset.sum_congr rfl fun k _ => by rw [div_mul_div_comm]
      rw [e2, sub_mul, div_mul_cancel₀ _ (mul_pos hsi hsj).ne']
      congr 1
      by_cases hij : i = j
      · subst hij
        rw [one_apply_eq, diagonal_apply_eq, one_mul, Real.mul_self_sqrt (hpos i hi).le]
      · rw [one_apply_ne hij, diagonal_apply_ne _ (fun h => hij (Fin.ext (Fin.mk.inj_iff.1 h))), zero_mul]
    · simp only [SVD.dirU, of_apply]
      rw [dif_neg (by omega)]
  · rw [hrun fuel h, SVD.tail_zero hn h1 h2]
  · rw [hrun fuel h, SVD.tail_neg h1]

/-- C59 for well conditioned matrices of full column rank: if `‖A·x‖² ≥ μ·‖x‖²` for all `x`, with `μ` above the error of the
eigenvalue iteration, then `SVD::direct(A)` returns, and `U·S·Vᵀ = A` with `V` orthogonal and `S` positive, decreasing,
diagonal. -/
theorem C59_well_conditioned_partial {m n : Nat} (hn : 0 < n) (hnm : n ≤ m) (A : Matrix (Fin m) (Fin n) ℝ) (μ : ℝ)
    (hμ : 9 * n * (1 / 2 ^ 52) * frobenius (Aᵀ * A) < μ)
    (hA : ∀ x : Fin n → ℝ, μ * ∑ j, x j ^ 2 ≤ ∑ i, (A.mulVec x i) ^ 2) :
    ∃ (N : Nat) (U : Matrix (Fin m) (Fin m) ℝ) (V : Matrix (Fin n) (Fin n) ℝ) (s : Nat → ℝ),
      (∀ fuel, N ≤ fuel → SVD.direct fuel (ofM A) = .ok ⟨ofM U, ofM (rectDiag m n s), ofM V⟩) ∧
      U * rectDiag m n s * Vᵀ = A ∧ Vᵀ * V = 1 ∧ (∀ i j, i ≤ j → j < n → s j ≤ s i) ∧ (∀ i, i < n → 0 < s i) := by
  obtain ⟨N, V, d, h1, h2, h3, h4, -, -⟩ := C59_direct_partial hn hnm A
  have hpos : ∀ i, i < n → 0 < d i := by
    intro i hi
    have hVt : Orth Vᵀ := by unfold Orth; rw [transpose_transpose]; exact Orth.right h1
    have e : Vᵀ * (Aᵀ * A) * V - Matrix.diagonal (fun i : Fin n => d i) =
        Vᵀ * (Aᵀ * A - V * Matrix.diagonal (fun i : Fin n => d i) * Vᵀ) * (Vᵀ)ᵀ := by
      rw [Matrix.mul_sub, Matrix.sub_mul, transpose_transpose, Matrix.mul_assoc V, ← Matrix.mul_assoc Vᵀ V, h1,
        Matrix.one_mul, Matrix.mul_assoc _ Vᵀ V, h1, Matrix.mul_one]
    have h5 := abs_le_frob (Vᵀ * (Aᵀ * A) * V - Matrix.diagonal fun i : Fin n => d i) ⟨i, hi⟩ ⟨i, hi⟩
    rw [show frob (Vᵀ * (Aᵀ * A) * V - Matrix.diagonal fun i : Fin n => d i) =
      frobenius (Aᵀ * A - V * Matrix.diagonal (fun i : Fin n => d i) * Vᵀ) by
        rw [e, frob_mul_right _ hVt, frob_mul_left _ hVt]; rfl] at h5
    have h6 := (abs_le.1 (h5.trans h3)).2
    rw [Matrix.sub_apply, diagonal_apply_eq] at h6
    have h7 := hA fun k => V k ⟨i, hi⟩
    have e1 : ∑ k, V k ⟨i, hi⟩ ^ 2 = 1 := by
      have := congrFun (congrFun h1 ⟨i, hi⟩) ⟨i, hi⟩
      rw [mul_apply, one_apply_eq] at this
      rw [← this]
      exact Finset.sum_congr rfl fun k _ => by rw [sq]; rfl
    have e2 : (Vᵀ * (Aᵀ * A) * V) ⟨i, hi⟩ ⟨i, hi⟩ = ∑ k, (A.mulVec fun k => V k ⟨i, hi⟩) k ^ 2 := by
      rw [← Matrix.mul_assoc, ← transpose_mul, Matrix.mul_assoc, mul_apply]
      exact Finset.sum_congr rfl fun k _ => by rw [sq]; rfl
    rw [e1, mul_one, ← e2] at h7
    simp only at h6
    linarith
  obtain ⟨U, u1, u2, -, -⟩ := h4 hpos
  exact ⟨N, U, V, fun i => Real.sqrt (d i), u1, u2, h1, fun i j hij hj => Real.sqrt_le_sqrt (h2 i j hij hj),
    fun i hi => Real.sqrt_pos.2 (hpos i hi)⟩

/-- C59 for wide matrices: the factors of the transpose, exchanged. -/
theorem C59_wide {m n : Nat} (hm : 0 < m) (hmn : m < n) (A : Matrix (Fin m) (Fin n) ℝ) (fuel : Nat) :
    SVD.direct fuel (ofM A) = do
      let x ← SVD.direct fuel (ofM Aᵀ)
      let s ← x.s.t
      return ⟨x.v, s, x.u⟩ := by
  unfold SVD.direct
  rw [ofM_cols A hm, ok_bind, ofM_rows, if_pos hmn, C12_transpose hm, ok_bind, ofM_cols Aᵀ (by omega), ok_bind, ofM_rows,
    if_neg (by omega)]

/-- C59 is false of the code for singular matrices: `SVD::direct` of a zero matrix of any tall or square shape panics. -/
theorem C59_refuted_zero {m n : Nat} (hn : 0 < n) (hnm : n ≤ m) :
    ∃ N, ∀ fuel, N ≤ fuel → Panics (SVD.direct fuel (ofM (0 : Matrix (Fin m) (Fin n) ℝ))) := by
  obtain ⟨N, V, d, h1, h2, h3, -, h4, -⟩ := C59_direct_partial hn hnm (0 : Matrix (Fin m) (Fin n) ℝ)
  have hz : ∀ i, i < n → d i = 0 := by
    rw [Matrix.mul_zero, zero_sub] at h3
    have h0 : frobenius (0 : Matrix (Fin n) (Fin n) ℝ) = 0 := by simp [frobenius]
    rw [h0, mul_zero] at h3
    have h5 : V * Matrix.diagonal (fun i : Fin n => d i) * Vᵀ = 0 := by
      ext i j
      have := abs_le_frob (-(V * Matrix.diagonal (fun i : Fin n => d i) * Vᵀ)) i j
      have h6 : |(-(V * Matrix.diagonal (fun i : Fin n => d i) * Vᵀ)) i j| ≤ 0 := this.trans h3
      simpa using h6
    have h6 : Matrix.diagonal (fun i : Fin n => d i) = 0 := by
      calc Matrix.diagonal (fun i : Fin n => d i) = Vᵀ * V * Matrix.diagonal (fun i : Fin n => d i) * (Vᵀ * V) := by
            rw [h1, Matrix.one_mul, Matrix.mul_one]
        _ = Vᵀ * (V * Matrix.diagonal (fun i : Fin n => d i) * Vᵀ) * V := by simp only [Matrix.mul_assoc]
        _ = 0 := by rw [h5, Matrix.mul_zero, Matrix.zero_mul]
    intro i hi
    have := congrFun (congrFun h6 ⟨i, hi⟩) ⟨i, hi⟩
    simpa using this
  refine ⟨N, fun fuel h => ?_⟩
  rw [h4 (fun i hi => (hz i hi).ge) ⟨0, hn, hz 0 hn⟩ fuel h]
  unfold Panics
  simp

/-- C59 is false of the code for tall matrices: a `U` returned by `SVD::direct` is never orthogonal (its last columns
are zero). -/
theorem C59_refuted_tall {m n : Nat} (hn : 0 < n) (hnm : n < m) (A : Matrix (Fin m) (Fin n) ℝ) (fuel : Nat) (x : SVD ℝ)
    (hx : SVD.direct fuel (ofM A) = .ok x) :
    ∃ U : Matrix (Fin m) (Fin m) ℝ, x.u = ofM U ∧ (∀ i j : Fin m, n ≤ j.1 → U i j = 0) ∧ Uᵀ * U ≠ 1 := by
  obtain ⟨N, V, δ, hG, hf⟩ := SVD.directTall_run (show 0 < m by omega) hn A
  unfold SVD.direct at hx
  rw [ofM_cols A (by omega), ok_bind, ofM_rows, if_neg (by omega)] at hx
  rcases hf fuel with h | ⟨-, h⟩
  · rw [h] at hx
    by_cases h1 : ∃ i, i < n ∧ δ i < 0
    · rw [SVD.tail_neg h1] at hx; exact nomatch hx
    · have h1' : ∀ i, i < n → 0 ≤ δ i := fun i hi => not_lt.1 fun h => h1 ⟨i, hi, h⟩
      by_cases h2 : ∃ i, i < n ∧ δ i = 0
      · rw [SVD.tail_zero hn h1' h2] at hx; exact nomatch hx
      · rw [SVD.tail_pos hn hnm.le A V fun i hi => lt_of_le_of_ne (h1' i hi) fun h => h2 ⟨i, hi, h.symm⟩] at hx
        cases hx
        have hz : ∀ i j : Fin m, n ≤ j.1 → SVD.dirU A V (fun i => Real.sqrt (δ i)) i j = 0 := fun i j hj => by
          simp only [SVD.dirU, of_apply]
          rw [dif_neg (by omega)]
        refine ⟨_, rfl, hz, fun h => ?_⟩
        have := congrFun (congrFun h ⟨n, hnm⟩) ⟨n, hnm⟩
        rw [mul_apply, one_apply_eq, Finset.sum_eq_zero] at this
        · exact zero_ne_one this
        · intro k _
          rw [hz k ⟨n, hnm⟩ le_rfl, mul_zero]
  · rw [h] at hx; exact nomatch hx

/-- The hypotheses of `C59_well_conditioned_partial` are met by the identity matrix, with `μ = 1`. -/
example : 9 * (2 : Nat) * (1 / 2 ^ 52) * frobenius ((1 : Matrix (Fin 2) (Fin 2) ℝ)ᵀ * 1) < 1 ∧
    ∀ x : Fin 2 → ℝ, 1 * ∑ j, x j ^ 2 ≤ ∑ i, ((1 : Matrix (Fin 2) (Fin 2) ℝ).mulVec x i) ^ 2 := by
  refine ⟨?_, fun x => by rw [one_mulVec, one_mul]⟩
  have h : frobenius ((1 : Matrix (Fin 2) (Fin 2) ℝ)ᵀ * 1) ≤ 2 := by
    unfold frobenius
    rw [Real.sqrt_le_left (by norm_num)]
    rw [transpose_one, Matrix.one_mul]
    simp [Fin.sum_univ_two, one_apply]
    norm_num
  push_cast
  linarith

end LA.Props
