import Verif.Props.QR
import Verif.Props.Cholesky
import Verif.Props.Blocks

/-!
# C119: the decompositions agree with each other

Exact arithmetic: what one decomposition says about a matrix can be read off from any other.
-/

namespace LA.Props
open LA Finset
set_option linter.unusedSectionVars false

section Inverse
variable {K : Type} [Field K] [LinearOrder K] [IsStrictOrderedRing K] [FloatOps K] [Exact K] {n p : Nat}

/-- C119: the inverse of a transpose, of a product and of an inverse; `solve` is the product with the inverse; the determinant of the inverse. -/
theorem C119_inverse (hn : 0 < n) (hp : 0 < p) (A B : Matrix (Fin n) (Fin n) K) (C : Matrix (Fin n) (Fin p) K)
    {x y : Mat K} (hx : (ofM A).inverse = .ok (some x)) (hy : (ofM B).inverse = .ok (some y)) :
    (do (← (ofM A).t).inverse) = (do return some (← x.t)) ∧
    (do (← (ofM A).mul (ofM B)).inverse) = (do return some (← y.mul x)) ∧
    x.inverse = .ok (some (ofM A)) ∧
    (ofM A).solve (ofM C) = (do return some (← x.mul (ofM C))) ∧
    (do return (← (ofM A).det) * (← x.det)) = (.ok 1 : R K) := by
  have ha : A.det ≠ 0 := fun h => by rw [(C34_inverse_none hn A).2 h] at hx; cases hx
  have hb : B.det ≠ 0 := fun h => by rw [(C34_inverse_none hn B).2 h] at hy; cases hy
  obtain ⟨a1, a2, a3⟩ := C34_inverse hn A ha
  obtain ⟨b1, b2, b3⟩ := C34_inverse hn B hb
  obtain rfl : x = ofM A⁻¹ := Option.some.inj (Except.ok.inj (hx.symm.trans a1))
  obtain rfl : y = ofM B⁻¹ := Option.some.inj (Except.ok.inj (hy.symm.trans b1))
  have ha' : A⁻¹.det ≠ 0 := fun h => by
    have := congrArg Matrix.det a2
    rw [Matrix.det_mul, h, mul_zero, Matrix.det_one] at this
    exact zero_ne_one this
  refine ⟨?_, ?_, ?_, ?_, ?_⟩
  · rw [t_ofM hn, ok_bind, (C34_inverse hn A.transpose (by rwa [Matrix.det_transpose])).1, t_ofM hn, Matrix.transpose_nonsing_inv]; rfl
  · rw [C10_mul hn hn, ok_bind, (C34_inverse hn (A * B) (by rw [Matrix.det_mul]; exact mul_ne_zero ha hb)).1, C10_mul hn hn, Matrix.mul_inv_rev]; rfl
  · rw [(C34_inverse hn A⁻¹ ha').1, Matrix.nonsing_inv_nonsing_inv A (Ne.isUnit ha)]
  · obtain ⟨X, h1, h2, h3⟩ := C32_solve hn hp A C ha
    rw [h1, C10_mul hn hn, h3 (A⁻¹ * C) (by rw [← Matrix.mul_assoc, a2, Matrix.one_mul])]; rfl
  · rw [C30_det hn, C30_det hn]
    show Except.ok (A.det * A⁻¹.det) = _
    rw [← Matrix.det_mul, a2, Matrix.det_one]

end Inverse

variable {m n p : Nat}

/-- Independent columns of a square matrix: a determinant that is not zero. -/
theorem fullColumnRank_det (A : Matrix (Fin n) (Fin n) ℝ) : FullColumnRank A ↔ A.det ≠ 0 := by
  constructor
  · intro h h0
    obtain ⟨v, hv, hv0⟩ := Matrix.exists_mulVec_eq_zero_iff.2 h0
    exact hv (h v hv0)
  · intro h x hx
    by_contra hne
    exact h (Matrix.exists_mulVec_eq_zero_iff.1 ⟨x, hne, hx⟩)

/-- C119: the three tests for an invertible matrix (LU, QR, and whether `inverse` answers) give the same answer, and `pinverse` returns exactly
when they say yes; it is then the inverse. -/
theorem C119_tests (hn : 0 < n) (A : Matrix (Fin n) (Fin n) ℝ) :
    (QR.new (ofM A) >>= QR.isFullRank) = (ofM A).isNonSingular ∧
    (do return (← (ofM A).inverse).isSome) = (ofM A).isNonSingular ∧
    ((ofM A).isNonSingular = .ok true → ∃ x, (ofM A).inverse = .ok (some x) ∧ (ofM A).pinverse = .ok x) ∧
    ((ofM A).isNonSingular = .ok false → (ofM A).pinverse = .error .unwrap) := by
  have e := (C31_isSingular hn A).2
  rw [e]
  refine ⟨?_, ?_, fun h => ?_, fun h => ?_⟩
  · rw [C37_isFullRank_partial hn le_rfl]
    simp only [fullColumnRank_det]
  · by_cases h : A.det = 0
    · rw [(C34_inverse_none hn A).2 h]; simp [h]
    · rw [(C34_inverse hn A h).1]; simp [h]
  · have h0 : A.det ≠ 0 := of_decide_eq_true (Except.ok.inj h)
    obtain ⟨P, h1, -, h2, -⟩ := C39_pinverse hn hn A ((fullColumnRank_det A).2 h0)
    refine ⟨_, (C34_inverse hn A h0).1, ?_⟩
    rw [h1, Matrix.inv_eq_left_inv h2]
  · have h0 : ¬ A.det ≠ 0 := of_decide_eq_false (Except.ok.inj h)
    exact C39_panics hn hn A fun hf => h0 ((fullColumnRank_det A).1 hf)

/-- C119: the determinant from the QR decomposition, up to the sign. -/
theorem C119_det_qr (hn : 0 < n) (A : Matrix (Fin n) (Fin n) ℝ) :
    ∃ (x : QR ℝ) (T : Matrix (Fin n) (Fin n) ℝ) (d : ℝ), QR.new (ofM A) = .ok x ∧ x.getR = .ok (ofM T) ∧ (ofM A).det = .ok d ∧
      |d| = ∏ i, |T i i| := by
  obtain ⟨x, Q, T, h1, -, h3, h4, h5, h6⟩ := C35_qr hn hn A
  refine ⟨x, T, _, h1, h3, C30_det hn A, ?_⟩
  have hQ : Q.transpose * Q = 1 := by
    rw [h6]
    ext i j
    rw [Nat.min_self]
    simp [Matrix.diagonal_apply, Matrix.one_apply]
  have hd : |Q.det| = 1 := by
    have := congrArg Matrix.det hQ
    rw [Matrix.det_mul, Matrix.det_transpose, Matrix.det_one, ← sq] at this
    rcases (by have h := mul_eq_zero.1 (show (Q.det - 1) * (Q.det + 1) = 0 by linear_combination this); rcases h with h | h; exacts [Or.inl (by linarith), Or.inr (by linarith)] : Q.det = 1 ∨ Q.det = -1) with h | h <;> rw [h] <;> simp
  rw [← h4, Matrix.det_mul, abs_mul, hd, one_mul, Matrix.det_of_upperTriangular (fun i j hij => h5 i j hij), abs_prod]

/-- C119: the determinant from the Cholesky decomposition, and the two solvers. -/
theorem C119_cholesky (hn : 0 < n) (hp : 0 < p) (A : Matrix (Fin n) (Fin n) ℝ) (B : Matrix (Fin n) (Fin p) ℝ) {c : Cholesky ℝ}
    (hc : Cholesky.new (ofM A) = .ok (some c)) :
    ∃ (L : Matrix (Fin n) (Fin n) ℝ), c.getL = ofM L ∧ (ofM A).det = .ok ((∏ i, L i i) ^ 2) ∧ (ofM A).isNonSingular = .ok true ∧
      (do return some (← c.solve (ofM B))) = (ofM A).solve (ofM B) := by
  have hA : SymmPosDef A := (C40_iff hn A).1 ⟨c, hc⟩
  obtain ⟨c', L, h1, h2, h3, h4, h5, -⟩ := (C40_cholesky hn A).1 hA
  obtain rfl : c = c' := Option.some.inj (Except.ok.inj (hc.symm.trans h1))
  have hd : A.det = (∏ i, L i i) ^ 2 := by
    rw [← h5, Matrix.det_mul, Matrix.det_transpose, Matrix.det_of_lowerTriangular L (fun a b hab => h3 a b hab), sq]
  have hne : A.det ≠ 0 := by rw [hd]; exact pow_ne_zero _ (Finset.prod_ne_zero_iff.2 fun i _ => (h4 i).ne')
  refine ⟨L, h2, by rw [C30_det hn, hd], by rw [(C31_isSingular hn A).2, decide_eq_true hne], ?_⟩
  obtain ⟨c2, X, g1, g2, g3, -⟩ := C41_solve hn hp A hA B
  obtain rfl : c = c2 := Option.some.inj (Except.ok.inj (hc.symm.trans g1))
  obtain ⟨Y, k1, -, k3⟩ := C32_solve hn hp A B hne
  rw [g2, k1, k3 X g3]; rfl

/-- C119: the normal equations. For a matrix with independent columns the Cholesky factor of `A'A` is the transposed triangular factor of the QR
decomposition up to signs, and its `solve` is the product with `pinverse()`: the least squares solution. -/
theorem C119_gram (hm : 0 < m) (hn : 0 < n) (hp : 0 < p) (A : Matrix (Fin m) (Fin n) ℝ) (B : Matrix (Fin m) (Fin p) ℝ)
    (hA : (QR.new (ofM A) >>= QR.isFullRank) = .ok true) (hnm : n ≤ m) :
    ∃ (x : QR ℝ) (T : Matrix (Fin m) (Fin n) ℝ) (c : Cholesky ℝ) (L : Matrix (Fin n) (Fin n) ℝ) (X : Matrix (Fin n) (Fin p) ℝ) (P : Mat ℝ),
      QR.new (ofM A) = .ok x ∧ x.getR = .ok (ofM T) ∧
      (do Cholesky.new (← (← (ofM A).t).mul (ofM A))) = .ok (some c) ∧ c.getL = ofM L ∧
      (∀ i j : Fin n, |L i j| = |T ⟨j, j.2.trans_le hnm⟩ i|) ∧
      (ofM A).pinverse = .ok P ∧ P.mul (ofM B) = .ok (ofM X) ∧
      (do c.solve (← (← (ofM A).t).mul (ofM B))) = .ok (ofM X) ∧
      ∀ (Y : Matrix (Fin n) (Fin p) ℝ) (j : Fin p), ∑ i, (B i j - (A * X) i j) ^ 2 ≤ ∑ i, (B i j - (A * Y) i j) ^ 2 := by
  have hr := hA
  rw [C37_isFullRank_partial hn hnm] at hr
  have hf : FullColumnRank A := by simpa using Except.ok.inj hr
  clear hr
  -- the Gram matrix
  have hquad : ∀ x : Fin n → ℝ, ∑ i, ∑ j, x i * (A.transpose * A) i j * x j = ∑ r, (∑ j, A r j * x j) ^ 2 := fun x => by
    simp only [Matrix.mul_apply, Matrix.transpose_apply, sq, Finset.sum_mul, Finset.mul_sum]
    rw [Finset.sum_congr rfl fun i _ => Finset.sum_comm, Finset.sum_comm]
    refine Finset.sum_congr rfl fun r _ => ?_
    rw [Finset.sum_comm]
    exact Finset.sum_congr rfl fun i _ => Finset.sum_congr rfl fun j _ => by ring
  have hG : SymmPosDef (A.transpose * A) := by
    refine ⟨fun i j => ?_, fun x hx => ?_⟩
    · simp only [Matrix.mul_apply, Matrix.transpose_apply]
      exact Finset.sum_congr rfl fun r _ => mul_comm _ _
    · rw [hquad]
      by_contra h
      have h0 : ∑ r, (∑ j, A r j * x j) ^ 2 = 0 := le_antisymm (not_lt.1 h) (Finset.sum_nonneg fun _ _ => sq_nonneg _)
      rw [Finset.sum_eq_zero_iff_of_nonneg fun _ _ => sq_nonneg _] at h0
      exact hx (hf x (funext fun r => pow_eq_zero_iff (two_ne_zero) |>.1 (h0 r (Finset.mem_univ r))))
  obtain ⟨c, L, c1, c2, c3, c4, c5, c6⟩ := (C40_cholesky hn (A.transpose * A)).1 hG
  have hdet : (A.transpose * A).det ≠ 0 := by
    rw [← c5, Matrix.det_mul, Matrix.det_transpose, Matrix.det_of_lowerTriangular L (fun a b hab => c3 a b hab)]
    have : ∏ i, L i i ≠ 0 := Finset.prod_ne_zero_iff.2 fun i _ => (c4 i).ne'
    exact mul_ne_zero this this
  -- the QR decomposition
  obtain ⟨x, Q, T, x1, -, x3, x4, x5, x6⟩ := C35_qr hm hn A
  obtain ⟨S, hS⟩ : ∃ S : Matrix (Fin n) (Fin n) ℝ, S = Matrix.of fun i j => T (Fin.castLE hnm i) j := ⟨_, rfl⟩
  have hSe : ∀ i j, S i j = T (Fin.castLE hnm i) j := fun i j => by rw [hS]; rfl
  have hmin : min m n = n := by omega
  have hTT : S.transpose * S = A.transpose * A := by
    have e1 : A.transpose * A = T.transpose * (Q.transpose * Q * T) := by
      rw [← x4, Matrix.transpose_mul]; simp only [Matrix.mul_assoc]
    rw [e1, x6]
    ext i j
    rw [Matrix.mul_apply, Matrix.mul_apply]
    refine Finset.sum_of_injOn (Fin.castLE hnm) (fun a _ b _ h => Fin.castLE_injective hnm h) (fun _ _ => Finset.mem_coe.2 (Finset.mem_univ _))
      (fun r _ hr => ?_) fun k _ => ?_
    · have hrn : n ≤ r.1 := by
        by_contra h
        exact hr ⟨⟨r, not_le.1 h⟩, by simp, rfl⟩
      rw [Matrix.transpose_apply, x5 r i (by have := i.2; omega), zero_mul]
    · rw [Matrix.transpose_apply, Matrix.transpose_apply, Matrix.diagonal_mul, hSe, hSe, if_pos, one_mul]
      have := k.2
      show k.1 < min m n
      omega
  have hSu : ∀ i j, j < i → S i j = 0 := fun i j h => by rw [hSe]; exact x5 _ _ h
  have hSd : ∀ j, S j j ≠ 0 := by
    have : S.det ≠ 0 := fun h => by
      rw [← hTT, Matrix.det_mul, h, mul_zero] at hdet
      exact hdet rfl
    rw [Matrix.det_of_upperTriangular (fun i j hij => hSu i j hij)] at this
    exact fun j => Finset.prod_ne_zero_iff.1 this j (Finset.mem_univ j)
  have hM : IsCholesky (A.transpose * A) (Matrix.of fun i j => S j i * SignType.sign (S j j)) := by
    refine ⟨fun i j h => ?_, fun i => ?_, ?_⟩
    · rw [Matrix.of_apply, hSu j i h, zero_mul]
    · rw [Matrix.of_apply, mul_comm, sign_mul_self]; exact abs_pos.2 (hSd i)
    · rw [← hTT]
      ext i k
      rw [Matrix.mul_apply, Matrix.mul_apply]
      refine Finset.sum_congr rfl fun j _ => ?_
      simp only [Matrix.transpose_apply, Matrix.of_apply]
      have hs : ((SignType.sign (S j j) : SignType) : ℝ) * (SignType.sign (S j j) : SignType) = 1 := by
        rcases lt_or_gt_of_ne (hSd j) with h | h
        · rw [sign_neg h]; simp
        · rw [sign_pos h]; simp
      linear_combination (S j i * S j k) * hs
  have hL := c6 _ hM
  have habs : ∀ i j : Fin n, |L i j| = |T ⟨j, j.2.trans_le hnm⟩ i| := fun i j => by
    rw [← hL, Matrix.of_apply, abs_mul, hSe]
    have : |((SignType.sign (S j j) : SignType) : ℝ)| = 1 := by
      rcases lt_or_gt_of_ne (hSd j) with h | h
      · rw [sign_neg h]; simp
      · rw [sign_pos h]; simp
    rw [this, mul_one]; rfl
  -- the solution
  obtain ⟨P, p1, p2, -⟩ := C39_pinverse hm hn A hf
  have hn' : A.transpose * A * (P * B) = A.transpose * B := by
    rw [p2, ← Matrix.mul_assoc, ← Matrix.mul_assoc, Matrix.mul_nonsing_inv _ (Ne.isUnit hdet), Matrix.one_mul]
  obtain ⟨c', X, k1, k2, k3, k4⟩ := C41_solve hn hp (A.transpose * A) hG (A.transpose * B)
  obtain rfl : c = c' := Option.some.inj (Except.ok.inj (c1.symm.trans k1))
  have hX : P * B = X := k4 _ hn'
  refine ⟨x, T, c, L, X, ofM P, x1, x3, ?_, c2, habs, p1, ?_, ?_, fun Y j => ?_⟩
  · rw [t_ofM hm, ok_bind, C10_mul hn hm, ok_bind, c1]
  · rw [C10_mul hn hm, hX]
  · rw [t_ofM hm, ok_bind, C10_mul hn hm, ok_bind, k2]
  · have hz : ∀ k, ∑ i, A i k * (B i j - (A * X) i j) = 0 := fun k => by
      have h1 : (A.transpose * (B - A * X)) k j = 0 := by
        rw [Matrix.mul_sub, ← Matrix.mul_assoc, k3, sub_self]; rfl
      rw [Matrix.mul_apply] at h1
      exact h1
    have hcross : ∑ i, (B i j - (A * X) i j) * (A * (X - Y)) i j = 0 := by
      simp only [Matrix.mul_apply (M := A) (N := X - Y), Finset.mul_sum]
      rw [Finset.sum_comm]
      refine Finset.sum_eq_zero fun k _ => ?_
      have := congrArg (· * (X - Y) k j) (hz k)
      simp only [zero_mul, Finset.sum_mul] at this
      rw [← this]
      exact Finset.sum_congr rfl fun i _ => by ring
    have hexp : ∑ i, (B i j - (A * Y) i j) ^ 2 = ∑ i, (B i j - (A * X) i j) ^ 2 +
        2 * (∑ i, (B i j - (A * X) i j) * (A * (X - Y)) i j) + ∑ i, ((A * (X - Y)) i j) ^ 2 := by
      rw [Finset.mul_sum, ← Finset.sum_add_distrib, ← Finset.sum_add_distrib]
      refine Finset.sum_congr rfl fun i _ => ?_
      rw [Matrix.mul_sub]
      simp only [Matrix.sub_apply]
      ring
    rw [hexp, hcross]
    have := Finset.sum_nonneg fun (i : Fin m) (_ : i ∈ Finset.univ) => sq_nonneg ((A * (X - Y)) i j)
    linarith

/-! ## Examples -/

/-- Two invertible matrices. -/
example : (ofM (!![2, 1; 1, 1] : Matrix (Fin 2) (Fin 2) ℚ)).inverse = .ok (some (ofM !![1, -1; -1, 2])) ∧
    (ofM (!![0, 1; 2, 0] : Matrix (Fin 2) (Fin 2) ℚ)).inverse = .ok (some (ofM !![0, 1 / 2; 1, 0])) := by
  decide +kernel

open Classical in
/-- A tall matrix with independent columns. -/
example : (QR.new (ofM (!![1, 0; 0, 2; 1, 1] : Matrix (Fin 3) (Fin 2) ℝ)) >>= QR.isFullRank) = .ok true := by
  rw [C37_isFullRank_partial two_pos (by norm_num)]
  refine congrArg Except.ok (decide_eq_true fun x hx => ?_)
  have h0 := congrFun hx 0
  have h1 := congrFun hx 1
  simp [Matrix.mulVec, dotProduct, Fin.sum_univ_two] at h0 h1
  funext i; fin_cases i
  · exact h0
  · exact h1

/-- A matrix with a Cholesky decomposition. -/
example : ∃ c, Cholesky.new (ofM (!![2, 1; 1, 3] : Matrix (Fin 2) (Fin 2) ℝ)) = .ok (some c) := by
  refine (C40_iff two_pos _).2 ⟨fun i j => by fin_cases i <;> fin_cases j <;> rfl, fun x hx => ?_⟩
  simp only [Fin.sum_univ_two, Matrix.of_apply, Matrix.cons_val', Matrix.cons_val_zero, Matrix.cons_val_one, Matrix.cons_val_fin_one]
  have : x 0 ≠ 0 ∨ x 1 ≠ 0 := by
    by_contra h
    push Not at h
    exact hx (funext fun i => by fin_cases i; exacts [h.1, h.2])
  rcases this with h | h
  · nlinarith [sq_nonneg (x 0 + x 1), sq_nonneg (x 1), sq_pos_of_ne_zero h]
  · nlinarith [sq_nonneg (x 0 + x 1), sq_nonneg (x 0), sq_pos_of_ne_zero h]

end LA.Props
