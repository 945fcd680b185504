import Verif.Proofs.StdDirect2
import Verif.IEEE
import Verif.Props.EigenRounding

/-!
# C108: singular value decomposition by the direct method, in rounded arithmetic

The arithmetic is the standard model (`Sfp`: every operation correct up to a relative error `u`, no overflow, no underflow), with two more
assumptions: `x * y = y * x`, and the square root of a negative number does not return a number (the model stops, floating point goes on with NaN).
Both hold for exact arithmetic and for `Fu`.  The step budget `fuel` bounds the iterations for one eigenvalue.
-/

set_option linter.unusedSectionVars false

namespace LA.Props
open Finset Matrix

variable {α : Type} [Zero α] [One α] [Add α] [Sub α] [Neg α] [Mul α] [FloatOps α] [Sfp α]

/-- The error of the squares of the singular values, relative to `‖A‖²`: rounding errors of `AᵀA` and of the roots, and the error of the
eigendecomposition. -/
noncomputable def squareError (u : ℝ) (m n fuel : Nat) : ℝ := (1 - u)⁻¹ ^ (m + 3) * (1 + eigError u n fuel) - 1

/-- The error of `V`, in the Frobenius norm. -/
noncomputable def vError (u : ℝ) (n fuel : Nat) : ℝ := eigError u n fuel * Real.sqrt n

/-- The rounding error of `A·V·S⁻¹`, relative to `‖A‖`. -/
noncomputable def uError (u : ℝ) (n fuel : Nat) : ℝ := ((1 - u)⁻¹ ^ (3 * n + 3) - 1) * (Real.sqrt n + vError u n fuel)

/-- The additional assumptions on the arithmetic. -/
structure Commutes (α : Type) [Zero α] [One α] [Add α] [Sub α] [Neg α] [Mul α] [FloatOps α] [Sfp α] : Prop where
  /-- products commute -/
  mul_comm : ∀ x y : α, x * y = y * x
  /-- only numbers that are not negative have a square root -/
  sqrt_nonneg : ∀ x z : α, FloatOps.sqrt x = .ok z → 0 ≤ Sfp.val x

/-- Exact arithmetic satisfies the assumptions. -/
theorem commutes_real : Commutes ℝ where
  mul_comm := mul_comm
  sqrt_nonneg x z h := by
    by_contra hx
    have h' : (FloatOps.sqrt x : R ℝ) = .error .undef := if_pos (not_le.1 hx)
    rw [h'] at h
    exact nomatch h

/-- Double precision with an unbounded exponent satisfies the assumptions. -/
theorem commutes_double : Commutes Fu where
  mul_comm x y := by
    show (⟨Fu.rnd (x.q * y.q)⟩ : Fu) = ⟨Fu.rnd (y.q * x.q)⟩
    rw [mul_comm]
  sqrt_nonneg x z h := by
    by_contra hx
    have hx' : x.q < 0 := by
      have : (x.q : ℝ) < 0 := not_le.1 hx
      exact_mod_cast this
    have h' : (FloatOps.sqrt x : R Fu) = .error .undef := if_pos hx'
    rw [h'] at h
    exact nomatch h

theorem frob_abs {m n : Nat} (A : Matrix (Fin m) (Fin n) ℝ) : frob (Matrix.of fun i j => |A i j|) = frob A := by
  unfold frob
  simp only [of_apply, sq_abs]

/-- The error of a product whose terms are all known up to `k` roundings. -/
theorem wt_mul_err {m n p k : Nat} {A : Matrix (Fin m) (Fin n) ℝ} {B : Matrix (Fin n) (Fin p) ℝ} {C : Matrix (Fin m) (Fin p) ℝ} {w : ℝ} (hw : 1 ≤ w)
    (h : ∀ i j, ∃ ρ : Fin n → ℝ, (∀ t, Wt w k (ρ t)) ∧ C i j = ∑ t, ρ t * (A i t * B t j)) :
    frob (C - A * B) ≤ (w ^ k - 1) * (frob A * frob B) := by
  have h1 : frob (C - A * B) ≤ frob ((w ^ k - 1) • ((Matrix.of fun i j => |A i j|) * (Matrix.of fun i j => |B i j|))) := by
    refine frob_mono fun i j => ?_
    obtain ⟨ρ, hρ, e⟩ := h i j
    rw [Matrix.sub_apply, e, mul_apply]
    refine (Std.sum_err hw univ hρ).trans (le_of_eq ?_)
    rw [Matrix.smul_apply, smul_eq_mul, mul_apply]
    simp only [of_apply, abs_mul]
  refine h1.trans ?_
  have h0 : 0 ≤ w ^ k - 1 := sub_nonneg.2 (one_le_pow₀ hw)
  rw [frob_smul, abs_of_nonneg h0]
  refine mul_le_mul_of_nonneg_left ?_ h0
  refine (frob_mul_le _ _).trans (le_of_eq ?_)
  rw [frob_abs, frob_abs]

/-- The rounded `AᵀA`. -/
theorem directGram_err {m n : Nat} (A : Matrix (Fin m) (Fin n) α) :
    frob (values (Std.fmul Aᵀ A) - (values A)ᵀ * values A) ≤ ((1 - Sfp.u α)⁻¹ ^ (m + 1) - 1) * frob (values A) ^ 2 := by
  have := wt_mul_err (A := (values A)ᵀ) (B := values A) (C := values (Std.fmul Aᵀ A)) (k := m + 1) (w := Sfp.w α) Std.w_one
    (fun i j => Std.fmul_wt Aᵀ A i j)
  rw [frob_transpose, ← sq] at this
  exact this

/-- What a run of `SVD::direct` on a tall or square matrix leaves, in terms of the eigendecomposition of the rounded `AᵀA`. -/
theorem direct_core {m n : Nat} (ha : Commutes α) (hn : 0 < n) (hnm : n ≤ m) (hu : Sfp.u α ≤ 1 / 1000) (A : Matrix (Fin m) (Fin n) α) {fuel : Nat}
    {x : SVD α} (hx : SVD.direct fuel (ofM A) = .ok x) :
    ∃ (U : Matrix (Fin m) (Fin m) α) (V : Matrix (Fin n) (Fin n) α) (s : Nat → α) (d : Nat → ℝ),
      x = ⟨ofM U, ofM (Matrix.of fun (i : Fin m) (j : Fin n) => if i.1 = j.1 then s i else 0), ofM V⟩ ∧
      (∀ i j : Fin m, n ≤ j.1 → Sfp.val (U i j) = 0) ∧
      (∀ i j, i ≤ j → j < n → d j ≤ d i) ∧ (∀ i, i < n → 0 < d i ∧ Rt (Sfp.w α) 1 (Sfp.val (s i)) (Real.sqrt (d i))) ∧
      (∃ Q, Orthogonal Q ∧ frob (values V - Q) ≤ vError (Sfp.u α) n fuel ∧
        frob (values (Std.fmul Aᵀ A) - Q * Matrix.diagonal (fun i : Fin n => d i) * Qᵀ) ≤
          eigError (Sfp.u α) n fuel * frob (values (Std.fmul Aᵀ A))) ∧
      frob (values U * values (Matrix.of fun (i : Fin m) (j : Fin n) => if i.1 = j.1 then s i else 0) - values A * values V) ≤
        ((1 - Sfp.u α)⁻¹ ^ (3 * n + 3) - 1) * (frob (values A) * frob (values V)) := by
  unfold SVD.direct at hx
  rw [ofM_cols A (by omega), ok_bind, ofM_rows, if_neg (by omega)] at hx
  rcases Std.directTall_run ha.mul_comm (by omega) hn (kq_small hu) A fuel with h | ⟨V, δ, hG, h⟩
  · rw [h] at hx; exact nomatch hx
  rw [h] at hx
  have h0 := Std.tail_nonneg ha.sqrt_nonneg hx
  by_cases h1 : ∃ i, i < n ∧ Sfp.val (δ i) = 0
  · rw [Std.tail_zero hn h0 h1] at hx; exact nomatch hx
  have hpos : ∀ i, i < n → 0 < Sfp.val (δ i) := fun i hi => lt_of_le_of_ne (h0 i hi) fun h => h1 ⟨i, hi, h.symm⟩
  obtain ⟨U, e, u1, u2⟩ := Std.tail_pos hn hnm A V hpos
  rw [e] at hx
  cases hx
  obtain ⟨Q, hQ, q1, q2⟩ := hG.near
  refine ⟨U, V, fun i => Std.sq (δ i), fun i => Sfp.val (δ i), rfl, u1, fun i j hij hj => ?_, fun i hi => ⟨hpos i hi, (Std.sq_ok (h0 i hi)).2⟩,
    ⟨Q, hQ, q1, q2⟩, ?_⟩
  · rcases Nat.lt_or_eq_of_le hij with h | h
    · exact hG.ord i j h hj
    · rw [h]
  · refine wt_mul_err (w := Sfp.w α) Std.w_one fun i j => ?_
    obtain ⟨ρ, r1, r2⟩ := u2 i ⟨j, by omega⟩ j.2
    refine ⟨ρ, r1, ?_⟩
    rw [mul_apply, Finset.sum_eq_single (⟨j, by omega⟩ : Fin m) (fun b _ hb => ?_) (by simp)]
    · refine Eq.trans ?_ r2
      show Sfp.val (U i ⟨j, _⟩) * Sfp.val (if j.1 = j.1 then Std.sq (δ j) else 0) = _
      rw [if_pos rfl]
    · show Sfp.val (U i b) * Sfp.val (if b.1 = j.1 then Std.sq (δ b) else 0) = 0
      rw [if_neg (fun h => hb (Fin.ext h)), Sfp.zero, mul_zero]

theorem w_ge : 1 ≤ (1 - Sfp.u α)⁻¹ := Std.w_one (α := α)

theorem vError_nonneg (hu : Sfp.u α ≤ 1 / 1000) (n fuel : Nat) : 0 ≤ vError (Sfp.u α) n fuel :=
  mul_nonneg (eigError_nonneg hu n fuel) (Real.sqrt_nonneg _)

/-- Close to the rounded `AᵀA` is close to `AᵀA`. -/
theorem directGram_close {m n : Nat} (hu : Sfp.u α ≤ 1 / 1000) (A : Matrix (Fin m) (Fin n) α) {fuel : Nat} {M : Matrix (Fin n) (Fin n) ℝ}
    (h : frob (values (Std.fmul Aᵀ A) - M) ≤ eigError (Sfp.u α) n fuel * frob (values (Std.fmul Aᵀ A))) :
    frob ((values A)ᵀ * values A - M) ≤
      ((1 - Sfp.u α)⁻¹ ^ (m + 1) * (1 + eigError (Sfp.u α) n fuel) - 1) * frob (values A) ^ 2 := by
  have h1 := directGram_err A
  have hδ := eigError_nonneg (α := α) hu n fuel
  have h2 : frob ((values A)ᵀ * values A) ≤ frob (values A) ^ 2 := by
    refine (frob_mul_le _ _).trans (le_of_eq ?_)
    rw [frob_transpose, sq]
  set δ := eigError (Sfp.u α) n fuel
  set G := values (Std.fmul Aᵀ A)
  set B := (values A)ᵀ * values A
  set t2 := frob (values A) ^ 2
  set w := (1 - Sfp.u α)⁻¹ ^ (m + 1)
  have h3 : frob G ≤ w * t2 := by
    have e : G = B + (G - B) := by abel
    rw [e]
    refine (frob_add_le _ _).trans ?_
    linarith
  have h4 := frob_tri B G M
  rw [frob_sub_comm B G] at h4
  have h5 := mul_le_mul_of_nonneg_left h3 hδ
  linarith

/-- A symmetric matrix is determined by its quadratic form. -/
theorem quad_zero {n : Nat} {M : Matrix (Fin n) (Fin n) ℝ} (hM : M.IsSymm) (h : ∀ y : Fin n → ℝ, y ⬝ᵥ (M *ᵥ y) = 0) : M = 0 := by
  ext i j
  have h1 := h (Pi.single i 1)
  have h2 := h (Pi.single j 1)
  have h3 := h (Pi.single i 1 + Pi.single j 1)
  rw [Matrix.mulVec_add, add_dotProduct, dotProduct_add, dotProduct_add, h1, h2] at h3
  simp only [Matrix.mulVec_single_one, single_one_dotProduct, Matrix.col_apply] at h3
  have h4 : M j i = M i j := hM.apply i j
  rw [h4] at h3
  show M i j = 0
  linarith

/-- The eigenvalues of `AᵀA` are the squares of the singular values. -/
theorem gram_sing {m n : Nat} (A : Matrix (Fin m) (Fin n) ℝ) :
    ∃ Q : Matrix (Fin n) (Fin n) ℝ, Orth Q ∧ (∀ i j, i ≤ j → j < n → singularValue A j ≤ singularValue A i) ∧
      (∀ i, 0 ≤ singularValue A i) ∧ Aᵀ * A = Q * Matrix.diagonal (fun i : Fin n => singularValue A i ^ 2) * Qᵀ := by
  obtain ⟨Q, h⟩ := sing_mathlib A
  refine ⟨Q, h.orth, h.sorted, fun i => (Matrix.toEuclideanLin A).singularValues_nonneg i, ?_⟩
  have hz : Qᵀ * (Aᵀ * A) * Q - Matrix.diagonal (fun i : Fin n => singularValue A i ^ 2) = 0 := by
    refine quad_zero ?_ fun y => ?_
    · unfold Matrix.IsSymm
      rw [transpose_sub, diagonal_transpose, transpose_mul, transpose_mul, transpose_mul, transpose_transpose, transpose_transpose,
        Matrix.mul_assoc Qᵀ]
    · have h1 := h.nsq (Matrix.of fun i _ => y i)
      rw [frob_sq] at h1
      have e1 : ∀ i : Fin m, (A * (Q * Matrix.of fun (i : Fin n) (_ : Fin 1) => y i)) i 0 = ((A * Q) *ᵥ y) i := by
        intro i
        rw [← Matrix.mul_assoc, mul_apply]
        rfl
      simp only [Fin.sum_univ_one, e1] at h1
      have e2 : y ⬝ᵥ ((Qᵀ * (Aᵀ * A) * Q) *ᵥ y) = ∑ i, ((A * Q) *ᵥ y) i ^ 2 := by
        rw [show Qᵀ * (Aᵀ * A) * Q = (A * Q)ᵀ * (A * Q) by rw [transpose_mul]; simp only [Matrix.mul_assoc], ← mulVec_mulVec,
          dotProduct_mulVec, vecMul_transpose]
        exact Finset.sum_congr rfl fun i _ => (sq _).symm
      rw [sub_mulVec, dotProduct_sub, e2, h1, ← Fin.sum_univ_eq_sum_range (fun i => ((Matrix.toEuclideanLin A).singularValues i * ext0 (Matrix.of fun i _ => y i) i) ^ 2), sub_eq_zero]
      refine Finset.sum_congr rfl fun i _ => ?_
      rw [mulVec_diagonal, ext0, dif_pos i.2]
      show ((Matrix.toEuclideanLin A).singularValues i * y i) ^ 2 = y i * ((Matrix.toEuclideanLin A).singularValues i ^ 2 * y i)
      ring
  have h2 : Qᵀ * (Aᵀ * A) * Q = Matrix.diagonal (fun i : Fin n => singularValue A i ^ 2) := sub_eq_zero.1 hz
  rw [← h2]
  have h3 : Q * Qᵀ = 1 := h.orth.right
  calc Aᵀ * A = (Q * Qᵀ) * (Aᵀ * A) * (Q * Qᵀ) := by rw [h3, Matrix.one_mul, Matrix.mul_one]
    _ = Q * (Qᵀ * (Aᵀ * A) * Q) * Qᵀ := by simp only [Matrix.mul_assoc]

theorem singular_sq_le {m n : Nat} (A : Matrix (Fin m) (Fin n) ℝ) {k : Nat} (hk : k < n) : singularValue A k ^ 2 ≤ frob A ^ 2 := by
  obtain ⟨Q, hQ, -, -, h⟩ := gram_sing A
  have h1 : frob (Aᵀ * A) ≤ frob A ^ 2 := by
    refine (frob_mul_le _ _).trans (le_of_eq ?_)
    rw [frob_transpose, sq]
  rw [h, frob_mul_right _ hQ, frob_mul_left _ hQ] at h1
  have h2 := abs_le_frob (Matrix.diagonal (fun i : Fin n => singularValue A i ^ 2)) ⟨k, hk⟩ ⟨k, hk⟩
  rw [diagonal_apply_eq, abs_of_nonneg (sq_nonneg _)] at h2
  exact h2.trans h1

/-- The eigenvalues found are the squares of the singular values, up to rounding. -/
theorem eig_close {m n : Nat} {A : Matrix (Fin m) (Fin n) ℝ} {Q : Matrix (Fin n) (Fin n) ℝ} {d : Nat → ℝ} {b : ℝ} (hQ : Orth Q)
    (hd : ∀ i j, i ≤ j → j < n → d j ≤ d i) (h : frob (Aᵀ * A - Q * Matrix.diagonal (fun i : Fin n => d i) * Qᵀ) ≤ b) {k : Nat} (hk : k < n) :
    |d k - singularValue A k ^ 2| ≤ b := by
  obtain ⟨W, hW, h1, h2, h3⟩ := gram_sing A
  rw [h3] at h
  exact (weyl_sym (l := fun i => singularValue A i ^ 2) hW hQ (fun i j hij hj => pow_le_pow_left₀ (h2 j) (h1 i j hij hj) 2) hd hk).trans h

/-- The squares of the roots of the eigenvalues found. -/
theorem square_close {m n : Nat} (hu : Sfp.u α ≤ 1 / 1000) (A : Matrix (Fin m) (Fin n) α) {fuel : Nat} {Q : Matrix (Fin n) (Fin n) ℝ} {d : Nat → ℝ}
    {s : Nat → α} (hQ : Orth Q) (hd : ∀ i j, i ≤ j → j < n → d j ≤ d i) (hd0 : ∀ i, i < n → 0 < d i)
    (hs : ∀ i, i < n → Rt (Sfp.w α) 1 (Sfp.val (s i)) (Real.sqrt (d i)))
    (h : frob (values (Std.fmul Aᵀ A) - Q * Matrix.diagonal (fun i : Fin n => d i) * Qᵀ) ≤
      eigError (Sfp.u α) n fuel * frob (values (Std.fmul Aᵀ A))) {k : Nat} (hk : k < n) :
    |Sfp.val (s k) ^ 2 - d k| ≤ ((1 - Sfp.u α)⁻¹ ^ 2 - 1) * ((1 - Sfp.u α)⁻¹ ^ (m + 1) * (1 + eigError (Sfp.u α) n fuel) * frob (values A) ^ 2) ∧
    |Sfp.val (s k) ^ 2 - singularValue (values A) k ^ 2| ≤ squareError (Sfp.u α) m n fuel * frobenius (values A) ^ 2 := by
  have hc := directGram_close hu A h
  have h1 := eig_close hQ hd hc hk
  have hδ := eigError_nonneg (α := α) hu n fuel
  have e0 : frobenius (values A) = frob (values A) := rfl
  have hsv := singular_sq_le (values A) hk
  have h2 : Rt (Sfp.w α) 2 (Sfp.val (s k) ^ 2) (d k) := by
    have := (hs k hk).mul Std.w_one (hs k hk)
    rw [Real.mul_self_sqrt (hd0 k hk).le, ← sq] at this
    exact this
  have h3 := h2.sub Std.w_one
  rw [abs_of_pos (hd0 k hk)] at h3
  have hw2 : 0 ≤ (1 - Sfp.u α)⁻¹ ^ 2 - 1 := sub_nonneg.2 (one_le_pow₀ w_ge)
  have ew : (1 - Sfp.u α)⁻¹ ^ (m + 3) = (1 - Sfp.u α)⁻¹ ^ 2 * (1 - Sfp.u α)⁻¹ ^ (m + 1) := by rw [← pow_add]; congr 1; omega
  change |Sfp.val (s k) ^ 2 - d k| ≤ ((1 - Sfp.u α)⁻¹ ^ 2 - 1) * d k at h3
  unfold squareError
  rw [e0, ew]
  set t2 := frob (values A) ^ 2
  set W := (1 - Sfp.u α)⁻¹ ^ (m + 1)
  set q := (1 - Sfp.u α)⁻¹ ^ 2
  set δ := eigError (Sfp.u α) n fuel
  set σ := singularValue (values A) k ^ 2
  have h4 : d k ≤ W * (1 + δ) * t2 := by
    have := (abs_le.1 h1).2
    linarith
  have h5 := mul_le_mul_of_nonneg_left h4 hw2
  refine ⟨h3.trans h5, ?_⟩
  have h6 := abs_sub_le (Sfp.val (s k) ^ 2) (d k) σ
  have h7 : |Sfp.val (s k) ^ 2 - d k| ≤ (q - 1) * (W * (1 + δ) * t2) := h3.trans h5
  have : (q * W * (1 + δ) - 1) * t2 = (q - 1) * (W * (1 + δ) * t2) + (W * (1 + δ) - 1) * t2 := by ring
  rw [this]
  linarith

/-- C108, no panic: if the smallest singular value of a tall or square `A` is clearly positive, `SVD::direct` returns a decomposition, or its budget of
iterations is exhausted. -/
theorem C108_no_panic {m n : Nat} (ha : Commutes α) (hn : 0 < n) (hnm : n ≤ m) (hu : Sfp.u α ≤ 1 / 1000) (A : Matrix (Fin m) (Fin n) α) (fuel : Nat)
    (hA : squareError (Sfp.u α) m n fuel * frobenius (values A) ^ 2 < singularValue (values A) (n - 1) ^ 2) :
    (∃ x, SVD.direct fuel (ofM A) = .ok x) ∨ SVD.direct fuel (ofM A) = .error .fuel := by
  unfold SVD.direct
  rw [ofM_cols A (by omega), ok_bind, ofM_rows, if_neg (by omega)]
  rcases Std.directTall_run ha.mul_comm (by omega) hn (kq_small hu) A fuel with h | ⟨V, δ, hG, h⟩
  · exact Or.inr h
  left
  rw [h]
  obtain ⟨Q, hQ, -, q2⟩ := hG.near
  have hord : ∀ i j, i ≤ j → j < n → Sfp.val (δ j) ≤ Sfp.val (δ i) := by
    intro i j hij hj
    rcases Nat.lt_or_eq_of_le hij with h | h
    · exact hG.ord i j h hj
    · rw [h]
  have h1 := eig_close hQ hord (directGram_close hu A q2) (k := n - 1) (by omega)
  have h2 : ((1 - Sfp.u α)⁻¹ ^ (m + 1) * (1 + eigError (Sfp.u α) n fuel) - 1) * frob (values A) ^ 2 ≤
      squareError (Sfp.u α) m n fuel * frobenius (values A) ^ 2 := by
    refine mul_le_mul_of_nonneg_right ?_ (sq_nonneg _)
    unfold squareError
    refine sub_le_sub_right (mul_le_mul_of_nonneg_right (pow_le_pow_right₀ w_ge (by omega)) ?_) 1
    linarith [eigError_nonneg (α := α) hu n fuel]
  have h3 : 0 < Sfp.val (δ (n - 1)) := by
    have := (abs_le.1 (h1.trans h2)).1
    linarith
  obtain ⟨U, e, -, -⟩ := Std.tail_pos hn hnm A V (δ := δ) fun i hi => lt_of_lt_of_le h3 (hord i (n - 1) (by omega) (by omega))
  exact ⟨_, e⟩

/-- C108, the factors `SVD::direct` returns for a tall or square matrix: `U` with zero columns at the end, a positive diagonal matrix `S`, in decreasing
order up to rounding, and a matrix `V` that is orthogonal up to rounding. -/
theorem C108_factors {m n : Nat} (ha : Commutes α) (hn : 0 < n) (hnm : n ≤ m) (hu : Sfp.u α ≤ 1 / 1000) (A : Matrix (Fin m) (Fin n) α) {fuel : Nat}
    {x : SVD α} (hx : SVD.direct fuel (ofM A) = .ok x) :
    ∃ (U : Matrix (Fin m) (Fin m) α) (V : Matrix (Fin n) (Fin n) α) (s : Nat → α),
      x = ⟨ofM U, ofM (Matrix.of fun (i : Fin m) (j : Fin n) => if i.1 = j.1 then s i else 0), ofM V⟩ ∧
      (∀ i j : Fin m, n ≤ j.1 → Sfp.val (U i j) = 0) ∧ (∀ i, i < n → 0 < Sfp.val (s i)) ∧
      (∀ i j, i ≤ j → j < n → Sfp.val (s j) ≤ (1 - Sfp.u α)⁻¹ ^ 2 * Sfp.val (s i)) ∧
      ∃ Q, Orthogonal Q ∧ frobenius (values V - Q) ≤ vError (Sfp.u α) n fuel := by
  obtain ⟨U, V, s, d, rfl, h1, h2, h3, ⟨Q, hQ, h4, -⟩, -⟩ := direct_core ha hn hnm hu A hx
  refine ⟨U, V, s, rfl, h1, fun i hi => (h3 i hi).2.pos Std.w_one (Real.sqrt_pos.2 (h3 i hi).1), fun i j hij hj => ?_, Q, hQ, h4⟩
  obtain ⟨ρ, ⟨-, r1⟩, e1⟩ := (h3 j hj).2
  obtain ⟨σ, ⟨r2, -⟩, e2⟩ := (h3 i (by omega)).2
  rw [pow_one] at r1 r2
  have h5 := Real.sqrt_le_sqrt (h2 i j hij hj)
  have h6 := Real.sqrt_nonneg (d j)
  have h7 := Real.sqrt_nonneg (d i)
  have hw := Std.w_one (α := α)
  show Sfp.val (s j) ≤ Sfp.w α ^ 2 * Sfp.val (s i)
  rw [e1, e2]
  calc ρ * Real.sqrt (d j) ≤ Sfp.w α * Real.sqrt (d j) := mul_le_mul_of_nonneg_right r1 h6
    _ ≤ Sfp.w α * Real.sqrt (d i) := mul_le_mul_of_nonneg_left h5 (by linarith)
    _ ≤ Sfp.w α * ((σ * Sfp.w α) * Real.sqrt (d i)) := by
      refine mul_le_mul_of_nonneg_left ?_ (by linarith)
      have := mul_le_mul_of_nonneg_right r2 h7
      linarith
    _ = Sfp.w α ^ 2 * (σ * Real.sqrt (d i)) := by ring

/-- C108, singular values: the square of the `k`-th entry of `S` is the square of the `k`-th singular value of `A`, up to an error relative to the
square of the norm of `A` (so small singular values are lost at half the precision). -/
theorem C108_singular_values {m n : Nat} (ha : Commutes α) (hn : 0 < n) (hnm : n ≤ m) (hu : Sfp.u α ≤ 1 / 1000) (A : Matrix (Fin m) (Fin n) α)
    {fuel : Nat} {x : SVD α} (hx : SVD.direct fuel (ofM A) = .ok x) :
    ∃ s : Nat → α, x.s = ofM (Matrix.of fun (i : Fin m) (j : Fin n) => if i.1 = j.1 then s i else 0) ∧
      ∀ k, k < n → |Sfp.val (s k) ^ 2 - singularValue (values A) k ^ 2| ≤ squareError (Sfp.u α) m n fuel * frobenius (values A) ^ 2 := by
  obtain ⟨U, V, s, d, rfl, h1, h2, h3, ⟨Q, hQ, h4, h5⟩, -⟩ := direct_core ha hn hnm hu A hx
  refine ⟨s, rfl, fun k hk => ?_⟩
  exact (square_close hu A hQ h2 (fun i hi => (h3 i hi).1) (fun i hi => (h3 i hi).2) h5 hk).2

/-- `‖V‖`, `‖A·(V - Q)‖`. -/
theorem v_norm {n : Nat} {V Q : Matrix (Fin n) (Fin n) ℝ} (hQ : Orth Q) {h : ℝ} (hV : frob (V - Q) ≤ h) : frob V ≤ Real.sqrt n + h := by
  have e : V = Q + (V - Q) := by abel
  rw [e]
  refine (frob_add_le _ _).trans ?_
  rw [hQ.frob]
  linarith

theorem uError_nonneg (hu : Sfp.u α ≤ 1 / 1000) (n fuel : Nat) : 0 ≤ uError (Sfp.u α) n fuel :=
  mul_nonneg (sub_nonneg.2 (one_le_pow₀ w_ge)) (add_nonneg (Real.sqrt_nonneg _) (vError_nonneg hu n fuel))

/-- The error of `U·S`, with the norm of `V` bounded. -/
theorem us_err {m n : Nat} {A : Matrix (Fin m) (Fin n) ℝ} {V Q : Matrix (Fin n) (Fin n) ℝ} {F : Matrix (Fin m) (Fin n) ℝ} {fuel : Nat} (hQ : Orth Q)
    (hV : frob (V - Q) ≤ vError (Sfp.u α) n fuel) (h : frob (F - A * V) ≤ ((1 - Sfp.u α)⁻¹ ^ (3 * n + 3) - 1) * (frob A * frob V)) :
    frob (F - A * V) ≤ uError (Sfp.u α) n fuel * frob A := by
  have h0 : 0 ≤ (1 - Sfp.u α)⁻¹ ^ (3 * n + 3) - 1 := sub_nonneg.2 (one_le_pow₀ w_ge)
  refine h.trans ?_
  have h1 := mul_le_mul_of_nonneg_left (mul_le_mul_of_nonneg_left (v_norm hQ hV) (frob_nonneg A)) h0
  unfold uError
  linarith

/-- C108, singular vectors: `U·S` is `A·V` up to rounding. -/
theorem C108_vectors {m n : Nat} (ha : Commutes α) (hn : 0 < n) (hnm : n ≤ m) (hu : Sfp.u α ≤ 1 / 1000) (A : Matrix (Fin m) (Fin n) α)
    {fuel : Nat} {x : SVD α} (hx : SVD.direct fuel (ofM A) = .ok x) :
    ∃ (U : Matrix (Fin m) (Fin m) α) (S : Matrix (Fin m) (Fin n) α) (V : Matrix (Fin n) (Fin n) α), x = ⟨ofM U, ofM S, ofM V⟩ ∧
      frobenius (values U * values S - values A * values V) ≤ uError (Sfp.u α) n fuel * frobenius (values A) := by
  obtain ⟨U, V, s, d, rfl, -, -, -, ⟨Q, hQ, h4, -⟩, h6⟩ := direct_core ha hn hnm hu A hx
  exact ⟨U, _, V, rfl, us_err hQ h4 h6⟩

theorem direct_residual {m n : Nat} {A F : Matrix (Fin m) (Fin n) ℝ} {V Q : Matrix (Fin n) (Fin n) ℝ} {h ε : ℝ} (hQ : Orth Q)
    (hV : frob (V - Q) ≤ h) (hF : frob (F - A * V) ≤ ε * frob A) :
    frob (F * Vᵀ - A) ≤ ((1 + h) * (1 + h + ε) - 1) * frob A := by
  have h0 : 0 ≤ h := (frob_nonneg _).trans hV
  have hVt : frob (Vᵀ - Qᵀ) ≤ h := by rw [← transpose_sub, frob_transpose]; exact hV
  have h1 : frob (V * Vᵀ - 1) ≤ 2 * h + h ^ 2 := by
    have := near_orth hQ.transpose hVt
    rwa [transpose_transpose] at this
  set E := F - A * V with hE
  have e : F * Vᵀ - A = E * Qᵀ + E * (Vᵀ - Qᵀ) + A * (V * Vᵀ - 1) := by
    rw [hE, Matrix.mul_sub, Matrix.mul_sub, Matrix.mul_one, Matrix.sub_mul, Matrix.sub_mul, Matrix.mul_assoc, Matrix.mul_assoc]
    abel
  rw [e]
  refine (frob_add_le _ _).trans ?_
  have h2 := frob_add_le (E * Qᵀ) (E * (Vᵀ - Qᵀ))
  rw [frob_mul_right _ hQ] at h2
  have h3 := frob_mul_le E (Vᵀ - Qᵀ)
  have h4 := frob_mul_le A (V * Vᵀ - 1)
  have h5 := mul_le_mul_of_nonneg_left hVt (frob_nonneg E)
  have h6 := mul_le_mul_of_nonneg_left h1 (frob_nonneg A)
  have h7 := mul_le_mul_of_nonneg_left hF (show 0 ≤ 1 + h by linarith)
  linarith

/-- C108, reconstruction: `U·S·Vᵀ` is `A` up to rounding; this needs no condition on how small the singular values are. -/
theorem C108_residual {m n : Nat} (ha : Commutes α) (hn : 0 < n) (hnm : n ≤ m) (hu : Sfp.u α ≤ 1 / 1000) (A : Matrix (Fin m) (Fin n) α)
    {fuel : Nat} {x : SVD α} (hx : SVD.direct fuel (ofM A) = .ok x) :
    ∃ (U : Matrix (Fin m) (Fin m) α) (S : Matrix (Fin m) (Fin n) α) (V : Matrix (Fin n) (Fin n) α), x = ⟨ofM U, ofM S, ofM V⟩ ∧
      frobenius (values U * values S * (values V)ᵀ - values A) ≤
        ((1 + vError (Sfp.u α) n fuel) * (1 + vError (Sfp.u α) n fuel + uError (Sfp.u α) n fuel) - 1) * frobenius (values A) := by
  obtain ⟨U, V, s, d, rfl, -, -, -, ⟨Q, hQ, h4, -⟩, h6⟩ := direct_core ha hn hnm hu A hx
  exact ⟨U, _, V, rfl, direct_residual hQ h4 (us_err hQ h4 h6)⟩

theorem direct_orth {m n : Nat} {A F : Matrix (Fin m) (Fin n) ℝ} {V Q : Matrix (Fin n) (Fin n) ℝ} {h ε : ℝ} (hQ : Orth Q)
    (hV : frob (V - Q) ≤ h) (hF : frob (F - A * V) ≤ ε * frob A) :
    frob (Fᵀ * F - Qᵀ * (Aᵀ * A) * Q) ≤ ((1 + h + ε) ^ 2 - 1) * frob A ^ 2 := by
  set G := F - A * Q with hG
  have h1 : frob G ≤ (h + ε) * frob A := by
    have e : G = (F - A * V) + A * (V - Q) := by rw [hG, Matrix.mul_sub]; abel
    rw [e]
    have := frob_add_le (F - A * V) (A * (V - Q))
    have h2 := frob_mul_le A (V - Q)
    have h3 := mul_le_mul_of_nonneg_left hV (frob_nonneg A)
    linarith
  have e : Fᵀ * F - Qᵀ * (Aᵀ * A) * Q = (A * Q)ᵀ * G + Gᵀ * (A * Q) + Gᵀ * G := by
    have e1 : F = A * Q + G := by rw [hG]; abel
    rw [e1, transpose_add, Matrix.add_mul, Matrix.mul_add, Matrix.mul_add, show Qᵀ * (Aᵀ * A) * Q = (A * Q)ᵀ * (A * Q) by
      rw [transpose_mul]; simp only [Matrix.mul_assoc]]
    abel
  rw [e]
  have h2 := frob_add_le ((A * Q)ᵀ * G + Gᵀ * (A * Q)) (Gᵀ * G)
  have h3 := frob_add_le ((A * Q)ᵀ * G) (Gᵀ * (A * Q))
  have h4 := frob_mul_le (A * Q)ᵀ G
  have h5 := frob_mul_le Gᵀ (A * Q)
  have h6 := frob_mul_le Gᵀ G
  rw [frob_transpose, frob_mul_orth _ hQ] at h4
  rw [frob_transpose, frob_mul_orth _ hQ] at h5
  rw [frob_transpose] at h6
  have h7 := mul_le_mul_of_nonneg_left h1 (frob_nonneg A)
  have h8 := mul_le_mul h1 h1 (frob_nonneg _) ((frob_nonneg _).trans h1)
  set t := frob A
  set g := frob G
  have : ((1 + h + ε) ^ 2 - 1) * t ^ 2 = t * ((h + ε) * t) + t * ((h + ε) * t) + (h + ε) * t * ((h + ε) * t) := by ring
  linarith

/-- C108, orthogonality: the columns of `V` are orthonormal up to rounding, and so are the columns of `U` that belong to large singular values: the error
of the product of two columns is divided by the product of the two singular values. -/
theorem C108_orthogonal {m n : Nat} (ha : Commutes α) (hn : 0 < n) (hnm : n ≤ m) (hu : Sfp.u α ≤ 1 / 1000) (A : Matrix (Fin m) (Fin n) α)
    {fuel : Nat} {x : SVD α} (hx : SVD.direct fuel (ofM A) = .ok x) :
    ∃ (U : Matrix (Fin m) (Fin m) α) (V : Matrix (Fin n) (Fin n) α) (s : Nat → α),
      x = ⟨ofM U, ofM (Matrix.of fun (i : Fin m) (j : Fin n) => if i.1 = j.1 then s i else 0), ofM V⟩ ∧
      frobenius ((values V)ᵀ * values V - 1) ≤ 2 * vError (Sfp.u α) n fuel + vError (Sfp.u α) n fuel ^ 2 ∧
      ∀ i j : Fin m, i.1 < n → j.1 < n → |((values U)ᵀ * values U - 1) i j| * (Sfp.val (s i) * Sfp.val (s j)) ≤
        (squareError (Sfp.u α) m n fuel + ((1 + vError (Sfp.u α) n fuel + uError (Sfp.u α) n fuel) ^ 2 - 1)) * frobenius (values A) ^ 2 := by
  obtain ⟨U, V, s, d, rfl, -, hd, hs, ⟨Q, hQ, h4, h5⟩, h6⟩ := direct_core ha hn hnm hu A hx
  refine ⟨U, V, s, rfl, near_orth hQ h4, fun i j hi hj => ?_⟩
  have h7 := direct_orth hQ h4 (us_err hQ h4 h6)
  have hc := directGram_close hu A h5
  have h8 : frob (Qᵀ * ((values A)ᵀ * values A) * Q - Matrix.diagonal (fun i : Fin n => d i)) ≤
      ((1 - Sfp.u α)⁻¹ ^ (m + 1) * (1 + eigError (Sfp.u α) n fuel) - 1) * frob (values A) ^ 2 := by
    refine le_trans (le_of_eq ?_) hc
    rw [← frob_mul_left (Qᵀ * ((values A)ᵀ * values A) * Q - Matrix.diagonal (fun i : Fin n => d i)) hQ, ← frob_mul_right _ hQ]
    congr 1
    rw [Matrix.mul_sub, Matrix.sub_mul]
    congr 1
    have h9 : Q * Qᵀ = 1 := Orth.right hQ
    calc Q * (Qᵀ * ((values A)ᵀ * values A) * Q) * Qᵀ = (Q * Qᵀ) * ((values A)ᵀ * values A) * (Q * Qᵀ) := by simp only [Matrix.mul_assoc]
      _ = _ := by rw [h9, Matrix.one_mul, Matrix.mul_one]
  set S := values (Matrix.of fun (i : Fin m) (j : Fin n) => if i.1 = j.1 then s i else 0) with hS
  have hF : ∀ (i : Fin m) (hi : i.1 < n) (k : Fin m), (values U * S) k ⟨i, hi⟩ = values U k i * Sfp.val (s i) := by
    intro i hi k
    rw [mul_apply, Finset.sum_eq_single i (fun b _ hb => ?_) (by simp)]
    · show values U k i * Sfp.val (if i.1 = i.1 then s i else 0) = _
      rw [if_pos rfl]
    · show values U k b * Sfp.val (if b.1 = i.1 then s b else 0) = 0
      rw [if_neg (fun h => hb (Fin.ext h)), Sfp.zero, mul_zero]
  have hFF : ((values U * S)ᵀ * (values U * S)) ⟨i, hi⟩ ⟨j, hj⟩ = ((values U)ᵀ * values U) i j * (Sfp.val (s i) * Sfp.val (s j)) := by
    rw [mul_apply, mul_apply, Finset.sum_mul]
    refine Finset.sum_congr rfl fun k _ => ?_
    rw [transpose_apply, transpose_apply, hF i hi k, hF j hj k]
    ring
  have hsi : 0 < Sfp.val (s i) := (hs i hi).2.pos Std.w_one (Real.sqrt_pos.2 (hs i hi).1)
  have hsj : 0 < Sfp.val (s j) := (hs j hj).2.pos Std.w_one (Real.sqrt_pos.2 (hs j hj).1)
  have a1 := (abs_le_frob _ ⟨i, hi⟩ ⟨j, hj⟩).trans h7
  have a2 := (abs_le_frob _ ⟨i, hi⟩ ⟨j, hj⟩).trans h8
  rw [Matrix.sub_apply, hFF] at a1
  rw [Matrix.sub_apply] at a2
  have a3 : |Matrix.diagonal (fun i : Fin n => d i) ⟨i, hi⟩ ⟨j, hj⟩ - (1 : Matrix (Fin m) (Fin m) ℝ) i j * (Sfp.val (s i) * Sfp.val (s j))| ≤
      ((1 - Sfp.u α)⁻¹ ^ 2 - 1) * ((1 - Sfp.u α)⁻¹ ^ (m + 1) * (1 + eigError (Sfp.u α) n fuel) * frob (values A) ^ 2) := by
    by_cases hij : i = j
    · subst hij
      rw [diagonal_apply_eq, one_apply_eq, one_mul, ← sq, abs_sub_comm]
      exact (square_close hu A hQ hd (fun i hi => (hs i hi).1) (fun i hi => (hs i hi).2) h5 hi).1
    · rw [diagonal_apply_ne _ (fun h => hij (Fin.ext (Fin.mk.inj_iff.1 h))), one_apply_ne hij, zero_mul, sub_zero, abs_zero]
      refine mul_nonneg (sub_nonneg.2 (one_le_pow₀ w_ge)) (mul_nonneg (mul_nonneg (pow_nonneg (zero_le_one.trans w_ge) _) ?_) (sq_nonneg _))
      linarith [eigError_nonneg (α := α) hu n fuel]
  rw [← abs_of_pos (mul_pos hsi hsj), ← abs_mul, Matrix.sub_apply, sub_mul]
  have ew : (1 - Sfp.u α)⁻¹ ^ (m + 3) = (1 - Sfp.u α)⁻¹ ^ 2 * (1 - Sfp.u α)⁻¹ ^ (m + 1) := by rw [← pow_add]; congr 1; omega
  unfold squareError
  rw [ew]
  change _ ≤ _ * frob (values A) ^ 2
  refine (abs_sub_le _ ((Qᵀ * ((values A)ᵀ * values A) * Q) ⟨i, hi⟩ ⟨j, hj⟩) _).trans ?_
  have a4 := abs_sub_le ((Qᵀ * ((values A)ᵀ * values A) * Q) ⟨i, hi⟩ ⟨j, hj⟩) (Matrix.diagonal (fun i : Fin n => d i) ⟨i, hi⟩ ⟨j, hj⟩)
    ((1 : Matrix (Fin m) (Fin m) ℝ) i j * (Sfp.val (s i) * Sfp.val (s j)))
  set W := (1 - Sfp.u α)⁻¹ ^ (m + 1)
  set q := (1 - Sfp.u α)⁻¹ ^ 2
  set δ := eigError (Sfp.u α) n fuel
  set t2 := frob (values A) ^ 2
  set g := (1 + vError (Sfp.u α) n fuel + uError (Sfp.u α) n fuel) ^ 2 - 1
  have : (q * W * (1 + δ) - 1 + g) * t2 = g * t2 + ((W * (1 + δ) - 1) * t2 + (q - 1) * (W * (1 + δ) * t2)) := by ring
  rw [this]
  linarith

/-- C108 for wide matrices: the factors of the transpose, exchanged. -/
theorem C108_wide {m n : Nat} (hm : 0 < m) (hmn : m < n) (A : Matrix (Fin m) (Fin n) α) {fuel : Nat} {U : Matrix (Fin n) (Fin n) α}
    {S : Matrix (Fin n) (Fin m) α} {V : Matrix (Fin m) (Fin m) α} (h : SVD.direct fuel (ofM Aᵀ) = .ok ⟨ofM U, ofM S, ofM V⟩) :
    SVD.direct fuel (ofM A) = .ok ⟨ofM V, ofM Sᵀ, ofM U⟩ := by
  unfold SVD.direct at h ⊢
  rw [ofM_cols Aᵀ (by omega), ok_bind, ofM_rows, if_neg (by omega)] at h
  rw [ofM_cols A hm, ok_bind, ofM_rows, if_pos hmn, C12_transpose hm, ok_bind, h, ok_bind, C12_transpose (by omega)]
  rfl

/-- C108, `f64` without overflow and underflow: with `N = n · (fuel · (n + 1) + 4) · (70 · n + 287)`, the three errors are at most
`N·2^-47 + (m + 3)·2^-50`, `N·2^-47·√n` and `(3·n + 3)·√n·2^-50`. -/
theorem C108_double {m n fuel : Nat} (hN : n ≤ 2 ^ 40) (hM : m ≤ 2 ^ 40)
    (h : ((n * (fuel * (n + 1) + 4) * (70 * n + 287) : Nat) : ℝ) ≤ 2 ^ 48) :
    squareError (Sfp.u Fu) m n fuel ≤ ((n * (fuel * (n + 1) + 4) * (70 * n + 287) : Nat) : ℝ) / 2 ^ 47 + (m + 3) / 2 ^ 50 ∧
    vError (Sfp.u Fu) n fuel ≤ ((n * (fuel * (n + 1) + 4) * (70 * n + 287) : Nat) : ℝ) / 2 ^ 47 * Real.sqrt n ∧
    uError (Sfp.u Fu) n fuel ≤ (3 * n + 3) / 2 ^ 50 * Real.sqrt n := by
  have h1 := C105_double hN h
  have h0 : 0 ≤ eigError (Sfp.u Fu) n fuel := eigError_nonneg (α := Fu) (show (1 / 2 ^ 53 : ℝ) ≤ 1 / 1000 by norm_num) n fuel
  unfold squareError uError vError
  change eigError (1 / 2 ^ 53) n fuel ≤ _ at h1
  change 0 ≤ eigError (1 / 2 ^ 53) n fuel at h0
  change (1 - 1 / 2 ^ 53 : ℝ)⁻¹ ^ (m + 3) * (1 + eigError (1 / 2 ^ 53) n fuel) - 1 ≤ _ ∧ eigError (1 / 2 ^ 53) n fuel * Real.sqrt n ≤ _ ∧
    ((1 - 1 / 2 ^ 53 : ℝ)⁻¹ ^ (3 * n + 3) - 1) * (Real.sqrt n + eigError (1 / 2 ^ 53) n fuel * Real.sqrt n) ≤ _
  generalize eigError (1 / 2 ^ 53) n fuel = e at *
  generalize ((n * (fuel * (n + 1) + 4) * (70 * n + 287) : Nat) : ℝ) = N at *
  have ew : (1 - 1 / 2 ^ 53 : ℝ)⁻¹ = 1 + 1 / (2 ^ 53 - 1) := by norm_num
  rw [ew]
  have hN' : (n : ℝ) ≤ 1099511627776 := by exact_mod_cast hN
  have hM' : (m : ℝ) ≤ 1099511627776 := by exact_mod_cast hM
  have hN0 : (0 : ℝ) ≤ n := Nat.cast_nonneg _
  have hM0 : (0 : ℝ) ≤ m := Nat.cast_nonneg _
  have p1 := pow_bound (x := 1 / (2 ^ 53 - 1)) (by norm_num) (r := m + 3) (by push_cast; norm_num; linarith)
  have p2 := pow_bound (x := 1 / (2 ^ 53 - 1)) (by norm_num) (r := 3 * n + 3) (by push_cast; norm_num; linarith)
  have he : e ≤ 2 := by
    refine h1.trans ?_
    rw [div_le_iff₀ (by norm_num)]
    refine h.trans (by norm_num)
  have q1 : 0 ≤ (1 + 1 / (2 ^ 53 - 1) : ℝ) ^ (m + 3) - 1 := sub_nonneg.2 (one_le_pow₀ (by norm_num))
  have q2 : 0 ≤ (1 + 1 / (2 ^ 53 - 1) : ℝ) ^ (3 * n + 3) - 1 := sub_nonneg.2 (one_le_pow₀ (by norm_num))
  generalize (1 + 1 / (2 ^ 53 - 1) : ℝ) ^ (m + 3) = a at *
  generalize (1 + 1 / (2 ^ 53 - 1) : ℝ) ^ (3 * n + 3) = b at *
  have r1 := mul_le_mul_of_nonneg_left he q1
  have r2 := mul_le_mul_of_nonneg_left he q2
  push_cast at p1 p2
  have c1 : 3 * (a - 1) ≤ (m + 3) / 2 ^ 50 := by
    norm_num at p1 ⊢
    linarith
  have c2 : 3 * (b - 1) ≤ (3 * n + 3) / 2 ^ 50 := by
    norm_num at p2 ⊢
    linarith
  refine ⟨by linarith, mul_le_mul_of_nonneg_right h1 (Real.sqrt_nonneg _), ?_⟩
  have : (b - 1) * (Real.sqrt n + e * Real.sqrt n) = ((b - 1) * (1 + e)) * Real.sqrt n := by ring
  rw [this]
  exact mul_le_mul_of_nonneg_right (by linarith) (Real.sqrt_nonneg _)

/-- A condition on the smallest singular value is needed for C108_no_panic: in `f64`, `SVD::direct` panics on this matrix of full column rank (`AᵀA`,
rounded, is singular). -/
theorem C108_refuted_panic :
    Panics (SVD.direct 30 (ofM !![(1 : F64), F64.ofRat 2 1; F64.ofRat 1 (2 ^ 30), 0; 0, F64.ofRat 1 (2 ^ 30)])) ∧
    ∀ x : Fin 2 → ℝ, !![(1 : ℝ), 2; 1 / 2 ^ 30, 0; 0, 1 / 2 ^ 30] *ᵥ x = 0 → x = 0 := by
  constructor
  · have h : SVD.direct 30 (ofM !![(1 : F64), F64.ofRat 2 1; F64.ofRat 1 (2 ^ 30), 0; 0, F64.ofRat 1 (2 ^ 30)]) = .error .unwrap := by decide +kernel
    exact Or.inr (Or.inr (Or.inr h))
  · intro x h
    have h1 := congrFun h 1
    have h2 := congrFun h 2
    simp [mulVec, dotProduct, Fin.sum_univ_two] at h1 h2
    ext i
    fin_cases i
    · exact h1
    · exact h2

/-- The columns of `U` are not orthonormal without the factor `1/(sᵢ·sⱼ)` in the bound: here the square of the norm of the second one is at most
`1/200`, although the matrix has full column rank. -/
theorem C108_refuted_orthogonal :
    ∃ (U : Matrix (Fin 3) (Fin 3) Fu) (S : Matrix (Fin 3) (Fin 2) Fu) (V : Matrix (Fin 2) (Fin 2) Fu), SVD.direct 30 (ofM !![(⟨1⟩ : Fu), ⟨1⟩; ⟨1 / 2 ^ 30⟩, ⟨0⟩; ⟨0⟩, ⟨1 / 2 ^ 30⟩]) = .ok ⟨ofM U, ofM S, ofM V⟩ ∧
      U.map Fu.q = !![4503599627370495 / 4503599627370496, 0, 0;
        4503599627370495 / 9671406556917033397649408, 1592262918131443 / 36028797018963968, 0;
        4503599627370495 / 9671406556917033397649408, -1592262918131443 / 36028797018963968, 0] ∧
      ((values U)ᵀ * values U) 1 1 ≤ 1 / 200 := by
  refine ⟨!![⟨4503599627370495 / 4503599627370496⟩, ⟨0⟩, ⟨0⟩;
        ⟨4503599627370495 / 9671406556917033397649408⟩, ⟨1592262918131443 / 36028797018963968⟩, ⟨0⟩;
        ⟨4503599627370495 / 9671406556917033397649408⟩, ⟨-1592262918131443 / 36028797018963968⟩, ⟨0⟩],
    !![⟨6369051672525773 / 4503599627370496⟩, ⟨0⟩; ⟨0⟩, ⟨1 / 67108864⟩; ⟨0⟩, ⟨0⟩],
    !![⟨1592262918131443 / 2251799813685248⟩, ⟨1592262918131443 / 2251799813685248⟩; ⟨1592262918131443 / 2251799813685248⟩,
      ⟨-1592262918131443 / 2251799813685248⟩], by decide +kernel, by decide +kernel, ?_⟩
  rw [mul_apply, Fin.sum_univ_three]
  simp only [transpose_apply, values, Matrix.map_apply, Sfp.val, of_apply, cons_val', cons_val_zero, cons_val_one, cons_val_two, cons_val_fin_one,
    empty_val', tail_cons, head_cons]
  norm_num

theorem sampleFu_runs : ∃ x, SVD.direct 10 (ofM sampleFu) = .ok x := by
  have h1 : (match SVD.direct 10 (ofM sampleFu) with | .ok _ => true | .error _ => false) = true := by decide +kernel
  rcases h : SVD.direct 10 (ofM sampleFu) with _ | x
  · rw [h] at h1; cases h1
  · exact ⟨x, rfl⟩

/-- The hypotheses are met: the rounded arithmetic decomposes a 3 × 2 matrix, and the squares of its singular values are accurate. -/
example : ∃ (x : SVD Fu) (s : Nat → Fu), SVD.direct 10 (ofM sampleFu) = .ok x ∧
    x.s = ofM (Matrix.of fun (i : Fin 3) (j : Fin 2) => if i.1 = j.1 then s i else 0) ∧
    ∀ k, k < 2 → |Sfp.val (s k) ^ 2 - singularValue (values sampleFu) k ^ 2| ≤ 1 / 2 ^ 30 * frobenius (values sampleFu) ^ 2 := by
  obtain ⟨x, hx⟩ := sampleFu_runs
  obtain ⟨s, h1, h2⟩ := C108_singular_values commutes_double (by norm_num) (by norm_num) (show (1 / 2 ^ 53 : ℝ) ≤ 1 / 1000 by norm_num) sampleFu hx
  refine ⟨x, s, hx, h1, fun k hk => (h2 k hk).trans (mul_le_mul_of_nonneg_right ?_ (sq_nonneg _))⟩
  have hd := (C108_double (m := 3) (n := 2) (fuel := 10) (by norm_num) (by norm_num) (by norm_num)).1
  refine hd.trans ?_
  norm_num

/-- The hypothesis of `C108_no_panic` is met by a well conditioned matrix. -/
example : squareError (Sfp.u Fu) 2 2 30 * frobenius (values (!![⟨3⟩, ⟨0⟩; ⟨0⟩, ⟨2⟩] : Matrix (Fin 2) (Fin 2) Fu)) ^ 2 <
    singularValue (values (!![⟨3⟩, ⟨0⟩; ⟨0⟩, ⟨2⟩] : Matrix (Fin 2) (Fin 2) Fu)) (2 - 1) ^ 2 := by
  have e : values (!![⟨3⟩, ⟨0⟩; ⟨0⟩, ⟨2⟩] : Matrix (Fin 2) (Fin 2) Fu) = !![3, 0; 0, (2 : ℝ)] := by
    ext i j
    fin_cases i <;> fin_cases j <;> norm_num [values, Sfp.val]
  rw [e]
  have h3 := singular_close (m := 2) (n := 2) (k := 1) !![3, 0; 0, (2 : ℝ)] orth_one orth_one (s := fun i => 3 - i) (fun i j h _ => by
    have : (i : ℝ) ≤ j := by exact_mod_cast h
    linarith) (fun i h => by
    have : (i : ℝ) ≤ 2 := by exact_mod_cast (by omega : i ≤ 2)
    linarith) (by omega)
  have e : !![3, 0; 0, (2 : ℝ)] - 1 * rectDiag 2 2 (fun i => 3 - (i : ℝ)) * 1ᵀ = 0 := by
    ext i j
    fin_cases i <;> fin_cases j <;> norm_num [rectDiag]
  rw [e, show frob (0 : Matrix (Fin 2) (Fin 2) ℝ) = 0 by simp [frob]] at h3
  have h4 : singularValue !![3, 0; 0, (2 : ℝ)] (2 - 1) = 2 := by
    have := abs_nonpos_iff.1 h3
    norm_num at this ⊢
    linarith
  have h5 : frobenius !![3, 0; 0, (2 : ℝ)] ^ 2 = 13 := by
    show frob _ ^ 2 = _
    rw [frob_sq]
    simp [Fin.sum_univ_two]
    norm_num
  rw [h4, h5]
  have hd := (C108_double (m := 2) (n := 2) (fuel := 30) (by norm_num) (by norm_num) (by norm_num)).1
  norm_num at hd ⊢
  linarith

end LA.Props
