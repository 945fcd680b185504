import Verif.Proofs.LU
import Verif.Props.Blocks

/-!
# C28-C34: LU factorisation, determinant, singularity, `solve`, `inverse`

`K` is any linearly ordered field with exact operations (`ℝ`, `ℚ`, …); a division by zero would be the error `undef`, so
every `= .ok …` below also says that none happens.
-/

namespace LA.Props
open LA Finset

set_option linter.unusedSectionVars false

section
variable {K : Type} [Field K] [LinearOrder K] [IsStrictOrderedRing K] [FloatOps K] [Exact K]

/-- C28: for every matrix `A` of every shape the factorisation and all its accessors succeed, `P·A = L·U`, `get_piv()` is a
permutation, `P` its permutation matrix, `L` unit lower trapezoidal and `U` upper trapezoidal.
C29: every entry of `L` has absolute value at most 1. -/
theorem C28_lu {m n : Nat} (hm : 0 < m) (hn : 0 < n) (A : Matrix (Fin m) (Fin n) K) :
    ∃ (x : LU K) (σ : Equiv.Perm (Fin m)) (P : Matrix (Fin m) (Fin m) K) (L : Matrix (Fin m) (Fin (min m n)) K)
      (U : Matrix (Fin (min m n)) (Fin n) K),
      LU.new (ofM A) = .ok x ∧ x.getP = .ok (ofM P) ∧ x.getL = .ok (ofM L) ∧ x.getU = .ok (ofM U) ∧
      x.getPiv = List.ofFn (fun i => (σ i).1) ∧
      (∀ i k, P i k = if σ i = k then 1 else 0) ∧
      P * A = L * U ∧
      (∀ i j, i.1 < j.1 → L i j = 0) ∧ (∀ i j, i.1 = j.1 → L i j = 1) ∧ (∀ i j, |L i j| ≤ 1) ∧
      (∀ i j, j.1 < i.1 → U i j = 0) := by
  obtain ⟨G, σ, hx, hA, hmul⟩ := LU.new_ofM hm hn A
  refine ⟨_, σ, _, _, _, hx, LU.getP_ok hm _ _ σ, LU.getL_ok G hm hn _ _, LU.getU_ok G hm hn _ _, rfl,
    ?_, ?_, ?_, ?_, ?_, ?_⟩
  · intro i k
    rw [Matrix.submatrix_apply, Matrix.one_apply]; rfl
  · ext i c
    rw [LU.lower_mul_upper G rfl i c, ← hA i c, Matrix.mul_apply]
    simp [Matrix.one_apply]
  · intro i j h
    simp only [LU.lower, Matrix.of_apply]
    rw [if_neg (by omega), if_neg (by omega)]
  · intro i j h
    simp only [LU.lower, Matrix.of_apply]
    rw [if_neg (by omega), if_pos h]
  · intro i j
    simp only [LU.lower, Matrix.of_apply]
    split
    · exact hmul i j i.2 (by omega) (by omega)
    · split <;> simp
  · intro i j h
    simp only [LU.upper, Matrix.of_apply]
    rw [if_neg (by omega)]

/-- C29: the bound on the multipliers, for every matrix on which the factors are computed. -/
theorem C29_multipliers {m n : Nat} (hm : 0 < m) (hn : 0 < n) (A : Matrix (Fin m) (Fin n) K) (x : LU K)
    (l : Mat K) (hx : LU.new (ofM A) = .ok x) (hl : x.getL = .ok l) : ∀ v ∈ l.data, |v| ≤ 1 := by
  obtain ⟨x', σ, P, L, U, h1, -, h3, -, -, -, -, -, -, h4, -⟩ := C28_lu hm hn A
  rw [hx] at h1; cases h1
  rw [hl] at h3; cases h3
  intro v hv
  simp only [ofM, List.mem_flatten, List.mem_ofFn] at hv
  obtain ⟨r, ⟨i, rfl⟩, hv⟩ := hv
  simp only [List.mem_ofFn] at hv
  obtain ⟨j, rfl⟩ := hv
  exact h4 i j

/-- C28 through the public API: `get_p() * a == get_l() * get_u()`. -/
theorem C28_api {m n : Nat} (hm : 0 < m) (hn : 0 < n) (A : Matrix (Fin m) (Fin n) K) :
    ∃ x r, LU.new (ofM A) = .ok x ∧ (do (← x.getP).mul (ofM A)) = .ok r ∧ (do (← x.getL).mul (← x.getU)) = .ok r := by
  obtain ⟨x, σ, P, L, U, h1, h2, h3, h4, -, -, h5, -⟩ := C28_lu hm hn A
  refine ⟨x, ofM (P * A), h1, ?_, ?_⟩
  · rw [h2, ok_bind, C10_mul hm hm]
  · rw [h3, h4, ok_bind, ok_bind, C10_mul hm (by omega), h5]

/-- A concrete factorisation that pivots (the crate's own test matrix). -/
example : LU.new (⟨3, [1, 2, 0, 3, 6, -1, 1, 2, 1]⟩ : Mat ℚ) =
    .ok ⟨⟨3, [3, 6, -1, 1 / 3, 0, 1 / 3, 1 / 3, 0, 4 / 3]⟩, false, [1, 0, 2]⟩ := by decide +kernel

/-! ## C30, C31 -/

/-- C30: `det()` is the mathematical determinant. -/
theorem C30_det {n : Nat} (hn : 0 < n) (A : Matrix (Fin n) (Fin n) K) : (ofM A).det = .ok A.det := by
  obtain ⟨G, σ, hx, hA, -⟩ := LU.new_ofM hn hn A
  unfold Mat.det
  simp only [ofM_cols A hn, ofM_rows, ok_bind, beq_self_eq_true, assert_true, hx]
  rw [LU.det_ok G hn, LU.det_eq G hA]
  simp

/-- C30: on non-square input `det()` panics. -/
theorem C30_det_nonsquare {m n : Nat} (hm : 0 < m) (h : m ≠ n) (A : Matrix (Fin m) (Fin n) K) :
    (ofM A).det = .error .assert := by
  unfold Mat.det
  rw [ofM_cols A hm, ok_bind, assert_beq_ne (show n ≠ (ofM A).rows from fun e => h e.symm)]; rfl

/-- C30: multiplicative, invariant under transposition, and a row permutation multiplies it by the sign. -/
theorem C30_det_laws {n : Nat} (hn : 0 < n) (A B : Matrix (Fin n) (Fin n) K) (σ : Equiv.Perm (Fin n)) :
    ((ofM A).mul (ofM B) >>= Mat.det) = (do return (← (ofM A).det) * (← (ofM B).det)) ∧
    ((ofM A).t >>= Mat.det) = (ofM A).det ∧
    ((ofM A).permuteRows (List.ofFn fun i => (σ i).1) >>= Mat.det) =
      (do return ((Equiv.Perm.sign σ : ℤ) : K) * (← (ofM A).det)) := by
  rw [C10_mul hn hn, t_ofM hn, permuteRows_perm hn]
  simp only [ok_bind, C30_det hn, Matrix.det_mul, Matrix.det_transpose, Matrix.det_permute, pure_eq_ok]
  simp

/-- The diagonal of the packed factor has no zero iff the determinant is not zero. -/
theorem diag_ne_zero_iff {n : Nat} {A : Matrix (Fin n) (Fin n) K} {G : Nat → Nat → K} {σ : Equiv.Perm (Fin n)}
    (hA : ∀ i c, A (σ i) c = LU.prod G i c) : (∀ i : Fin n, G i i ≠ 0) ↔ A.det ≠ 0 := by
  rw [LU.det_eq G hA]
  have : (if Equiv.Perm.sign σ = 1 then (1 : K) else -1) ≠ 0 := by split <;> simp
  rw [ne_eq, mul_eq_zero, Finset.prod_eq_zero_iff]
  simp only [this, false_or, Finset.mem_univ, true_and, not_exists, ne_eq]

/-- C31: the singularity predicates decide whether the determinant is zero. -/
theorem C31_isSingular {n : Nat} (hn : 0 < n) (A : Matrix (Fin n) (Fin n) K) :
    (ofM A).isSingular = .ok (decide (A.det = 0)) ∧ (ofM A).isNonSingular = .ok (decide (A.det ≠ 0)) := by
  obtain ⟨G, σ, hx, hA, -⟩ := LU.new_ofM hn hn A
  have : (ofM A).isNonSingular = .ok (decide (A.det ≠ 0)) := by
    unfold Mat.isNonSingular
    simp only [ofM_cols A hn, ofM_rows, ok_bind, beq_self_eq_true, assert_true, hx]
    rw [LU.isNonSingular_ok G hn le_rfl]
    simp only [diag_ne_zero_iff hA]
  refine ⟨?_, this⟩
  unfold Mat.isSingular
  rw [this]
  simp

/-- C31: both panic on non-square input. -/
theorem C31_nonsquare {m n : Nat} (hm : 0 < m) (h : m ≠ n) (A : Matrix (Fin m) (Fin n) K) :
    (ofM A).isSingular = .error .assert ∧ (ofM A).isNonSingular = .error .assert := by
  have : (ofM A).isNonSingular = .error .assert := by
    unfold Mat.isNonSingular
    rw [ofM_cols A hm, ok_bind, assert_beq_ne (show (ofM A).rows ≠ n from h)]; rfl
  exact ⟨by unfold Mat.isSingular; rw [this]; rfl, this⟩

/-! ## C32 -/

/-- C32: a non-singular square system is solved, by the only solution. -/
theorem C32_solve {n p : Nat} (hn : 0 < n) (hp : 0 < p) (A : Matrix (Fin n) (Fin n) K) (B : Matrix (Fin n) (Fin p) K)
    (h : A.det ≠ 0) :
    ∃ X : Matrix (Fin n) (Fin p) K, (ofM A).solve (ofM B) = .ok (some (ofM X)) ∧ A * X = B ∧
      ∀ Y : Matrix (Fin n) (Fin p) K, A * Y = B → Y = X := by
  obtain ⟨G, σ, hx, hA, -⟩ := LU.new_ofM hn hn A
  obtain ⟨X, hX1, hX2⟩ := LU.solve_some hn hp G (decide (Equiv.Perm.sign σ = 1)) σ B ((diag_ne_zero_iff hA).2 h)
  rw [← LU.square_factor G hA] at hX2
  have hAX : A * X = B := by
    ext i j
    have := congrFun (congrFun hX2 (σ.symm i)) j
    simpa [Matrix.mul_apply] using this
  refine ⟨X, ?_, hAX, ?_⟩
  · unfold Mat.solve
    rw [hx, ok_bind, hX1]
  · intro Y hY
    have hu : IsUnit A.det := isUnit_iff_ne_zero.mpr h
    calc Y = A⁻¹ * (A * Y) := by rw [← Matrix.mul_assoc, Matrix.nonsing_inv_mul _ hu, Matrix.one_mul]
      _ = A⁻¹ * (A * X) := by rw [hY, hAX]
      _ = X := by rw [← Matrix.mul_assoc, Matrix.nonsing_inv_mul _ hu, Matrix.one_mul]

/-- C32: a singular square system is answered with `None`. -/
theorem C32_solve_none {n p : Nat} (hn : 0 < n) (A : Matrix (Fin n) (Fin n) K) (B : Matrix (Fin n) (Fin p) K)
    (h : A.det = 0) : (ofM A).solve (ofM B) = .ok none := by
  obtain ⟨G, σ, hx, hA, -⟩ := LU.new_ofM hn hn A
  unfold Mat.solve
  rw [hx, ok_bind, LU.solve_none hn le_rfl]
  rw [diag_ne_zero_iff hA]
  exact not_not.mpr h

/-- C32: `Some` iff non-singular, `None` iff singular. -/
theorem C32_solve_iff {n p : Nat} (hn : 0 < n) (hp : 0 < p) (A : Matrix (Fin n) (Fin n) K) (B : Matrix (Fin n) (Fin p) K) :
    ((∃ x, (ofM A).solve (ofM B) = .ok (some x)) ↔ A.det ≠ 0) ∧ ((ofM A).solve (ofM B) = .ok none ↔ A.det = 0) := by
  by_cases h : A.det = 0
  · simp [C32_solve_none hn A B h, h]
  · obtain ⟨X, hX, -⟩ := C32_solve hn hp A B h
    simp [hX, h]

/-- C32: a right hand side with a different number of rows panics, for every shape of `A`. -/
theorem C32_solve_rows {m n q p : Nat} (hm : 0 < m) (hn : 0 < n) (hq : q ≠ m) (A : Matrix (Fin m) (Fin n) K)
    (B : Matrix (Fin q) (Fin p) K) : (ofM A).solve (ofM B) = .error .assert := by
  obtain ⟨G, σ, hx, -, -⟩ := LU.new_ofM hm hn A
  unfold Mat.solve LU.solve
  rw [hx, ok_bind, ofM_cols _ hm, ok_bind]
  dsimp only
  rw [assert_beq_ne (show (ofM B).rows ≠ (ofM (LU.packed m n G)).rows from hq)]
  rfl

example : (⟨3, [2, 1, 0, 1, 1, 0, 0, 0, 1]⟩ : Mat ℚ).solve ⟨3, [1, 2, 3]⟩ = .ok (some ⟨3, [-1, 3, 3]⟩) := by
  decide +kernel

/-! ## C33 -/

/-- C33, wide systems (`m < n`): never a result; `None`, or an out-of-bounds panic. -/
theorem C33_wide_partial {m n p : Nat} (hm : 0 < m) (h : m < n) (A : Matrix (Fin m) (Fin n) K)
    (B : Matrix (Fin m) (Fin p) K) :
    (ofM A).solve (ofM B) = .ok none ∨ (ofM A).solve (ofM B) = .error .oob := by
  obtain ⟨G, σ, hx, hA, -⟩ := LU.new_ofM hm (by omega) A
  unfold Mat.solve LU.solve
  rw [hx, ok_bind, ofM_cols _ hm, ok_bind]
  dsimp only
  simp only [ofM_rows, beq_self_eq_true, assert_true, ok_bind]
  rw [LU.isNonSingular_wide G hm h]
  split
  · right; rfl
  · left; rfl

/-- C33 is false for tall systems (`m > n`): whenever a result is returned it has `m` rows, so it cannot be the `n`-row
solution (nor a least-squares solution) of `A·X = B`; only its first `n` rows solve `n` of the `m` equations. -/
theorem C33_refuted_tall {m n p : Nat} (hn : 0 < n) (h : n < m) (hp : 0 < p) (A : Matrix (Fin m) (Fin n) K)
    (B : Matrix (Fin m) (Fin p) K) :
    (ofM A).solve (ofM B) = .ok none ∨
    ∃ (X : Matrix (Fin m) (Fin p) K) (f : Fin n → Fin m), (ofM A).solve (ofM B) = .ok (some (ofM X)) ∧
      Function.Injective f ∧
      ∀ i j, ∑ k : Fin n, A (f i) k * X ⟨k.1, k.2.trans h⟩ j = B (f i) j := by
  obtain ⟨G, σ, hx, hA, -⟩ := LU.new_ofM (show 0 < m by omega) hn A
  unfold Mat.solve
  rw [hx, ok_bind]
  by_cases hG : ∀ i : Fin n, G i i ≠ 0
  · right
    obtain ⟨X, Y, hs, hY, hX⟩ := LU.solve_some_tall hn h.le hp G (decide (Equiv.Perm.sign σ = 1)) σ B hG
    have hsub := LU.substitution hY hX
    refine ⟨_, fun i => σ ⟨i.1, i.2.trans h⟩, hs, ?_, ?_⟩
    · intro i i' e
      have := σ.injective e
      simpa [Fin.ext_iff] using this
    · intro i j
      have hL : ∀ k : Fin n, A (σ ⟨i.1, i.2.trans h⟩) k = (LU.lower n n G * LU.upper n n G) i k := by
        intro k
        rw [hA, LU.lower_mul_upper G (by simp) i k]
      have := congrFun (congrFun hsub i) j
      rw [Matrix.mul_apply] at this
      simp only [hL]
      refine Eq.trans ?_ (this.trans ?_)
      · rfl
      · simp only [LU.packed, Matrix.of_apply]
        exact ext_fin (B.submatrix σ id) ⟨i.1, i.2.trans h⟩ j
  · left
    exact LU.solve_none hn h.le G _ _ B hG

/-- The tall case is reached: `x = 1` solves this consistent system, but a 2-row matrix comes back. -/
example : (⟨2, [1, 1]⟩ : Mat ℚ).solve ⟨2, [1, 1]⟩ = .ok (some ⟨2, [1, 1]⟩) := by decide +kernel

/-! ## C34 -/

/-- C34: the inverse of a non-singular matrix. -/
theorem C34_inverse {n : Nat} (hn : 0 < n) (A : Matrix (Fin n) (Fin n) K) (h : A.det ≠ 0) :
    (ofM A).inverse = .ok (some (ofM A⁻¹)) ∧ A * A⁻¹ = 1 ∧ A⁻¹ * A = 1 := by
  have hu : IsUnit A.det := isUnit_iff_ne_zero.mpr h
  refine ⟨?_, Matrix.mul_nonsing_inv _ hu, Matrix.nonsing_inv_mul _ hu⟩
  obtain ⟨X, hX, -, hXu⟩ := C32_solve hn hn A 1 h
  rw [hXu A⁻¹ (Matrix.mul_nonsing_inv _ hu)]
  unfold Mat.solve at hX
  unfold Mat.inverse
  simp only [ofM_cols A hn, ofM_rows, ok_bind, beq_self_eq_true, assert_true, C05_id_square]
  exact hX

/-- C34: `None` exactly on singular matrices. -/
theorem C34_inverse_none {n : Nat} (hn : 0 < n) (A : Matrix (Fin n) (Fin n) K) :
    (ofM A).inverse = .ok none ↔ A.det = 0 := by
  constructor
  · intro h0
    by_contra h
    rw [(C34_inverse hn A h).1] at h0
    cases h0
  · intro h
    have := C32_solve_none hn A (1 : Matrix (Fin n) (Fin n) K) h
    unfold Mat.solve at this
    unfold Mat.inverse
    simp only [ofM_cols A hn, ofM_rows, ok_bind, beq_self_eq_true, assert_true, C05_id_square]
    exact this

/-- C34: through the API: the product with the inverse, on either side, is the identity matrix. -/
theorem C34_api {n : Nat} (hn : 0 < n) (A : Matrix (Fin n) (Fin n) K) (x : Mat K) (h : (ofM A).inverse = .ok (some x)) :
    (ofM A).mul x = Mat.id n n ∧ x.mul (ofM A) = Mat.id n n := by
  have hd : A.det ≠ 0 := by
    intro h0
    rw [(C34_inverse_none hn A).2 h0] at h
    cases h
  obtain ⟨h1, h2, h3⟩ := C34_inverse hn A hd
  rw [h1] at h
  cases h
  rw [C10_mul hn hn, C10_mul hn hn, h2, h3, C05_id_square]
  exact ⟨rfl, rfl⟩

/-- C34: non-square input panics. -/
theorem C34_nonsquare {m n : Nat} (hm : 0 < m) (h : m ≠ n) (A : Matrix (Fin m) (Fin n) K) :
    (ofM A).inverse = .error .assert := by
  unfold Mat.inverse
  rw [ofM_cols A hm, ok_bind, assert_beq_ne (show (ofM A).rows ≠ n from h)]; rfl

example : (⟨2, [4, 8, 3, 4]⟩ : Mat ℚ).inverse = .ok (some ⟨2, [-1 / 2, 1, 3 / 8, -1 / 2]⟩) := by decide +kernel

end
end LA.Props
