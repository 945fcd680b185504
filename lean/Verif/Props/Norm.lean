import Verif.Proofs.Norm
import Verif.Props.Blocks
import Mathlib.LinearAlgebra.Matrix.Trace
import Mathlib.Analysis.InnerProductSpace.PiL2

/-!
# C24-C27, C51: approximate equality, symmetry, trace, norms, `hypot`
-/

namespace LA.Props
open LA
variable {α : Type}

/-! ## C24 -/

section
variable {K : Type} [Field K] [LinearOrder K] [FloatOps K] [Exact K]

/-- C24: matrices of the same shape are approximately equal iff all entries differ by less than `10⁻⁶`. -/
theorem C24_approxEq {m n : Nat} (hm : 0 < m) (A B : Matrix (Fin m) (Fin n) K) :
    (ofM A).approxEq (ofM B) = .ok (decide (∀ i j, |A i j - B i j| < 1 / 1000000)) := by
  have hel : ∀ a b : K, approxEqElem a b = decide (|a - b| < 1 / 1000000) := by
    intro a b
    unfold approxEqElem
    rw [lt_eq, Exact.abs_eq, Exact.cst_eq]; norm_num
  unfold Mat.approxEq
  simp only [ofM_rows, ofM_cols A hm, ofM_cols B hm, ok_bind, bne_self_eq_false, Bool.false_eq_true, if_false]
  have := loopF_all (lo := 0) (hi := (ofM A).data.length)
    (f := fun i _ => do
      if !(approxEqElem (← idx (ofM A).data i) (← idx (ofM B).data i)) then return Flow.ret false
      else return Flow.next ())
    (fun k => ∀ (i : Fin m) (j : Fin n), k = i.1 * n + j.1 → |A i j - B i j| < 1 / 1000000) (by
      intro k _ hk
      rw [ofM_length] at hk
      obtain ⟨i, j, hi, hj, rfl⟩ := rm_surj hk
      have huniq : (∀ (i' : Fin m) (j' : Fin n), i * n + j = i'.1 * n + j'.1 → |A i' j' - B i' j'| < 1 / 1000000) ↔
          |A ⟨i, hi⟩ ⟨j, hj⟩ - B ⟨i, hi⟩ ⟨j, hj⟩| < 1 / 1000000 := by
        constructor
        · intro h; exact h ⟨i, hi⟩ ⟨j, hj⟩ rfl
        · intro h i' j' e
          obtain ⟨e1, e2⟩ := rm_inj hj j'.2 e
          subst e1 e2
          exact h
      simp only [idx_ofM A hi hj, idx_ofM B hi hj, ok_bind, huniq, hel, pure_eq_ok]
      constructor
      · intro h; simp [-one_div, h]
      · intro h; simp [-one_div, h])
  have hall : (∀ k, 0 ≤ k → k < (ofM A).data.length →
      ∀ (i : Fin m) (j : Fin n), k = i.1 * n + j.1 → |A i j - B i j| < 1 / 1000000) ↔
      ∀ i j, |A i j - B i j| < 1 / 1000000 := by
    constructor
    · intro h i j; exact h _ (Nat.zero_le _) (by rw [ofM_length]; exact rm_lt i.2 j.2) i j rfl
    · intro h k _ _ i j _; exact h i j
  rw [hall] at this
  by_cases h : ∀ i j, |A i j - B i j| < 1 / 1000000
  · rw [this.1 h, ok_bind]; simp [-one_div, h]
  · rw [this.2 h, ok_bind]; simp [-one_div, h]

/-- C24: matrices of different shapes are not approximately equal. -/
theorem C24_approxEq_shape {m n m' n' : Nat} (hm : 0 < m) (hm' : 0 < m') (A : Matrix (Fin m) (Fin n) K)
    (B : Matrix (Fin m') (Fin n') K) (h : ¬(m = m' ∧ n = n')) : (ofM A).approxEq (ofM B) = .ok false := by
  unfold Mat.approxEq
  by_cases e : m = m'
  · have e2 : n ≠ n' := fun e2 => h ⟨e, e2⟩
    rw [if_neg (by simpa using e), ofM_cols A hm, ofM_cols B hm', ok_bind, ok_bind, if_pos (by simpa using e2)]; rfl
  · rw [if_pos (by simpa using e)]; rfl

/-- C24: in exact arithmetic `approx_eq` is reflexive and symmetric. -/
theorem C24_approxEq_refl_symm [IsStrictOrderedRing K] {m n : Nat} (hm : 0 < m) (A B : Matrix (Fin m) (Fin n) K) :
    (ofM A).approxEq (ofM A) = .ok true ∧ (ofM A).approxEq (ofM B) = (ofM B).approxEq (ofM A) := by
  rw [C24_approxEq hm, C24_approxEq hm, C24_approxEq hm]
  refine ⟨by simp, ?_⟩
  simp only [abs_sub_comm]

/-- C24: but not transitive: `0 ~ 0.9e-6 ~ 1.8e-6` and `0 ≁ 1.8e-6`. -/
theorem C24_not_transitive :
    let c (x : ℚ) : Mat ℚ := ofM (fun (_ : Fin 1) (_ : Fin 1) => x)
    (c 0).approxEq (c (9 / 10000000)) = .ok true ∧ (c (9 / 10000000)).approxEq (c (18 / 10000000)) = .ok true ∧
    (c 0).approxEq (c (18 / 10000000)) = .ok false := by
  intro c
  have h : ∀ x y, (c x).approxEq (c y) = .ok (decide (|x - y| < 1 / 1000000)) := by
    intro x y
    refine (C24_approxEq (by decide) _ _).trans ?_
    simp
  refine ⟨?_, ?_, ?_⟩ <;> rw [h] <;> norm_num [abs_lt, abs_of_nonneg, abs_of_neg]

/-- C24: `is_symmetric()` is true exactly for square matrices whose mirrored entries differ by less than `10⁻⁶`. -/
theorem C24_isSymmetric [IsStrictOrderedRing K] {n : Nat} (hn : 0 < n) (A : Matrix (Fin n) (Fin n) K) :
    (ofM A).isSymmetric = .ok (decide (∀ i j, |A i j - A j i| < 1 / 1000000)) ∧
    (ofM A).isNonSymmetric = .ok (!decide (∀ i j, |A i j - A j i| < 1 / 1000000)) := by
  have key : (ofM A).isSymmetric = .ok (decide (∀ i j, |A i j - A j i| < 1 / 1000000)) := by
    have hel : ∀ a b : K, approxEqElem a b = decide (|a - b| < 1 / 1000000) := by
      intro a b
      unfold approxEqElem
      rw [lt_eq, Exact.abs_eq, Exact.cst_eq]; norm_num
    unfold Mat.isSymmetric
    simp only [ofM_rows, ofM_cols A hn, ok_bind, bne_self_eq_false, Bool.false_eq_true, if_false]
    have inner : ∀ row (hr : row < n),
        ((∀ col, 0 ≤ col → col < row → ∀ hc : col < n, |A ⟨row, hr⟩ ⟨col, hc⟩ - A ⟨col, hc⟩ ⟨row, hr⟩| < 1 / 1000000) →
          loopF 0 row () (fun col _ => do
            if !(approxEqElem (← (ofM A).get row col) (← (ofM A).getRef col row)) then return Flow.ret false
            else return Flow.next ()) = .ok (.next ())) ∧
        ((¬ ∀ col, 0 ≤ col → col < row → ∀ hc : col < n, |A ⟨row, hr⟩ ⟨col, hc⟩ - A ⟨col, hc⟩ ⟨row, hr⟩| < 1 / 1000000) →
          loopF 0 row () (fun col _ => do
            if !(approxEqElem (← (ofM A).get row col) (← (ofM A).getRef col row)) then return Flow.ret false
            else return Flow.next ()) = .ok (.ret false)) := by
      intro row hr
      refine loopF_all _ ?_
      intro col _ hc
      have hc' : col < n := by omega
      simp only [ofM_get A hr hc', ofM_getRef A hc' hr, ok_bind, hel, pure_eq_ok, hc', forall_true_left]
      constructor
      · intro h; simp [-one_div, h]
      · intro h; simp [-one_div, h]
    have outer := fun (f : Nat → Unit → R (Flow Unit Bool)) (hf : ∀ row u, f row u = (do
        let o ← loopF 0 row () fun col _ => do
          if !(approxEqElem (← (ofM A).get row col) (← (ofM A).getRef col row)) then return Flow.ret false
          else return Flow.next ()
        match o with
        | .ret r => return Flow.ret r
        | .next _ => return Flow.next ())) => loopF_all (lo := 1) (hi := n) (f := f)
      (fun row => ∀ hr : row < n, ∀ col, 0 ≤ col → col < row → ∀ hc : col < n,
        |A ⟨row, hr⟩ ⟨col, hc⟩ - A ⟨col, hc⟩ ⟨row, hr⟩| < 1 / 1000000) (by
        intro row h1 h2
        refine ⟨fun h => (hf _ _).trans ?_, fun h => (hf _ _).trans ?_⟩
        · rw [(inner row h2).1 (h h2)]; rfl
        · rw [(inner row h2).2 (fun h' => h fun _ => h')]; rfl)
    have hall : (∀ row, 1 ≤ row → row < n → ∀ hr : row < n, ∀ col, 0 ≤ col → col < row → ∀ hc : col < n,
        |A ⟨row, hr⟩ ⟨col, hc⟩ - A ⟨col, hc⟩ ⟨row, hr⟩| < 1 / 1000000) ↔
        ∀ i j, |A i j - A j i| < 1 / 1000000 := by
      constructor
      · intro h i j
        rcases lt_trichotomy i.1 j.1 with hlt | heq | hlt
        · rw [abs_sub_comm]; exact h j.1 (by omega) j.2 j.2 i.1 (Nat.zero_le _) hlt i.2
        · have : i = j := Fin.ext heq
          subst this; simp
        · exact h i.1 (by omega) i.2 i.2 j.1 (Nat.zero_le _) hlt j.2
      · intro h row _ _ hr col _ _ hc; exact h _ _
    simp only [hall] at outer
    by_cases h : ∀ i j, |A i j - A j i| < 1 / 1000000
    · rw [(outer _ ?_).1 h, ok_bind]
      · simp [-one_div, h]
      · exact fun _ _ => rfl
    · rw [(outer _ ?_).2 h, ok_bind]
      · simp [-one_div, h]
      · exact fun _ _ => rfl
  refine ⟨key, ?_⟩
  unfold Mat.isNonSymmetric
  rw [key]; rfl

/-- C24: an exactly symmetric matrix is reported symmetric. -/
theorem C24_isSymmetric_of_symm [IsStrictOrderedRing K] {n : Nat} (hn : 0 < n) (A : Matrix (Fin n) (Fin n) K)
    (h : A.IsSymm) : (ofM A).isSymmetric = .ok true := by
  rw [(C24_isSymmetric hn A).1]
  simp [fun i j => h.apply i j]

omit [LinearOrder K] [Exact K] in
/-- C24: non-square matrices are never symmetric. -/
theorem C24_isSymmetric_nonsquare {m n : Nat} (hm : 0 < m) (A : Matrix (Fin m) (Fin n) K) (h : m ≠ n) :
    (ofM A).isSymmetric = .ok false ∧ (ofM A).isNonSymmetric = .ok true := by
  have : (ofM A).isSymmetric = .ok false := by
    unfold Mat.isSymmetric
    rw [ofM_cols A hm, ok_bind, if_pos (by simpa using h)]; rfl
  exact ⟨this, by unfold Mat.isNonSymmetric; rw [this]; rfl⟩

end

/-- C24: `is_square` / `is_not_square`. -/
theorem C24_isSquare {m n : Nat} (hm : 0 < m) (A : Matrix (Fin m) (Fin n) α) :
    (ofM A).isSquare = .ok (decide (m = n)) ∧ (ofM A).isNotSquare = .ok (decide (m ≠ n)) := by
  unfold Mat.isNotSquare Mat.isSquare
  rw [ofM_cols A hm]
  simp only [ofM_rows, ok_bind, pure_eq_ok]
  by_cases h : m = n <;> simp [h]

/-! ## C25 -/

/-- C25: `trace()` sums the diagonal, for every shape. -/
theorem C25_trace_rect [AddCommMonoid α] {m n : Nat} (hm : 0 < m) (A : Matrix (Fin m) (Fin n) α) :
    (ofM A).trace = .ok (∑ i : Fin (min m n), A ⟨i.1, by omega⟩ ⟨i.1, by omega⟩) := by
  unfold Mat.trace
  simp only [ofM_rows, ofM_cols A hm, ok_bind]
  let x : Nat → α := fun k => if hk : k < min m n then A ⟨k, by omega⟩ ⟨k, by omega⟩ else 0
  have := loop_post (lo := 0) (hi := min m n) (s := ((0 : α), 0))
    (f := fun _ (s : α × Nat) => do return (s.1 + (← idx (ofM A).data s.2), s.2 + (n + 1)))
    (fun k s => s = (∑ i ∈ Finset.range k, x i, k * n + k)) (Nat.zero_le _) (by simp) (by
      rintro k s - hk rfl
      dsimp only
      rw [idx_ofM A (show k < m by omega) (show k < n by omega), ok_bind]
      refine Post.ok ?_
      rw [Finset.sum_range_succ]
      simp only [x, hk, dif_pos, Prod.mk.injEq, true_and]
      ring)
  obtain ⟨s, hs, rfl⟩ := this
  rw [hs, ok_bind]
  simp only [pure_eq_ok, Except.ok.injEq]
  rw [Finset.sum_range]
  refine Finset.sum_congr rfl fun i _ => ?_
  exact dif_pos i.2

/-- C25: on square matrices it is the mathematical trace. -/
theorem C25_trace [AddCommMonoid α] {n : Nat} (hn : 0 < n) (A : Matrix (Fin n) (Fin n) α) :
    (ofM A).trace = .ok A.trace := by
  rw [C25_trace_rect hn, Matrix.trace]
  congr 1
  refine Fintype.sum_equiv (finCongr (by omega)) _ _ fun i => rfl

/-- C25: linearity, invariance under transposition and cyclicity, through the API. -/
theorem C25_trace_laws [CommRing α] {m n : Nat} (hm : 0 < m) (hn : 0 < n) (A B : Matrix (Fin n) (Fin n) α) (k : α)
    (C : Matrix (Fin m) (Fin n) α) (D : Matrix (Fin n) (Fin m) α) :
    ((ofM A).add (ofM B) >>= Mat.trace) = (do return (← (ofM A).trace) + (← (ofM B).trace)) ∧
    ((ofM A).scale k >>= Mat.trace) = (do return k * (← (ofM A).trace)) ∧
    ((ofM A).t >>= Mat.trace) = (ofM A).trace ∧
    ((ofM C).mul (ofM D) >>= Mat.trace) = ((ofM D).mul (ofM C) >>= Mat.trace) := by
  simp only [C08_add hn, C08_scale, t_ofM hn, C10_mul hm hn, C10_mul hn hm, ok_bind, C25_trace hn, C25_trace hm,
    Matrix.trace_add, Matrix.trace_smul, Matrix.trace_transpose, Matrix.trace_mul_comm C D, smul_eq_mul, pure_eq_ok]
  simp

example : (⟨2, [1, 2, 3, 4, 5, 6]⟩ : Mat Nat).trace = .ok 6 := by decide

/-! ## C26 -/

theorem colVec_cols {n : Nat} (hn : 0 < n) (v : Fin n → α) : (ofM (colVec v)).cols = .ok 1 := ofM_cols _ hn

/-- C26: 1-norm. -/
theorem C26_norm1 {n : Nat} (hn : 0 < n) (v : Fin n → ℝ) : (ofM (colVec v)).vector1Norm = .ok (∑ i, |v i|) := by
  unfold Mat.vector1Norm
  rw [colVec_cols hn]
  simp only [ok_bind, beq_self_eq_true, assert_true]
  rw [sum_data_loop (colVec v) (fun x => |x|), sum_colVec v (fun x => |x|)]
  intro i j s
  rw [idx_ofM (colVec v) i.2 j.2]; rfl

/-- C26: Euclidean norm, under its three names. -/
theorem C26_norm2 {n : Nat} (hn : 0 < n) (v : Fin n → ℝ) :
    (ofM (colVec v)).vectorEuclideanNorm = .ok ‖(WithLp.toLp 2 v : EuclideanSpace ℝ (Fin n))‖ ∧
    (ofM (colVec v)).vector2Norm = .ok ‖(WithLp.toLp 2 v : EuclideanSpace ℝ (Fin n))‖ ∧
    (ofM (colVec v)).length = .ok ‖(WithLp.toLp 2 v : EuclideanSpace ℝ (Fin n))‖ := by
  have : (ofM (colVec v)).vectorEuclideanNorm = .ok ‖(WithLp.toLp 2 v : EuclideanSpace ℝ (Fin n))‖ := by
    unfold Mat.vectorEuclideanNorm
    rw [colVec_cols hn]
    simp only [ok_bind, beq_self_eq_true, assert_true]
    rw [sum_data_loop (colVec v) (fun x => x * x), sum_colVec v (fun x => x * x), ok_bind,
      sqrt_ok (Finset.sum_nonneg fun i _ => mul_self_nonneg _), EuclideanSpace.norm_eq]
    · congr 2
      refine Finset.sum_congr rfl fun i _ => ?_
      simp [sq]
    · intro i j s
      rw [idx_ofM (colVec v) i.2 j.2]; rfl
  exact ⟨this, this, this⟩

/-- C26: maximum norm: the largest absolute value. -/
theorem C26_normInf {n : Nat} (hn : 0 < n) (v : Fin n → ℝ) :
    ∃ x, (ofM (colVec v)).vectorInfNorm = .ok x ∧ (∃ i, x = |v i|) ∧ ∀ i, |v i| ≤ x := by
  unfold Mat.vectorInfNorm
  rw [colVec_cols hn]
  have hidx : ∀ k (hk : k < n), idx (ofM (colVec v)).data k = .ok (v ⟨k, hk⟩) := by
    intro k hk
    have := idx_ofM (colVec v) hk Nat.one_pos
    simpa [colVec] using this
  simp only [ok_bind, beq_self_eq_true, assert_true, hidx 0 hn, ofM_length, Nat.mul_one]
  have := loop_post (lo := 1) (hi := n) (s := (FloatOps.abs (v ⟨0, hn⟩) : ℝ))
    (f := fun i cur => do
      let x := FloatOps.abs (← idx (ofM (colVec v)).data i)
      if FloatOps.lt cur x then return x else return cur)
    (fun k x => (∃ i, x = |v i|) ∧ ∀ i : Fin n, i.1 < k → |v i| ≤ x) hn
    ⟨⟨_, rfl⟩, fun i hi => by
      have : i = ⟨0, hn⟩ := Fin.ext (Nat.lt_one_iff.mp hi)
      rw [this]; exact le_of_eq rfl⟩ (by
    rintro k x - hk ⟨⟨i0, rfl⟩, hx⟩
    simp only [hidx k hk, ok_bind]
    by_cases hlt : |v i0| < |v ⟨k, hk⟩|
    · rw [if_pos (by rw [lt_eq, Exact.abs_eq]; simpa using hlt)]
      refine Post.ok ⟨⟨_, rfl⟩, fun i hi => ?_⟩
      by_cases e : i.1 = k
      · have : i = ⟨k, hk⟩ := Fin.ext e
        rw [this]; exact le_of_eq rfl
      · exact le_of_lt (lt_of_le_of_lt (hx i (by omega)) hlt)
    · rw [if_neg (by rw [lt_eq, Exact.abs_eq]; simpa using hlt)]
      refine Post.ok ⟨⟨_, rfl⟩, fun i hi => ?_⟩
      by_cases e : i.1 = k
      · have : i = ⟨k, hk⟩ := Fin.ext e
        rw [this]; exact not_lt.mp hlt
      · exact hx i (by omega))
  obtain ⟨x, hx, h1, h2⟩ := this
  exact ⟨x, hx, h1, fun i => h2 i i.2⟩

/-- C26: Frobenius norm. -/
theorem C26_frobenius {m n : Nat} (A : Matrix (Fin m) (Fin n) ℝ) :
    (ofM A).frobeniusNorm = .ok (Real.sqrt (∑ i, ∑ j, A i j ^ 2)) := by
  unfold Mat.frobeniusNorm
  have h0 : (0 : ℝ) ≤ ∑ i, ∑ j, A i j * A i j :=
    Finset.sum_nonneg fun i _ => Finset.sum_nonneg fun j _ => mul_self_nonneg _
  rw [sum_data_loop A (fun x => x * x), ok_bind]
  · refine (sqrt_ok h0).trans ?_
    simp only [sq]
  · intro i j s
    rw [idx_ofM A i.2 j.2]; rfl

/-- C26: the Frobenius norm is the Euclidean norm of the entries, whence the norm laws. -/
theorem frob_eq_norm {m n : Nat} (A : Matrix (Fin m) (Fin n) ℝ) :
    Real.sqrt (∑ i, ∑ j, A i j ^ 2) =
      ‖(WithLp.toLp 2 (fun p : Fin m × Fin n => A p.1 p.2) : EuclideanSpace ℝ (Fin m × Fin n))‖ := by
  rw [EuclideanSpace.norm_eq, ← Fintype.sum_prod_type' (f := fun i j => A i j ^ 2)]
  simp

/-- C26: norm laws of the Frobenius norm: non-negative, zero only for the zero matrix, absolutely homogeneous, triangle
inequality. -/
theorem C26_frobenius_laws {m n : Nat} (hm : 0 < m) (A B : Matrix (Fin m) (Fin n) ℝ) (k x y : ℝ)
    (hx : (ofM A).frobeniusNorm = .ok x) (hy : (ofM B).frobeniusNorm = .ok y) :
    0 ≤ x ∧ (x = 0 ↔ A = 0) ∧ ((ofM A).scale k >>= Mat.frobeniusNorm) = .ok (|k| * x) ∧
    ∃ z, ((ofM A).add (ofM B) >>= Mat.frobeniusNorm) = .ok z ∧ z ≤ x + y := by
  rw [C26_frobenius] at hx hy
  cases hx; cases hy
  rw [C08_scale, C08_add hm, ok_bind, ok_bind, C26_frobenius, C26_frobenius]
  refine ⟨Real.sqrt_nonneg _, ?_, ?_, _, rfl, ?_⟩
  · rw [frob_eq_norm, norm_eq_zero]
    constructor
    · intro h
      funext i j
      have := congrArg (fun f : EuclideanSpace ℝ (Fin m × Fin n) => f (i, j)) h
      simpa using this
    · rintro rfl; ext p; simp
  · rw [frob_eq_norm, frob_eq_norm, ← Real.norm_eq_abs, ← norm_smul]
    rfl
  · rw [frob_eq_norm, frob_eq_norm, frob_eq_norm]
    exact norm_add_le (WithLp.toLp 2 (fun p : Fin m × Fin n => A p.1 p.2) : EuclideanSpace ℝ (Fin m × Fin n))
      (WithLp.toLp 2 (fun p : Fin m × Fin n => B p.1 p.2))

/-- C26: norm laws of the three vector norms. -/
theorem C26_vector_laws {n : Nat} (hn : 0 < n) (u v : Fin n → ℝ) (k : ℝ) (N : Mat ℝ → R ℝ)
    (hN : N = Mat.vector1Norm ∨ N = Mat.vectorEuclideanNorm ∨ N = Mat.vectorInfNorm) :
    ∃ x y, N (ofM (colVec u)) = .ok x ∧ N (ofM (colVec v)) = .ok y ∧
      0 ≤ x ∧ (x = 0 ↔ u = 0) ∧ ((ofM (colVec u)).scale k >>= N) = .ok (|k| * x) ∧
      ∃ z, ((ofM (colVec u)).add (ofM (colVec v)) >>= N) = .ok z ∧ z ≤ x + y := by
  have hs : (ofM (colVec u)).scale k = .ok (ofM (colVec (k • u))) := C08_scale _ _
  have ha : (ofM (colVec u)).add (ofM (colVec v)) = .ok (ofM (colVec (u + v))) := C08_add hn _ _
  rw [hs, ha, ok_bind, ok_bind]
  rcases hN with rfl | rfl | rfl
  · simp only [C26_norm1 hn]
    refine ⟨_, _, rfl, rfl, Finset.sum_nonneg fun i _ => abs_nonneg _, ?_, ?_, _, rfl, ?_⟩
    · rw [Finset.sum_eq_zero_iff_of_nonneg fun i _ => abs_nonneg _]
      simp [funext_iff]
    · congr 1
      rw [Finset.mul_sum]
      exact Finset.sum_congr rfl fun i _ => by simp [abs_mul]
    · rw [← Finset.sum_add_distrib]
      exact Finset.sum_le_sum fun i _ => abs_add_le _ _
  · simp only [(C26_norm2 hn _).1]
    refine ⟨_, _, rfl, rfl, norm_nonneg _, ?_, ?_, _, rfl, norm_add_le _ _⟩
    · rw [norm_eq_zero]
      constructor
      · intro h; funext i
        have := congrArg (fun f : EuclideanSpace ℝ (Fin n) => f i) h
        simpa using this
      · rintro rfl; rfl
    · rw [← Real.norm_eq_abs, ← norm_smul]; rfl
  · obtain ⟨x, hx, ⟨i, hi⟩, hxm⟩ := C26_normInf hn u
    obtain ⟨y, hy, ⟨j, hj⟩, hym⟩ := C26_normInf hn v
    obtain ⟨s, hs, ⟨l, hl⟩, hsm⟩ := C26_normInf hn (k • u)
    obtain ⟨z, hz, ⟨q, hq⟩, hzm⟩ := C26_normInf hn (u + v)
    refine ⟨x, y, hx, hy, hi ▸ abs_nonneg _, ?_, ?_, z, hz, ?_⟩
    · constructor
      · intro h0
        funext t
        have := hxm t
        rw [h0] at this
        simpa using this
      · rintro rfl; rw [hi]; simp
    · rw [hs]
      congr 1
      apply le_antisymm
      · rw [hl]
        simp only [Pi.smul_apply, smul_eq_mul, abs_mul]
        exact mul_le_mul_of_nonneg_left (hxm l) (abs_nonneg _)
      · have := hsm i
        simp only [Pi.smul_apply, smul_eq_mul, abs_mul] at this
        rw [hi]; exact this
    · rw [hq]
      exact (abs_add_le _ _).trans (add_le_add (hxm q) (hym q))

/-- C26: the vector norms panic on anything that is not a single column. -/
theorem C26_vector_norms_panic {m n : Nat} (hm : 0 < m) (hn : n ≠ 1) (A : Matrix (Fin m) (Fin n) ℝ) (p : ℝ) :
    (ofM A).vector1Norm = .error .assert ∧ (ofM A).vectorEuclideanNorm = .error .assert ∧
    (ofM A).vectorInfNorm = .error .assert ∧ (ofM A).vectorPNorm p = .error .assert := by
  unfold Mat.vector1Norm Mat.vectorEuclideanNorm Mat.vectorInfNorm Mat.vectorPNorm
  simp [ofM_cols A hm, assert_beq_ne hn]

/-! ## C27 -/

theorem powf_pos {x y : ℝ} (h : 0 ≤ x) (hy : 0 ≤ y) : FloatOps.powf x y = .ok (x ^ y) := by
  simp only [FloatOps.powf]
  rcases h.lt_or_eq with h | h
  · rw [if_pos h]
  · rw [if_neg (by rw [← h]; exact lt_irrefl _), if_pos h.symm, if_neg (not_lt.mpr hy), ← h]

theorem powf_int {x : ℝ} {n : ℤ} (hn : 0 ≤ n) : FloatOps.powf x (n : ℝ) = .ok (x ^ n) := by
  have hn' : (0 : ℝ) ≤ (n : ℝ) := by exact_mod_cast hn
  rcases lt_trichotomy x 0 with h | h | h
  · simp only [FloatOps.powf]
    rw [if_neg (not_lt.mpr h.le), if_neg h.ne, if_pos ⟨n, rfl⟩, Real.rpow_intCast]
  · rw [powf_pos h.ge hn', Real.rpow_intCast]
  · rw [powf_pos h.le hn', Real.rpow_intCast]

theorem pnorm_final {s p : ℝ} (hs : 0 ≤ s) (hp : 1 ≤ p) :
    ((RDiv.rdiv (1 : ℝ) p : R ℝ) >>= fun q => FloatOps.powf s q) = .ok (s ^ (1 / p)) := by
  rw [rdiv_ok (by linarith : p ≠ 0), ok_bind, powf_pos hs (by positivity)]

/-- C27, the part that holds: for `p ≥ 1`, vectors without negative entries, or integer `p`, give
`(∑ |xᵢ|^p)^(1/p)`.  Missing: non-integer `p` with a negative entry, where the property is false. -/
theorem C27_pnorm_partial {n : Nat} (hn : 0 < n) (v : Fin n → ℝ) (p : ℝ) (hp : 1 ≤ p)
    (h : (∀ i, 0 ≤ v i) ∨ ∃ q : ℤ, p = q) :
    (ofM (colVec v)).vectorPNorm p = .ok ((∑ i, |v i| ^ p) ^ (1 / p)) := by
  have hpow : ∀ i, (FloatOps.powf (v i) p : R ℝ) >>= (fun x => .ok |x|) = .ok (|v i| ^ p) := by
    intro i
    rcases h with h | ⟨q, rfl⟩
    · rw [powf_pos (h i) (by linarith), ok_bind, abs_of_nonneg (Real.rpow_nonneg (h i) _), abs_of_nonneg (h i)]
    · have hq : (0 : ℤ) ≤ q := by
        have : (0 : ℝ) ≤ (q : ℝ) := by linarith
        exact_mod_cast this
      rw [powf_int hq, ok_bind, Real.rpow_intCast, abs_zpow]
  unfold Mat.vectorPNorm
  rw [colVec_cols hn]
  simp only [ok_bind, beq_self_eq_true, assert_true]
  rw [sum_data_loop (colVec v) (fun x => |x| ^ p), sum_colVec v (fun x => |x| ^ p), ok_bind]
  · exact pnorm_final (Finset.sum_nonneg fun i _ => Real.rpow_nonneg (abs_nonneg _) _) hp
  · intro i j s
    rw [idx_ofM (colVec v) i.2 j.2, ok_bind]
    have := hpow i
    rw [bind_eq_ok] at this
    obtain ⟨a, ha, hab⟩ := this
    simp only [colVec]
    rw [ha, ok_bind]
    exact congrArg (fun t => Except.ok (s + t)) (Except.ok.inj hab)

/-- C27 is false for non-integer `p` and any vector with a negative entry: `x^p` has no real value (a float NaN), whatever
the other entries are. -/
theorem C27_refuted_negative_entry {n : Nat} (v : Fin n → ℝ) (p : ℝ) (hp : 1 ≤ p)
    (hneg : ∃ i, v i < 0) (hint : ¬ ∃ q : ℤ, p = q) : (ofM (colVec v)).vectorPNorm p = .error .undef := by
  have hn : 0 < n := by obtain ⟨i, _⟩ := hneg; have := i.2; omega
  unfold Mat.vectorPNorm
  rw [colVec_cols hn]
  simp only [ok_bind, beq_self_eq_true, assert_true]
  rw [data_loop_error (colVec v) (e := .undef) (0 : ℝ) (fun x => x < 0)]
  · rfl
  · intro i j s hx
    rw [idx_ofM (colVec v) i.2 j.2, ok_bind]
    exact ⟨_, by rw [powf_pos (not_lt.mp hx) (by linarith), ok_bind]; rfl⟩
  · intro i j s hx
    rw [idx_ofM (colVec v) i.2 j.2, ok_bind]
    simp only [FloatOps.powf]
    rw [if_neg (not_lt.mpr hx.le), if_neg hx.ne, if_neg hint]; rfl
  · obtain ⟨i, hi⟩ := hneg
    exact ⟨i, 0, hi⟩

/-- Both hypotheses of `C27_refuted_negative_entry` are met, e.g. by `(-1, 2)` and `p = 3/2`. -/
example : (ofM (colVec ![(-1 : ℝ), 2])).vectorPNorm (3 / 2) = .error .undef := by
  refine C27_refuted_negative_entry _ _ (by norm_num) ⟨0, by norm_num⟩ ?_
  rintro ⟨q, hq⟩
  have : (3 : ℝ) = 2 * q := by linarith
  have h2 : (3 : ℤ) = 2 * q := by exact_mod_cast this
  omega

/-! ## C51 -/

/-- C51: `hypot(a, b) = √(a² + b²)` for all reals, without dividing by zero or taking a root of a negative number. -/
theorem C51_hypot (a b : ℝ) : hypot a b = .ok (Real.sqrt (a ^ 2 + b ^ 2)) := by
  have key : ∀ x y : ℝ, x ≠ 0 → |x| * Real.sqrt (1 + y / x * (y / x)) = Real.sqrt (x ^ 2 + y ^ 2) := by
    intro x y hx
    rw [← Real.sqrt_sq_eq_abs, ← Real.sqrt_mul (sq_nonneg x)]
    congr 1
    field_simp
  unfold hypot
  simp only [lt_eq, eq_eq, Exact.abs_eq, decide_eq_true_eq]
  by_cases h : |b| < |a|
  · have ha : a ≠ 0 := by
      intro h0; rw [h0, abs_zero] at h; exact absurd h (not_lt.mpr (abs_nonneg b))
    rw [if_pos h, rdiv_ok ha, ok_bind, sqrt_ok (by nlinarith [mul_self_nonneg (b / a)]), ok_bind]
    simp only [pure_eq_ok, key a b ha]
  · rw [if_neg h]
    by_cases hb : b = 0
    · have ha : a = 0 := by
        rw [hb, abs_zero] at h
        exact abs_nonpos_iff.mp (not_lt.mp h)
      simp [hb, ha]
    · rw [if_pos (by simpa using hb), rdiv_ok hb, ok_bind, sqrt_ok (by nlinarith [mul_self_nonneg (a / b)]), ok_bind]
      simp only [pure_eq_ok, key b a hb, add_comm (a ^ 2)]

/-! Reals with overflow detection: `over` is "some intermediate result exceeded `M` in absolute value"; it is absorbing. -/

/-- A real, or the record that some intermediate result exceeded `M` in absolute value. -/
inductive Ovf (M : ℝ) where
  /-- a result within bounds -/
  | val (x : ℝ)
  /-- some result exceeded the bound -/
  | over

namespace Ovf
variable {M : ℝ}

open Classical in
/-- Keep `x` only if it is at most `M` in absolute value. -/
noncomputable def clip (M x : ℝ) : Ovf M := if |x| ≤ M then .val x else .over

/-- Lift a real operation, checking its result. -/
noncomputable def op2 (f : ℝ → ℝ → ℝ) : Ovf M → Ovf M → Ovf M
  | .val a, .val b => clip M (f a b)
  | _, _ => .over

noncomputable instance : Zero (Ovf M) := ⟨clip M 0⟩
noncomputable instance : One (Ovf M) := ⟨clip M 1⟩
noncomputable instance : Add (Ovf M) := ⟨op2 (· + ·)⟩
noncomputable instance : Mul (Ovf M) := ⟨op2 (· * ·)⟩

open Classical in
noncomputable instance : FloatOps (Ovf M) where
  rdiv
    | .val a, .val b => if b = 0 then .error .undef else .ok (clip M (a / b))
    | _, _ => .ok .over
  sqrt
    | .val a => if a < 0 then .error .undef else .ok (clip M (Real.sqrt a))
    | .over => .ok .over
  abs
    | .val a => clip M |a|
    | .over => .over
  lt
    | .val a, .val b => decide (a < b)
    | _, _ => false
  le
    | .val a, .val b => decide (a ≤ b)
    | _, _ => false
  eq
    | .val a, .val b => decide (a = b)
    | _, _ => false
  max := op2 max
  powf _ _ := .ok .over
  cst p q := clip M ((p : ℝ) / (q : ℝ))

theorem clip_ok {x : ℝ} (h : |x| ≤ M) : clip M x = (Ovf.val x : Ovf M) := if_pos h

end Ovf

/-- C51: no intermediate result of `hypot(a, b)` exceeds `max(2, √2·max(|a|,|b|))`: evaluated in real arithmetic that
records any excess over that bound, it records .over (and returns `√(a²+b²)`). -/
theorem C51_hypot_no_overflow (a b M : ℝ) (h2 : 2 ≤ M) (hM : Real.sqrt 2 * max |a| |b| ≤ M) :
    hypot (α := Ovf M) (.val a) (.val b) = .ok (.val (Real.sqrt (a ^ 2 + b ^ 2))) := by
  have s2 : (1 : ℝ) ≤ Real.sqrt 2 := Real.one_le_sqrt.mpr (by norm_num)
  have hab : max |a| |b| ≤ M := le_trans (le_mul_of_one_le_left (le_trans (abs_nonneg a) (le_max_left _ _)) s2) hM
  have ha : |a| ≤ M := le_trans (le_max_left _ _) hab
  have hb : |b| ≤ M := le_trans (le_max_right _ _) hab
  have key : ∀ x y : ℝ, |x| ≤ M → |y| ≤ |x| → x ≠ 0 → Real.sqrt 2 * |x| ≤ M →
      ((RDiv.rdiv (Ovf.val y : Ovf M) (Ovf.val x : Ovf M) : R (Ovf M)) >>= fun r =>
        (FloatOps.sqrt ((1 : Ovf M) + r * r) : R (Ovf M)) >>= fun q =>
        (pure (FloatOps.abs (Ovf.val x : Ovf M) * q) : R (Ovf M))) =
      .ok (.val (Real.sqrt (x ^ 2 + y ^ 2))) := by
    intro x y hx hxy h0 hsx
    have hr : |y / x| ≤ 1 := by rw [abs_div]; exact div_le_one_of_le₀ hxy (abs_nonneg _)
    have hr2 : y / x * (y / x) ≤ 1 := by rw [← abs_mul_abs_self]; nlinarith [abs_nonneg (y / x)]
    have hr0 : 0 ≤ y / x * (y / x) := mul_self_nonneg _
    have e1 : (RDiv.rdiv (Ovf.val y : Ovf M) (Ovf.val x : Ovf M) : R (Ovf M)) = .ok (.val (y / x)) := by
      change (if x = 0 then (Except.error Err.undef : R (Ovf M)) else .ok (Ovf.clip M (y / x))) = _
      rw [if_neg h0, Ovf.clip_ok (by linarith)]
    have e2 : (Ovf.val (y / x) : Ovf M) * (Ovf.val (y / x) : Ovf M) = (Ovf.val (y / x * (y / x)) : Ovf M) :=
      Ovf.clip_ok (by rw [abs_of_nonneg hr0]; linarith)
    have e3 : (1 : Ovf M) = (Ovf.val 1 : Ovf M) := Ovf.clip_ok (by rw [abs_one]; linarith)
    have e4 : (Ovf.val 1 : Ovf M) + (Ovf.val (y / x * (y / x)) : Ovf M) = (Ovf.val (1 + y / x * (y / x)) : Ovf M) :=
      Ovf.clip_ok (by rw [abs_of_nonneg (by linarith)]; linarith)
    have hs : Real.sqrt (1 + y / x * (y / x)) ≤ Real.sqrt 2 := Real.sqrt_le_sqrt (by linarith)
    have hs' : Real.sqrt 2 ≤ 2 := by
      rw [Real.sqrt_le_left (by norm_num)]; norm_num
    have e5 : (FloatOps.sqrt (Ovf.val (1 + y / x * (y / x)) : Ovf M) : R (Ovf M)) =
        .ok (.val (Real.sqrt (1 + y / x * (y / x)))) := by
      change (if _ < (0 : ℝ) then (Except.error Err.undef : R (Ovf M)) else _) = _
      rw [if_neg (by linarith), Ovf.clip_ok (by rw [abs_of_nonneg (Real.sqrt_nonneg _)]; linarith)]
    have e6 : (FloatOps.abs (Ovf.val x : Ovf M) : Ovf M) = (Ovf.val |x| : Ovf M) :=
      Ovf.clip_ok (by rw [abs_abs]; exact hx)
    have e7 : (Ovf.val |x| : Ovf M) * (Ovf.val (Real.sqrt (1 + y / x * (y / x))) : Ovf M) =
        (Ovf.val (|x| * Real.sqrt (1 + y / x * (y / x))) : Ovf M) :=
      Ovf.clip_ok (by
        rw [abs_of_nonneg (mul_nonneg (abs_nonneg _) (Real.sqrt_nonneg _))]
        nlinarith [abs_nonneg x])
    have e8 : |x| * Real.sqrt (1 + y / x * (y / x)) = Real.sqrt (x ^ 2 + y ^ 2) := by
      rw [← Real.sqrt_sq_eq_abs, ← Real.sqrt_mul (sq_nonneg x)]
      congr 1
      field_simp
    rw [e1, ok_bind, e2, e3, e4, e5, ok_bind, e6, e7, e8]; rfl
  have f1 : (FloatOps.abs (Ovf.val a : Ovf M) : Ovf M) = (Ovf.val |a| : Ovf M) :=
    Ovf.clip_ok (by rw [abs_abs]; exact ha)
  have f2 : (FloatOps.abs (Ovf.val b : Ovf M) : Ovf M) = (Ovf.val |b| : Ovf M) :=
    Ovf.clip_ok (by rw [abs_abs]; exact hb)
  have f3 : (0 : Ovf M) = (Ovf.val 0 : Ovf M) := Ovf.clip_ok (by rw [abs_zero]; linarith)
  have f4 : FloatOps.lt (FloatOps.abs (Ovf.val b : Ovf M)) (FloatOps.abs (Ovf.val a : Ovf M)) = decide (|b| < |a|) := by
    rw [f1, f2]; rfl
  have f5 : FloatOps.eq (Ovf.val b : Ovf M) (0 : Ovf M) = decide (b = 0) := by rw [f3]; rfl
  unfold hypot
  rw [f4, f5]
  by_cases h : |b| < |a|
  · rw [if_pos (by simpa using h)]
    refine key a b ha h.le ?_ (by rw [max_eq_left h.le] at hM; exact hM)
    rintro rfl
    rw [abs_zero] at h; exact absurd h (not_lt.mpr (abs_nonneg b))
  · rw [if_neg (by simpa using h)]
    by_cases hb0 : b = 0
    · have ha0 : a = 0 := by
        rw [hb0, abs_zero] at h
        exact abs_nonpos_iff.mp (not_lt.mp h)
      rw [if_neg (by simpa using hb0), hb0, ha0, f3]
      simp
    · rw [if_pos (by simpa using hb0), add_comm (a ^ 2)]
      exact key b a hb (not_lt.mp h) hb0 (by rw [max_eq_right (not_lt.mp h)] at hM; exact hM)

/-- The tests and norms on concrete arguments. -/
example : (⟨2, [1, 2, 2 + 1 / 2000000, 4]⟩ : Mat ℚ).isSymmetric = .ok true ∧ (⟨2, [1, 2, 3, 4]⟩ : Mat ℚ).isSymmetric = .ok false ∧
    (⟨2, [1, 2]⟩ : Mat ℚ).isSymmetric = .ok false ∧ (⟨2, [1, 2]⟩ : Mat ℚ).isSquare = .ok false ∧
    (⟨1, [1, 2]⟩ : Mat ℚ).approxEq ⟨2, [1, 2]⟩ = .ok false := by decide +kernel
example : (ofM (colVec ![(3 : ℝ), -4])).vector1Norm = .ok 7 ∧ (ofM !![3, (0 : ℝ); 0, -4]).frobeniusNorm = .ok 5 ∧
    (ofM (colVec ![(3 : ℝ), -4])).vectorPNorm 2 = .ok ((|3| ^ (2 : ℝ) + |-4| ^ (2 : ℝ)) ^ (1 / (2 : ℝ))) ∧
    (ofM !![3, (0 : ℝ); 0, -4]).vector1Norm = .error .assert := by
  refine ⟨?_, ?_, ?_, (C26_vector_norms_panic (by norm_num) (by norm_num) _ 1).1⟩
  · rw [C26_norm1 (by norm_num)]; simp; norm_num
  · rw [C26_frobenius, show (∑ i, ∑ j, (!![3, (0 : ℝ); 0, -4] : Matrix (Fin 2) (Fin 2) ℝ) i j ^ 2) = 5 ^ 2 by
      simp [Fin.sum_univ_two]; norm_num, Real.sqrt_sq (by norm_num)]
  · rw [C27_pnorm_partial (by norm_num) _ 2 (by norm_num) (Or.inr ⟨2, by norm_num⟩)]; simp [Fin.sum_univ_two]
example : hypot (3 : ℝ) 4 = .ok 5 := by
  rw [C51_hypot, show (3 : ℝ) ^ 2 + 4 ^ 2 = 5 ^ 2 by norm_num, Real.sqrt_sq (by norm_num)]
/-- `hypot(3e200, 4e200)` with numbers limited to `1e250`, where `(4e200)²` would overflow. -/
example : hypot (α := Ovf (10 ^ 250)) (.val (3 * 10 ^ 200)) (.val (4 * 10 ^ 200)) = .ok (.val (Real.sqrt ((3 * 10 ^ 200) ^ 2 + (4 * 10 ^ 200) ^ 2))) := by
  refine C51_hypot_no_overflow _ _ _ (by norm_num) ?_
  have h2 : Real.sqrt 2 ≤ 2 := by rw [Real.sqrt_le_left (by norm_num)]; norm_num
  have h3 : max |(3 * 10 ^ 200 : ℝ)| |4 * 10 ^ 200| = 4 * 10 ^ 200 := by norm_num
  rw [h3]
  calc Real.sqrt 2 * (4 * 10 ^ 200) ≤ 2 * (4 * 10 ^ 200) := by gcongr
    _ ≤ 10 ^ 250 := by norm_num

end LA.Props
