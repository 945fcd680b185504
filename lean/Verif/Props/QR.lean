import Verif.Proofs.QR
import Verif.Props.LU
import Mathlib.LinearAlgebra.Matrix.ToLinearEquiv
import Mathlib.LinearAlgebra.Matrix.Notation
import Mathlib.LinearAlgebra.Matrix.DotProduct
import Mathlib.Algebra.Order.Star.Real

/-!
# C35-C39: QR factorisation, its rank test and `solve`, and `pinverse`

Exact real arithmetic; a division by zero or the square root of a negative number would be the error `undef`, so every
`= .ok …` below also says that none happens.
-/

namespace LA.Props
open LA Finset

set_option linter.unusedSectionVars false

/-- The columns of `A` are linearly independent. -/
def FullColumnRank {m n : Nat} (A : Matrix (Fin m) (Fin n) ℝ) : Prop := ∀ x : Fin n → ℝ, A.mulVec x = 0 → x = 0

theorem eye_mul_rm {m n : Nat} (G : Nat → Nat → ℝ) (d : Nat → ℝ) :
    QR.eye m (min m n) * QR.rm m n G d (min m n) = QR.rm m n G d (min m n) := by
  ext i j
  rw [QR.eye, Matrix.diagonal_mul]
  by_cases h : i.1 < min m n
  · rw [if_pos h, one_mul]
  · rw [if_neg h, zero_mul]
    have hi := i.2
    have hj := j.2
    simp only [QR.rm, Matrix.of_apply]
    rw [if_pos (show j.1 < min m n by omega), if_neg (by omega), if_neg (by omega)]

/-- C35: for every real matrix of every shape and rank the factorisation and its accessors succeed, `get_q()·get_r() = A`
and `get_r()` is upper trapezoidal. C36: the exact Gram matrix of `get_q()`. -/
theorem C35_qr {m n : Nat} (hm : 0 < m) (hn : 0 < n) (A : Matrix (Fin m) (Fin n) ℝ) :
    ∃ (x : QR ℝ) (Q : Matrix (Fin m) (Fin m) ℝ) (T : Matrix (Fin m) (Fin n) ℝ),
      QR.new (ofM A) = .ok x ∧ x.getQ = .ok (ofM Q) ∧ x.getR = .ok (ofM T) ∧
      Q * T = A ∧ (∀ i j, j.1 < i.1 → T i j = 0) ∧
      Q.transpose * Q = Matrix.diagonal (fun i => if i.1 < min m n then 1 else 0) := by
  obtain ⟨G, d, hx, hI⟩ := QR.new_ofM hm hn A
  refine ⟨_, _, _, hx, QR.getQ_ok G d hm hI.nz, QR.getR_ok G d hm hn, ?_, ?_, ?_⟩
  · rw [Matrix.mul_assoc, eye_mul_rm, ← hI.eq]
  · intro i j h
    have hj := j.2
    have hi := i.2
    simp only [QR.rm, Matrix.of_apply]
    rw [if_pos (show j.1 < min m n by omega), if_neg (by omega), if_neg (by omega)]
  · rw [Matrix.transpose_mul, Matrix.mul_assoc, ← Matrix.mul_assoc _ (QR.qp m G d (min m n)),
      (QR.qp_orth hI le_rfl).1, Matrix.one_mul]
    rw [QR.eye, Matrix.diagonal_transpose, Matrix.diagonal_mul_diagonal]
    congr 1
    funext i
    split <;> simp

/-- C35 through the public API: `qr.get_q() * qr.get_r() == a`. -/
theorem C35_api {m n : Nat} (hm : 0 < m) (hn : 0 < n) (A : Matrix (Fin m) (Fin n) ℝ) :
    ∃ x, QR.new (ofM A) = .ok x ∧ (do (← x.getQ).mul (← x.getR)) = .ok (ofM A) := by
  obtain ⟨x, Q, T, h1, h2, h3, h4, -⟩ := C35_qr hm hn A
  refine ⟨x, h1, ?_⟩
  rw [h2, h3, ok_bind, ok_bind, C10_mul hm hm, h4]

/-- C36, square and wide matrices: `get_q()` is orthogonal. -/
theorem C36_orthogonal_partial {m n : Nat} (hm : 0 < m) (hmn : m ≤ n) (A : Matrix (Fin m) (Fin n) ℝ) :
    ∃ (x : QR ℝ) (Q : Matrix (Fin m) (Fin m) ℝ), QR.new (ofM A) = .ok x ∧ x.getQ = .ok (ofM Q) ∧
      Q.transpose * Q = 1 ∧ Q * Q.transpose = 1 := by
  obtain ⟨x, Q, T, h1, h2, -, -, -, h5⟩ := C35_qr hm (by omega) A
  have : Q.transpose * Q = 1 := by
    rw [h5, ← Matrix.diagonal_one]
    congr 1
    funext i
    rw [if_pos (by have := i.2; omega)]
  exact ⟨x, Q, h1, h2, this, mul_eq_one_comm.1 this⟩

/-- C36 is false of the code: for EVERY tall matrix `get_q()` is not orthogonal (its last `m - n` columns are zero). -/
theorem C36_refuted_tall {m n : Nat} (hn : 0 < n) (hmn : n < m) (A : Matrix (Fin m) (Fin n) ℝ) :
    ∃ (x : QR ℝ) (Q : Matrix (Fin m) (Fin m) ℝ), QR.new (ofM A) = .ok x ∧ x.getQ = .ok (ofM Q) ∧
      Q.transpose * Q ≠ 1 ∧ ∀ i j, n ≤ j.1 → Q i j = 0 := by
  obtain ⟨x, Q, T, h1, h2, -, -, -, h5⟩ := C35_qr (show 0 < m by omega) hn A
  refine ⟨x, Q, h1, h2, ?_, ?_⟩
  · rw [h5]
    intro h
    have := congrFun (congrFun h ⟨n, hmn⟩) ⟨n, hmn⟩
    rw [Matrix.diagonal_apply_eq, Matrix.one_apply_eq, if_neg (by dsimp only; omega)] at this
    exact zero_ne_one this
  · intro i j hj
    have := congrFun (congrFun h5 j) j
    rw [Matrix.diagonal_apply_eq, if_neg (by omega), Matrix.mul_apply] at this
    have := (Finset.sum_eq_zero_iff_of_nonneg (fun t _ => by
      rw [Matrix.transpose_apply]; exact mul_self_nonneg (Q t j))).1 this i (Finset.mem_univ i)
    exact mul_self_eq_zero.1 this

/-- C36, tall matrices: the first `n` columns of `get_q()` are orthonormal. -/
theorem C36_columns_partial {m n : Nat} (hm : 0 < m) (hn : 0 < n) (A : Matrix (Fin m) (Fin n) ℝ) :
    ∃ (x : QR ℝ) (Q : Matrix (Fin m) (Fin m) ℝ), QR.new (ofM A) = .ok x ∧ x.getQ = .ok (ofM Q) ∧
      ∀ j k : Fin m, j.1 < min m n → ∑ i, Q i j * Q i k = if j = k then 1 else 0 := by
  obtain ⟨x, Q, T, h1, h2, -, -, -, h5⟩ := C35_qr hm hn A
  refine ⟨x, Q, h1, h2, fun j k hj => ?_⟩
  have := congrFun (congrFun h5 j) k
  rw [Matrix.mul_apply, Matrix.diagonal_apply] at this
  simp only [Matrix.transpose_apply, if_pos hj] at this
  exact this

/-! ## C37 -/

section Rank
variable {m n : Nat} {A : Matrix (Fin m) (Fin n) ℝ} {G : Nat → Nat → ℝ} {d : Nat → ℝ}

/-- Whether the columns are independent can be read off the diagonal of the triangular factor. -/
theorem fullRank_iff (hnm : n ≤ m) (hI : QR.Inv m n A (min m n) G d) :
    FullColumnRank A ↔ ∀ j : Fin n, d j ≠ 0 := by
  have hmin : min m n = n := by omega
  rw [hmin] at hI
  obtain ⟨ho1, -⟩ := QR.qp_orth hI le_rfl
  have hA : ∀ x, A.mulVec x = 0 ↔ (QR.rm m n G d n).mulVec x = 0 := by
    intro x
    constructor
    · intro h
      have := congrArg ((QR.qp m G d n).transpose.mulVec) h
      rw [hI.eq, Matrix.mulVec_mulVec, ← Matrix.mul_assoc, ho1, Matrix.one_mul, Matrix.mulVec_zero] at this
      exact this
    · intro h
      rw [hI.eq, ← Matrix.mulVec_mulVec, h, Matrix.mulVec_zero]
  let T : Matrix (Fin n) (Fin n) ℝ := (QR.rm m n G d n).submatrix (Fin.castLE hnm) id
  have hT : ∀ x, (QR.rm m n G d n).mulVec x = 0 ↔ T.mulVec x = 0 := by
    intro x
    constructor
    · intro h
      funext i
      exact congrFun h (Fin.castLE hnm i)
    · intro h
      funext i
      by_cases hi : i.1 < n
      · exact congrFun h ⟨i.1, hi⟩
      · rw [Matrix.mulVec, dotProduct, Pi.zero_apply]
        refine Finset.sum_eq_zero fun j _ => ?_
        have := j.2
        simp only [QR.rm, Matrix.of_apply]
        rw [if_pos j.2, if_neg (by omega), if_neg (by omega), zero_mul]
  have hdet : T.det = ∏ j : Fin n, d j := by
    rw [Matrix.det_of_upperTriangular (M := T) (by
      intro i j hij
      have hij : j.1 < i.1 := hij
      simp only [T, Matrix.submatrix_apply, QR.rm, Matrix.of_apply, id, Fin.val_castLE]
      rw [if_pos j.2, if_neg (by omega), if_neg (by omega)])]
    refine Finset.prod_congr rfl fun j _ => ?_
    simp only [T, Matrix.submatrix_apply, QR.rm, Matrix.of_apply, id, Fin.val_castLE]
    rw [if_pos j.2, if_neg (lt_irrefl _), if_true]
  have h1 : FullColumnRank A ↔ T.det ≠ 0 := by
    rw [FullColumnRank, ne_eq, ← Matrix.exists_mulVec_eq_zero_iff]
    constructor
    · rintro h ⟨v, hv, hv0⟩
      exact hv (h v ((hA v).2 ((hT v).2 hv0)))
    · intro h x hx
      by_contra hx0
      exact h ⟨x, hx0, (hT x).1 ((hA x).1 hx)⟩
  rw [h1, hdet, Finset.prod_ne_zero_iff]
  simp

theorem rdiag_loop (k : Nat) (hk : k ≤ min m n) :
    ((∀ i, i < k → d i ≠ 0) → loopF 0 k () (fun j _ => do
      if FloatOps.eq (← idx (QR.obj m n G d).rdiag j) 0 then return Flow.ret false
      else return Flow.next ()) = .ok (.next ())) ∧
    ((¬ ∀ i, i < k → d i ≠ 0) → loopF 0 k () (fun j _ => do
      if FloatOps.eq (← idx (QR.obj m n G d).rdiag j) 0 then return Flow.ret false
      else return Flow.next ()) = .ok (.ret false)) := by
  have := loopF_all (lo := 0) (hi := k) (f := fun j _ => do
    if FloatOps.eq (← idx (QR.obj m n G d).rdiag j) 0 then return Flow.ret false
    else return Flow.next ()) (fun j => d j ≠ 0) (by
      intro j _ hj
      rw [(QR.obj_vect G d).idx (by omega), ok_bind, eq_eq]
      constructor
      · intro h; rw [if_neg]; · rfl
        rw [decide_eq_true_eq]; exact h
      · intro h; rw [if_pos]; · rfl
        rw [decide_eq_true_eq]; exact not_not.mp h)
  exact ⟨fun h => this.1 fun i _ hi => h i hi, fun h => this.2 fun h' => h fun i hi => h' i (Nat.zero_le _) hi⟩

open Classical in
theorem isFullRank_ok (hn : 0 < n) (hnm : n ≤ m) :
    (QR.obj m n G d).isFullRank = .ok (decide (∀ i : Fin n, d i ≠ 0)) := by
  unfold QR.isFullRank
  rw [QR.obj_cols G d (by omega), ok_bind]
  have := rdiag_loop (m := m) (n := n) (G := G) (d := d) n (by omega)
  by_cases h : ∀ i : Fin n, d i ≠ 0
  · rw [this.1 fun i hi => h ⟨i, hi⟩, ok_bind]; simp [h]
  · rw [this.2 fun h' => h fun i => h' i i.2, ok_bind]; simp [h]

open Classical in
theorem isFullRank_wide (hm : 0 < m) (hmn : m < n) :
    (QR.obj m n G d).isFullRank = if ∀ i : Fin m, d i ≠ 0 then .error .oob else .ok false := by
  unfold QR.isFullRank
  rw [QR.obj_cols G d hm, ok_bind]
  have := rdiag_loop (m := m) (n := n) (G := G) (d := d) m (by omega)
  rw [loopF_split (lo := 0) (mid := m) (hi := n) (by omega) hmn.le ()]
  by_cases h : ∀ i : Fin m, d i ≠ 0
  · rw [this.1 fun i hi => h ⟨i, hi⟩, ok_bind, if_pos h]
    dsimp only
    rw [loopF_step hmn, idx_oob (by rw [(QR.obj_vect G d).1]; omega)]; rfl
  · rw [this.2 fun h' => h fun i => h' i i.2, ok_bind, if_neg h]; rfl

end Rank

open Classical in
/-- C37, matrices with at least as many rows as columns: `is_full_rank()` decides linear independence of the columns. -/
theorem C37_isFullRank_partial {m n : Nat} (hn : 0 < n) (hnm : n ≤ m) (A : Matrix (Fin m) (Fin n) ℝ) :
    (QR.new (ofM A) >>= QR.isFullRank) = .ok (decide (FullColumnRank A)) := by
  obtain ⟨G, d, hx, hI⟩ := QR.new_ofM (show 0 < m by omega) hn A
  rw [hx, ok_bind]
  refine (isFullRank_ok hn hnm).trans ?_
  rw [decide_eq_decide.2 (fullRank_iff hnm hI)]

/-- C37, wide matrices: the answer is `false` (correct: the columns are dependent) or a panic. -/
theorem C37_wide_partial {m n : Nat} (hm : 0 < m) (hmn : m < n) (A : Matrix (Fin m) (Fin n) ℝ) :
    (QR.new (ofM A) >>= QR.isFullRank) = .ok false ∨ (QR.new (ofM A) >>= QR.isFullRank) = .error .oob := by
  obtain ⟨G, d, hx, hI⟩ := QR.new_ofM hm (show 0 < n by omega) A
  rw [hx, ok_bind]
  have := isFullRank_wide (G := G) (d := d) hm hmn
  by_cases h : ∀ i : Fin m, d i ≠ 0
  · right; exact this.trans (if_pos h)
  · left; exact this.trans (if_neg h)

/-- C37 is false of the code: a wide matrix on which `is_full_rank()` panics (and every wide matrix whose first row
starts with a nonzero entry when there is only one row). -/
theorem C37_refuted_wide {n : Nat} (hn : 1 < n) (A : Matrix (Fin 1) (Fin n) ℝ) (h : A 0 ⟨0, by omega⟩ ≠ 0) :
    (QR.new (ofM A) >>= QR.isFullRank) = .error .oob := by
  obtain ⟨G, d, hx, hI⟩ := QR.new_ofM (show 0 < 1 by omega) (show 0 < n by omega) A
  rw [hx, ok_bind]
  refine (isFullRank_wide (G := G) (d := d) one_pos hn).trans (if_pos fun i => ?_)
  have hi : i.1 = 0 := by omega
  rw [hi]
  intro h0
  have hmin : min 1 n = 1 := by omega
  rw [hmin] at hI
  have hG : G 0 0 = 0 := by
    by_contra hG
    exact ((hI.nz 0 one_pos).1 hG) h0
  apply h
  have := congrFun (congrFun hI.eq 0) ⟨0, by omega⟩
  rw [this, QR.qp, QR.qp, QR.refl, if_pos hG, Matrix.one_mul, Matrix.one_mul]
  simp [QR.rm, h0]

/-- Concrete hypotheses for C37: an independent and a dependent pair of columns. -/
theorem rank_cases : FullColumnRank !![1, 0; 0, 2; 3, (1 : ℝ)] ∧ ¬ FullColumnRank !![1, 2; 2, 4; 3, (6 : ℝ)] := by
  constructor
  · intro x hx
    have h0 := congrFun hx 0
    have h1 := congrFun hx 1
    simp [Matrix.mulVec, dotProduct, Fin.sum_univ_two] at h0 h1
    funext i; fin_cases i <;> simp [h0, h1]
  · intro h
    have := congrFun (h ![2, -1] (by
      funext i; fin_cases i <;> norm_num [Matrix.mulVec, dotProduct, Fin.sum_univ_two])) 0
    norm_num at this

/-! ## C38 -/

section Solve
variable {m n p : Nat} {G : Nat → Nat → ℝ} {d : Nat → ℝ}

theorem solveColumn_post {k j : Nat} {b : List ℝ} (hb : ∃ X, Grid b m p X) (hk : k < min m n) (hj : j < p) (hG : G k k ≠ 0) :
    Post (QR.solveColumn (QR.obj m n G d) m n p k j b) fun b' => ∃ X, Grid b' m p X := by
  obtain ⟨X, hX⟩ := hb
  have hg := QR.obj_grid (m := m) (n := n) G d
  unfold QR.solveColumn
  rw [loop_sum_Ico (fun t => G t k * X t j) (fun t s h1 h2 => by
    rw [hg.idx h2 (by omega), hX.idx h2 hj]; rfl), ok_bind, hg.idx (by omega) (by omega), ok_bind, rdiv_ok hG, ok_bind]
  refine (axpy_col hX hj _ (fun r q => idx (QR.obj m n G d).qr.data (r * n + k)) (fun r => G r k) ?_).mono
    fun q' h => ⟨_, h⟩
  intro r q' G' _ hr _ _
  exact hg.idx hr (by omega)

theorem backSubst_post (hnm : n ≤ m) {b : List ℝ} (hb : ∃ X, Grid b m p X) (hd : ∀ k, k < n → d k ≠ 0) :
    Post (QR.backSubst (QR.obj m n G d) n p b) fun b' => ∃ X, Grid b' m p X := by
  have hg := QR.obj_grid (m := m) (n := n) G d
  unfold QR.backSubst
  refine loopRev_post (fun _ b => ∃ X, Grid b m p X) (Nat.zero_le n) hb ?_
  rintro k b - hk hb
  refine (loop_post_const (fun b => ∃ X, Grid b m p X) hb ?_).bind ?_
  · rintro j b - hj ⟨X, hX⟩
    rw [hX.idx (by omega) hj, ok_bind, (QR.obj_vect G d).idx (by omega), ok_bind, rdiv_ok (hd k hk), ok_bind]
    exact (hX.setIdx (by omega) hj _).mono fun b' h => ⟨_, h⟩
  · intro b hb
    refine loop_post_const (fun b => ∃ X, Grid b m p X) hb ?_
    intro i b _ hi hb
    refine loop_post_const (fun b => ∃ X, Grid b m p X) hb ?_
    rintro j b - hj ⟨X, hX⟩
    rw [hX.idx (by omega) hj, ok_bind, hX.idx (by omega) hj, ok_bind, hg.idx (by omega) hk, ok_bind]
    exact (hX.setIdx (by omega) hj _).mono fun b' h => ⟨_, h⟩

/-- Everything before the final `Matrix::new(n, nx, xdata)`: `xdata` still has `m·nx` elements. -/
theorem solve_run (hn : 0 < n) (hnm : n ≤ m) (B : Matrix (Fin m) (Fin p) ℝ)
    (hG : ∀ k, k < n → G k k ≠ 0) (hd : ∀ k, k < n → d k ≠ 0) :
    ∃ X : Matrix (Fin m) (Fin p) ℝ, (QR.obj m n G d).solve (ofM B) = (do return some (← Mat.new n p (ofM X).data)) := by
  have hm : 0 < m := by omega
  have h1 := loop_post_const (lo := 0) (hi := n) (s := (ofM B).data) (f := fun k b => loop 0 p b fun j b =>
      QR.solveColumn (QR.obj m n G d) m n p k j b) (fun b => ∃ X, Grid b m p X) ⟨_, grid_ofM B⟩ (by
    intro k b _ hk hb
    refine loop_post_const (fun b => ∃ X, Grid b m p X) hb ?_
    intro j b _ hj hb
    exact solveColumn_post hb (by omega) hj (hG k hk))
  obtain ⟨b1, hb1, hX1⟩ := h1
  obtain ⟨b2, hb2, X2, hX2⟩ := backSubst_post (G := G) hnm hX1 hd
  refine ⟨LU.packed m p X2, ?_⟩
  unfold QR.solve
  have hrows : (QR.obj m n G d).qr.rows = m := rfl
  rw [isFullRank_ok hn hnm, QR.obj_cols G d hm, ofM_cols B hm]
  simp only [ofM_rows, hrows, beq_self_eq_true, assert_true, ok_bind]
  rw [if_neg (by simpa using fun i : Fin n => hd i i.2), hb1, ok_bind, hb2, ok_bind,
    hX2.ofM (LU.packed m p X2) (fun _ _ => rfl)]

end Solve

/-- C38, the part that holds: with at least as many rows as columns, `solve` returns `None` for a rank-deficient matrix. -/
theorem C38_none_partial {m n p : Nat} (hn : 0 < n) (hnm : n ≤ m) (A : Matrix (Fin m) (Fin n) ℝ) (hA : ¬ FullColumnRank A)
    (B : Matrix (Fin m) (Fin p) ℝ) : (do (← QR.new (ofM A)).solve (ofM B)) = .ok none := by
  obtain ⟨G, d, hx, hI⟩ := QR.new_ofM (show 0 < m by omega) hn A
  rw [hx, ok_bind]
  change (QR.obj m n G d).solve (ofM B) = _
  unfold QR.solve
  have hrows : (QR.obj m n G d).qr.rows = m := rfl
  rw [isFullRank_ok hn hnm]
  simp only [ofM_rows, hrows, beq_self_eq_true, assert_true, ok_bind]
  rw [if_pos]
  · rfl
  · rw [fullRank_iff hnm hI] at hA
    rw [decide_eq_false hA]; rfl

/-- C38, the part that holds: for a nonsingular square matrix `solve` returns `Some` of an `n × p` matrix. -/
theorem C38_shape_partial {n p : Nat} (hn : 0 < n) (hp : 0 < p) (A : Matrix (Fin n) (Fin n) ℝ) (hA : FullColumnRank A)
    (B : Matrix (Fin n) (Fin p) ℝ) :
    ∃ X : Matrix (Fin n) (Fin p) ℝ, (do (← QR.new (ofM A)).solve (ofM B)) = .ok (some (ofM X)) := by
  obtain ⟨G, d, hx, hI⟩ := QR.new_ofM hn hn A
  rw [hx, ok_bind]
  have hd := (fullRank_iff le_rfl hI).1 hA
  obtain ⟨X, hX⟩ := solve_run hn le_rfl B (G := G) (d := d) (fun k hk => (hI.nz k (by omega)).2 (hd ⟨k, hk⟩))
    (fun k hk => hd ⟨k, hk⟩)
  refine ⟨X, ?_⟩
  rw [C01_new_ofM hn hp] at hX
  exact hX

/-- C38 is false of the code: for EVERY tall matrix of full column rank and every right-hand side `solve` panics (the result
buffer still has `m` rows). -/
theorem C38_refuted_tall {m n p : Nat} (hn : 0 < n) (hnm : n < m) (hp : 0 < p) (A : Matrix (Fin m) (Fin n) ℝ)
    (hA : FullColumnRank A) (B : Matrix (Fin m) (Fin p) ℝ) :
    (do (← QR.new (ofM A)).solve (ofM B)) = .error .assert := by
  obtain ⟨G, d, hx, hI⟩ := QR.new_ofM (show 0 < m by omega) hn A
  rw [hx, ok_bind]
  have hd := (fullRank_iff hnm.le hI).1 hA
  obtain ⟨X, hX⟩ := solve_run hn hnm.le B (G := G) (d := d) (fun k hk => (hI.nz k (by omega)).2 (hd ⟨k, hk⟩))
    (fun k hk => hd ⟨k, hk⟩)
  rw [C01_new_panics _ _ _ (by
    rintro ⟨-, -, h⟩
    rw [ofM_length] at h
    exact absurd (Nat.eq_of_mul_eq_mul_right hp h) hnm.ne)] at hX
  exact hX

/-- C38: a right-hand side with another number of rows panics. -/
theorem C38_mismatch {m n q p : Nat} (hm : 0 < m) (hn : 0 < n) (h : q ≠ m) (A : Matrix (Fin m) (Fin n) ℝ)
    (B : Matrix (Fin q) (Fin p) ℝ) : (do (← QR.new (ofM A)).solve (ofM B)) = .error .assert := by
  obtain ⟨G, d, hx, hI⟩ := QR.new_ofM hm hn A
  rw [hx, ok_bind]
  change (QR.obj m n G d).solve (ofM B) = _
  unfold QR.solve
  rw [assert_beq_ne (show (ofM B).rows ≠ (QR.obj m n G d).qr.rows from h)]; rfl

/-- The decomposition of the `1 × 1` matrix `[a]`, `a > 0`. -/
theorem qr_one {a : ℝ} (ha : 0 < a) : QR.new ⟨1, [a]⟩ = .ok ⟨⟨1, [2 * a]⟩, [-a]⟩ := by
  have hs : Real.sqrt (0 + a * a) = a := by rw [zero_add, Real.sqrt_mul_self ha.le]
  have h0 : ¬ (-a = 0) := by linarith
  have hl : loop 0 1 (([a] : List ℝ), alloc ℝ 1) (fun minor (x : List ℝ × Buf ℝ) =>
      match x with | (q, rdiag) => QR.reflect minor q 1 1 rdiag) = .ok ([2 * a], [some (-a)]) := by
    rw [loop_step (by omega)]
    simp only [QR.reflect]
    rw [show loop 0 1 (0 : ℝ) (fun i s => do let c ← idx [a] (i * 1 + 0); pure (s + c * c)) = .ok (0 + a * a) from rfl]
    simp only [ok_bind, idx, List.getElem?_cons_zero, Nat.zero_mul, Nat.add_zero, lt_eq, decide_eq_true ha, if_true,
      sqrt_ok (show 0 ≤ 0 + a * a by nlinarith), hs, wr, alloc, List.length_replicate, Nat.zero_lt_one,
      eq_eq, decide_eq_false h0, Bool.not_false, setIdx, List.length_singleton, loop_self, List.set_cons_zero,
      List.replicate_one, pure_eq_ok, Nat.zero_add]
    rw [show a - -a = 2 * a by ring]
  unfold QR.new
  simp only [Mat.cols, List.length_singleton, udiv_ok one_ne_zero, ok_bind, Nat.div_self Nat.one_pos, min_self]
  rw [hl]
  rfl

/-- C38 is false of the code also for square systems: `2·x = 2` is "solved" by `x = 3`. -/
theorem C38_refuted_square :
    (do (← QR.new (⟨1, [2]⟩ : Mat ℝ)).solve ⟨1, [2]⟩) = .ok (some ⟨1, [3]⟩) ∧ (2 : ℝ) * 3 ≠ 2 := by
  refine ⟨?_, by norm_num⟩
  rw [qr_one (by norm_num), ok_bind]
  have h4 : ((4 : ℝ) = 0) ↔ False := by norm_num
  have h2 : ((-2 : ℝ) = 0) ↔ False := by norm_num
  norm_num [QR.solve, QR.isFullRank, Mat.cols, udiv, loopF, loopFN, loop, loopN, loopRev, loopRevN, QR.solveColumn,
    QR.backSubst, idx, setIdx, eq_eq, rdiv_ok, Mat.new, assert]

/-! ## C39 -/

theorem gram_det_ne_zero_iff {m n : Nat} (A : Matrix (Fin m) (Fin n) ℝ) :
    (A.transpose * A).det ≠ 0 ↔ FullColumnRank A := by
  rw [ne_eq, ← Matrix.exists_mulVec_eq_zero_iff, FullColumnRank]
  constructor
  · intro h x hx
    by_contra hx0
    exact h ⟨x, hx0, by rw [← Matrix.mulVec_mulVec, hx, Matrix.mulVec_zero]⟩
  · rintro h ⟨v, hv, hv0⟩
    refine hv (h v ?_)
    have h1 : A.mulVec v ⬝ᵥ A.mulVec v = 0 := by
      rw [Matrix.dotProduct_mulVec, Matrix.vecMul_mulVec, ← Matrix.dotProduct_mulVec, hv0, dotProduct_zero]
    exact dotProduct_self_eq_zero.1 h1

/-- C39: on a matrix with independent columns `pinverse()` is `(AᵀA)⁻¹Aᵀ`, the Moore-Penrose inverse. -/
theorem C39_pinverse {m n : Nat} (hm : 0 < m) (hn : 0 < n) (A : Matrix (Fin m) (Fin n) ℝ) (hA : FullColumnRank A) :
    ∃ P : Matrix (Fin n) (Fin m) ℝ, (ofM A).pinverse = .ok (ofM P) ∧ P = (A.transpose * A)⁻¹ * A.transpose ∧
      P * A = 1 ∧ A * P * A = A ∧ P * A * P = P ∧ (A * P).transpose = A * P ∧ (P * A).transpose = P * A := by
  have hdet := (gram_det_ne_zero_iff A).2 hA
  have hu : IsUnit (A.transpose * A).det := isUnit_iff_ne_zero.mpr hdet
  have hPA : (A.transpose * A)⁻¹ * A.transpose * A = 1 := by
    rw [Matrix.mul_assoc, Matrix.nonsing_inv_mul _ hu]
  obtain ⟨x, Q, T, h1, h2, h3, h4, h5, h6⟩ := C35_qr hm hn A
  obtain ⟨G, d, hx, hI⟩ := QR.new_ofM hm hn A
  rw [h1] at hx; cases hx
  have hT : T = QR.rm m n G d (min m n) := by
    have := QR.getR_ok (m := m) (n := n) G d hm hn
    rw [show QR.obj m n G d = (⟨ofM (LU.packed m n G), List.ofFn fun i : Fin (min m n) => d i⟩ : QR ℝ) from rfl, h3] at this
    injection this with this
    exact ofM_inj this
  have hTT : T.transpose * T = A.transpose * A := by
    rw [hT, hI.eq, Matrix.transpose_mul, Matrix.mul_assoc, ← Matrix.mul_assoc _ (QR.qp m G d (min m n)),
      (QR.qp_orth hI le_rfl).1, Matrix.one_mul]
  refine ⟨_, ?_, rfl, hPA, ?_, ?_, ?_, ?_⟩
  · unfold Mat.pinverse
    rw [h1, ok_bind, h3, ok_bind, t_ofM hm, ok_bind, C10_mul hn hm, ok_bind, hTT, (C34_inverse hn _ hdet).1, ok_bind]
    simp only [unwrap, ok_bind]
    rw [t_ofM hm, ok_bind, C10_mul hn hn]
  · rw [Matrix.mul_assoc, hPA, Matrix.mul_one]
  · rw [hPA, Matrix.one_mul]
  · rw [Matrix.transpose_mul, Matrix.transpose_mul, Matrix.transpose_transpose, Matrix.transpose_nonsing_inv,
      Matrix.transpose_mul, Matrix.transpose_transpose, Matrix.mul_assoc]
  · rw [hPA, Matrix.transpose_one]

/-- C39: on a matrix with dependent columns (in particular every wide one) `pinverse()` panics. -/
theorem C39_panics {m n : Nat} (hm : 0 < m) (hn : 0 < n) (A : Matrix (Fin m) (Fin n) ℝ) (hA : ¬ FullColumnRank A) :
    (ofM A).pinverse = .error .unwrap := by
  have hdet : (A.transpose * A).det = 0 := by
    by_contra h
    exact hA ((gram_det_ne_zero_iff A).1 h)
  obtain ⟨G, d, hx, hI⟩ := QR.new_ofM hm hn A
  have hTT : (QR.rm m n G d (min m n)).transpose * QR.rm m n G d (min m n) = A.transpose * A := by
    conv_rhs => rw [hI.eq]
    rw [Matrix.transpose_mul, Matrix.mul_assoc, ← Matrix.mul_assoc _ (QR.qp m G d (min m n)),
      (QR.qp_orth hI le_rfl).1, Matrix.one_mul]
  unfold Mat.pinverse
  have h3 := QR.getR_ok (m := m) (n := n) G d hm hn
  rw [show QR.obj m n G d = (⟨ofM (LU.packed m n G), List.ofFn fun i : Fin (min m n) => d i⟩ : QR ℝ) from rfl] at h3
  rw [hx, ok_bind, h3, ok_bind, t_ofM hm, ok_bind, C10_mul hn hm, ok_bind, hTT, (C34_inverse_none hn _).2 hdet, ok_bind]
  rfl

theorem C39_wide {m n : Nat} (hm : 0 < m) (hmn : m < n) (A : Matrix (Fin m) (Fin n) ℝ) :
    (ofM A).pinverse = .error .unwrap := by
  refine C39_panics hm (by omega) A fun h => ?_
  have hinj : Function.Injective A.mulVecLin := by
    intro x y hxy
    have : A.mulVec (x - y) = 0 := by
      rw [Matrix.mulVec_sub]; exact sub_eq_zero.2 hxy
    exact sub_eq_zero.1 (h _ this)
  have := LinearMap.finrank_le_finrank_of_injective hinj
  simp at this
  omega

/-- `isFullRank`, `solve` and `pinverse` on concrete matrices: columns independent, and dependent. -/
example : (QR.new (ofM !![1, 0; 0, 2; 3, (1 : ℝ)]) >>= QR.isFullRank) = .ok true ∧
    (do (← QR.new (ofM !![1, 0; 0, 2; 3, (1 : ℝ)])).solve (ofM !![1; 2; (3 : ℝ)])) = .error .assert ∧
    (∃ P : Matrix (Fin 2) (Fin 3) ℝ, (ofM !![1, 0; 0, 2; 3, (1 : ℝ)]).pinverse = .ok (ofM P) ∧ P * !![1, 0; 0, 2; 3, (1 : ℝ)] = 1) ∧
    (QR.new (ofM !![1, 2; 2, 4; 3, (6 : ℝ)]) >>= QR.isFullRank) = .ok false ∧
    (do (← QR.new (ofM !![1, 2; 2, 4; 3, (6 : ℝ)])).solve (ofM !![1; 2; (3 : ℝ)])) = .ok none ∧
    (ofM !![1, 2; 2, 4; 3, (6 : ℝ)]).pinverse = .error .unwrap := by
  obtain ⟨h1, h2⟩ := rank_cases
  obtain ⟨P, hP, -, hP', -⟩ := C39_pinverse (by norm_num) (by norm_num) _ h1
  refine ⟨?_, C38_refuted_tall (by norm_num) (by norm_num) (by norm_num) _ h1 _, ⟨P, hP, hP'⟩, ?_,
    C38_none_partial (by norm_num) (by norm_num) _ h2 _, C39_panics (by norm_num) (by norm_num) _ h2⟩
  · rw [C37_isFullRank_partial (by norm_num) (by norm_num)]; simpa using h1
  · rw [C37_isFullRank_partial (by norm_num) (by norm_num)]; simpa using h2

end LA.Props
