import Verif.Props.QR

/-! # C38: what the square case of `QRDecomposition::solve` computes -/

namespace LA.Props
open LA Finset
set_option linter.unusedSectionVars false

section Solve
variable {m n p : Nat} {G : Nat → Nat → ℝ} {d : Nat → ℝ}

/-- One step of the loop over the reflections, one column. -/
theorem solveColumn_eq {k j : Nat} {b : List ℝ} {X : Nat → Nat → ℝ} (hX : Grid b m p X) (hk : k < min m n) (hj : j < p) (hG : G k k ≠ 0) :
    Post (QR.solveColumn (QR.obj m n G d) m n p k j b) fun b' => Grid b' m p fun r c =>
      if c = j ∧ k ≤ r then X r j + (-(∑ t ∈ Ico k m, G t k * X t j) / G k k) * G r k else X r c := by
  have hg := QR.obj_grid (m := m) (n := n) G d
  unfold QR.solveColumn
  rw [loop_sum_Ico (fun t => G t k * X t j) (fun t s h1 h2 => by
    rw [hg.idx h2 (by omega), hX.idx h2 hj]; rfl), ok_bind, hg.idx (by omega) (by omega), ok_bind, rdiv_ok hG, ok_bind]
  refine axpy_col hX hj _ (fun r q => idx (QR.obj m n G d).qr.data (r * n + k)) (fun r => G r k) ?_
  intro r q' G' _ hr _ _
  exact hg.idx hr (by omega)

/-- One step of the loop over the reflections: multiplication with the matrix `I - u u' / u_k` (a reflection only if the diagonal
entry of `R` is -1). -/
theorem solveStep {k : Nat} {b : List ℝ} {X : Nat → Nat → ℝ} (hX : Grid b m p X) (hk : k < min m n) (hG : G k k ≠ 0) :
    Post (loop 0 p b fun j b => QR.solveColumn (QR.obj m n G d) m n p k j b) fun b' => ∃ F, Grid b' m p F ∧
      LU.packed m p F = QR.refl m G (fun _ => -1) k * LU.packed m p X := by
  have h := loop_post (lo := 0) (hi := p) (s := b) (f := fun j b => QR.solveColumn (QR.obj m n G d) m n p k j b)
    (fun j b => Grid b m p fun r c => if c < j ∧ k ≤ r then X r c + (-(∑ t ∈ Ico k m, G t k * X t c) / G k k) * G r k else X r c)
    (Nat.zero_le _) (hX.congr fun r c _ _ => by rw [if_neg (by omega)]) (by
      intro j b _ hj hb
      refine (solveColumn_eq hb hk hj hG).mono fun b' h => h.congr fun r c _ _ => ?_
      have e : ∑ t ∈ Ico k m, G t k * (if j < j ∧ k ≤ t then X t j + (-(∑ t ∈ Ico k m, G t k * X t j) / G k k) * G t k else X t j) =
          ∑ t ∈ Ico k m, G t k * X t j := Finset.sum_congr rfl fun t _ => by rw [if_neg (by omega)]
      rw [e]
      by_cases e1 : c = j
      · subst e1
        by_cases e2 : k ≤ r
        · rw [if_pos ⟨rfl, e2⟩, if_neg (by omega), if_pos ⟨by omega, e2⟩]
        · rw [if_neg (by omega), if_neg (by omega), if_neg (by omega)]
      · rw [if_neg (by omega)]
        by_cases e2 : c < j ∧ k ≤ r
        · rw [if_pos e2, if_pos (by omega)]
        · rw [if_neg e2, if_neg (by omega)])
  refine h.mono fun b' hb => ⟨_, hb, ?_⟩
  ext i j
  rw [QR.refl_mul_apply _ _ _ hG]
  simp only [LU.packed, Matrix.of_apply, j.2, true_and]
  by_cases e : k ≤ i.1
  · rw [if_pos e, if_pos e]
    congr 2
    field_simp
  · rw [if_neg e, if_neg e, add_zero]

/-- The loop over the reflections. -/
theorem solveForward (hnm : n ≤ m) (B : Matrix (Fin m) (Fin p) ℝ) (hG : ∀ k, k < n → G k k ≠ 0) :
    Post (loop 0 n (ofM B).data fun k b => loop 0 p b fun j b => QR.solveColumn (QR.obj m n G d) m n p k j b) fun b' =>
      ∃ F, Grid b' m p F ∧ LU.packed m p F = (QR.qp m G (fun _ => -1) n).transpose * B := by
  refine loop_post (fun k b => ∃ F, Grid b m p F ∧ LU.packed m p F = (QR.qp m G (fun _ => -1) k).transpose * B) (Nat.zero_le _) ?_ ?_
  · refine ⟨_, grid_ofM B, ?_⟩
    rw [QR.qp, Matrix.transpose_one, Matrix.one_mul]
    ext i j
    simp [LU.packed]
  · rintro k b - hk ⟨F, hF, e⟩
    refine (solveStep hF (by omega) (hG k hk)).mono ?_
    rintro b' ⟨F', hF', e'⟩
    refine ⟨F', hF', ?_⟩
    rw [e', e, QR.qp, Matrix.transpose_mul, QR.refl_transpose, Matrix.mul_assoc]

/-- Back substitution, square case. -/
theorem backSubst_eq {b : List ℝ} {Y : Nat → Nat → ℝ} (hb : Grid b n p Y) (hd : ∀ k, k < n → d k ≠ 0) :
    Post (QR.backSubst (QR.obj n n G d) n p b) fun b' => ∃ X, Grid b' n p X ∧
      ∀ i j, i < n → j < p → d i * X i j + ∑ t ∈ Ico (i + 1) n, G i t * X t j = Y i j := by
  have hg := QR.obj_grid (m := n) (n := n) G d
  unfold QR.backSubst
  refine (loopRev_post (fun k b => ∃ Z, Grid b n p Z ∧ ∀ i j, i < n → j < p →
    (k ≤ i → d i * Z i j + ∑ t ∈ Ico (i + 1) n, G i t * Z t j = Y i j) ∧
    (i < k → Z i j + ∑ t ∈ Ico k n, G i t * Z t j = Y i j)) (Nat.zero_le n) ⟨Y, hb, fun i j hi _ => ⟨fun h => by omega, fun _ => by simp⟩⟩ ?_).mono
    fun b' ⟨Z, h1, h2⟩ => ⟨Z, h1, fun i j hi hj => (h2 i j hi hj).1 (Nat.zero_le _)⟩
  rintro k b - hk ⟨Z, hZ, hE⟩
  -- the division
  have h1 := loop_post (lo := 0) (hi := p) (s := b) (f := fun j b => do
      setIdx b (k * p + j) (← RDiv.rdiv (← idx b (k * p + j)) (← idx (QR.obj n n G d).rdiag k)))
    (fun j b => Grid b n p fun r c => if r = k ∧ c < j then Z r c / d k else Z r c) (Nat.zero_le _)
    (hZ.congr fun r c _ _ => by rw [if_neg (by omega)]) (by
      intro j b _ hj hb
      rw [hb.idx hk hj, ok_bind, (QR.obj_vect G d).idx (by omega), ok_bind, rdiv_ok (hd k hk), ok_bind]
      refine (hb.setIdx hk hj _).mono fun b' h => h.congr fun r c _ _ => ?_
      unfold upd
      grind)
  refine h1.bind fun b hb => ?_
  replace hb : Grid b n p fun r c => if r = k then Z r c / d k else Z r c := hb.congr fun r c _ hc => by simp [hc]
  -- the updates of the rows above
  refine (loop_post (fun i b => Grid b n p fun r c => if r = k then Z r c / d k else if r < i then Z r c - Z k c / d k * G r k else Z r c)
    (Nat.zero_le k) (hb.congr fun r c _ _ => by grind) ?_).mono ?_
  · intro i b _ hi hb
    refine (loop_post (fun j b => Grid b n p fun r c => if r = k then Z r c / d k else if r < i ∨ (r = i ∧ c < j) then Z r c - Z k c / d k * G r k else Z r c)
      (Nat.zero_le p) (hb.congr fun r c _ _ => by grind) ?_).mono fun b' h => h.congr fun r c _ hc => by grind
    intro j b _ hj hb
    rw [hb.idx (by omega) hj, ok_bind, hb.idx hk hj, ok_bind, hg.idx (by omega) hk, ok_bind]
    refine (hb.setIdx (by omega) hj _).mono fun b' h => h.congr fun r c _ _ => ?_
    unfold upd
    grind
  · intro b' h
    refine ⟨_, h, fun i j hi hj => ⟨fun hki => ?_, fun hik => ?_⟩⟩
    · rcases hki.eq_or_lt with e | e
      · subst e
        have := (hE k j hk hj).2 (by omega)
        rw [if_pos rfl, mul_div_cancel₀ _ (hd k hk)]
        rw [← this]
        congr 1
        exact Finset.sum_congr rfl fun t ht => by
          rw [Finset.mem_Ico] at ht
          rw [if_neg (by omega), if_neg (by omega)]
      · rw [if_neg (by omega), if_neg (by omega), ← (hE i j hi hj).1 (by omega)]
        congr 1
        exact Finset.sum_congr rfl fun t ht => by
          rw [Finset.mem_Ico] at ht
          rw [if_neg (by omega), if_neg (by omega)]
    · rw [if_neg (by omega), if_pos hik, Finset.sum_eq_sum_Ico_succ_bot hk, if_pos rfl, ← (hE i j hi hj).2 (by omega)]
      have : ∑ t ∈ Ico (k + 1) n, G i t * (if t = k then Z t j / d k else if t < k then Z t j - Z k j / d k * G t k else Z t j) =
          ∑ t ∈ Ico (k + 1) n, G i t * Z t j := Finset.sum_congr rfl fun t ht => by
        rw [Finset.mem_Ico] at ht
        rw [if_neg (by omega), if_neg (by omega)]
      rw [this]
      ring

/-- The square case of `solve`: back substitution with `R`, of the right-hand side multiplied with the matrices `I - u u' / u_k`. -/
theorem solve_square (hn : 0 < n) (hp : 0 < p) (B : Matrix (Fin n) (Fin p) ℝ) (hG : ∀ k, k < n → G k k ≠ 0) (hd : ∀ k, k < n → d k ≠ 0) :
    ∃ X : Matrix (Fin n) (Fin p) ℝ, (QR.obj n n G d).solve (ofM B) = .ok (some (ofM X)) ∧
      QR.rm n n G d n * X = (QR.qp n G (fun _ => -1) n).transpose * B := by
  obtain ⟨b1, hb1, F, hF, eF⟩ := solveForward (d := d) le_rfl B hG
  obtain ⟨b2, hb2, X, hX, eX⟩ := backSubst_eq (G := G) hF hd
  refine ⟨LU.packed n p X, ?_, ?_⟩
  · unfold QR.solve
    have hrows : (QR.obj n n G d).qr.rows = n := rfl
    rw [isFullRank_ok hn le_rfl, QR.obj_cols G d hn, ofM_cols B hn]
    simp only [ofM_rows, hrows, beq_self_eq_true, assert_true, ok_bind]
    rw [if_neg (by simpa using fun i : Fin n => hd i i.2), hb1, ok_bind, hb2, ok_bind,
      hX.ofM (LU.packed n p X) (fun _ _ => rfl), C01_new_ofM hn hp]
    rfl
  · rw [← eF]
    ext i j
    rw [Matrix.mul_apply]
    show ∑ t : Fin n, QR.rm n n G d n i t * X t j = F i j
    rw [← eX i j i.2 j.2]
    have e : ∀ t : Fin n, QR.rm n n G d n i t * X t j = (fun t : Nat => (if i.1 < t then G i t else if i.1 = t then d t else 0) * X t j) t := by
      intro t
      simp only [QR.rm, Matrix.of_apply, if_pos t.2]
    rw [Finset.sum_congr rfl fun t _ => e t, Fin.sum_univ_eq_sum_range (fun t : Nat => (if i.1 < t then G i t else if i.1 = t then d t else 0) * X t j) n, Finset.range_eq_Ico,
      ← Finset.sum_Ico_consecutive _ (Nat.zero_le i.1) i.2.le, Finset.sum_eq_zero, zero_add, Finset.sum_eq_sum_Ico_succ_bot i.2]
    · congr 1
      · simp
      · exact Finset.sum_congr rfl fun t ht => by
          rw [Finset.mem_Ico] at ht
          rw [if_pos (by omega)]
    · intro t ht
      rw [Finset.mem_Ico] at ht
      rw [if_neg (by omega), if_neg (by omega), zero_mul]

end Solve

section Right
variable {n : Nat} {G : Nat → Nat → ℝ} {d d' : Nat → ℝ}

/-- A reflection fixes the earlier coordinate vectors. -/
theorem refl_col {k : Nat} (i c : Fin n) (h : c.1 < k) : QR.refl n G d k i c = (1 : Matrix (Fin n) (Fin n) ℝ) i c := by
  unfold QR.refl
  split
  · rfl
  · rw [Matrix.add_apply, Matrix.smul_apply, Matrix.vecMulVec_apply, show QR.hv n G k c = 0 from if_neg (by omega)]
    simp

/-- Column `c` of the product is settled by the first `c+1` factors. -/
theorem qp_col {k : Nat} (i c : Fin n) (h : c.1 < k) : QR.qp n G d k i c = QR.qp n G d (c.1 + 1) i c := by
  induction k, h using Nat.le_induction with
  | base => rfl
  | succ k hk ih =>
    rw [QR.qp, Matrix.mul_apply, ← ih]
    rw [Finset.sum_congr rfl fun t _ => by rw [refl_col t c hk], ← Matrix.mul_apply, Matrix.mul_one]

/-- The products agree only if the diagonals do. -/
theorem qp_inj {A : Matrix (Fin n) (Fin n) ℝ} (hI : QR.Inv n n A n G d) (hG : ∀ k, k < n → G k k ≠ 0) (hd : ∀ k, k < n → d k ≠ 0) :
    QR.qp n G (fun _ => -1) n = QR.qp n G d n ↔ ∀ k, k < n → d k = -1 := by
  constructor
  · intro h k
    induction k using Nat.strong_induction_on with
    | _ k ih =>
      intro hk
      have hP : QR.qp n G (fun _ => -1) k = QR.qp n G d k :=
        QR.qp_congr hk.le (fun _ _ _ _ _ => rfl) fun t ht => (ih t ht (by omega)).symm
      have hc : (QR.qp n G d k).mulVec (fun i => QR.refl n G (fun _ => -1) k i ⟨k, hk⟩) = (QR.qp n G d k).mulVec (fun i => QR.refl n G d k i ⟨k, hk⟩) := by
        funext i
        have := congrFun (congrFun h i) ⟨k, hk⟩
        rw [qp_col (d := fun _ => -1) _ _ hk, qp_col (d := d) _ _ hk, QR.qp, QR.qp, hP] at this
        exact this
      have horth := (QR.qp_orth hI hk.le).1
      have := congrArg (QR.qp n G d k).transpose.mulVec hc
      rw [Matrix.mulVec_mulVec, Matrix.mulVec_mulVec, horth, Matrix.one_mulVec, Matrix.one_mulVec] at this
      have := congrFun this ⟨k, hk⟩
      simp only [QR.refl, if_neg (hG k hk), Matrix.add_apply, Matrix.smul_apply, Matrix.vecMulVec_apply, QR.hv, le_refl, if_true, smul_eq_mul] at this
      have h1 := hG k hk
      have h2 := hd k hk
      rw [Matrix.one_apply_eq] at this
      field_simp at this
      have h3 : G k k * (d k + 1) = 0 := by linarith
      rcases mul_eq_zero.1 h3 with h | h
      · exact absurd h h1
      · linarith
  · intro h
    exact QR.qp_congr le_rfl (fun _ _ _ _ _ => rfl) fun t ht => (h t ht).symm

end Right

/-- C38, square systems, exactly: let `T` be the triangular factor of a nonsingular matrix `A`.  `solve` is right for all right-hand
sides (with `p` columns) if and only if all diagonal entries of `T` are -1. -/
theorem C38_square_iff {n p : Nat} (hn : 0 < n) (hp : 0 < p) (A : Matrix (Fin n) (Fin n) ℝ) (hA : FullColumnRank A) :
    ∃ (x : QR ℝ) (T : Matrix (Fin n) (Fin n) ℝ), QR.new (ofM A) = .ok x ∧ x.getR = .ok (ofM T) ∧
      ((∀ B : Matrix (Fin n) (Fin p) ℝ, ∃ X : Matrix (Fin n) (Fin p) ℝ, x.solve (ofM B) = .ok (some (ofM X)) ∧ A * X = B) ↔ ∀ k, T k k = -1) := by
  obtain ⟨G, d, hx, hI⟩ := QR.new_ofM hn hn A
  change QR.new (ofM A) = .ok (QR.obj n n G d) at hx
  have hd' := (fullRank_iff le_rfl hI).1 hA
  rw [min_self] at hI
  have hd : ∀ k, k < n → d k ≠ 0 := fun k hk => hd' ⟨k, hk⟩
  have hG : ∀ k, k < n → G k k ≠ 0 := fun k hk => (hI.nz k hk).2 (hd k hk)
  refine ⟨_, _, hx, QR.getR_ok G d hn hn, ?_⟩
  rw [min_self]
  have hT : (∀ k : Fin n, QR.rm n n G d n k k = -1) ↔ ∀ k, k < n → d k = -1 := by
    have : ∀ k : Fin n, QR.rm n n G d n k k = d k := fun k => by simp [QR.rm]
    simp only [this]
    exact ⟨fun h k hk => h ⟨k, hk⟩, fun h k => h k k.2⟩
  rw [hT, ← qp_inj hI hG hd]
  have horth := QR.qp_orth hI le_rfl
  constructor
  · intro h
    have h1 : QR.qp n G d n * (QR.qp n G (fun _ => -1) n).transpose = 1 := by
      rw [← Matrix.toLin'.injective.eq_iff]
      refine LinearMap.ext fun v => ?_
      obtain ⟨X, hX, e⟩ := h (Matrix.of fun i _ => v i)
      obtain ⟨X', hX', e'⟩ := solve_square hn hp (Matrix.of fun i _ => v i) hG hd
      have hXX : X = X' := by
        have := hX.symm.trans hX'
        exact ofM_inj (by simpa using this)
      subst hXX
      have e2 : QR.qp n G d n * ((QR.qp n G (fun _ => -1) n).transpose * Matrix.of fun i (_ : Fin p) => v i) = Matrix.of fun i _ => v i := by
        rw [← e', ← Matrix.mul_assoc, ← hI.eq, e]
      rw [Matrix.toLin'_one, Matrix.toLin'_apply, LinearMap.id_apply]
      funext i
      have := congrFun (congrFun e2 i) ⟨0, hp⟩
      rw [← Matrix.mul_assoc, Matrix.mul_apply] at this
      exact this
    have h2 : (QR.qp n G (fun _ => -1) n).transpose = (QR.qp n G d n).transpose := by
      have := congrArg ((QR.qp n G d n).transpose * ·) h1
      simpa only [← Matrix.mul_assoc, horth.1, Matrix.one_mul, Matrix.mul_one] using this
    exact Matrix.transpose_injective h2
  · intro h B
    obtain ⟨X, hX, e⟩ := solve_square hn hp B hG hd
    refine ⟨X, hX, ?_⟩
    rw [h] at e
    rw [hI.eq, Matrix.mul_assoc, e, ← Matrix.mul_assoc, horth.2, Matrix.one_mul]

/-- C38 is false of the code for EVERY square matrix whose determinant is not 1 or -1: some right-hand side gets a wrong answer. -/
theorem C38_refuted_det {n : Nat} (hn : 0 < n) (A : Matrix (Fin n) (Fin n) ℝ) (h0 : A.det ≠ 0) (h1 : |A.det| ≠ 1) :
    ∃ B X : Matrix (Fin n) (Fin 1) ℝ, (do (← QR.new (ofM A)).solve (ofM B)) = .ok (some (ofM X)) ∧ A * X ≠ B := by
  have hA : FullColumnRank A := by
    intro x hx
    exact Matrix.eq_zero_of_mulVec_eq_zero h0 hx
  obtain ⟨x, T, hx, hT, hiff⟩ := C38_square_iff hn Nat.one_pos A hA
  obtain ⟨x', Q, T', hx', -, hT', hQT, htri, hQQ⟩ := C35_qr hn hn A
  rw [hx] at hx'
  cases hx'
  rw [hT] at hT'
  have := ofM_inj (Except.ok.inj hT')
  subst this
  by_contra hno
  push_neg at hno
  have hdiag := hiff.1 fun B => by
    obtain ⟨X, hX⟩ := C38_shape_partial hn Nat.one_pos A hA B
    refine ⟨X, ?_, hno B X hX⟩
    rwa [hx, ok_bind] at hX
  apply h1
  rw [← hQT, Matrix.det_mul, abs_mul, Matrix.det_of_upperTriangular (fun i j h => htri i j h), Finset.prod_congr rfl fun k _ => hdiag k,
    Finset.prod_const, abs_pow, abs_neg, abs_one, one_pow, mul_one]
  have : Q.det * Q.det = 1 := by
    have := congrArg Matrix.det hQQ
    rw [Matrix.det_mul, Matrix.det_transpose, Matrix.det_diagonal] at this
    rw [this]
    exact Finset.prod_eq_one fun i _ => if_pos (by simpa using i.2)
  have h2 : |Q.det| * |Q.det| = 1 := by rw [← abs_mul, this, abs_one]
  nlinarith [abs_nonneg Q.det]

/-- Concrete hypotheses: most matrices. -/
example : (!![2, 1; 1, 3] : Matrix (Fin 2) (Fin 2) ℝ).det ≠ 0 ∧ |(!![2, 1; 1, 3] : Matrix (Fin 2) (Fin 2) ℝ).det| ≠ 1 := by
  rw [Matrix.det_fin_two_of]; norm_num

end LA.Props
