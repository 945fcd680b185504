import Verif.Props.TriBounds

/-!
# C116, continued: inverse and determinant of tridiagonal matrices of doubles, and when `solve` gives up
-/

namespace LA.Props
open LA Finset Fp
set_option linter.unusedSectionVars false

variable {n p : Nat}

/-- The backward error of the factors. -/
theorem tri_small (hn6 : n ≤ 2 ^ 20) {M : ℝ} (hM1 : tiny ≤ M) {G : Nat → Nat → F64}
    (hlow : ∀ i c, i < n → c < i → |(G i c).toReal| ≤ 1 + 1 / 2 ^ 52)
    (hsum : ∀ c, ∑ k, |LU.upper n n (fun i c => (G i c).toReal) k c| ≤ 9 / 2 * M) (i c : Fin n) :
    γ F64 (n + 1) * (∑ k, |LU.lower n n (fun i c => (G i c).toReal) i k| * |LU.upper n n (fun i c => (G i c).toReal) k c|) + θ F64 n +
        (1 + u F64) * η F64 * ∑ k, |LU.upper n n (fun i c => (G i c).toReal) k c| ≤ 5 * (n + 1) / 2 ^ 52 * M := by
  have hM0 : 0 < M := lt_of_lt_of_le tiny_pos hM1
  have hu : u F64 = 1 / 2 ^ 53 := rfl
  have hη0 := η_nonneg (α := F64)
  have hη := eta_le
  have hθ := theta_f64 hn6
  have s1 := tri_prod_sum hM0.le hlow hsum i c
  have hγ := gamma_f64 (k := n + 1) (by omega)
  push_cast at hγ
  have t1 := mul_le_mul hγ s1 (sum_nonneg fun _ _ => by positivity) (by positivity)
  have t2 : θ F64 n ≤ M * (1 / 2 ^ 154) := hθ.trans (mul_le_mul_of_nonneg_right hM1 (by norm_num))
  have t3 : (1 + u F64) * η F64 * (∑ k, |LU.upper n n (fun i c => (G i c).toReal) k c|) ≤ 2 * (1 / 2 ^ 175) * (9 / 2 * M) :=
    mul_le_mul (mul_le_mul (by rw [hu]; norm_num) hη hη0 (by norm_num)) (hsum c) (sum_nonneg fun _ _ => abs_nonneg _) (by norm_num)
  refine (add_le_add (add_le_add t1 t2) t3).trans ?_
  have t5 : 0 ≤ n * M := by positivity
  have e1 : ((n : ℝ) + 1) / 2 ^ 52 * (23 / 5 * M) = (n * M) * (23 / 5 / 2 ^ 52) + M * (23 / 5 / 2 ^ 52) := by ring
  have e2 : 5 * ((n : ℝ) + 1) / 2 ^ 52 * M = (n * M) * (5 / 2 ^ 52) + M * (5 / 2 ^ 52) := by ring
  rw [e1, e2]
  generalize (n : ℝ) * M = a at *
  norm_num
  linarith

/-- C116: the inverse of a tridiagonal matrix of doubles. -/
theorem C116_inverse (hn : 0 < n) (hn6 : n ≤ 1000000) (A : Matrix (Fin n) (Fin n) F64) (M K : ℝ)
    (hA : Tridiagonal A M) (hM1 : tiny ≤ M) (hM2 : M ≤ 2 ^ 800)
    (Z : Matrix (Fin n) (Fin n) ℝ) (hZ : Z * A.map F64.toReal = 1) (hK : ∀ i, ∑ j, |Z i j| ≤ K) (hc : n ^ 3 * (K * M) ≤ 2 ^ 46)
    (hK2 : K ≤ 2 ^ 700) :
    ∃ X : Matrix (Fin n) (Fin n) F64, (ofM A).inverse = .ok (some (ofM X)) ∧ (∀ i j, (X i j).isFin) ∧
      ∀ i j, |(X i j).toReal - Z i j| ≤ K * (5 * (3 * n + 1) / 2 ^ 51 * M * (∑ c, |Z c j|) + 2 * (tiny * (1 + M))) := by
  have hinv : (ofM A).inverse = (ofM A).solve (ofM (1 : Matrix (Fin n) (Fin n) F64)) := by
    unfold Mat.inverse Mat.solve
    simp only [ofM_cols A hn, ofM_rows, ok_bind, beq_self_eq_true, assert_true, C05_id_square]
  have e : ∀ i j, (((1 : Matrix (Fin n) (Fin n) F64) i j).isFin) ∧ ((1 : Matrix (Fin n) (Fin n) F64) i j).toReal = (1 : Matrix (Fin n) (Fin n) ℝ) i j := by
    intro i j
    by_cases h : i = j
    · subst h; rw [Matrix.one_apply_eq, Matrix.one_apply_eq]; exact Fp.one (α := F64)
    · rw [Matrix.one_apply_ne h, Matrix.one_apply_ne h]; exact Fp.zero (α := F64)
  have e2 : (1 : Matrix (Fin n) (Fin n) F64).map F64.toReal = 1 := by ext i j; exact (e i j).2
  have h700 : (1 : ℝ) ≤ 2 ^ 700 := one_le_pow₀ (by norm_num)
  obtain ⟨X, h1, h2, -, h4⟩ := C116_solve hn hn hn6 A 1 M K 1 hA hM1 hM2 Z hZ hK hc (fun i j => ⟨(e i j).1, by
    rw [(e i j).2]
    by_cases h : i = j
    · subst h; rw [Matrix.one_apply_eq, abs_one]
    · rw [Matrix.one_apply_ne h, abs_zero]; exact zero_le_one⟩) h700 (by rwa [mul_one])
  refine ⟨X, hinv.trans h1, h2, fun i j => ?_⟩
  have := h4 i j
  rwa [e2, Matrix.mul_one] at this

/-- C116: `solve` and `inverse` answer `None` only for tridiagonal matrices that are singular or very close to singular. -/
theorem C116_none (hn : 0 < n) (hp : 0 < p) (hn6 : n ≤ 1000000) (A : Matrix (Fin n) (Fin n) F64) (B : Matrix (Fin n) (Fin p) F64) (M : ℝ)
    (hA : Tridiagonal A M) (hM1 : tiny ≤ M) (hM2 : M ≤ 2 ^ 800)
    (hnone : (ofM A).solve (ofM B) = .ok none ∨ (ofM A).inverse = .ok none) :
    ∃ x : Fin n → ℝ, x ≠ 0 ∧ ∀ i, |∑ j, (A i j).toReal * x j| ≤ 5 * (n + 1) / 2 ^ 52 * M * ∑ j, |x j| := by
  have hM0 : 0 < M := lt_of_lt_of_le tiny_pos hM1
  obtain ⟨G, σ, hf⟩ := tri_factored hn (by omega) hA hM1 hM2
  have hsum := tri_upper_sum hM0.le hf.off hf.diag fun i c hc hi => LU.Tri.zero_val (hf.far i c hc hi)
  obtain ⟨x, σ', L, U, h1, h2, h3, h4, h5⟩ := C91_none hn hp A B
  rw [hf.new] at h1
  obtain rfl := Except.ok.inj h1
  obtain rfl : σ = σ' := by
    have h2 := List.ofFn_injective h2
    exact Equiv.ext fun i => Fin.ext (congrFun h2 i)
  have hL' := LU.Rnd.getL_ok G hn hn (decide (Equiv.Perm.sign σ = 1)) (List.ofFn fun i => (σ i).1)
  have hU' := LU.Rnd.getU_ok G hn hn (decide (Equiv.Perm.sign σ = 1)) (List.ofFn fun i => (σ i).1)
  rw [Nat.min_self] at hL' hU'
  obtain rfl : L = LU.Rnd.lowerA n n G := ofM_inj (Except.ok.inj (h3.symm.trans hL'))
  obtain rfl : U = LU.Rnd.upperA n n G := ofM_inj (Except.ok.inj (h4.symm.trans hU'))
  obtain ⟨E, hE, hdet⟩ := h5 (fun i k => by
      simp only [LU.Rnd.lowerA, Matrix.of_apply]
      split
      · exact hf.fin i k i.2 k.2
      · split
        · exact Fp.one.1
        · exact Fp.zero.1) (fun k c => by
      simp only [LU.Rnd.upperA, Matrix.of_apply]
      split
      · exact hf.fin k c k.2 c.2
      · exact Fp.zero.1) hnone
  unfold factorErr at hE
  simp only [fun i k => (LU.Rnd.val_lowerA n n G i k).1, fun i k => (LU.Rnd.val_upperA n n G i k).1] at hE
  have hE' : ∀ i c, |E i c| ≤ 5 * (n + 1) / 2 ^ 52 * M := fun i c => by
    have := (hE (σ.symm i) c).trans (tri_small (by omega) hM1 hf.low hsum (σ.symm i) c)
    rwa [Equiv.apply_symm_apply] at this
  obtain ⟨v, hv, hv0⟩ := Matrix.exists_mulVec_eq_zero_iff.mpr hdet
  refine ⟨v, hv, fun i => ?_⟩
  have e := congrFun hv0 i
  rw [Matrix.add_mulVec] at e
  have e2 : ∑ j, (A i j).toReal * v j = -∑ j, E i j * v j := by
    have : (∑ j, (A i j).toReal * v j) + ∑ j, E i j * v j = 0 := e
    linarith
  rw [e2, abs_neg]
  refine (abs_sum_le_sum_abs _ _).trans ?_
  rw [mul_sum]
  exact sum_le_sum fun j _ => by rw [abs_mul]; exact mul_le_mul_of_nonneg_right (hE' i j) (abs_nonneg _)

set_option maxHeartbeats 2000000 in
/-- C116: the determinant of a well conditioned tridiagonal matrix of doubles: the relative error is small (up to underflow). -/
theorem C116_det (hn : 0 < n) (hn6 : n ≤ 1000000) (A : Matrix (Fin n) (Fin n) F64) (M K : ℝ)
    (hA : Tridiagonal A M) (hM1 : tiny ≤ M) (hM2 : M ≤ 2 ^ 800)
    (Z : Matrix (Fin n) (Fin n) ℝ) (hZ : Z * A.map F64.toReal = 1) (hK : ∀ i, ∑ j, |Z i j| ≤ K) (hc : n ^ 3 * (K * M) ≤ 2 ^ 46)
    (hd : (1 + 5 * M) ^ n ≤ 2 ^ 1000) :
    ∃ d : F64, (ofM A).det = .ok d ∧ d.isFin ∧
      |d.toReal - (A.map F64.toReal).det| ≤ n * (5 * n * (n + 1) * (K * M) + 1) / 2 ^ 51 * |(A.map F64.toReal).det| +
        tiny * (1 + 5 * M) ^ n := by
  obtain ⟨G, σ, hf⟩ := tri_factored hn (by omega) hA hM1 hM2
  have ht := tiny_pos
  have hM0 : 0 < M := lt_of_lt_of_le ht hM1
  have hsum := tri_upper_sum hM0.le hf.off hf.diag fun i c hc hi => LU.Tri.zero_val (hf.far i c hc hi)
  have hK0 : 0 ≤ K := (sum_nonneg fun _ _ => abs_nonneg _).trans (hK ⟨0, hn⟩)
  have hn1 : (1 : ℝ) ≤ n := by exact_mod_cast hn
  have hnr : (n : ℝ) ≤ 1048576 := by
    have : n ≤ 1048576 := by omega
    exact_mod_cast this
  have hKM : 0 ≤ K * M := mul_nonneg hK0 hM0.le
  have hk2 : (n : ℝ) ^ 2 * (K * M) ≤ 2 ^ 46 :=
    (mul_le_mul_of_nonneg_right (pow_le_pow_right₀ hn1 (by norm_num)) hKM).trans hc
  have hu : u F64 = 1 / 2 ^ 53 := rfl
  have hη0 := η_nonneg (α := F64)
  obtain ⟨x, σ', L, U, d, h1, h2, h3, h4, h5, h6⟩ := C74_det hn A
  rw [hf.new] at h1
  obtain rfl := Except.ok.inj h1
  obtain rfl : σ = σ' := by
    have h2 := List.ofFn_injective h2
    exact Equiv.ext fun i => Fin.ext (congrFun h2 i)
  have hL' := LU.Rnd.getL_ok G hn hn (decide (Equiv.Perm.sign σ = 1)) (List.ofFn fun i => (σ i).1)
  have hU' := LU.Rnd.getU_ok G hn hn (decide (Equiv.Perm.sign σ = 1)) (List.ofFn fun i => (σ i).1)
  rw [Nat.min_self] at hL' hU'
  obtain rfl : L = LU.Rnd.lowerA n n G := ofM_inj (Except.ok.inj (h3.symm.trans hL'))
  obtain rfl : U = LU.Rnd.upperA n n G := ofM_inj (Except.ok.inj (h4.symm.trans hU'))
  have hUM : ∀ i, i < n → |(G i i).toReal| ≤ 5 * M / 2 := fun i hi => by
    refine (hf.diag i hi).trans ?_
    rw [show 5 * M / 2 = 5 / 2 * M by ring]
    exact mul_le_mul_of_nonneg_right (by norm_num) hM0.le
  have hdf : d.isFin := by
    have e := det_facc hn hf.new
    rw [e] at h5
    obtain rfl := Except.ok.inj h5
    refine (fprod_fin _ ?_ (fun j => G j j) (b := 5 * M / 2) (by positivity) n (fun i hi => ⟨hf.fin i i hi hi, hUM i hi⟩) ?_).1
    · split
      · have := Fp.one (α := F64)
        exact ⟨this.1, by have e : ((1 : F64)).toReal = 1 := this.2; rw [e, abs_one]⟩
      · have := Fp.neg (1 : F64) (Fp.one (α := F64)).1
        have e1 : ((1 : F64)).toReal = 1 := (Fp.one (α := F64)).2
        exact ⟨this.1, by have e : ((-1 : F64)).toReal = -((1 : F64)).toReal := this.2; rw [e, e1, abs_neg, abs_one]⟩
    · rw [show 2 * (5 * M / 2) = 5 * M by ring]; exact hd
  refine ⟨d, h5, hdf, ?_⟩
  obtain ⟨E, hE, hdet⟩ := h6 (fun i k => by
      simp only [LU.Rnd.lowerA, Matrix.of_apply]
      split
      · exact hf.fin i k i.2 k.2
      · split
        · exact Fp.one.1
        · exact Fp.zero.1) (fun k c => by
      simp only [LU.Rnd.upperA, Matrix.of_apply]
      split
      · exact hf.fin k c k.2 c.2
      · exact Fp.zero.1) hdf
  simp only [fun i k => (LU.Rnd.val_lowerA n n G i k).1, fun i k => (LU.Rnd.val_upperA n n G i k).1] at hE
  have hE' : ∀ i c, |E i c| ≤ 5 * (n + 1) / 2 ^ 52 * M := fun i c => by
    have := (hE (σ.symm i) c).trans (tri_small (by omega) hM1 hf.low hsum (σ.symm i) c)
    rwa [Equiv.apply_symm_apply] at this
  have hnear := det_near hZ hK hE'
  set a := (A.map F64.toReal).det
  set a' := (A.map F64.toReal + E).det with ha'
  -- the perturbation
  set t := n * (K * (5 * (n + 1) / 2 ^ 52 * M)) with htd
  have hnt : n * t = n * (5 * n * (n + 1) * (K * M)) / 2 ^ 52 := by rw [htd]; ring
  have hnt2 : n * (5 * n * (n + 1) * (K * M)) ≤ 2 ^ 50 := by
    have e : n * (5 * n * (n + 1) * (K * M)) = 5 * (n ^ 3 * (K * M)) + 5 * (n ^ 2 * (K * M)) := by ring
    rw [e]
    norm_num at hc hk2 ⊢
    linarith
  have ht0 : 0 ≤ t := by positivity
  have hlin := pow_le_linear ht0 (show n * t ≤ 1 by rw [hnt]; norm_num at hnt2 ⊢; linarith)
  have hnear2 : |a' - a| ≤ n * (5 * n * (n + 1) * (K * M)) / 2 ^ 51 * |a| := by
    refine hnear.trans (mul_le_mul_of_nonneg_right ?_ (abs_nonneg _))
    rw [hnt] at hlin
    norm_num at hlin ⊢
    linarith
  have ha2 : |a'| ≤ 3 / 2 * |a| := by
    have e1 := abs_sub_abs_le_abs_sub a' a
    have e2 : n * (5 * n * (n + 1) * (K * M)) / 2 ^ 51 * |a| ≤ 1 / 2 * |a| :=
      mul_le_mul_of_nonneg_right (by norm_num at hnt2 ⊢; linarith) (abs_nonneg _)
    linarith
  have hγ := gamma_f64 (k := n) (by omega)
  have hround : γ F64 n * |a'| ≤ n / 2 ^ 51 * |a| := by
    calc _ ≤ n / 2 ^ 52 * (3 / 2 * |a|) := mul_le_mul hγ ha2 (abs_nonneg _) (by positivity)
      _ ≤ _ := by
        have : 0 ≤ n * |a| := by positivity
        norm_num
        linarith
  -- underflow
  have hunder : η F64 * ∑ j : Fin n, ∏ i ∈ univ.filter (fun i => j < i), (1 + u F64) * |val (LU.Rnd.upperA n n G i i)| ≤
      tiny * (1 + 5 * M) ^ n := by
    have e1 : ∀ j : Fin n, ∏ i ∈ univ.filter (fun i => j < i), (1 + u F64) * |val (LU.Rnd.upperA n n G i i)| ≤ (1 + 5 * M) ^ n := by
      intro j
      have e0 : 0 ≤ u F64 := by rw [hu]; positivity
      calc _ ≤ ∏ _i ∈ univ.filter (fun i : Fin n => j < i), (1 + 5 * M) := by
            refine prod_le_prod (fun i _ => mul_nonneg (by linarith) (abs_nonneg _)) fun i _ => ?_
            have b1 := hUM i i.2
            have b2 : |val (LU.Rnd.upperA n n G i i)| = |(G i i).toReal| := by rw [show LU.Rnd.upperA n n G i i = G i i by simp [LU.Rnd.upperA]]; rfl
            rw [b2]
            have b3 : (1 + u F64) * |(G i i).toReal| ≤ 2 * (5 * M / 2) := mul_le_mul (by rw [hu]; norm_num) b1 (abs_nonneg _) (by norm_num)
            linarith
        _ = (1 + 5 * M) ^ (univ.filter (fun i : Fin n => j < i)).card := by rw [prod_const]
        _ ≤ _ := pow_le_pow_right₀ (by linarith) ((card_le_univ _).trans (by simp))
    calc _ ≤ η F64 * ∑ _j : Fin n, (1 + 5 * M) ^ n := mul_le_mul_of_nonneg_left (sum_le_sum fun j _ => e1 j) hη0
      _ = (n * η F64) * (1 + 5 * M) ^ n := by simp; ring
      _ ≤ _ := by
        refine mul_le_mul_of_nonneg_right ?_ (by positivity)
        rw [eta_tiny]
        have := mul_le_mul_of_nonneg_right hnr (show 0 ≤ tiny * (1 / 2 ^ 175) by positivity)
        norm_num at this ⊢
        linarith
  have e : n * (5 * n * (n + 1) * (K * M) + 1) / 2 ^ 51 * |a| = n * (5 * n * (n + 1) * (K * M)) / 2 ^ 51 * |a| + n / 2 ^ 51 * |a| := by ring
  rw [e]
  have hdet' : |d.toReal - a'| ≤ γ F64 n * |a'| + η F64 * ∑ j : Fin n, ∏ i ∈ univ.filter (fun i => j < i), (1 + u F64) * |val (LU.Rnd.upperA n n G i i)| := hdet
  have tri : |d.toReal - a| ≤ |d.toReal - a'| + |a' - a| := by
    have := abs_add_le (d.toReal - a') (a' - a)
    rwa [show d.toReal - a' + (a' - a) = d.toReal - a by ring] at this
  linarith

/-! ## Examples -/

/-- The spline matrix meets the hypotheses of `C116_inverse` and, for up to 200 rows, those of `C116_det`. -/
example (hn2 : n ≤ 200) : ∃ Z : Matrix (Fin n) (Fin n) ℝ, Tridiagonal (spline n) 4 ∧ Z * (spline n).map F64.toReal = 1 ∧
    (∀ i, ∑ j, |Z i j| ≤ 1 / 2) ∧ (n : ℝ) ^ 3 * (1 / 2 * 4) ≤ 2 ^ 46 ∧ ((1 : ℝ) + 5 * 4) ^ n ≤ 2 ^ 1000 := by
  obtain ⟨h1, h2, h3, -⟩ := spline_meets (n := n) (by omega)
  obtain ⟨Z, hZ, hK⟩ := varah (A := (spline n).map F64.toReal) (δ := 2) (by norm_num) fun i => by simpa only [Matrix.map_apply] using h2 i
  refine ⟨Z, h1, hZ, hK, by linarith, ?_⟩
  calc ((1 : ℝ) + 5 * 4) ^ n ≤ (2 ^ 5) ^ n := pow_le_pow_left₀ (by norm_num) (by norm_num) n
    _ = 2 ^ (5 * n) := (pow_mul _ _ _).symm
    _ ≤ 2 ^ 1000 := pow_le_pow_right₀ (by norm_num) (by omega)

/-- The hypotheses of `C116_none` hold for a singular matrix. -/
example : Tridiagonal (Matrix.of fun _ _ : Fin 2 => two 0) 1 ∧
    (ofM (Matrix.of fun _ _ : Fin 2 => two 0)).inverse = .ok none := by
  obtain ⟨v0, -, -⟩ := two_val
  have hf0 : (two 0).isFin := by decide +kernel
  refine ⟨⟨fun i j => ⟨by simpa using hf0, by simp [v0]⟩, fun i j h => by omega⟩, by decide +kernel⟩

end LA.Props
