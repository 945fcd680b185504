import Verif.Props.LUBounds
import Verif.Proofs.RndCholFin

/-!
# C111: solving a positive definite system of doubles with Cholesky

The whole path, `Cholesky::new` and then `solve`, in terms of the matrix and the right-hand side alone: no overflow, and an error bound.
-/

namespace LA.Props
open LA Finset Fp
set_option linter.unusedSectionVars false

variable {n p : Nat}

/-- The size of the numbers in a substitution. -/
theorem chol_numbers {N W m e y q h Q : ℝ} (hN0 : 0 ≤ N) (hN : N ≤ 2 ^ 20) (hW : 0 ≤ W) (hm : 0 ≤ m) (he : 0 ≤ e) (hy : 0 ≤ y) (hq0 : 0 ≤ q)
    (hq : q ≤ 2) (hWm : W * m ≤ 2 ^ 45) (h1 : y ≤ Q) (h2 : W * y ≤ Q) (h3 : e ≤ Q) (h4 : W * e ≤ Q) (h5 : h ≤ Q) (h6 : W * h ≤ Q) :
    2 * N * W * (y + e) ≤ 2 ^ 22 * Q ∧
    q * (y + m * (2 * N * W * (y + e)) + h) ≤ 2 ^ 70 * Q ∧ W * (q * (y + m * (2 * N * W * (y + e)) + h)) ≤ 2 ^ 71 * Q := by
  have hQ : 0 ≤ Q := hy.trans h1
  have hWm0 : 0 ≤ W * m := mul_nonneg hW hm
  have a1 : 2 * N * W * (y + e) ≤ 2 ^ 22 * Q := by
    have e1 : 2 * N * W * (y + e) = 2 * N * (W * y + W * e) := by ring
    rw [e1]
    calc _ ≤ 2 * 2 ^ 20 * (Q + Q) := mul_le_mul (by linarith) (by linarith) (by positivity) (by norm_num)
      _ = _ := by ring
  have a0 : 0 ≤ 2 * N * W * (y + e) := by positivity
  have a2 : m * (2 * N * W * (y + e)) ≤ 2 ^ 67 * Q := by
    have e1 : m * (2 * N * W * (y + e)) = 2 * N * ((W * m) * (y + e)) := by ring
    rw [e1]
    have e2 : (W * m) * (y + e) ≤ 2 ^ 45 * (Q + Q) := mul_le_mul hWm (by linarith) (by positivity) (by norm_num)
    calc _ ≤ 2 * 2 ^ 20 * (2 ^ 45 * (Q + Q)) := mul_le_mul (by linarith) e2 (by positivity) (by norm_num)
      _ = _ := by ring
  have a3 : (W * m) * (2 * N * W * (y + e)) ≤ 2 ^ 67 * Q := by
    calc _ ≤ 2 ^ 45 * (2 ^ 22 * Q) := mul_le_mul hWm a1 a0 (by norm_num)
      _ = _ := by ring
  refine ⟨a1, ?_, ?_⟩
  · have b1 : y + m * (2 * N * W * (y + e)) + h ≤ 2 ^ 68 * Q := by norm_num at a2 ⊢; linarith
    calc _ ≤ q * (2 ^ 68 * Q) := mul_le_mul_of_nonneg_left b1 hq0
      _ ≤ 2 * (2 ^ 68 * Q) := mul_le_mul_of_nonneg_right hq (mul_nonneg (by norm_num) hQ)
      _ ≤ _ := by norm_num; linarith
  · have b1 : W * (q * (y + m * (2 * N * W * (y + e)) + h)) = q * (W * y + (W * m) * (2 * N * W * (y + e)) + W * h) := by ring
    rw [b1]
    have b2 : W * y + (W * m) * (2 * N * W * (y + e)) + W * h ≤ 2 ^ 68 * Q := by norm_num at a3 ⊢; linarith
    calc _ ≤ q * (2 ^ 68 * Q) := mul_le_mul_of_nonneg_left b2 hq0
      _ ≤ 2 * (2 ^ 68 * Q) := mul_le_mul_of_nonneg_right hq (mul_nonneg (by norm_num) hQ)
      _ ≤ _ := by norm_num; linarith

/-- The quadratic form of the product of the factors. -/
theorem chol_form (hn : 0 < n) (hn20 : n ≤ 2 ^ 20) {A L : Matrix (Fin n) (Fin n) F64} (hA : ∀ i j, (A i j).isFin) {c : Cholesky F64}
    (hc : Cholesky.new (ofM A) = .ok (some c)) (hL : c.getL = ofM L) (hf : ∀ i j, (L i j).isFin) {M lam : ℝ} (hM1 : tiny ≤ M)
    (hM : ∀ i j, |(A i j).toReal| ≤ M) (hpd : ∀ x : Fin n → ℝ, lam * ∑ i, x i ^ 2 ≤ ∑ i, ∑ k, x i * (A i k).toReal * x k)
    (hcond : n ^ 3 * M ≤ 2 ^ 48 * lam) (x : Fin n → ℝ) :
    lam / 2 * ∑ i, x i ^ 2 ≤ ∑ t, (∑ i, (L i t).toReal * x i) ^ 2 := by
  have hn1 : (1 : ℝ) ≤ n := by exact_mod_cast hn
  have hM0 : 0 < M := lt_of_lt_of_le tiny_pos hM1
  have e1 : ∑ t, (∑ i, (L i t).toReal * x i) ^ 2 = ∑ i, ∑ k, x i * (∑ t, (L i t).toReal * (L k t).toReal) * x k := by
    have : ∀ t, (∑ i, (L i t).toReal * x i) ^ 2 = ∑ i, ∑ k, x i * ((L i t).toReal * (L k t).toReal) * x k := by
      intro t
      rw [sq, sum_mul_sum]
      exact sum_congr rfl fun i _ => sum_congr rfl fun k _ => by ring
    simp only [this]
    rw [sum_comm]
    refine sum_congr rfl fun i _ => ?_
    rw [sum_comm]
    refine sum_congr rfl fun k _ => ?_
    rw [mul_sum, sum_mul]
  rw [e1]
  have h1 : ∀ i k, |(A i k).toReal - ∑ t, (L i t).toReal * (L k t).toReal| ≤ (n + 3) / 2 ^ 52 * (2 * M) := fun i k => by
    refine (C104_backward hn hn20 hA hc hL hf i k).trans (mul_le_mul_of_nonneg_left ?_ (by positivity))
    refine Real.sqrt_le_iff.mpr ⟨by linarith, ?_⟩
    have a1 := (le_abs_self _).trans (hM i i)
    have a2 := (le_abs_self _).trans (hM k k)
    have a3 := (rowSq_le hn20 (accepted hn hA hc hL hf) k).2
    have a4 := tiny_pos
    rw [sq]
    exact mul_le_mul (by linarith) (by linarith) (by linarith) (by linarith)
  have h3 : ∀ i k, x i * (A i k).toReal * x k - (n + 3) / 2 ^ 52 * (2 * M) * (|x i| * |x k|) ≤
      x i * (∑ t, (L i t).toReal * (L k t).toReal) * x k := by
    intro i k
    have a2 := mul_le_mul_of_nonneg_right (h1 i k) (mul_nonneg (abs_nonneg (x i)) (abs_nonneg (x k)))
    have a3 : ((A i k).toReal - ∑ t, (L i t).toReal * (L k t).toReal) * (x i * x k) ≤
        |(A i k).toReal - ∑ t, (L i t).toReal * (L k t).toReal| * (|x i| * |x k|) := by
      rw [← abs_mul, ← abs_mul]; exact le_abs_self _
    linarith
  have h4 := sum_le_sum fun i (_ : i ∈ univ) => sum_le_sum fun k (_ : k ∈ univ) => h3 i k
  simp only [sum_sub_distrib, ← mul_sum] at h4
  have hcs : (∑ i, |x i|) ^ 2 ≤ n * ∑ i, x i ^ 2 := by
    have := sq_sum_le_card_mul_sum_sq (s := univ) (f := fun i => |x i|)
    simpa [sq_abs] using this
  have h5 : ∑ i, |x i| * ∑ k, |x k| = (∑ i, |x i|) ^ 2 := by rw [← sum_mul, sq]
  rw [h5] at h4
  have hx0 : 0 ≤ ∑ i, x i ^ 2 := sum_nonneg fun _ _ => sq_nonneg _
  have h6 : (n + 3) / 2 ^ 52 * (2 * M) * (∑ i, |x i|) ^ 2 ≤ lam / 2 * ∑ i, x i ^ 2 := by
    calc _ ≤ (n + 3) / 2 ^ 52 * (2 * M) * (n * ∑ i, x i ^ 2) := mul_le_mul_of_nonneg_left hcs (by positivity)
      _ = ((n * (n + 3)) * M / 2 ^ 51) * ∑ i, x i ^ 2 := by ring
      _ ≤ _ := by
        refine mul_le_mul_of_nonneg_right ?_ hx0
        have : (n : ℝ) * (n + 3) ≤ 4 * n ^ 3 := by
          have b1 : (n : ℝ) ≤ n ^ 2 := by nlinarith
          have b2 : (n : ℝ) ^ 2 ≤ n ^ 3 := by nlinarith
          nlinarith
        have := mul_le_mul_of_nonneg_right this hM0.le
        norm_num at hcond ⊢
        linarith
  have h7 := hpd x
  have e2 : ∑ i, ∑ k, x i * (A i k).toReal * x k = ∑ i, ∑ k, x i * (A i k).toReal * x k := rfl
  linarith

/-- No overflow. -/
theorem chol_core (hn : 0 < n) (hp : 0 < p) (hn20 : n ≤ 2 ^ 20) {A : Matrix (Fin n) (Fin n) F64} (hA : ∀ i j, (A i j).isFin)
    (hsym : ∀ i j, (A i j).toReal = (A j i).toReal) {M lam β P : ℝ} (hM1 : tiny * 2 ^ 100 ≤ M) (hM2 : M ≤ P) (hM1000 : M ≤ 2 ^ 1000)
    (hM : ∀ i j, |(A i j).toReal| ≤ M) (hlam : 0 < lam)
    (hpd : ∀ x : Fin n → ℝ, lam * ∑ i, x i ^ 2 ≤ ∑ i, ∑ k, x i * (A i k).toReal * x k) (hcond : n ^ 3 * M ≤ 2 ^ 48 * lam)
    {B : Matrix (Fin n) (Fin p) F64} (hB : ∀ i j, (B i j).isFin ∧ |(B i j).toReal| ≤ β) (hP : 2 ^ 51 ≤ P) (hΩ : P * 2 ^ 200 ≤ Ω F64)
    (hβ1 : β ≤ P) (hβ2 : β ≤ P * lam) :
    ∃ (c : Cholesky F64) (L : Matrix (Fin n) (Fin n) F64) (X : Matrix (Fin n) (Fin p) F64), Cholesky.new (ofM A) = .ok (some c) ∧
      c.getL = ofM L ∧ (∀ i j, (L i j).isFin) ∧ c.solve (ofM B) = .ok (ofM X) ∧ ∀ i j, (X i j).isFin := by
  have ht := tiny_pos
  have ht1 := tiny_le
  have hn1 : (1 : ℝ) ≤ n := by exact_mod_cast hn
  have hnr : (n : ℝ) ≤ 2 ^ 20 := by exact_mod_cast hn20
  have hMt : tiny ≤ M := by norm_num at hM1; linarith
  have hM0 : 0 < M := lt_of_lt_of_le ht hMt
  have hn2 : (n : ℝ) ≤ n ^ 2 := by nlinarith
  have hn3 : (n : ℝ) ^ 2 ≤ n ^ 3 := by nlinarith
  have hβ0 : 0 ≤ β := (abs_nonneg _).trans (hB ⟨0, hn⟩ ⟨0, hp⟩).2
  obtain ⟨c, L, hc, hL, hf⟩ := C104_accepts hn hn20 hA hsym M hMt hM1000 hM (fun x _ => by
    refine le_trans (mul_le_mul_of_nonneg_right ?_ (sum_nonneg fun _ _ => sq_nonneg _)) (hpd x)
    have : (n : ℝ) * (n + 6) ≤ 7 * n ^ 3 := by nlinarith
    have := mul_le_mul_of_nonneg_right this hM0.le
    norm_num at hcond ⊢
    linarith)
  have hform := chol_form hn hn20 hA hc hL hf hMt hM hpd hcond
  have hacc := accepted hn hA hc hL hf
  -- the size of the entries of `L`
  have hLm : ∀ i k, |(L i k).toReal| ≤ √(2 * M) := fun i k => by
    have h1 := entry_le (Matrix.of fun i j => (L i j).toReal) i k
    simp only [Matrix.of_apply] at h1
    refine h1.trans (Real.sqrt_le_sqrt ?_)
    have h2 := rowSq_le hn20 hacc i
    have h3 := (le_abs_self _).trans (hM i i)
    refine h2.1.trans ?_
    norm_num at hM1 ⊢
    linarith
  obtain ⟨o, ho, hP'⟩ := Cholesky.Rnd.new_post hn A
  rw [hc] at ho
  obtain rfl := Except.ok.inj ho
  obtain ⟨L', rfl, hPart⟩ := hP'
  obtain rfl := ofM_inj (show ofM (Matrix.of fun (i : Fin n) (j : Fin n) => L' i j) = ofM L from hL)
  simp only [Matrix.of_apply] at hf hform hLm
  obtain ⟨V, hV, hV', hVt, hW1, hW2⟩ := chol_inverse (L := Matrix.of fun i k : Fin n => (L' i k).toReal) (fun i k hik => by
    rw [Matrix.of_apply, hPart.zero i k i.2 hik]; exact (Fp.zero (α := F64)).2) (half_pos hlam) hform
  obtain ⟨X, Y, h4, h5, h6⟩ := Cholesky.Rnd.solve_ok hn hp L' B
  refine ⟨_, _, Matrix.of fun i j => X i j, hc, rfl, fun i j => hf i j, h4, fun i j => ?_⟩
  -- numbers
  set m := √(2 * M) with hmd
  set W := √(n / (lam / 2)) with hWd
  have hm0 : 0 ≤ m := Real.sqrt_nonneg _
  have hW0 : 0 ≤ W := Real.sqrt_nonneg _
  have hm2 : m ^ 2 = 2 * M := Real.sq_sqrt (by linarith)
  have hWsq : W ^ 2 * lam = 2 * n := by
    rw [hWd, Real.sq_sqrt (by positivity)]; field_simp
  have hWM : W ^ 2 * (n ^ 2 * M) ≤ 2 ^ 49 := by
    have a1 : W ^ 2 * (n ^ 3 * M) ≤ W ^ 2 * (2 ^ 48 * lam) := mul_le_mul_of_nonneg_left hcond (sq_nonneg _)
    have a2 : W ^ 2 * (2 ^ 48 * lam) = 2 ^ 49 * n := by linear_combination 2 ^ 48 * hWsq
    have a3 : (W ^ 2 * (n ^ 2 * M)) * n ≤ 2 ^ 49 * n := by
      calc _ = W ^ 2 * (n ^ 3 * M) := by ring
        _ ≤ _ := by linarith
    exact le_of_mul_le_mul_right a3 (by linarith)
  have hnWm : n ^ 2 * (W * m) ≤ 2 ^ 45 := by
    have a1 : (n ^ 2 * (W * m)) ^ 2 ≤ (2 ^ 45) ^ 2 := by
      have e : (n ^ 2 * (W * m)) ^ 2 = n ^ 2 * (2 * (W ^ 2 * (n ^ 2 * M))) := by
        have : (n ^ 2 * (W * m)) ^ 2 = n ^ 2 * (W ^ 2 * (n ^ 2 * m ^ 2)) := by ring
        rw [this, hm2]; ring
      rw [e]
      have a2 : (n : ℝ) ^ 2 ≤ (2 ^ 20) ^ 2 := pow_le_pow_left₀ (by linarith) hnr 2
      calc _ ≤ (2 ^ 20) ^ 2 * (2 * 2 ^ 49) := mul_le_mul a2 (by linarith) (by positivity) (by norm_num)
        _ = _ := by norm_num
    exact (le_abs_self _).trans (abs_le_of_sq_le_sq a1 (by norm_num))
  have hWm0 : 0 ≤ W * m := mul_nonneg hW0 hm0
  have hWm : W * m ≤ 2 ^ 45 := by
    refine le_trans ?_ hnWm
    exact le_mul_of_one_le_left hWm0 (by linarith)
  have hW2M : W ^ 2 * M ≤ 2 ^ 49 := by
    refine le_trans ?_ hWM
    exact mul_le_mul_of_nonneg_left (le_mul_of_one_le_left hM0.le (by linarith)) (sq_nonneg _)
  have hW2t : W ^ 2 * tiny ≤ 1 := by
    have := (mul_le_mul_of_nonneg_left hM1 (sq_nonneg W)).trans hW2M
    rw [← mul_assoc] at this
    have h2 : (2 : ℝ) ^ 49 ≤ 1 * 2 ^ 100 := by norm_num
    exact le_of_mul_le_mul_right (this.trans h2) (by norm_num)
  have hWle : W ≤ 1 + W ^ 2 := by nlinarith [sq_nonneg (W - 1)]
  have hWt : W * tiny ≤ 2 := by
    have := mul_le_mul_of_nonneg_right hWle ht.le
    linarith
  have hmP : m ≤ 2 * P := by
    have hP1 : 1 ≤ P := le_trans (by norm_num) hP
    refine Real.sqrt_le_iff.mpr ⟨by linarith, ?_⟩
    have : P * 1 ≤ P * P := mul_le_mul_of_nonneg_left hP1 (by linarith)
    rw [mul_pow, sq P]
    linarith
  have hW2β : W ^ 2 * β ≤ 2 ^ 21 * P := by
    have a1 := mul_le_mul_of_nonneg_left hβ2 (sq_nonneg W)
    have a2 : W ^ 2 * (P * lam) = P * (2 * n) := by linear_combination P * hWsq
    have a3 : P * (2 * n) ≤ P * (2 * 2 ^ 20) := mul_le_mul_of_nonneg_left (by linarith) (by linarith)
    norm_num at a3 ⊢
    linarith
  have hWβ : W * β ≤ 2 ^ 22 * P := by
    have := mul_le_mul_of_nonneg_right hWle hβ0
    norm_num at hW2β ⊢
    linarith
  -- underflow
  have hq : (1 + u F64) ^ n ≤ 2 := pow_f64 (by omega)
  have hq0 : 1 ≤ (1 + u F64) ^ n := one_le_pow (α := F64) n
  have hη0 := η_nonneg (α := F64)
  have hηt : η F64 ≤ tiny * (1 / 2 ^ 175) := eta_tiny.le
  have hθ := theta_f64 hn20
  have hθ0 := θ_nonneg (α := F64) n
  set e := θ F64 n + (1 + u F64) ^ n * η F64 * m with hed
  have he0 : 0 ≤ e := add_nonneg hθ0 (mul_nonneg (mul_nonneg (by linarith) hη0) hm0)
  have hηt' : η F64 ≤ tiny / 2 := by norm_num at hηt ⊢; linarith
  have he : e ≤ tiny * (1 + m) := by
    have a1 : (1 + u F64) ^ n * η F64 ≤ 2 * (tiny / 2) := mul_le_mul hq hηt' hη0 (by norm_num)
    have a2 : (1 + u F64) ^ n * η F64 * m ≤ 2 * (tiny / 2) * m := mul_le_mul_of_nonneg_right a1 hm0
    have a3 : θ F64 n ≤ tiny := by norm_num at hθ ⊢; linarith
    rw [hed]; linarith
  have heP : e ≤ 1 + 2 * P := he.trans (by
    calc tiny * (1 + m) ≤ 1 * (1 + m) := mul_le_mul_of_nonneg_right ht1 (by linarith)
      _ ≤ _ := by linarith)
  have hWe : W * e ≤ 2 + 2 ^ 45 := by
    have a1 := mul_le_mul_of_nonneg_left he hW0
    have a2 : tiny * (W * m) ≤ 1 * 2 ^ 45 := mul_le_mul ht1 hWm hWm0 (by norm_num)
    linarith
  have hW2e : W ^ 2 * e ≤ 1 + 2 * P := by
    have a1 := mul_le_mul_of_nonneg_left he (sq_nonneg W)
    have a2 : W ^ 2 * tiny * (1 + m) ≤ 1 * (1 + m) := mul_le_mul_of_nonneg_right hW2t (by linarith)
    linarith
  set h0 := n * η F64 with hh0
  have hh : h0 ≤ tiny := by
    have : n * η F64 ≤ 2 ^ 20 * (tiny * (1 / 2 ^ 175)) := mul_le_mul hnr hηt hη0 (by norm_num)
    norm_num at this ⊢
    linarith
  have hh00 : 0 ≤ h0 := mul_nonneg (by linarith) hη0
  have hWh : W * h0 ≤ 2 := (mul_le_mul_of_nonneg_left hh hW0).trans hWt
  have hP1 : 1 ≤ P := le_trans (by norm_num) hP
  -- the two substitutions
  obtain ⟨s1, s2, s3⟩ := chol_numbers (N := n) (Q := 2 ^ 22 * P) (h := h0) (q := (1 + u F64) ^ n) (by linarith) hnr hW0 hm0 he0 hβ0 (by linarith) hq hWm
    (by norm_num; linarith) hWβ (by norm_num; linarith) (by norm_num at hP hWe ⊢; linarith) (by norm_num; linarith)
    (by norm_num; linarith)
  set SY := 2 * n * W * (β + e) with hSY
  have hSY0 : 0 ≤ SY := by
    have : 0 ≤ β + e := by linarith
    have : 0 ≤ 2 * (n : ℝ) * W := mul_nonneg (by linarith) hW0
    exact mul_nonneg this (by linarith)
  have hWSY : W * SY ≤ 2 ^ 44 * P := by
    have e1 : W * SY = 2 * n * (W ^ 2 * β + W ^ 2 * e) := by rw [hSY]; ring
    rw [e1]
    have e2 : W ^ 2 * β + W ^ 2 * e ≤ 2 ^ 23 * P := by norm_num at hW2β ⊢; linarith
    have e3 : 0 ≤ W ^ 2 * β + W ^ 2 * e := add_nonneg (mul_nonneg (sq_nonneg _) hβ0) (mul_nonneg (sq_nonneg _) he0)
    calc _ ≤ 2 * 2 ^ 20 * (2 ^ 23 * P) := mul_le_mul (by linarith) e2 e3 (by norm_num)
      _ = _ := by ring
  obtain ⟨r1, r2, r3⟩ := chol_numbers (N := n) (Q := 2 ^ 44 * P) (h := h0) (q := (1 + u F64) ^ n) (by linarith) hnr hW0 hm0 he0 hSY0 (by linarith) hq hWm
    (by norm_num at s1 ⊢; linarith) hWSY (by norm_num; linarith) (by norm_num at hP hWe ⊢; linarith) (by norm_num; linarith)
    (by norm_num; linarith)
  set SX := 2 * n * W * (SY + e) with hSX
  have hu2 : 1 + u F64 ≤ 2 := by have := u_lt_one (α := F64); linarith
  have hbig : ∀ z w : ℝ, 0 ≤ w → z ≤ 2 ^ 71 * (2 ^ 44 * P) → w ≤ 2 ^ 71 * (2 ^ 44 * P) → z ≤ Ω F64 ∧ (1 + u F64) * w + η F64 ≤ Ω F64 := by
    intro z w hw hz hw'
    have a1 : (1 + u F64) * w ≤ 2 * (2 ^ 71 * (2 ^ 44 * P)) := mul_le_mul hu2 hw' hw (by norm_num)
    have a2 : η F64 ≤ 1 := by linarith
    norm_num at hΩ hz a1
    exact ⟨by linarith, by linarith⟩
  have hs : n * W * (γ F64 n * m) ≤ 1 / 2 := by
    have hγ := gamma_f64 (k := n) (by omega)
    have a1 := mul_le_mul_of_nonneg_left hγ (show 0 ≤ n * (W * m) by positivity)
    have a2 : n * (W * m) * ((n : ℝ) / 2 ^ 52) = n ^ 2 * (W * m) / 2 ^ 52 := by ring
    have a3 : n * W * (γ F64 n * m) = n * (W * m) * γ F64 n := by ring
    rw [a3]
    norm_num at hnWm a1 a2 ⊢
    linarith
  have hq00 : 0 ≤ (1 + u F64) ^ n := by linarith
  have t1 := hbig _ _ (mul_nonneg hW0 (mul_nonneg hq00 (add_nonneg (add_nonneg hβ0 (mul_nonneg hm0 hSY0)) hh00))) (s2.trans (by norm_num; linarith))
    (s3.trans (by norm_num; linarith))
  have hSX0 : 0 ≤ SX := mul_nonneg (mul_nonneg (by linarith) hW0) (add_nonneg hSY0 he0)
  have t2 := hbig _ _ (mul_nonneg hW0 (mul_nonneg hq00 (add_nonneg (add_nonneg hSY0 (mul_nonneg hm0 hSX0)) hh00))) (r2.trans (by norm_num; linarith)) r3
  have fy := Cholesky.Rnd.forward_fin (L := L') (X := Y) (B := ext B) (V := V) (W := W) (m := m) (y := β) (S := SY) hPart.zero j
    (fun i => h5 i j i.2 j.2) (fun i k => ⟨hf i k, hLm i k⟩) hm0 hβ0 (fun i => by rw [ext_fin]; exact hB i j) hV hVt hW0 hW1 hs le_rfl t1.1 t1.2
  have fx := Cholesky.Rnd.backward_fin (L := L') (X := X) (B := Y) (V := V) (W := W) (m := m) (y := SY) (S := SX) hPart.zero j
    (fun i => h6 i j i.2 j.2) (fun i k => ⟨hf i k, hLm i k⟩) hm0 hSY0
    (fun i => ⟨fy.1 i, (single_le_sum (f := fun c : Fin n => |val (Y c j)|) (fun _ _ => abs_nonneg _) (mem_univ i)).trans fy.2⟩)
    hV hV' hVt hW0 hW2 hs le_rfl t2.1 t2.2
  exact fx.1 i

/-- From the residual to the error, for a positive definite matrix. -/
theorem spd_close {A : Matrix (Fin n) (Fin n) ℝ} {lam ρ t : ℝ} (hlam : 0 < lam) (hρ : 0 ≤ ρ)
    (hpd : ∀ x : Fin n → ℝ, lam * ∑ i, x i ^ 2 ≤ ∑ i, ∑ k, x i * A i k * x k) (hc : n * ρ ≤ lam / 2) (x z : Fin n → ℝ)
    (h : ∀ i, |∑ k, A i k * z k - ∑ k, A i k * x k| ≤ ρ * ∑ k, |x k| + t) :
    √(∑ i, (x i - z i) ^ 2) ≤ 2 * n * ρ / lam * √(∑ i, z i ^ 2) + 2 * √n * t / lam := by
  set d : Fin n → ℝ := fun i => x i - z i with hd
  set D := √(∑ i, d i ^ 2) with hD
  set N := √(∑ i, z i ^ 2) with hN
  have hD0 : 0 ≤ D := Real.sqrt_nonneg _
  have hN0 : 0 ≤ N := Real.sqrt_nonneg _
  have hn0 : 0 ≤ √(n : ℝ) := Real.sqrt_nonneg _
  have hnn : √(n : ℝ) * √n = n := Real.mul_self_sqrt (Nat.cast_nonneg n)
  have l1 : ∀ f : Fin n → ℝ, ∑ i, |f i| ≤ √n * √(∑ i, f i ^ 2) := fun f => by
    have := Real.sum_mul_le_sqrt_mul_sqrt univ (fun _ => (1 : ℝ)) (fun i => |f i|)
    simpa [sq_abs] using this
  set s := ∑ k, |x k| with hs
  have hs1 : s ≤ √n * N + √n * D := by
    have e : s ≤ ∑ k, |z k| + ∑ k, |d k| := by
      rw [← sum_add_distrib]
      exact sum_le_sum fun k _ => by
        have := abs_add_le (z k) (d k)
        rwa [show z k + d k = x k by rw [hd]; ring] at this
    exact e.trans (add_le_add (l1 z) (l1 d))
  have hs0 : 0 ≤ s := sum_nonneg fun _ _ => abs_nonneg _
  have key : lam * D ^ 2 ≤ (√n * D) * (ρ * s + t) := by
    have e1 : D ^ 2 = ∑ i, d i ^ 2 := Real.sq_sqrt (sum_nonneg fun _ _ => sq_nonneg _)
    rw [e1]
    refine (hpd d).trans ?_
    have e2 : ∀ i, ∑ k, d i * A i k * d k ≤ |d i| * (ρ * s + t) := fun i => by
      have e3 : ∑ k, d i * A i k * d k = d i * -(∑ k, A i k * z k - ∑ k, A i k * x k) := by
        rw [← sum_sub_distrib, ← sum_neg_distrib, mul_sum]
        exact sum_congr rfl fun k _ => by rw [hd]; ring
      rw [e3]
      refine (le_abs_self _).trans ?_
      rw [abs_mul, abs_neg]
      exact mul_le_mul_of_nonneg_left (h i) (abs_nonneg _)
    refine (sum_le_sum fun i _ => e2 i).trans ?_
    rw [← sum_mul]
    rcases Nat.eq_zero_or_pos n with hz | hz
    · subst hz; simp
    · have hR : 0 ≤ ρ * s + t := (abs_nonneg _).trans (h ⟨0, hz⟩)
      exact mul_le_mul_of_nonneg_right (l1 d) hR
  have main : lam * D ≤ √n * (ρ * s + t) := by
    rcases hD0.eq_or_lt with h0 | h0
    · rcases Nat.eq_zero_or_pos n with hz | hz
      · subst hz; rw [← h0]; simp
      · have hR : 0 ≤ ρ * s + t := (abs_nonneg _).trans (h ⟨0, hz⟩)
        rw [← h0, mul_zero]; positivity
    · refine le_of_mul_le_mul_right (a := D) ?_ h0
      calc lam * D * D = lam * D ^ 2 := by ring
        _ ≤ _ := key
        _ = _ := by ring
  have e1 : √n * (ρ * s + t) ≤ n * ρ * N + n * ρ * D + √n * t := by
    have := mul_le_mul_of_nonneg_left hs1 (show 0 ≤ √n * ρ by positivity)
    have e2 : √n * ρ * (√n * N + √n * D) = n * ρ * N + n * ρ * D := by
      linear_combination (ρ * N + ρ * D) * hnn
    linarith
  have e3 := mul_le_mul_of_nonneg_right hc hD0
  have e4 : lam * D ≤ 2 * n * ρ * N + 2 * √n * t := by linarith
  have e5 : 2 * n * ρ / lam * N + 2 * √n * t / lam = (2 * n * ρ * N + 2 * √n * t) / lam := by ring
  rw [e5, le_div_iff₀ hlam]
  linarith

/-- A positive definite matrix is invertible. -/
theorem spd_unit {A : Matrix (Fin n) (Fin n) ℝ} {lam : ℝ} (hlam : 0 < lam)
    (hpd : ∀ x : Fin n → ℝ, lam * ∑ i, x i ^ 2 ≤ ∑ i, ∑ k, x i * A i k * x k) : A * A⁻¹ = 1 := by
  refine Matrix.mul_nonsing_inv _ ((Matrix.isUnit_iff_isUnit_det _).1 (Matrix.mulVec_injective_iff_isUnit.mp fun x y hxy => ?_))
  have h0 : A.mulVec (x - y) = 0 := by rw [Matrix.mulVec_sub, hxy, sub_self]
  have h1 := hpd (x - y)
  have h2 : ∀ i, ∑ k, (x - y) i * A i k * (x - y) k = 0 := fun i => by
    have : ∑ k, A i k * (x - y) k = 0 := congrFun h0 i
    simp only [mul_assoc, ← mul_sum, this, mul_zero]
  simp only [h2, sum_const_zero] at h1
  have h3 : ∑ i, (x - y) i ^ 2 ≤ 0 := by
    by_contra hc
    have := mul_pos hlam (not_le.mp hc)
    linarith
  funext i
  have h4 := (sum_eq_zero_iff_of_nonneg fun i _ => sq_nonneg ((x - y) i)).mp (le_antisymm h3 (sum_nonneg fun _ _ => sq_nonneg _)) i (mem_univ i)
  exact sub_eq_zero.mp (pow_eq_zero_iff two_ne_zero |>.mp h4)

/-- C111: `Cholesky::new` accepts a well conditioned positive definite matrix of doubles, and `solve` returns finite numbers close to the
exact solution: the relative error in the norm is at most `n (3n+4) 2^-51` times the condition number `M / lam`, up to underflow. -/
theorem C111_solve (hn : 0 < n) (hp : 0 < p) (hn20 : n ≤ 2 ^ 20) (A : Matrix (Fin n) (Fin n) F64) (B : Matrix (Fin n) (Fin p) F64)
    (M lam β : ℝ) (hA : ∀ i j, (A i j).isFin ∧ |(A i j).toReal| ≤ M) (hsym : ∀ i j, (A i j).toReal = (A j i).toReal)
    (hM1 : tiny * 2 ^ 100 ≤ M) (hM2 : M ≤ 2 ^ 700) (hlam : 0 < lam)
    (hpd : ∀ x : Fin n → ℝ, lam * ∑ i, x i ^ 2 ≤ ∑ i, ∑ k, x i * (A i k).toReal * x k) (hcond : n ^ 3 * M ≤ 2 ^ 48 * lam)
    (hB : ∀ i j, (B i j).isFin ∧ |(B i j).toReal| ≤ β) (hβ1 : β ≤ 2 ^ 700) (hβ2 : β ≤ 2 ^ 700 * lam) :
    ∃ (c : Cholesky F64) (X : Matrix (Fin n) (Fin p) F64), Cholesky.new (ofM A) = .ok (some c) ∧ c.solve (ofM B) = .ok (ofM X) ∧
      (∀ i j, (X i j).isFin) ∧
      (∀ i j, |(B i j).toReal - ∑ k, (A i k).toReal * (X k j).toReal| ≤
        (3 * n + 4) / 2 ^ 52 * M * ∑ k, |(X k j).toReal| + tiny * (1 + M)) ∧
      ∀ j, √(∑ i, ((X i j).toReal - ((A.map F64.toReal)⁻¹ * B.map F64.toReal) i j) ^ 2) ≤
        n * (3 * n + 4) / 2 ^ 51 * (M / lam) * √(∑ i, ((A.map F64.toReal)⁻¹ * B.map F64.toReal) i j ^ 2) + 2 * √n * (tiny * (1 + M)) / lam := by
  obtain ⟨o1, o2⟩ := omega_700
  have ht := tiny_pos
  have ht1 := tiny_le
  have hM0 : 0 < M := lt_of_lt_of_le (by positivity) hM1
  obtain ⟨c, L, X, hc, hL, hf, hX, hXf⟩ := chol_core hn hp hn20 (fun i j => (hA i j).1) hsym hM1 hM2
    (hM2.trans (pow_le_pow_right₀ (by norm_num) (by norm_num))) (fun i j => (hA i j).2) hlam hpd hcond hB o1
    (le_trans (mul_le_mul_of_nonneg_left (pow_le_pow_right₀ (by norm_num) (by norm_num)) (by positivity)) o2) hβ1 hβ2
  obtain ⟨X', hX', hres⟩ := C104_solve hn hp hn20 (fun i j => (hA i j).1) hc hL hf (1 + M) (by linarith)
    (fun i => ((le_abs_self _).trans (hA i i).2).trans (by linarith)) B
  rw [hX] at hX'
  obtain rfl := ofM_inj (Except.ok.inj hX')
  have hacc := accepted hn (fun i j => (hA i j).1) hc hL hf
  have hres' : ∀ i j, |(B i j).toReal - ∑ k, (A i k).toReal * (X k j).toReal| ≤
      (3 * n + 4) / 2 ^ 52 * M * ∑ k, |(X k j).toReal| + tiny * (1 + M) := fun i j => by
    refine (hres hXf i j).trans ?_
    have e1 : ∑ k, √(((A i i).toReal + tiny) * ((A k k).toReal + tiny)) * |(X k j).toReal| ≤ (M + tiny) * ∑ k, |(X k j).toReal| := by
      rw [mul_sum]
      refine sum_le_sum fun k _ => mul_le_mul_of_nonneg_right ?_ (abs_nonneg _)
      refine Real.sqrt_le_iff.mpr ⟨by linarith, ?_⟩
      have a1 := (le_abs_self _).trans (hA i i).2
      have a2 := (le_abs_self _).trans (hA k k).2
      have a3 := (rowSq_le hn20 hacc k).2
      rw [sq]
      exact mul_le_mul (by linarith) (by linarith) (by linarith) (by linarith)
    set s := ∑ k, |(X k j).toReal| with hs
    have hs0 : 0 ≤ s := sum_nonneg fun _ _ => abs_nonneg _
    have e2 := mul_le_mul_of_nonneg_left e1 (show (0 : ℝ) ≤ (3 * n + 3) / 2 ^ 52 by positivity)
    have hnr : (n : ℝ) ≤ 2 ^ 20 := by exact_mod_cast hn20
    have e3 : (3 * n + 3) / 2 ^ 52 * (M + tiny) + tiny * (1 + M) ≤ (3 * n + 4) / 2 ^ 52 * M := by
      have b1 : (3 * n + 3) / 2 ^ 52 * tiny ≤ (3 * 2 ^ 20 + 3) / 2 ^ 52 * tiny := mul_le_mul_of_nonneg_right (by gcongr) ht.le
      have htiny : tiny ≤ 1 / 2 ^ 100 := by
        unfold tiny
        exact one_div_le_one_div_of_le (by positivity) (pow_le_pow_right₀ (by norm_num) (by norm_num))
      have b2 := mul_le_mul_of_nonneg_right htiny hM0.le
      norm_num at hM1 b1 b2 ⊢
      linarith
    have e4 := mul_le_mul_of_nonneg_right e3 hs0
    linarith
  refine ⟨c, X, hc, hX, hXf, hres', fun j => ?_⟩
  have hunit := spd_unit (A := A.map F64.toReal) hlam hpd
  set Z := (A.map F64.toReal)⁻¹ * B.map F64.toReal with hZ
  have hAZ : ∀ i, ∑ k, (A i k).toReal * Z k j = (B i j).toReal := fun i => by
    have : A.map F64.toReal * Z = B.map F64.toReal := by rw [hZ, ← Matrix.mul_assoc, hunit, Matrix.one_mul]
    exact congrFun (congrFun this i) j
  have hn1 : (1 : ℝ) ≤ n := by exact_mod_cast hn
  have := spd_close (A := A.map F64.toReal) (ρ := (3 * n + 4) / 2 ^ 52 * M) (t := tiny * (1 + M)) hlam (by positivity) hpd (by
      have a1 : (n : ℝ) * (3 * n + 4) ≤ 7 * n ^ 3 := by
        have b1 : (n : ℝ) ≤ n ^ 2 := by nlinarith
        have b2 : (n : ℝ) ^ 2 ≤ n ^ 3 := by nlinarith
        nlinarith
      have a2 := mul_le_mul_of_nonneg_right a1 hM0.le
      have a3 : n * ((3 * n + 4) / 2 ^ 52 * M) = n * (3 * n + 4) * M / 2 ^ 52 := by ring
      rw [a3]
      norm_num at hcond ⊢
      linarith) (fun k => (X k j).toReal) (fun k => Z k j) (fun i => by
      have := hres' i j
      rw [← hAZ i] at this
      exact this)
  refine this.trans (le_of_eq ?_)
  congr 1
  congr 1
  norm_num
  ring

/-! ## Example -/

/-- All hypotheses of `C111_solve` hold for this system, with `M = 4`, `lam = 1/2`, `β = 4`; the computed solution is `(1/2, 1)`. -/
example : (∀ i j, ((!![two 2, two 1; two 1, two 1] : Matrix (Fin 2) (Fin 2) F64) i j).isFin ∧
      |((!![two 2, two 1; two 1, two 1] : Matrix (Fin 2) (Fin 2) F64) i j).toReal| ≤ 4) ∧
    (∀ i j, ((!![two 2, two 1; two 1, two 1] : Matrix (Fin 2) (Fin 2) F64) i j).toReal =
      ((!![two 2, two 1; two 1, two 1] : Matrix (Fin 2) (Fin 2) F64) j i).toReal) ∧
    tiny * 2 ^ 100 ≤ 4 ∧ (4 : ℝ) ≤ 2 ^ 700 ∧
    (∀ x : Fin 2 → ℝ, 1 / 2 * ∑ i, x i ^ 2 ≤
      ∑ i, ∑ k, x i * ((!![two 2, two 1; two 1, two 1] : Matrix (Fin 2) (Fin 2) F64) i k).toReal * x k) ∧
    ((2 : ℕ) : ℝ) ^ 3 * 4 ≤ 2 ^ 48 * (1 / 2) ∧
    (∀ i j, ((!![two 2; two 1 + two 0] : Matrix (Fin 2) (Fin 1) F64) i j).isFin ∧
      |((!![two 2; two 1 + two 0] : Matrix (Fin 2) (Fin 1) F64) i j).toReal| ≤ 4) ∧
    (4 : ℝ) ≤ 2 ^ 700 * (1 / 2) ∧
    (Cholesky.new (ofM (!![two 2, two 1; two 1, two 1] : Matrix (Fin 2) (Fin 2) F64)) >>= fun o => match o with
      | none => .ok none
      | some c => (c.solve (ofM !![two 2; two 1 + two 0])).map some) = .ok (some (ofM !![two (-1); two 0])) := by
  obtain ⟨v0, v1, v2⟩ := two_val
  have hP : (2 : ℝ) ^ 3 ≤ 2 ^ 700 := pow_le_pow_right₀ (by norm_num) (by norm_num)
  refine ⟨fun i j => ⟨by fin_cases i <;> fin_cases j <;> decide +kernel, ?_⟩, fun i j => ?_, ?_, ?_, fun x => ?_, by norm_num,
    fun i j => ⟨by fin_cases i <;> fin_cases j <;> decide +kernel, ?_⟩, ?_, by decide +kernel⟩
  · fin_cases i <;> fin_cases j <;> norm_num [v1, v2]
  · fin_cases i <;> fin_cases j <;> simp [v1, v2]
  · have : tiny ≤ 1 / 2 ^ 100 := by
      unfold tiny
      exact one_div_le_one_div_of_le (by positivity) (pow_le_pow_right₀ (by norm_num) (by norm_num))
    norm_num at this ⊢
    linarith
  · exact le_trans (by norm_num) hP
  · simp only [Fin.sum_univ_two, Matrix.of_apply, Matrix.cons_val', Matrix.cons_val_zero, Matrix.cons_val_one, Matrix.cons_val_fin_one, v1, v2]
    nlinarith [sq_nonneg (2 * x 0 + x 1), sq_nonneg (x 0), sq_nonneg (x 1), sq_nonneg (x 0 + x 1), sq_nonneg (3 * x 0 + 2 * x 1)]
  · fin_cases i <;> fin_cases j <;> norm_num [v2, three_val]
  · generalize (2 : ℝ) ^ 700 = P at *; norm_num at hP; linarith

end LA.Props
