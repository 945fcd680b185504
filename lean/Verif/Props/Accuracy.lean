import Verif.Proofs.RndNorm
import Verif.Props.Rounding
import Verif.Props.LU
import Verif.IEEEFp

/-! # C72–C74: rounding errors of sums and norms, of `hypot`, of determinant and inverse -/

namespace LA.Props
open LA Finset Fp
set_option linter.unusedSectionVars false

variable {α : Type} [Zero α] [One α] [Add α] [Sub α] [Neg α] [Mul α] [FloatOps α] [Fp α] {m n p : Nat}

/-! ## C72 -/

/-- C72: entrywise sums, differences, products and multiples are off by one rounding per entry. -/
theorem C72_elementwise (hm : 0 < m) (A B : Matrix (Fin m) (Fin n) α) (k : α) :
    ∃ S D P M : Matrix (Fin m) (Fin n) α, (ofM A).add (ofM B) = .ok (ofM S) ∧ (ofM A).sub (ofM B) = .ok (ofM D) ∧
      (ofM A).elemMul (ofM B) = .ok (ofM P) ∧ (ofM A).scale k = .ok (ofM M) ∧ ∀ i j,
        (fin (S i j) → |val (S i j) - (val (A i j) + val (B i j))| ≤ u α * |val (A i j) + val (B i j)|) ∧
        (fin (D i j) → |val (D i j) - (val (A i j) - val (B i j))| ≤ u α * |val (A i j) - val (B i j)|) ∧
        (fin (P i j) → |val (P i j) - val (A i j) * val (B i j)| ≤ u α * |val (A i j) * val (B i j)| + η α) ∧
        (fin (M i j) → |val (M i j) - val k * val (A i j)| ≤ u α * |val k * val (A i j)| + η α) :=
  ⟨_, _, _, _, C08_add hm A B, C08_sub hm A B, C08_elemMul hm A B, C08_scale A k, fun i j =>
    ⟨fun h => (Fp.add _ _ h).2.2.1, fun h => (Fp.sub _ _ h).2.2.1, fun h => (Fp.mul _ _ h).2.2.1, fun h => (Fp.mul _ _ h).2.2.1⟩⟩

/-- What `trace()` computes. -/
theorem trace_facc (hm : 0 < m) (A : Matrix (Fin m) (Fin n) α) :
    (ofM A).trace = .ok (facc (· + ·) 0 (fun i => ext A i i) (min m n)) := by
  have hl := loop_post (lo := 0) (hi := min m n) (s := ((0 : α), 0))
    (f := fun _ (s : α × Nat) => do return (s.1 + (← idx (ofM A).data s.2), s.2 + (n + 1)))
    (fun k s => s = (facc (· + ·) 0 (fun i => ext A i i) k, k * n + k)) (Nat.zero_le _) (by simp [facc]) (by
      rintro k s - hk rfl
      dsimp only
      rw [idx_ofM A (show k < m by omega) (show k < n by omega), ok_bind]
      refine Post.ok ?_
      rw [facc, ext_eq A (by omega) (by omega)]
      simp only [Prod.mk.injEq, true_and]
      ring)
  obtain ⟨s, hs, rfl⟩ := hl
  unfold Mat.trace
  simp only [ofM_rows, ofM_cols A hm, ok_bind]
  rw [hs, ok_bind]; rfl

/-- What `vector_1_norm()` computes. -/
theorem norm1_facc (hn : 0 < n) (v : Fin n → α) :
    (ofM (colVec v)).vector1Norm = .ok (facc (· + ·) 0 (fun k => FloatOps.abs (lin (colVec v) k)) n) := by
  unfold Mat.vector1Norm
  rw [colVec_cols hn]
  simp only [ok_bind, beq_self_eq_true, assert_true, ofM_length, Nat.mul_one]
  refine loop_facc fun i s hi => ?_
  rw [idx_lin (colVec v) (by omega)]; rfl

/-- The sum of squares of `frobenius_norm()`. -/
theorem frob_facc (A : Matrix (Fin m) (Fin n) α) :
    loop 0 (ofM A).data.length (0 : α) (fun i s => do return s + (← idx (ofM A).data i) * (← idx (ofM A).data i)) =
      .ok (fdot (lin A) (lin A) (m * n)) := by
  rw [ofM_length]
  refine loop_facc fun i s hi => ?_
  rw [idx_lin A hi]; rfl

/-- What `det()` computes from the packed factors. -/
theorem det_facc (hn : 0 < n) {A : Matrix (Fin n) (Fin n) α} {G : Nat → Nat → α} {pos : Bool} {piv : List Nat}
    (h1 : LU.new (ofM A) = .ok ⟨ofM (Matrix.of fun (i : Fin n) (j : Fin n) => G i j), pos, piv⟩) :
    (ofM A).det = .ok (facc (· * ·) (if pos = true then 1 else -1) (fun j => G j j) n) := by
  unfold Mat.det
  simp only [ofM_cols A hn, ofM_rows, ok_bind, beq_self_eq_true, assert_true, h1]
  unfold LU.det
  simp only [ofM_cols _ hn, ofM_rows, ok_bind, beq_self_eq_true, assert_true]
  refine loop_facc fun i s hi => ?_
  rw [idx_ofM _ hi hi, ok_bind]; rfl

/-- C72: `trace()` of any shape: the error is at most `((1+u)^r - 1) * ∑ |a_ii|`, `r = min m n`. -/
theorem C72_trace (hm : 0 < m) (A : Matrix (Fin m) (Fin n) α) :
    ∃ t, (ofM A).trace = .ok t ∧
      (fin t → |val t - ∑ i : Fin (min m n), val (A ⟨i.1, by omega⟩ ⟨i.1, by omega⟩)| ≤
        γ α (min m n) * ∑ i : Fin (min m n), |val (A ⟨i.1, by omega⟩ ⟨i.1, by omega⟩)|) ∧
      ((∀ i j, fin (A i j)) → (1 + u α) ^ min m n * (∑ i : Fin (min m n), |val (A ⟨i.1, by omega⟩ ⟨i.1, by omega⟩)|) ≤ Ω α → fin t) := by
  have e : ∀ g : α → ℝ, ∑ i ∈ range (min m n), g (ext A i i) = ∑ i : Fin (min m n), g (A ⟨i.1, by omega⟩ ⟨i.1, by omega⟩) := by
    intro g
    rw [sum_range]
    refine sum_congr rfl fun i _ => ?_
    rw [ext_eq A (by omega) (by omega)]
  refine ⟨facc (· + ·) 0 (fun i => ext A i i) (min m n), trace_facc hm A, fun h => ?_, fun hA h => ?_⟩
  · have := (fsum_err _ _ h).2
    rwa [e fun x => val x, e fun x => |val x|] at this
  · refine fsum_fin _ _ (fun i hi => ?_) ?_
    · rw [ext_eq A (by omega) (by omega)]; exact hA _ _
    · rwa [e fun x => |val x|]

/-- C72: `vector_1_norm()`: the relative error is at most `(1+u)^n - 1`. -/
theorem C72_norm1 (hn : 0 < n) (v : Fin n → α) :
    ∃ t, (ofM (colVec v)).vector1Norm = .ok t ∧ (fin t → |val t - (∑ i, |val (v i)|)| ≤ γ α n * ∑ i, |val (v i)|) ∧
      ((∀ i, fin (v i)) → (1 + u α) ^ n * (∑ i, |val (v i)|) ≤ Ω α → fin t) := by
  have e1 : ∀ g : α → ℝ, ∑ k ∈ range n, g (lin (colVec v) k) = ∑ i, g (v i) := by
    intro g
    have := sum_lin (colVec v) g
    rw [Nat.mul_one] at this
    rw [this]; simp [colVec]
  have hlin : ∀ i : Fin n, lin (colVec v) i = v i := fun i => by
    have := lin_rm (colVec v) i 0
    simpa [colVec] using this
  refine ⟨facc (· + ·) 0 (fun k => FloatOps.abs (lin (colVec v) k)) n, norm1_facc hn v, fun h => ?_, fun hv h => ?_⟩
  · obtain ⟨h1, h2⟩ := fsum_err _ _ h
    have hf : ∀ k ∈ range n, val (FloatOps.abs (lin (colVec v) k)) = |val (lin (colVec v) k)| := fun k hk =>
      (Fp.abs _).2 ((Fp.abs _).1.mp (h1 k (mem_range.mp hk)))
    have hf' : ∀ k ∈ range n, |val (FloatOps.abs (lin (colVec v) k))| = |val (lin (colVec v) k)| := fun k hk => by rw [hf k hk, abs_abs]
    rw [sum_congr rfl hf, sum_congr rfl hf', e1 fun x => |val x|] at h2
    exact h2
  · have hfin : ∀ k, k < n → fin (lin (colVec v) k) := fun k hk => by rw [hlin ⟨k, hk⟩]; exact hv _
    refine fsum_fin _ _ (fun k hk => (Fp.abs _).1.mpr (hfin k hk)) ?_
    rw [sum_congr rfl fun k hk => by rw [(Fp.abs _).2 (hfin k (mem_range.mp hk)), abs_abs], e1 fun x => |val x|]
    exact h

/-- C72: `frobenius_norm()`: the error is at most `(1+u)^(mn+2) - 1` relative to the norm plus the underflow term; no overflow if the
sum of the squares leaves room for the rounding errors. -/
theorem C72_frobenius (A : Matrix (Fin m) (Fin n) α) :
    ∃ t, (ofM A).frobeniusNorm = .ok t ∧
      (fin t → |val t - √(∑ i, ∑ j, val (A i j) ^ 2)| ≤
        γ α (m * n + 2) * √(∑ i, ∑ j, val (A i j) ^ 2) + (1 + u α) * √(θ α (m * n))) ∧
      ((∀ i j, fin (A i j)) → 1 ≤ Ω α / (1 + u α) →
        (1 + u α) ^ (m * n + 2) * (∑ i, ∑ j, val (A i j) ^ 2) + (1 + u α) * θ α (m * n) ≤ Ω α → fin t) := by
  obtain ⟨t, ht⟩ := Fp.sqrt_total (fdot (lin A) (lin A) (m * n))
  refine ⟨t, ?_, fun h => ?_, fun hA h1 h => ?_⟩
  · unfold Mat.frobeniusNorm
    rw [frob_facc, ok_bind, ht]
  · have := (fnorm_err _ _ _ ht h).2
    rwa [sum_lin A fun x => val x ^ 2] at this
  · refine fnorm_fin _ _ _ ht (fun k hk => ?_) h1 (by rwa [sum_lin A fun x => val x ^ 2])
    obtain ⟨i, j, hi, hj, rfl⟩ := rm_surj hk
    rw [lin_rm A ⟨i, hi⟩ ⟨j, hj⟩]; exact hA _ _

/-- C72: the Euclidean norm under its three names, likewise. -/
theorem C72_norm2 (hn : 0 < n) (v : Fin n → α) :
    ∃ t, (ofM (colVec v)).vectorEuclideanNorm = .ok t ∧ (ofM (colVec v)).vector2Norm = .ok t ∧ (ofM (colVec v)).length = .ok t ∧
      (fin t → |val t - √(∑ i, val (v i) ^ 2)| ≤ γ α (n + 2) * √(∑ i, val (v i) ^ 2) + (1 + u α) * √(θ α n)) ∧
      ((∀ i, fin (v i)) → 1 ≤ Ω α / (1 + u α) →
        (1 + u α) ^ (n + 2) * (∑ i, val (v i) ^ 2) + (1 + u α) * θ α n ≤ Ω α → fin t) := by
  obtain ⟨t, h1, h2, h3⟩ := C72_frobenius (colVec v)
  have h0 : (ofM (colVec v)).vectorEuclideanNorm = .ok t := by
    unfold Mat.vectorEuclideanNorm
    rw [colVec_cols hn]
    exact h1
  have e : ∑ i, ∑ j, val (colVec v i j) ^ 2 = ∑ i, val (v i) ^ 2 := by simp [colVec]
  rw [e, Nat.mul_one] at h2 h3
  exact ⟨t, h0, h0, h0, h2, fun hv => h3 fun i _ => hv i⟩

/-- C72: `vector_inf_norm()` of a finite vector is exact. -/
theorem C72_normInf (hn : 0 < n) (v : Fin n → α) (hv : ∀ i, fin (v i)) :
    ∃ t, (ofM (colVec v)).vectorInfNorm = .ok t ∧ fin t ∧ (∃ i, val t = |val (v i)|) ∧ ∀ i, |val (v i)| ≤ val t := by
  unfold Mat.vectorInfNorm
  rw [colVec_cols hn]
  have hidx : ∀ k (hk : k < n), idx (ofM (colVec v)).data k = .ok (v ⟨k, hk⟩) := by
    intro k hk
    have := idx_ofM (colVec v) hk Nat.one_pos
    simpa [colVec] using this
  simp only [ok_bind, beq_self_eq_true, assert_true, hidx 0 hn, ofM_length, Nat.mul_one]
  have hab : ∀ i, fin (FloatOps.abs (v i)) ∧ val (FloatOps.abs (v i)) = |val (v i)| := fun i =>
    ⟨(Fp.abs _).1.mpr (hv i), (Fp.abs _).2 (hv i)⟩
  have := loop_post (lo := 1) (hi := n) (s := FloatOps.abs (v ⟨0, hn⟩))
    (f := fun i cur => do
      let x := FloatOps.abs (← idx (ofM (colVec v)).data i)
      if FloatOps.lt cur x then return x else return cur)
    (fun k x => (∃ i, x = FloatOps.abs (v i)) ∧ ∀ i : Fin n, i.1 < k → |val (v i)| ≤ val x) hn
    ⟨⟨_, rfl⟩, fun i hi => by
      have : i = ⟨0, hn⟩ := Fin.ext (Nat.lt_one_iff.mp hi)
      rw [this, (hab _).2]⟩ (by
    rintro k x - hk ⟨⟨i0, rfl⟩, hx⟩
    simp only [hidx k hk, ok_bind]
    have hc := Fp.lt _ _ (hab i0).1 (hab ⟨k, hk⟩).1
    rw [(hab i0).2, (hab ⟨k, hk⟩).2] at hc
    rw [(hab i0).2] at hx
    by_cases hlt : |val (v i0)| < |val (v ⟨k, hk⟩)|
    · rw [if_pos (hc.mpr hlt)]
      refine Post.ok ⟨⟨_, rfl⟩, fun i hi => ?_⟩
      rw [(hab _).2]
      by_cases e : i.1 = k
      · have : i = ⟨k, hk⟩ := Fin.ext e
        rw [this]
      · exact le_of_lt (lt_of_le_of_lt (hx i (by omega)) hlt)
    · rw [if_neg (fun h => hlt (hc.mp h))]
      refine Post.ok ⟨⟨_, rfl⟩, fun i hi => ?_⟩
      rw [(hab _).2]
      by_cases e : i.1 = k
      · have : i = ⟨k, hk⟩ := Fin.ext e
        rw [this]; exact not_lt.mp hlt
      · exact hx i (by omega))
  obtain ⟨x, hx, ⟨i, rfl⟩, h2⟩ := this
  exact ⟨_, hx, (hab i).1, ⟨i, (hab i).2⟩, fun i => h2 i i.2⟩

/-! ## C73 -/

/-- C73: `hypot` of finite numbers has a small relative error, and overflows only if the true value does (up to rounding): neither
squares overflow nor underflow matters. -/
theorem C73_hypot (a b : α) (ha : fin a) (hb : fin b) (hu8 : u α ≤ 1 / 8) (hη8 : η α ≤ 1 / 8) (hΩ : 5 ≤ Ω α) :
    ∃ z : α, hypot a b = .ok z ∧ ((1 + (γ α 6 + 7 * η α)) * √(val a ^ 2 + val b ^ 2) + η α ≤ Ω α →
      fin z ∧ |val z - √(val a ^ 2 + val b ^ 2)| ≤ (γ α 6 + 7 * η α) * √(val a ^ 2 + val b ^ 2) + η α) :=
  hypot_fp a b ha hb hu8 hη8 hΩ

theorem f64_top : (2 : ℝ) ^ 1023 * (1 + 1 / 2 ^ 53) ≤ F64.top * F64.U := by
  unfold F64.top F64.U
  rw [mul_one_div, le_div_iff₀ (by positivity)]
  have e1 : (2 : ℝ) ^ 2098 = 2 ^ 53 * 2 ^ 2045 := by rw [← pow_add]
  have e2 : (2 : ℝ) ^ 1023 * (1 + 1 / 2 ^ 53) * 2 ^ 1074 = (2 ^ 52 + 1 / 2) * 2 ^ 2045 := by
    have : (2 : ℝ) ^ 2045 = 2 ^ 971 * 2 ^ 1074 := by rw [← pow_add]
    have h2 : (2 : ℝ) ^ 1023 = 2 ^ 52 * 2 ^ 971 := by rw [← pow_add]
    rw [this, h2]; ring
  rw [e1, e2]
  clear e1 e2
  have : (0 : ℝ) < 2 ^ 2045 := by positivity
  generalize (2 : ℝ) ^ 2045 = T at *
  norm_num; linarith

/-- C73 for `f64`: the relative error is below `2^-50`, the absolute one for the tiniest results below `2^-1074`, whenever the true
value is at most `2^1022`. -/
theorem C73_f64 (a b : F64) (ha : F64.isFin a) (hb : F64.isFin b) (h : √(a.toReal ^ 2 + b.toReal ^ 2) ≤ 2 ^ 1022) :
    ∃ z : F64, hypot a b = .ok z ∧ F64.isFin z ∧
      |z.toReal - √(a.toReal ^ 2 + b.toReal ^ 2)| ≤ 1 / 2 ^ 50 * √(a.toReal ^ 2 + b.toReal ^ 2) + 1 / 2 ^ 1074 := by
  have hu : u F64 = 1 / 2 ^ 53 := rfl
  have hη : η F64 = F64.U / 2 := rfl
  have hΩ : Ω F64 = F64.top * F64.U := rfl
  have hU := F64.U_pos
  have hU1 : F64.U ≤ 1 / 2 ^ 60 := by
    unfold F64.U
    exact one_div_le_one_div_of_le (by positivity) (pow_le_pow_right₀ (by norm_num) (by norm_num))
  have hγ : γ F64 6 + 7 * η F64 ≤ 1 / 2 ^ 50 := by
    have : 7 * (F64.U / 2) ≤ 7 / 2 ^ 61 := by norm_num at hU1 ⊢; linarith
    rw [hη]
    have h2 : γ F64 6 ≤ 1 / 2 ^ 50 - 7 / 2 ^ 61 := by
      unfold γ; rw [hu]; norm_num
    linarith
  have hS : 0 ≤ √(a.toReal ^ 2 + b.toReal ^ 2) := Real.sqrt_nonneg _
  have hbig : (2 : ℝ) ^ 1023 ≤ F64.top * F64.U := by
    refine le_trans ?_ f64_top
    exact le_mul_of_one_le_right (by positivity) (by norm_num)
  have h16 : (16 : ℝ) ≤ 2 ^ 1022 := by
    calc (16 : ℝ) = 2 ^ 4 := by norm_num
      _ ≤ _ := pow_le_pow_right₀ (by norm_num) (by norm_num)
  have e2 : (2 : ℝ) ^ 1023 = 2 * 2 ^ 1022 := by rw [← pow_succ']
  rw [e2] at hbig
  clear e2
  obtain ⟨z, h1, h2⟩ := C73_hypot a b ha hb (by rw [hu]; norm_num) (by rw [hη]; norm_num at hU1; linarith) (by
    rw [hΩ]
    generalize (2 : ℝ) ^ 1022 = T at *
    generalize F64.top * F64.U = W at *
    linarith)
  have hval : ∀ x : F64, val x = x.toReal := fun _ => rfl
  simp only [hval] at h2
  have hU2 : F64.U / 2 ≤ 1 := by norm_num at hU1; linarith
  obtain ⟨h3, h4⟩ := h2 (by
    rw [hΩ]
    refine le_trans ?_ hbig
    generalize (2 : ℝ) ^ 1022 = T at *
    generalize √(a.toReal ^ 2 + b.toReal ^ 2) = S at *
    have : (1 + (γ F64 6 + 7 * η F64)) * S ≤ (1 + 1 / 2 ^ 50) * T :=
      mul_le_mul (by linarith) h hS (by norm_num)
    rw [hη] at this ⊢
    norm_num at this ⊢; linarith)
  refine ⟨z, h1, h3, h4.trans ?_⟩
  have h5 := mul_le_mul_of_nonneg_right hγ hS
  have h6 : η F64 ≤ 1 / 2 ^ 1074 := by
    rw [hη]
    have : F64.U = 1 / 2 ^ 1074 := by unfold F64.U; rfl
    rw [← this]
    linarith
  linarith

/-! ## C74 -/

/-- C74: the computed determinant is, up to `n` roundings, the determinant of a matrix close to `A`: the distance is that of C62. -/
theorem C74_det (hn : 0 < n) (A : Matrix (Fin n) (Fin n) α) :
    ∃ (x : LU α) (σ : Equiv.Perm (Fin n)) (L U : Matrix (Fin n) (Fin n) α) (d : α),
      LU.new (ofM A) = .ok x ∧ x.getPiv = (List.ofFn fun i => (σ i).1) ∧ x.getL = .ok (ofM L) ∧ x.getU = .ok (ofM U) ∧
      (ofM A).det = .ok d ∧
      ((∀ i k, fin (L i k)) → (∀ k c, fin (U k c)) → fin d → ∃ E : Matrix (Fin n) (Fin n) ℝ,
        (∀ i c, |E (σ i) c| ≤ γ α (n + 1) * (∑ k, |val (L i k)| * |val (U k c)|) + θ α n + (1 + u α) * η α * ∑ k, |val (U k c)|) ∧
        |val d - (A.map val + E).det| ≤ γ α n * |(A.map val + E).det| +
          η α * ∑ j : Fin n, ∏ i ∈ univ.filter (fun i => j < i), (1 + u α) * |val (U i i)|) := by
  obtain ⟨G, σ, h1, h2⟩ := LU.Rnd.new_ofM hn hn A
  have hL' := LU.Rnd.getL_ok G hn hn (decide (Equiv.Perm.sign σ = 1)) (List.ofFn fun i => (σ i).1)
  have hU' := LU.Rnd.getU_ok G hn hn (decide (Equiv.Perm.sign σ = 1)) (List.ofFn fun i => (σ i).1)
  have hF : ∀ (hL : ∀ i k, fin (LU.Rnd.lowerA n n G i k)) (hU : ∀ k c, fin (LU.Rnd.upperA n n G k c)) (i c : Fin n),
    |val (ext A (σ i) c) - ∑ k, val (LU.Rnd.lowerA n n G i k) * val (LU.Rnd.upperA n n G k c)| ≤
      γ α (n + 1) * (∑ k, |val (LU.Rnd.lowerA n n G i k)| * |val (LU.Rnd.upperA n n G k c)|) + θ α n +
        (1 + u α) * η α * ∑ k, |val (LU.Rnd.upperA n n G k c)| := by
    have hmin : min n n = n := Nat.min_self n
    have := LU.Rnd.factor_err h2
    rw [hmin] at this
    intro hL hU
    exact (this hL hU)
  rw [Nat.min_self] at hL' hU'
  set z : α := if decide (Equiv.Perm.sign σ = 1) = true then 1 else -1 with hz
  have hd := det_facc hn h1
  refine ⟨_, σ, _, _, _, h1, rfl, hL', hU', hd, fun hL hU hd => ?_⟩
  refine ⟨Matrix.of fun i c => (∑ k, val (LU.Rnd.lowerA n n G (σ.symm i) k) * val (LU.Rnd.upperA n n G k c)) - val (A i c), fun i c => ?_, ?_⟩
  · have := hF hL hU i c
    rw [ext_fin] at this
    rw [Matrix.of_apply, Equiv.symm_apply_apply, abs_sub_comm]
    exact this
  · have hdet : (A.map val + Matrix.of fun i c => (∑ k, val (LU.Rnd.lowerA n n G (σ.symm i) k) * val (LU.Rnd.upperA n n G k c)) - val (A i c)).det =
        val z * ∏ i ∈ range n, val (G i i) := by
      have e1 : (A.map val + Matrix.of fun i c => (∑ k, val (LU.Rnd.lowerA n n G (σ.symm i) k) * val (LU.Rnd.upperA n n G k c)) - val (A i c)) =
          (((LU.Rnd.lowerA n n G).map val) * ((LU.Rnd.upperA n n G).map val)).submatrix σ.symm id := by
        ext i c
        simp [Matrix.mul_apply]
      have hl : ((LU.Rnd.lowerA n n G).map val).det = 1 := by
        rw [Matrix.det_of_isLowerTriangular]
        · exact prod_eq_one fun i _ => by simp [LU.Rnd.lowerA, Fp.one.2]
        · intro i j hij
          have : i.1 < j.1 := hij
          simp only [LU.Rnd.lowerA, Matrix.map_apply, Matrix.of_apply]
          rw [if_neg (by omega), if_neg (by omega), Fp.zero.2]
      have hu : ((LU.Rnd.upperA n n G).map val).det = ∏ i ∈ range n, val (G i i) := by
        rw [Matrix.det_of_isUpperTriangular, prod_range]
        · exact prod_congr rfl fun i _ => by simp [LU.Rnd.upperA]
        · intro i j hij
          have : j.1 < i.1 := hij
          simp only [LU.Rnd.upperA, Matrix.map_apply, Matrix.of_apply]
          rw [if_neg (by omega), Fp.zero.2]
      rw [e1, Matrix.det_permute, Matrix.det_mul, hl, hu, one_mul, Equiv.Perm.sign_symm]
      congr 1
      rw [hz]
      rcases Int.units_eq_one_or (Equiv.Perm.sign σ) with h | h <;> rw [h]
      · simp [Fp.one.2]
      · have := (Fp.neg (1 : α) Fp.one.1).2
        rw [Fp.one.2] at this
        simp [this]
    rw [hdet]
    refine (fprod_err _ _ _ hd).2.2.trans (le_of_eq ?_)
    congr 2
    rw [sum_range]
    refine sum_congr rfl fun j _ => ?_
    refine prod_bij' (fun i hi => if h : i < n then ⟨i, h⟩ else ⟨0, hn⟩) (fun i _ => i.1) ?_ ?_ ?_ ?_ ?_
    · intro i hi
      obtain ⟨h1, h2⟩ := mem_Ico.mp hi
      simp only [dif_pos h2, mem_filter, mem_univ, true_and]
      exact Fin.lt_def.mpr (by simpa using h1)
    · intro i hi
      have := (mem_filter.mp hi).2
      exact mem_Ico.mpr ⟨Fin.lt_def.mp this, i.2⟩
    · intro i hi
      obtain ⟨h1, h2⟩ := mem_Ico.mp hi
      simp [h2]
    · intro i hi; simp
    · intro i hi
      obtain ⟨h1, h2⟩ := mem_Ico.mp hi
      simp [h2, LU.Rnd.upperA]

/-- C74: `inverse()` returns `None` exactly if a computed pivot is zero; otherwise the residual `I - A X` of the computed inverse, row
by row, is at most `((1+u)^(3n+1) - 1) * |L| |U| |X|` plus the underflow term. -/
theorem C74_inverse (hn : 0 < n) (A : Matrix (Fin n) (Fin n) α) :
    ∃ (x : LU α) (σ : Equiv.Perm (Fin n)) (L U : Matrix (Fin n) (Fin n) α),
      LU.new (ofM A) = .ok x ∧ x.getPiv = (List.ofFn fun i => (σ i).1) ∧ x.getL = .ok (ofM L) ∧ x.getU = .ok (ofM U) ∧
      ((∃ i, FloatOps.eq (U i i) 0 = true) ∧ (ofM A).inverse = .ok none ∨
       (∀ i, FloatOps.eq (U i i) 0 = false) ∧ ∃ X : Matrix (Fin n) (Fin n) α, (ofM A).inverse = .ok (some (ofM X)) ∧
        ((∀ i k, fin (L i k)) → (∀ k c, fin (U k c)) → (∀ i j, fin (X i j)) → ∀ i j,
          |(1 : Matrix (Fin n) (Fin n) ℝ) (σ i) j - ∑ c, val (A (σ i) c) * val (X c j)| ≤
            γ α (3 * n + 1) * (∑ k, |val (L i k)| * ∑ c, |val (U k c)| * |val (X c j)|) +
            η α * (1 + u α) ^ (2 * n) * (n + (∑ k, |val (L i k)| * (n + |val (U k k)|)) +
              ∑ c, (n + ∑ k, |val (U k c)|) * |val (X c j)|))) := by
  have hinv : (ofM A).inverse = (ofM A).solve (ofM (1 : Matrix (Fin n) (Fin n) α)) := by
    unfold Mat.inverse Mat.solve
    simp only [ofM_cols A hn, ofM_rows, ok_bind, beq_self_eq_true, assert_true, C05_id_square]
  rw [hinv]
  obtain ⟨x, σ, L, U, h1, h2, h3, h4, h5⟩ := C63_solve hn hn A (1 : Matrix (Fin n) (Fin n) α)
  have e : ∀ i j, val ((1 : Matrix (Fin n) (Fin n) α) i j) = (1 : Matrix (Fin n) (Fin n) ℝ) i j := by
    intro i j
    by_cases h : i = j
    · subst h; rw [Matrix.one_apply_eq, Matrix.one_apply_eq, Fp.one.2]
    · rw [Matrix.one_apply_ne h, Matrix.one_apply_ne h, Fp.zero.2]
  simp only [e] at h5
  exact ⟨x, σ, L, U, h1, h2, h3, h4, h5⟩

/-! ## The hypotheses can be met -/

example : (ofM (QF.mat !![1, 2; 3, 1/3])).trace = .ok ⟨some (4/3)⟩ ∧ (ofM (QF.mat !![3, 0; 0, 4])).frobeniusNorm = .ok ⟨some 5⟩ ∧
    (ofM (colVec fun i : Fin 2 => QF.mat !![3; -4] i 0)).vector1Norm = .ok ⟨some 7⟩ ∧
    (ofM (colVec fun i : Fin 2 => QF.mat !![3; -4] i 0)).vectorInfNorm = .ok ⟨some 4⟩ ∧
    (ofM (QF.mat !![1, 2; 3, 4])).det = .ok ⟨some (-2)⟩ ∧
    (ofM (QF.mat !![1, 2; 3, 4])).inverse = .ok (some (ofM (QF.mat !![-2, 1; 3/2, -1/2]))) := by
  refine ⟨?_, ?_, ?_, ?_, ?_, ?_⟩ <;> decide +kernel

/-- `2^k` as an `f64`. -/
def two (k : Int) : F64 := if k < 0 then F64.ofRat 1 (2 ^ k.natAbs) else F64.ofRat (2 ^ k.natAbs) 1

example : hypot (two 0 + two 1) (two 2) = .ok (two 0 + two 2) ∧ (hypot (two 600) (two 600)).toOption.any (fun z => decide z.isFin) ∧
    hypot (two (-600)) 0 = .ok (two (-600)) := by
  refine ⟨?_, ?_, ?_⟩ <;> decide +kernel

/-- The conditions on the sum of squares in C72 are needed: the norms square their entries without scaling, so that a norm of `2^600`
overflows and one of `2^-600` underflows to zero. -/
example : (ofM (colVec fun _ : Fin 1 => two 600)).vectorEuclideanNorm = .ok (.inf false) ∧
    (ofM (colVec fun _ : Fin 1 => two (-600))).vectorEuclideanNorm = .ok 0 ∧ (two 600).isFin ∧ two (-600) ≠ 0 := by
  refine ⟨?_, ?_, ?_, ?_⟩ <;> decide +kernel

end LA.Props
