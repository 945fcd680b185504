import Verif.Props.EigenRounding
import Verif.Props.EigenGen
import Verif.Proofs.StdOrth3
import Mathlib.LinearAlgebra.Matrix.ToLinearEquiv
import Mathlib.LinearAlgebra.Matrix.Charpoly.Eigs

/-!
# C106: the eigenvalues of arbitrary matrices in rounded arithmetic

`Sfp α` is the standard model of floating-point arithmetic: every operation returns a number that differs from the exact result by
at most `u` times the exact result.  The theorems hold for every such arithmetic with `u ≤ 1/1000`, every square matrix that is not symmetric
(symmetric ones are the subject of C105) and not too large, and every run that returns; `fuel` bounds the number of its deflation and QR steps.
-/

set_option linter.unusedSectionVars false

namespace LA.Props
open Finset Matrix

variable {α : Type} [Zero α] [One α] [Add α] [Sub α] [Neg α] [Mul α] [FloatOps α] [Sfp α]

/-- The growth of errors in the reduction to Hessenberg form: `n` reflections from the left and from the right. -/
noncomputable def hessGrowth (u : ℝ) (n : Nat) : ℝ := (1 + 3 * ((1 - u)⁻¹ ^ (4 * n + 22) - 1)) ^ (2 * n)

/-- The growth of errors in one QR sweep or deflation: up to `n` reflections of three rows and columns, and neglected entries (the code neglects
entries below `2^-52` times their neighbours, or times the sum of the absolute values of all entries). -/
noncomputable def sweepGrowth (u : ℝ) (n : Nat) : ℝ :=
  (1 + 740 * n * ((1 - u)⁻¹ ^ 24 - 1)) ^ n *
    (1 + 13 * n * ((1 - u)⁻¹ ^ 24 - 1) + 8 * (1 / 2 ^ 52) * (14 + (1 - u)⁻¹ ^ (n * n) * n * hessGrowth u n))

/-- The relative error of the eigenvalue computation with at most `fuel` steps. -/
noncomputable def genError (u : ℝ) (n fuel : Nat) : ℝ := sweepGrowth u n ^ fuel * hessGrowth u n - 1

theorem kh_small (h : Sfp.u α ≤ 1 / 1000) : Std.kh α ≤ 1 := by
  show (1 - Sfp.u α)⁻¹ ^ 24 - 1 ≤ 1
  have h1 : (1 - Sfp.u α)⁻¹ ≤ 1000 / 999 := by
    rw [inv_le_comm₀ (by linarith) (by norm_num)]
    norm_num
    linarith
  have h2 := pow_le_pow_left₀ (inv_nonneg.2 (by linarith)) h1 24
  refine le_trans (sub_le_sub_right h2 1) (by norm_num)

/-- Everything at once. -/
theorem gen_core {n : Nat} (hu : Sfp.u α ≤ 1 / 1000) (hs : hessGrowth (Sfp.u α) n < 2) (A : Matrix (Fin n) (Fin n) α) (hA : ¬ (values A).IsSymm)
    {fuel : Nat} {x : Eigen α} (hx : Eigen.new fuel (ofM A) = .ok x) :
    ∃ (d e : Nat → α) (X : Nat → Nat → ℝ) (V : Matrix (Fin n) (Fin n) ℝ), (x.d = List.ofFn fun i : Fin n => d i) ∧
      (x.e = List.ofFn fun i : Fin n => e i) ∧ Orth V ∧ Eigen.Blk n 0 (Std.vv d) (Std.vv e) X ∧
      frob (values A - V * SVD.pk n n (Eigen.Tf (Std.vv e) X) * Vᵀ) ≤ genError (Sfp.u α) n fuel * frobenius (values A) := by
  obtain ⟨d, e, X, V, E, -, h1, h2, h3, h4, h5⟩ := Std.new_gen (A := A) hA (kh_small hu) hs hx
  refine ⟨d, e, X, SVD.pk n n V, h1, h2, h3.orth, h4, h3.err.trans ?_⟩
  have h6 : frob (Std.vm A) + E ≤ sweepGrowth (Sfp.u α) n ^ fuel * hessGrowth (Sfp.u α) n * frob (Std.vm A) := h5
  unfold genError
  rw [sub_mul, one_mul]
  show E ≤ _ * frob (Std.vm A) - frob (Std.vm A)
  linarith

/-- C106, backward stability: when `EigenDecomposition::new(A)` returns on a nonsymmetric matrix, the returned values `d + i·e` are exactly the
eigenvalues, with multiplicity, of a matrix `B` that differs from `A` by at most `genError` times the norm of `A`; complex ones come in conjugate
pairs. -/
theorem C106_eigenvalues {n : Nat} (hu : Sfp.u α ≤ 1 / 1000) (hs : hessGrowth (Sfp.u α) n < 2) (A : Matrix (Fin n) (Fin n) α)
    (hA : ¬ (values A).IsSymm) {fuel : Nat} {x : Eigen α} (hx : Eigen.new fuel (ofM A) = .ok x) :
    ∃ (d e : Nat → α) (B : Matrix (Fin n) (Fin n) ℝ),
      x.d = List.ofFn (fun i : Fin n => d i) ∧ x.e = List.ofFn (fun i : Fin n => e i) ∧
      ConjugatePairs n (fun i => Sfp.val (d i)) (fun i => Sfp.val (e i)) ∧
      frobenius (values A - B) ≤ genError (Sfp.u α) n fuel * frobenius (values A) ∧
      (B.map fun r => (r : ℂ)).charpoly = ∏ i : Fin n, (Polynomial.X - Polynomial.C (⟨Sfp.val (d i), Sfp.val (e i)⟩ : ℂ)) := by
  obtain ⟨d, e, X, V, h1, h2, h3, h4, h5⟩ := gen_core hu hs A hA hx
  refine ⟨d, e, _, h1, h2, pairs_of_blk h4, h5, ?_⟩
  have := Eigen.charpoly_Tf h4 n le_rfl (fun h => absurd (h4.neg n (Nat.zero_le _) h).2.1 (lt_irrefl _))
  rw [show (∏ i : Fin n, (Polynomial.X - Polynomial.C (⟨Sfp.val (d i), Sfp.val (e i)⟩ : ℂ))) = _ from this.symm,
    ← Eigen.charpoly_conj _ h3, ← Matrix.charpoly_map]
  rfl

/-- The Euclidean norm of a complex vector. -/
noncomputable def cNorm {n : Nat} (z : Fin n → ℂ) : ℝ := Real.sqrt (∑ i, ‖z i‖ ^ 2)

theorem cNorm_mulVec {n : Nat} (M : Matrix (Fin n) (Fin n) ℝ) (z : Fin n → ℂ) : cNorm ((M.map fun r => (r : ℂ)) *ᵥ z) ≤ frob M * cNorm z := by
  unfold cNorm
  refine Real.sqrt_le_iff.2 ⟨mul_nonneg (frob_nonneg _) (Real.sqrt_nonneg _), ?_⟩
  rw [mul_pow, frob_sq, Real.sq_sqrt (Finset.sum_nonneg fun _ _ => sq_nonneg _), Finset.sum_mul]
  refine Finset.sum_le_sum fun i _ => ?_
  have h1 : ‖((M.map fun r => (r : ℂ)) *ᵥ z) i‖ ≤ ∑ j, |M i j| * ‖z j‖ := by
    rw [Matrix.mulVec, dotProduct]
    refine (norm_sum_le _ _).trans (Finset.sum_le_sum fun j _ => ?_)
    rw [norm_mul, Matrix.map_apply, Complex.norm_real, Real.norm_eq_abs]
  refine (pow_le_pow_left₀ (norm_nonneg _) h1 2).trans ?_
  have h2 := Finset.sum_mul_sq_le_sq_mul_sq Finset.univ (fun j => |M i j|) fun j => ‖z j‖
  simpa only [sq_abs] using h2

/-- C106, approximate eigenvectors: for every returned value `λ = d + i·e` there is a complex vector `z ≠ 0` with `|A z - λ z|` at most `genError`
times the norm of `A` times `|z|`. -/
theorem C106_residual {n : Nat} (hu : Sfp.u α ≤ 1 / 1000) (hs : hessGrowth (Sfp.u α) n < 2) (A : Matrix (Fin n) (Fin n) α)
    (hA : ¬ (values A).IsSymm) {fuel : Nat} {x : Eigen α} (hx : Eigen.new fuel (ofM A) = .ok x) :
    ∃ d e : Fin n → α, x.d = List.ofFn d ∧ x.e = List.ofFn e ∧ ∀ i, ∃ z : Fin n → ℂ, z ≠ 0 ∧
      cNorm (((values A).map fun r => (r : ℂ)) *ᵥ z - (⟨Sfp.val (d i), Sfp.val (e i)⟩ : ℂ) • z) ≤
        genError (Sfp.u α) n fuel * frobenius (values A) * cNorm z := by
  obtain ⟨d, e, B, h1, h2, -, h3, h4⟩ := C106_eigenvalues hu hs A hA hx
  refine ⟨fun i => d i, fun i => e i, h1, h2, fun i => ?_⟩
  set l : ℂ := ⟨Sfp.val (d i), Sfp.val (e i)⟩ with hl
  have h5 : (B.map fun r => (r : ℂ)).charpoly.eval l = 0 := by
    rw [h4, Polynomial.eval_prod]
    refine Finset.prod_eq_zero (Finset.mem_univ i) ?_
    rw [Polynomial.eval_sub, Polynomial.eval_X, Polynomial.eval_C, hl, sub_self]
  rw [Matrix.eval_charpoly] at h5
  obtain ⟨z, hz, hzz⟩ := Matrix.exists_mulVec_eq_zero_iff.2 h5
  refine ⟨z, hz, ?_⟩
  have h6 : (B.map fun r => (r : ℂ)) *ᵥ z = l • z := by
    rw [Matrix.sub_mulVec, sub_eq_zero] at hzz
    rw [← hzz]
    simp [Matrix.scalar_apply, ← Matrix.smul_one_eq_diagonal, Matrix.smul_mulVec]
  have h7 : ((values A).map fun r => (r : ℂ)) *ᵥ z - l • z = ((values A - B).map fun r => (r : ℂ)) *ᵥ z := by
    rw [← h6, ← Matrix.sub_mulVec]
    congr 1
    ext a b
    simp
  rw [h7]
  exact (cNorm_mulVec _ _).trans (mul_le_mul_of_nonneg_right h3 (Real.sqrt_nonneg _))

/-- C106, trace: the returned values sum up to the trace of `A` up to rounding; the imaginary parts sum up to zero exactly. -/
theorem C106_trace {n : Nat} (hu : Sfp.u α ≤ 1 / 1000) (hs : hessGrowth (Sfp.u α) n < 2) (A : Matrix (Fin n) (Fin n) α)
    (hA : ¬ (values A).IsSymm) {fuel : Nat} {x : Eigen α} (hx : Eigen.new fuel (ofM A) = .ok x) :
    ∃ d e : Fin n → α, x.d = List.ofFn d ∧ x.e = List.ofFn e ∧ ∑ i, Sfp.val (e i) = 0 ∧
      |∑ i, Sfp.val (d i) - ∑ i, Sfp.val (A i i)| ≤ Real.sqrt n * (genError (Sfp.u α) n fuel * frobenius (values A)) := by
  obtain ⟨d, e, B, h1, h2, -, h3, h4⟩ := C106_eigenvalues hu hs A hA hx
  have h5 := Matrix.trace_eq_sum_roots_charpoly (B.map fun r => (r : ℂ))
  have e0 : ∀ f : Fin n → ℂ, (∏ i, (Polynomial.X - Polynomial.C (f i))).roots = Multiset.map f (univ : Finset (Fin n)).1 := by
    intro f
    have h3 : ∏ i, (Polynomial.X - Polynomial.C (f i)) = (Multiset.map (fun a => Polynomial.X - Polynomial.C a) (Multiset.map f (univ : Finset (Fin n)).1)).prod := by
      rw [Multiset.map_map]; rfl
    rw [h3, Polynomial.roots_multiset_prod_X_sub_C]
  rw [h4, e0] at h5
  change (B.map fun r => (r : ℂ)).trace = ∑ i : Fin n, (⟨Sfp.val (d i), Sfp.val (e i)⟩ : ℂ) at h5
  have h6 : (B.map fun r => (r : ℂ)).trace = ((B.trace : ℝ) : ℂ) := by
    simp [Matrix.trace]
  rw [h6] at h5
  have hre := congrArg Complex.re h5
  have him := congrArg Complex.im h5
  rw [Complex.re_sum] at hre
  rw [Complex.im_sum] at him
  simp only [Complex.ofReal_re, Complex.ofReal_im] at hre him
  refine ⟨fun i => d i, fun i => e i, h1, h2, him.symm, ?_⟩
  rw [← hre, abs_sub_comm, show ∑ i, Sfp.val (A i i) = (values A).trace from rfl, ← Matrix.trace_sub]
  exact (trace_le _).trans (mul_le_mul_of_nonneg_left h3 (Real.sqrt_nonneg _))

/-- C106, magnitude: no returned value exceeds the norm of `A` in modulus, up to rounding. -/
theorem C106_bound {n : Nat} (hu : Sfp.u α ≤ 1 / 1000) (hs : hessGrowth (Sfp.u α) n < 2) (A : Matrix (Fin n) (Fin n) α)
    (hA : ¬ (values A).IsSymm) {fuel : Nat} {x : Eigen α} (hx : Eigen.new fuel (ofM A) = .ok x) :
    ∃ d e : Fin n → α, x.d = List.ofFn d ∧ x.e = List.ofFn e ∧
      ∀ i, Real.sqrt (Sfp.val (d i) ^ 2 + Sfp.val (e i) ^ 2) ≤ (1 + genError (Sfp.u α) n fuel) * frobenius (values A) := by
  obtain ⟨d, e, h1, h2, h3⟩ := C106_residual hu hs A hA hx
  refine ⟨d, e, h1, h2, fun i => ?_⟩
  obtain ⟨z, hz, hzz⟩ := h3 i
  set l : ℂ := ⟨Sfp.val (d i), Sfp.val (e i)⟩ with hl
  have hn : Real.sqrt (Sfp.val (d i) ^ 2 + Sfp.val (e i) ^ 2) = ‖l‖ := by
    rw [Complex.norm_def, Complex.normSq_apply, sq, sq]
  rw [hn]
  have cs : ∀ y : Fin n → ℂ, ‖(WithLp.toLp 2 y : EuclideanSpace ℂ (Fin n))‖ = cNorm y := fun y => EuclideanSpace.norm_eq _
  have hz0 : 0 < cNorm z := by
    rw [← cs]
    refine norm_pos_iff.2 fun h => hz ?_
    simpa using h
  have h4 := cNorm_mulVec (values A) z
  have h5 : cNorm (l • z) = ‖l‖ * cNorm z := by
    rw [← cs, ← cs, WithLp.toLp_smul, norm_smul]
  have h6 : cNorm (l • z) ≤ cNorm (((values A).map fun r => (r : ℂ)) *ᵥ z) + cNorm (((values A).map fun r => (r : ℂ)) *ᵥ z - l • z) := by
    rw [← cs, ← cs, ← cs]
    have := norm_sub_le (WithLp.toLp 2 (((values A).map fun r => (r : ℂ)) *ᵥ z) : EuclideanSpace ℂ (Fin n))
      (WithLp.toLp 2 (((values A).map fun r => (r : ℂ)) *ᵥ z - l • z))
    rwa [← WithLp.toLp_sub, sub_sub_cancel] at this
  rw [h5] at h6
  refine le_of_mul_le_mul_right ?_ hz0
  change cNorm _ ≤ _ * frob (values A) * _ at hzz
  show ‖l‖ * cNorm z ≤ (1 + _) * frob (values A) * cNorm z
  have : (1 + genError (Sfp.u α) n fuel) * frob (values A) * cNorm z = frob (values A) * cNorm z + genError (Sfp.u α) n fuel * frob (values A) * cNorm z := by ring
  linarith

theorem le_exp_pow {x y : ℝ} (hx : 0 ≤ x) (h : x ≤ y) (r : Nat) : (1 + x) ^ r ≤ Real.exp (r * y) := by
  rw [Real.exp_nat_mul]
  exact pow_le_pow_left₀ (by linarith) ((by rw [add_comm]; exact Real.add_one_le_exp x : 1 + x ≤ Real.exp x).trans (Real.exp_le_exp.2 h)) r

section
variable {n : Nat}

/-- For `u = 2^-53` the sizes met in practice are small enough. -/
theorem hess_bound (hn : 18500 * (n : ℝ) ^ 2 ≤ 2 ^ 53) :
    3 * ((1 - 1 / 2 ^ 53 : ℝ)⁻¹ ^ (4 * n + 22) - 1) ≤ (25 * n + 133) / 2 ^ 53 ∧ hessGrowth (1 / 2 ^ 53) n < 2 := by
  have e : (1 - 1 / 2 ^ 53 : ℝ)⁻¹ = 1 + 1 / (2 ^ 53 - 1) := by norm_num
  have hN0 : (0 : ℝ) ≤ n := Nat.cast_nonneg _
  have hN : (n : ℝ) ≤ 1000000 := by
    by_contra h
    push Not at h
    have : (1000000 : ℝ) ^ 2 ≤ (n : ℝ) ^ 2 := pow_le_pow_left₀ (by norm_num) h.le 2
    norm_num at hn this
    linarith
  have h1 := pow_bound (x := 1 / (2 ^ 53 - 1)) (by norm_num) (r := 4 * n + 22) (by push_cast; norm_num; linarith)
  have h2 : 3 * ((1 - 1 / 2 ^ 53 : ℝ)⁻¹ ^ (4 * n + 22) - 1) ≤ (25 * n + 133) / 2 ^ 53 := by
    rw [e]
    push_cast at h1
    norm_num at h1 ⊢
    linarith
  refine ⟨h2, ?_⟩
  unfold hessGrowth
  have h0 : 0 ≤ 3 * ((1 - 1 / 2 ^ 53 : ℝ)⁻¹ ^ (4 * n + 22) - 1) := by
    have := one_le_pow₀ (n := 4 * n + 22) (show (1 : ℝ) ≤ (1 - 1 / 2 ^ 53)⁻¹ by norm_num)
    linarith
  have h3 : ((2 * n : Nat) : ℝ) * (3 * ((1 - 1 / 2 ^ 53 : ℝ)⁻¹ ^ (4 * n + 22) - 1)) ≤ 1 / 50 := by
    have h4 := mul_le_mul_of_nonneg_left h2 (show (0 : ℝ) ≤ ((2 * n : Nat) : ℝ) by positivity)
    refine h4.trans ?_
    push_cast
    have h5 : (2 * n : ℝ) * ((25 * n + 133) / 2 ^ 53) = (50 * (n : ℝ) ^ 2 + 266 * n) / 2 ^ 53 := by ring
    rw [h5]
    norm_num at hn ⊢
    linarith
  have h4 := pow_bound h0 (r := 2 * n) (h3.trans (by norm_num))
  linarith

theorem sweep_bound (hn : 18500 * (n : ℝ) ^ 2 ≤ 2 ^ 53) (h1 : 1 ≤ n) (fuel : Nat) :
    genError (1 / 2 ^ 53) n fuel ≤ Real.exp ((fuel + 1) * (n : ℝ) ^ 2 * 18500 / 2 ^ 53) - 1 := by
  obtain ⟨k1, k2⟩ := hess_bound hn
  have e : (1 - 1 / 2 ^ 53 : ℝ)⁻¹ = 1 + 1 / (2 ^ 53 - 1) := by norm_num
  have hN1 : (1 : ℝ) ≤ n := by exact_mod_cast h1
  have hsq : (n : ℝ) ≤ (n : ℝ) ^ 2 := by rw [sq]; exact le_mul_of_one_le_left (by linarith) hN1
  have hg1 : 1 ≤ (1 - 1 / 2 ^ 53 : ℝ)⁻¹ := by norm_num
  set kh : ℝ := (1 - 1 / 2 ^ 53 : ℝ)⁻¹ ^ 24 - 1 with hkh
  have hk0 : 0 ≤ kh := sub_nonneg.2 (one_le_pow₀ hg1)
  have hk : kh ≤ 241 / 10 / 2 ^ 53 := by rw [hkh, e]; norm_num
  have hh0 : 0 ≤ 3 * ((1 - 1 / 2 ^ 53 : ℝ)⁻¹ ^ (4 * n + 22) - 1) := by
    have := one_le_pow₀ (n := 4 * n + 22) hg1
    linarith
  have hh1 : 1 ≤ hessGrowth (1 / 2 ^ 53) n := by
    unfold hessGrowth
    exact one_le_pow₀ (by linarith)
  have hw : (1 - 1 / 2 ^ 53 : ℝ)⁻¹ ^ (n * n) ≤ 2 := by
    rw [e]
    have hx : (n : ℝ) ^ 2 * (1 / (2 ^ 53 - 1)) ≤ 1 / 2 := by norm_num at hn ⊢; linarith
    have hx0 : (0 : ℝ) ≤ 1 / (2 ^ 53 - 1) := by norm_num
    generalize (1 / (2 ^ 53 - 1) : ℝ) = x at hx hx0
    have e2 : ((n * n : Nat) : ℝ) * x = (n : ℝ) ^ 2 * x := by push_cast; ring
    have := pow_bound hx0 (r := n * n) (by rw [e2]; linarith)
    linarith
  have hw1 : 1 ≤ (1 - 1 / 2 ^ 53 : ℝ)⁻¹ ^ (n * n) := one_le_pow₀ hg1
  have hNb : (1 - 1 / 2 ^ 53 : ℝ)⁻¹ ^ (n * n) * n * hessGrowth (1 / 2 ^ 53) n ≤ 4 * n := by
    have a1 : (1 - 1 / 2 ^ 53 : ℝ)⁻¹ ^ (n * n) * n ≤ 2 * n := mul_le_mul_of_nonneg_right hw (by linarith)
    have a2 := mul_le_mul a1 k2.le (by linarith) (by linarith)
    linarith
  have hN0 : 0 ≤ (1 - 1 / 2 ^ 53 : ℝ)⁻¹ ^ (n * n) * n * hessGrowth (1 / 2 ^ 53) n := by positivity
  have p1 : (1 + 740 * n * kh) ^ n ≤ Real.exp (n * (740 * n * (241 / 10 / 2 ^ 53))) :=
    le_exp_pow (by positivity) (mul_le_mul_of_nonneg_left hk (by positivity)) n
  set NB : ℝ := (1 - 1 / 2 ^ 53 : ℝ)⁻¹ ^ (n * n) * n * hessGrowth (1 / 2 ^ 53) n with hNB
  have p2 : 1 + 13 * n * kh + 8 * (1 / 2 ^ 52) * (14 + NB) ≤ Real.exp ((378 * n + 224) / 2 ^ 53) := by
    have a1 := mul_le_mul_of_nonneg_left hk (show (0 : ℝ) ≤ 13 * n by positivity)
    have a2 := Real.add_one_le_exp ((378 * n + 224) / 2 ^ 53 : ℝ)
    refine le_trans ?_ a2
    clear_value NB kh
    clear hNB hkh
    norm_num at a1 ⊢
    linarith
  have p3 : sweepGrowth (1 / 2 ^ 53) n ≤ Real.exp ((n : ℝ) ^ 2 * 18440 / 2 ^ 53) := by
    have a1 : sweepGrowth (1 / 2 ^ 53) n = (1 + 740 * n * kh) ^ n * (1 + 13 * n * kh + 8 * (1 / 2 ^ 52) * (14 + NB)) := rfl
    rw [a1]
    refine (mul_le_mul p1 p2 (by positivity) (Real.exp_pos _).le).trans ?_
    rw [← Real.exp_add]
    refine Real.exp_le_exp.2 ?_
    have a2 : (n : ℝ) * (740 * n * (241 / 10 / 2 ^ 53)) + (378 * n + 224) / 2 ^ 53 = (17834 * (n : ℝ) ^ 2 + (378 * n + 224)) / 2 ^ 53 := by ring
    rw [a2]
    refine div_le_div_of_nonneg_right ?_ (by norm_num)
    linarith
  have p4 : hessGrowth (1 / 2 ^ 53) n ≤ Real.exp ((n : ℝ) ^ 2 * 316 / 2 ^ 53) := by
    unfold hessGrowth
    refine (le_exp_pow hh0 k1 (2 * n)).trans (Real.exp_le_exp.2 ?_)
    push_cast
    have a2 : (2 * (n : ℝ)) * ((25 * n + 133) / 2 ^ 53) = (50 * (n : ℝ) ^ 2 + 266 * n) / 2 ^ 53 := by ring
    rw [a2]
    refine div_le_div_of_nonneg_right ?_ (by norm_num)
    linarith
  have hs0 : 0 ≤ sweepGrowth (1 / 2 ^ 53) n := by
    have a1 : sweepGrowth (1 / 2 ^ 53) n = (1 + 740 * n * kh) ^ n * (1 + 13 * n * kh + 8 * (1 / 2 ^ 52) * (14 + NB)) := rfl
    rw [a1]
    positivity
  have p5 := pow_le_pow_left₀ hs0 p3 fuel
  rw [← Real.exp_nat_mul] at p5
  unfold genError
  refine sub_le_sub_right ((mul_le_mul p5 p4 (by linarith) (Real.exp_pos _).le).trans ?_) 1
  rw [← Real.exp_add]
  refine Real.exp_le_exp.2 ?_
  have hf : (0 : ℝ) ≤ fuel := Nat.cast_nonneg _
  have a3 : (fuel : ℝ) * ((n : ℝ) ^ 2 * 18440 / 2 ^ 53) + (n : ℝ) ^ 2 * 316 / 2 ^ 53 = ((fuel * (n : ℝ) ^ 2) * 18440 + (n : ℝ) ^ 2 * 316) / 2 ^ 53 := by ring
  rw [a3]
  refine div_le_div_of_nonneg_right ?_ (by norm_num)
  have : 0 ≤ fuel * (n : ℝ) ^ 2 := by positivity
  have : 0 ≤ (n : ℝ) ^ 2 := by positivity
  linarith

/-- C106, `f64` without overflow and underflow: the hypothesis `hessGrowth < 2` holds, and the relative error is at most
`18500 · (fuel + 1) · n² · 2^-52`, as long as this is at most 2. -/
theorem C106_double (h1 : 1 ≤ n) {fuel : Nat} (h : ((18500 * (fuel + 1) * n ^ 2 : Nat) : ℝ) ≤ 2 ^ 53) :
    Sfp.u Fu ≤ 1 / 1000 ∧ hessGrowth (Sfp.u Fu) n < 2 ∧ genError (Sfp.u Fu) n fuel ≤ ((18500 * (fuel + 1) * n ^ 2 : Nat) : ℝ) / 2 ^ 52 := by
  show (1 / 2 ^ 53 : ℝ) ≤ 1 / 1000 ∧ hessGrowth (1 / 2 ^ 53) n < 2 ∧ genError (1 / 2 ^ 53) n fuel ≤ _
  have e : ((18500 * (fuel + 1) * n ^ 2 : Nat) : ℝ) = (fuel + 1) * (n : ℝ) ^ 2 * 18500 := by push_cast; ring
  rw [e] at h ⊢
  have hq : 0 ≤ fuel * (n : ℝ) ^ 2 := by positivity
  have hn : 18500 * (n : ℝ) ^ 2 ≤ 2 ^ 53 := le_trans (by linarith) h
  refine ⟨by norm_num, (hess_bound hn).2, (sweep_bound hn h1 fuel).trans ?_⟩
  set S : ℝ := (fuel + 1) * (n : ℝ) ^ 2 * 18500 with hS
  have hS0 : 0 ≤ S := by positivity
  have hx0 : 0 ≤ S / 2 ^ 53 := by positivity
  have hx1 : S / 2 ^ 53 ≤ 1 := by rw [div_le_one (by norm_num)]; exact h
  have h2 := Real.abs_exp_sub_one_sub_id_le (x := S / 2 ^ 53) (by rw [abs_of_nonneg hx0]; exact hx1)
  have h3 := (abs_le.1 h2).2
  have h4 : (S / 2 ^ 53) ^ 2 ≤ S / 2 ^ 53 := by rw [sq]; exact mul_le_of_le_one_left hx0 hx1
  have h5 : S / 2 ^ 52 = S / 2 ^ 53 + S / 2 ^ 53 := by ring
  rw [h5]
  linarith

end

/-- A matrix of the unbounded format with two complex eigenvalues. -/
def sampleGen : Matrix (Fin 3) (Fin 3) Fu := !![⟨1⟩, ⟨4⟩, ⟨-2⟩; ⟨-3⟩, ⟨7 / 2⟩, ⟨5⟩; ⟨2⟩, ⟨-5⟩, ⟨1 / 8⟩]

theorem sampleGen_nonsym : ¬ (values sampleGen).IsSymm := by
  intro h
  have h1 : (4 : ℚ) = -3 := Rat.cast_injective (α := ℝ) (h.apply 1 0)
  norm_num at h1

/-- The run needs more than three sweeps in all, and returns with ten; two of the returned values are not real. -/
theorem sampleGen_runs : (∃ x, Eigen.new 10 (ofM sampleGen) = .ok x ∧ ∃ y ∈ x.e, y ≠ ⟨0⟩) ∧ Eigen.new 3 (ofM sampleGen) = .error .fuel := by
  have h1 : (match Eigen.new 10 (ofM sampleGen) with | .ok x => x.e.any fun y => decide (y.q ≠ 0) | .error _ => false) = true := by
    decide +kernel
  have h2 : (match Eigen.new 3 (ofM sampleGen) with | .error .fuel => true | _ => false) = true := by decide +kernel
  refine ⟨?_, ?_⟩
  · rcases h : Eigen.new 10 (ofM sampleGen) with _ | x
    · rw [h] at h1; cases h1
    · rw [h] at h1
      obtain ⟨y, hy, hy0⟩ := List.any_eq_true.1 h1
      exact ⟨x, rfl, y, hy, fun hc => of_decide_eq_true hy0 (by rw [hc])⟩
  · rcases h : Eigen.new 3 (ofM sampleGen) with e | x
    · rw [h] at h2
      cases e <;> first | rfl | cases h2
    · rw [h] at h2; cases h2

/-- The hypotheses are met: the rounded arithmetic decomposes a nonsymmetric 3 × 3 matrix, and the returned values are the eigenvalues of a nearby
matrix (the numbers of `C106_double`). -/
example : ∃ (x : Eigen Fu) (d e : Nat → Fu) (B : Matrix (Fin 3) (Fin 3) ℝ), Eigen.new 10 (ofM sampleGen) = .ok x ∧
    x.d = List.ofFn (fun i : Fin 3 => d i) ∧ x.e = List.ofFn (fun i : Fin 3 => e i) ∧
    frobenius (values sampleGen - B) ≤ 1 / 2 ^ 30 * frobenius (values sampleGen) ∧
    (B.map fun r => (r : ℂ)).charpoly = ∏ i : Fin 3, (Polynomial.X - Polynomial.C (⟨Sfp.val (d i), Sfp.val (e i)⟩ : ℂ)) := by
  obtain ⟨x, hx, -⟩ := sampleGen_runs.1
  obtain ⟨c1, c2, c3⟩ := C106_double (n := 3) (fuel := 10) (by norm_num) (by norm_num)
  obtain ⟨d, e, B, h1, h2, -, h3, h4⟩ := C106_eigenvalues c1 c2 sampleGen sampleGen_nonsym hx
  refine ⟨x, d, e, B, hx, h1, h2, h3.trans (mul_le_mul_of_nonneg_right ?_ (frob_nonneg _)), h4⟩
  refine c3.trans ?_
  norm_num

end LA.Props
