import Verif.Props.SVDRounding
import Verif.Props.Spectrum
import Verif.Proofs.StdEigNew
import Verif.Proofs.EigDiag2

/-!
# C105: the eigendecomposition of symmetric matrices in rounded arithmetic

`Sfp α` is the standard model of floating-point arithmetic: every operation returns a number that differs from the exact result by
at most `u` times the exact result.  The theorems hold for every such arithmetic with `u ≤ 1/1000`, every symmetric matrix and every budget
`fuel` of the iterations for one eigenvalue.  `LA.Fu` (53 significant bits, unbounded exponent range) is such an arithmetic with `u = 2^-53`.
-/

set_option linter.unusedSectionVars false

namespace LA.Props
open Finset Matrix

variable {α : Type} [Zero α] [One α] [Add α] [Sub α] [Neg α] [Mul α] [FloatOps α] [Sfp α]

/-- The relative error of one reflection, rotation or shift of an `n × n` matrix, and of neglecting a small entry (the code neglects entries below
`2^-52` times the largest entries met). -/
noncomputable def eigStep (u : ℝ) (n : Nat) : ℝ :=
  10 * ((1 - u)⁻¹ ^ (8 * n + 46) - 1) + 200 * ((1 - u)⁻¹ ^ 20 - 1) + 50 * (n * ((1 - u)⁻¹ ^ 20 - 1)) + 1 / 2 ^ 47

/-- The relative error of the whole decomposition of an `n × n` matrix with at most `fuel` iterations for one eigenvalue. -/
noncomputable def eigError (u : ℝ) (n fuel : Nat) : ℝ := (1 + eigStep u n) ^ (n * (fuel * (n + 1) + 4)) - 1

theorem kae_eigStep (n : Nat) : Std.kae α n = eigStep (Sfp.u α) n := rfl

theorem kq_small (h : Sfp.u α ≤ 1 / 1000) : Std.kq α ≤ 1 / 40 := by
  show (1 - Sfp.u α)⁻¹ ^ 20 - 1 ≤ 1 / 40
  have h1 : (1 - Sfp.u α)⁻¹ ≤ 1000 / 999 := by
    rw [inv_le_comm₀ (by linarith) (by norm_num)]
    norm_num
    linarith
  have h2 := pow_le_pow_left₀ (inv_nonneg.2 (by linarith)) h1 20
  refine le_trans (sub_le_sub_right h2 1) (by norm_num)

theorem eigStep_nonneg (h : Sfp.u α ≤ 1 / 1000) (n : Nat) : 0 ≤ eigStep (Sfp.u α) n := by
  rw [← kae_eigStep]
  exact (Std.kae_ok n (kq_small h)).nonneg

theorem eigError_nonneg (h : Sfp.u α ≤ 1 / 1000) (n fuel : Nat) : 0 ≤ eigError (Sfp.u α) n fuel :=
  sub_nonneg.2 (one_le_pow₀ (by linarith [eigStep_nonneg h n]))

/-- C105: in rounded arithmetic `EigenDecomposition::new` of a symmetric matrix neither panics nor divides by zero nor takes the root of a negative
number: it returns a decomposition, or its budget of iterations is exhausted. -/
theorem C105_no_panic {n : Nat} (hn : 0 < n) (hu : Sfp.u α ≤ 1 / 1000) (A : Matrix (Fin n) (Fin n) α) (hA : (values A).IsSymm) (fuel : Nat) :
    (∃ x, Eigen.new fuel (ofM A) = .ok x) ∨ Eigen.new fuel (ofM A) = .error .fuel := by
  rcases Std.new_symm hn (A := A) hA (kq_small hu) fuel with h | ⟨x, h, -⟩
  · exact Or.inr h
  · exact Or.inl ⟨_, h⟩

/-- C105, backward stability: what `EigenDecomposition::new` returns for a symmetric `A` is, up to a relative error `eigError` in `V`, the exact
eigendecomposition of a matrix that differs from `A` by at most `eigError` times the norm of `A`; the imaginary parts are zero, the eigenvalues are
sorted in decreasing order, and `get_d()` is their diagonal matrix. -/
theorem C105_backward {n : Nat} (hn : 0 < n) (hu : Sfp.u α ≤ 1 / 1000) (A : Matrix (Fin n) (Fin n) α) (hA : (values A).IsSymm) {fuel : Nat} {x : Eigen α}
    (hx : Eigen.new fuel (ofM A) = .ok x) :
    ∃ (V : Matrix (Fin n) (Fin n) α) (d e : Fin n → α), x = ⟨n, List.ofFn d, List.ofFn e, ofM V⟩ ∧ (∀ i, Sfp.val (e i) = 0) ∧
      x.getD = .ok (ofM (Matrix.diagonal d)) ∧ (∀ i j, i ≤ j → Sfp.val (d j) ≤ Sfp.val (d i)) ∧
      ∃ Q, Orthogonal Q ∧ frobenius (values V - Q) ≤ eigError (Sfp.u α) n fuel * Real.sqrt n ∧
        frobenius (values A - Q * Matrix.diagonal (fun i => Sfp.val (d i)) * Qᵀ) ≤ eigError (Sfp.u α) n fuel * frobenius (values A) := by
  rcases Std.new_symm hn (A := A) hA (kq_small hu) fuel with h | ⟨x', h, V, δ, ε, rfl, he, hG⟩
  · rw [hx] at h; cases h
  rw [hx] at h
  cases h
  obtain ⟨Q, hQ, h1, h2⟩ := hG.near
  refine ⟨V, fun i => δ i, fun i => ε i, rfl, fun i => he i i.2, ?_, ?_, Q, hQ, h1, h2⟩
  · refine Eigen.getD_none hn _ _ (fun i => ?_) (fun i => ?_) _
    · rw [← Bool.not_eq_true, Sfp.lt, he i i.2, Sfp.zero]; exact lt_irrefl _
    · rw [← Bool.not_eq_true, Sfp.lt, he i i.2, Sfp.zero]; exact lt_irrefl _
  · intro i j hij
    rcases lt_or_eq_of_le hij with h | h
    · exact hG.ord i j h j.2
    · rw [h]

/-- C105, orthogonality: the computed eigenvectors are orthonormal up to rounding. -/
theorem C105_orthogonal {n : Nat} (hn : 0 < n) (hu : Sfp.u α ≤ 1 / 1000) (A : Matrix (Fin n) (Fin n) α) (hA : (values A).IsSymm) {fuel : Nat}
    {x : Eigen α} (hx : Eigen.new fuel (ofM A) = .ok x) :
    ∃ V : Matrix (Fin n) (Fin n) α, x.v = ofM V ∧ frobenius ((values V)ᵀ * values V - 1) ≤
      2 * (eigError (Sfp.u α) n fuel * Real.sqrt n) + (eigError (Sfp.u α) n fuel * Real.sqrt n) ^ 2 := by
  obtain ⟨V, d, e, rfl, -, -, -, Q, hQ, h1, -⟩ := C105_backward hn hu A hA hx
  exact ⟨V, rfl, near_orth hQ h1⟩

theorem values_diagonal {n : Nat} (d : Fin n → α) : values (Matrix.diagonal d) = Matrix.diagonal fun i => Sfp.val (d i) := by
  ext i j
  show Sfp.val (Matrix.diagonal d i j) = _
  rw [diagonal_apply, diagonal_apply]
  split
  · rfl
  · exact Sfp.zero

/-- C105, residual: the exact product `V D V'` of the computed factors is `A` up to rounding. -/
theorem C105_residual {n : Nat} (hn : 0 < n) (hu : Sfp.u α ≤ 1 / 1000) (A : Matrix (Fin n) (Fin n) α) (hA : (values A).IsSymm) {fuel : Nat}
    {x : Eigen α} (hx : Eigen.new fuel (ofM A) = .ok x) :
    ∃ V D : Matrix (Fin n) (Fin n) α, x.v = ofM V ∧ x.getD = .ok (ofM D) ∧ frobenius (values V * values D * (values V)ᵀ - values A) ≤
      ((1 + eigError (Sfp.u α) n fuel * Real.sqrt n) ^ 2 * (1 + eigError (Sfp.u α) n fuel) - 1) * frobenius (values A) := by
  obtain ⟨V, d, e, rfl, -, hd, -, Q, hQ, h2, h3⟩ := C105_backward hn hu A hA hx
  refine ⟨V, _, rfl, hd, ?_⟩
  rw [values_diagonal]
  have hδ := eigError_nonneg hu n fuel
  set δ := eigError (Sfp.u α) n fuel
  set S := Matrix.diagonal (fun i => Sfp.val (d i))
  set b := δ * Real.sqrt n with hb
  have hb0 : 0 ≤ b := mul_nonneg hδ (Real.sqrt_nonneg _)
  set t : ℝ := frobenius (values A) with ht
  have ht0 : 0 ≤ t := frob_nonneg _
  change frob (values V - Q) ≤ b at h2
  change frob (values A - Q * S * Qᵀ) ≤ δ * t at h3
  change frob (values V * S * (values V)ᵀ - values A) ≤ ((1 + b) ^ 2 * (1 + δ) - 1) * t
  have hS : frob S ≤ (1 + δ) * t := by
    have e1 : frob S = frob (Q * S * Qᵀ) := by rw [frob_mul_right _ hQ, frob_mul_left _ hQ]
    have e2 : Q * S * Qᵀ = values A - (values A - Q * S * Qᵀ) := by abel
    rw [e1, e2]
    refine (frob_sub_le _ _).trans ?_
    change t + _ ≤ _
    linarith
  set F := values V - Q with hF
  have hV : values V = Q + F := by rw [hF]; abel
  have e : values V * S * (values V)ᵀ - values A = F * S * Qᵀ + Q * (S * Fᵀ) + F * S * Fᵀ - (values A - Q * S * Qᵀ) := by
    rw [hV, transpose_add, Matrix.mul_add, Matrix.add_mul, Matrix.add_mul, Matrix.add_mul, Matrix.mul_assoc Q S Fᵀ]
    abel
  rw [e]
  have q1 := frob_sub_le (F * S * Qᵀ + Q * (S * Fᵀ) + F * S * Fᵀ) (values A - Q * S * Qᵀ)
  have q2 := frob_add_le (F * S * Qᵀ + Q * (S * Fᵀ)) (F * S * Fᵀ)
  have q3 := frob_add_le (F * S * Qᵀ) (Q * (S * Fᵀ))
  rw [frob_mul_right _ hQ, frob_mul_left _ hQ] at q3
  have q4 := frob_mul_le F S
  have q5 := frob_mul_le S Fᵀ
  have q6 := frob_mul_le (F * S) Fᵀ
  rw [frob_transpose] at q5 q6
  have p0 := frob_nonneg S
  have p2 := frob_nonneg F
  have r1 : frob F * frob S ≤ b * ((1 + δ) * t) := mul_le_mul h2 hS p0 hb0
  have r3 : frob (F * S) * frob F ≤ (b * ((1 + δ) * t)) * b :=
    mul_le_mul (q4.trans r1) h2 p2 (mul_nonneg hb0 (mul_nonneg (by linarith) ht0))
  have : ((1 + b) ^ 2 * (1 + δ) - 1) * t = b * ((1 + δ) * t) + b * ((1 + δ) * t) + (b * ((1 + δ) * t)) * b + δ * t := by ring
  rw [this]
  rw [mul_comm (frob S)] at q5
  linarith

/-- C105, eigenvectors: up to rounding, `A` maps the `j`-th column of `V` to the `j`-th eigenvalue times that column. -/
theorem C105_vectors {n : Nat} (hn : 0 < n) (hu : Sfp.u α ≤ 1 / 1000) (A : Matrix (Fin n) (Fin n) α) (hA : (values A).IsSymm) {fuel : Nat}
    {x : Eigen α} (hx : Eigen.new fuel (ofM A) = .ok x) :
    ∃ V D : Matrix (Fin n) (Fin n) α, x.v = ofM V ∧ x.getD = .ok (ofM D) ∧ frobenius (values A * values V - values V * values D) ≤
      ((1 + eigError (Sfp.u α) n fuel * Real.sqrt n) * (1 + eigError (Sfp.u α) n fuel) - 1 + eigError (Sfp.u α) n fuel * Real.sqrt n) *
        frobenius (values A) := by
  obtain ⟨V, d, e, rfl, -, hd, -, Q, hQ, h2, h3⟩ := C105_backward hn hu A hA hx
  refine ⟨V, _, rfl, hd, ?_⟩
  rw [values_diagonal]
  have hδ := eigError_nonneg hu n fuel
  set δ := eigError (Sfp.u α) n fuel
  set S := Matrix.diagonal (fun i => Sfp.val (d i))
  set b := δ * Real.sqrt n with hb
  have hb0 : 0 ≤ b := mul_nonneg hδ (Real.sqrt_nonneg _)
  set t : ℝ := frobenius (values A) with ht
  have ht0 : 0 ≤ t := frob_nonneg _
  change frob (values V - Q) ≤ b at h2
  change frob (values A - Q * S * Qᵀ) ≤ δ * t at h3
  change frob (values A * values V - values V * S) ≤ ((1 + b) * (1 + δ) - 1 + b) * t
  have hS : frob S ≤ (1 + δ) * t := by
    have e1 : frob S = frob (Q * S * Qᵀ) := by rw [frob_mul_right _ hQ, frob_mul_left _ hQ]
    have e2 : Q * S * Qᵀ = values A - (values A - Q * S * Qᵀ) := by abel
    rw [e1, e2]
    refine (frob_sub_le _ _).trans ?_
    change t + _ ≤ _
    linarith
  set F := values V - Q with hF
  have e : values A * values V - values V * S = (values A - Q * S * Qᵀ) * Q + values A * F - F * S := by
    rw [hF, Matrix.sub_mul, Matrix.mul_sub, Matrix.mul_assoc (Q * S), show Qᵀ * Q = 1 from hQ, Matrix.mul_one, Matrix.sub_mul]
    abel
  rw [e]
  have q1 := frob_sub_le ((values A - Q * S * Qᵀ) * Q + values A * F) (F * S)
  have q2 := frob_add_le ((values A - Q * S * Qᵀ) * Q) (values A * F)
  rw [frob_mul_orth _ hQ] at q2
  have q4 := frob_mul_le F S
  have q5 := frob_mul_le (values A) F
  have r1 : frob F * frob S ≤ b * ((1 + δ) * t) := mul_le_mul h2 hS (frob_nonneg _) hb0
  have r2 : frob (values A) * frob F ≤ t * b := mul_le_mul le_rfl h2 (frob_nonneg _) ht0
  have : ((1 + b) * (1 + δ) - 1 + b) * t = b * ((1 + δ) * t) + t * b + δ * t := by ring
  rw [this]
  exact le_trans q1 (by linarith)

/-- C105, eigenvalues: the `k`-th returned value is the `k`-th largest eigenvalue `l k` of `A` (the roots of the characteristic polynomial with
multiplicity, in decreasing order) up to rounding. -/
theorem C105_eigenvalues {n : Nat} (hn : 0 < n) (hu : Sfp.u α ≤ 1 / 1000) (A : Matrix (Fin n) (Fin n) α) (hA : (values A).IsSymm) {fuel : Nat}
    {x : Eigen α} (hx : Eigen.new fuel (ofM A) = .ok x) :
    ∃ (d : Fin n → α) (l : Fin n → ℝ), x.d = List.ofFn d ∧ Antitone l ∧ (values A).charpoly = ∏ i, (Polynomial.X - Polynomial.C (l i)) ∧
      ∀ k, |Sfp.val (d k) - l k| ≤ eigError (Sfp.u α) n fuel * frobenius (values A) := by
  obtain ⟨V, d, e, rfl, -, -, ho, Q, hQ, -, h3⟩ := C105_backward hn hu A hA hx
  obtain ⟨W, l, hW, hl, hAl⟩ := spectral hA
  refine ⟨d, l, rfl, hl, by conv_lhs => rw [hAl, charpoly_conj hW, Matrix.charpoly_diagonal], fun k => ?_⟩
  set l' : Nat → ℝ := fun i => if h : i < n then l ⟨i, h⟩ else 0 with hl'
  set δ : Nat → ℝ := fun i => if h : i < n then Sfp.val (d ⟨i, h⟩) else 0 with hδ
  have e1 : (fun i : Fin n => l' i) = l := by
    funext i
    simp only [hl', dif_pos i.2]
  have e3 : (fun i : Fin n => δ i) = fun i => Sfp.val (d i) := by
    funext i
    simp only [hδ, dif_pos i.2]
  have h1 := weyl_sym (l := l') (d := δ) hW hQ (fun i j hij hj => by
    simp only [hl', dif_pos hj, dif_pos (show i < n by omega)]
    exact hl (show (⟨i, by omega⟩ : Fin n) ≤ ⟨j, hj⟩ from hij)) (fun i j hij hj => by
    simp only [hδ, dif_pos hj, dif_pos (show i < n by omega)]
    exact ho _ _ (show (⟨i, by omega⟩ : Fin n) ≤ ⟨j, hj⟩ from hij)) k.2
  rw [e1, ← hAl, e3] at h1
  have e2 : l' k = l k := by simp only [hl', dif_pos k.2]
  have e4 : δ k = Sfp.val (d k) := by simp only [hδ, dif_pos k.2]
  rw [e2, e4] at h1
  exact h1.trans h3

/-- C105, trace: the computed eigenvalues sum up to the trace of `A`, up to rounding. -/
theorem C105_trace {n : Nat} (hn : 0 < n) (hu : Sfp.u α ≤ 1 / 1000) (A : Matrix (Fin n) (Fin n) α) (hA : (values A).IsSymm) {fuel : Nat}
    {x : Eigen α} (hx : Eigen.new fuel (ofM A) = .ok x) :
    ∃ d : Fin n → α, x.d = List.ofFn d ∧
      |∑ i, Sfp.val (d i) - ∑ i, Sfp.val (A i i)| ≤ Real.sqrt n * (eigError (Sfp.u α) n fuel * frobenius (values A)) := by
  obtain ⟨V, d, e, rfl, -, -, ho, Q, hQ, -, h3⟩ := C105_backward hn hu A hA hx
  refine ⟨d, rfl, ?_⟩
  have h1 := trace_le (values A - Q * Matrix.diagonal (fun i => Sfp.val (d i)) * Qᵀ)
  rw [Matrix.trace_sub, Matrix.trace_mul_comm, ← Matrix.mul_assoc, show Qᵀ * Q = 1 from hQ, Matrix.one_mul, Matrix.trace_diagonal, abs_sub_comm] at h1
  exact h1.trans (mul_le_mul_of_nonneg_left h3 (Real.sqrt_nonneg _))

theorem eigStep_bound {n : Nat} (h : n ≤ 2 ^ 40) : eigStep (1 / 2 ^ 53) n ≤ (70 * n + 287) / 2 ^ 48 := by
  unfold eigStep
  have e : (1 - 1 / 2 ^ 53 : ℝ)⁻¹ = 1 + 1 / (2 ^ 53 - 1) := by norm_num
  rw [e]
  have hN : (n : ℝ) ≤ 1099511627776 := by exact_mod_cast h
  have hN0 : (0 : ℝ) ≤ n := Nat.cast_nonneg _
  have h1 := pow_bound (x := 1 / (2 ^ 53 - 1)) (by norm_num) (r := 8 * n + 46) (by push_cast; norm_num; linarith)
  have h2 := pow_bound (x := 1 / (2 ^ 53 - 1)) (by norm_num) (r := 20) (by norm_num)
  have h3 := mul_le_mul_of_nonneg_left h2 hN0
  push_cast at h1 h2 h3
  norm_num at h1 h2 h3 ⊢
  linarith

/-- C105, `f64` without overflow and underflow: the relative error is at most `n · (fuel · (n + 1) + 4) · (70 · n + 287) · 2^-47`. -/
theorem C105_double {n fuel : Nat} (hN : n ≤ 2 ^ 40) (h : ((n * (fuel * (n + 1) + 4) * (70 * n + 287) : Nat) : ℝ) ≤ 2 ^ 48) :
    eigError (Sfp.u Fu) n fuel ≤ ((n * (fuel * (n + 1) + 4) * (70 * n + 287) : Nat) : ℝ) / 2 ^ 47 := by
  show eigError (1 / 2 ^ 53) n fuel ≤ _
  unfold eigError
  have h1 := eigStep_bound hN
  have h0 : 0 ≤ eigStep (1 / 2 ^ 53) n := eigStep_nonneg (α := Fu) (show (1 / 2 ^ 53 : ℝ) ≤ 1 / 1000 by norm_num) n
  set r := n * (fuel * (n + 1) + 4) with hr
  set x := eigStep (1 / 2 ^ 53) n
  have h2 : (r : ℝ) * x ≤ (r : ℝ) * ((70 * n + 287) / 2 ^ 48) := mul_le_mul_of_nonneg_left h1 (Nat.cast_nonneg _)
  have e : ((r * (70 * n + 287) : Nat) : ℝ) = (r : ℝ) * (70 * n + 287) := by push_cast; ring
  rw [e] at h ⊢
  rw [← mul_div_assoc] at h2
  have h4 := pow_bound h0 (r := r) (h2.trans (by rw [div_le_one (by norm_num)]; exact h))
  norm_num at h2 h4 ⊢
  linarith

/-- The assumption that nothing underflows is needed: for `f64` and the matrix with four entries `η = 2^-1074`, the smallest subnormal number, whose
eigenvalues are `2η` and `0`, `EigenDecomposition::new` returns the eigenvalues `η` and `-3η` and the eigenvectors `(1/4, 1)` and `(-1, 1/4)`. -/
theorem C105_refuted_subnormal :
    Eigen.new 30 (ofM (Matrix.of fun (_ _ : Fin 2) => F64.ofRat 1 (2 ^ 1074))) =
      .ok ⟨2, [F64.ofRat 1 (2 ^ 1074), F64.ofRat (-3) (2 ^ 1074)], [0, 0], ofM !![F64.ofRat 1 4, -1; 1, F64.ofRat 1 4]⟩ := by decide +kernel

/-- A symmetric matrix of the unbounded format. -/
def sampleSym : Matrix (Fin 3) (Fin 3) Fu := !![⟨1⟩, ⟨4⟩, ⟨-2⟩; ⟨4⟩, ⟨7 / 2⟩, ⟨5⟩; ⟨-2⟩, ⟨5⟩, ⟨1 / 8⟩]

theorem sampleSym_symm : (values sampleSym).IsSymm := by
  have h : sampleSym.IsSymm := by
    ext i j
    fin_cases i <;> fin_cases j <;> rfl
  ext i j
  exact congrArg Sfp.val (h.apply i j)

/-- The run needs more than one iteration for some eigenvalue, and returns with ten. -/
theorem sampleSym_runs : (∃ x, Eigen.new 10 (ofM sampleSym) = .ok x) ∧ Eigen.new 1 (ofM sampleSym) = .error .fuel := by
  have h1 : (match Eigen.new 10 (ofM sampleSym) with | .ok _ => true | .error _ => false) = true := by decide +kernel
  have h2 : (match Eigen.new 1 (ofM sampleSym) with | .error .fuel => true | _ => false) = true := by decide +kernel
  refine ⟨?_, ?_⟩
  · rcases h : Eigen.new 10 (ofM sampleSym) with _ | x
    · rw [h] at h1; cases h1
    · exact ⟨x, rfl⟩
  · rcases h : Eigen.new 1 (ofM sampleSym) with e | x
    · rw [h] at h2
      cases e <;> first | rfl | cases h2
    · rw [h] at h2; cases h2

/-- The hypotheses are met: the rounded arithmetic decomposes a symmetric 3 × 3 matrix, and its eigenvalues are close to the exact ones (the numbers of
`C105_double`). -/
example : ∃ (x : Eigen Fu) (d : Fin 3 → Fu) (l : Fin 3 → ℝ), Eigen.new 10 (ofM sampleSym) = .ok x ∧ x.d = List.ofFn d ∧
    (values sampleSym).charpoly = ∏ i, (Polynomial.X - Polynomial.C (l i)) ∧
    ∀ k, |Sfp.val (d k) - l k| ≤ 1 / 2 ^ 30 * frobenius (values sampleSym) := by
  obtain ⟨x, hx⟩ := sampleSym_runs.1
  obtain ⟨d, l, h1, -, h2, h3⟩ := C105_eigenvalues (by norm_num) (show (1 / 2 ^ 53 : ℝ) ≤ 1 / 1000 by norm_num) sampleSym sampleSym_symm hx
  refine ⟨x, d, l, hx, h1, h2, fun k => (h3 k).trans (mul_le_mul_of_nonneg_right ?_ (frob_nonneg _))⟩
  have hd := C105_double (n := 3) (fuel := 10) (by norm_num) (by norm_num)
  refine hd.trans ?_
  norm_num

end LA.Props
