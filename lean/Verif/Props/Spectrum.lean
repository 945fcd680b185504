import Verif.Props.EigenGen
import Verif.Proofs.WeylSym
import Mathlib.Analysis.Complex.Polynomial.Basic

/-!
# C102: computed eigenvalues

Exact arithmetic.  `fuel` bounds the iterations; the run of `EigenDecomposition::new` returns `x` iff `Eigen.new fuel (ofM A) = .ok x` for some `fuel`.
-/

set_option linter.unusedSectionVars false

namespace LA.Props
open Finset Matrix

/-- C102: for a symmetric matrix the `k`-th returned value is the `k`-th largest eigenvalue `l k` (the roots of the characteristic polynomial with multiplicity, in
decreasing order) up to `9·n·2⁻⁵²·‖A‖`. -/
theorem C102_symmetric {n : Nat} (hn : 0 < n) (A : Matrix (Fin n) (Fin n) ℝ) (hA : A.IsSymm) {fuel : Nat} {x : Eigen ℝ}
    (hx : Eigen.new fuel (ofM A) = .ok x) :
    ∃ d l : Fin n → ℝ, x.d = List.ofFn d ∧ Antitone l ∧ A.charpoly = ∏ i, (Polynomial.X - Polynomial.C (l i)) ∧
      ∀ k, |d k - l k| ≤ 9 * n * (1 / 2 ^ 52) * frobenius A := by
  obtain ⟨N, x', ⟨V, δ, hx', hG⟩, hf⟩ := Eigen.new_symm hn hA
  have e : x = x' := by
    rcases hf fuel with h | ⟨-, h⟩
    · exact Except.ok.inj (hx.symm.trans h)
    · exact absurd (hx.symm.trans h) (by simp)
  obtain ⟨W, l, hW, hl, hAl⟩ := spectral hA
  refine ⟨fun i => δ i, l, by rw [e, hx'], hl, by conv_lhs => rw [hAl, charpoly_conj hW, Matrix.charpoly_diagonal], fun k => ?_⟩
  set l' : Nat → ℝ := fun i => if h : i < n then l ⟨i, h⟩ else 0 with hl'
  have e1 : (fun i : Fin n => l' i) = l := by
    funext i
    simp only [hl', dif_pos i.2]
  have h1 := weyl_sym (l := l') (d := δ) hW hG.orth (fun i j hij hj => by
    simp only [hl', dif_pos hj, dif_pos (show i < n by omega)]
    exact hl (show (⟨i, by omega⟩ : Fin n) ≤ ⟨j, hj⟩ from hij)) (fun i j hij hj => by
    rcases Nat.lt_or_eq_of_le hij with h | h
    · exact hG.ord i j h hj
    · rw [h]) k.2
  rw [e1, ← hAl] at h1
  have e2 : l' k = l k := by simp only [hl', dif_pos k.2]
  rw [e2] at h1
  refine h1.trans ?_
  have h := hG.close
  rw [Eigen.eps_val] at h
  refine le_trans h (le_of_eq ?_)
  show (n : ℝ) * (9 * _ * frob A) = 9 * n * (1 / 2 ^ 52) * frob A
  ring

/-- The sum of the diagonal entries against the Frobenius norm. -/
theorem trace_le {n : Nat} (M : Matrix (Fin n) (Fin n) ℝ) : |M.trace| ≤ Real.sqrt n * frobenius M := by
  have h1 : M.trace ^ 2 ≤ (Real.sqrt n * frobenius M) ^ 2 := by
    rw [mul_pow, Real.sq_sqrt (Nat.cast_nonneg _), show frobenius M ^ 2 = _ from frob_sq M]
    have h2 := sq_sum_le_card_mul_sum_sq (s := (univ : Finset (Fin n))) (f := fun i => M i i)
    rw [card_univ, Fintype.card_fin] at h2
    refine h2.trans (mul_le_mul_of_nonneg_left (sum_le_sum fun i _ => ?_) (Nat.cast_nonneg _))
    exact single_le_sum (f := fun j => M i j ^ 2) (fun _ _ => sq_nonneg _) (mem_univ i)
  exact abs_le_of_sq_le_sq h1 (mul_nonneg (Real.sqrt_nonneg _) (frob_nonneg _))

/-- C102: for every square matrix the returned eigenvalues sum up to the trace, and their imaginary parts to zero. -/
theorem C102_trace {n : Nat} (hn : 0 < n) (A : Matrix (Fin n) (Fin n) ℝ) (hA : ¬ A.IsSymm) {fuel : Nat} {x : Eigen ℝ}
    (hx : Eigen.new fuel (ofM A) = .ok x) :
    ∃ d e : Fin n → ℝ, x.d = List.ofFn d ∧ x.e = List.ofFn e ∧ ∑ i, e i = 0 ∧
      |∑ i, d i - A.trace| ≤ Real.sqrt n * (((1 + (4 * n + 24) * (1 / 2 ^ 52)) ^ fuel - 1) * frobenius A) := by
  obtain ⟨d, e, B, h1, h2, h3, h4⟩ := C57_eigenvalues hn A hA fuel x hx
  have h5 := Matrix.trace_eq_sum_roots_charpoly (B.map fun r => (r : ℂ))
  have e0 : ∀ f : Fin n → ℂ, (∏ i, (Polynomial.X - Polynomial.C (f i))).roots = Multiset.map f (univ : Finset (Fin n)).1 := by
    intro f
    have h3 : ∏ i, (Polynomial.X - Polynomial.C (f i)) = (Multiset.map (fun a => Polynomial.X - Polynomial.C a) (Multiset.map f (univ : Finset (Fin n)).1)).prod := by
      rw [Multiset.map_map]; rfl
    rw [h3, Polynomial.roots_multiset_prod_X_sub_C]
  rw [h4, e0] at h5
  change (B.map fun r => (r : ℂ)).trace = ∑ i : Fin n, (⟨d i, e i⟩ : ℂ) at h5
  have h6 : (B.map fun r => (r : ℂ)).trace = ((B.trace : ℝ) : ℂ) := by
    simp [Matrix.trace]
  rw [h6] at h5
  have hre := congrArg Complex.re h5
  have him := congrArg Complex.im h5
  rw [Complex.re_sum] at hre
  rw [Complex.im_sum] at him
  simp only [Complex.ofReal_re, Complex.ofReal_im] at hre him
  refine ⟨fun i => d i, fun i => e i, h1, h2, him.symm, ?_⟩
  rw [← hre, abs_sub_comm, ← Matrix.trace_sub]
  exact (trace_le _).trans (mul_le_mul_of_nonneg_left h3 (Real.sqrt_nonneg _))

/-- The hypotheses are met: a symmetric matrix with eigenvalues 3 and 1 ... -/
example : ∃ (fuel : Nat) (x : Eigen ℝ) (d : Fin 2 → ℝ), Eigen.new fuel (ofM !![2, 1; 1, 2]) = .ok x ∧ x.d = List.ofFn d ∧
    |d 0 - 3| ≤ 9 * (2 : Nat) * (1 / 2 ^ 52) * frobenius !![2, 1; 1, 2] ∧ |d 1 - 1| ≤ 9 * (2 : Nat) * (1 / 2 ^ 52) * frobenius !![2, 1; 1, 2] := by
  have hA : (!![2, 1; 1, 2] : Matrix (Fin 2) (Fin 2) ℝ).IsSymm := by ext i j; fin_cases i <;> fin_cases j <;> rfl
  obtain ⟨N, x, -, -, h, -⟩ := C46_symmetric (n := 2) (by norm_num) _ hA
  obtain ⟨d, l, h1, h2, h3, h4⟩ := C102_symmetric (by norm_num) _ hA (h N le_rfl)
  have hc : (!![2, 1; 1, 2] : Matrix (Fin 2) (Fin 2) ℝ).charpoly = ∏ i, (Polynomial.X - Polynomial.C (![3, 1] i)) := by
    rw [Matrix.charpoly_fin_two, Fin.prod_univ_two]
    simp [Matrix.trace, Matrix.det_fin_two]
    have e1 : (Polynomial.C (2 + 2 : ℝ)) = Polynomial.C 3 + Polynomial.C 1 := by rw [← Polynomial.C_add]; norm_num
    have e2 : (Polynomial.C (2 * 2 - 1 : ℝ)) = Polynomial.C 3 * Polynomial.C 1 := by rw [← Polynomial.C_mul]; norm_num
    simp only [map_add, map_sub, map_mul, map_one, map_ofNat] at e1 e2 ⊢
    linear_combination (-Polynomial.X) * e1 + e2
  have e3 : l = ![3, 1] :=
    roots_unique h2 (by intro i j hij; fin_cases i <;> fin_cases j <;> simp_all) (h3.symm.trans hc)
  have h0 := h4 0
  have h1' := h4 1
  rw [e3] at h0 h1'
  exact ⟨N, x, d, h N le_rfl, h1, h0, h1'⟩

/-- ... and a matrix that is not symmetric. -/
example : ∃ (x : Eigen ℝ) (d e : Fin 2 → ℝ), Eigen.new 2 (ofM !![0, 2; -1, 3]) = .ok x ∧ x.d = List.ofFn d ∧ x.e = List.ofFn e ∧
    ∑ i, e i = 0 ∧ |∑ i, d i - 3| ≤ Real.sqrt (2 : Nat) * (((1 + (4 * (2 : Nat) + 24) * (1 / 2 ^ 52)) ^ 2 - 1) * frobenius !![0, 2; -1, 3]) := by
  have hA : ¬ (!![0, 2; -1, 3] : Matrix (Fin 2) (Fin 2) ℝ).IsSymm := by
    intro h
    have := h.apply 0 1
    norm_num at this
  obtain ⟨x, hx⟩ := C49_small_terminates (n := 2) (by norm_num) le_rfl _ hA 2 le_rfl
  obtain ⟨d, e, h1, h2, h3, h4⟩ := C102_trace (by norm_num) _ hA hx
  refine ⟨x, d, e, hx, h1, h2, h3, ?_⟩
  have : (!![0, 2; -1, 3] : Matrix (Fin 2) (Fin 2) ℝ).trace = 3 := by simp [Matrix.trace]
  rwa [this] at h4

end LA.Props
