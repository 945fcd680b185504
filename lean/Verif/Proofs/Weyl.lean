import Verif.Proofs.StdFrob
import Mathlib.LinearAlgebra.FiniteDimensional.Lemmas
import Mathlib.Analysis.InnerProductSpace.SingularValues
import Mathlib.Analysis.InnerProductSpace.Adjoint

/-! # Frobenius norms of products, perturbation of singular values (mathematics only, no code) -/

set_option linter.unusedSectionVars false

namespace LA
open Finset Matrix

theorem frob_mul_le {m n p : Nat} (X : Matrix (Fin m) (Fin n) ℝ) (Y : Matrix (Fin n) (Fin p) ℝ) : frob (X * Y) ≤ frob X * frob Y := by
  have h : (frob (X * Y)) ^ 2 ≤ (frob X * frob Y) ^ 2 := by
    rw [mul_pow, frob_sq, frob_sq, frob_sq, sum_mul]
    refine sum_le_sum fun i _ => ?_
    rw [sum_comm (s := univ) (t := univ) (f := fun i j => Y i j ^ 2), mul_sum]
    refine sum_le_sum fun j _ => ?_
    rw [Matrix.mul_apply]
    exact sum_mul_sq_le_sq_mul_sq _ _ _
  exact (abs_le_of_sq_le_sq' h (mul_nonneg (frob_nonneg _) (frob_nonneg _))).2

/-- `y` continued by zeros. -/
def ext0 {n : Nat} (y : Matrix (Fin n) (Fin 1) ℝ) (i : Nat) : ℝ := if h : i < n then y ⟨i, h⟩ 0 else 0

theorem frob_ext0 {n : Nat} (y : Matrix (Fin n) (Fin 1) ℝ) : frob y ^ 2 = ∑ i ∈ range n, ext0 y i ^ 2 := by
  rw [frob_sq, ← Fin.sum_univ_eq_sum_range (fun i => ext0 y i ^ 2)]
  refine sum_congr rfl fun i _ => ?_
  rw [Fin.sum_univ_one, ext0, dif_pos i.2]

theorem diag_mul {m n : Nat} (s : Nat → ℝ) (y : Matrix (Fin n) (Fin 1) ℝ) :
    frob (Matrix.of (fun (i : Fin m) (j : Fin n) => if i.1 = j.1 then s i else 0) * y) ^ 2 = ∑ i ∈ range m, (s i * ext0 y i) ^ 2 := by
  rw [frob_sq, ← Fin.sum_univ_eq_sum_range (fun i => (s i * ext0 y i) ^ 2)]
  refine sum_congr rfl fun i _ => ?_
  rw [Fin.sum_univ_one, Matrix.mul_apply]
  congr 1
  simp only [of_apply]
  unfold ext0
  split
  · rename_i h
    rw [sum_eq_single ⟨i.1, h⟩]
    · simp
    · intro b _ hb
      rw [if_neg (fun e => hb (Fin.ext e.symm)), zero_mul]
    · simp
  · rename_i h
    rw [mul_zero]
    refine sum_eq_zero fun j _ => ?_
    rw [if_neg (by omega), zero_mul]

/-- `σ` are the singular values of `A`, the columns of `Q` right singular vectors. -/
structure Sing {m n : Nat} (A : Matrix (Fin m) (Fin n) ℝ) (Q : Matrix (Fin n) (Fin n) ℝ) (σ : Nat → ℝ) : Prop where
  orth : Orth Q
  sorted : ∀ i j, i ≤ j → j < n → σ j ≤ σ i
  nonneg : ∀ i, i < n → 0 ≤ σ i
  nsq : ∀ y : Matrix (Fin n) (Fin 1) ℝ, frob (A * (Q * y)) ^ 2 = ∑ i ∈ range n, (σ i * ext0 y i) ^ 2

theorem Sing.ge {m n k : Nat} {A : Matrix (Fin m) (Fin n) ℝ} {Q : Matrix (Fin n) (Fin n) ℝ} {s : Nat → ℝ} (hA : Sing A Q s) (hk : k < n)
    {y : Matrix (Fin n) (Fin 1) ℝ} (hy : ∀ i : Fin n, k < i.1 → y i 0 = 0) : s k * frob y ≤ frob (A * (Q * y)) := by
  have hz : ∀ i, k < i → ext0 y i = 0 := by
    intro i hi
    unfold ext0
    split
    · exact hy _ hi
    · rfl
  have h : (s k * frob y) ^ 2 ≤ frob (A * (Q * y)) ^ 2 := by
    rw [hA.nsq, mul_pow, frob_ext0, mul_sum]
    refine sum_le_sum fun i _ => ?_
    rw [mul_pow]
    by_cases hik : k < i
    · rw [hz i hik]; simp
    exact mul_le_mul_of_nonneg_right (pow_le_pow_left₀ (hA.nonneg k hk) (hA.sorted i k (by omega) hk) 2) (sq_nonneg _)
  exact (abs_le_of_sq_le_sq' h (frob_nonneg _)).2

theorem Sing.le {m n k : Nat} {A : Matrix (Fin m) (Fin n) ℝ} {Q : Matrix (Fin n) (Fin n) ℝ} {s : Nat → ℝ} (hA : Sing A Q s) (hk : k < n)
    {y : Matrix (Fin n) (Fin 1) ℝ} (hy : ∀ i : Fin n, i.1 < k → y i 0 = 0) : frob (A * (Q * y)) ≤ s k * frob y := by
  have hz : ∀ i, i < k → ext0 y i = 0 := by
    intro i hi
    unfold ext0
    split
    · exact hy _ hi
    · rfl
  have h : frob (A * (Q * y)) ^ 2 ≤ (s k * frob y) ^ 2 := by
    rw [hA.nsq, mul_pow, frob_ext0, mul_sum]
    refine sum_le_sum fun i hi => ?_
    rw [mem_range] at hi
    rw [mul_pow]
    by_cases hik : i < k
    · rw [hz i hik]; simp
    exact mul_le_mul_of_nonneg_right (pow_le_pow_left₀ (hA.nonneg i hi) (hA.sorted k i (by omega) hi) 2) (sq_nonneg _)
  exact (abs_le_of_sq_le_sq' h (mul_nonneg (hA.nonneg k hk) (frob_nonneg _))).2

/-- `k + 1` unknowns, `k` homogeneous equations. -/
theorem exists_kernel {n k : Nat} (hk : k < n) (W : Matrix (Fin n) (Fin n) ℝ) :
    ∃ y : Matrix (Fin n) (Fin 1) ℝ, frob y ≠ 0 ∧ (∀ i : Fin n, k < i.1 → y i 0 = 0) ∧ ∀ i : Fin n, i.1 < k → (W * y) i 0 = 0 := by
  let f : (Fin (k + 1) → ℝ) →ₗ[ℝ] (Fin k → ℝ) :=
    (W.submatrix (Fin.castLE (by omega : k ≤ n)) (Fin.castLE (by omega : k + 1 ≤ n))).mulVecLin
  have hf : LinearMap.ker f ≠ ⊥ := LinearMap.ker_ne_bot_of_finrank_lt (by simp)
  obtain ⟨c, hc, hc0⟩ := Submodule.exists_mem_ne_zero_of_ne_bot hf
  rw [LinearMap.mem_ker] at hc
  let y : Matrix (Fin n) (Fin 1) ℝ := Matrix.of fun i _ => if h : i.1 < k + 1 then c ⟨i.1, h⟩ else 0
  have hyz : ∀ i : Fin n, k < i.1 → y i 0 = 0 := fun i hi => dif_neg (by omega)
  refine ⟨y, ?_, hyz, ?_⟩
  · intro h
    apply hc0
    have h2 := frob_sq y
    rw [h, zero_pow two_ne_zero] at h2
    ext i
    have h3 : y (Fin.castLE (by omega : k + 1 ≤ n) i) 0 = c i := dif_pos i.2
    rw [← h3]
    have h4 := (sum_eq_zero_iff_of_nonneg (fun i _ => sum_nonneg fun j _ => sq_nonneg (y i j))).1 h2.symm (Fin.castLE (by omega) i) (mem_univ _)
    rw [Fin.sum_univ_one] at h4
    exact pow_eq_zero_iff two_ne_zero |>.1 h4
  · intro i hi
    have h1 := congrFun hc ⟨i.1, hi⟩
    rw [Matrix.mul_apply]
    have h2 : ∑ j, W i j * y j 0 = ∑ j : Fin (k + 1), W i (Fin.castLE (by omega) j) * c j := by
      have e : ∀ j : Fin (k + 1), W i (Fin.castLE (by omega : k + 1 ≤ n) j) * c j =
          W i (Fin.castLEEmb (by omega : k + 1 ≤ n) j) * y (Fin.castLEEmb (by omega : k + 1 ≤ n) j) 0 := by
        intro j
        have h3 : y (Fin.castLE (by omega : k + 1 ≤ n) j) 0 = c j := dif_pos j.2
        rw [← h3]; rfl
      rw [sum_congr rfl fun j _ => e j, ← sum_map univ (Fin.castLEEmb (by omega : k + 1 ≤ n)) (fun j => W i j * y j 0)]
      symm
      refine sum_subset (subset_univ _) fun j _ hj => ?_
      rw [hyz j, mul_zero]
      by_contra hc
      exact hj (mem_map.2 ⟨⟨j.1, by omega⟩, mem_univ _, Fin.ext rfl⟩)
    rw [h2]
    exact h1

/-- Singular values move by at most the norm of the perturbation. -/
theorem Sing.weyl {m n : Nat} {A B : Matrix (Fin m) (Fin n) ℝ} {Q Q' : Matrix (Fin n) (Fin n) ℝ} {σ s : Nat → ℝ} (hA : Sing A Q σ)
    (hB : Sing B Q' s) {k : Nat} (hk : k < n) : s k ≤ σ k + frob (A - B) := by
  obtain ⟨y, hy0, hy1, hy2⟩ := exists_kernel (k := k) hk (Qᵀ * Q')
  have hpos : 0 < frob y := lt_of_le_of_ne (frob_nonneg _) (Ne.symm hy0)
  have h1 := hB.ge hk hy1
  have h2 := hA.le hk hy2
  have e0 : Q * (Qᵀ * Q' * y) = Q' * y := by
    rw [← Matrix.mul_assoc, ← Matrix.mul_assoc, hA.orth.right, Matrix.one_mul]
  rw [e0] at h2
  have e1 : B * (Q' * y) = A * (Q' * y) - (A - B) * (Q' * y) := by rw [Matrix.sub_mul]; abel
  have h3 : frob (B * (Q' * y)) ≤ frob (A * (Q' * y)) + frob (A - B) * frob y := by
    rw [e1]
    refine (frob_sub_le _ _).trans ?_
    have := frob_mul_le (A - B) (Q' * y)
    rw [frob_mul_left y hB.orth] at this
    linarith
  have h4 : frob (Qᵀ * Q' * y) = frob y := frob_mul_left _ (hA.orth.transpose.mul hB.orth)
  rw [h4] at h2
  have h5 : s k * frob y ≤ (σ k + frob (A - B)) * frob y := by
    rw [add_mul]; linarith
  exact le_of_mul_le_mul_right h5 hpos

theorem Sing.close {m n : Nat} {A B : Matrix (Fin m) (Fin n) ℝ} {Q Q' : Matrix (Fin n) (Fin n) ℝ} {σ s : Nat → ℝ} (hA : Sing A Q σ)
    (hB : Sing B Q' s) {k : Nat} (hk : k < n) : |s k - σ k| ≤ frob (A - B) := by
  have h1 := hA.weyl hB hk
  have h2 := hB.weyl hA hk
  rw [frob_sub_comm] at h2
  rw [abs_le]
  constructor <;> linarith

theorem sing_diag {m n : Nat} {P : Matrix (Fin m) (Fin m) ℝ} {Q : Matrix (Fin n) (Fin n) ℝ} {s : Nat → ℝ} (hP : Orth P) (hQ : Orth Q)
    (hs : ∀ i j, i ≤ j → j < min m n → s j ≤ s i) (hs0 : ∀ i, i < min m n → 0 ≤ s i) :
    Sing (P * Matrix.of (fun (i : Fin m) (j : Fin n) => if i.1 = j.1 then s i else 0) * Qᵀ) Q (fun i => if i < m then s i else 0) := by
  refine ⟨hQ, fun i j hij hj => ?_, fun i hi => ?_, fun y => ?_⟩
  · split_ifs with h1 h2 h2
    · exact hs i j hij (by omega)
    · omega
    · exact hs0 i (by omega)
    · exact le_rfl
  · split_ifs with h1
    · exact hs0 i (by omega)
    · exact le_rfl
  · have e : P * Matrix.of (fun (i : Fin m) (j : Fin n) => if i.1 = j.1 then s i else 0) * Qᵀ * (Q * y) =
        P * (Matrix.of (fun (i : Fin m) (j : Fin n) => if i.1 = j.1 then s i else 0) * y) := by
      rw [Matrix.mul_assoc _ Qᵀ, ← Matrix.mul_assoc Qᵀ, hQ, Matrix.one_mul, Matrix.mul_assoc]
    rw [e, frob_mul_left _ hP, diag_mul]
    have h1 : ∑ i ∈ range m, (s i * ext0 y i) ^ 2 = ∑ i ∈ range (min m n), (s i * ext0 y i) ^ 2 := by
      symm
      refine sum_subset (range_mono (by omega)) fun i h1 hi => ?_
      rw [mem_range] at h1 hi
      rw [ext0, dif_neg (by omega)]; simp
    have h2 : ∑ i ∈ range n, ((if i < m then s i else 0) * ext0 y i) ^ 2 = ∑ i ∈ range (min m n), (s i * ext0 y i) ^ 2 := by
      have : ∀ i ∈ range (min m n), (s i * ext0 y i) ^ 2 = ((if i < m then s i else 0) * ext0 y i) ^ 2 := by
        intro i hi
        rw [mem_range] at hi
        rw [if_pos (by omega)]
      rw [sum_congr rfl this]
      symm
      refine sum_subset (range_mono (by omega)) fun i h1 hi => ?_
      rw [mem_range] at h1 hi
      rw [if_neg (by omega)]; simp
    rw [h1, h2]

/-- The singular values of Mathlib are singular values in this sense. -/
theorem sing_mathlib {m n : Nat} (A : Matrix (Fin m) (Fin n) ℝ) :
    ∃ Q, Sing A Q (fun k => (Matrix.toEuclideanLin A).singularValues k) := by
  set T := Matrix.toEuclideanLin A with hT
  have hn : Module.finrank ℝ (EuclideanSpace ℝ (Fin n)) = n := by simp
  set b := T.isSymmetric_adjoint_comp_self.eigenvectorBasis hn with hb
  have hin : ∀ i j, ∑ k, b i k * b j k = if i = j then 1 else 0 := by
    intro i j
    have := orthonormal_iff_ite.1 b.orthonormal i j
    rw [← this, PiLp.inner_apply]
    exact sum_congr rfl fun k _ => by simp [mul_comm]
  refine ⟨Matrix.of fun i j => b j i, ?_, fun i j hij _ => T.singularValues_antitone hij, fun i _ => T.singularValues_nonneg i, fun y => ?_⟩
  · unfold Orth
    ext i j
    rw [Matrix.mul_apply, Matrix.one_apply, ← hin i j]
    rfl
  · set x : EuclideanSpace ℝ (Fin n) := ∑ j, y j 0 • b j with hx
    have hxk : ∀ k, x k = ((Matrix.of fun i j => b j i) * y) k 0 := by
      intro k
      rw [Matrix.mul_apply, hx]
      simp [mul_comm]
    have h1 : frob (A * ((Matrix.of fun i j => b j i) * y)) ^ 2 = ‖T x‖ ^ 2 := by
      rw [frob_sq, EuclideanSpace.norm_sq_eq]
      refine sum_congr rfl fun i _ => ?_
      rw [Fin.sum_univ_one, Real.norm_eq_abs, sq_abs, Matrix.mul_apply]
      congr 1
      rw [hT, Matrix.toLpLin_apply]
      show _ = ∑ k, A i k * x k
      exact sum_congr rfl fun k _ => by rw [hxk]
    rw [h1, ← real_inner_self_eq_norm_sq]
    have h2 : inner ℝ (T x) (T x) = inner ℝ x ((LinearMap.adjoint T ∘ₗ T) x) := by
      rw [LinearMap.comp_apply, LinearMap.adjoint_inner_right]
    have h3 : (LinearMap.adjoint T ∘ₗ T) x = ∑ j, (y j 0 * T.singularValues j ^ 2) • b j := by
      rw [hx, map_sum]
      refine sum_congr rfl fun j _ => ?_
      rw [map_smul]
      have := (T.isSymmetric_adjoint_comp_self.hasEigenvector_eigenvectorBasis hn j).apply_eq_smul
      rw [← hb] at this
      rw [this, ← T.sq_singularValues_fin hn j, smul_smul]
      rfl
    rw [h2, h3, hx, b.orthonormal.inner_sum, ← Fin.sum_univ_eq_sum_range (fun i => (T.singularValues i * ext0 y i) ^ 2)]
    refine sum_congr rfl fun i _ => ?_
    rw [ext0, dif_pos i.2]
    show y i 0 * (y i 0 * T.singularValues i ^ 2) = _
    ring

end LA
