import Verif.Proofs.RndSolveFin
import Mathlib.LinearAlgebra.Matrix.NonsingularInverse

/-! # Inverses of matrices close to a given one (real matrices, row sum norms) -/

namespace LA
open Finset
variable {n : Nat}

/-- A matrix close to a well conditioned one is well conditioned. -/
theorem near_bound {A E Z : Matrix (Fin n) (Fin n) ℝ} {K ε : ℝ} (hZ : Z * A = 1) (hK : ∀ i, ∑ j, |Z i j| ≤ K)
    (hE : ∀ i j, |E i j| ≤ ε) (hε : n * K * ε ≤ 1 / 2) (x : Fin n → ℝ) {f : ℝ} (hf : ∀ i, |∑ j, (A + E) i j * x j| ≤ f) (c : Fin n) :
    |x c| ≤ 2 * K * f := by
  obtain ⟨c0, -, hc0⟩ := exists_max_image univ (fun c => |x c|) ⟨c, mem_univ c⟩
  refine (hc0 c (mem_univ c)).trans ?_
  have hK0 : 0 ≤ K := (sum_nonneg fun _ _ => abs_nonneg _).trans (hK c)
  have hε0 : 0 ≤ ε := (abs_nonneg _).trans (hE c c)
  have hf0 : 0 ≤ f := (abs_nonneg _).trans (hf c)
  have a1 : ∀ i, |∑ j, A i j * x j| ≤ f + n * ε * |x c0| := by
    intro i
    have e1 : ∑ j, A i j * x j = ∑ j, (A + E) i j * x j - ∑ j, E i j * x j := by
      rw [← sum_sub_distrib]
      exact sum_congr rfl fun j _ => by rw [Matrix.add_apply]; ring
    rw [e1]
    refine (abs_sub _ _).trans (add_le_add (hf i) ?_)
    calc _ ≤ ∑ j, |E i j * x j| := abs_sum_le_sum_abs _ _
      _ ≤ ∑ _j : Fin n, ε * |x c0| := sum_le_sum fun j _ => by
          rw [abs_mul]; exact mul_le_mul (hE i j) (hc0 j (mem_univ j)) (abs_nonneg _) hε0
      _ = _ := by simp; ring
  have a2 : x c0 = ∑ i, Z c0 i * ∑ j, A i j * x j := by
    have : (Z * A).mulVec x = x := by rw [hZ, Matrix.one_mulVec]
    rw [← Matrix.mulVec_mulVec] at this
    exact (congrFun this c0).symm
  have a3 : |x c0| ≤ K * (f + n * ε * |x c0|) := by
    calc |x c0| = |∑ i, Z c0 i * ∑ j, A i j * x j| := by rw [← a2]
      _ ≤ ∑ i, |Z c0 i| * (f + n * ε * |x c0|) := (abs_sum_le_sum_abs _ _).trans (sum_le_sum fun i _ => by
          rw [abs_mul]; exact mul_le_mul_of_nonneg_left (a1 i) (abs_nonneg _))
      _ = (∑ i, |Z c0 i|) * (f + n * ε * |x c0|) := by rw [sum_mul]
      _ ≤ _ := mul_le_mul_of_nonneg_right (hK c0) (by positivity)
  have a4 := mul_le_mul_of_nonneg_right hε (abs_nonneg (x c0))
  linarith

/-- If `L U` is close to a row permutation of `A`, then `U` has an inverse that is not much larger than that of `A`. -/
theorem upper_inverse {A Z L U : Matrix (Fin n) (Fin n) ℝ} {K ε l : ℝ} (σ : Equiv.Perm (Fin n)) (hZ : Z * A = 1)
    (hK : ∀ i, ∑ j, |Z i j| ≤ K) (hLU : ∀ i c, |A (σ i) c - ∑ k, L i k * U k c| ≤ ε) (hε : n * K * ε ≤ 1 / 2)
    (hL : ∀ i, ∑ k, |L i k| ≤ l) (hU : ∀ r c : Fin n, c < r → U r c = 0) :
    ∃ V : Matrix (Fin n) (Fin n) ℝ, V * U = 1 ∧ (∀ c r : Fin n, r < c → V c r = 0) ∧ ∀ c, ∑ r, |V c r| ≤ 2 * K * l := by
  have key : ∀ (x : Fin n → ℝ) (f : ℝ), 0 ≤ f → (∀ r, |U.mulVec x r| ≤ f) → ∀ c, |x c| ≤ 2 * K * (l * f) := by
    intro x f hf0 hf c
    refine near_bound (E := Matrix.of fun i c => (∑ k, L (σ.symm i) k * U k c) - A i c) hZ hK (fun i j => ?_) hε x (fun i => ?_) c
    · have := hLU (σ.symm i) j
      rw [Equiv.apply_symm_apply, abs_sub_comm] at this
      exact this
    · have e1 : ∑ j, (A + Matrix.of fun i c => (∑ k, L (σ.symm i) k * U k c) - A i c) i j * x j = ∑ k, L (σ.symm i) k * U.mulVec x k := by
        simp only [Matrix.add_apply, Matrix.of_apply, add_sub_cancel, sum_mul]
        rw [sum_comm]
        refine sum_congr rfl fun k _ => ?_
        rw [Matrix.mulVec, dotProduct, mul_sum]
        exact sum_congr rfl fun c _ => by ring
      rw [e1]
      calc _ ≤ ∑ k, |L (σ.symm i) k| * f := (abs_sum_le_sum_abs _ _).trans (sum_le_sum fun k _ => by
            rw [abs_mul]; exact mul_le_mul_of_nonneg_left (hf k) (abs_nonneg _))
        _ = (∑ k, |L (σ.symm i) k|) * f := by rw [sum_mul]
        _ ≤ _ := mul_le_mul_of_nonneg_right (hL _) hf0
  have hunit : IsUnit U := by
    refine Matrix.mulVec_injective_iff_isUnit.mp fun x y hxy => ?_
    have h0 : U.mulVec (x - y) = 0 := by rw [Matrix.mulVec_sub, hxy, sub_self]
    funext c
    have := key (x - y) 0 le_rfl (fun r => by rw [h0]; simp) c
    rw [mul_zero, mul_zero] at this
    have := abs_nonpos_iff.mp this
    exact sub_eq_zero.mp this
  have hdet := (Matrix.isUnit_iff_isUnit_det _).1 hunit
  refine ⟨U⁻¹, Matrix.nonsing_inv_mul _ hdet, ?_, fun c => ?_⟩
  · haveI := hunit.invertible
    have hb : U.BlockTriangular id := fun i j hij => hU i j hij
    intro c r hrc
    exact Matrix.blockTriangular_inv_of_blockTriangular hb hrc
  · have e := key (U⁻¹.mulVec fun r => SignType.sign (U⁻¹ c r)) 1 zero_le_one (fun r => by
      rw [Matrix.mulVec_mulVec, Matrix.mul_nonsing_inv _ hdet, Matrix.one_mulVec]
      rcases lt_trichotomy (U⁻¹ c r) 0 with h | h | h
      · simp [h]
      · simp [h]
      · simp [h]) c
    rw [mul_one] at e
    refine le_trans (le_of_eq ?_) e
    rw [Matrix.mulVec, dotProduct]
    have : ∀ r, U⁻¹ c r * (SignType.sign (U⁻¹ c r) : ℝ) = |U⁻¹ c r| := fun r => by
      rw [mul_comm]; exact sign_mul_self _
    simp only [this]
    rw [abs_of_nonneg (sum_nonneg fun _ _ => abs_nonneg _)]

end LA

namespace LA
open Finset
variable {n : Nat}

theorem prod_sub_one {ι : Type} (s : Finset ι) (h : ι → ℝ) :
    |∏ i ∈ s, (1 + h i)| ≤ ∏ i ∈ s, (1 + |h i|) ∧ |(∏ i ∈ s, (1 + h i)) - 1| ≤ (∏ i ∈ s, (1 + |h i|)) - 1 := by
  classical
  induction s using Finset.induction_on with
  | empty => simp
  | insert a s ha ih =>
    rw [prod_insert ha, prod_insert ha]
    set P := ∏ i ∈ s, (1 + h i)
    set Q := ∏ i ∈ s, (1 + |h i|)
    refine ⟨?_, ?_⟩
    · rw [abs_mul]
      refine mul_le_mul ((abs_add_le _ _).trans (by rw [abs_one])) ih.1 (abs_nonneg _) (by positivity)
    · have e : (1 + h a) * P - 1 = (P - 1) + h a * P := by ring
      rw [e]
      refine (abs_add_le _ _).trans ?_
      rw [abs_mul]
      have := mul_le_mul_of_nonneg_left ih.1 (abs_nonneg (h a))
      linarith [ih.2]

/-- The determinant of a matrix close to the identity is close to one. -/
theorem det_one_add_le (H : Matrix (Fin n) (Fin n) ℝ) {δ : ℝ} (hH : ∀ i, ∑ j, |H j i| ≤ δ) : |(1 + H).det - 1| ≤ (1 + δ) ^ n - 1 := by
  classical
  set a : Fin n → Fin n → ℝ := fun j i => (1 : Matrix (Fin n) (Fin n) ℝ) j i + |H j i| with ha
  have ha0 : ∀ j i, 0 ≤ a j i := fun j i => by
    rw [ha]
    by_cases h : j = i
    · subst h; simp only [Matrix.one_apply_eq]; positivity
    · simp only [Matrix.one_apply_ne h]; positivity
  have hle : ∀ j i, |(1 + H) j i| ≤ a j i := fun j i => by
    rw [ha, Matrix.add_apply]
    refine (abs_add_le _ _).trans (add_le_add ?_ le_rfl)
    by_cases h : j = i
    · subst h; simp
    · simp [Matrix.one_apply_ne h]
  have h1 : ∑ σ : Equiv.Perm (Fin n), ∏ i, a (σ i) i ≤ (1 + δ) ^ n := by
    calc ∑ σ : Equiv.Perm (Fin n), ∏ i, a (σ i) i = ∑ f ∈ univ.image (fun (σ : Equiv.Perm (Fin n)) => (σ : Fin n → Fin n)), ∏ i, a (f i) i := by
          rw [sum_image fun x _ y _ hxy => DFunLike.coe_injective hxy]
      _ ≤ ∑ f : Fin n → Fin n, ∏ i, a (f i) i :=
          sum_le_sum_of_subset_of_nonneg (subset_univ _) fun f _ _ => prod_nonneg fun i _ => ha0 _ _
      _ = ∏ i, ∑ j, a j i := by rw [prod_univ_sum, Fintype.piFinset_univ]
      _ ≤ ∏ _i : Fin n, (1 + δ) := by
          refine prod_le_prod (fun i _ => sum_nonneg fun j _ => ha0 j i) fun i _ => ?_
          rw [ha]
          simp only [sum_add_distrib]
          refine add_le_add (le_of_eq ?_) (hH i)
          simp [Matrix.one_apply]
      _ = _ := by simp
  have h2 : |(∏ i, (1 + H) ((1 : Equiv.Perm (Fin n)) i) i) - 1| ≤ (∏ i, a ((1 : Equiv.Perm (Fin n)) i) i) - 1 := by
    have := (prod_sub_one univ fun i => H i i).2
    simpa [ha] using this
  rw [Matrix.det_apply', ← add_sum_erase _ _ (mem_univ (1 : Equiv.Perm (Fin n)))]
  rw [← add_sum_erase _ _ (mem_univ (1 : Equiv.Perm (Fin n)))] at h1
  have h3 : |∑ σ ∈ univ.erase (1 : Equiv.Perm (Fin n)), ((Equiv.Perm.sign σ : ℤ) : ℝ) * ∏ i, (1 + H) (σ i) i| ≤
      ∑ σ ∈ univ.erase (1 : Equiv.Perm (Fin n)), ∏ i, a (σ i) i := by
    refine (abs_sum_le_sum_abs _ _).trans (sum_le_sum fun σ _ => ?_)
    rw [abs_mul, abs_prod]
    have : |((Equiv.Perm.sign σ : ℤ) : ℝ)| = 1 := by
      rcases Int.units_eq_one_or (Equiv.Perm.sign σ) with h | h <;> rw [h] <;> simp
    rw [this, one_mul]
    exact prod_le_prod (fun _ _ => abs_nonneg _) fun i _ => hle _ _
  rw [Equiv.Perm.sign_one, Units.val_one, Int.cast_one, one_mul]
  set x := ∏ i, (1 + H) ((1 : Equiv.Perm (Fin n)) i) i
  set y := ∑ σ ∈ univ.erase (1 : Equiv.Perm (Fin n)), ((Equiv.Perm.sign σ : ℤ) : ℝ) * ∏ i, (1 + H) (σ i) i
  have := abs_add_le (x - 1) y
  rw [show x + y - 1 = (x - 1) + y by ring]
  linarith

/-- The determinant of a matrix close to a well conditioned one. -/
theorem det_near {A E Z : Matrix (Fin n) (Fin n) ℝ} {K ε : ℝ} (hZ : Z * A = 1) (hK : ∀ i, ∑ j, |Z i j| ≤ K) (hE : ∀ i j, |E i j| ≤ ε) :
    |(A + E).det - A.det| ≤ ((1 + n * (K * ε)) ^ n - 1) * |A.det| := by
  have e : A + E = A * (1 + Z * E) := by
    rw [Matrix.mul_add, Matrix.mul_one, ← Matrix.mul_assoc, mul_eq_one_comm.mp hZ, Matrix.one_mul]
  have h := det_one_add_le (Z * E) (δ := n * (K * ε)) fun i => by
    calc ∑ j, |(Z * E) j i| ≤ ∑ _j : Fin n, K * ε := sum_le_sum fun j _ => by
          rw [Matrix.mul_apply]
          calc _ ≤ ∑ k, |Z j k| * ε := (abs_sum_le_sum_abs _ _).trans (sum_le_sum fun k _ => by
                rw [abs_mul]; exact mul_le_mul_of_nonneg_left (hE k i) (abs_nonneg _))
            _ = (∑ k, |Z j k|) * ε := by rw [sum_mul]
            _ ≤ _ := mul_le_mul_of_nonneg_right (hK j) ((abs_nonneg _).trans (hE j i))
      _ = _ := by simp
  rw [e, Matrix.det_mul, show A.det * (1 + Z * E).det - A.det = ((1 + Z * E).det - 1) * A.det by ring, abs_mul]
  exact mul_le_mul_of_nonneg_right h (abs_nonneg _)

end LA
