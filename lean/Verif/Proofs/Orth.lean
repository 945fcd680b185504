import Verif.Proofs.LU
import Mathlib.Analysis.InnerProductSpace.PiL2

/-! # Reflections, rotations, orthogonal factors (mathematics only, no code) -/

set_option linter.unusedSectionVars false

namespace LA
open Finset Matrix

/-- `Q'Q = 1`. -/
def Orth {n : Nat} (Q : Matrix (Fin n) (Fin n) ℝ) : Prop := Qᵀ * Q = 1

theorem Orth.right {n : Nat} {Q : Matrix (Fin n) (Fin n) ℝ} (h : Orth Q) : Q * Qᵀ = 1 := mul_eq_one_comm.1 h

theorem orth_one {n : Nat} : Orth (1 : Matrix (Fin n) (Fin n) ℝ) := by simp [Orth]

theorem Orth.mul {n : Nat} {P Q : Matrix (Fin n) (Fin n) ℝ} (hP : Orth P) (hQ : Orth Q) : Orth (P * Q) := by
  unfold Orth at *
  rw [transpose_mul, Matrix.mul_assoc, ← Matrix.mul_assoc Pᵀ, hP, Matrix.one_mul, hQ]

theorem Orth.transpose {n : Nat} {Q : Matrix (Fin n) (Fin n) ℝ} (h : Orth Q) : Orth Qᵀ := by
  unfold Orth
  rw [transpose_transpose, h.right]

/-- The reflection `1 - v v' / c` (the identity if `c = 0`). -/
noncomputable def hh {N : Nat} (v : Fin N → ℝ) (c : ℝ) : Matrix (Fin N) (Fin N) ℝ := 1 - c⁻¹ • vecMulVec v v

theorem hh_transpose {N : Nat} (v : Fin N → ℝ) (c : ℝ) : (hh v c)ᵀ = hh v c := by
  unfold hh
  rw [transpose_sub, transpose_one, transpose_smul, transpose_vecMulVec]

theorem hh_zero {N : Nat} (v : Fin N → ℝ) : hh v 0 = 1 := by simp [hh]

theorem hh_mul_apply {N p : Nat} (v : Fin N → ℝ) (c : ℝ) (M : Matrix (Fin N) (Fin p) ℝ) (i : Fin N) (j : Fin p) :
    (hh v c * M) i j = M i j + -(∑ t, v t * M t j) / c * v i := by
  rw [hh, Matrix.sub_mul, Matrix.one_mul, Matrix.sub_apply, Matrix.smul_mul, Matrix.smul_apply, Matrix.mul_apply]
  simp only [vecMulVec_apply, smul_eq_mul]
  have : ∑ t, v i * v t * M t j = v i * ∑ t, v t * M t j := by
    rw [Finset.mul_sum]; exact Finset.sum_congr rfl fun t _ => by ring
  rw [this, div_eq_mul_inv]; ring

theorem mul_hh_apply {N p : Nat} (v : Fin N → ℝ) (c : ℝ) (M : Matrix (Fin p) (Fin N) ℝ) (i : Fin p) (j : Fin N) :
    (M * hh v c) i j = M i j + -(v j) / c * ∑ t, v t * M i t := by
  have h := hh_mul_apply v c Mᵀ j i
  have e : (hh v c * Mᵀ) j i = (M * hh v c) i j := by
    rw [← transpose_apply (M * hh v c), transpose_mul, hh_transpose]
  rw [← e, h]
  simp only [transpose_apply, div_eq_mul_inv]
  ring

theorem hh_orth {N : Nat} {v : Fin N → ℝ} {c : ℝ} (h : v ⬝ᵥ v = 2 * c) : Orth (hh v c) := by
  by_cases hc : c = 0
  · rw [hc, hh_zero]; exact orth_one
  unfold Orth
  rw [hh_transpose]
  have hsq : vecMulVec v v * vecMulVec v v = (2 * c) • vecMulVec v v := by
    rw [← h, vecMulVec_mul_vecMulVec]
    ext i j
    simp [vecMulVec_apply]; ring
  rw [hh, Matrix.sub_mul, Matrix.mul_sub, Matrix.mul_sub, Matrix.one_mul, Matrix.one_mul, Matrix.mul_one,
    Matrix.smul_mul, Matrix.mul_smul, hsq, smul_smul, smul_smul]
  have : c⁻¹ * c⁻¹ * (2 * c) = c⁻¹ + c⁻¹ := by field_simp; ring
  rw [this, add_smul]
  abel

/-- `H 0 * H 1 * ⋯ * H (k-1)`. -/
def prodL {N : Nat} (H : Nat → Matrix (Fin N) (Fin N) ℝ) : Nat → Matrix (Fin N) (Fin N) ℝ
  | 0 => 1
  | k + 1 => prodL H k * H k

theorem prodL_congr {N : Nat} {H H' : Nat → Matrix (Fin N) (Fin N) ℝ} {k : Nat} (h : ∀ t, t < k → H t = H' t) :
    prodL H k = prodL H' k := by
  induction k with
  | zero => rfl
  | succ k ih => rw [prodL, prodL, ih fun t ht => h t (by omega), h k (by omega)]

theorem prodL_orth {N : Nat} {H : Nat → Matrix (Fin N) (Fin N) ℝ} {k : Nat} (h : ∀ t, t < k → Orth (H t)) :
    Orth (prodL H k) := by
  induction k with
  | zero => exact orth_one
  | succ k ih => exact (ih fun t ht => h t (by omega)).mul (h k (by omega))

/-- `H k * H (k+1) * ⋯ * H (k+c-1)`. -/
def prodR {N : Nat} (H : Nat → Matrix (Fin N) (Fin N) ℝ) : Nat → Nat → Matrix (Fin N) (Fin N) ℝ
  | _, 0 => 1
  | k, c + 1 => H k * prodR H (k + 1) c

theorem prodL_mul_prodR {N : Nat} (H : Nat → Matrix (Fin N) (Fin N) ℝ) (k c : Nat) :
    prodL H k * prodR H k c = prodL H (k + c) := by
  induction c generalizing k with
  | zero => simp [prodR]
  | succ c ih => rw [prodR, ← Matrix.mul_assoc, show prodL H k * H k = prodL H (k + 1) from rfl, ih]; congr 1; omega

/-- The rotation of coordinates `a`, `b`. -/
def giv (N a b : Nat) (cs sn : ℝ) : Matrix (Fin N) (Fin N) ℝ := Matrix.of fun i j =>
  if j.1 = a then (if i.1 = a then cs else if i.1 = b then sn else 0)
  else if j.1 = b then (if i.1 = a then -sn else if i.1 = b then cs else 0)
  else if i = j then 1 else 0

theorem sum_two {N a b : Nat} (ha : a < N) (hb : b < N) (hab : a ≠ b) (x y : ℝ) (f : Fin N → ℝ) :
    ∑ i : Fin N, f i * (if i.1 = a then x else if i.1 = b then y else 0) = x * f ⟨a, ha⟩ + y * f ⟨b, hb⟩ := by
  have : ∀ i : Fin N, f i * (if i.1 = a then x else if i.1 = b then y else 0) =
      (if i = ⟨a, ha⟩ then x * f i else 0) + (if i = ⟨b, hb⟩ then y * f i else 0) := by
    intro i
    simp only [Fin.ext_iff]
    by_cases h1 : i.1 = a
    · simp [h1, hab, mul_comm]
    · by_cases h2 : i.1 = b <;> simp [h1, h2, hab.symm, mul_comm]
  rw [Finset.sum_congr rfl fun i _ => this i, Finset.sum_add_distrib, Finset.sum_ite_eq' , Finset.sum_ite_eq']
  simp

theorem mul_giv_apply {N a b p : Nat} (ha : a < N) (hb : b < N) (hab : a ≠ b) (cs sn : ℝ) (M : Matrix (Fin p) (Fin N) ℝ)
    (i : Fin p) (j : Fin N) :
    (M * giv N a b cs sn) i j = if j.1 = a then cs * M i ⟨a, ha⟩ + sn * M i ⟨b, hb⟩
      else if j.1 = b then -sn * M i ⟨a, ha⟩ + cs * M i ⟨b, hb⟩ else M i j := by
  rw [Matrix.mul_apply]
  simp only [giv, Matrix.of_apply]
  by_cases h1 : j.1 = a
  · simp only [h1, if_true]
    rw [sum_two ha hb hab]
  · by_cases h2 : j.1 = b
    · simp only [h2, Ne.symm hab, if_true, if_false]
      rw [sum_two ha hb hab]
    · simp [h1, h2]

theorem giv_orth {N a b : Nat} (ha : a < N) (hb : b < N) (hab : a ≠ b) {cs sn : ℝ} (h : cs ^ 2 + sn ^ 2 = 1) :
    Orth (giv N a b cs sn) := by
  unfold Orth
  ext i j
  rw [mul_giv_apply ha hb hab]
  simp only [transpose_apply, giv, Matrix.of_apply, Matrix.one_apply, Fin.ext_iff]
  by_cases h1 : j.1 = a
  · by_cases h2 : i.1 = a
    · simp [h1, h2, hab.symm]; nlinarith
    · by_cases h3 : i.1 = b
      · simp [h1, h3, hab.symm]; ring
      · simp [h1, h2, h3, Ne.symm h2, Ne.symm h3]
  · by_cases h4 : j.1 = b
    · by_cases h2 : i.1 = a
      · simp [h4, h2, hab, hab.symm]; ring
      · by_cases h3 : i.1 = b
        · simp [h4, h3, hab.symm]; nlinarith
        · simp [h4, h2, h3, hab.symm, Ne.symm h2, Ne.symm h3]
    · by_cases h2 : i.1 = a
      · simp [h1, h4, h2, Ne.symm h1]
      · by_cases h3 : i.1 = b
        · simp [h1, h4, h3, hab.symm, Ne.symm h4]
        · simp [h1, h4, h2, h3, eq_comm]

/-- Square root of the sum of squared entries. -/
noncomputable def frob {m n : Nat} (M : Matrix (Fin m) (Fin n) ℝ) : ℝ := Real.sqrt (∑ i, ∑ j, M i j ^ 2)

theorem frob_nonneg {m n : Nat} (M : Matrix (Fin m) (Fin n) ℝ) : 0 ≤ frob M := Real.sqrt_nonneg _

theorem sumsq_nonneg {m n : Nat} (M : Matrix (Fin m) (Fin n) ℝ) : 0 ≤ ∑ i, ∑ j, M i j ^ 2 :=
  Finset.sum_nonneg fun _ _ => Finset.sum_nonneg fun _ _ => sq_nonneg _

theorem frob_sq {m n : Nat} (M : Matrix (Fin m) (Fin n) ℝ) : frob M ^ 2 = ∑ i, ∑ j, M i j ^ 2 :=
  Real.sq_sqrt (sumsq_nonneg M)

theorem frob_eq_norm {m n : Nat} (M : Matrix (Fin m) (Fin n) ℝ) :
    frob M = ‖(WithLp.toLp 2 fun x : Fin m × Fin n => M x.1 x.2 : EuclideanSpace ℝ (Fin m × Fin n))‖ := by
  rw [EuclideanSpace.norm_eq, frob, Fintype.sum_prod_type]
  simp

theorem frob_add_le {m n : Nat} (M N : Matrix (Fin m) (Fin n) ℝ) : frob (M + N) ≤ frob M + frob N := by
  rw [frob_eq_norm, frob_eq_norm, frob_eq_norm]
  exact norm_add_le (WithLp.toLp 2 fun x : Fin m × Fin n => M x.1 x.2 : EuclideanSpace ℝ (Fin m × Fin n))
    (WithLp.toLp 2 fun x : Fin m × Fin n => N x.1 x.2)

theorem sumsq_eq_trace {m n : Nat} (M : Matrix (Fin m) (Fin n) ℝ) : ∑ i, ∑ j, M i j ^ 2 = (M * Mᵀ).trace := by
  simp only [Matrix.trace, Matrix.diag_apply, Matrix.mul_apply, transpose_apply, sq]

theorem sumsq_transpose {m n : Nat} (M : Matrix (Fin m) (Fin n) ℝ) : ∑ i, ∑ j, Mᵀ i j ^ 2 = ∑ i, ∑ j, M i j ^ 2 := by
  rw [Finset.sum_comm]; rfl

theorem frob_transpose {m n : Nat} (M : Matrix (Fin m) (Fin n) ℝ) : frob Mᵀ = frob M := by
  rw [frob, frob, sumsq_transpose]

theorem frob_mul_right {m n : Nat} (M : Matrix (Fin m) (Fin n) ℝ) {V : Matrix (Fin n) (Fin n) ℝ} (hV : Orth V) :
    frob (M * Vᵀ) = frob M := by
  rw [frob, frob, sumsq_eq_trace, sumsq_eq_trace, transpose_mul, transpose_transpose, Matrix.mul_assoc,
    ← Matrix.mul_assoc Vᵀ, hV, Matrix.one_mul]

theorem frob_mul_left {m n : Nat} (M : Matrix (Fin m) (Fin n) ℝ) {U : Matrix (Fin m) (Fin m) ℝ} (hU : Orth U) :
    frob (U * M) = frob M := by
  rw [← frob_transpose, transpose_mul, frob_mul_right _ hU, frob_transpose]

theorem abs_le_frob {m n : Nat} (M : Matrix (Fin m) (Fin n) ℝ) (i : Fin m) (j : Fin n) : |M i j| ≤ frob M := by
  rw [← Real.sqrt_sq_eq_abs]
  refine Real.sqrt_le_sqrt ?_
  exact (Finset.single_le_sum (f := fun j => M i j ^ 2) (fun _ _ => sq_nonneg _) (Finset.mem_univ j)).trans
    (Finset.single_le_sum (f := fun i => ∑ j, M i j ^ 2)
      (fun _ _ => Finset.sum_nonneg fun _ _ => sq_nonneg _) (Finset.mem_univ i))

end LA
