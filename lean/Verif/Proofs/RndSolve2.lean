import Verif.Proofs.RndSolve

/-! # Residual of a computed solution -/

set_option linter.unusedSectionVars false

namespace LA
open Finset

theorem resid2 {n : Nat} {L U : Fin n → Fin n → ℝ} {b x y r1 r2 : Fin n → ℝ} {g1 g2 : ℝ} (hg1 : 0 ≤ g1)
    (h1 : ∀ i, |b i - ∑ k, L i k * y k| ≤ g1 * (∑ k, |L i k| * |y k|) + r1 i)
    (h2 : ∀ k, |y k - ∑ c, U k c * x c| ≤ g2 * (∑ c, |U k c| * |x c|) + r2 k) (i : Fin n) :
    |b i - ∑ k, L i k * ∑ c, U k c * x c| ≤
      (g1 * (1 + g2) + g2) * (∑ k, |L i k| * ∑ c, |U k c| * |x c|) + r1 i + (1 + g1) * ∑ k, |L i k| * r2 k := by
  have e : b i - ∑ k, L i k * ∑ c, U k c * x c = (b i - ∑ k, L i k * y k) + ∑ k, L i k * (y k - ∑ c, U k c * x c) := by
    simp only [mul_sub, sum_sub_distrib]; ring
  have a1 : |∑ k, L i k * (y k - ∑ c, U k c * x c)| ≤ ∑ k, |L i k| * (g2 * (∑ c, |U k c| * |x c|) + r2 k) := by
    refine (abs_sum_le_sum_abs _ _).trans (sum_le_sum fun k _ => ?_)
    rw [abs_mul]
    exact mul_le_mul_of_nonneg_left (h2 k) (abs_nonneg _)
  have a2 : ∑ k, |L i k| * |y k| ≤ ∑ k, |L i k| * ((1 + g2) * (∑ c, |U k c| * |x c|) + r2 k) := by
    refine sum_le_sum fun k _ => mul_le_mul_of_nonneg_left ?_ (abs_nonneg _)
    have h3 : |∑ c, U k c * x c| ≤ ∑ c, |U k c| * |x c| := by
      refine (abs_sum_le_sum_abs _ _).trans (le_of_eq (sum_congr rfl fun c _ => abs_mul _ _))
    calc |y k| = |(∑ c, U k c * x c) + (y k - ∑ c, U k c * x c)| := by ring_nf
      _ ≤ |∑ c, U k c * x c| + |y k - ∑ c, U k c * x c| := abs_add_le _ _
      _ ≤ _ := by linarith [h2 k]
  have s1 : ∑ k, |L i k| * (g2 * (∑ c, |U k c| * |x c|) + r2 k) =
      g2 * (∑ k, |L i k| * ∑ c, |U k c| * |x c|) + ∑ k, |L i k| * r2 k := by
    rw [mul_sum, ← sum_add_distrib]; exact sum_congr rfl fun k _ => by ring
  have s2 : ∑ k, |L i k| * ((1 + g2) * (∑ c, |U k c| * |x c|) + r2 k) =
      (1 + g2) * (∑ k, |L i k| * ∑ c, |U k c| * |x c|) + ∑ k, |L i k| * r2 k := by
    rw [mul_sum, ← sum_add_distrib]; exact sum_congr rfl fun k _ => by ring
  rw [s1] at a1
  rw [s2] at a2
  have a3 := mul_le_mul_of_nonneg_left a2 hg1
  rw [e]
  refine (abs_add_le _ _).trans ?_
  have := h1 i
  nlinarith

theorem resid3 {n : Nat} {A L U : Fin n → Fin n → ℝ} {b x y r1 r2 : Fin n → ℝ} {r3 : Fin n → Fin n → ℝ} {g1 g2 g3 : ℝ} (hg1 : 0 ≤ g1)
    (h1 : ∀ i, |b i - ∑ k, L i k * y k| ≤ g1 * (∑ k, |L i k| * |y k|) + r1 i)
    (h2 : ∀ k, |y k - ∑ c, U k c * x c| ≤ g2 * (∑ c, |U k c| * |x c|) + r2 k)
    (h3 : ∀ i c, |A i c - ∑ k, L i k * U k c| ≤ g3 * (∑ k, |L i k| * |U k c|) + r3 i c) (i : Fin n) :
    |b i - ∑ c, A i c * x c| ≤
      (g1 * (1 + g2) + g2 + g3) * (∑ k, |L i k| * ∑ c, |U k c| * |x c|) + r1 i + (1 + g1) * (∑ k, |L i k| * r2 k) +
        ∑ c, r3 i c * |x c| := by
  have a1 := resid2 hg1 h1 h2 i
  have e1 : ∑ k, L i k * ∑ c, U k c * x c = ∑ c, (∑ k, L i k * U k c) * x c := by
    simp only [mul_sum, sum_mul]
    rw [sum_comm]
    exact sum_congr rfl fun c _ => sum_congr rfl fun k _ => by ring
  have e2 : ∑ k, |L i k| * ∑ c, |U k c| * |x c| = ∑ c, (∑ k, |L i k| * |U k c|) * |x c| := by
    simp only [mul_sum, sum_mul]
    rw [sum_comm]
    exact sum_congr rfl fun c _ => sum_congr rfl fun k _ => by ring
  have a2 : |(∑ c, (∑ k, L i k * U k c) * x c) - ∑ c, A i c * x c| ≤
      ∑ c, (g3 * (∑ k, |L i k| * |U k c|) + r3 i c) * |x c| := by
    rw [← sum_sub_distrib]
    refine (abs_sum_le_sum_abs _ _).trans (sum_le_sum fun c _ => ?_)
    rw [← sub_mul, abs_mul, abs_sub_comm]
    exact mul_le_mul_of_nonneg_right (h3 i c) (abs_nonneg _)
  have e3 : ∑ c, (g3 * (∑ k, |L i k| * |U k c|) + r3 i c) * |x c| =
      g3 * (∑ c, (∑ k, |L i k| * |U k c|) * |x c|) + ∑ c, r3 i c * |x c| := by
    rw [mul_sum, ← sum_add_distrib]; exact sum_congr rfl fun c _ => by ring
  rw [e3] at a2
  have a3 : |b i - ∑ c, A i c * x c| ≤ |b i - ∑ k, L i k * ∑ c, U k c * x c| +
      |(∑ c, (∑ k, L i k * U k c) * x c) - ∑ c, A i c * x c| := by
    rw [e1]
    calc _ = |(b i - ∑ c, (∑ k, L i k * U k c) * x c) + ((∑ c, (∑ k, L i k * U k c) * x c) - ∑ c, A i c * x c)| := by ring_nf
      _ ≤ _ := abs_add_le _ _
  rw [← e2] at a2
  nlinarith

theorem sum_lower {n : Nat} (g : Nat → Nat → ℝ) (f : Nat → ℝ) (i : Fin n) :
    ∑ k : Fin n, LU.lower n n g i k * f k = (∑ t ∈ range i, g i t * f t) + f i := by
  have hi := i.2
  rw [Finset.sum_fin_eq_sum_range, Finset.range_eq_Ico, ← Finset.sum_Ico_consecutive _ (Nat.zero_le i.1) i.2.le,
    Finset.sum_eq_sum_Ico_succ_bot i.2, Finset.sum_eq_zero (s := Ico (i.1 + 1) n), add_zero, ← Finset.range_eq_Ico]
  · congr 1
    · refine sum_congr rfl fun t ht => ?_
      rw [mem_range] at ht
      rw [dif_pos (by omega)]
      simp only [LU.lower, Matrix.of_apply]
      rw [if_pos ht]
    · rw [dif_pos hi]; simp [LU.lower]
  · intro t ht
    rw [mem_Ico] at ht
    rw [dif_pos ht.2]
    simp only [LU.lower, Matrix.of_apply]
    rw [if_neg (by omega), if_neg (by omega), zero_mul]

theorem sum_upper {n : Nat} (g : Nat → Nat → ℝ) (f : Nat → ℝ) (i : Fin n) :
    ∑ c : Fin n, LU.upper n n g i c * f c = (∑ s ∈ range (n - 1 - i), f (n - 1 - s) * g i (n - 1 - s)) + f i * g i i := by
  have hi := i.2
  have e : ∑ s ∈ range (n - 1 - i), f (n - 1 - s) * g i (n - 1 - s) = ∑ t ∈ Ico (i.1 + 1) n, g i t * f t := by
    rw [sum_Ico_eq_sum_range, ← sum_range_reflect, show n - (i.1 + 1) = n - 1 - i.1 by omega]
    refine sum_congr rfl fun s hs => ?_
    rw [mem_range] at hs
    rw [show n - 1 - (n - 1 - i.1 - 1 - s) = i.1 + 1 + s by omega, mul_comm]
  rw [e, Finset.sum_fin_eq_sum_range, Finset.range_eq_Ico, ← Finset.sum_Ico_consecutive _ (Nat.zero_le i.1) i.2.le,
    Finset.sum_eq_sum_Ico_succ_bot i.2, Finset.sum_eq_zero (s := Ico 0 i.1), zero_add, add_comm]
  · congr 1
    · refine sum_congr rfl fun t ht => ?_
      rw [mem_Ico] at ht
      rw [dif_pos (by omega)]
      simp only [LU.upper, Matrix.of_apply]
      rw [if_pos (by omega)]
    · rw [dif_pos hi]; simp [LU.upper, mul_comm]
  · intro t ht
    rw [mem_Ico] at ht
    rw [dif_pos (by omega)]
    simp only [LU.upper, Matrix.of_apply]
    rw [if_neg (by omega), zero_mul]

variable {α : Type} [Zero α] [One α] [Add α] [Sub α] [Neg α] [Mul α] [FloatOps α] [Fp α]
open Fp
namespace LU.Rnd

/-- Forward substitution. -/
theorem forward_err {n p : Nat} {G Y : Nat → Nat → α} {b : Nat → Nat → α} (j : Fin p)
    (h : ∀ i : Fin n, Y i j = facc (· - ·) (b i j) (fun t => Y t j * G i t) i) (hf : ∀ i : Fin n, fin (Y i j)) (i : Fin n) :
    |val (b i j) - ∑ k : Fin n, lower n n (fun i c => val (G i c)) i k * val (Y k j)| ≤
      γ α n * (∑ k : Fin n, |lower n n (fun i c => val (G i c)) i k| * |val (Y k j)|) + θ α n := by
  have hfi := hf i
  rw [h i] at hfi
  obtain ⟨-, -, h1⟩ := fsub_err (fun t => Y t j) (fun t => G i t) i (b i j) hfi
  rw [← h i] at h1
  have hi := i.2
  rw [sum_lower (fun i c => val (G i c)) (fun t => val (Y t j)) i]
  have e2 : ∑ k : Fin n, |lower n n (fun i c => val (G i c)) i k| * |val (Y k j)| =
      (∑ t ∈ range i, |val (Y t j) * val (G i t)|) + |val (Y i j)| := by
    have := sum_lower (fun i c => |val (G i c)|) (fun t => |val (Y t j)|) i
    rw [show ∑ k : Fin n, |lower n n (fun i c => val (G i c)) i k| * |val (Y k j)| =
      ∑ k : Fin n, lower n n (fun i c => |val (G i c)|) i k * |val (Y k j)| from
      sum_congr rfl fun k _ => by rw [← (val_lowerA n n G i k).1, (val_lowerA n n G i k).2], this]
    congr 1
    exact sum_congr rfl fun t _ => by rw [abs_mul, mul_comm]
  rw [e2]
  have e3 : ∑ t ∈ range i.1, val (G i t) * val (Y t j) = ∑ t ∈ range i.1, val (Y t j) * val (G i t) :=
    sum_congr rfl fun t _ => mul_comm _ _
  rw [e3, ← sub_sub]
  have hpos : 0 ≤ |val (Y i j)| + ∑ t ∈ range i, |val (Y t j) * val (G i t)| := by
    have : 0 ≤ ∑ t ∈ range i.1, |val (Y t j) * val (G i t)| := sum_nonneg fun _ _ => abs_nonneg _
    positivity
  have a1 := mul_le_mul_of_nonneg_right (γ_mono (α := α) (show i.1 ≤ n by omega)) hpos
  have a2 := θ_mono (α := α) (show i.1 ≤ n by omega)
  rw [add_comm (∑ t ∈ range i.1, |val (Y t j) * val (G i t)|)]
  linarith

/-- Back substitution, one row. -/
theorem backward_err_row {n p : Nat} {G X Y : Nat → Nat → α} (j : Fin p) (i : Fin n)
    (h : RDiv.rdiv (facc (· - ·) (Y i j) (fun s => X (n - 1 - s) j * G i (n - 1 - s)) (n - 1 - i)) (G i i) = .ok (X i j))
    (hX : fin (X i j)) (hG : fin (G i i)) :
    fin (Y i j) ∧ |val (Y i j) - ∑ c : Fin n, upper n n (fun i c => val (G i c)) i c * val (X c j)| ≤
      γ α n * (∑ c : Fin n, |upper n n (fun i c => val (G i c)) i c| * |val (X c j)|) +
        (θ α n + (1 + u α) ^ n * η α * |val (G i i)|) := by
  obtain ⟨h0, -, h1⟩ := fsub_div_err (x := fun s => X (n - 1 - s) j) (y := fun s => G i (n - 1 - s)) h hX hG
  refine ⟨h0, ?_⟩
  have hi := i.2
  rw [sum_upper (fun i c => val (G i c)) (fun t => val (X t j)) i]
  have e2 : ∑ c : Fin n, |upper n n (fun i c => val (G i c)) i c| * |val (X c j)| =
      (∑ s ∈ range (n - 1 - i), |val (X (n - 1 - s) j) * val (G i (n - 1 - s))|) + |val (X i j) * val (G i i)| := by
    have := sum_upper (fun i c => |val (G i c)|) (fun t => |val (X t j)|) i
    rw [show ∑ k : Fin n, |upper n n (fun i c => val (G i c)) i k| * |val (X k j)| =
      ∑ k : Fin n, upper n n (fun i c => |val (G i c)|) i k * |val (X k j)| from
      sum_congr rfl fun k _ => by rw [← (val_upperA n n G i k).1, (val_upperA n n G i k).2], this, abs_mul]
    congr 1
    exact sum_congr rfl fun t _ => by rw [abs_mul]
  rw [e2]
  have hpos : 0 ≤ (∑ s ∈ range (n - 1 - i), |val (X (n - 1 - s) j) * val (G i (n - 1 - s))|) + |val (X i j) * val (G i i)| := by
    have : 0 ≤ ∑ s ∈ range (n - 1 - i.1), |val (X (n - 1 - s) j) * val (G i (n - 1 - s))| := sum_nonneg fun _ _ => abs_nonneg _
    positivity
  have a1 := mul_le_mul_of_nonneg_right (γ_mono (α := α) (show n - 1 - i.1 + 1 ≤ n by omega)) hpos
  have a2 := θ_mono (α := α) (show n - 1 - i.1 ≤ n by omega)
  have a3 : (1 + u α) ^ (n - 1 - i.1) * η α * |val (G i i)| ≤ (1 + u α) ^ n * η α * |val (G i i)| := by
    have := η_nonneg (α := α)
    have := pow_le_pow_right₀ (one_u (α := α)) (show n - 1 - i.1 ≤ n by omega)
    gcongr
  linarith

/-- Back substitution. -/
theorem backward_err {n p : Nat} {G X Y : Nat → Nat → α} (j : Fin p)
    (h : ∀ i : Fin n, RDiv.rdiv (facc (· - ·) (Y i j) (fun s => X (n - 1 - s) j * G i (n - 1 - s)) (n - 1 - i)) (G i i) = .ok (X i j))
    (hX : ∀ i : Fin n, fin (X i j)) (hG : ∀ i : Fin n, fin (G i i)) (i : Fin n) :
    fin (Y i j) ∧ |val (Y i j) - ∑ c : Fin n, upper n n (fun i c => val (G i c)) i c * val (X c j)| ≤
      γ α n * (∑ c : Fin n, |upper n n (fun i c => val (G i c)) i c| * |val (X c j)|) +
        (θ α n + (1 + u α) ^ n * η α * |val (G i i)|) :=
  backward_err_row j i (h i) (hX i) (hG i)

theorem γ_add_le (a b : Nat) : γ α a + γ α b ≤ γ α (a + b) := by
  have h1 := one_le_pow (α := α) a
  have h2 := one_le_pow (α := α) b
  unfold γ
  rw [pow_add]
  nlinarith

theorem γ_double (n : Nat) : γ α n * (1 + γ α n) + γ α n = γ α (n + n) := by unfold γ; ring

end LU.Rnd
end LA
