import Verif.Rounding
import Verif.Proofs.Norm
import Mathlib.Tactic.Linarith
import Mathlib.Tactic.Ring

/-! # Rounding errors of sums of products -/

set_option linter.unusedSectionVars false

namespace LA
open Finset

section
variable {α : Type}

/-- `z`, then `x 0`, …, `x (k-1)` taken in by `op`, from left to right. -/
def facc (op : α → α → α) (z : α) (x : Nat → α) : Nat → α
  | 0 => z
  | k + 1 => op (facc op z x k) (x k)

theorem facc_congr {op : α → α → α} {z : α} {x y : Nat → α} {k : Nat} (h : ∀ i, i < k → x i = y i) :
    facc op z x k = facc op z y k := by
  induction k with
  | zero => rfl
  | succ k ih => rw [facc, facc, ih fun i hi => h i (by omega), h k (by omega)]

theorem facc_shift {op : α → α → α} {z : α} {x : Nat → α} {k : Nat} :
    facc op z x (k + 1) = facc op (op z (x 0)) (fun i => x (i + 1)) k := by
  induction k with
  | zero => rfl
  | succ k ih => rw [facc, ih, facc]

theorem loop_facc {op : α → α → α} {z : α} {x : Nat → α} {k : Nat} {f : Nat → α → R α}
    (h : ∀ i s, i < k → f i s = .ok (op s (x i))) : loop 0 k z f = .ok (facc op z x k) := by
  refine (loop_post (fun i s => s = facc op z x i) (Nat.zero_le k) rfl ?_).eq_ok
  rintro i s - hi rfl
  rw [h i _ hi]
  exact Post.ok rfl

theorem foldl_facc {op : α → α → α} {z : α} {x : Nat → α} (k : Nat) :
    (List.finRange k).foldl (fun s (i : Fin k) => op s (x i)) z = facc op z x k := by
  induction k with
  | zero => rfl
  | succ k ih =>
    rw [List.finRange_succ_last, List.foldl_append, List.foldl_map]
    simp only [Fin.val_castSucc, List.foldl_cons, List.foldl_nil, Fin.val_last]
    rw [ih]; rfl

end

section
variable {α : Type} [Zero α] [One α] [Add α] [Sub α] [Neg α] [Mul α] [FloatOps α] [Fp α]

/-- The computed sum of products `x 0 * y 0 + … + x (k-1) * y (k-1)`. -/
def fdot (x y : Nat → α) (k : Nat) : α := facc (· + ·) 0 (fun i => x i * y i) k

omit [Fp α] in
theorem fdot_congr {x y x' y' : Nat → α} {k : Nat} (h : ∀ i, i < k → x i = x' i ∧ y i = y' i) :
    fdot x y k = fdot x' y' k := facc_congr fun i hi => by rw [(h i hi).1, (h i hi).2]

open Fp

theorem one_u : (1 : ℝ) ≤ 1 + u α := by have := u_nonneg (α := α); linarith
theorem one_le_pow (k : Nat) : (1 : ℝ) ≤ (1 + u α) ^ k := one_le_pow₀ one_u
theorem γ_nonneg (k : Nat) : 0 ≤ γ α k := by unfold γ; linarith [one_le_pow (α := α) k]
theorem γ_mono {j k : Nat} (h : j ≤ k) : γ α j ≤ γ α k := by
  unfold γ; linarith [pow_le_pow_right₀ (one_u (α := α)) h]
theorem γ_one : γ α 1 = u α := by unfold γ; ring
theorem γ_two : γ α 2 = u α + u α * (1 + u α) := by unfold γ; ring
theorem u_le_γ {k : Nat} (h : 1 ≤ k) : u α ≤ γ α k := γ_one (α := α) ▸ γ_mono h
theorem γ_succ (k : Nat) : γ α (k + 1) = (1 + u α) * γ α k + u α := by unfold γ; ring
theorem θ_nonneg (k : Nat) : 0 ≤ θ α k := by
  unfold θ
  have := one_le_pow (α := α) k
  have := η_nonneg (α := α)
  positivity
theorem θ_mono {j k : Nat} (h : j ≤ k) : θ α j ≤ θ α k := by
  unfold θ
  have h1 := pow_le_pow_right₀ (one_u (α := α)) h
  have h2 := one_le_pow (α := α) j
  have h3 := η_nonneg (α := α)
  have h4 : (j : ℝ) ≤ k := by exact_mod_cast h
  gcongr
theorem θ_succ (k : Nat) : (1 + u α) * θ α k + (1 + u α) * η α ≤ θ α (k + 1) := by
  unfold θ
  have h2 := one_le_pow (α := α) k
  have h3 := η_nonneg (α := α)
  have h4 := one_u (α := α)
  have : (1 + u α) * η α ≤ (1 + u α) ^ (k + 1) * η α := by
    refine mul_le_mul_of_nonneg_right ?_ h3
    calc (1 + u α) = (1 + u α) ^ 1 := (pow_one _).symm
      _ ≤ _ := pow_le_pow_right₀ h4 (by omega)
  push_cast
  calc (1 + u α) * (k * (1 + u α) ^ k * η α) + (1 + u α) * η α
      ≤ (1 + u α) * (k * (1 + u α) ^ k * η α) + (1 + u α) ^ (k + 1) * η α := by linarith
    _ = _ := by ring

/-- Error of a computed sum of products. -/
theorem fdot_err (x y : Nat → α) (k : Nat) (h : fin (fdot x y k)) :
    (∀ i, i < k → fin (x i) ∧ fin (y i)) ∧
    |val (fdot x y k) - ∑ i ∈ range k, val (x i) * val (y i)| ≤
      γ α (k + 1) * (∑ i ∈ range k, |val (x i) * val (y i)|) + θ α k := by
  induction k with
  | zero =>
    refine ⟨fun i hi => by omega, ?_⟩
    have : val (fdot x y 0) = 0 := Fp.zero.2
    rw [this]; simpa using θ_nonneg (α := α) 0
  | succ k ih =>
    have hadd := Fp.add _ _ h
    obtain ⟨h1, h2, h3, -⟩ := hadd
    obtain ⟨h4, h5, h6, -⟩ := Fp.mul _ _ h2
    obtain ⟨h7, h8⟩ := ih h1
    refine ⟨fun i hi => ?_, ?_⟩
    · rcases Nat.lt_succ_iff_lt_or_eq.mp hi with hi | rfl
      · exact h7 i hi
      · exact ⟨h4, h5⟩
    · rw [sum_range_succ, sum_range_succ]
      change |val (fdot x y k + x k * y k) - _| ≤ _
      change |val (fdot x y k + x k * y k) - (val (fdot x y k) + val (x k * y k))| ≤ u α * |val (fdot x y k) + val (x k * y k)| at h3
      have hW : |∑ i ∈ range k, val (x i) * val (y i)| ≤ ∑ i ∈ range k, |val (x i) * val (y i)| := abs_sum_le_sum_abs _ _
      generalize hS : ∑ i ∈ range k, val (x i) * val (y i) = S at *
      generalize hV : ∑ i ∈ range k, |val (x i) * val (y i)| = V at *
      generalize val (fdot x y k + x k * y k) = r at *
      generalize val (fdot x y k) = s at *
      generalize val (x k * y k) = p at *
      generalize val (x k) * val (y k) = e at *
      have hu := u_nonneg (α := α)
      have hη := η_nonneg (α := α)
      have hg := γ_succ (α := α) (k + 1)
      have hθ := θ_succ (α := α) k
      have hg2 : u α + u α * (1 + u α) ≤ γ α (k + 1 + 1) := γ_two (α := α) ▸ γ_mono (by omega)
      have hV0 : 0 ≤ V := (abs_nonneg _).trans hW
      have a1 : |s| ≤ V + (γ α (k + 1) * V + θ α k) := by
        calc |s| = |S + (s - S)| := by ring_nf
          _ ≤ |S| + |s - S| := abs_add_le _ _
          _ ≤ _ := by linarith
      have a2 : |p| ≤ |e| + (u α * |e| + η α) := by
        calc |p| = |e + (p - e)| := by ring_nf
          _ ≤ |e| + |p - e| := abs_add_le _ _
          _ ≤ _ := by linarith
      have a3 : |r - (S + e)| ≤ |r - (s + p)| + |s - S| + |p - e| := by
        calc |r - (S + e)| = |(r - (s + p)) + (s - S) + (p - e)| := by ring_nf
          _ ≤ _ := abs_add_three _ _ _
      have a4 : u α * |s + p| ≤ u α * (|s| + |p|) := mul_le_mul_of_nonneg_left (abs_add_le _ _) hu
      have a5 : u α * |s| ≤ u α * (V + (γ α (k + 1) * V + θ α k)) := mul_le_mul_of_nonneg_left a1 hu
      have a6 : u α * |p| ≤ u α * (|e| + (u α * |e| + η α)) := mul_le_mul_of_nonneg_left a2 hu
      have a7 : (u α + u α * (1 + u α)) * |e| ≤ γ α (k + 1 + 1) * |e| := mul_le_mul_of_nonneg_right hg2 (abs_nonneg _)
      rw [mul_add]
      have a8 : γ α (k + 1 + 1) * V = (1 + u α) * γ α (k + 1) * V + u α * V := by rw [hg]; ring
      nlinarith
  
/-- Error of subtracting computed products one after the other, relative to the result. -/
theorem fsub_err (x y : Nat → α) (k : Nat) (z : α) (h : fin (facc (· - ·) z (fun i => x i * y i) k)) :
    fin z ∧ (∀ i, i < k → fin (x i) ∧ fin (y i)) ∧
    |val z - ∑ i ∈ range k, val (x i) * val (y i) - val (facc (· - ·) z (fun i => x i * y i) k)| ≤
      γ α k * (|val (facc (· - ·) z (fun i => x i * y i) k)| + ∑ i ∈ range k, |val (x i) * val (y i)|) + θ α k := by
  induction k generalizing x y z with
  | zero =>
    refine ⟨h, fun i hi => by omega, ?_⟩
    simp only [facc, range_zero, sum_empty, sub_zero, sub_self, abs_zero, add_zero]
    have := γ_nonneg (α := α) 0
    have := θ_nonneg (α := α) 0
    positivity
  | succ k ih =>
    rw [facc_shift] at h ⊢
    obtain ⟨h1, h2, h3⟩ := ih (fun i => x (i + 1)) (fun i => y (i + 1)) (z - x 0 * y 0) h
    obtain ⟨h4, h5, -, h6⟩ := Fp.sub _ _ h1
    obtain ⟨h7, h8, h9, -⟩ := Fp.mul _ _ h5
    refine ⟨h4, fun i hi => ?_, ?_⟩
    · cases i with
      | zero => exact ⟨h7, h8⟩
      | succ i => exact h2 i (by omega)
    · rw [sum_range_succ', sum_range_succ']
      have hW : |∑ i ∈ range k, val (x (i + 1)) * val (y (i + 1))| ≤ ∑ i ∈ range k, |val (x (i + 1)) * val (y (i + 1))| := abs_sum_le_sum_abs _ _
      generalize ∑ i ∈ range k, val (x (i + 1)) * val (y (i + 1)) = S at *
      generalize ∑ i ∈ range k, |val (x (i + 1)) * val (y (i + 1))| = V at *
      generalize val (facc (· - ·) (z - x 0 * y 0) (fun i => x (i + 1) * y (i + 1)) k) = t at *
      generalize val (z - x 0 * y 0) = s1 at *
      generalize val (x 0 * y 0) = p at *
      generalize val (x 0) * val (y 0) = e at *
      generalize val z = s0 at *
      have hu := u_nonneg (α := α)
      have hη := η_nonneg (α := α)
      have hg := γ_succ (α := α) k
      have hθ := θ_succ (α := α) k
      have hγ := γ_nonneg (α := α) k
      have hγ' := γ_nonneg (α := α) (k + 1)
      have hug := u_le_γ (α := α) (k := k + 1) (by omega)
      have a1 : |s1| ≤ |t| + V + (γ α k * (|t| + V) + θ α k) := by
        calc |s1| = |t + S + (s1 - S - t)| := by ring_nf
          _ ≤ |t| + |S| + |s1 - S - t| := abs_add_three _ _ _
          _ ≤ _ := by linarith
      have a2 : |s0 - (S + e) - t| ≤ |s1 - (s0 - p)| + |p - e| + |s1 - S - t| := by
        calc |s0 - (S + e) - t| = |-(s1 - (s0 - p)) + (p - e) + (s1 - S - t)| := by ring_nf
          _ ≤ _ := by rw [← abs_neg (s1 - (s0 - p))]; exact abs_add_three _ _ _
      have a3 : u α * |s1| ≤ u α * (|t| + V + (γ α k * (|t| + V) + θ α k)) := mul_le_mul_of_nonneg_left a1 hu
      have a4 : u α * |e| ≤ γ α (k + 1) * |e| := mul_le_mul_of_nonneg_right hug (abs_nonneg _)
      have a5 : γ α (k + 1) * (|t| + (V + |e|)) = (1 + u α) * γ α k * (|t| + V) + u α * (|t| + V) + γ α (k + 1) * |e| := by
        rw [hg]; ring
      rw [a5]
      nlinarith

end
end LA
