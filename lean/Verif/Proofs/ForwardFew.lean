import Verif.Proofs.RndSolveFin
import Mathlib.Algebra.BigOperators.Intervals

/-! # Forward substitution with a unit lower triangular matrix whose columns are small -/

set_option linter.unusedSectionVars false

namespace LA
open Finset

/-- The total of what is left after `k` steps. -/
theorem potential {n : Nat} {y β : Nat → ℝ} {g : Nat → Nat → ℝ} {κ l : ℝ} (hκ : 1 ≤ κ) (hl : 1 ≤ l) (hy0 : ∀ t, 0 ≤ y t) (hβ : ∀ i, 0 ≤ β i)
    (hg0 : ∀ i t, 0 ≤ g i t) (hg : ∀ t, t < n → ∑ i ∈ Ico (t + 1) n, g i t ≤ l) (k : Nat) (hk : k ≤ n)
    (hy : ∀ t, t < k → y t ≤ κ * (β t + ∑ s ∈ range t, y s * g t s)) :
    ∑ i ∈ Ico k n, (β i + ∑ t ∈ range k, y t * g i t) ≤ (κ * l) ^ k * ∑ i ∈ range n, β i := by
  induction k with
  | zero => simp
  | succ k ih =>
    have ih := ih (by omega) fun t ht => hy t (by omega)
    have hkl : 1 ≤ κ * l := one_le_mul_of_one_le_of_one_le hκ hl
    have hΦ : ∀ i, 0 ≤ β i + ∑ t ∈ range k, y t * g i t := fun i =>
      add_nonneg (hβ i) (sum_nonneg fun t _ => mul_nonneg (hy0 t) (hg0 i t))
    rw [sum_eq_sum_Ico_succ_bot (by omega)] at ih
    set T := β k + ∑ t ∈ range k, y t * g k t with hT
    set R := ∑ i ∈ Ico (k + 1) n, (β i + ∑ t ∈ range k, y t * g i t) with hR
    have hR0 : 0 ≤ R := sum_nonneg fun i _ => hΦ i
    have hT0 : 0 ≤ T := hΦ k
    have e : ∑ i ∈ Ico (k + 1) n, (β i + ∑ t ∈ range (k + 1), y t * g i t) = R + y k * ∑ i ∈ Ico (k + 1) n, g i k := by
      rw [hR, mul_sum, ← sum_add_distrib]
      exact sum_congr rfl fun i _ => by rw [sum_range_succ, add_assoc]
    rw [e, pow_succ, mul_comm ((κ * l) ^ k), mul_assoc]
    have h1 : y k * ∑ i ∈ Ico (k + 1) n, g i k ≤ κ * T * l :=
      mul_le_mul (hy k (by omega)) (hg k (by omega)) (sum_nonneg fun i _ => hg0 i k) (by positivity)
    have h2 : R ≤ κ * l * R := le_mul_of_one_le_left hR0 hkl
    have h3 : κ * l * (T + R) ≤ κ * l * ((κ * l) ^ k * ∑ i ∈ range n, β i) := mul_le_mul_of_nonneg_left ih (by positivity)
    rw [mul_add] at h3
    linarith

namespace LU.Rnd
variable {α : Type} [Zero α] [One α] [Add α] [Sub α] [Neg α] [Mul α] [FloatOps α] [Fp α]
open Fp

/-- Forward substitution: the solution is bounded by the sum of the right-hand side. -/
theorem forward_few {n : Nat} {G : Nat → Nat → α} {Y b : Nat → α} {l β : ℝ} (hl : 1 ≤ l) (hβ : 0 ≤ β)
    (h : ∀ i, i < n → Y i = facc (· - ·) (b i) (fun t => Y t * G i t) i)
    (hb : ∀ i, i < n → fin (b i) ∧ |val (b i)| ≤ β) (hG : ∀ i t, i < n → t < i → fin (G i t))
    (hg : ∀ t, t < n → ∑ i ∈ Ico (t + 1) n, |val (G i t)| ≤ l)
    (hΩ : (1 + u α) ^ n * (((1 + u α) ^ n * l) ^ n * (n * (β + n * η α))) ≤ Ω α) :
    ∀ i, i < n → fin (Y i) ∧ |val (Y i)| ≤ (1 + u α) ^ n * (((1 + u α) ^ n * l) ^ n * (n * (β + n * η α))) := by
  have hη := η_nonneg (α := α)
  have hq := one_le_pow (α := α) n
  intro i
  induction i using Nat.strong_induction_on with
  | _ i ih =>
    intro hi
    have hs : ∀ k, k < n → |val (b k)| + (∑ t ∈ range k, |val (Y t) * val (G k t)|) + k * η α ≤
        (β + n * η α) + ∑ t ∈ range k, |val (Y t)| * |val (G k t)| := fun k hk => by
      have p2 : (k : ℝ) * η α ≤ n * η α := mul_le_mul_of_nonneg_right (by exact_mod_cast hk.le) hη
      have := (hb k hk).2
      simp only [abs_mul]
      linarith
    have hs0 : ∀ k, 0 ≤ |val (b k)| + (∑ t ∈ range k, |val (Y t) * val (G k t)|) + k * η α := fun k =>
      add_nonneg (add_nonneg (abs_nonneg _) (sum_nonneg fun _ _ => abs_nonneg _)) (by positivity)
    have hr : ∀ k, k < n → (1 + u α) ^ (k + 1) * (|val (b k)| + (∑ t ∈ range k, |val (Y t) * val (G k t)|) + k * η α) ≤
        (1 + u α) ^ n * ((β + n * η α) + ∑ t ∈ range k, |val (Y t)| * |val (G k t)|) := fun k hk =>
      mul_le_mul (pow_le_pow_right₀ (one_u (α := α)) (by omega)) (hs k hk) (hs0 k) (zero_le_one.trans hq)
    have key : ∀ k, k ≤ i → (1 + u α) ^ n * ((β + n * η α) + ∑ t ∈ range k, |val (Y t)| * |val (G k t)|) ≤
        (1 + u α) ^ n * (((1 + u α) ^ n * l) ^ n * (n * (β + n * η α))) ∧
        ∀ t, t < k → |val (Y t)| ≤ (1 + u α) ^ n * ((β + n * η α) + ∑ s ∈ range t, |val (Y s)| * |val (G t s)|) := by
      intro k
      induction k using Nat.strong_induction_on with
      | _ k ihk =>
        intro hki
        have hY : ∀ t, t < k → |val (Y t)| ≤ (1 + u α) ^ n * ((β + n * η α) + ∑ s ∈ range t, |val (Y s)| * |val (G t s)|) := by
          intro t ht
          have h1 := (ihk t ht (by omega)).1
          have := fsub_fin Y (fun s => G t s) (b t) (hb t (by omega)).1 t
            (fun s hs => ⟨(ih s (by omega) (by omega)).1, hG t s (by omega) hs⟩) ((hr t (by omega)).trans (h1.trans hΩ))
          rw [← h t (by omega)] at this
          exact this.2.trans (hr t (by omega))
        refine ⟨mul_le_mul_of_nonneg_left ?_ (zero_le_one.trans hq), hY⟩
        have hp := potential (n := n) (y := fun t => |val (Y t)|) (β := fun _ => β + n * η α) (g := fun i t => |val (G i t)|) hq hl (fun _ => abs_nonneg _)
          (fun _ => by positivity) (fun _ _ => abs_nonneg _) hg k (by omega) hY
        rw [sum_eq_sum_Ico_succ_bot (by omega), sum_const, card_range, nsmul_eq_mul] at hp
        have hR : 0 ≤ ∑ i ∈ Ico (k + 1) n, ((β + n * η α) + ∑ t ∈ range k, |val (Y t)| * |val (G i t)|) :=
          sum_nonneg fun i _ => add_nonneg (by positivity) (sum_nonneg fun _ _ => by positivity)
        have hpw : ((1 + u α) ^ n * l) ^ k ≤ ((1 + u α) ^ n * l) ^ n :=
          pow_le_pow_right₀ (one_le_mul_of_one_le_of_one_le hq hl) (by omega)
        have := mul_le_mul_of_nonneg_right hpw (show 0 ≤ n * (β + n * η α) by positivity)
        linarith
    have h1 := (key i le_rfl).1
    have := fsub_fin Y (fun s => G i s) (b i) (hb i hi).1 i (fun s hs => ⟨(ih s hs (by omega)).1, hG i s hi hs⟩) ((hr i hi).trans (h1.trans hΩ))
    rw [← h i hi] at this
    exact ⟨this.1, this.2.trans ((hr i hi).trans h1)⟩

end LU.Rnd
end LA
