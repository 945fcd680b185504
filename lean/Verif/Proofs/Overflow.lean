import Verif.Proofs.RndLU2
import Mathlib.Algebra.Field.GeomSum

/-! # Absence of overflow -/

set_option linter.unusedSectionVars false

namespace LA
open Finset
variable {α : Type} [Zero α] [One α] [Add α] [Sub α] [Neg α] [Mul α] [FloatOps α] [Fp α]
open Fp

theorem fdot_abs (x y : Nat → α) (k : Nat) (h : fin (fdot x y k)) :
    |val (fdot x y k)| ≤ (1 + u α) ^ (k + 1) * (∑ i ∈ range k, |val (x i) * val (y i)|) + θ α k := by
  have h1 := (fdot_err x y k h).2
  have h2 : |∑ i ∈ range k, val (x i) * val (y i)| ≤ ∑ i ∈ range k, |val (x i) * val (y i)| := abs_sum_le_sum_abs _ _
  have h3 := abs_sub_abs_le_abs_sub (val (fdot x y k)) (∑ i ∈ range k, val (x i) * val (y i))
  have : (1 + u α) ^ (k + 1) * (∑ i ∈ range k, |val (x i) * val (y i)|) =
    γ α (k + 1) * (∑ i ∈ range k, |val (x i) * val (y i)|) + ∑ i ∈ range k, |val (x i) * val (y i)| := by unfold γ; ring
  linarith

/-- A sum of products does not overflow if the sum of the absolute values leaves room for the rounding errors. -/
theorem fdot_fin (x y : Nat → α) (k : Nat) (hxy : ∀ i, i < k → fin (x i) ∧ fin (y i))
    (h : (1 + u α) ^ (k + 1) * (∑ i ∈ range k, |val (x i) * val (y i)|) + θ α k ≤ Ω α) : fin (fdot x y k) := by
  induction k with
  | zero => exact Fp.zero.1
  | succ k ih =>
    have hu := u_nonneg (α := α)
    have hη := η_nonneg (α := α)
    have h1u := one_u (α := α)
    have hp := one_le_pow (α := α) (k + 1)
    have hθ := θ_succ (α := α) k
    have hθ0 := θ_nonneg (α := α) k
    rw [sum_range_succ] at h
    have hV : 0 ≤ ∑ i ∈ range k, |val (x i) * val (y i)| := sum_nonneg fun _ _ => abs_nonneg _
    have he := abs_nonneg (val (x k) * val (y k))
    have hpw : (1 + u α) ^ (k + 1 + 1) = (1 + u α) * (1 + u α) ^ (k + 1) := by ring
    -- the partial sum
    have hV2 : (1 + u α) ^ (k + 1) * (∑ i ∈ range k, |val (x i) * val (y i)|) + θ α k ≤
        (1 + u α) * ((1 + u α) ^ (k + 1) * (∑ i ∈ range k, |val (x i) * val (y i)|) + θ α k) := by
      have : 0 ≤ (1 + u α) ^ (k + 1) * (∑ i ∈ range k, |val (x i) * val (y i)|) + θ α k := by positivity
      nlinarith
    have he2 : (1 + u α) * |val (x k) * val (y k)| + η α ≤ (1 + u α) * ((1 + u α) * |val (x k) * val (y k)| + η α) := by
      have : 0 ≤ (1 + u α) * |val (x k) * val (y k)| + η α := by positivity
      nlinarith
    have he3 : (1 + u α) * (1 + u α) * |val (x k) * val (y k)| ≤ (1 + u α) ^ (k + 1 + 1) * |val (x k) * val (y k)| := by
      have : (1 + u α) ^ 2 ≤ (1 + u α) ^ (k + 1 + 1) := pow_le_pow_right₀ h1u (by omega)
      have := mul_le_mul_of_nonneg_right this he
      linarith
    have htot : (1 + u α) * ((1 + u α) ^ (k + 1) * (∑ i ∈ range k, |val (x i) * val (y i)|) + θ α k) +
        (1 + u α) * ((1 + u α) * |val (x k) * val (y k)| + η α) ≤ Ω α := by
      rw [mul_add, hpw] at h
      rw [hpw] at he3
      linarith
    have ha0 : 0 ≤ (1 + u α) * ((1 + u α) ^ (k + 1) * (∑ i ∈ range k, |val (x i) * val (y i)|) + θ α k) := by positivity
    have hb0 : 0 ≤ (1 + u α) * ((1 + u α) * |val (x k) * val (y k)| + η α) := by positivity
    have f1 : fin (fdot x y k) := ih (fun i hi => hxy i (by omega)) (by linarith)
    have f2 : fin (x k * y k) := Fp.mul_fin _ _ (hxy k (by omega)).1 (hxy k (by omega)).2 (by linarith)
    refine Fp.add_fin _ _ f1 f2 (le_trans ?_ htot)
    rw [← mul_add]
    refine mul_le_mul_of_nonneg_left ?_ (by linarith)
    have b1 := fdot_abs x y k f1
    have b2 := (Fp.mul _ _ f2).2.2.1
    have b3 := abs_sub_abs_le_abs_sub (val (x k * y k)) (val (x k) * val (y k))
    refine (abs_add_le _ _).trans ?_
    have : |val (facc (· + ·) 0 (fun i => x i * y i) k)| = |val (fdot x y k)| := rfl
    rw [this]
    linarith

namespace LU.Rnd

theorem W_fin {G : Nat → Nat → α} {i c r : Nat} {a : α} {M : ℝ} (ha : fin a) (haM : |val a| ≤ M) (hr : min i c < r)
    (hβ : (1 + u α) ^ (r + 2) * (1 + u α + η α) ≤ 2) (hΩ : (1 + u α) * (M + θ α r) * 3 ^ r ≤ Ω α)
    (h1 : ∀ t, t < min i c → fin (G i t) ∧ |val (G i t)| ≤ 1 + u α + η α)
    (h2 : ∀ t, t < min i c → fin (G t c) ∧ |val (G t c)| ≤ (1 + u α) * (M + θ α r) * 3 ^ t) :
    fin (W a G i c) ∧ |val (W a G i c)| ≤ (1 + u α) * (M + θ α r) * 3 ^ min i c := by
  unfold W
  generalize hk : min i c = k at *
  have hu := u_nonneg (α := α)
  have hη := η_nonneg (α := α)
  have h1u := one_u (α := α)
  have hM : 0 ≤ M := (abs_nonneg _).trans haM
  have hθ0 := θ_nonneg (α := α) r
  have hθ1 := θ_mono (α := α) hr.le
  generalize hR : (1 + u α) * (M + θ α r) = R at *
  have hR0 : 0 ≤ R := by rw [← hR]; positivity
  have hβ0 : 0 ≤ 1 + u α + η α := by linarith
  have hS : (∑ t ∈ range k, |val (G i t) * val (G t c)|) ≤ (1 + u α + η α) * R * ((3 ^ k - 1) / 2) := by
    calc (∑ t ∈ range k, |val (G i t) * val (G t c)|) ≤ ∑ t ∈ range k, (1 + u α + η α) * R * 3 ^ t := by
          refine sum_le_sum fun t ht => ?_
          rw [mem_range] at ht
          rw [abs_mul, mul_assoc]
          exact mul_le_mul (h1 t ht).2 (h2 t ht).2 (abs_nonneg _) hβ0
      _ = _ := by rw [← mul_sum, geom_sum_eq (by norm_num)]; norm_num
  have h3k : (1 : ℝ) ≤ 3 ^ k := one_le_pow₀ (by norm_num)
  have h3kr : (3 : ℝ) ^ k ≤ 3 ^ r := pow_le_pow_right₀ (by norm_num) hr.le
  have hpow : (1 + u α) ^ (k + 2) * (1 + u α + η α) ≤ 2 := by
    refine le_trans (mul_le_mul_of_nonneg_right (pow_le_pow_right₀ h1u (by omega)) hβ0) hβ
  have hX0 : 0 ≤ R * (3 ^ k - 1) / 2 := by
    have : 0 ≤ R * (3 ^ k - 1) := mul_nonneg hR0 (by linarith)
    linarith
  -- `(1+u)^(k+2) * S ≤ R * (3^k - 1)`
  have hS2 : (1 + u α) ^ (k + 2) * (∑ t ∈ range k, |val (G i t) * val (G t c)|) ≤ R * (3 ^ k - 1) := by
    calc _ ≤ (1 + u α) ^ (k + 2) * ((1 + u α + η α) * R * ((3 ^ k - 1) / 2)) := by gcongr
      _ = ((1 + u α) ^ (k + 2) * (1 + u α + η α)) * (R * (3 ^ k - 1) / 2) := by ring
      _ ≤ 2 * (R * (3 ^ k - 1) / 2) := mul_le_mul_of_nonneg_right hpow hX0
      _ = _ := by ring
  have hSn : 0 ≤ ∑ t ∈ range k, |val (G i t) * val (G t c)| := sum_nonneg fun _ _ => abs_nonneg _
  have hθR : (1 + u α) * θ α k ≤ (1 + u α) * θ α r := mul_le_mul_of_nonneg_left hθ1 (by linarith)
  have hM1 : 0 ≤ (1 + u α) * M := by positivity
  have hRk : R * 3 ^ k ≤ R * 3 ^ r := mul_le_mul_of_nonneg_left h3kr hR0
  have e1 : (1 + u α) ^ (k + 2) = (1 + u α) * (1 + u α) ^ (k + 1) := by ring
  have hP0 : 0 ≤ (1 + u α) ^ (k + 1) * (∑ t ∈ range k, |val (G i t) * val (G t c)|) + θ α k :=
    add_nonneg (mul_nonneg (by positivity) hSn) (θ_nonneg k)
  have hP1 : (1 + u α) * ((1 + u α) ^ (k + 1) * (∑ t ∈ range k, |val (G i t) * val (G t c)|) + θ α k) + (1 + u α) * M ≤ R * 3 ^ k := by
    rw [e1] at hS2
    rw [← hR] at hS2 ⊢
    nlinarith
  have f1 : fin (fdot (fun t => G i t) (fun t => G t c) k) := by
    refine fdot_fin _ _ _ (fun t ht => ⟨(h1 t ht).1, (h2 t ht).1⟩) ?_
    have : ((1 + u α) ^ (k + 1) * (∑ t ∈ range k, |val (G i t) * val (G t c)|) + θ α k) ≤
      (1 + u α) * ((1 + u α) ^ (k + 1) * (∑ t ∈ range k, |val (G i t) * val (G t c)|) + θ α k) := by nlinarith
    linarith
  have b1 := fdot_abs _ _ _ f1
  have hbd : (1 + u α) * |val a - val (fdot (fun t => G i t) (fun t => G t c) k)| ≤ R * 3 ^ k := by
    have := abs_sub (val a) (val (fdot (fun t => G i t) (fun t => G t c) k))
    have h4 : |val a - val (fdot (fun t => G i t) (fun t => G t c) k)| ≤
      M + ((1 + u α) ^ (k + 1) * (∑ t ∈ range k, |val (G i t) * val (G t c)|) + θ α k) := by linarith
    have := mul_le_mul_of_nonneg_left h4 (show 0 ≤ 1 + u α by linarith)
    linarith
  have f2 : fin (a - fdot (fun t => G i t) (fun t => G t c) k) := Fp.sub_fin _ _ ha f1 (by linarith)
  refine ⟨f2, ?_⟩
  have b2 := (Fp.sub _ _ f2).2.2.1
  have b3 := abs_sub_abs_le_abs_sub (val (a - fdot (fun t => G i t) (fun t => G t c) k))
    (val a - val (fdot (fun t => G i t) (fun t => G t c) k))
  linarith

/-- With partial pivoting the entries of the factors grow at most by the factor `3` per step. -/
theorem no_overflow {m n : Nat} {A G : Nat → Nat → α} {σ : Equiv.Perm (Fin m)} (h : ∀ c, c < n → Col m A G σ c) {M : ℝ}
    (hA : ∀ i c, i < m → c < n → fin (A i c) ∧ |val (A i c)| ≤ M)
    (hβ : (1 + u α) ^ (min m n + 2) * (1 + u α + η α) ≤ 2) (h1Ω : 1 + u α + η α ≤ Ω α)
    (hΩ : (1 + u α) * (M + θ α (min m n)) * 3 ^ min m n ≤ Ω α) (c : Nat) (hc : c < n) :
    ∀ i, i < m → fin (G i c) ∧ |val (G i c)| ≤ if c < i then 1 + u α + η α else (1 + u α) * (M + θ α (min m n)) * 3 ^ i := by
  have hu := u_nonneg (α := α)
  have hη := η_nonneg (α := α)
  induction c using Nat.strong_induction_on with
  | _ c ihc =>
    have hcol := h c hc
    have hlow : ∀ i t, i < m → t < min i c → fin (G i t) ∧ |val (G i t)| ≤ 1 + u α + η α := by
      intro i t hi ht
      have := ihc t (by omega) (by omega) i hi
      rwa [if_pos (by omega)] at this
    have hup : ∀ i, i < m → i ≤ c → fin (G i c) ∧ |val (G i c)| ≤ (1 + u α) * (M + θ α (min m n)) * 3 ^ i := by
      intro i
      induction i using Nat.strong_induction_on with
      | _ i ihi =>
        intro hi hic
        have hm : min i c = i := by omega
        have hup := hcol.up ⟨i, hi⟩ hic
        dsimp only at hup
        rw [hup]
        have := W_fin (G := G) (i := i) (c := c) (r := min m n) (hA (σ ⟨i, hi⟩) c (σ ⟨i, hi⟩).2 hc).1
          (hA (σ ⟨i, hi⟩) c (σ ⟨i, hi⟩).2 hc).2 (by omega) hβ hΩ (hlow i · hi) (fun t ht => ihi t (by omega) (by omega) (by omega))
        rwa [hm] at this
    have hW : ∀ i : Fin m, c ≤ i.1 → fin (W (A (σ i) c) G i c) := by
      intro i hi
      have him := i.2
      exact (W_fin (G := G) (i := i) (c := c) (r := min m n) (hA (σ i) c (σ i).2 hc).1
          (hA (σ i) c (σ i).2 hc).2 (by omega) hβ hΩ (hlow i · i.2) (fun t ht => hup t (by omega) (by omega))).1
    intro i hi
    split
    · next hci =>
      have hw := hcol.piv hW ⟨i, hi⟩ hci.le
      have hcc := hup c (by omega) le_rfl
      have hq := hcol.lo ⟨i, hi⟩ hci
      have hWi := hW ⟨i, hi⟩ hci.le
      unfold Quot at hq
      dsimp only at hw hq hWi
      by_cases h0 : FloatOps.eq (G c c) 0 = true
      · rw [if_pos h0] at hq
        have hz : val (G c c) = 0 := by
          have := (Fp.eq _ _ hcc.1 Fp.zero.1).mp h0
          rw [this, Fp.zero.2]
        rw [hz, abs_zero, abs_nonpos_iff, ← hq] at hw
        rw [hw, abs_zero, hq]
        exact ⟨hWi, by linarith⟩
      · rw [if_neg h0] at hq
        have hz : val (G c c) ≠ 0 := fun hz => h0 ((Fp.eq _ _ hcc.1 Fp.zero.1).mpr (by rw [hz, Fp.zero.2]))
        have h1 : |val (W (A (σ ⟨i, hi⟩) c) G i c) / val (G c c)| ≤ 1 := by
          rw [abs_div]; exact div_le_one_of_le₀ hw (abs_nonneg _)
        have hf : fin (G i c) := Fp.div_fin _ _ _ hq hWi hcc.1 hz (by nlinarith)
        refine ⟨hf, ?_⟩
        obtain ⟨-, h2, -, h4⟩ := quot_err hq hf hcc.1
        nlinarith
    · exact hup i hi (by omega)

end LU.Rnd
end LA
