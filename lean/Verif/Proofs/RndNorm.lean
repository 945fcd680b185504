import Verif.Proofs.Overflow
import Verif.Props.Norm

/-! # Rounding errors of sums, products, norms and `hypot` -/

set_option linter.unusedSectionVars false

namespace LA
open Finset

section
variable {α : Type}

/-- The `k`-th stored element. -/
def lin {m n : Nat} [Zero α] (A : Matrix (Fin m) (Fin n) α) (k : Nat) : α := (ofM A).data.getD k 0

theorem lin_rm {m n : Nat} [Zero α] (A : Matrix (Fin m) (Fin n) α) (i : Fin m) (j : Fin n) : lin A (i.1 * n + j.1) = A i j := by
  unfold lin
  rw [List.getD_eq_getElem?_getD, ofM_getElem? A i j]; rfl

theorem idx_lin {m n : Nat} [Zero α] (A : Matrix (Fin m) (Fin n) α) {k : Nat} (hk : k < m * n) : idx (ofM A).data k = .ok (lin A k) := by
  obtain ⟨i, j, hi, hj, rfl⟩ := rm_surj hk
  rw [idx_ofM A hi hj, lin_rm A ⟨i, hi⟩ ⟨j, hj⟩]

theorem sum_lin {m n : Nat} [Zero α] (A : Matrix (Fin m) (Fin n) α) (g : α → ℝ) :
    ∑ k ∈ range (m * n), g (lin A k) = ∑ i, ∑ j, g (A i j) := by
  rw [sum_range, ← Fintype.sum_prod_type' (f := fun i j => g (A i j))]
  refine Fintype.sum_equiv finProdFinEquiv.symm _ _ fun k => ?_
  obtain ⟨⟨i, j⟩, rfl⟩ := finProdFinEquiv.surjective k
  rw [Equiv.symm_apply_apply]
  have : ((finProdFinEquiv (i, j) : Fin (m * n)) : Nat) = i.1 * n + j.1 := by
    simp [finProdFinEquiv]; ring
  rw [this, lin_rm]

end

variable {α : Type} [Zero α] [One α] [Add α] [Sub α] [Neg α] [Mul α] [FloatOps α] [Fp α]
open Fp

/-- Error of a computed sum. -/
theorem fsum_err (x : Nat → α) (k : Nat) (h : fin (facc (· + ·) 0 x k)) :
    (∀ i, i < k → fin (x i)) ∧
    |val (facc (· + ·) 0 x k) - ∑ i ∈ range k, val (x i)| ≤ γ α k * ∑ i ∈ range k, |val (x i)| := by
  induction k with
  | zero =>
    refine ⟨fun i hi => by omega, ?_⟩
    simp only [facc, range_zero, sum_empty, Fp.zero.2, sub_zero, abs_zero, mul_zero, le_refl]
  | succ k ih =>
    obtain ⟨h1, h2, h3, -⟩ := Fp.add _ _ h
    obtain ⟨h4, h5⟩ := ih h1
    refine ⟨fun i hi => ?_, ?_⟩
    · rcases Nat.lt_succ_iff_lt_or_eq.mp hi with hi | rfl
      · exact h4 i hi
      · exact h2
    · rw [sum_range_succ, sum_range_succ]
      change |val (facc (· + ·) 0 x k + x k) - _| ≤ _
      change |val (facc (· + ·) 0 x k + x k) - (val (facc (· + ·) 0 x k) + val (x k))| ≤ u α * |val (facc (· + ·) 0 x k) + val (x k)| at h3
      have hW : |∑ i ∈ range k, val (x i)| ≤ ∑ i ∈ range k, |val (x i)| := abs_sum_le_sum_abs _ _
      generalize ∑ i ∈ range k, val (x i) = S at *
      generalize ∑ i ∈ range k, |val (x i)| = V at *
      generalize val (facc (· + ·) 0 x k + x k) = r at *
      generalize val (facc (· + ·) 0 x k) = s at *
      generalize val (x k) = e at *
      have hu := u_nonneg (α := α)
      have hg := γ_succ (α := α) k
      have a1 : |s + e| ≤ V + γ α k * V + |e| := by
        calc |s + e| = |S + (s - S) + e| := by ring_nf
          _ ≤ |S| + |s - S| + |e| := abs_add_three _ _ _
          _ ≤ _ := by linarith
      have a2 : |r - (S + e)| ≤ |r - (s + e)| + |s - S| := by
        calc |r - (S + e)| = |(r - (s + e)) + (s - S)| := by ring_nf
          _ ≤ _ := abs_add_le _ _
      have a3 : u α * |s + e| ≤ u α * (V + γ α k * V + |e|) := mul_le_mul_of_nonneg_left a1 hu
      have hg2 := mul_le_mul_of_nonneg_right (u_le_γ (α := α) (k := k + 1) (by omega)) (abs_nonneg e)
      rw [mul_add]
      have a8 : γ α (k + 1) * V = (1 + u α) * γ α k * V + u α * V := by rw [hg]; ring
      nlinarith

/-- A sum does not overflow if the sum of the absolute values leaves room for the rounding errors. -/
theorem fsum_fin (x : Nat → α) (k : Nat) (hx : ∀ i, i < k → fin (x i))
    (h : (1 + u α) ^ k * (∑ i ∈ range k, |val (x i)|) ≤ Ω α) : fin (facc (· + ·) 0 x k) := by
  induction k with
  | zero => exact Fp.zero.1
  | succ k ih =>
    have hV : 0 ≤ ∑ i ∈ range k, |val (x i)| := sum_nonneg fun _ _ => abs_nonneg _
    have hp := one_le_pow (α := α) k
    have h1u := one_u (α := α)
    rw [sum_range_succ, pow_succ] at h
    have he := abs_nonneg (val (x k))
    have h0 : (1 + u α) ^ k * (∑ i ∈ range k, |val (x i)|) ≤ Ω α := by
      refine le_trans ?_ h
      refine mul_le_mul (by nlinarith) (by linarith) hV (by positivity)
    have f1 := ih (fun i hi => hx i (by omega)) h0
    have b1 := (fsum_err x k f1).2
    refine Fp.add_fin _ _ f1 (hx k (by omega)) (le_trans ?_ h)
    have hW : |∑ i ∈ range k, val (x i)| ≤ ∑ i ∈ range k, |val (x i)| := abs_sum_le_sum_abs _ _
    have b2 : |val (facc (· + ·) 0 x k) + val (x k)| ≤ (1 + u α) ^ k * (∑ i ∈ range k, |val (x i)| + |val (x k)|) := by
      have := abs_sub_abs_le_abs_sub (val (facc (· + ·) 0 x k)) (∑ i ∈ range k, val (x i))
      have e : γ α k = (1 + u α) ^ k - 1 := rfl
      rw [e] at b1
      refine (abs_add_le _ _).trans ?_
      nlinarith
    calc (1 + u α) * |val (facc (· + ·) 0 x k) + val (x k)|
        ≤ (1 + u α) * ((1 + u α) ^ k * (∑ i ∈ range k, |val (x i)| + |val (x k)|)) := by gcongr
      _ = _ := by ring

/-- Perturbed square roots. -/
theorem sqrt_near {s S g t : ℝ} (hs : 0 ≤ s) (hS : 0 ≤ S) (hg : 0 ≤ g) (ht : 0 ≤ t) (h : |s - S| ≤ g * S + t) :
    |√s - √S| ≤ g * √S + √t := by
  have e1 := Real.sq_sqrt hs
  have e2 := Real.sq_sqrt hS
  have e3 := Real.sq_sqrt ht
  have p1 := Real.sqrt_nonneg s
  have p2 := Real.sqrt_nonneg S
  have p3 := Real.sqrt_nonneg t
  by_contra hc
  push Not at hc
  rw [← e1, ← e2, ← e3] at h
  generalize √s = a at *
  generalize √S = b at *
  generalize √t = c at *
  have hb : 0 ≤ g * b := by positivity
  rcases le_total b a with hab | hab
  · rw [abs_of_nonneg (by linarith)] at hc
    rw [abs_of_nonneg (by nlinarith)] at h
    nlinarith
  · rw [abs_of_nonpos (by linarith)] at hc
    rw [abs_of_nonpos (by nlinarith)] at h
    nlinarith

/-- Error of the square root of a computed sum of squares. -/
theorem fnorm_err (x : Nat → α) (k : Nat) (z : α) (hz : FloatOps.sqrt (fdot x x k) = .ok z) (hf : fin z) :
    (∀ i, i < k → fin (x i)) ∧
    |val z - √(∑ i ∈ range k, val (x i) ^ 2)| ≤
      γ α (k + 2) * √(∑ i ∈ range k, val (x i) ^ 2) + (1 + u α) * √(θ α k) := by
  obtain ⟨h1, h2, h3, h4, -⟩ := Fp.sqrt _ _ hz hf
  obtain ⟨h5, h6⟩ := fdot_err x x k h1
  refine ⟨fun i hi => (h5 i hi).1, ?_⟩
  have e1 : ∑ i ∈ range k, val (x i) * val (x i) = ∑ i ∈ range k, val (x i) ^ 2 := sum_congr rfl fun _ _ => (sq _).symm
  have e2 : ∑ i ∈ range k, |val (x i) * val (x i)| = ∑ i ∈ range k, val (x i) ^ 2 := sum_congr rfl fun _ _ => by rw [abs_mul_self, sq]
  rw [e1, e2] at h6
  have hS : 0 ≤ ∑ i ∈ range k, val (x i) ^ 2 := sum_nonneg fun _ _ => sq_nonneg _
  have h7 := sqrt_near h2 hS (γ_nonneg _) (θ_nonneg _) h6
  have hu := u_nonneg (α := α)
  have a1 : |val z - √(∑ i ∈ range k, val (x i) ^ 2)| ≤ |val z - √(val (fdot x x k))| + |√(val (fdot x x k)) - √(∑ i ∈ range k, val (x i) ^ 2)| := by
    exact abs_sub_le _ _ _
  have a2 : √(val (fdot x x k)) ≤ √(∑ i ∈ range k, val (x i) ^ 2) + (γ α (k + 1) * √(∑ i ∈ range k, val (x i) ^ 2) + √(θ α k)) := by
    have := (abs_le.mp h7).2
    linarith
  have a3 := mul_le_mul_of_nonneg_left a2 hu
  have hg := γ_succ (α := α) (k + 1)
  rw [show k + 2 = k + 1 + 1 from rfl, hg]
  nlinarith

/-- A finite sum of numbers that are not negative is not negative. -/
theorem add_nonneg' (a b : α) (h : fin (a + b)) (ha : 0 ≤ val a) (hb : 0 ≤ val b) : 0 ≤ val (a + b) := by
  obtain ⟨-, -, h3, -⟩ := Fp.add _ _ h
  have hu := u_lt_one (α := α)
  rw [abs_of_nonneg (add_nonneg ha hb)] at h3
  have := (abs_le.mp h3).1
  nlinarith

theorem fdot_self_nonneg (x : Nat → α) (k : Nat) (h : fin (fdot x x k)) : 0 ≤ val (fdot x x k) := by
  induction k with
  | zero => exact Fp.zero.2.ge
  | succ k ih =>
    obtain ⟨h1, h2, -, -⟩ := Fp.add _ _ h
    exact add_nonneg' _ _ h (ih h1) (Fp.mul_self _ h2)

/-- The square root of a sum of squares does not overflow if the sum leaves room for the rounding errors. -/
theorem fnorm_fin (x : Nat → α) (k : Nat) (z : α) (hz : FloatOps.sqrt (fdot x x k) = .ok z) (hx : ∀ i, i < k → fin (x i))
    (h1 : 1 ≤ Ω α / (1 + u α))
    (h : (1 + u α) ^ (k + 2) * (∑ i ∈ range k, val (x i) ^ 2) + (1 + u α) * θ α k ≤ Ω α) : fin z := by
  have e2 : ∑ i ∈ range k, |val (x i) * val (x i)| = ∑ i ∈ range k, val (x i) ^ 2 := sum_congr rfl fun _ _ => by rw [abs_mul_self, sq]
  have hS : 0 ≤ ∑ i ∈ range k, val (x i) ^ 2 := sum_nonneg fun _ _ => sq_nonneg _
  have h1u := one_u (α := α)
  have hp := one_le_pow (α := α) (k + 1)
  have hθ := θ_nonneg (α := α) k
  have h' : (1 + u α) * ((1 + u α) ^ (k + 1) * (∑ i ∈ range k, val (x i) ^ 2) + θ α k) ≤ Ω α := by
    refine le_trans (le_of_eq ?_) h
    ring
  have h0 : 0 ≤ (1 + u α) ^ (k + 1) * (∑ i ∈ range k, val (x i) ^ 2) + θ α k := by positivity
  have hf : fin (fdot x x k) := by
    refine fdot_fin _ _ _ (fun i hi => ⟨hx i hi, hx i hi⟩) ?_
    rw [e2]
    nlinarith
  have hn := fdot_self_nonneg x k hf
  have hb := fdot_abs x x k hf
  rw [e2, abs_of_nonneg hn] at hb
  refine Fp.sqrt_fin _ _ hz hf hn ?_
  have hq : √(val (fdot x x k)) ≤ max 1 (val (fdot x x k)) := by
    rw [Real.sqrt_le_left (le_trans zero_le_one (le_max_left _ _))]
    rcases le_total 1 (val (fdot x x k)) with h | h
    · rw [max_eq_right h]; nlinarith
    · rw [max_eq_left h]; nlinarith
  have h1' : (1 + u α) * 1 ≤ Ω α := by
    rw [le_div_iff₀ (by linarith)] at h1
    linarith
  rcases max_cases (1 : ℝ) (val (fdot x x k)) with ⟨e, -⟩ | ⟨e, -⟩
  · rw [e] at hq
    exact le_trans (mul_le_mul_of_nonneg_left hq (by linarith)) h1'
  · rw [e] at hq
    exact le_trans (mul_le_mul_of_nonneg_left (hq.trans hb) (by linarith)) h'

/-- Error of a computed product. -/
theorem fprod_err (x : Nat → α) (z : α) (k : Nat) (h : fin (facc (· * ·) z x k)) :
    fin z ∧ (∀ i, i < k → fin (x i)) ∧
    |val (facc (· * ·) z x k) - val z * ∏ i ∈ range k, val (x i)| ≤
      γ α k * |val z * ∏ i ∈ range k, val (x i)| + η α * ∑ j ∈ range k, ∏ i ∈ Ico (j + 1) k, (1 + u α) * |val (x i)| := by
  induction k with
  | zero => exact ⟨h, fun i hi => by omega, by simp [facc, γ]⟩
  | succ k ih =>
    obtain ⟨h1, h2, h3, -⟩ := Fp.mul _ _ h
    obtain ⟨h4, h5, h6⟩ := ih h1
    refine ⟨h4, fun i hi => ?_, ?_⟩
    · rcases Nat.lt_succ_iff_lt_or_eq.mp hi with hi | rfl
      · exact h5 i hi
      · exact h2
    · have eT : ∑ j ∈ range (k + 1), ∏ i ∈ Ico (j + 1) (k + 1), (1 + u α) * |val (x i)| =
          (∑ j ∈ range k, ∏ i ∈ Ico (j + 1) k, (1 + u α) * |val (x i)|) * ((1 + u α) * |val (x k)|) + 1 := by
        rw [sum_range_succ, Ico_self, prod_empty, sum_mul]
        congr 1
        refine sum_congr rfl fun j hj => ?_
        rw [prod_Ico_succ_top (by have := mem_range.mp hj; omega)]
      rw [eT, prod_range_succ, ← mul_assoc]
      change |val (facc (· * ·) z x k * x k) - _| ≤ _
      change |val (facc (· * ·) z x k * x k) - val (facc (· * ·) z x k) * val (x k)| ≤ u α * |val (facc (· * ·) z x k) * val (x k)| + η α at h3
      generalize val z * ∏ i ∈ range k, val (x i) = E at *
      generalize ∑ j ∈ range k, ∏ i ∈ Ico (j + 1) k, (1 + u α) * |val (x i)| = T at *
      generalize val (facc (· * ·) z x k * x k) = q at *
      generalize val (facc (· * ·) z x k) = p at *
      generalize val (x k) = e at *
      have hu := u_nonneg (α := α)
      have hp : |p| ≤ |E| + (γ α k * |E| + η α * T) := by
        have := abs_sub_abs_le_abs_sub p E
        linarith
      have a1 : |q - E * e| ≤ |q - p * e| + |p - E| * |e| := by
        have := abs_sub_le q (p * e) (E * e)
        rwa [← sub_mul, abs_mul] at this
      rw [abs_mul] at h3 ⊢
      have he := abs_nonneg e
      have a2 := mul_le_mul_of_nonneg_right h6 he
      have a3 : u α * (|p| * |e|) ≤ u α * ((|E| + (γ α k * |E| + η α * T)) * |e|) :=
        mul_le_mul_of_nonneg_left (mul_le_mul_of_nonneg_right hp he) hu
      rw [γ_succ]
      nlinarith

/-! ## `hypot` -/

set_option maxHeartbeats 1000000 in
/-- Rounding errors of `A * sqrt (1 + x * x)`. -/
theorem hypot_real {u η x r t w s z A : ℝ} (hu : 0 ≤ u) (hu8 : u ≤ 1 / 8) (hη : 0 ≤ η) (hη8 : η ≤ 1 / 8) (hx : |x| ≤ 1)
    (hA : 0 ≤ A) (hr : |r - x| ≤ u * |x| + η) (ht : |t - r * r| ≤ u * |r * r| + η) (ht0 : 0 ≤ t)
    (hw : |w - (1 + t)| ≤ u * |1 + t|) :
    |r| ≤ 5 / 4 ∧ t ≤ 2 ∧ 0 ≤ w ∧ w ≤ 4 ∧ (0 ≤ s → |s - √w| ≤ u * √w →
      (1 + u) * (A * s) + η ≤ (1 + (((1 + u) ^ 6 - 1) + 7 * η)) * (A * √(1 + x ^ 2)) + η ∧
      (|z - A * s| ≤ u * |A * s| + η →
        |z - A * √(1 + x ^ 2)| ≤ (((1 + u) ^ 6 - 1) + 7 * η) * (A * √(1 + x ^ 2)) + η)) := by
  have hx0 := abs_nonneg x
  have hx2 : |x| ^ 2 = x ^ 2 := sq_abs x
  have hr1 : |r| ≤ (1 + u) * |x| + η := by
    have := abs_sub_abs_le_abs_sub r x
    linarith
  have hr54 : |r| ≤ 5 / 4 := by nlinarith
  have hr0 := abs_nonneg r
  have hrr : |r * r| = |r| ^ 2 := by rw [abs_mul, sq]
  have hrr' : r * r = |r| ^ 2 := by rw [sq_abs, sq]
  have d1 : |r * r - x ^ 2| ≤ (u ^ 2 + 2 * u) * x ^ 2 + η * (2 + 2 * u + η) := by
    have e : r * r - x ^ 2 = (r - x) * (r + x) := by ring
    rw [e, abs_mul]
    have : |r + x| ≤ |r| + |x| := abs_add_le _ _
    calc |r - x| * |r + x| ≤ (u * |x| + η) * ((1 + u) * |x| + η + |x|) :=
          mul_le_mul hr (by linarith) (abs_nonneg _) (by positivity)
      _ = (u ^ 2 + 2 * u) * |x| ^ 2 + |x| * (η * (2 + 2 * u)) + η ^ 2 := by ring
      _ ≤ _ := by
          rw [hx2]
          have : |x| * (η * (2 + 2 * u)) ≤ 1 * (η * (2 + 2 * u)) := mul_le_mul_of_nonneg_right hx (by positivity)
          nlinarith
  have hX : 0 ≤ x ^ 2 := sq_nonneg x
  have hX1 : x ^ 2 ≤ 1 := by rw [← hx2]; nlinarith
  have d1' := abs_le.mp d1
  have d2 : |t - x ^ 2| ≤ ((1 + u) ^ 3 - 1) * x ^ 2 + ((1 + u) * (2 + 2 * u + η) + 1) * η := by
    have h1 : |t - x ^ 2| ≤ |t - r * r| + |r * r - x ^ 2| := abs_sub_le _ _ _
    rw [hrr, ← hrr'] at ht
    have h2 : u * (r * r) ≤ u * (x ^ 2 + ((u ^ 2 + 2 * u) * x ^ 2 + η * (2 + 2 * u + η))) :=
      mul_le_mul_of_nonneg_left (by linarith) hu
    nlinarith
  have ht2 : t ≤ 2 := by
    rw [hrr] at ht
    rw [hrr'] at ht
    have := (abs_le.mp ht).2
    nlinarith
  rw [abs_of_nonneg (show 0 ≤ 1 + t by linarith)] at hw
  have hw' := abs_le.mp hw
  have hw0 : 0 ≤ w := by nlinarith
  refine ⟨hr54, ht2, hw0, by nlinarith, fun hs0 hs => ?_⟩
  have hc : (1 + u) * ((1 + u) * (2 + 2 * u + η) + 1) ≤ 5 := by
    have : (1 + u) * (2 + 2 * u + η) ≤ (9 / 8) * (19 / 8) := mul_le_mul (by linarith) (by linarith) (by positivity) (by norm_num)
    calc (1 + u) * ((1 + u) * (2 + 2 * u + η) + 1) ≤ (9 / 8) * ((9 / 8) * (19 / 8) + 1) :=
          mul_le_mul (by linarith) (by linarith) (by positivity) (by norm_num)
      _ ≤ 5 := by norm_num
  have d3 : |w - (1 + x ^ 2)| ≤ (((1 + u) ^ 4 - 1) + 5 * η) * (1 + x ^ 2) := by
    have h1 : |w - (1 + x ^ 2)| ≤ |w - (1 + t)| + |t - x ^ 2| := by
      have := abs_sub_le w (1 + t) (1 + x ^ 2)
      rwa [show 1 + t - (1 + x ^ 2) = t - x ^ 2 by ring] at this
    have h2 : t ≤ x ^ 2 + |t - x ^ 2| := by linarith [le_abs_self (t - x ^ 2)]
    have h3 : |w - (1 + x ^ 2)| ≤ (1 + u) * |t - x ^ 2| + u * (1 + x ^ 2) := by nlinarith
    have h4 : (1 + u) * |t - x ^ 2| ≤ (1 + u) * (((1 + u) ^ 3 - 1) * x ^ 2 + ((1 + u) * (2 + 2 * u + η) + 1) * η) :=
      mul_le_mul_of_nonneg_left d2 (by linarith)
    have h5 : (1 + u) * ((1 + u) * (2 + 2 * u + η) + 1) * η ≤ 5 * η := mul_le_mul_of_nonneg_right hc hη
    have h6 : u ≤ (1 + u) ^ 4 - 1 := by
      have : (1 + u) ^ 1 ≤ (1 + u) ^ 4 := pow_le_pow_right₀ (by linarith) (by norm_num)
      linarith
    have h7 : 0 ≤ 5 * η * x ^ 2 := by positivity
    calc |w - (1 + x ^ 2)| ≤ (1 + u) * (((1 + u) ^ 3 - 1) * x ^ 2 + ((1 + u) * (2 + 2 * u + η) + 1) * η) + u * (1 + x ^ 2) := by linarith
      _ = ((1 + u) ^ 4 - 1) * x ^ 2 + (1 + u) * ((1 + u) * (2 + 2 * u + η) + 1) * η + u := by ring
      _ ≤ ((1 + u) ^ 4 - 1) * x ^ 2 + 5 * η + ((1 + u) ^ 4 - 1) := by linarith
      _ ≤ _ := by linarith
  have hg4 : 0 ≤ (1 + u) ^ 4 - 1 := by
    have : (1 : ℝ) ≤ (1 + u) ^ 4 := one_le_pow₀ (by linarith)
    linarith
  have hW : 0 ≤ 1 + x ^ 2 := by positivity
  have d4 : |√w - √(1 + x ^ 2)| ≤ (((1 + u) ^ 4 - 1) + 5 * η) * √(1 + x ^ 2) := by
    have := sqrt_near hw0 hW (g := ((1 + u) ^ 4 - 1) + 5 * η) (t := 0) (by positivity) le_rfl (by linarith)
    simpa using this
  set S := √(1 + x ^ 2) with hS
  have hS0 : 0 ≤ S := Real.sqrt_nonneg _
  have d5 : |s - S| ≤ (((1 + u) ^ 5 - 1) + 5 * (1 + u) * η) * S := by
    have h1 : |s - S| ≤ |s - √w| + |√w - S| := abs_sub_le _ _ _
    have h2 : √w ≤ S + |√w - S| := by linarith [le_abs_self (√w - S)]
    have h3 : (1 + u) * |√w - S| ≤ (1 + u) * ((((1 + u) ^ 4 - 1) + 5 * η) * S) := mul_le_mul_of_nonneg_left d4 (by linarith)
    nlinarith
  have h2 : s ≤ S + |s - S| := by linarith [le_abs_self (s - S)]
  have hk : 5 * (1 + u) * (1 + u) * η ≤ 7 * η := by
    refine mul_le_mul_of_nonneg_right ?_ hη
    nlinarith
  have hAS : 0 ≤ A * S := mul_nonneg hA hS0
  have hk2 : 5 * (1 + u) * (1 + u) * η * (A * S) ≤ 7 * η * (A * S) := mul_le_mul_of_nonneg_right hk hAS
  have d6 : (1 + u) * (A * |s - S|) ≤ (1 + u) * (A * ((((1 + u) ^ 5 - 1) + 5 * (1 + u) * η) * S)) :=
    mul_le_mul_of_nonneg_left (mul_le_mul_of_nonneg_left d5 hA) (by linarith)
  have d7 : (1 + u) * (A * s) ≤ (1 + u) * (A * (S + |s - S|)) :=
    mul_le_mul_of_nonneg_left (mul_le_mul_of_nonneg_left h2 hA) (by linarith)
  refine ⟨by nlinarith, fun hz => ?_⟩
  rw [abs_of_nonneg (mul_nonneg hA hs0)] at hz
  have h1 : |z - A * S| ≤ |z - A * s| + A * |s - S| := by
    have := abs_sub_le z (A * s) (A * S)
    rwa [show A * s - A * S = A * (s - S) by ring, abs_mul A, abs_of_nonneg hA] at this
  nlinarith

/-- `|a| * sqrt (1 + (b/a)^2)`, computed. -/
theorem hypot_core {a b : α} (ha : fin a) (hb : fin b) (h0 : val a ≠ 0) (hab : |val b| ≤ |val a|)
    (hu8 : u α ≤ 1 / 8) (hη8 : η α ≤ 1 / 8) (hΩ : 5 ≤ Ω α) :
    ∃ z : α, (do let r ← RDiv.rdiv b a; return FloatOps.abs a * (← FloatOps.sqrt (1 + r * r)) : R α) = .ok z ∧
      ((1 + (γ α 6 + 7 * η α)) * √(val a ^ 2 + val b ^ 2) + η α ≤ Ω α →
        fin z ∧ |val z - √(val a ^ 2 + val b ^ 2)| ≤ (γ α 6 + 7 * η α) * √(val a ^ 2 + val b ^ 2) + η α) := by
  have hu := u_nonneg (α := α)
  have hη := η_nonneg (α := α)
  obtain ⟨r, hr⟩ := Fp.div_total b a
  obtain ⟨s, hs⟩ := Fp.sqrt_total (1 + r * r)
  have hA : 0 < |val a| := abs_pos.mpr h0
  have hx : |val b / val a| ≤ 1 := by rw [abs_div, div_le_one hA]; exact hab
  have hrf : fin r := Fp.div_fin _ _ _ hr hb ha h0 (by nlinarith [abs_nonneg (val b / val a)])
  have e1 := ((Fp.div _ _ _ hr hrf).2 ha).2.1
  have hr1 : |val r| ≤ 5 / 4 := by
    have := abs_sub_abs_le_abs_sub (val r) (val b / val a)
    nlinarith [abs_nonneg (val b / val a)]
  have htf : fin (r * r) := by
    refine Fp.mul_fin _ _ hrf hrf ?_
    rw [abs_mul]
    nlinarith [abs_nonneg (val r)]
  have e2 := (Fp.mul _ _ htf).2.2.1
  have ht0 := Fp.mul_self r htf
  have ht2 : val (r * r) ≤ 2 := by
    rw [abs_mul] at e2
    have := (abs_le.mp e2).2
    have e : val r * val r = |val r| * |val r| := (abs_mul_abs_self _).symm
    nlinarith [abs_nonneg (val r)]
  have hwf : fin (1 + r * r) := by
    refine Fp.add_fin _ _ Fp.one.1 htf ?_
    rw [Fp.one.2, abs_of_nonneg (by linarith)]
    nlinarith
  have e3 := (Fp.add _ _ hwf).2.2.1
  rw [Fp.one.2] at e3
  have key := hypot_real (u := u α) (η := η α) (x := val b / val a) (s := val s) (z := val (FloatOps.abs a * s)) hu hu8 hη hη8 hx (abs_nonneg (val a)) e1 e2 ht0 e3
  obtain ⟨-, -, hw0, hw4, key⟩ := key
  have hsq : √(val (1 + r * r)) ≤ 2 := by rw [Real.sqrt_le_left (by norm_num)]; linarith
  have hsf : fin s := Fp.sqrt_fin _ _ hs hwf hw0 (by nlinarith)
  obtain ⟨-, -, hs0, e4, -⟩ := Fp.sqrt _ _ hs hsf
  obtain ⟨k1, k2⟩ := key hs0 e4
  have eh : |val a| * √(1 + (val b / val a) ^ 2) = √(val a ^ 2 + val b ^ 2) := by
    rw [← Real.sqrt_sq_eq_abs, ← Real.sqrt_mul (sq_nonneg _)]
    congr 1
    field_simp
  rw [eh] at k1 k2
  refine ⟨FloatOps.abs a * s, by rw [hr, ok_bind, hs, ok_bind]; rfl, fun hb => ?_⟩
  have haf := (Fp.abs a).1.mpr ha
  have hav := (Fp.abs a).2 ha
  have hzf : fin (FloatOps.abs a * s) := by
    refine Fp.mul_fin _ _ haf hsf ?_
    rw [hav, abs_of_nonneg (mul_nonneg (abs_nonneg _) hs0)]
    exact k1.trans hb
  have e5 := (Fp.mul _ _ hzf).2.2.1
  rw [hav] at e5
  exact ⟨hzf, k2 e5⟩

/-- `hypot` in floating point: accurate, and overflows only if the result does. -/
theorem hypot_fp (a b : α) (ha : fin a) (hb : fin b) (hu8 : u α ≤ 1 / 8) (hη8 : η α ≤ 1 / 8) (hΩ : 5 ≤ Ω α) :
    ∃ z : α, hypot a b = .ok z ∧ ((1 + (γ α 6 + 7 * η α)) * √(val a ^ 2 + val b ^ 2) + η α ≤ Ω α →
      fin z ∧ |val z - √(val a ^ 2 + val b ^ 2)| ≤ (γ α 6 + 7 * η α) * √(val a ^ 2 + val b ^ 2) + η α) := by
  have h1 := Fp.lt (FloatOps.abs b) (FloatOps.abs a) ((Fp.abs b).1.mpr hb) ((Fp.abs a).1.mpr ha)
  rw [(Fp.abs a).2 ha, (Fp.abs b).2 hb] at h1
  have h2 := Fp.eq b 0 hb Fp.zero.1
  rw [Fp.zero.2] at h2
  unfold hypot
  by_cases hab : |val b| < |val a|
  · rw [if_pos (h1.mpr hab)]
    exact hypot_core ha hb (abs_pos.mp (lt_of_le_of_lt (abs_nonneg _) hab)) hab.le hu8 hη8 hΩ
  · rw [if_neg (fun h => hab (h1.mp h))]
    by_cases h0 : val b = 0
    · rw [if_neg (by rw [h2.mpr h0]; simp)]
      have ha0 : val a = 0 := by
        rw [h0, abs_zero] at hab
        exact abs_nonpos_iff.mp (not_lt.mp hab)
      refine ⟨0, rfl, fun _ => ⟨Fp.zero.1, ?_⟩⟩
      rw [Fp.zero.2, ha0, h0]
      simpa using η_nonneg (α := α)
    · have : (!FloatOps.eq b 0) = true := by
        cases h : FloatOps.eq b 0 with
        | false => rfl
        | true => exact absurd (h2.mp h) h0
      rw [if_pos this]
      have := hypot_core hb ha h0 (not_lt.mp hab) hu8 hη8 hΩ
      rwa [add_comm (val b ^ 2)] at this

end LA
