import Verif.Proofs.RndSolve2
import Mathlib.LinearAlgebra.Matrix.Block

/-! # Triangular substitution does not overflow -/

set_option linter.unusedSectionVars false

namespace LA
open Finset
variable {α : Type} [Zero α] [One α] [Add α] [Sub α] [Neg α] [Mul α] [FloatOps α] [Fp α]
open Fp

/-- A sequence of subtractions of products does not overflow. -/
theorem fsub_fin (x y : Nat → α) (z : α) (hz : fin z) (k : Nat) (hx : ∀ i, i < k → fin (x i) ∧ fin (y i))
    (h : (1 + u α) ^ (k + 1) * (|val z| + (∑ i ∈ range k, |val (x i) * val (y i)|) + k * η α) ≤ Ω α) :
    fin (facc (· - ·) z (fun i => x i * y i) k) ∧
      |val (facc (· - ·) z (fun i => x i * y i) k)| ≤
        (1 + u α) ^ (k + 1) * (|val z| + (∑ i ∈ range k, |val (x i) * val (y i)|) + k * η α) := by
  have hu := u_nonneg (α := α)
  have hη := η_nonneg (α := α)
  induction k with
  | zero =>
    refine ⟨hz, ?_⟩
    simp only [facc, range_zero, sum_empty, Nat.cast_zero, zero_mul, add_zero, zero_add, pow_one]
    have := abs_nonneg (val z)
    nlinarith
  | succ k ih =>
    have hS : 0 ≤ ∑ i ∈ range k, |val (x i) * val (y i)| := sum_nonneg fun _ _ => abs_nonneg _
    have hp := one_le_pow (α := α) (k + 1)
    have hz0 := abs_nonneg (val z)
    have hxy0 := abs_nonneg (val (x k) * val (y k))
    have hk0 : (0 : ℝ) ≤ k * η α := by positivity
    rw [sum_range_succ] at h ⊢
    push_cast at h ⊢
    rw [pow_succ] at h ⊢
    set P := (1 + u α) ^ (k + 1)
    set S := ∑ i ∈ range k, |val (x i) * val (y i)|
    set T := |val (x k) * val (y k)| with hT
    set z0 := |val z|
    have e0 : P * (1 + u α) * (z0 + (S + T) + (k + 1) * η α) =
        P * (z0 + S + k * η α) + u α * (P * (z0 + S + k * η α)) + P * (1 + u α) * (T + η α) := by ring
    have n1 : 0 ≤ P * (z0 + S + k * η α) := by positivity
    have n2 : 0 ≤ u α * (P * (z0 + S + k * η α)) := by positivity
    have n3 : (1 + u α) * T + η α ≤ P * ((1 + u α) * T + η α) := le_mul_of_one_le_left (by positivity) hp
    have n4 : P * ((1 + u α) * T + η α) ≤ P * (1 + u α) * (T + η α) := by
      have : 0 ≤ P * (u α * η α) := by positivity
      nlinarith
    have n5 : 0 ≤ (1 + u α) * T + η α := by positivity
    obtain ⟨f1, f2⟩ := ih (fun i hi => hx i (by omega)) (by linarith)
    have f3 := Fp.mul_fin _ _ (hx k (by omega)).1 (hx k (by omega)).2 (by rw [← hT]; linarith)
    obtain ⟨-, -, f4, -⟩ := Fp.mul _ _ f3
    rw [← hT] at f4
    have f5 : |val (x k * y k)| ≤ (1 + u α) * T + η α := by
      calc |val (x k * y k)| = |val (x k) * val (y k) + (val (x k * y k) - val (x k) * val (y k))| := by ring_nf
        _ ≤ _ := abs_add_le _ _
        _ ≤ T + (u α * T + η α) := by rw [hT] at f4 ⊢; exact add_le_add le_rfl f4
        _ = _ := by ring
    set a := facc (· - ·) z (fun i => x i * y i) k
    have f6 : |val a - val (x k * y k)| ≤ P * (z0 + S + k * η α) + ((1 + u α) * T + η α) :=
      (abs_sub _ _).trans (add_le_add f2 f5)
    have f7 : (1 + u α) * |val a - val (x k * y k)| ≤ P * (1 + u α) * (z0 + (S + T) + (k + 1) * η α) := by
      have g1 := mul_le_mul_of_nonneg_left f6 (show 0 ≤ 1 + u α by linarith)
      have g2 : (1 + u α) * ((1 + u α) * T + η α) ≤ P * (1 + u α) * (T + η α) := by
        have g3 : 1 + u α ≤ P := by
          have := pow_le_pow_right₀ (one_u (α := α)) (show 1 ≤ k + 1 by omega)
          rwa [pow_one] at this
        have g4 : (1 + u α) * T + η α ≤ (1 + u α) * (T + η α) := by nlinarith
        have g5 := mul_le_mul g3 g4 (by positivity) (by linarith)
        linarith
      nlinarith
    have f8 := Fp.sub_fin _ _ f1 f3 (f7.trans h)
    refine ⟨f8, ?_⟩
    obtain ⟨-, -, f9, -⟩ := Fp.sub _ _ f8
    refine le_trans ?_ f7
    change |val (a - x k * y k)| ≤ _
    calc |val (a - x k * y k)| = |(val a - val (x k * y k)) + (val (a - x k * y k) - (val a - val (x k * y k)))| := by ring_nf
      _ ≤ _ := abs_add_le _ _
      _ ≤ |val a - val (x k * y k)| + u α * |val a - val (x k * y k)| := by linarith
      _ = _ := by ring

namespace LU.Rnd

/-- Forward substitution does not overflow. -/
theorem forward_fin {n : Nat} {G : Nat → Nat → α} {Y b : Nat → α} {g β : ℝ} (hg0 : 0 ≤ g) (hβ : 0 ≤ β)
    (h : ∀ i, i < n → Y i = facc (· - ·) (b i) (fun t => Y t * G i t) i)
    (hb : ∀ i, i < n → fin (b i) ∧ |val (b i)| ≤ β) (hG : ∀ i t, i < n → t < i → fin (G i t) ∧ |val (G i t)| ≤ g)
    (hq : (1 + u α) ^ n * g ≤ 2) (hΩ : (1 + u α) ^ n * (β + n * η α) * 3 ^ n ≤ Ω α) :
    ∀ i, i < n → fin (Y i) ∧ |val (Y i)| ≤ (1 + u α) ^ n * (β + n * η α) * 3 ^ i := by
  have hu := u_nonneg (α := α)
  have hη := η_nonneg (α := α)
  set c := (1 + u α) ^ n * (β + n * η α) with hc
  have hc0 : 0 ≤ c := by positivity
  intro i
  induction i using Nat.strong_induction_on with
  | _ i ih =>
    intro hi
    have s1 : ∑ t ∈ range i, |val (Y t) * val (G i t)| ≤ g * (c * ((3 ^ i - 1) / 2)) := by
      calc ∑ t ∈ range i, |val (Y t) * val (G i t)| ≤ ∑ t ∈ range i, (c * 3 ^ t) * g := by
            refine sum_le_sum fun t ht => ?_
            rw [mem_range] at ht
            rw [abs_mul]
            exact mul_le_mul (ih t ht (by omega)).2 (hG i t hi ht).2 (abs_nonneg _) (by positivity)
        _ = g * (c * ∑ t ∈ range i, (3 : ℝ) ^ t) := by rw [← sum_mul, ← mul_sum]; ring
        _ = _ := by rw [geom_sum_eq (by norm_num)]; norm_num
    have h3 : (1 : ℝ) ≤ 3 ^ i := one_le_pow₀ (by norm_num)
    have s2 : (1 + u α) ^ (i + 1) * (|val (b i)| + (∑ t ∈ range i, |val (Y t) * val (G i t)|) + i * η α) ≤ c * 3 ^ i := by
      have p1 : (1 + u α) ^ (i + 1) ≤ (1 + u α) ^ n := pow_le_pow_right₀ (one_u (α := α)) (by omega)
      have p2 : (i : ℝ) * η α ≤ n * η α := mul_le_mul_of_nonneg_right (by exact_mod_cast hi.le) hη
      have s0 : 0 ≤ ∑ t ∈ range i, |val (Y t) * val (G i t)| := sum_nonneg fun _ _ => abs_nonneg _
      calc _ ≤ (1 + u α) ^ n * ((β + n * η α) + g * (c * ((3 ^ i - 1) / 2))) := by
            refine mul_le_mul p1 ?_ (by positivity) (by positivity)
            have := (hb i hi).2
            linarith
        _ = c + ((1 + u α) ^ n * g) * (c * ((3 ^ i - 1) / 2)) := by rw [hc]; ring
        _ ≤ c + 2 * (c * ((3 ^ i - 1) / 2)) := by
            have : 0 ≤ c * ((3 ^ i - 1) / 2) := mul_nonneg hc0 (by linarith)
            have := mul_le_mul_of_nonneg_right hq this
            linarith
        _ = c * 3 ^ i := by ring
    have s3 : c * 3 ^ i ≤ c * 3 ^ n := mul_le_mul_of_nonneg_left (pow_le_pow_right₀ (by norm_num) hi.le) hc0
    have := fsub_fin Y (fun t => G i t) (b i) (hb i hi).1 i (fun t ht => ⟨(ih t ht (by omega)).1, (hG i t hi ht).1⟩) (by linarith)
    rw [← h i hi] at this
    exact ⟨this.1, this.2.trans s2⟩

/-- The end of the solution vector is bounded by the right-hand side. -/
theorem tail_bound {n p : Nat} {G X Y : Nat → Nat → α} (j : Fin p) {V : Matrix (Fin n) (Fin n) ℝ} {W y M : ℝ} (hM : 0 ≤ M)
    (h : ∀ i : Fin n, RDiv.rdiv (facc (· - ·) (Y i j) (fun s => X (n - 1 - s) j * G i (n - 1 - s)) (n - 1 - i)) (G i i) = .ok (X i j))
    (hG : ∀ i : Fin n, fin (G i i)) (hU : ∀ i c : Fin n, |upper n n (fun i c => val (G i c)) i c| ≤ M)
    (hV : V * upper n n (fun i c => val (G i c)) = 1) (hVt : ∀ c r : Fin n, r < c → V c r = 0) (hW : ∀ c, ∑ r, |V c r| ≤ W)
    (hY : ∀ i : Fin n, |val (Y i j)| ≤ y) (hs : n * W * γ α n * M ≤ 1 / 2)
    (k : Nat) (hX : ∀ c : Fin n, k ≤ c.1 → fin (X c j)) :
    ∑ c : Fin n, (if k ≤ c.1 then |val (X c j)| else 0) ≤ 2 * n * W * (y + (θ α n + (1 + u α) ^ n * η α * M)) := by
  have hu := u_nonneg (α := α)
  have hη := η_nonneg (α := α)
  have hγ := γ_nonneg (α := α) n
  have hθ := θ_nonneg (α := α) n
  set U := upper n n (fun i c => val (G i c)) with hUd
  set x : Fin n → ℝ := fun c => if k ≤ c.1 then val (X c j) else 0 with hx
  set s := ∑ c : Fin n, (if k ≤ c.1 then |val (X c j)| else 0) with hsd
  have hs0 : 0 ≤ s := sum_nonneg fun c _ => by split <;> positivity
  set e := θ α n + (1 + u α) ^ n * η α * M with he
  have hUz : ∀ r c : Fin n, c < r → U r c = 0 := fun r c hrc => by
    have : c.1 < r.1 := hrc
    rw [hUd]; simp only [upper, Matrix.of_apply]; rw [if_neg (by omega)]
  have row : ∀ r : Fin n, k ≤ r.1 → |∑ c, U r c * x c| ≤ y + (γ α n * (M * s) + e) := by
    intro r hr
    obtain ⟨-, h1⟩ := backward_err_row j r (h r) (hX r hr) (hG r)
    rw [← hUd] at h1
    have e1 : ∑ c, U r c * x c = ∑ c, U r c * val (X c j) := by
      refine sum_congr rfl fun c _ => ?_
      by_cases hc : k ≤ c.1
      · rw [hx]; simp only [hc, if_true]
      · rw [hUz r c (by rw [Fin.lt_def]; omega), zero_mul, zero_mul]
    have e2 : ∑ c, |U r c| * |val (X c j)| ≤ M * s := by
      rw [hsd, mul_sum]
      refine sum_le_sum fun c _ => ?_
      by_cases hc : k ≤ c.1
      · simp only [hc, if_true]
        exact mul_le_mul_of_nonneg_right (hU r c) (abs_nonneg _)
      · rw [hUz r c (by rw [Fin.lt_def]; omega), abs_zero, zero_mul]
        simp only [hc, if_false]; simp
    have e3 : |val (G r r)| ≤ M := by
      have := hU r r
      rw [hUd] at this
      simpa [upper] using this
    have e4 : (1 + u α) ^ n * η α * |val (G r r)| ≤ (1 + u α) ^ n * η α * M := mul_le_mul_of_nonneg_left e3 (by positivity)
    rw [e1]
    have e5 := mul_le_mul_of_nonneg_left e2 hγ
    have e6 := hY r
    have e7 : |∑ c, U r c * val (X c j)| ≤ |val (Y r j)| + |val (Y r j) - ∑ c, U r c * val (X c j)| := by
      have := abs_sub_abs_le_abs_sub (∑ c, U r c * val (X c j)) (val (Y r j))
      rw [abs_sub_comm] at this
      linarith
    linarith
  have col : ∀ c : Fin n, (if k ≤ c.1 then |val (X c j)| else 0) ≤ W * (y + (γ α n * (M * s) + e)) := by
    intro c
    have hW0 : 0 ≤ W := (sum_nonneg fun _ _ => abs_nonneg _).trans (hW c)
    have hy0 : 0 ≤ y := (abs_nonneg _).trans (hY c)
    have hb0 : 0 ≤ y + (γ α n * (M * s) + e) := by positivity
    by_cases hc : k ≤ c.1
    · simp only [hc, if_true]
      have e1 : val (X c j) = ∑ r, V c r * ∑ c', U r c' * x c' := by
        have : (V * U).mulVec x = x := by rw [hV, Matrix.one_mulVec]
        have := congrFun this c
        rw [← Matrix.mulVec_mulVec] at this
        rw [show val (X c j) = x c by rw [hx]; simp only [hc, if_true], ← this]
        rfl
      rw [e1]
      refine (abs_sum_le_sum_abs _ _).trans ?_
      calc _ ≤ ∑ r, |V c r| * (y + (γ α n * (M * s) + e)) := by
            refine sum_le_sum fun r _ => ?_
            rw [abs_mul]
            by_cases hr : r < c
            · rw [hVt c r hr, abs_zero, zero_mul, zero_mul]
            · refine mul_le_mul_of_nonneg_left (row r ?_) (abs_nonneg _)
              have : c.1 ≤ r.1 := not_lt.mp hr
              omega
        _ = (∑ r, |V c r|) * (y + (γ α n * (M * s) + e)) := by rw [sum_mul]
        _ ≤ _ := mul_le_mul_of_nonneg_right (hW c) hb0
    · simp only [hc, if_false]; positivity
  have tot : s ≤ n * (W * (y + (γ α n * (M * s) + e))) := by
    calc s ≤ ∑ _c : Fin n, W * (y + (γ α n * (M * s) + e)) := sum_le_sum fun c _ => col c
      _ = _ := by simp
  have : n * (W * (y + (γ α n * (M * s) + e))) = n * W * (y + e) + (n * W * γ α n * M) * s := by ring
  have := mul_le_mul_of_nonneg_right hs hs0
  linarith

/-- Back substitution does not overflow. -/
theorem backward_fin {n p : Nat} {G X Y : Nat → Nat → α} (j : Fin p) {V : Matrix (Fin n) (Fin n) ℝ} {W y M : ℝ} (hM : 0 ≤ M)
    (h : ∀ i : Fin n, RDiv.rdiv (facc (· - ·) (Y i j) (fun s => X (n - 1 - s) j * G i (n - 1 - s)) (n - 1 - i)) (G i i) = .ok (X i j))
    (hG : ∀ i c : Fin n, i ≤ c → fin (G i c)) (hU : ∀ i c : Fin n, |upper n n (fun i c => val (G i c)) i c| ≤ M)
    (hV : V * upper n n (fun i c => val (G i c)) = 1) (hVt : ∀ c r : Fin n, r < c → V c r = 0) (hW : ∀ c, ∑ r, |V c r| ≤ W)
    (hY : ∀ i : Fin n, fin (Y i j) ∧ |val (Y i j)| ≤ y) (hs : n * W * γ α n * M ≤ 1 / 2) {S : ℝ}
    (hS : 2 * n * W * (y + (θ α n + (1 + u α) ^ n * η α * M)) ≤ S)
    (h1 : (1 + u α) ^ n * (y + M * S + n * η α) ≤ Ω α)
    (h2 : (1 + u α) * (W * ((1 + u α) ^ n * (y + M * S + n * η α))) + η α ≤ Ω α) :
    (∀ i : Fin n, fin (X i j)) ∧ ∑ c : Fin n, |val (X c j)| ≤ S := by
  have hu := u_nonneg (α := α)
  have hη := η_nonneg (α := α)
  set U := upper n n (fun i c => val (G i c)) with hUd
  have hUz : ∀ r c : Fin n, c < r → U r c = 0 := fun r c hrc => by
    have : c.1 < r.1 := hrc
    rw [hUd]; simp only [upper, Matrix.of_apply]; rw [if_neg (by omega)]
  have key : ∀ d, d ≤ n → ∀ c : Fin n, n - d ≤ c.1 → fin (X c j) := by
    intro d
    induction d with
    | zero => intro _ c hc; have := c.2; omega
    | succ d ih =>
      intro hd c hc
      by_cases hc' : n - d ≤ c.1
      · exact ih (by omega) c hc'
      · have hcd : c.1 + 1 = n - d := by omega
        have hc2 := c.2
        have hf := ih (by omega)
        have tb := (tail_bound j hM h (fun i => hG i i le_rfl) hU hV hVt hW (fun i => (hY i).2) hs (n - d) hf).trans hS
        have hk : ∀ s, s < n - 1 - c.1 → c.1 < n - 1 - s ∧ n - 1 - s < n := fun s hs => by omega
        have e2 : ∑ s ∈ range (n - 1 - c.1), |val (X (n - 1 - s) j) * val (G c (n - 1 - s))| ≤ M * S := by
          have e3 : ∑ s ∈ range (n - 1 - c.1), |val (X (n - 1 - s) j)| ≤ S := by
            refine le_trans (le_of_eq ?_) tb
            rw [Finset.sum_fin_eq_sum_range, Finset.range_eq_Ico (a := n), ← Finset.sum_Ico_consecutive _ (Nat.zero_le (n - d)) (Nat.sub_le n d),
              Finset.sum_eq_zero (s := Ico 0 (n - d)), zero_add, sum_Ico_eq_sum_range, ← sum_range_reflect,
              show n - (n - d) = n - 1 - c.1 by omega]
            · refine sum_congr rfl fun s hs => ?_
              rw [mem_range] at hs
              have e4 : n - 1 - (n - 1 - c.1 - 1 - s) = n - d + s := by omega
              rw [e4, dif_pos (by omega), if_pos (by simp only; omega)]
            · intro t ht
              rw [mem_Ico] at ht
              rw [dif_pos (by omega), if_neg (by simp only; omega)]
          calc _ ≤ ∑ s ∈ range (n - 1 - c.1), M * |val (X (n - 1 - s) j)| := by
                refine sum_le_sum fun s hs => ?_
                rw [mem_range] at hs
                rw [abs_mul, mul_comm]
                refine mul_le_mul_of_nonneg_right ?_ (abs_nonneg _)
                have := hU c ⟨n - 1 - s, (hk s hs).2⟩
                rw [hUd] at this
                simp only [upper, Matrix.of_apply] at this
                rwa [if_pos (by have := hk s hs; omega)] at this
            _ = M * ∑ s ∈ range (n - 1 - c.1), |val (X (n - 1 - s) j)| := by rw [mul_sum]
            _ ≤ _ := mul_le_mul_of_nonneg_left e3 hM
        have e5 : (1 + u α) ^ (n - 1 - c.1 + 1) * (|val (Y c j)| + (∑ s ∈ range (n - 1 - c.1), |val (X (n - 1 - s) j) * val (G c (n - 1 - s))|) +
            (n - 1 - c.1 : ℕ) * η α) ≤ (1 + u α) ^ n * (y + M * S + n * η α) := by
          have p0 : 0 ≤ ∑ s ∈ range (n - 1 - c.1), |val (X (n - 1 - s) j) * val (G c (n - 1 - s))| := sum_nonneg fun _ _ => abs_nonneg _
          have p1 := (hY c).2
          have p2 : ((n - 1 - c.1 : ℕ) : ℝ) * η α ≤ n * η α := mul_le_mul_of_nonneg_right (by exact_mod_cast (by omega)) hη
          exact mul_le_mul (pow_le_pow_right₀ (one_u (α := α)) (by omega)) (by linarith) (by positivity) (by positivity)
        obtain ⟨f1, f2⟩ := fsub_fin (fun s => X (n - 1 - s) j) (fun s => G c (n - 1 - s)) (Y c j) (hY c).1 (n - 1 - c.1)
          (fun s hs => ⟨hf ⟨n - 1 - s, (hk s hs).2⟩ (by simp only; omega), hG c ⟨n - 1 - s, (hk s hs).2⟩ (by rw [Fin.le_def]; simp only; omega)⟩)
          (e5.trans h1)
        have d1 : V c c * U c c = 1 := by
          have := congrFun (congrFun hV c) c
          rw [Matrix.mul_apply, Matrix.one_apply_eq, sum_eq_single c] at this
          · exact this
          · intro b _ hb
            rcases lt_or_gt_of_ne hb with hb | hb
            · rw [hVt c b hb, zero_mul]
            · rw [hUz b c hb, mul_zero]
          · intro hb; exact absurd (mem_univ c) hb
        have d2 : U c c = val (G c c) := by rw [hUd]; simp [upper]
        rw [d2] at d1
        have d3 : val (G c c) ≠ 0 := fun h0 => by rw [h0, mul_zero] at d1; exact zero_ne_one d1
        refine Fp.div_fin _ _ _ (h c) f1 (hG c c le_rfl) d3 ?_
        refine le_trans ?_ h2
        have d4 : |V c c| ≤ W := (single_le_sum (f := fun r => |V c r|) (fun _ _ => abs_nonneg _) (mem_univ c)).trans (hW c)
        have d5 : ∀ w : ℝ, w / val (G c c) = V c c * w := fun w => by
          rw [div_eq_iff d3]; linear_combination -w * d1
        rw [d5, abs_mul]
        have := mul_le_mul d4 (f2.trans e5) (abs_nonneg _) ((abs_nonneg _).trans d4)
        have := mul_le_mul_of_nonneg_left this (show 0 ≤ 1 + u α by linarith)
        linarith
  have hX : ∀ i : Fin n, fin (X i j) := fun i => key n le_rfl i (by omega)
  refine ⟨hX, ?_⟩
  have := (tail_bound j hM h (fun i => hG i i le_rfl) hU hV hVt hW (fun i => (hY i).2) hs 0 fun c _ => hX c).trans hS
  simpa using this

end LU.Rnd
end LA
