import Verif.Props.CholeskyBounds
import Verif.Proofs.LUNear
import Verif.Proofs.Overflow

/-!
# C110: `solve`, `inverse` and `det` on doubles, in terms of the matrix alone

C62, C63, C74 and C91 bound the errors of the LU decomposition and of what is computed from it in terms of the computed factors, and
assume that nothing overflows.  Here the factors are eliminated, and the absence of overflow is proved: all that is left is the order `n`
of the matrix, a bound `M` for its entries, and a bound `K` for the row sums of its inverse.  `tiny` covers underflow.
-/

namespace LA.Props
open LA Finset Fp
set_option linter.unusedSectionVars false

variable {n p : Nat}

theorem three_pow {n : Nat} (hn : n ≤ 100) : (1 : ℝ) ≤ 3 ^ n ∧ (3 : ℝ) ^ n ≤ 2 ^ 159 := by
  refine ⟨one_le_pow₀ (by norm_num), ?_⟩
  calc (3 : ℝ) ^ n ≤ 3 ^ 100 := pow_le_pow_right₀ (by norm_num) hn
    _ ≤ 2 ^ 159 := by norm_num

/-- What the decomposition computes, with bounds. -/
structure Factored (A : Matrix (Fin n) (Fin n) F64) (M : ℝ) (G : Nat → Nat → F64) (σ : Equiv.Perm (Fin n)) : Prop where
  new : LU.new (ofM A) = .ok ⟨ofM (Matrix.of fun (i : Fin n) (j : Fin n) => G i j), decide (Equiv.Perm.sign σ = 1), List.ofFn fun i => (σ i).1⟩
  fin : ∀ i c, i < n → c < n → (G i c).isFin
  low : ∀ i c, i < n → c < i → |(G i c).toReal| ≤ 1 + 1 / 2 ^ 52
  up : ∀ i c, c < n → i ≤ c → |(G i c).toReal| ≤ (1 + 1 / 2 ^ 52) * M * 3 ^ i
  err : ∀ i c : Fin n, |(A (σ i) c).toReal - ∑ k, LU.lower n n (fun i c => (G i c).toReal) i k * LU.upper n n (fun i c => (G i c).toReal) k c| ≤
    (n + 1) * 3 ^ n / 2 ^ 52 * M

namespace Factored
variable {A : Matrix (Fin n) (Fin n) F64} {M : ℝ} {G : Nat → Nat → F64} {σ : Equiv.Perm (Fin n)}

theorem lower_le (hl : ∀ i c, i < n → c < i → |(G i c).toReal| ≤ 1 + 1 / 2 ^ 52) (i k : Fin n) :
    |LU.lower n n (fun i c => (G i c).toReal) i k| ≤ 1 + 1 / 2 ^ 52 := by
  simp only [LU.lower, Matrix.of_apply]
  split
  · next h => exact hl i k i.2 h
  · split
    · rw [abs_one]; norm_num
    · rw [abs_zero]; norm_num

theorem upper_le (hM : 0 ≤ M) (hu : ∀ i c, c < n → i ≤ c → |(G i c).toReal| ≤ (1 + 1 / 2 ^ 52) * M * 3 ^ i) (i k : Fin n) :
    |LU.upper n n (fun i c => (G i c).toReal) i k| ≤ (1 + 1 / 2 ^ 52) * M * 3 ^ i.1 := by
  simp only [LU.upper, Matrix.of_apply]
  split
  · next h => exact hu i k k.2 h
  · rw [abs_zero]; positivity

theorem geom : ∑ k : Fin n, (3 : ℝ) ^ k.1 ≤ 3 ^ n / 2 := by
  rw [Fin.sum_univ_eq_sum_range (fun k => (3 : ℝ) ^ k), geom_sum_eq (by norm_num)]
  norm_num
  linarith

theorem upper_sum (hM : 0 ≤ M) (hu : ∀ i c, c < n → i ≤ c → |(G i c).toReal| ≤ (1 + 1 / 2 ^ 52) * M * 3 ^ i) (c : Fin n) :
    ∑ k, |LU.upper n n (fun i c => (G i c).toReal) k c| ≤ 11 / 20 * M * 3 ^ n := by
  calc _ ≤ ∑ k : Fin n, (1 + 1 / 2 ^ 52) * M * 3 ^ k.1 := sum_le_sum fun k _ => upper_le hM hu k c
    _ = (1 + 1 / 2 ^ 52) * M * ∑ k : Fin n, (3 : ℝ) ^ k.1 := by rw [mul_sum]
    _ ≤ (1 + 1 / 2 ^ 52) * M * (3 ^ n / 2) := mul_le_mul_of_nonneg_left geom (by positivity)
    _ ≤ _ := by
      have : 0 ≤ M * 3 ^ n := by positivity
      norm_num
      linarith

theorem prod_sum (hM : 0 ≤ M) (hl : ∀ i c, i < n → c < i → |(G i c).toReal| ≤ 1 + 1 / 2 ^ 52)
    (hu : ∀ i c, c < n → i ≤ c → |(G i c).toReal| ≤ (1 + 1 / 2 ^ 52) * M * 3 ^ i) (i c : Fin n) :
    ∑ k, |LU.lower n n (fun i c => (G i c).toReal) i k| * |LU.upper n n (fun i c => (G i c).toReal) k c| ≤ 3 / 5 * M * 3 ^ n := by
  calc _ ≤ ∑ k, (1 + 1 / 2 ^ 52) * |LU.upper n n (fun i c => (G i c).toReal) k c| :=
        sum_le_sum fun k _ => mul_le_mul_of_nonneg_right (lower_le hl i k) (abs_nonneg _)
    _ = (1 + 1 / 2 ^ 52) * ∑ k, |LU.upper n n (fun i c => (G i c).toReal) k c| := by rw [mul_sum]
    _ ≤ (1 + 1 / 2 ^ 52) * (11 / 20 * M * 3 ^ n) := mul_le_mul_of_nonneg_left (upper_sum hM hu c) (by positivity)
    _ ≤ _ := by
      have : 0 ≤ M * 3 ^ n := by positivity
      norm_num
      linarith

end Factored

theorem big_f64 : (2 : ℝ) ^ 1000 * 2 ^ 23 ≤ Ω F64 := by
  refine le_trans ?_ f64_top
  rw [← pow_add]
  exact le_mul_of_one_le_right (by positivity) (by norm_num)

theorem eta_le : η F64 ≤ 1 / 2 ^ 175 := by
  rw [eta_tiny]
  exact mul_le_of_le_one_left (by positivity) tiny_le

theorem factor_small (hn100 : n ≤ 100) {M : ℝ} (hM1 : tiny ≤ M) {G : Nat → Nat → F64}
    (hlow : ∀ i c, i < n → c < i → |(G i c).toReal| ≤ 1 + 1 / 2 ^ 52)
    (hup : ∀ i c, c < n → i ≤ c → |(G i c).toReal| ≤ (1 + 1 / 2 ^ 52) * M * 3 ^ i) (i c : Fin n) :
    γ F64 (n + 1) * (∑ k, |LU.lower n n (fun i c => (G i c).toReal) i k| * |LU.upper n n (fun i c => (G i c).toReal) k c|) + θ F64 n +
        (1 + u F64) * η F64 * ∑ k, |LU.upper n n (fun i c => (G i c).toReal) k c| ≤ (n + 1) * 3 ^ n / 2 ^ 52 * M := by
  have ht := tiny_pos
  have hM0 : 0 < M := lt_of_lt_of_le ht hM1
  have hu : u F64 = 1 / 2 ^ 53 := rfl
  have hη0 := η_nonneg (α := F64)
  have hη := eta_le
  obtain ⟨hT1, hT2⟩ := three_pow hn100
  have hθ := theta_f64 (n := n) (by omega)
  have s1 := Factored.prod_sum hM0.le hlow hup i c
  have s2 := Factored.upper_sum hM0.le hup c
  have hγ := gamma_f64 (k := n + 1) (by omega)
  push_cast at hγ
  have t1 := mul_le_mul hγ s1 (sum_nonneg fun _ _ => by positivity) (by positivity)
  have t2 : θ F64 n ≤ M * 3 ^ n * (1 / 2 ^ 154) := by
    refine hθ.trans (mul_le_mul_of_nonneg_right (hM1.trans ?_) (by norm_num))
    exact le_mul_of_one_le_right hM0.le hT1
  have t3 : (1 + u F64) * η F64 * (∑ k, |LU.upper n n (fun i c => (G i c).toReal) k c|) ≤ 2 * (1 / 2 ^ 175) * (11 / 20 * M * 3 ^ n) :=
    mul_le_mul (mul_le_mul (by rw [hu]; norm_num) hη hη0 (by norm_num)) s2 (sum_nonneg fun _ _ => abs_nonneg _) (by norm_num)
  have t4 : 0 ≤ M * 3 ^ n := by positivity
  have t5 : 0 ≤ n * (M * 3 ^ n) := by positivity
  refine (add_le_add (add_le_add t1 t2) t3).trans ?_
  have e1 : (n + 1 : ℝ) / 2 ^ 52 * (3 / 5 * M * 3 ^ n) = (n * (M * 3 ^ n)) * (3 / 5 / 2 ^ 52) + (M * 3 ^ n) * (3 / 5 / 2 ^ 52) := by ring
  have e2 : (n + 1 : ℝ) * 3 ^ n / 2 ^ 52 * M = (n * (M * 3 ^ n)) * (1 / 2 ^ 52) + (M * 3 ^ n) * (1 / 2 ^ 52) := by ring
  have e3 : 2 * (1 / 2 ^ 175) * (11 / 20 * M * 3 ^ n) = (M * 3 ^ n) * (11 / 10 / 2 ^ 175) := by ring
  rw [e1, e2, e3]
  generalize n * (M * 3 ^ n) = a at *
  generalize M * 3 ^ n = b at *
  norm_num
  linarith

theorem factored (hn : 0 < n) (hn100 : n ≤ 100) {A : Matrix (Fin n) (Fin n) F64} {M : ℝ} (hA : ∀ i j, (A i j).isFin ∧ |(A i j).toReal| ≤ M)
    (hM1 : tiny ≤ M) (hM2 : M ≤ 2 ^ 800) : ∃ (G : Nat → Nat → F64) (σ : Equiv.Perm (Fin n)), Factored A M G σ := by
  obtain ⟨G, σ, h1, h2⟩ := LU.Rnd.new_ofM hn hn A
  have ht := tiny_pos
  have hM0 : 0 < M := lt_of_lt_of_le ht hM1
  have hu : u F64 = 1 / 2 ^ 53 := rfl
  have hη0 := η_nonneg (α := F64)
  have hη := eta_le
  obtain ⟨hT1, hT2⟩ := three_pow hn100
  have hnr : (n : ℝ) ≤ 100 := by exact_mod_cast hn100
  have hθ := theta_f64 (n := n) (by omega)
  have hθ0 := θ_nonneg (α := F64) n
  have hΩ := big_f64
  have hR : (1 + u F64) * (M + θ F64 n) ≤ (1 + 1 / 2 ^ 52) * M := by
    have : θ F64 n ≤ M * (1 / 2 ^ 154) := hθ.trans (mul_le_mul_of_nonneg_right hM1 (by norm_num))
    rw [hu]
    norm_num at this ⊢
    linarith
  have c1 : (1 + u F64) ^ (min n n + 2) * (1 + u F64 + η F64) ≤ 2 := by
    have e := gamma_f64 (k := min n n + 2) (by omega)
    unfold γ at e
    rw [Nat.min_self] at e ⊢
    push_cast at e
    have e2 : (1 + u F64) ^ (n + 2) ≤ 3 / 2 := by norm_num at e ⊢; linarith
    calc _ ≤ (3 / 2 : ℝ) * (4 / 3) := mul_le_mul e2 (by rw [hu]; norm_num at hη ⊢; linarith) (by rw [hu]; positivity) (by norm_num)
      _ = 2 := by norm_num
  have h1000 : (1 : ℝ) ≤ 2 ^ 1000 := one_le_pow₀ (by norm_num)
  have c2 : 1 + u F64 + η F64 ≤ Ω F64 := by
    refine le_trans ?_ hΩ
    rw [hu]
    generalize (2 : ℝ) ^ 1000 = P at *
    norm_num at hη ⊢
    linarith
  have c3 : (1 + u F64) * (M + θ F64 (min n n)) * 3 ^ min n n ≤ Ω F64 := by
    rw [Nat.min_self]
    calc _ ≤ (1 + 1 / 2 ^ 52) * M * 3 ^ n := mul_le_mul_of_nonneg_right hR (by positivity)
      _ ≤ 2 * 2 ^ 800 * 2 ^ 159 := mul_le_mul (mul_le_mul (by norm_num) hM2 hM0.le (by norm_num)) hT2 (by positivity) (by positivity)
      _ ≤ 2 ^ 1000 * 2 ^ 23 := by
        rw [mul_comm (2 : ℝ), ← pow_succ, ← pow_add, ← pow_add]
        exact pow_le_pow_right₀ (by norm_num) (by norm_num)
      _ ≤ _ := hΩ
  have hG := LU.Rnd.no_overflow h2 (M := M) (fun i c hi hc => by rw [ext_eq A hi hc]; exact hA _ _) c1 c2 c3
  rw [Nat.min_self] at hG
  have hlow : ∀ i c, i < n → c < i → |(G i c).toReal| ≤ 1 + 1 / 2 ^ 52 := fun i c hi hc => by
    have := (hG c (by omega) i hi).2
    rw [if_pos hc] at this
    refine this.trans ?_
    rw [hu]
    norm_num at hη ⊢
    linarith
  have hup : ∀ i c, c < n → i ≤ c → |(G i c).toReal| ≤ (1 + 1 / 2 ^ 52) * M * 3 ^ i := fun i c hc hi => by
    have := (hG c hc i (by omega)).2
    rw [if_neg (by omega)] at this
    exact this.trans (mul_le_mul_of_nonneg_right hR (by positivity))
  have hfin : ∀ i c, i < n → c < n → (G i c).isFin := fun i c hi hc => (hG c hc i hi).1
  refine ⟨G, σ, h1, hfin, hlow, hup, fun i c => ?_⟩
  have hF : ∀ (_ : ∀ i k, fin (LU.Rnd.lowerA n n G i k)) (_ : ∀ k c, fin (LU.Rnd.upperA n n G k c)) (i c : Fin n),
    |val (ext A (σ i) c) - ∑ k, val (LU.Rnd.lowerA n n G i k) * val (LU.Rnd.upperA n n G k c)| ≤
      γ F64 (n + 1) * (∑ k, |val (LU.Rnd.lowerA n n G i k)| * |val (LU.Rnd.upperA n n G k c)|) + θ F64 n +
        (1 + u F64) * η F64 * ∑ k, |val (LU.Rnd.upperA n n G k c)| := by
    have hmin : min n n = n := Nat.min_self n
    have := LU.Rnd.factor_err h2
    rw [hmin] at this
    exact fun hL hU => this hL hU
  have h3 := hF (fun i k => by
      simp only [LU.Rnd.lowerA, Matrix.of_apply]
      split
      · exact hfin i k i.2 k.2
      · split
        · exact Fp.one.1
        · exact Fp.zero.1) (fun k c => by
      simp only [LU.Rnd.upperA, Matrix.of_apply]
      split
      · exact hfin k c k.2 c.2
      · exact Fp.zero.1) i c
  rw [ext_fin] at h3
  simp only [fun i k => (LU.Rnd.val_lowerA n n G i k).1, fun i k => (LU.Rnd.val_upperA n n G i k).1] at h3
  exact h3.trans (factor_small hn100 hM1 hlow hup i c)

/-- The conditioning of the matrix. -/
structure Conditioned (A Z : Matrix (Fin n) (Fin n) ℝ) (M K : ℝ) : Prop where
  inv : Z * A = 1
  row : ∀ i, ∑ j, |Z i j| ≤ K
  cond : n ^ 3 * 3 ^ n * (K * M) ≤ 2 ^ 49

theorem Conditioned.scaled (hn : 0 < n) {A Z : Matrix (Fin n) (Fin n) ℝ} {M K : ℝ} (hM : 0 ≤ M) (h : Conditioned A Z M K) :
    0 ≤ K ∧ n ^ 2 * 3 ^ n * (K * M) ≤ 2 ^ 49 ∧ n * 3 ^ n * (K * M) ≤ 2 ^ 49 ∧ K * M ≤ 2 ^ 49 := by
  have hK : 0 ≤ K := (sum_nonneg fun _ _ => abs_nonneg _).trans (h.row ⟨0, hn⟩)
  have hn1 : (1 : ℝ) ≤ n := by exact_mod_cast hn
  have h3 : (1 : ℝ) ≤ 3 ^ n := one_le_pow₀ (by norm_num)
  have hKM : 0 ≤ K * M := mul_nonneg hK hM
  have h0 := h.cond
  have a1 : (n : ℝ) ^ 2 * 3 ^ n * (K * M) ≤ n ^ 3 * 3 ^ n * (K * M) :=
    mul_le_mul_of_nonneg_right (mul_le_mul_of_nonneg_right (pow_le_pow_right₀ hn1 (by norm_num)) (by positivity)) hKM
  have a2 : (n : ℝ) * 3 ^ n * (K * M) ≤ n ^ 2 * 3 ^ n * (K * M) :=
    mul_le_mul_of_nonneg_right (mul_le_mul_of_nonneg_right (by nlinarith) (by positivity)) hKM
  have a3 : K * M ≤ n * 3 ^ n * (K * M) := le_mul_of_one_le_left hKM (by nlinarith)
  exact ⟨hK, by linarith, by linarith, by linarith⟩

theorem solve_core (hn : 0 < n) (hp : 0 < p) (hn100 : n ≤ 100) {A : Matrix (Fin n) (Fin n) F64} {M : ℝ}
    (hA : ∀ i j, (A i j).isFin ∧ |(A i j).toReal| ≤ M) (hM1 : tiny ≤ M) (hM2 : M ≤ 2 ^ 800) {Z : Matrix (Fin n) (Fin n) ℝ} {K : ℝ}
    (hc : Conditioned (A.map F64.toReal) Z M K) {B : Matrix (Fin n) (Fin p) F64} {β : ℝ} (hB : ∀ i j, (B i j).isFin ∧ |(B i j).toReal| ≤ β)
    {P : ℝ} (h1000 : 2 ^ 51 ≤ P) (hΩ : P * 2 ^ 250 ≤ Ω F64) (hβ : β ≤ P) (hKβ : K * β ≤ P) :
    ∃ X : Matrix (Fin n) (Fin p) F64, (ofM A).solve (ofM B) = .ok (some (ofM X)) ∧ ∀ i j, (X i j).isFin := by
  obtain ⟨G, σ, hf⟩ := factored hn hn100 hA hM1 hM2
  have ht := tiny_pos
  have hM0 : 0 < M := lt_of_lt_of_le ht hM1
  obtain ⟨hK0, hk2, hk1, hk0⟩ := hc.scaled hn hM0.le
  have hu : u F64 = 1 / 2 ^ 53 := rfl
  have hη0 := η_nonneg (α := F64)
  obtain ⟨hT1, hT2⟩ := three_pow hn100
  have hn1 : (1 : ℝ) ≤ n := by exact_mod_cast hn
  have hnr : (n : ℝ) ≤ 100 := by exact_mod_cast hn100
  have hβ0 : 0 ≤ β := (abs_nonneg _).trans (hB ⟨0, hn⟩ ⟨0, hp⟩).2
  have hKM0 : 0 ≤ K * M := mul_nonneg hK0 hM0.le
  have hKt : K * tiny ≤ 2 ^ 49 := (mul_le_mul_of_nonneg_left hM1 hK0).trans hk0
  have hKt0 : 0 ≤ K * tiny := by positivity
  have hηt := eta_tiny
  have hθ := theta_f64 (n := n) (by omega)
  have hθ0 := θ_nonneg (α := F64) n
  have hγ := gamma_f64 (k := n) (by omega)
  have hγ0 := γ_nonneg (α := F64) n
  have hq : (1 + u F64) ^ n ≤ 2 := pow_f64 (by omega)
  have hq' : (1 + u F64) ^ n ≤ 3 / 2 := by
    unfold γ at hγ
    norm_num at hγ ⊢
    linarith
  have hq0 : 1 ≤ (1 + u F64) ^ n := one_le_pow (α := F64) n
  -- the inverse of `U`
  obtain ⟨V, hV, hVt, hVW⟩ := upper_inverse (A := A.map F64.toReal) (Z := Z) (L := LU.lower n n fun i c => (G i c).toReal)
    (U := LU.upper n n fun i c => (G i c).toReal) (l := n * (1 + 1 / 2 ^ 52)) σ hc.inv hc.row hf.err (by
      have e : (n : ℝ) * K * ((n + 1) * 3 ^ n / 2 ^ 52 * M) = (n ^ 2 * 3 ^ n * (K * M) + n * 3 ^ n * (K * M)) / 2 ^ 52 := by ring
      rw [e]
      norm_num at hk2 hk1 ⊢
      linarith) (fun i => by
      calc _ ≤ ∑ _k : Fin n, (1 + 1 / 2 ^ 52 : ℝ) := sum_le_sum fun k _ => Factored.lower_le hf.low i k
        _ = _ := by rw [sum_const, card_univ, Fintype.card_fin, nsmul_eq_mul]) (fun r c hrc => by
      have : c.1 < r.1 := hrc
      simp only [LU.upper, Matrix.of_apply]; rw [if_neg (by omega)])
  have hW : ∀ c, ∑ r, |V c r| ≤ 3 * n * K := fun c => (hVW c).trans (by
    have : 0 ≤ n * K := by positivity
    norm_num
    nlinarith)
  have hUz : ∀ r c : Fin n, c < r → LU.upper n n (fun i c => (G i c).toReal) r c = 0 := fun r c hrc => by
    have : c.1 < r.1 := hrc
    simp only [LU.upper, Matrix.of_apply]; rw [if_neg (by omega)]
  have hUM : ∀ i c : Fin n, |LU.upper n n (fun i c => (G i c).toReal) i c| ≤ M * 3 ^ n / 2 := fun i c => by
    refine (Factored.upper_le hM0.le hf.up i c).trans ?_
    have h3 : (3 : ℝ) ^ i.1 * 3 ≤ 3 ^ n := by
      rw [← pow_succ]; exact pow_le_pow_right₀ (by norm_num) i.2
    have := mul_le_mul_of_nonneg_left h3 hM0.le
    have h0 : 0 ≤ M * 3 ^ i.1 := by positivity
    norm_num
    linarith
  have hdiag : ∀ c : Fin n, (G c c).toReal ≠ 0 := fun c h0 => by
    have := congrFun (congrFun hV c) c
    rw [Matrix.mul_apply, Matrix.one_apply_eq, sum_eq_zero] at this
    · exact zero_ne_one this
    · intro b _
      rcases lt_trichotomy b c with hb | hb | hb
      · rw [hVt c b hb, zero_mul]
      · subst hb
        have : LU.upper n n (fun i c => (G i c).toReal) b b = (G b b).toReal := by simp [LU.upper]
        rw [this, h0, mul_zero]
      · rw [hUz b c hb, mul_zero]
  rcases LU.Rnd.solve_ok hn hp G (decide (Equiv.Perm.sign σ = 1)) σ B with ⟨⟨i, hi⟩, -⟩ | ⟨-, X, Y, h4, h5, h6⟩
  · exfalso
    have := (Fp.eq _ _ (hf.fin i i i.2 i.2) Fp.zero.1).1 hi
    rw [Fp.zero.2] at this
    exact hdiag i this
  refine ⟨Matrix.of fun i j => X i j, ?_, fun i j => ?_⟩
  · unfold Mat.solve
    rw [hf.new, ok_bind, h4]
  have hnη : n * η F64 ≤ tiny * (1 / 2 ^ 168) := by
    rw [hηt]
    have := mul_le_mul_of_nonneg_right hnr (show 0 ≤ tiny * (1 / 2 ^ 175) by positivity)
    norm_num at this ⊢
    linarith
  have hnη0 : 0 ≤ n * η F64 := by positivity
  -- forward substitution
  have hy : (1 + u F64) ^ n * (β + n * η F64) * 3 ^ n ≤ 2 * (β + tiny) * 3 ^ n := by
    refine mul_le_mul_of_nonneg_right (mul_le_mul hq ?_ (by positivity) (by norm_num)) (by positivity)
    norm_num at hnη
    linarith
  have hP0 : 0 ≤ P := le_trans (by norm_num) h1000
  have hbt : β + tiny ≤ 2 * P := by have := tiny_le; norm_num at h1000; linarith
  have hy2 : 2 * (β + tiny) * 3 ^ n ≤ 2 * (2 * P) * 2 ^ 159 := mul_le_mul (by linarith) hT2 (by positivity) (by positivity)
  have hY := LU.Rnd.forward_fin (n := n) (G := G) (Y := fun i => Y i j) (b := fun i => if h : i < n then B (σ ⟨i, h⟩) j else 0)
    (g := 1 + 1 / 2 ^ 52) (β := β) (by positivity) hβ0 (fun i hi => by
      rw [dif_pos hi]; exact h5 ⟨i, hi⟩ j) (fun i hi => by rw [dif_pos hi]; exact hB _ _)
    (fun i t hi ht => ⟨hf.fin i t hi (by omega), hf.low i t hi ht⟩)
    (by
      calc _ ≤ (3 / 2 : ℝ) * (4 / 3) := mul_le_mul hq' (by norm_num) (by positivity) (by norm_num)
        _ = 2 := by norm_num) (by
      refine (hy.trans hy2).trans (le_trans ?_ hΩ)
      calc 2 * (2 * P) * 2 ^ 159 = P * 2 ^ 161 := by ring
        _ ≤ _ := mul_le_mul_of_nonneg_left (by norm_num) hP0)
  have hY2 : ∀ i : Fin n, fin (Y i j) ∧ |val (Y i j)| ≤ 2 * (β + tiny) * 3 ^ n := fun i => by
    obtain ⟨a, b⟩ := hY i i.2
    refine ⟨a, b.trans (le_trans ?_ hy)⟩
    exact mul_le_mul_of_nonneg_left (pow_le_pow_right₀ (by norm_num) i.2.le) (mul_nonneg (zero_le_one.trans hq0) (add_nonneg hβ0 hnη0))
  -- back substitution
  have hMT : 0 ≤ M * 3 ^ n := by positivity
  have he : θ F64 n + (1 + u F64) ^ n * η F64 * (M * 3 ^ n / 2) ≤ tiny * (1 + M) := by
    have a1 : (1 + u F64) ^ n * η F64 * (M * 3 ^ n / 2) ≤ 2 * (tiny * (1 / 2 ^ 175)) * (M * 2 ^ 159 / 2) := by
      rw [← hηt]
      refine mul_le_mul (mul_le_mul_of_nonneg_right hq hη0) ?_ (by positivity) (by positivity)
      have := mul_le_mul_of_nonneg_left hT2 hM0.le
      linarith
    have a2 : 2 * (tiny * (1 / 2 ^ 175)) * (M * 2 ^ 159 / 2) ≤ tiny * M := by
      have : 0 ≤ tiny * M := by positivity
      norm_num
      linarith
    norm_num at hθ
    linarith
  have hKe : K * (tiny * (1 + M)) ≤ 2 ^ 50 := by
    have : K * (tiny * (1 + M)) = K * tiny + tiny * (K * M) := by ring
    have h1 : tiny * (K * M) ≤ K * M := mul_le_of_le_one_left hKM0 tiny_le
    rw [this]
    norm_num at hKt hk0 ⊢
    linarith
  have hKy : K * (β + tiny) ≤ P + 2 ^ 49 := by
    rw [mul_add]; linarith
  have hKy0 : 0 ≤ K * (β + tiny) := by positivity
  have hKe0 : 0 ≤ K * (tiny * (1 + M)) := by positivity
  -- bound for the solution
  have hKS : K * (2 * (β + tiny) * 3 ^ n + tiny * (1 + M)) ≤ (2 * (P + 2 ^ 49) + 2 ^ 50) * 2 ^ 159 := by
    have e : K * (2 * (β + tiny) * 3 ^ n + tiny * (1 + M)) = 2 * (K * (β + tiny)) * 3 ^ n + K * (tiny * (1 + M)) := by ring
    rw [e]
    have a1 : 2 * (K * (β + tiny)) * 3 ^ n ≤ 2 * (P + 2 ^ 49) * 2 ^ 159 := mul_le_mul (by linarith) hT2 (by positivity) (by positivity)
    have a2 : K * (tiny * (1 + M)) ≤ 2 ^ 50 * 2 ^ 159 := hKe.trans (le_mul_of_one_le_right (by norm_num) (by norm_num))
    linarith
  -- products of `U` and the solution
  have hy3 : 2 * (β + tiny) * 3 ^ n ≤ P * 2 ^ 161 := hy2.trans (le_of_eq (by ring))
  have htM : tiny * (1 + M) ≤ 2 := by
    have a1 : tiny * M ≤ 1 := by
      unfold tiny
      rw [one_div, inv_mul_le_iff₀ (by positivity), mul_one]
      exact hM2.trans (pow_le_pow_right₀ (by norm_num) (by norm_num))
    have := tiny_le
    linarith
  set D := 2 * (β + tiny) * 3 ^ n + tiny * (1 + M) with hD
  have hD0 : 0 ≤ D := by positivity
  have hDP : D ≤ P * 2 ^ 162 := by
    norm_num at h1000 hy3 ⊢
    linarith
  set S := 6 * (n * n) * (K * D) with hSd
  have hS0 : 0 ≤ S := by positivity
  have hSP : S ≤ P * 2 ^ 180 := by
    calc S ≤ 6 * (100 * 100) * ((2 * (P + 2 ^ 49) + 2 ^ 50) * 2 ^ 159) :=
          mul_le_mul (mul_le_mul_of_nonneg_left (mul_le_mul hnr hnr (by positivity) (by norm_num)) (by norm_num)) hKS (by positivity) (by norm_num)
      _ ≤ 6 * (100 * 100) * (3 * P * 2 ^ 159) := by
          refine mul_le_mul_of_nonneg_left (mul_le_mul_of_nonneg_right ?_ (by norm_num)) (by norm_num)
          norm_num at h1000 ⊢
          linarith
      _ = P * (180000 * 2 ^ 159) := by ring
      _ ≤ _ := mul_le_mul_of_nonneg_left (by norm_num) hP0
  have hS : 2 * n * (3 * n * K) * (2 * (β + tiny) * 3 ^ n + (θ F64 n + (1 + u F64) ^ n * η F64 * (M * 3 ^ n / 2))) ≤ S := by
    calc _ ≤ 2 * n * (3 * n * K) * D := mul_le_mul_of_nonneg_left (by linarith) (by positivity)
      _ = S := by rw [hSd]; ring
  have hMS : M * 3 ^ n / 2 * S ≤ P * 2 ^ 215 := by
    calc M * 3 ^ n / 2 * S = 3 * (n ^ 2 * 3 ^ n * (K * M)) * D := by rw [hSd]; ring
      _ ≤ 3 * 2 ^ 49 * (P * 2 ^ 162) := mul_le_mul (mul_le_mul_of_nonneg_left hk2 (by norm_num)) hDP hD0 (by norm_num)
      _ = P * (3 * 2 ^ 49 * 2 ^ 162) := by ring
      _ ≤ _ := mul_le_mul_of_nonneg_left (by norm_num) hP0
  have hη1 : n * η F64 ≤ 1 := by
    have := tiny_le
    norm_num at hnη
    linarith
  have hsum0 : 0 ≤ 2 * (β + tiny) * 3 ^ n + M * 3 ^ n / 2 * S + n * η F64 := by positivity
  have hsum : (1 + u F64) ^ n * (2 * (β + tiny) * 3 ^ n + M * 3 ^ n / 2 * S + n * η F64) ≤ P * 2 ^ 217 := by
    calc _ ≤ 2 * (P * 2 ^ 161 + P * 2 ^ 215 + 1) := mul_le_mul hq (by linarith) hsum0 (by norm_num)
      _ ≤ _ := by
        norm_num at h1000 ⊢
        linarith
  have hWS : 3 * n * K * (2 * (β + tiny) * 3 ^ n + M * 3 ^ n / 2 * S + n * η F64) ≤ P * 2 ^ 232 := by
    have e : 3 * n * K * (2 * (β + tiny) * 3 ^ n + M * 3 ^ n / 2 * S + n * η F64) =
        6 * n * (K * (β + tiny)) * 3 ^ n + 3 / 2 * (n * 3 ^ n * (K * M)) * S + 3 * n * (K * (n * η F64)) := by ring
    have a1 : 6 * n * (K * (β + tiny)) * 3 ^ n ≤ 6 * 100 * (P + 2 ^ 49) * 2 ^ 159 :=
      mul_le_mul (mul_le_mul (mul_le_mul_of_nonneg_left hnr (by norm_num)) hKy hKy0 (by norm_num)) hT2 (by positivity) (by positivity)
    have a2 : 3 / 2 * (n * 3 ^ n * (K * M)) * S ≤ 3 / 2 * 2 ^ 49 * (P * 2 ^ 180) :=
      mul_le_mul (mul_le_mul_of_nonneg_left hk1 (by norm_num)) hSP hS0 (by norm_num)
    have a3 : 3 * n * (K * (n * η F64)) ≤ 3 * 100 * 2 ^ 49 := by
      refine mul_le_mul (mul_le_mul_of_nonneg_left hnr (by norm_num)) (le_trans (mul_le_mul_of_nonneg_left ?_ hK0) hKt) (by positivity) (by norm_num)
      norm_num at hnη
      linarith
    rw [e]
    norm_num at a1 a2 a3 h1000 ⊢
    linarith
  have hs : n * (3 * n * K) * γ F64 n * (M * 3 ^ n / 2) ≤ 1 / 2 := by
    have a1 : n * (3 * n * K) * γ F64 n * (M * 3 ^ n / 2) = 3 / 2 * (n ^ 2 * 3 ^ n * (K * M)) * γ F64 n := by ring
    have a2 : 3 / 2 * (n ^ 2 * 3 ^ n * (K * M)) * γ F64 n ≤ 3 / 2 * (n ^ 2 * 3 ^ n * (K * M)) * (n / 2 ^ 52) :=
      mul_le_mul_of_nonneg_left hγ (by positivity)
    have a3 : 3 / 2 * (n ^ 2 * 3 ^ n * (K * M)) * (n / 2 ^ 52) = n ^ 3 * 3 ^ n * (K * M) * (3 / 2 / 2 ^ 52) := by ring
    have a4 := hc.cond
    rw [a1]
    refine a2.trans (a3.le.trans ?_)
    norm_num at a4 ⊢
    linarith
  refine (LU.Rnd.backward_fin j (by positivity) (fun i => h6 i j) (fun i c _ => hf.fin i c i.2 c.2) hUM hV hVt hW hY2 hs hS ?_ ?_).1 i
  · refine hsum.trans (le_trans ?_ hΩ)
    exact mul_le_mul_of_nonneg_left (by norm_num) hP0
  · refine le_trans ?_ hΩ
    have e : (1 + u F64) * (3 * n * K * ((1 + u F64) ^ n * (2 * (β + tiny) * 3 ^ n + M * 3 ^ n / 2 * S + n * η F64))) =
        (1 + u F64) * ((1 + u F64) ^ n) * (3 * n * K * (2 * (β + tiny) * 3 ^ n + M * 3 ^ n / 2 * S + n * η F64)) := by ring
    have a1 : (1 + u F64) * ((1 + u F64) ^ n) * (3 * n * K * (2 * (β + tiny) * 3 ^ n + M * 3 ^ n / 2 * S + n * η F64)) ≤
        2 * 2 * (P * 2 ^ 232) :=
      mul_le_mul (mul_le_mul (by rw [hu]; norm_num) hq (zero_le_one.trans hq0) (by norm_num)) hWS (mul_nonneg (by positivity) hsum0) (by norm_num)
    have a2 := eta_le
    rw [e]
    norm_num at a1 a2 h1000 ⊢
    linarith

/-- The residual of the computed solution. -/
theorem solve_resid (hn : 0 < n) (hp : 0 < p) (hn100 : n ≤ 100) {A : Matrix (Fin n) (Fin n) F64} {M : ℝ}
    (hA : ∀ i j, (A i j).isFin ∧ |(A i j).toReal| ≤ M) (hM1 : tiny ≤ M) (hM2 : M ≤ 2 ^ 800) {B X : Matrix (Fin n) (Fin p) F64}
    (hX : (ofM A).solve (ofM B) = .ok (some (ofM X))) (hXf : ∀ i j, (X i j).isFin) (i : Fin n) (j : Fin p) :
    |(B i j).toReal - ∑ c, (A i c).toReal * (X c j).toReal| ≤
      (3 * n + 1) * 3 ^ n / 2 ^ 52 * M * ∑ c, |(X c j).toReal| + tiny * (1 + M) := by
  obtain ⟨G, σ, hf⟩ := factored hn hn100 hA hM1 hM2
  obtain ⟨x, σ', L, U, h1, h2, h3, h4, h5⟩ := C63_solve hn hp A B
  rw [hf.new] at h1
  obtain rfl := Except.ok.inj h1
  obtain rfl : σ = σ' := by
    have h2 := List.ofFn_injective h2
    exact Equiv.ext fun i => Fin.ext (congrFun h2 i)
  have hL' := LU.Rnd.getL_ok G hn hn (decide (Equiv.Perm.sign σ = 1)) (List.ofFn fun i => (σ i).1)
  have hU' := LU.Rnd.getU_ok G hn hn (decide (Equiv.Perm.sign σ = 1)) (List.ofFn fun i => (σ i).1)
  rw [Nat.min_self] at hL' hU'
  obtain rfl : L = LU.Rnd.lowerA n n G := ofM_inj (Except.ok.inj (h3.symm.trans hL'))
  obtain rfl : U = LU.Rnd.upperA n n G := ofM_inj (Except.ok.inj (h4.symm.trans hU'))
  rcases h5 with ⟨-, h5⟩ | ⟨-, X', h5, h6⟩
  · rw [h5] at hX; simp at hX
  obtain rfl : X' = X := ofM_inj (by rw [h5] at hX; simpa using hX)
  have h7 := h6 (fun i k => by
      simp only [LU.Rnd.lowerA, Matrix.of_apply]
      split
      · exact hf.fin i k i.2 k.2
      · split
        · exact Fp.one.1
        · exact Fp.zero.1) (fun k c => by
      simp only [LU.Rnd.upperA, Matrix.of_apply]
      split
      · exact hf.fin k c k.2 c.2
      · exact Fp.zero.1) hXf (σ.symm i) j
  rw [Equiv.apply_symm_apply] at h7
  simp only [fun i k => (LU.Rnd.val_lowerA n n G i k).1, fun i k => (LU.Rnd.val_upperA n n G i k).1] at h7
  refine h7.trans ?_
  have ht := tiny_pos
  have hM0 : 0 < M := lt_of_lt_of_le ht hM1
  obtain ⟨hT1, hT2⟩ := three_pow hn100
  have hnr : (n : ℝ) ≤ 100 := by exact_mod_cast hn100
  have hn1 : (1 : ℝ) ≤ n := by exact_mod_cast hn
  have hη0 := η_nonneg (α := F64)
  have hηt := eta_tiny
  have hg := gamma_f64 (k := 3 * n + 1) (by omega)
  have hg0 := γ_nonneg (α := F64) (3 * n + 1)
  have hq : (1 + u F64) ^ (2 * n) ≤ 2 := pow_f64 (by omega)
  have hq0 : 1 ≤ (1 + u F64) ^ (2 * n) := one_le_pow (α := F64) _
  push_cast at hg
  set s := ∑ c, |(X' c j).toReal| with hs
  have hs0 : 0 ≤ s := sum_nonneg fun _ _ => abs_nonneg _
  set i0 := σ.symm i
  have hMT : 0 ≤ M * 3 ^ n := by positivity
  -- the three sums
  have s1 : ∑ k, |LU.lower n n (fun i c => (G i c).toReal) i0 k| * ∑ c, |LU.upper n n (fun i c => (G i c).toReal) k c| * |(X' c j).toReal| ≤
      3 / 5 * M * 3 ^ n * s := by
    simp only [mul_sum, hs]
    rw [sum_comm]
    refine sum_le_sum fun c _ => ?_
    calc _ = (∑ k, |LU.lower n n (fun i c => (G i c).toReal) i0 k| * |LU.upper n n (fun i c => (G i c).toReal) k c|) * |(X' c j).toReal| := by
          rw [sum_mul]; exact sum_congr rfl fun k _ => by ring
      _ ≤ _ := mul_le_mul_of_nonneg_right (Factored.prod_sum hM0.le hf.low hf.up i0 c) (abs_nonneg _)
  have s2 : ∑ k, |LU.lower n n (fun i c => (G i c).toReal) i0 k| * (n + |LU.upper n n (fun i c => (G i c).toReal) k k|) ≤
      20000 + 3 / 5 * M * 3 ^ n := by
    calc _ ≤ ∑ k : Fin n, (1 + 1 / 2 ^ 52) * (n + (1 + 1 / 2 ^ 52) * M * 3 ^ k.1) :=
          sum_le_sum fun k _ => mul_le_mul (Factored.lower_le hf.low i0 k)
            (add_le_add le_rfl (Factored.upper_le hM0.le hf.up k k)) (by positivity) (by positivity)
      _ = (1 + 1 / 2 ^ 52) * (n * n) + (1 + 1 / 2 ^ 52) * ((1 + 1 / 2 ^ 52) * M * ∑ k : Fin n, (3 : ℝ) ^ k.1) := by
          rw [← mul_sum, sum_add_distrib, ← mul_sum, sum_const, card_univ, Fintype.card_fin, nsmul_eq_mul]; ring
      _ ≤ (1 + 1 / 2 ^ 52) * (100 * 100) + (1 + 1 / 2 ^ 52) * ((1 + 1 / 2 ^ 52) * M * (3 ^ n / 2)) :=
          add_le_add (mul_le_mul_of_nonneg_left (mul_le_mul hnr hnr (by positivity) (by norm_num)) (by positivity))
            (mul_le_mul_of_nonneg_left (mul_le_mul_of_nonneg_left Factored.geom (by positivity)) (by positivity))
      _ = (1 + 1 / 2 ^ 52) * (100 * 100) + ((1 + 1 / 2 ^ 52) * (1 + 1 / 2 ^ 52) / 2) * (M * 3 ^ n) := by ring
      _ ≤ 20000 + 3 / 5 * (M * 3 ^ n) := add_le_add (by norm_num) (mul_le_mul_of_nonneg_right (by norm_num) hMT)
      _ = _ := by ring
  have s3 : ∑ c, (n + ∑ k, |LU.upper n n (fun i c => (G i c).toReal) k c|) * |(X' c j).toReal| ≤ (100 + 11 / 20 * M * 3 ^ n) * s := by
    rw [hs, mul_sum]
    exact sum_le_sum fun c _ => mul_le_mul_of_nonneg_right (add_le_add hnr (Factored.upper_sum hM0.le hf.up c)) (abs_nonneg _)
  have n1 : 0 ≤ ∑ k, |LU.lower n n (fun i c => (G i c).toReal) i0 k| * ∑ c, |LU.upper n n (fun i c => (G i c).toReal) k c| * |(X' c j).toReal| :=
    sum_nonneg fun _ _ => mul_nonneg (abs_nonneg _) (sum_nonneg fun _ _ => by positivity)
  have n2 : 0 ≤ ∑ k, |LU.lower n n (fun i c => (G i c).toReal) i0 k| * (n + |LU.upper n n (fun i c => (G i c).toReal) k k|) :=
    sum_nonneg fun _ _ => by positivity
  have n3 : 0 ≤ ∑ c, (n + ∑ k, |LU.upper n n (fun i c => (G i c).toReal) k c|) * |(X' c j).toReal| :=
    sum_nonneg fun _ _ => mul_nonneg (add_nonneg (by positivity) (sum_nonneg fun _ _ => abs_nonneg _)) (abs_nonneg _)
  have t1 := mul_le_mul hg s1 n1 (by positivity)
  have t2 : η F64 * (1 + u F64) ^ (2 * n) * (n + (∑ k, |LU.lower n n (fun i c => (G i c).toReal) i0 k| *
      (n + |LU.upper n n (fun i c => (G i c).toReal) k k|)) + ∑ c, (n + ∑ k, |LU.upper n n (fun i c => (G i c).toReal) k c|) * |(X' c j).toReal|) ≤
      tiny * (1 / 2 ^ 175) * 2 * (100 + (20000 + 3 / 5 * M * 3 ^ n) + (100 + 11 / 20 * M * 3 ^ n) * s) := by
    rw [← hηt]
    refine mul_le_mul (mul_le_mul_of_nonneg_left hq hη0) (by linarith) (by positivity) (by positivity)
  refine (add_le_add t1 t2).trans ?_
  have e1 : tiny * (1 / 2 ^ 175) * 2 * (100 + (20000 + 3 / 5 * M * 3 ^ n) + (100 + 11 / 20 * M * 3 ^ n) * s) =
      tiny * (40200 / 2 ^ 175) + tiny * (M * (3 ^ n * (6 / 5 / 2 ^ 175))) + tiny * s * (200 / 2 ^ 175) + tiny * ((M * 3 ^ n) * s) * (11 / 10 / 2 ^ 175) := by ring
  have f1 : tiny * (M * (3 ^ n * (6 / 5 / 2 ^ 175))) ≤ tiny * M := by
    refine mul_le_mul_of_nonneg_left (mul_le_of_le_one_right hM0.le ?_) ht.le
    norm_num at hT2 ⊢
    linarith
  have f2 : tiny * s ≤ (M * 3 ^ n) * s := mul_le_mul_of_nonneg_right (hM1.trans (le_mul_of_one_le_right hM0.le hT1)) hs0
  have f3 : tiny * ((M * 3 ^ n) * s) ≤ (M * 3 ^ n) * s := mul_le_of_le_one_left (by positivity) tiny_le
  have f4 : (M * 3 ^ n) * s ≤ n * ((M * 3 ^ n) * s) := le_mul_of_one_le_left (by positivity) hn1
  have f5 : 0 ≤ (M * 3 ^ n) * s := by positivity
  have e2 : (3 * n + 1 : ℝ) / 2 ^ 52 * (3 / 5 * M * 3 ^ n * s) = (n * ((M * 3 ^ n) * s)) * (9 / 5 / 2 ^ 52) + ((M * 3 ^ n) * s) * (3 / 5 / 2 ^ 52) := by ring
  have e3 : (3 * n + 1 : ℝ) * 3 ^ n / 2 ^ 52 * M * s = (n * ((M * 3 ^ n) * s)) * (3 / 2 ^ 52) + ((M * 3 ^ n) * s) * (1 / 2 ^ 52) := by ring
  rw [e1, e2, e3, mul_add, mul_one]
  generalize n * ((M * 3 ^ n) * s) = a at *
  generalize (M * 3 ^ n) * s = b at *
  generalize tiny * M = d at *
  generalize tiny * s = e at *
  norm_num at f1 ⊢
  linarith

/-- C110: what `lu` computes, for a matrix of doubles of order `n ≤ 100` with entries of at most `M`. -/
theorem C110_factors (hn : 0 < n) (hn100 : n ≤ 100) (A : Matrix (Fin n) (Fin n) F64) (M : ℝ)
    (hA : ∀ i j, (A i j).isFin ∧ |(A i j).toReal| ≤ M) (hM1 : tiny ≤ M) (hM2 : M ≤ 2 ^ 800) :
    ∃ (x : LU F64) (σ : Equiv.Perm (Fin n)) (L U : Matrix (Fin n) (Fin n) F64),
      LU.new (ofM A) = .ok x ∧ x.getPiv = (List.ofFn fun i => (σ i).1) ∧ x.getL = .ok (ofM L) ∧ x.getU = .ok (ofM U) ∧
      (∀ i k, (L i k).isFin ∧ |(L i k).toReal| ≤ 1 + 1 / 2 ^ 52) ∧
      (∀ k c, (U k c).isFin ∧ |(U k c).toReal| ≤ (1 + 1 / 2 ^ 52) * M * 3 ^ k.1) ∧
      ∀ i c, |(A (σ i) c).toReal - ∑ k, (L i k).toReal * (U k c).toReal| ≤ (n + 1) * 3 ^ n / 2 ^ 52 * M := by
  obtain ⟨G, σ, hf⟩ := factored hn hn100 hA hM1 hM2
  have hM0 : 0 ≤ M := tiny_pos.le.trans hM1
  have hL' := LU.Rnd.getL_ok G hn hn (decide (Equiv.Perm.sign σ = 1)) (List.ofFn fun i => (σ i).1)
  have hU' := LU.Rnd.getU_ok G hn hn (decide (Equiv.Perm.sign σ = 1)) (List.ofFn fun i => (σ i).1)
  rw [Nat.min_self] at hL' hU'
  have eL : ∀ i k, (LU.Rnd.lowerA n n G i k).toReal = LU.lower n n (fun i c => (G i c).toReal) i k := fun i k => (LU.Rnd.val_lowerA n n G i k).1
  have eU : ∀ i k, (LU.Rnd.upperA n n G i k).toReal = LU.upper n n (fun i c => (G i c).toReal) i k := fun i k => (LU.Rnd.val_upperA n n G i k).1
  refine ⟨_, σ, _, _, hf.new, rfl, hL', hU', fun i k => ⟨?_, ?_⟩, fun k c => ⟨?_, ?_⟩, fun i c => ?_⟩
  · simp only [LU.Rnd.lowerA, Matrix.of_apply]
    split
    · exact hf.fin i k i.2 k.2
    · split
      · exact (Fp.one (α := F64)).1
      · exact (Fp.zero (α := F64)).1
  · rw [eL]; exact Factored.lower_le hf.low i k
  · simp only [LU.Rnd.upperA, Matrix.of_apply]
    split
    · exact hf.fin k c k.2 c.2
    · exact (Fp.zero (α := F64)).1
  · rw [eU]; exact Factored.upper_le hM0 hf.up k c
  · simp only [eL, eU]; exact hf.err i c

theorem omega_700 : (2 : ℝ) ^ 51 ≤ 2 ^ 700 ∧ (2 : ℝ) ^ 700 * 2 ^ 250 ≤ Ω F64 := by
  refine ⟨pow_le_pow_right₀ (by norm_num) (by norm_num), le_trans ?_ big_f64⟩
  rw [← pow_add, ← pow_add]
  exact pow_le_pow_right₀ (by norm_num) (by norm_num)

/-- From the residual to the error. -/
theorem solve_close (hn : 0 < n) {A Z : Matrix (Fin n) (Fin n) ℝ} {M K t : ℝ} (hM : 0 ≤ M) (ht : 0 ≤ t) (hc : Conditioned A Z M K)
    (b x : Fin n → ℝ) (h : ∀ i, |b i - ∑ c, A i c * x c| ≤ (3 * n + 1) * 3 ^ n / 2 ^ 52 * M * ∑ c, |x c| + t) (i : Fin n) :
    |x i - ∑ c, Z i c * b c| ≤ K * ((3 * n + 1) * 3 ^ n / 2 ^ 51 * M * (∑ c, |∑ d, Z c d * b d|) + 2 * t) := by
  obtain ⟨hK0, hk2, hk1, hk0⟩ := hc.scaled hn hM
  have hn1 : (1 : ℝ) ≤ n := by exact_mod_cast hn
  set s := ∑ c, |x c| with hs
  have hs0 : 0 ≤ s := sum_nonneg fun _ _ => abs_nonneg _
  set s' := ∑ c, |∑ d, Z c d * b d| with hs'
  have hs'0 : 0 ≤ s' := sum_nonneg fun _ _ => abs_nonneg _
  set ρ := (3 * n + 1 : ℝ) * 3 ^ n / 2 ^ 52 * M with hρ
  have hρ0 : 0 ≤ ρ := by positivity
  have e1 : ∀ i, |x i - ∑ c, Z i c * b c| ≤ K * (ρ * s + t) := by
    intro i
    have e : x i - ∑ c, Z i c * b c = ∑ k, Z i k * ((∑ c, A k c * x c) - b k) := by
      have : (Z * A).mulVec x = x := by rw [hc.inv, Matrix.one_mulVec]
      rw [← Matrix.mulVec_mulVec] at this
      have := congrFun this i
      simp only [mul_sub, sum_sub_distrib]
      congr 1
      exact this.symm
    rw [e]
    calc _ ≤ ∑ k, |Z i k| * (ρ * s + t) := (abs_sum_le_sum_abs _ _).trans (sum_le_sum fun k _ => by
            rw [abs_mul, abs_sub_comm]; exact mul_le_mul_of_nonneg_left (h k) (abs_nonneg _))
      _ = (∑ k, |Z i k|) * (ρ * s + t) := by rw [sum_mul]
      _ ≤ _ := mul_le_mul_of_nonneg_right (hc.row i) (by positivity)
  have e2 : s ≤ s' + n * (K * (ρ * s + t)) := by
    calc s ≤ ∑ c, (|∑ d, Z c d * b d| + K * (ρ * s + t)) := sum_le_sum fun c _ => by
            have a1 := e1 c
            have a2 := abs_sub_abs_le_abs_sub (x c) (∑ d, Z c d * b d)
            linarith
      _ = _ := by rw [sum_add_distrib]; simp [hs']
  have e3 : n * (K * ρ) ≤ 1 / 2 := by
    have : n * (K * ρ) = (3 * (n ^ 2 * 3 ^ n * (K * M)) + n * 3 ^ n * (K * M)) / 2 ^ 52 := by rw [hρ]; ring
    rw [this]
    norm_num at hk2 hk1 ⊢
    linarith
  have e4 := mul_le_mul_of_nonneg_right e3 hs0
  have e5 : s ≤ 2 * s' + 2 * (n * (K * t)) := by
    have : n * (K * (ρ * s + t)) = n * (K * ρ) * s + n * (K * t) := by ring
    linarith
  refine (e1 i).trans (mul_le_mul_of_nonneg_left ?_ hK0)
  have e6 := mul_le_mul_of_nonneg_left e5 hρ0
  have e7 := mul_le_mul_of_nonneg_right e3 ht
  have e8 : ρ * (2 * s' + 2 * (n * (K * t))) = 2 * ρ * s' + 2 * (n * (K * ρ) * t) := by ring
  have e9 : (3 * n + 1 : ℝ) * 3 ^ n / 2 ^ 51 * M * s' = 2 * ρ * s' := by rw [hρ]; ring
  rw [e9]
  linarith

/-- C110: solving a well conditioned system of doubles.  `Z` is the inverse of `A`, `K` bounds the sums of the absolute values of its rows,
`M` and `β` bound the entries of `A` and `B`.  Then `solve` answers, nothing overflows, and residual and error are small. -/
theorem C110_solve (hn : 0 < n) (hp : 0 < p) (hn100 : n ≤ 100) (A : Matrix (Fin n) (Fin n) F64) (B : Matrix (Fin n) (Fin p) F64) (M K β : ℝ)
    (hA : ∀ i j, (A i j).isFin ∧ |(A i j).toReal| ≤ M) (hM1 : tiny ≤ M) (hM2 : M ≤ 2 ^ 800)
    (Z : Matrix (Fin n) (Fin n) ℝ) (hZ : Z * A.map F64.toReal = 1) (hK : ∀ i, ∑ j, |Z i j| ≤ K) (hc : n ^ 3 * 3 ^ n * (K * M) ≤ 2 ^ 49)
    (hB : ∀ i j, (B i j).isFin ∧ |(B i j).toReal| ≤ β) (hβ : β ≤ 2 ^ 700) (hKβ : K * β ≤ 2 ^ 700) :
    ∃ X : Matrix (Fin n) (Fin p) F64, (ofM A).solve (ofM B) = .ok (some (ofM X)) ∧ (∀ i j, (X i j).isFin) ∧
      (∀ i j, |(B i j).toReal - ∑ c, (A i c).toReal * (X c j).toReal| ≤
        (3 * n + 1) * 3 ^ n / 2 ^ 52 * M * (∑ c, |(X c j).toReal|) + tiny * (1 + M)) ∧
      ∀ i j, |(X i j).toReal - (Z * B.map F64.toReal) i j| ≤
        K * ((3 * n + 1) * 3 ^ n / 2 ^ 51 * M * (∑ c, |(Z * B.map F64.toReal) c j|) + 2 * (tiny * (1 + M))) := by
  have hcd : Conditioned (A.map F64.toReal) Z M K := ⟨hZ, hK, hc⟩
  obtain ⟨X, h1, h2⟩ := solve_core hn hp hn100 hA hM1 hM2 hcd hB omega_700.1 omega_700.2 hβ hKβ
  have hM0 : 0 ≤ M := tiny_pos.le.trans hM1
  have h3 := solve_resid hn hp hn100 hA hM1 hM2 h1 h2
  refine ⟨X, h1, h2, h3, fun i j => ?_⟩
  exact solve_close hn hM0 (mul_nonneg tiny_pos.le (by linarith)) hcd (fun i => (B i j).toReal) (fun c => (X c j).toReal) (fun i => h3 i j) i

/-- C110: the inverse of a well conditioned matrix of doubles. -/
theorem C110_inverse (hn : 0 < n) (hn100 : n ≤ 100) (A : Matrix (Fin n) (Fin n) F64) (M K : ℝ)
    (hA : ∀ i j, (A i j).isFin ∧ |(A i j).toReal| ≤ M) (hM1 : tiny ≤ M) (hM2 : M ≤ 2 ^ 800)
    (Z : Matrix (Fin n) (Fin n) ℝ) (hZ : Z * A.map F64.toReal = 1) (hK : ∀ i, ∑ j, |Z i j| ≤ K) (hc : n ^ 3 * 3 ^ n * (K * M) ≤ 2 ^ 49)
    (hK2 : K ≤ 2 ^ 700) :
    ∃ X : Matrix (Fin n) (Fin n) F64, (ofM A).inverse = .ok (some (ofM X)) ∧ (∀ i j, (X i j).isFin) ∧
      ∀ i j, |(X i j).toReal - Z i j| ≤ K * ((3 * n + 1) * 3 ^ n / 2 ^ 51 * M * (∑ c, |Z c j|) + 2 * (tiny * (1 + M))) := by
  have hinv : (ofM A).inverse = (ofM A).solve (ofM (1 : Matrix (Fin n) (Fin n) F64)) := by
    unfold Mat.inverse Mat.solve
    simp only [ofM_cols A hn, ofM_rows, ok_bind, beq_self_eq_true, assert_true, C05_id_square]
  have e : ∀ i j, (((1 : Matrix (Fin n) (Fin n) F64) i j).isFin) ∧ ((1 : Matrix (Fin n) (Fin n) F64) i j).toReal = (1 : Matrix (Fin n) (Fin n) ℝ) i j := by
    intro i j
    by_cases h : i = j
    · subst h; rw [Matrix.one_apply_eq, Matrix.one_apply_eq]; exact Fp.one (α := F64)
    · rw [Matrix.one_apply_ne h, Matrix.one_apply_ne h]; exact Fp.zero (α := F64)
  have e2 : (1 : Matrix (Fin n) (Fin n) F64).map F64.toReal = 1 := by ext i j; exact (e i j).2
  have h700 : (1 : ℝ) ≤ 2 ^ 700 := one_le_pow₀ (by norm_num)
  obtain ⟨X, h1, h2, -, h4⟩ := C110_solve hn hn hn100 A 1 M K 1 hA hM1 hM2 Z hZ hK hc (fun i j => ⟨(e i j).1, by
    rw [(e i j).2]
    by_cases h : i = j
    · subst h; rw [Matrix.one_apply_eq, abs_one]
    · rw [Matrix.one_apply_ne h, abs_zero]; exact zero_le_one⟩) h700 (by rwa [mul_one])
  refine ⟨X, hinv.trans h1, h2, fun i j => ?_⟩
  have := h4 i j
  rwa [e2, Matrix.mul_one] at this

/-- A product of doubles does not overflow. -/
theorem fprod_fin (z : F64) (hz : z.isFin ∧ |z.toReal| ≤ 1) (x : Nat → F64) {b : ℝ} (hb : 0 ≤ b) (k : Nat)
    (hx : ∀ i, i < k → (x i).isFin ∧ |(x i).toReal| ≤ b) (h : (1 + 2 * b) ^ k ≤ 2 ^ 1000) :
    (facc (· * ·) z x k).isFin ∧ |(facc (· * ·) z x k).toReal| ≤ (1 + 2 * b) ^ k := by
  have hu : u F64 = 1 / 2 ^ 53 := rfl
  have hη := eta_le
  have hΩ : (2 : ℝ) ^ 1000 ≤ Ω F64 := le_trans (le_mul_of_one_le_right (by positivity) (by norm_num)) big_f64
  induction k with
  | zero => exact ⟨hz.1, by rw [pow_zero]; exact hz.2⟩
  | succ k ih =>
    have h1 : (1 + 2 * b) ^ k ≤ (1 + 2 * b) ^ (k + 1) := pow_le_pow_right₀ (by linarith) (by omega)
    have hp : 1 ≤ (1 + 2 * b) ^ k := one_le_pow₀ (by linarith)
    obtain ⟨f1, f2⟩ := ih (fun i hi => hx i (by omega)) (h1.trans h)
    obtain ⟨g1, g2⟩ := hx k (by omega)
    have key : (1 + u F64) * |(facc (· * ·) z x k).toReal * (x k).toReal| + η F64 ≤ (1 + 2 * b) ^ (k + 1) := by
      rw [abs_mul, pow_succ]
      have a1 := mul_le_mul f2 g2 (abs_nonneg _) (by linarith)
      have a2 : 0 ≤ (1 + 2 * b) ^ k * b := by positivity
      have a3 : (1 + u F64) * (|(facc (· * ·) z x k).toReal| * |(x k).toReal|) ≤ 2 * ((1 + 2 * b) ^ k * b) :=
        mul_le_mul (by rw [hu]; norm_num) a1 (by positivity) (by norm_num)
      have a4 : η F64 ≤ 1 := hη.trans (by norm_num)
      linarith
    have f3 := Fp.mul_fin _ _ f1 g1 (key.trans (h.trans hΩ))
    refine ⟨f3, ?_⟩
    obtain ⟨-, -, f4, -⟩ := Fp.mul _ _ f3
    refine le_trans ?_ key
    have := abs_sub_abs_le_abs_sub (val (facc (· * ·) z x k * x k)) (val (facc (· * ·) z x k) * val (x k))
    change |val (facc (· * ·) z x k * x k)| ≤ (1 + u F64) * |val (facc (· * ·) z x k) * val (x k)| + η F64
    linarith

/-- C110: the determinant of a well conditioned matrix of doubles: the relative error is small (up to underflow). -/
theorem C110_det (hn : 0 < n) (hn100 : n ≤ 100) (A : Matrix (Fin n) (Fin n) F64) (M K : ℝ)
    (hA : ∀ i j, (A i j).isFin ∧ |(A i j).toReal| ≤ M) (hM1 : tiny ≤ M) (hM2 : M ≤ 2 ^ 800)
    (Z : Matrix (Fin n) (Fin n) ℝ) (hZ : Z * A.map F64.toReal = 1) (hK : ∀ i, ∑ j, |Z i j| ≤ K) (hc : n ^ 3 * 3 ^ n * (K * M) ≤ 2 ^ 49)
    (hd : (1 + 3 ^ n * M) ^ n ≤ 2 ^ 1000) :
    ∃ d : F64, (ofM A).det = .ok d ∧ d.isFin ∧
      |d.toReal - (A.map F64.toReal).det| ≤ n * (n * (n + 1) * 3 ^ n * (K * M) + 1) / 2 ^ 51 * |(A.map F64.toReal).det| +
        tiny * (1 + 3 ^ n * M) ^ n := by
  obtain ⟨G, σ, hf⟩ := factored hn hn100 hA hM1 hM2
  have hcd : Conditioned (A.map F64.toReal) Z M K := ⟨hZ, hK, hc⟩
  have ht := tiny_pos
  have hM0 : 0 < M := lt_of_lt_of_le ht hM1
  obtain ⟨hK0, hk2, hk1, hk0⟩ := hcd.scaled hn hM0.le
  obtain ⟨hT1, hT2⟩ := three_pow hn100
  have hn1 : (1 : ℝ) ≤ n := by exact_mod_cast hn
  have hnr : (n : ℝ) ≤ 100 := by exact_mod_cast hn100
  have hu : u F64 = 1 / 2 ^ 53 := rfl
  have hη0 := η_nonneg (α := F64)
  obtain ⟨x, σ', L, U, d, h1, h2, h3, h4, h5, h6⟩ := C74_det hn A
  rw [hf.new] at h1
  obtain rfl := Except.ok.inj h1
  obtain rfl : σ = σ' := by
    have h2 := List.ofFn_injective h2
    exact Equiv.ext fun i => Fin.ext (congrFun h2 i)
  have hL' := LU.Rnd.getL_ok G hn hn (decide (Equiv.Perm.sign σ = 1)) (List.ofFn fun i => (σ i).1)
  have hU' := LU.Rnd.getU_ok G hn hn (decide (Equiv.Perm.sign σ = 1)) (List.ofFn fun i => (σ i).1)
  rw [Nat.min_self] at hL' hU'
  obtain rfl : L = LU.Rnd.lowerA n n G := ofM_inj (Except.ok.inj (h3.symm.trans hL'))
  obtain rfl : U = LU.Rnd.upperA n n G := ofM_inj (Except.ok.inj (h4.symm.trans hU'))
  have hMT : 0 ≤ 3 ^ n * M := by positivity
  have hUM : ∀ i, i < n → |(G i i).toReal| ≤ 3 ^ n * M / 2 := fun i hi => by
    refine (hf.up i i hi le_rfl).trans ?_
    have h3 : (3 : ℝ) ^ i * 3 ≤ 3 ^ n := by
      rw [← pow_succ]; exact pow_le_pow_right₀ (by norm_num) hi
    have := mul_le_mul_of_nonneg_left h3 hM0.le
    have h0 : 0 ≤ M * 3 ^ i := by positivity
    norm_num
    linarith
  have hdf : d.isFin := by
    have e := det_facc hn hf.new
    rw [e] at h5
    obtain rfl := Except.ok.inj h5
    refine (fprod_fin _ ?_ (fun j => G j j) (b := 3 ^ n * M / 2) (by positivity) n (fun i hi => ⟨hf.fin i i hi hi, hUM i hi⟩) ?_).1
    · split
      · have := Fp.one (α := F64)
        exact ⟨this.1, by have e : ((1 : F64)).toReal = 1 := this.2; rw [e, abs_one]⟩
      · have := Fp.neg (1 : F64) (Fp.one (α := F64)).1
        have e1 : ((1 : F64)).toReal = 1 := (Fp.one (α := F64)).2
        exact ⟨this.1, by have e : ((-1 : F64)).toReal = -((1 : F64)).toReal := this.2; rw [e, e1, abs_neg, abs_one]⟩
    · rw [show 2 * (3 ^ n * M / 2) = 3 ^ n * M by ring]; exact hd
  refine ⟨d, h5, hdf, ?_⟩
  obtain ⟨E, hE, hdet⟩ := h6 (fun i k => by
      simp only [LU.Rnd.lowerA, Matrix.of_apply]
      split
      · exact hf.fin i k i.2 k.2
      · split
        · exact Fp.one.1
        · exact Fp.zero.1) (fun k c => by
      simp only [LU.Rnd.upperA, Matrix.of_apply]
      split
      · exact hf.fin k c k.2 c.2
      · exact Fp.zero.1) hdf
  simp only [fun i k => (LU.Rnd.val_lowerA n n G i k).1, fun i k => (LU.Rnd.val_upperA n n G i k).1] at hE
  have hE' : ∀ i c, |E i c| ≤ (n + 1) * 3 ^ n / 2 ^ 52 * M := fun i c => by
    have := (hE (σ.symm i) c).trans (factor_small hn100 hM1 hf.low hf.up (σ.symm i) c)
    rwa [Equiv.apply_symm_apply] at this
  have hnear := det_near hZ hK hE'
  set a := (A.map F64.toReal).det
  set a' := (A.map F64.toReal + E).det with ha'
  -- the perturbation
  set t := n * (K * ((n + 1) * 3 ^ n / 2 ^ 52 * M)) with htd
  have hnt : n * t = n * (n * (n + 1) * 3 ^ n * (K * M)) / 2 ^ 52 := by rw [htd]; ring
  have hnt2 : n * (n * (n + 1) * 3 ^ n * (K * M)) ≤ 2 ^ 50 := by
    have e : n * (n * (n + 1) * 3 ^ n * (K * M)) = n ^ 3 * 3 ^ n * (K * M) + n ^ 2 * 3 ^ n * (K * M) := by ring
    rw [e]
    norm_num at hc hk2 ⊢
    linarith
  have ht0 : 0 ≤ t := by positivity
  have hlin := pow_le_linear ht0 (show n * t ≤ 1 by rw [hnt]; norm_num at hnt2 ⊢; linarith)
  have hnear2 : |a' - a| ≤ n * (n * (n + 1) * 3 ^ n * (K * M)) / 2 ^ 51 * |a| := by
    refine hnear.trans (mul_le_mul_of_nonneg_right ?_ (abs_nonneg _))
    rw [hnt] at hlin
    norm_num at hlin ⊢
    linarith
  have ha2 : |a'| ≤ 3 / 2 * |a| := by
    have e1 := abs_sub_abs_le_abs_sub a' a
    have e2 : n * (n * (n + 1) * 3 ^ n * (K * M)) / 2 ^ 51 * |a| ≤ 1 / 2 * |a| :=
      mul_le_mul_of_nonneg_right (by norm_num at hnt2 ⊢; linarith) (abs_nonneg _)
    linarith
  have hγ := gamma_f64 (k := n) (by omega)
  have hround : γ F64 n * |a'| ≤ n / 2 ^ 51 * |a| := by
    calc _ ≤ n / 2 ^ 52 * (3 / 2 * |a|) := mul_le_mul hγ ha2 (abs_nonneg _) (by positivity)
      _ ≤ _ := by
        have : 0 ≤ n * |a| := by positivity
        norm_num
        linarith
  -- underflow
  have hunder : η F64 * ∑ j : Fin n, ∏ i ∈ univ.filter (fun i => j < i), (1 + u F64) * |val (LU.Rnd.upperA n n G i i)| ≤
      tiny * (1 + 3 ^ n * M) ^ n := by
    have e1 : ∀ j : Fin n, ∏ i ∈ univ.filter (fun i => j < i), (1 + u F64) * |val (LU.Rnd.upperA n n G i i)| ≤ (1 + 3 ^ n * M) ^ n := by
      intro j
      have e0 : 0 ≤ u F64 := by rw [hu]; positivity
      calc _ ≤ ∏ _i ∈ univ.filter (fun i : Fin n => j < i), (1 + 3 ^ n * M) := by
            refine prod_le_prod (fun i _ => mul_nonneg (by linarith) (abs_nonneg _)) fun i _ => ?_
            have b1 := hUM i i.2
            have b2 : |val (LU.Rnd.upperA n n G i i)| = |(G i i).toReal| := by rw [show LU.Rnd.upperA n n G i i = G i i by simp [LU.Rnd.upperA]]; rfl
            rw [b2]
            have b3 : (1 + u F64) * |(G i i).toReal| ≤ 2 * (3 ^ n * M / 2) := mul_le_mul (by rw [hu]; norm_num) b1 (abs_nonneg _) (by norm_num)
            linarith
        _ = (1 + 3 ^ n * M) ^ (univ.filter (fun i : Fin n => j < i)).card := by rw [prod_const]
        _ ≤ _ := pow_le_pow_right₀ (by linarith) ((card_le_univ _).trans (by simp))
    calc _ ≤ η F64 * ∑ _j : Fin n, (1 + 3 ^ n * M) ^ n := mul_le_mul_of_nonneg_left (sum_le_sum fun j _ => e1 j) hη0
      _ = (n * η F64) * (1 + 3 ^ n * M) ^ n := by simp; ring
      _ ≤ _ := by
        refine mul_le_mul_of_nonneg_right ?_ (by positivity)
        rw [eta_tiny]
        have := mul_le_mul_of_nonneg_right hnr (show 0 ≤ tiny * (1 / 2 ^ 175) by positivity)
        norm_num at this ⊢
        linarith
  have e : n * (n * (n + 1) * 3 ^ n * (K * M) + 1) / 2 ^ 51 * |a| = n * (n * (n + 1) * 3 ^ n * (K * M)) / 2 ^ 51 * |a| + n / 2 ^ 51 * |a| := by ring
  rw [e]
  have hdet' : |d.toReal - a'| ≤ γ F64 n * |a'| + η F64 * ∑ j : Fin n, ∏ i ∈ univ.filter (fun i => j < i), (1 + u F64) * |val (LU.Rnd.upperA n n G i i)| := hdet
  have tri : |d.toReal - a| ≤ |d.toReal - a'| + |a' - a| := by
    have := abs_add_le (d.toReal - a') (a' - a)
    rwa [show d.toReal - a' + (a' - a) = d.toReal - a by ring] at this
  linarith

/-- C110: the sign of the determinant is right. -/
theorem C110_det_sign (hn : 0 < n) (hn100 : n ≤ 100) (A : Matrix (Fin n) (Fin n) F64) (M K : ℝ)
    (hA : ∀ i j, (A i j).isFin ∧ |(A i j).toReal| ≤ M) (hM1 : tiny ≤ M) (hM2 : M ≤ 2 ^ 800)
    (Z : Matrix (Fin n) (Fin n) ℝ) (hZ : Z * A.map F64.toReal = 1) (hK : ∀ i, ∑ j, |Z i j| ≤ K) (hc : n ^ 3 * 3 ^ n * (K * M) ≤ 2 ^ 49)
    (hd : (1 + 3 ^ n * M) ^ n ≤ 2 ^ 1000) (hs : 4 * (tiny * (1 + 3 ^ n * M) ^ n) ≤ |(A.map F64.toReal).det|) :
    ∃ d : F64, (ofM A).det = .ok d ∧ d.isFin ∧
      ((0 < d.toReal ↔ 0 < (A.map F64.toReal).det) ∧ (d.toReal < 0 ↔ (A.map F64.toReal).det < 0)) := by
  obtain ⟨d, h1, h2, h3⟩ := C110_det hn hn100 A M K hA hM1 hM2 Z hZ hK hc hd
  refine ⟨d, h1, h2, ?_⟩
  have ht := tiny_pos
  have hM0 : 0 < M := lt_of_lt_of_le ht hM1
  have hcd : Conditioned (A.map F64.toReal) Z M K := ⟨hZ, hK, hc⟩
  obtain ⟨hK0, hk2, hk1, hk0⟩ := hcd.scaled hn hM0.le
  have hnr : (n : ℝ) ≤ 100 := by exact_mod_cast hn100
  have hpos : 0 < tiny * (1 + 3 ^ n * M) ^ n := by positivity
  set a := (A.map F64.toReal).det
  set w := tiny * (1 + 3 ^ n * M) ^ n
  have ha : 0 < |a| := by linarith
  have hr : n * (n * (n + 1) * 3 ^ n * (K * M) + 1) / 2 ^ 51 * |a| ≤ 3 / 5 * |a| := by
    refine mul_le_mul_of_nonneg_right ?_ ha.le
    have e : n * (n * (n + 1) * 3 ^ n * (K * M) + 1) = n ^ 3 * 3 ^ n * (K * M) + n ^ 2 * 3 ^ n * (K * M) + n := by ring
    rw [e]
    norm_num at hc hk2 ⊢
    linarith
  have h4 := abs_le.mp (h3.trans (add_le_add hr le_rfl))
  rcases abs_cases a with ⟨e, ha'⟩ | ⟨e, ha'⟩
  · rw [e] at h4 ha hs
    exact ⟨⟨fun _ => ha, fun _ => by linarith⟩, ⟨fun h => by linarith, fun h => by linarith⟩⟩
  · rw [e] at h4 ha hs
    exact ⟨⟨fun h => by linarith, fun h => by linarith⟩, ⟨fun _ => ha', fun _ => by linarith⟩⟩

/-- C110: `solve` and `inverse` answer `None` only for matrices that are singular, or very close to singular: some vector `x ≠ 0` is
mapped to almost nothing. -/
theorem C110_none (hn : 0 < n) (hp : 0 < p) (hn100 : n ≤ 100) (A : Matrix (Fin n) (Fin n) F64) (B : Matrix (Fin n) (Fin p) F64) (M : ℝ)
    (hA : ∀ i j, (A i j).isFin ∧ |(A i j).toReal| ≤ M) (hM1 : tiny ≤ M) (hM2 : M ≤ 2 ^ 800)
    (hnone : (ofM A).solve (ofM B) = .ok none ∨ (ofM A).inverse = .ok none) :
    ∃ x : Fin n → ℝ, x ≠ 0 ∧ ∀ i, |∑ j, (A i j).toReal * x j| ≤ (n + 1) * 3 ^ n / 2 ^ 52 * M * ∑ j, |x j| := by
  obtain ⟨G, σ, hf⟩ := factored hn hn100 hA hM1 hM2
  obtain ⟨x, σ', L, U, h1, h2, h3, h4, h5⟩ := C91_none hn hp A B
  rw [hf.new] at h1
  obtain rfl := Except.ok.inj h1
  obtain rfl : σ = σ' := by
    have h2 := List.ofFn_injective h2
    exact Equiv.ext fun i => Fin.ext (congrFun h2 i)
  have hL' := LU.Rnd.getL_ok G hn hn (decide (Equiv.Perm.sign σ = 1)) (List.ofFn fun i => (σ i).1)
  have hU' := LU.Rnd.getU_ok G hn hn (decide (Equiv.Perm.sign σ = 1)) (List.ofFn fun i => (σ i).1)
  rw [Nat.min_self] at hL' hU'
  obtain rfl : L = LU.Rnd.lowerA n n G := ofM_inj (Except.ok.inj (h3.symm.trans hL'))
  obtain rfl : U = LU.Rnd.upperA n n G := ofM_inj (Except.ok.inj (h4.symm.trans hU'))
  obtain ⟨E, hE, hdet⟩ := h5 (fun i k => by
      simp only [LU.Rnd.lowerA, Matrix.of_apply]
      split
      · exact hf.fin i k i.2 k.2
      · split
        · exact Fp.one.1
        · exact Fp.zero.1) (fun k c => by
      simp only [LU.Rnd.upperA, Matrix.of_apply]
      split
      · exact hf.fin k c k.2 c.2
      · exact Fp.zero.1) hnone
  unfold factorErr at hE
  simp only [fun i k => (LU.Rnd.val_lowerA n n G i k).1, fun i k => (LU.Rnd.val_upperA n n G i k).1] at hE
  have hE' : ∀ i c, |E i c| ≤ (n + 1) * 3 ^ n / 2 ^ 52 * M := fun i c => by
    have := (hE (σ.symm i) c).trans (factor_small hn100 hM1 hf.low hf.up (σ.symm i) c)
    rwa [Equiv.apply_symm_apply] at this
  obtain ⟨v, hv, hv0⟩ := Matrix.exists_mulVec_eq_zero_iff.mpr hdet
  refine ⟨v, hv, fun i => ?_⟩
  have e := congrFun hv0 i
  rw [Matrix.add_mulVec] at e
  have e2 : ∑ j, (A i j).toReal * v j = -∑ j, E i j * v j := by
    have : (∑ j, (A i j).toReal * v j) + ∑ j, E i j * v j = 0 := e
    linarith
  rw [e2, abs_neg]
  refine (abs_sum_le_sum_abs _ _).trans ?_
  rw [mul_sum]
  exact sum_le_sum fun j _ => by rw [abs_mul]; exact mul_le_mul_of_nonneg_right (hE' i j) (abs_nonneg _)

/-! ## Examples -/

/-- A well conditioned matrix that needs a row exchange. -/
def sampleLU : Matrix (Fin 2) (Fin 2) F64 := !![two 1, two 0; two 2, two 1 + two 0]

theorem three_val : (two 1 + two 0).toReal = 3 := by
  have h : two 1 + two 0 = .fin false (3 * 2 ^ 1074) (by decide +kernel) := by decide +kernel
  rw [h, f64_fin_toReal]
  push_cast
  rw [mul_one_div, mul_div_assoc, div_self (by positivity), mul_one]

theorem sampleLU_val : sampleLU.map F64.toReal = !![2, 1; 4, 3] := by
  obtain ⟨v0, v1, v2⟩ := two_val
  ext i j
  fin_cases i <;> fin_cases j <;> simp [sampleLU, v0, v1, v2, three_val]

/-- All hypotheses of `C110_solve`, `C110_inverse`, `C110_det` and `C110_det_sign` hold for this matrix, with `M = 4`, `K = 3`, `β = 4`;
the rows are exchanged, and the determinant is `2`. -/
example : (∀ i j, (sampleLU i j).isFin ∧ |(sampleLU i j).toReal| ≤ 4) ∧
    (!![3 / 2, -1 / 2; -2, 1] : Matrix (Fin 2) (Fin 2) ℝ) * sampleLU.map F64.toReal = 1 ∧
    (∀ i, ∑ j, |(!![3 / 2, -1 / 2; -2, 1] : Matrix (Fin 2) (Fin 2) ℝ) i j| ≤ 3) ∧
    ((2 : ℕ) : ℝ) ^ 3 * 3 ^ 2 * (3 * 4) ≤ 2 ^ 49 ∧ tiny ≤ 4 ∧ (1 + 3 ^ 2 * 4 : ℝ) ^ 2 ≤ 2 ^ 1000 ∧
    4 * (tiny * (1 + 3 ^ 2 * 4) ^ 2) ≤ |(sampleLU.map F64.toReal).det| ∧
    (∀ i j, ((!![two 0; two 2] : Matrix (Fin 2) (Fin 1) F64) i j).isFin ∧ |((!![two 0; two 2] : Matrix (Fin 2) (Fin 1) F64) i j).toReal| ≤ 4) ∧
    (ofM sampleLU).det = .ok (two 1) ∧
    ((LU.new (ofM sampleLU)).map LU.getPiv = .ok [1, 0]) ∧
    (ofM sampleLU).solve (ofM !![two 0; two 2]) = .ok (some (ofM !![-(two (-1)); two 1])) := by
  obtain ⟨v0, v1, v2⟩ := two_val
  have hv : ∀ i j, (sampleLU i j).toReal = (!![2, 1; 4, 3] : Matrix (Fin 2) (Fin 2) ℝ) i j := fun i j => by
    rw [← sampleLU_val]; rfl
  have htiny : tiny ≤ 1 / 2 ^ 40 := by
    unfold tiny
    exact one_div_le_one_div_of_le (by positivity) (pow_le_pow_right₀ (by norm_num) (by norm_num))
  refine ⟨fun i j => ⟨by fin_cases i <;> fin_cases j <;> decide +kernel, ?_⟩, ?_, fun i => ?_, by norm_num, tiny_le.trans (by norm_num), ?_, ?_,
    fun i j => ⟨by fin_cases i <;> fin_cases j <;> decide +kernel, ?_⟩, by decide +kernel, by decide +kernel, by decide +kernel⟩
  · rw [hv]; fin_cases i <;> fin_cases j <;> norm_num
  · rw [sampleLU_val]; ext i j; fin_cases i <;> fin_cases j <;> norm_num [Matrix.mul_apply, Fin.sum_univ_two]
  · fin_cases i <;> norm_num [Fin.sum_univ_two, abs_of_nonneg, abs_of_neg]
  · calc (1 + 3 ^ 2 * 4 : ℝ) ^ 2 ≤ 2 ^ 12 := by norm_num
      _ ≤ 2 ^ 1000 := pow_le_pow_right₀ (by norm_num) (by norm_num)
  · rw [sampleLU_val, Matrix.det_fin_two_of]
    norm_num at htiny ⊢
    linarith
  · fin_cases i <;> fin_cases j <;> simp [v0, v2]

/-- The hypothesis of `C110_none` holds for a singular matrix. -/
example : (∀ i j, ((!![two 0, two 1; two 1, two 2] : Matrix (Fin 2) (Fin 2) F64) i j).isFin ∧
      |((!![two 0, two 1; two 1, two 2] : Matrix (Fin 2) (Fin 2) F64) i j).toReal| ≤ 4) ∧
    (ofM !![two 0, two 1; two 1, two 2]).inverse = .ok none := by
  obtain ⟨v0, v1, v2⟩ := two_val
  refine ⟨fun i j => ⟨by fin_cases i <;> fin_cases j <;> decide +kernel, ?_⟩, by decide +kernel⟩
  fin_cases i <;> fin_cases j <;> norm_num [v0, v1, v2]

end LA.Props
