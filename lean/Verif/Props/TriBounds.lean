import Verif.Proofs.TriF64
import Verif.Proofs.ForwardFew
import Mathlib.LinearAlgebra.Matrix.Gershgorin

/-!
# C116: tridiagonal systems of doubles

For tridiagonal matrices of up to a million rows: no growth, no overflow, and a residual that is proportional to `n`.
-/

namespace LA.Props
open LA Finset Fp
set_option linter.unusedSectionVars false

variable {n p : Nat}

/-- The matrix is tridiagonal (zeros of either sign), finite, and its entries are at most `M`. -/
structure Tridiagonal (A : Matrix (Fin n) (Fin n) F64) (M : ℝ) : Prop where
  entry : ∀ i j, (A i j).isFin ∧ |(A i j).toReal| ≤ M
  zero : ∀ i j : Fin n, (j.1 + 1 < i.1 ∨ i.1 + 1 < j.1) → F64.isZero (A i j)

/-- What the decomposition computes, with bounds. -/
structure TriFactored (A : Matrix (Fin n) (Fin n) F64) (M : ℝ) (G : Nat → Nat → F64) (σ : Equiv.Perm (Fin n)) : Prop where
  new : LU.new (ofM A) = .ok ⟨ofM (Matrix.of fun (i : Fin n) (j : Fin n) => G i j), decide (Equiv.Perm.sign σ = 1), List.ofFn fun i => (σ i).1⟩
  fin : ∀ i c, i < n → c < n → (G i c).isFin
  low : ∀ i c, i < n → c < i → |(G i c).toReal| ≤ 1 + 1 / 2 ^ 52
  lcol : ∀ c, c < n → ∑ i ∈ Ico (c + 1) n, |(G i c).toReal| ≤ 1 + 1 / 2 ^ 52
  off : ∀ i c, c < n → i < c → |(G i c).toReal| ≤ (1 + 1 / 2 ^ 29) * M
  diag : ∀ i, i < n → |(G i i).toReal| ≤ (2 + 1 / 2 ^ 27) * M
  far : ∀ i c, c < n → i + 2 < c → F64.isZero (G i c)
  err : ∀ i c : Fin n, |(A (σ i) c).toReal - ∑ k, LU.lower n n (fun i c => (G i c).toReal) i k * LU.upper n n (fun i c => (G i c).toReal) k c| ≤
    5 * (n + 1) / 2 ^ 52 * M

theorem tri_upper_le {M : ℝ} (hM : 0 ≤ M) {G : Nat → Nat → F64} (hoff : ∀ i c, c < n → i < c → |(G i c).toReal| ≤ (1 + 1 / 2 ^ 29) * M)
    (hdiag : ∀ i, i < n → |(G i i).toReal| ≤ (2 + 1 / 2 ^ 27) * M) (k c : Fin n) : |LU.upper n n (fun i c => (G i c).toReal) k c| ≤ 3 * M := by
  simp only [LU.upper, Matrix.of_apply]
  split
  · next h =>
    by_cases e : k.1 = c.1
    · rw [e]
      exact (hdiag c c.2).trans (mul_le_mul_of_nonneg_right (by norm_num) hM)
    · exact (hoff k c c.2 (by omega)).trans (mul_le_mul_of_nonneg_right (by norm_num) hM)
  · rw [abs_zero]; positivity

theorem tri_upper_sum {M : ℝ} (hM : 0 ≤ M) {G : Nat → Nat → F64} (hoff : ∀ i c, c < n → i < c → |(G i c).toReal| ≤ (1 + 1 / 2 ^ 29) * M)
    (hdiag : ∀ i, i < n → |(G i i).toReal| ≤ (2 + 1 / 2 ^ 27) * M) (hfar : ∀ i c, c < n → i + 2 < c → (G i c).toReal = 0) (c : Fin n) :
    ∑ k, |LU.upper n n (fun i c => (G i c).toReal) k c| ≤ 9 / 2 * M := by
  have e : ∑ k, |LU.upper n n (fun i c => (G i c).toReal) k c| = ∑ k ∈ range n, if k ≤ c.1 then |(G k c).toReal| else 0 := by
    rw [← Fin.sum_univ_eq_sum_range (fun k => if k ≤ c.1 then |(G k c).toReal| else 0)]
    refine sum_congr rfl fun k _ => ?_
    simp only [LU.upper, Matrix.of_apply]
    split <;> simp
  have e2 : ∑ k ∈ range n, (if k ≤ c.1 then |(G k c).toReal| else 0) = ∑ k ∈ range (c.1 + 1), |(G k c).toReal| := by
    rw [← sum_subset (range_subset_range.2 (show c.1 + 1 ≤ n from c.2))]
    · refine sum_congr rfl fun k hk => ?_
      rw [mem_range] at hk
      rw [if_pos (by omega)]
    · intro k _ hk
      rw [mem_range] at hk
      rw [if_neg (by omega)]
  rw [e, e2, sum_range_succ, LU.Band.sum_last_two _ c.1 fun t ht => by rw [hfar t c c.2 ht, abs_zero]]
  have b1 : (if 2 ≤ c.1 then |(G (c.1 - 2) c).toReal| else 0) ≤ (1 + 1 / 2 ^ 29) * M := by
    split
    · exact hoff _ _ c.2 (by omega)
    · positivity
  have b2 : (if 1 ≤ c.1 then |(G (c.1 - 1) c).toReal| else 0) ≤ (1 + 1 / 2 ^ 29) * M := by
    split
    · exact hoff _ _ c.2 (by omega)
    · positivity
  have b3 := hdiag c c.2
  refine (add_le_add (add_le_add b1 b2) b3).trans ?_
  rw [← add_mul, ← add_mul]
  exact mul_le_mul_of_nonneg_right (by norm_num) hM

theorem tri_prod_sum {M : ℝ} (hM : 0 ≤ M) {G : Nat → Nat → F64} (hlow : ∀ i c, i < n → c < i → |(G i c).toReal| ≤ 1 + 1 / 2 ^ 52)
    (hsum : ∀ c, ∑ k, |LU.upper n n (fun i c => (G i c).toReal) k c| ≤ 9 / 2 * M) (i c : Fin n) :
    ∑ k, |LU.lower n n (fun i c => (G i c).toReal) i k| * |LU.upper n n (fun i c => (G i c).toReal) k c| ≤ 23 / 5 * M := by
  calc _ ≤ ∑ k, (1 + 1 / 2 ^ 52) * |LU.upper n n (fun i c => (G i c).toReal) k c| :=
        sum_le_sum fun k _ => mul_le_mul_of_nonneg_right (Factored.lower_le hlow i k) (abs_nonneg _)
    _ = (1 + 1 / 2 ^ 52) * ∑ k, |LU.upper n n (fun i c => (G i c).toReal) k c| := by rw [mul_sum]
    _ ≤ (1 + 1 / 2 ^ 52) * (9 / 2 * M) := mul_le_mul_of_nonneg_left (hsum c) (by positivity)
    _ = (1 + 1 / 2 ^ 52) * (9 / 2) * M := by ring
    _ ≤ _ := mul_le_mul_of_nonneg_right (by norm_num) hM

open Classical in
theorem tri_factored (hn : 0 < n) (hn6 : n ≤ 2 ^ 20) {A : Matrix (Fin n) (Fin n) F64} {M : ℝ} (hA : Tridiagonal A M)
    (hM1 : tiny ≤ M) (hM2 : M ≤ 2 ^ 800) : ∃ (G : Nat → Nat → F64) (σ : Equiv.Perm (Fin n)), TriFactored A M G σ := by
  obtain ⟨G, σ, h1, h2⟩ := LU.Rnd.new_ofM hn hn A
  obtain ⟨G', τ, pos, hy, h3, h4⟩ := LU.Band.new_ofM zeros_f64 hn hn A hA.zero
  have hy' := hy
  rw [h1] at hy'
  have hy' := Except.ok.inj hy'
  have e1 := ofM_inj (congrArg LU.lu hy')
  have hσ : ∀ i : Fin n, τ i = (σ i).1 := fun i => (congrFun (List.ofFn_injective (congrArg LU.piv hy')) i).symm
  have eG : ∀ i c, i < n → c < n → G i c = G' i c := fun i c hi hc => congrFun (congrFun e1 ⟨i, hi⟩) ⟨c, hc⟩
  have hpart : ∀ j, j ≤ n → (∀ i c, i < n → c < j → (G i c).isFin) → LU.Band.Part F64.isZero n n 1 1 j G τ := fun j hj hF => by
    have := h4 j hj fun i c hi hc => by rw [← eG i c hi (by omega)]; exact hF i c hi hc
    refine ⟨fun i c hi hc hn a b => ?_, fun i c hi hc hn a b => ?_, this.past⟩
    · rw [eG i c hi hn]; exact this.low i c hi hc hn a b
    · rw [eG i c hi hn]; exact this.up i c hi hc hn a b
  have ht := tiny_pos
  have hM0 : 0 < M := lt_of_lt_of_le ht hM1
  have hE := LU.Tri.columns hn6 hσ h2 hpart (M := M) (fun i c hi hc => by rw [ext_eq A hi hc]; exact hA.entry _ _)
    (fun i c hi hc h => by rw [ext_eq A hi hc]; exact hA.zero _ _ (Or.inr h)) hM1 hM2
  have hfin : ∀ i c, i < n → c < n → (G i c).isFin := fun i c hi hc => (hE c hc i hi).fin
  have hlow : ∀ i c, i < n → c < i → |(G i c).toReal| ≤ 1 + 1 / 2 ^ 52 := fun i c hi hc => (hE c (by omega) i hi).low hc
  have hoff : ∀ i c, c < n → i < c → |(G i c).toReal| ≤ (1 + 1 / 2 ^ 29) * M := fun i c hc hi => (hE c hc i (by omega)).off hi
  have hdiag : ∀ i, i < n → |(G i i).toReal| ≤ (2 + 1 / 2 ^ 27) * M := fun i hi => (hE i hi i hi).diag rfl
  have hfar : ∀ i c, c < n → i + 2 < c → (G i c).toReal = 0 := fun i c hc hi => (hE c hc i (by omega)).far hi
  have hsum := tri_upper_sum hM0.le hoff hdiag hfar
  have hP : LU.Band.Pattern F64.isZero n n 1 1 n G τ := by
    have hP' := h3 fun i c => by rw [← eG i c i.2 c.2]; exact hfin i c i.2 c.2
    refine ⟨fun i c hi hc hn a b => ?_, fun i c hi hc hn a b => ?_, hP'.past, hP'.ahead⟩
    · rw [eG i c hi hn]; exact hP'.low i c hi hc hn a b
    · rw [eG i c hi hn]; exact hP'.up i c hi hc hn a b
  refine ⟨G, σ, h1, hfin, hlow, fun c hc => ?_, hoff, hdiag, fun i c hc hi => (zero_iff_val (hfin i c (by omega) hc)).1 (hfar i c hc hi), fun i c => ?_⟩
  · -- at most one entry below the diagonal
    have e : ∑ i ∈ Ico (c + 1) n, |(G i c).toReal| ≤ ∑ i : Fin n, if c < i.1 ∧ ¬ F64.isZero (G i c) then (1 + 1 / 2 ^ 52 : ℝ) else 0 := by
      rw [Fin.sum_univ_eq_sum_range (fun i => if c < i ∧ ¬ F64.isZero (G i c) then (1 + 1 / 2 ^ 52 : ℝ) else 0),
        ← sum_subset (show Ico (c + 1) n ⊆ range n from fun i hi => by rw [mem_Ico] at hi; rw [mem_range]; omega)]
      · refine sum_le_sum fun i hi => ?_
        rw [mem_Ico] at hi
        split
        · exact hlow i c hi.2 (by omega)
        · next hc' =>
          have hz : F64.isZero (G i c) := by
            by_contra hz
            exact hc' ⟨by omega, hz⟩
          rw [LU.Tri.zero_val hz, abs_zero]
      · intro i _ hi
        rw [mem_Ico] at hi
        rw [mem_range] at *
        rw [if_neg (by omega)]
    refine e.trans ?_
    rw [← sum_filter, sum_const, nsmul_eq_mul]
    have hcard := LU.Band.count σ hσ hP hc (univ.filter fun i : Fin n => c < i.1 ∧ ¬ F64.isZero (G i c)) fun i hi => (mem_filter.1 hi).2
    have : ((univ.filter fun i : Fin n => c < i.1 ∧ ¬ F64.isZero (G i c)).card : ℝ) ≤ 1 := by exact_mod_cast hcard
    exact mul_le_of_le_one_left (by norm_num) this
  have hF : ∀ (_ : ∀ i k, Fp.fin (LU.Rnd.lowerA n n G i k)) (_ : ∀ k c, Fp.fin (LU.Rnd.upperA n n G k c)) (i c : Fin n),
    |val (ext A (σ i) c) - ∑ k, val (LU.Rnd.lowerA n n G i k) * val (LU.Rnd.upperA n n G k c)| ≤
      γ F64 (n + 1) * (∑ k, |val (LU.Rnd.lowerA n n G i k)| * |val (LU.Rnd.upperA n n G k c)|) + θ F64 n +
        (1 + u F64) * η F64 * ∑ k, |val (LU.Rnd.upperA n n G k c)| := by
    have hmin : min n n = n := Nat.min_self n
    have := LU.Rnd.factor_err h2
    rw [hmin] at this
    exact fun hL hU => this hL hU
  have h3 := hF (fun i k => by
      simp only [LU.Rnd.lowerA, Matrix.of_apply]
      split
      · exact hfin i k i.2 k.2
      · split
        · exact Fp.one.1
        · exact Fp.zero.1) (fun k c => by
      simp only [LU.Rnd.upperA, Matrix.of_apply]
      split
      · exact hfin k c k.2 c.2
      · exact Fp.zero.1) i c
  rw [ext_fin] at h3
  simp only [fun i k => (LU.Rnd.val_lowerA n n G i k).1, fun i k => (LU.Rnd.val_upperA n n G i k).1] at h3
  refine h3.trans ?_
  have hu : u F64 = 1 / 2 ^ 53 := rfl
  have hη0 := η_nonneg (α := F64)
  have hη := eta_le
  have hθ := theta_f64 hn6
  have s1 := tri_prod_sum hM0.le hlow hsum i c
  have hγ := gamma_f64 (k := n + 1) (by omega)
  push_cast at hγ
  have t1 := mul_le_mul hγ s1 (sum_nonneg fun _ _ => by positivity) (by positivity)
  have t2 : θ F64 n ≤ M * (1 / 2 ^ 154) := hθ.trans (mul_le_mul_of_nonneg_right hM1 (by norm_num))
  have t3 : (1 + u F64) * η F64 * (∑ k, |LU.upper n n (fun i c => (G i c).toReal) k c|) ≤ 2 * (1 / 2 ^ 175) * (9 / 2 * M) :=
    mul_le_mul (mul_le_mul (by rw [hu]; norm_num) hη hη0 (by norm_num)) (hsum c) (sum_nonneg fun _ _ => abs_nonneg _) (by norm_num)
  refine (add_le_add (add_le_add t1 t2) t3).trans ?_
  have t5 : 0 ≤ n * M := by positivity
  have e1 : ((n : ℝ) + 1) / 2 ^ 52 * (23 / 5 * M) = (n * M) * (23 / 5 / 2 ^ 52) + M * (23 / 5 / 2 ^ 52) := by ring
  have e2 : 5 * ((n : ℝ) + 1) / 2 ^ 52 * M = (n * M) * (5 / 2 ^ 52) + M * (5 / 2 ^ 52) := by ring
  rw [e1, e2]
  generalize (n : ℝ) * M = a at *
  norm_num
  linarith

/-- C116, factors of a tridiagonal matrix of doubles. -/
theorem C116_factors (hn : 0 < n) (hn6 : n ≤ 1000000) (A : Matrix (Fin n) (Fin n) F64) (M : ℝ) (hA : Tridiagonal A M)
    (hM1 : tiny ≤ M) (hM2 : M ≤ 2 ^ 800) :
    ∃ (x : LU F64) (σ : Equiv.Perm (Fin n)) (L U : Matrix (Fin n) (Fin n) F64),
      LU.new (ofM A) = .ok x ∧ x.getPiv = (List.ofFn fun i => (σ i).1) ∧ x.getL = .ok (ofM L) ∧ x.getU = .ok (ofM U) ∧
      (∀ i k, (L i k).isFin ∧ |(L i k).toReal| ≤ 1 + 1 / 2 ^ 52) ∧
      (∀ k c, (U k c).isFin ∧ |(U k c).toReal| ≤ (2 + 1 / 2 ^ 27) * M) ∧
      (∀ k c, k ≠ c → |(U k c).toReal| ≤ (1 + 1 / 2 ^ 29) * M) ∧
      (∀ k c : Fin n, (c.1 < k.1 ∨ k.1 + 2 < c.1) → F64.isZero (U k c)) ∧
      ∀ i c, |(A (σ i) c).toReal - ∑ k, (L i k).toReal * (U k c).toReal| ≤ 5 * (n + 1) / 2 ^ 52 * M := by
  obtain ⟨G, σ, hf⟩ := tri_factored hn (by omega) hA hM1 hM2
  have hM0 : 0 ≤ M := tiny_pos.le.trans hM1
  have hL' := LU.Rnd.getL_ok G hn hn (decide (Equiv.Perm.sign σ = 1)) (List.ofFn fun i => (σ i).1)
  have hU' := LU.Rnd.getU_ok G hn hn (decide (Equiv.Perm.sign σ = 1)) (List.ofFn fun i => (σ i).1)
  rw [Nat.min_self] at hL' hU'
  have eL : ∀ i k, (LU.Rnd.lowerA n n G i k).toReal = LU.lower n n (fun i c => (G i c).toReal) i k := fun i k => (LU.Rnd.val_lowerA n n G i k).1
  have eU : ∀ i k, (LU.Rnd.upperA n n G i k).toReal = LU.upper n n (fun i c => (G i c).toReal) i k := fun i k => (LU.Rnd.val_upperA n n G i k).1
  refine ⟨_, σ, _, _, hf.new, rfl, hL', hU', fun i k => ⟨?_, ?_⟩, fun k c => ⟨?_, ?_⟩, fun k c hkc => ?_, fun k c h => ?_, fun i c => ?_⟩
  · simp only [LU.Rnd.lowerA, Matrix.of_apply]
    split
    · exact hf.fin i k i.2 k.2
    · split
      · exact (Fp.one (α := F64)).1
      · exact (Fp.zero (α := F64)).1
  · rw [eL]; exact Factored.lower_le hf.low i k
  · simp only [LU.Rnd.upperA, Matrix.of_apply]
    split
    · exact hf.fin k c k.2 c.2
    · exact (Fp.zero (α := F64)).1
  · rw [eU]
    simp only [LU.upper, Matrix.of_apply]
    split
    · next h =>
      by_cases e : k.1 = c.1
      · rw [e]; exact hf.diag c c.2
      · exact (hf.off k c c.2 (by omega)).trans (mul_le_mul_of_nonneg_right (by norm_num) hM0)
    · rw [abs_zero]; positivity
  · rw [eU]
    simp only [LU.upper, Matrix.of_apply]
    split
    · next h => exact hf.off k c c.2 (by have : k.1 ≠ c.1 := fun e => hkc (Fin.ext e); omega)
    · rw [abs_zero]; positivity
  · simp only [LU.Rnd.upperA, Matrix.of_apply]
    split
    · exact hf.far k c c.2 (by omega)
    · exact zeros_f64.zero
  · simp only [eL, eU]; exact hf.err i c


/-- The residual of the computed solution. -/
theorem tri_resid (hn : 0 < n) (hp : 0 < p) (hn6 : n ≤ 2 ^ 20) {A : Matrix (Fin n) (Fin n) F64} {M : ℝ} (hA : Tridiagonal A M)
    (hM1 : tiny ≤ M) (hM2 : M ≤ 2 ^ 800) {B X : Matrix (Fin n) (Fin p) F64}
    (hX : (ofM A).solve (ofM B) = .ok (some (ofM X))) (hXf : ∀ i j, (X i j).isFin) (i : Fin n) (j : Fin p) :
    |(B i j).toReal - ∑ c, (A i c).toReal * (X c j).toReal| ≤
      5 * (3 * n + 1) / 2 ^ 52 * M * ∑ c, |(X c j).toReal| + tiny * (1 + M) := by
  obtain ⟨G, σ, hf⟩ := tri_factored hn hn6 hA hM1 hM2
  obtain ⟨x, σ', L, U, h1, h2, h3, h4, h5⟩ := C63_solve hn hp A B
  rw [hf.new] at h1
  obtain rfl := Except.ok.inj h1
  obtain rfl : σ = σ' := by
    have h2 := List.ofFn_injective h2
    exact Equiv.ext fun i => Fin.ext (congrFun h2 i)
  have hL' := LU.Rnd.getL_ok G hn hn (decide (Equiv.Perm.sign σ = 1)) (List.ofFn fun i => (σ i).1)
  have hU' := LU.Rnd.getU_ok G hn hn (decide (Equiv.Perm.sign σ = 1)) (List.ofFn fun i => (σ i).1)
  rw [Nat.min_self] at hL' hU'
  obtain rfl : L = LU.Rnd.lowerA n n G := ofM_inj (Except.ok.inj (h3.symm.trans hL'))
  obtain rfl : U = LU.Rnd.upperA n n G := ofM_inj (Except.ok.inj (h4.symm.trans hU'))
  rcases h5 with ⟨-, h5⟩ | ⟨-, X', h5, h6⟩
  · rw [h5] at hX; simp at hX
  obtain rfl : X' = X := ofM_inj (by rw [h5] at hX; simpa using hX)
  have h7 := h6 (fun i k => by
      simp only [LU.Rnd.lowerA, Matrix.of_apply]
      split
      · exact hf.fin i k i.2 k.2
      · split
        · exact Fp.one.1
        · exact Fp.zero.1) (fun k c => by
      simp only [LU.Rnd.upperA, Matrix.of_apply]
      split
      · exact hf.fin k c k.2 c.2
      · exact Fp.zero.1) hXf (σ.symm i) j
  rw [Equiv.apply_symm_apply] at h7
  simp only [fun i k => (LU.Rnd.val_lowerA n n G i k).1, fun i k => (LU.Rnd.val_upperA n n G i k).1] at h7
  refine h7.trans ?_
  have ht := tiny_pos
  have hM0 : 0 < M := lt_of_lt_of_le ht hM1
  have hnr : (n : ℝ) ≤ 1048576 := by exact_mod_cast hn6
  have hn1 : (1 : ℝ) ≤ n := by exact_mod_cast hn
  have hη0 := η_nonneg (α := F64)
  have hηt := eta_tiny
  have hg := gamma_f64 (k := 3 * n + 1) (by omega)
  have hg0 := γ_nonneg (α := F64) (3 * n + 1)
  have hq : (1 + u F64) ^ (2 * n) ≤ 2 := pow_f64 (by omega)
  have hsum := tri_upper_sum hM0.le hf.off hf.diag fun i c hc hi => LU.Tri.zero_val (hf.far i c hc hi)
  push_cast at hg
  set s := ∑ c, |(X' c j).toReal| with hs
  have hs0 : 0 ≤ s := sum_nonneg fun _ _ => abs_nonneg _
  set i0 := σ.symm i
  -- the three sums
  have s1 : ∑ k, |LU.lower n n (fun i c => (G i c).toReal) i0 k| * ∑ c, |LU.upper n n (fun i c => (G i c).toReal) k c| * |(X' c j).toReal| ≤
      23 / 5 * M * s := by
    simp only [mul_sum, hs]
    rw [sum_comm]
    refine sum_le_sum fun c _ => ?_
    calc _ = (∑ k, |LU.lower n n (fun i c => (G i c).toReal) i0 k| * |LU.upper n n (fun i c => (G i c).toReal) k c|) * |(X' c j).toReal| := by
          rw [sum_mul]; exact sum_congr rfl fun k _ => by ring
      _ ≤ _ := mul_le_mul_of_nonneg_right (tri_prod_sum hM0.le hf.low hsum i0 c) (abs_nonneg _)
  have s2 : ∑ k, |LU.lower n n (fun i c => (G i c).toReal) i0 k| * (n + |LU.upper n n (fun i c => (G i c).toReal) k k|) ≤
      2 ^ 21 * (2 ^ 20 + 3 * M) := by
    calc _ ≤ ∑ _k : Fin n, (2 : ℝ) * (1048576 + 3 * M) :=
          sum_le_sum fun k _ => mul_le_mul ((Factored.lower_le hf.low i0 k).trans (by norm_num))
            (add_le_add hnr (tri_upper_le hM0.le hf.off hf.diag k k)) (by positivity) (by positivity)
      _ = n * (2 * (1048576 + 3 * M)) := by rw [sum_const, card_univ, Fintype.card_fin, nsmul_eq_mul]
      _ ≤ 1048576 * (2 * (1048576 + 3 * M)) := mul_le_mul_of_nonneg_right hnr (by positivity)
      _ = _ := by ring
  have s3 : ∑ c, (n + ∑ k, |LU.upper n n (fun i c => (G i c).toReal) k c|) * |(X' c j).toReal| ≤ (1048576 + 9 / 2 * M) * s := by
    rw [hs, mul_sum]
    exact sum_le_sum fun c _ => mul_le_mul_of_nonneg_right (add_le_add hnr (hsum c)) (abs_nonneg _)
  have n1 : 0 ≤ ∑ k, |LU.lower n n (fun i c => (G i c).toReal) i0 k| * ∑ c, |LU.upper n n (fun i c => (G i c).toReal) k c| * |(X' c j).toReal| :=
    sum_nonneg fun _ _ => mul_nonneg (abs_nonneg _) (sum_nonneg fun _ _ => by positivity)
  have n2 : 0 ≤ ∑ k, |LU.lower n n (fun i c => (G i c).toReal) i0 k| * (n + |LU.upper n n (fun i c => (G i c).toReal) k k|) :=
    sum_nonneg fun _ _ => by positivity
  have n3 : 0 ≤ ∑ c, (n + ∑ k, |LU.upper n n (fun i c => (G i c).toReal) k c|) * |(X' c j).toReal| :=
    sum_nonneg fun _ _ => mul_nonneg (add_nonneg (by positivity) (sum_nonneg fun _ _ => abs_nonneg _)) (abs_nonneg _)
  have t1 := mul_le_mul hg s1 n1 (by positivity)
  have t2 : η F64 * (1 + u F64) ^ (2 * n) * (n + (∑ k, |LU.lower n n (fun i c => (G i c).toReal) i0 k| *
      (n + |LU.upper n n (fun i c => (G i c).toReal) k k|)) + ∑ c, (n + ∑ k, |LU.upper n n (fun i c => (G i c).toReal) k c|) * |(X' c j).toReal|) ≤
      tiny * (1 / 2 ^ 175) * 2 * (1048576 + 2 ^ 21 * (2 ^ 20 + 3 * M) + (1048576 + 9 / 2 * M) * s) := by
    rw [← hηt]
    refine mul_le_mul (mul_le_mul_of_nonneg_left hq hη0) (by linarith) (by positivity) (by positivity)
  refine (add_le_add t1 t2).trans ?_
  have e1 : tiny * (1 / 2 ^ 175) * 2 * (1048576 + 2 ^ 21 * (2 ^ 20 + 3 * M) + (1048576 + 9 / 2 * M) * s) =
      tiny * ((2 ^ 21 + 2 ^ 42) / 2 ^ 175) + tiny * M * (3 * 2 ^ 22 / 2 ^ 175) + tiny * s * (2 ^ 21 / 2 ^ 175) + tiny * (M * s) * (9 / 2 ^ 175) := by ring
  have f2 : tiny * s ≤ M * s := mul_le_mul_of_nonneg_right hM1 hs0
  have f3 : tiny * (M * s) ≤ M * s := mul_le_of_le_one_left (by positivity) tiny_le
  have f4 : M * s ≤ n * (M * s) := le_mul_of_one_le_left (by positivity) hn1
  have f5 : 0 ≤ M * s := by positivity
  have f6 : 0 ≤ tiny * M := by positivity
  have e2 : (3 * n + 1 : ℝ) / 2 ^ 52 * (23 / 5 * M * s) = (n * (M * s)) * (69 / 5 / 2 ^ 52) + (M * s) * (23 / 5 / 2 ^ 52) := by ring
  have e3 : 5 * (3 * n + 1 : ℝ) / 2 ^ 52 * M * s = (n * (M * s)) * (15 / 2 ^ 52) + (M * s) * (5 / 2 ^ 52) := by ring
  rw [e1, e2, e3, mul_add, mul_one]
  generalize n * (M * s) = a at *
  generalize M * s = b at *
  generalize tiny * M = d at *
  generalize tiny * s = e at *
  norm_num
  linarith

/-- Forward substitution for a tridiagonal matrix. -/
theorem tri_forward (hn6 : n ≤ 1000000) {A : Matrix (Fin n) (Fin n) F64} {M : ℝ} {G : Nat → Nat → F64} {σ : Equiv.Perm (Fin n)}
    (hf : TriFactored A M G σ) {Y b : Nat → F64} {β P : ℝ} (hβ0 : 0 ≤ β) (hβ : β ≤ P) (hP : 2 ^ 51 ≤ P) (hΩ : P * 2 ^ 250 ≤ Ω F64)
    (h : ∀ i, i < n → Y i = facc (· - ·) (b i) (fun t => Y t * G i t) i) (hb : ∀ i, i < n → (b i).isFin ∧ |(b i).toReal| ≤ β) :
    ∀ i, i < n → (Y i).isFin ∧ |(Y i).toReal| ≤ 2 * n * (β + tiny) := by
  have hu : u F64 = 1 / 2 ^ 53 := rfl
  have hη0 := η_nonneg (α := F64)
  have ht := tiny_pos
  have hnr : (n : ℝ) ≤ 1000000 := by exact_mod_cast hn6
  have hq : (1 + u F64) ^ n * ((1 + u F64) ^ n * (1 + 1 / 2 ^ 52)) ^ n ≤ 2 := by
    have e1 : (1 + 1 / 2 ^ 52 : ℝ) ≤ (1 + u F64) ^ 2 := by rw [hu]; norm_num
    have e2 : (1 + u F64) ^ n * ((1 + u F64) ^ n * (1 + 1 / 2 ^ 52)) ^ n ≤ (1 + u F64) ^ n * ((1 + u F64) ^ n * (1 + u F64) ^ 2) ^ n := by
      have h0 : (0 : ℝ) ≤ (1 + u F64) ^ n := by rw [hu]; positivity
      exact mul_le_mul_of_nonneg_left (pow_le_pow_left₀ (mul_nonneg h0 (by norm_num)) (mul_le_mul_of_nonneg_left e1 h0) n) h0
    have e3 : (1 + u F64) ^ n * ((1 + u F64) ^ n * (1 + u F64) ^ 2) ^ n = (1 + u F64) ^ (n + (n + 2) * n) := by
      rw [← pow_add, ← pow_mul, ← pow_add]
    rw [e3] at e2
    refine e2.trans (pow_f64 ?_)
    have : (n + 2) * n ≤ 1000002 * 1000000 := Nat.mul_le_mul (by omega) hn6
    omega
  have hnη : n * η F64 ≤ tiny := by
    rw [eta_tiny]
    have := mul_le_mul_of_nonneg_right hnr (show 0 ≤ tiny * (1 / 2 ^ 175) from mul_nonneg ht.le (by norm_num))
    norm_num at this ⊢
    linarith
  have hnη0 : 0 ≤ n * η F64 := by positivity
  have hb0 : 0 ≤ n * (β + n * η F64) := mul_nonneg (Nat.cast_nonneg n) (add_nonneg hβ0 hnη0)
  have hbt0 : 0 ≤ β + tiny := add_nonneg hβ0 ht.le
  have hy : (1 + u F64) ^ n * (((1 + u F64) ^ n * (1 + 1 / 2 ^ 52)) ^ n * (n * (β + n * η F64))) ≤ 2 * n * (β + tiny) := by
    rw [← mul_assoc]
    calc _ ≤ 2 * (n * (β + n * η F64)) := mul_le_mul_of_nonneg_right hq hb0
      _ ≤ 2 * (n * (β + tiny)) := mul_le_mul_of_nonneg_left (mul_le_mul_of_nonneg_left (by linarith) (by positivity)) (by norm_num)
      _ = _ := by ring
  have hy2 : 2 * n * (β + tiny) ≤ Ω F64 := by
    have hP0 : 0 ≤ P := le_trans (by norm_num) hP
    refine le_trans ?_ hΩ
    calc 2 * n * (β + tiny) ≤ 2 * 1000000 * (2 * P) :=
          mul_le_mul (by linarith) (by have := tiny_le; norm_num at hP; linarith) hbt0 (by norm_num)
      _ = P * (4 * 1000000) := by ring
      _ ≤ _ := mul_le_mul_of_nonneg_left (by norm_num) hP0
  intro i hi
  obtain ⟨a, b⟩ := LU.Rnd.forward_few (α := F64) (n := n) (G := G) (Y := Y) (b := b) (l := 1 + 1 / 2 ^ 52) (β := β) (by norm_num) hβ0 h hb
    (fun i t hi ht => hf.fin i t hi (by omega)) hf.lcol (hy.trans hy2) i hi
  exact ⟨a, b.trans hy⟩

/-- The conditioning of the matrix. -/
structure TriConditioned (A Z : Matrix (Fin n) (Fin n) ℝ) (M K : ℝ) : Prop where
  inv : Z * A = 1
  row : ∀ i, ∑ j, |Z i j| ≤ K
  cond : n ^ 3 * (K * M) ≤ 2 ^ 46

theorem TriConditioned.scaled (hn : 0 < n) {A Z : Matrix (Fin n) (Fin n) ℝ} {M K : ℝ} (hM : 0 ≤ M) (h : TriConditioned A Z M K) :
    0 ≤ K ∧ n ^ 2 * (K * M) ≤ 2 ^ 46 ∧ n * (K * M) ≤ 2 ^ 46 ∧ K * M ≤ 2 ^ 46 := by
  have hK : 0 ≤ K := (sum_nonneg fun _ _ => abs_nonneg _).trans (h.row ⟨0, hn⟩)
  have hn1 : (1 : ℝ) ≤ n := by exact_mod_cast hn
  have hKM : 0 ≤ K * M := mul_nonneg hK hM
  have h0 := h.cond
  have a1 : (n : ℝ) ^ 2 * (K * M) ≤ n ^ 3 * (K * M) := mul_le_mul_of_nonneg_right (pow_le_pow_right₀ hn1 (by norm_num)) hKM
  have a2 : (n : ℝ) * (K * M) ≤ n ^ 2 * (K * M) := mul_le_mul_of_nonneg_right (by nlinarith) hKM
  have a3 : K * M ≤ n * (K * M) := le_mul_of_one_le_left hKM hn1
  exact ⟨hK, by linarith, by linarith, by linarith⟩

set_option maxHeartbeats 1000000 in
theorem tri_core (hn : 0 < n) (hp : 0 < p) (hn6 : n ≤ 1000000) {A : Matrix (Fin n) (Fin n) F64} {M : ℝ} (hA : Tridiagonal A M)
    (hM1 : tiny ≤ M) (hM2 : M ≤ 2 ^ 800) {Z : Matrix (Fin n) (Fin n) ℝ} {K : ℝ}
    (hc : TriConditioned (A.map F64.toReal) Z M K) {B : Matrix (Fin n) (Fin p) F64} {β : ℝ} (hB : ∀ i j, (B i j).isFin ∧ |(B i j).toReal| ≤ β)
    {P : ℝ} (h1000 : 2 ^ 51 ≤ P) (hΩ : P * 2 ^ 250 ≤ Ω F64) (hβ : β ≤ P) (hKβ : K * β ≤ P) :
    ∃ X : Matrix (Fin n) (Fin p) F64, (ofM A).solve (ofM B) = .ok (some (ofM X)) ∧ ∀ i j, (X i j).isFin := by
  obtain ⟨G, σ, hf⟩ := tri_factored hn (by omega) hA hM1 hM2
  have ht := tiny_pos
  have hM0 : 0 < M := lt_of_lt_of_le ht hM1
  obtain ⟨hK0, hk2, hk1, hk0⟩ := hc.scaled hn hM0.le
  have hu : u F64 = 1 / 2 ^ 53 := rfl
  have hη0 := η_nonneg (α := F64)
  have hn1 : (1 : ℝ) ≤ n := by exact_mod_cast hn
  have hnr : (n : ℝ) ≤ 1000000 := by exact_mod_cast hn6
  have hβ0 : 0 ≤ β := (abs_nonneg _).trans (hB ⟨0, hn⟩ ⟨0, hp⟩).2
  have hKM0 : 0 ≤ K * M := mul_nonneg hK0 hM0.le
  have hKt : K * tiny ≤ 2 ^ 46 := (mul_le_mul_of_nonneg_left hM1 hK0).trans hk0
  have hKt0 : 0 ≤ K * tiny := by positivity
  have hηt := eta_tiny
  have hθ := theta_f64 (n := n) (by omega)
  have hθ0 := θ_nonneg (α := F64) n
  have hγ := gamma_f64 (k := n) (by omega)
  have hγ0 := γ_nonneg (α := F64) n
  have hq : (1 + u F64) ^ n ≤ 2 := pow_f64 (by omega)
  have hq0 : 1 ≤ (1 + u F64) ^ n := one_le_pow (α := F64) n
  have hP0 : 0 ≤ P := le_trans (by norm_num) h1000
  -- the inverse of `U`
  obtain ⟨V, hV, hVt, hVW⟩ := upper_inverse (A := A.map F64.toReal) (Z := Z) (L := LU.lower n n fun i c => (G i c).toReal)
    (U := LU.upper n n fun i c => (G i c).toReal) (l := n * (1 + 1 / 2 ^ 52)) σ hc.inv hc.row hf.err (by
      have e : (n : ℝ) * K * (5 * (n + 1) / 2 ^ 52 * M) = 5 * (n ^ 2 * (K * M) + n * (K * M)) / 2 ^ 52 := by ring
      rw [e]
      norm_num at hk2 hk1 ⊢
      linarith) (fun i => by
      calc _ ≤ ∑ _k : Fin n, (1 + 1 / 2 ^ 52 : ℝ) := sum_le_sum fun k _ => Factored.lower_le hf.low i k
        _ = _ := by rw [sum_const, card_univ, Fintype.card_fin, nsmul_eq_mul]) (fun r c hrc => by
      have : c.1 < r.1 := hrc
      simp only [LU.upper, Matrix.of_apply]; rw [if_neg (by omega)])
  have hW : ∀ c, ∑ r, |V c r| ≤ 3 * n * K := fun c => (hVW c).trans (by
    have : 0 ≤ n * K := by positivity
    norm_num
    nlinarith)
  have hUz : ∀ r c : Fin n, c < r → LU.upper n n (fun i c => (G i c).toReal) r c = 0 := fun r c hrc => by
    have : c.1 < r.1 := hrc
    simp only [LU.upper, Matrix.of_apply]; rw [if_neg (by omega)]
  have hUM : ∀ i c : Fin n, |LU.upper n n (fun i c => (G i c).toReal) i c| ≤ 3 * M := tri_upper_le hM0.le hf.off hf.diag
  have hdiag : ∀ c : Fin n, (G c c).toReal ≠ 0 := fun c h0 => by
    have := congrFun (congrFun hV c) c
    rw [Matrix.mul_apply, Matrix.one_apply_eq, sum_eq_zero] at this
    · exact zero_ne_one this
    · intro b _
      rcases lt_trichotomy b c with hb | hb | hb
      · rw [hVt c b hb, zero_mul]
      · subst hb
        have : LU.upper n n (fun i c => (G i c).toReal) b b = (G b b).toReal := by simp [LU.upper]
        rw [this, h0, mul_zero]
      · rw [hUz b c hb, mul_zero]
  rcases LU.Rnd.solve_ok hn hp G (decide (Equiv.Perm.sign σ = 1)) σ B with ⟨⟨i, hi⟩, -⟩ | ⟨-, X, Y, h4, h5, h6⟩
  · exfalso
    have := (Fp.eq _ _ (hf.fin i i i.2 i.2) Fp.zero.1).1 hi
    rw [Fp.zero.2] at this
    exact hdiag i this
  refine ⟨Matrix.of fun i j => X i j, ?_, fun i j => ?_⟩
  · unfold Mat.solve
    rw [hf.new, ok_bind, h4]
  have hnη : n * η F64 ≤ tiny := by
    rw [hηt]
    have := mul_le_mul_of_nonneg_right hnr (show 0 ≤ tiny * (1 / 2 ^ 175) from mul_nonneg ht.le (by norm_num))
    norm_num at this ⊢
    linarith
  have hnη0 : 0 ≤ n * η F64 := by positivity
  -- forward substitution
  have hY := tri_forward hn6 hf (Y := fun i => Y i j) (b := fun i => if h : i < n then B (σ ⟨i, h⟩) j else 0) hβ0 hβ h1000 hΩ
    (fun i hi => by rw [dif_pos hi]; exact h5 ⟨i, hi⟩ j) (fun i hi => by rw [dif_pos hi]; exact hB _ _)
  have hY2 : ∀ i : Fin n, Fp.fin (Y i j) ∧ |val (Y i j)| ≤ 2 * n * (β + tiny) := fun i => hY i i.2
  have hbt : β + tiny ≤ 2 * P := by have := tiny_le; norm_num at h1000; linarith
  have hy3 : 2 * n * (β + tiny) ≤ P * 2 ^ 22 := by
    calc 2 * n * (β + tiny) ≤ 2 * 1000000 * (2 * P) := mul_le_mul (by linarith) hbt (by positivity) (by norm_num)
      _ = P * (4 * 1000000) := by ring
      _ ≤ _ := mul_le_mul_of_nonneg_left (by norm_num) hP0
  -- back substitution
  have he : θ F64 n + (1 + u F64) ^ n * η F64 * (3 * M) ≤ tiny * (1 + M) := by
    have a1 : (1 + u F64) ^ n * η F64 * (3 * M) ≤ 2 * (tiny * (1 / 2 ^ 175)) * (3 * M) := by
      rw [← hηt]
      exact mul_le_mul_of_nonneg_right (mul_le_mul_of_nonneg_right hq hη0) (by positivity)
    have a2 : 2 * (tiny * (1 / 2 ^ 175)) * (3 * M) ≤ tiny * M := by
      have : 0 ≤ tiny * M := by positivity
      norm_num
      linarith
    norm_num at hθ
    linarith
  have hKe : K * (tiny * (1 + M)) ≤ 2 ^ 47 := by
    have : K * (tiny * (1 + M)) = K * tiny + tiny * (K * M) := by ring
    have h1 : tiny * (K * M) ≤ K * M := mul_le_of_le_one_left hKM0 tiny_le
    rw [this]
    norm_num at hKt hk0 ⊢
    linarith
  have hKy : K * (β + tiny) ≤ P + 2 ^ 46 := by
    rw [mul_add]; linarith
  have hKy0 : 0 ≤ K * (β + tiny) := by positivity
  have hKe0 : 0 ≤ K * (tiny * (1 + M)) := by positivity
  have htM : tiny * (1 + M) ≤ 2 := by
    have a1 : tiny * M ≤ 1 := by
      unfold tiny
      rw [one_div, inv_mul_le_iff₀ (by positivity), mul_one]
      exact hM2.trans (pow_le_pow_right₀ (by norm_num) (by norm_num))
    have := tiny_le
    linarith
  obtain ⟨D, hD⟩ : ∃ D, D = 2 * n * (β + tiny) + tiny * (1 + M) := ⟨_, rfl⟩
  have hD0 : 0 ≤ D := by rw [hD]; positivity
  have hDP : D ≤ P * 2 ^ 23 := by
    rw [hD]
    norm_num at h1000 hy3 ⊢
    linarith
  have hKD : K * D ≤ P * 2 ^ 23 := by
    have e : K * D = 2 * n * (K * (β + tiny)) + K * (tiny * (1 + M)) := by rw [hD]; ring
    have a1 : 2 * n * (K * (β + tiny)) ≤ 2 * 1000000 * (P + 2 ^ 46) := mul_le_mul (by linarith) hKy hKy0 (by norm_num)
    rw [e]
    norm_num at a1 hKe h1000 ⊢
    linarith
  have hKD0 : 0 ≤ K * D := mul_nonneg hK0 hD0
  obtain ⟨S, hSd⟩ : ∃ S, S = 6 * (n * n) * (K * D) := ⟨_, rfl⟩
  have hS0 : 0 ≤ S := by rw [hSd]; positivity
  have hSP : S ≤ P * 2 ^ 66 := by
    rw [hSd]
    calc 6 * (n * n) * (K * D) ≤ 6 * (1000000 * 1000000) * (P * 2 ^ 23) :=
          mul_le_mul (mul_le_mul_of_nonneg_left (mul_le_mul hnr hnr (by positivity) (by norm_num)) (by norm_num)) hKD hKD0 (by norm_num)
      _ = P * (6 * (1000000 * 1000000) * 2 ^ 23) := by ring
      _ ≤ _ := mul_le_mul_of_nonneg_left (by norm_num) hP0
  have hS : 2 * n * (3 * n * K) * (2 * n * (β + tiny) + (θ F64 n + (1 + u F64) ^ n * η F64 * (3 * M))) ≤ S := by
    calc _ ≤ 2 * n * (3 * n * K) * D := mul_le_mul_of_nonneg_left (by rw [hD]; linarith) (by positivity)
      _ = S := by rw [hSd]; ring
  have hMS : 3 * M * S ≤ P * 2 ^ 74 := by
    calc 3 * M * S = 18 * (n ^ 2 * (K * M)) * D := by rw [hSd]; ring
      _ ≤ 18 * 2 ^ 46 * (P * 2 ^ 23) := mul_le_mul (mul_le_mul_of_nonneg_left hk2 (by norm_num)) hDP hD0 (by norm_num)
      _ = P * (18 * 2 ^ 46 * 2 ^ 23) := by ring
      _ ≤ _ := mul_le_mul_of_nonneg_left (by norm_num) hP0
  have hη1 : n * η F64 ≤ 1 := hnη.trans tiny_le
  have hsum0 : 0 ≤ 2 * n * (β + tiny) + 3 * M * S + n * η F64 := by positivity
  have hsum : (1 + u F64) ^ n * (2 * n * (β + tiny) + 3 * M * S + n * η F64) ≤ P * 2 ^ 76 := by
    calc _ ≤ 2 * (P * 2 ^ 22 + P * 2 ^ 74 + 1) := mul_le_mul hq (by linarith) hsum0 (by norm_num)
      _ ≤ _ := by
        norm_num at h1000 ⊢
        linarith
  have hWS : 3 * n * K * (2 * n * (β + tiny) + 3 * M * S + n * η F64) ≤ P * 2 ^ 120 := by
    have e : 3 * n * K * (2 * n * (β + tiny) + 3 * M * S + n * η F64) =
        6 * (n * n) * (K * (β + tiny)) + 9 * (n * (K * M)) * S + 3 * n * (K * (n * η F64)) := by ring
    have a1 : 6 * (n * n) * (K * (β + tiny)) ≤ 6 * (1000000 * 1000000) * (P + 2 ^ 46) :=
      mul_le_mul (mul_le_mul_of_nonneg_left (mul_le_mul hnr hnr (by positivity) (by norm_num)) (by norm_num)) hKy hKy0 (by norm_num)
    have a2 : 9 * (n * (K * M)) * S ≤ 9 * 2 ^ 46 * (P * 2 ^ 66) :=
      mul_le_mul (mul_le_mul_of_nonneg_left hk1 (by norm_num)) hSP hS0 (by norm_num)
    have a3 : 3 * n * (K * (n * η F64)) ≤ 3 * 1000000 * 2 ^ 46 :=
      mul_le_mul (mul_le_mul_of_nonneg_left hnr (by norm_num)) (le_trans (mul_le_mul_of_nonneg_left hnη hK0) hKt) (by positivity) (by norm_num)
    rw [e]
    norm_num at a1 a2 a3 h1000 ⊢
    linarith
  have hs : n * (3 * n * K) * γ F64 n * (3 * M) ≤ 1 / 2 := by
    have a1 : n * (3 * n * K) * γ F64 n * (3 * M) = 9 * (n ^ 2 * (K * M)) * γ F64 n := by ring
    have a2 : 9 * (n ^ 2 * (K * M)) * γ F64 n ≤ 9 * (n ^ 2 * (K * M)) * (n / 2 ^ 52) :=
      mul_le_mul_of_nonneg_left hγ (by positivity)
    have a3 : 9 * (n ^ 2 * (K * M)) * (n / 2 ^ 52) = n ^ 3 * (K * M) * (9 / 2 ^ 52) := by ring
    have a4 := hc.cond
    rw [a1]
    refine a2.trans (a3.le.trans ?_)
    norm_num at a4 ⊢
    linarith
  refine (LU.Rnd.backward_fin j (by positivity) (fun i => h6 i j) (fun i c _ => hf.fin i c i.2 c.2) hUM hV hVt hW hY2 hs hS ?_ ?_).1 i
  · refine hsum.trans (le_trans ?_ hΩ)
    exact mul_le_mul_of_nonneg_left (by norm_num) hP0
  · refine le_trans ?_ hΩ
    have e : (1 + u F64) * (3 * n * K * ((1 + u F64) ^ n * (2 * n * (β + tiny) + 3 * M * S + n * η F64))) =
        (1 + u F64) * ((1 + u F64) ^ n) * (3 * n * K * (2 * n * (β + tiny) + 3 * M * S + n * η F64)) := by ring
    have a1 : (1 + u F64) * ((1 + u F64) ^ n) * (3 * n * K * (2 * n * (β + tiny) + 3 * M * S + n * η F64)) ≤
        2 * 2 * (P * 2 ^ 120) :=
      mul_le_mul (mul_le_mul (by rw [hu]; norm_num) hq (zero_le_one.trans hq0) (by norm_num)) hWS (mul_nonneg (by positivity) hsum0) (by norm_num)
    have a2 := eta_le
    rw [e]
    norm_num at a1 a2 h1000 ⊢
    linarith

/-- From the residual to the error. -/
theorem tri_close (hn : 0 < n) {A Z : Matrix (Fin n) (Fin n) ℝ} {M K t : ℝ} (hM : 0 ≤ M) (ht : 0 ≤ t) (hc : TriConditioned A Z M K)
    (b x : Fin n → ℝ) (h : ∀ i, |b i - ∑ c, A i c * x c| ≤ 5 * (3 * n + 1) / 2 ^ 52 * M * ∑ c, |x c| + t) (i : Fin n) :
    |x i - ∑ c, Z i c * b c| ≤ K * (5 * (3 * n + 1) / 2 ^ 51 * M * (∑ c, |∑ d, Z c d * b d|) + 2 * t) := by
  obtain ⟨hK0, hk2, hk1, hk0⟩ := hc.scaled hn hM
  set s := ∑ c, |x c| with hs
  have hs0 : 0 ≤ s := sum_nonneg fun _ _ => abs_nonneg _
  set s' := ∑ c, |∑ d, Z c d * b d| with hs'
  have hs'0 : 0 ≤ s' := sum_nonneg fun _ _ => abs_nonneg _
  set ρ := 5 * (3 * n + 1 : ℝ) / 2 ^ 52 * M with hρ
  have hρ0 : 0 ≤ ρ := by positivity
  have e1 : ∀ i, |x i - ∑ c, Z i c * b c| ≤ K * (ρ * s + t) := by
    intro i
    have e : x i - ∑ c, Z i c * b c = ∑ k, Z i k * ((∑ c, A k c * x c) - b k) := by
      have : (Z * A).mulVec x = x := by rw [hc.inv, Matrix.one_mulVec]
      rw [← Matrix.mulVec_mulVec] at this
      have := congrFun this i
      simp only [mul_sub, sum_sub_distrib]
      congr 1
      exact this.symm
    rw [e]
    calc _ ≤ ∑ k, |Z i k| * (ρ * s + t) := (abs_sum_le_sum_abs _ _).trans (sum_le_sum fun k _ => by
            rw [abs_mul, abs_sub_comm]; exact mul_le_mul_of_nonneg_left (h k) (abs_nonneg _))
      _ = (∑ k, |Z i k|) * (ρ * s + t) := by rw [sum_mul]
      _ ≤ _ := mul_le_mul_of_nonneg_right (hc.row i) (by positivity)
  have e2 : s ≤ s' + n * (K * (ρ * s + t)) := by
    calc s ≤ ∑ c, (|∑ d, Z c d * b d| + K * (ρ * s + t)) := sum_le_sum fun c _ => by
            have a1 := e1 c
            have a2 := abs_sub_abs_le_abs_sub (x c) (∑ d, Z c d * b d)
            linarith
      _ = _ := by rw [sum_add_distrib]; simp [hs']
  have e3 : n * (K * ρ) ≤ 1 / 2 := by
    have : n * (K * ρ) = 5 * (3 * (n ^ 2 * (K * M)) + n * (K * M)) / 2 ^ 52 := by rw [hρ]; ring
    rw [this]
    norm_num at hk2 hk1 ⊢
    linarith
  have e4 := mul_le_mul_of_nonneg_right e3 hs0
  have e5 : s ≤ 2 * s' + 2 * (n * (K * t)) := by
    have : n * (K * (ρ * s + t)) = n * (K * ρ) * s + n * (K * t) := by ring
    linarith
  refine (e1 i).trans (mul_le_mul_of_nonneg_left ?_ hK0)
  have e6 := mul_le_mul_of_nonneg_left e5 hρ0
  have e7 := mul_le_mul_of_nonneg_right e3 ht
  have e8 : ρ * (2 * s' + 2 * (n * (K * t))) = 2 * ρ * s' + 2 * (n * (K * ρ) * t) := by ring
  have e9 : 5 * (3 * n + 1 : ℝ) / 2 ^ 51 * M * s' = 2 * ρ * s' := by rw [hρ]; ring
  rw [e9]
  linarith

/-- C116: solving a well conditioned tridiagonal system of doubles.  `Z` is the inverse of `A`, `K` bounds the sums of the absolute values of
its rows, `M` and `β` bound the entries of `A` and `B`.  Then `solve` answers, nothing overflows, and residual and error are small. -/
theorem C116_solve (hn : 0 < n) (hp : 0 < p) (hn6 : n ≤ 1000000) (A : Matrix (Fin n) (Fin n) F64) (B : Matrix (Fin n) (Fin p) F64) (M K β : ℝ)
    (hA : Tridiagonal A M) (hM1 : tiny ≤ M) (hM2 : M ≤ 2 ^ 800)
    (Z : Matrix (Fin n) (Fin n) ℝ) (hZ : Z * A.map F64.toReal = 1) (hK : ∀ i, ∑ j, |Z i j| ≤ K) (hc : n ^ 3 * (K * M) ≤ 2 ^ 46)
    (hB : ∀ i j, (B i j).isFin ∧ |(B i j).toReal| ≤ β) (hβ : β ≤ 2 ^ 700) (hKβ : K * β ≤ 2 ^ 700) :
    ∃ X : Matrix (Fin n) (Fin p) F64, (ofM A).solve (ofM B) = .ok (some (ofM X)) ∧ (∀ i j, (X i j).isFin) ∧
      (∀ i j, |(B i j).toReal - ∑ c, (A i c).toReal * (X c j).toReal| ≤
        5 * (3 * n + 1) / 2 ^ 52 * M * (∑ c, |(X c j).toReal|) + tiny * (1 + M)) ∧
      ∀ i j, |(X i j).toReal - (Z * B.map F64.toReal) i j| ≤
        K * (5 * (3 * n + 1) / 2 ^ 51 * M * (∑ c, |(Z * B.map F64.toReal) c j|) + 2 * (tiny * (1 + M))) := by
  have hcd : TriConditioned (A.map F64.toReal) Z M K := ⟨hZ, hK, hc⟩
  obtain ⟨X, h1, h2⟩ := tri_core hn hp hn6 hA hM1 hM2 hcd hB omega_700.1 omega_700.2 hβ hKβ
  have hM0 : 0 ≤ M := tiny_pos.le.trans hM1
  have h3 := tri_resid hn hp (by omega) hA hM1 hM2 h1 h2
  refine ⟨X, h1, h2, h3, fun i j => ?_⟩
  exact tri_close hn hM0 (mul_nonneg tiny_pos.le (by linarith)) hcd (fun i => (B i j).toReal) (fun c => (X c j).toReal) (fun i => h3 i j) i

/-- C116: the residual, without assuming anything about the conditioning: whenever the answer is finite. -/
theorem C116_residual (hn : 0 < n) (hp : 0 < p) (hn6 : n ≤ 1000000) (A : Matrix (Fin n) (Fin n) F64) (B X : Matrix (Fin n) (Fin p) F64) (M : ℝ)
    (hA : Tridiagonal A M) (hM1 : tiny ≤ M) (hM2 : M ≤ 2 ^ 800)
    (hX : (ofM A).solve (ofM B) = .ok (some (ofM X))) (hXf : ∀ i j, (X i j).isFin) (i : Fin n) (j : Fin p) :
    |(B i j).toReal - ∑ c, (A i c).toReal * (X c j).toReal| ≤
      5 * (3 * n + 1) / 2 ^ 52 * M * (∑ c, |(X c j).toReal|) + tiny * (1 + M) :=
  tri_resid hn hp (by omega) hA hM1 hM2 hX hXf i j

/-- Rows in which the diagonal outweighs the rest by `δ`: the row sums of the inverse are at most `1 / δ`. -/
theorem varah {A : Matrix (Fin n) (Fin n) ℝ} {δ : ℝ} (hδ : 0 < δ) (h : ∀ i, δ + ∑ j ∈ univ.erase i, |A i j| ≤ |A i i|) :
    ∃ Z : Matrix (Fin n) (Fin n) ℝ, Z * A = 1 ∧ ∀ i, ∑ j, |Z i j| ≤ 1 / δ := by
  have hdet : A.det ≠ 0 := det_ne_zero_of_sum_row_lt_diag fun k => by
    simp only [Real.norm_eq_abs]
    have := h k
    linarith
  have hunit : IsUnit A.det := isUnit_iff_ne_zero.2 hdet
  refine ⟨A⁻¹, Matrix.nonsing_inv_mul A hunit, fun i => ?_⟩
  set s : Fin n → ℝ := fun j => if 0 ≤ A⁻¹ i j then 1 else -1 with hs
  have hs1 : ∀ j, |s j| ≤ 1 := fun j => by
    simp only [hs]; split <;> simp
  set x := A⁻¹.mulVec s with hx
  have e1 : ∑ j, |A⁻¹ i j| = x i := by
    rw [hx]
    refine sum_congr rfl fun j _ => ?_
    simp only [hs]
    split
    · next h0 => rw [abs_of_nonneg h0, mul_one]
    · next h0 => rw [abs_of_neg (not_le.1 h0), mul_neg, mul_one]
  have e2 : A.mulVec x = s := by rw [hx, Matrix.mulVec_mulVec, Matrix.mul_nonsing_inv A hunit, Matrix.one_mulVec]
  obtain ⟨m, -, hm⟩ := exists_max_image univ (fun j => |x j|) ⟨i, mem_univ i⟩
  have e3 : A m m * x m = s m - ∑ j ∈ univ.erase m, A m j * x j := by
    have := congrFun e2 m
    rw [Matrix.mulVec, dotProduct, ← add_sum_erase _ _ (mem_univ m)] at this
    linarith
  have e4 : |A m m| * |x m| ≤ 1 + (∑ j ∈ univ.erase m, |A m j|) * |x m| := by
    rw [← abs_mul, e3]
    refine (abs_sub _ _).trans (add_le_add (hs1 m) ((abs_sum_le_sum_abs _ _).trans ?_))
    rw [sum_mul]
    refine sum_le_sum fun j _ => ?_
    rw [abs_mul]
    exact mul_le_mul_of_nonneg_left (hm j (mem_univ j)) (abs_nonneg _)
  have e5 := mul_le_mul_of_nonneg_right (h m) (abs_nonneg (x m))
  rw [e1]
  refine (le_abs_self _).trans ((hm i (mem_univ i)).trans ?_)
  rw [le_div_iff₀ hδ]
  linarith

/-- C116 for matrices in which the diagonal outweighs the rest of each row by `δ`: no hypothesis about an inverse. -/
theorem C116_dominant (hn : 0 < n) (hp : 0 < p) (hn6 : n ≤ 1000000) (A : Matrix (Fin n) (Fin n) F64) (B : Matrix (Fin n) (Fin p) F64) (M δ β : ℝ)
    (hA : Tridiagonal A M) (hM1 : tiny ≤ M) (hM2 : M ≤ 2 ^ 800) (hδ : 0 < δ)
    (hdom : ∀ i, δ + ∑ j ∈ univ.erase i, |(A i j).toReal| ≤ |(A i i).toReal|) (hc : n ^ 3 * M ≤ 2 ^ 46 * δ)
    (hB : ∀ i j, (B i j).isFin ∧ |(B i j).toReal| ≤ β) (hβ : β ≤ 2 ^ 700) (hδβ : β ≤ 2 ^ 700 * δ) :
    ∃ (X : Matrix (Fin n) (Fin p) F64) (Y : Matrix (Fin n) (Fin p) ℝ), (ofM A).solve (ofM B) = .ok (some (ofM X)) ∧ (∀ i j, (X i j).isFin) ∧
      A.map F64.toReal * Y = B.map F64.toReal ∧
      ∀ i j, |(X i j).toReal - Y i j| ≤ (5 * (3 * n + 1) / 2 ^ 51 * M * (∑ c, |Y c j|) + 2 * (tiny * (1 + M))) / δ := by
  obtain ⟨Z, hZ, hK⟩ := varah (A := A.map F64.toReal) hδ fun i => by simpa only [Matrix.map_apply] using hdom i
  obtain ⟨X, h1, h2, -, h4⟩ := C116_solve hn hp hn6 A B M (1 / δ) β hA hM1 hM2 Z hZ hK (by
      rw [one_div, ← div_eq_inv_mul, ← mul_div_assoc, div_le_iff₀ hδ]; exact hc) hB hβ (by
      rw [one_div, ← div_eq_inv_mul, div_le_iff₀ hδ]; exact hδβ)
  refine ⟨X, Z * B.map F64.toReal, h1, h2, ?_, fun i j => ?_⟩
  · rw [← Matrix.mul_assoc, mul_eq_one_comm.1 hZ, Matrix.one_mul]
  · refine (h4 i j).trans (le_of_eq ?_)
    rw [one_div, ← div_eq_inv_mul]

/-! ## Examples -/

/-- The matrix of cubic spline interpolation: `4` on the diagonal, `1` beside it. -/
def spline (n : Nat) : Matrix (Fin n) (Fin n) F64 :=
  Matrix.of fun i j => if i = j then two 2 else if i.1 + 1 = j.1 ∨ j.1 + 1 = i.1 then two 0 else 0

/-- It meets the hypotheses of `C116_dominant` for up to `32768` rows. -/
theorem spline_meets (hn : n ≤ 32768) : Tridiagonal (spline n) 4 ∧ (∀ i, 2 + ∑ j ∈ univ.erase i, |(spline n i j).toReal| ≤ |(spline n i i).toReal|) ∧
    (n : ℝ) ^ 3 * 4 ≤ 2 ^ 46 * 2 ∧ tiny ≤ 4 := by
  obtain ⟨v0, v1, v2⟩ := two_val
  have hf0 : (two 0).isFin := by decide +kernel
  have hf2 : (two 2).isFin := by decide +kernel
  have z := Fp.zero (α := F64)
  have z2 : (0 : F64).toReal = 0 := z.2
  refine ⟨⟨fun i j => ?_, fun i j h => ?_⟩, fun i => ?_, ?_, tiny_le.trans (by norm_num)⟩
  · simp only [spline, Matrix.of_apply]
    split
    · exact ⟨hf2, by rw [v2]; norm_num⟩
    · split
      · exact ⟨hf0, by rw [v0]; norm_num⟩
      · exact ⟨z.1, by rw [z2]; norm_num⟩
  · simp only [spline, Matrix.of_apply]
    rw [if_neg (fun e => by rw [e] at h; omega), if_neg (by omega)]
    exact zeros_f64.zero
  · have hle : ∑ j ∈ univ.erase i, |(spline n i j).toReal| ≤
        ∑ j : Fin n, ((if i.1 + 1 = j.1 then (1 : ℝ) else 0) + if j.1 + 1 = i.1 then (1 : ℝ) else 0) := by
      refine (sum_le_sum fun j hj => ?_).trans (sum_le_univ_sum_of_nonneg fun j => by positivity)
      have hj : j ≠ i := (mem_erase.1 hj).1
      simp only [spline, Matrix.of_apply]
      rw [if_neg hj.symm]
      by_cases a : i.1 + 1 = j.1
      · rw [if_pos (Or.inl a), if_pos a, if_neg (by omega), v0]; norm_num
      · by_cases b : j.1 + 1 = i.1
        · rw [if_pos (Or.inr b), if_neg a, if_pos b, v0]; norm_num
        · rw [if_neg (by omega), if_neg a, if_neg b, z2]; norm_num
    have h1 : ∀ m : Nat, ∑ j : Fin n, (if m = j.1 then (1 : ℝ) else 0) ≤ 1 := fun m => by
      rw [Fin.sum_univ_eq_sum_range (fun j => if m = j then (1 : ℝ) else 0), sum_ite_eq]
      split <;> norm_num
    have h2 : ∑ j : Fin n, (if j.1 + 1 = i.1 then (1 : ℝ) else 0) ≤ 1 := by
      refine le_trans (sum_le_sum fun j _ => ?_) (h1 (i.1 - 1))
      by_cases b : j.1 + 1 = i.1
      · rw [if_pos b, if_pos (by omega)]
      · rw [if_neg b]; positivity
    rw [sum_add_distrib] at hle
    have h3 : (spline n i i).toReal = 4 := by simp [spline, v2]
    rw [h3, abs_of_nonneg (by norm_num)]
    have := h1 (i.1 + 1)
    linarith
  · have : (n : ℝ) ≤ 32768 := by exact_mod_cast hn
    have := pow_le_pow_left₀ (Nat.cast_nonneg n) this 3
    norm_num at this ⊢
    linarith

end LA.Props
