import Verif.Proofs.SVDLoop
import Verif.Proofs.SVDIter
import Verif.Proofs.House
import Verif.Proofs.StdCalc

/-! # Accumulation of errors over a sequence of orthogonal transformations -/

set_option linter.unusedSectionVars false

namespace LA
open Finset Matrix

theorem frob_mono {m n : Nat} {E B : Matrix (Fin m) (Fin n) ℝ} (h : ∀ i j, |E i j| ≤ B i j) : frob E ≤ frob B := by
  refine Real.sqrt_le_sqrt (Finset.sum_le_sum fun i _ => Finset.sum_le_sum fun j _ => ?_)
  exact sq_le_sq.2 ((h i j).trans (le_abs_self _))

theorem frob_smul {m n : Nat} (c : ℝ) (M : Matrix (Fin m) (Fin n) ℝ) : frob (c • M) = |c| * frob M := by
  unfold frob
  rw [← Real.sqrt_sq_eq_abs, ← Real.sqrt_mul (sq_nonneg c), Finset.mul_sum]
  congr 1
  refine Finset.sum_congr rfl fun i _ => ?_
  rw [Finset.mul_sum]
  refine Finset.sum_congr rfl fun j _ => ?_
  rw [Matrix.smul_apply, smul_eq_mul]; ring

theorem frob_sub_comm {m n : Nat} (M N : Matrix (Fin m) (Fin n) ℝ) : frob (M - N) = frob (N - M) := by
  rw [← neg_sub N M, ← neg_one_smul ℝ (N - M), frob_smul]; simp

theorem frob_sub_le {m n : Nat} (M N : Matrix (Fin m) (Fin n) ℝ) : frob (M - N) ≤ frob M + frob N := by
  rw [sub_eq_add_neg, ← neg_one_smul ℝ N]
  refine (frob_add_le _ _).trans ?_
  rw [frob_smul]; simp

theorem frob_tri {m n : Nat} (X Y Z : Matrix (Fin m) (Fin n) ℝ) : frob (X - Z) ≤ frob (X - Y) + frob (Y - Z) := by
  rw [show X - Z = (X - Y) + (Y - Z) by abel]
  exact frob_add_le _ _

theorem frob_one {n : Nat} : frob (1 : Matrix (Fin n) (Fin n) ℝ) = Real.sqrt n := by
  unfold frob
  congr 1
  have : ∀ i : Fin n, ∑ j, (1 : Matrix (Fin n) (Fin n) ℝ) i j ^ 2 = 1 := by
    intro i
    rw [Finset.sum_eq_single i]
    · simp
    · intro j _ hj; rw [Matrix.one_apply_ne (Ne.symm hj)]; norm_num
    · simp
  simp [this]

theorem Orth.frob {n : Nat} {P : Matrix (Fin n) (Fin n) ℝ} (h : Orth P) : frob P = Real.sqrt n := by
  rw [← frob_one, ← frob_mul_left 1 h, Matrix.mul_one]

theorem frob_mul_orth {m n : Nat} (M : Matrix (Fin m) (Fin n) ℝ) {V : Matrix (Fin n) (Fin n) ℝ} (hV : Orth V) :
    frob (M * V) = frob M := by
  have := frob_mul_right M hV.transpose
  rwa [transpose_transpose] at this

namespace Std
open SVD

/-- `U` and `V` are close to orthogonal `P` and `Q`, and `A` is close to `P M Q'`; `r` counts the transformations. -/
def NF (m n : Nat) (κ T : ℝ) (A : Matrix (Fin m) (Fin n) ℝ) (r : Nat) (U V M : Nat → Nat → ℝ) : Prop :=
  ∃ P Q, Orth P ∧ Orth Q ∧ frob (pk m m U - P) ≤ ((1 + κ) ^ r - 1) * Real.sqrt m ∧
    frob (pk n n V - Q) ≤ ((1 + κ) ^ r - 1) * Real.sqrt n ∧
    frob (A - P * pk m n M * Qᵀ) ≤ ((1 + κ) ^ r - 1) * (frob A + T)

section
variable {m n : Nat} {κ T : ℝ} {A : Matrix (Fin m) (Fin n) ℝ} {r : Nat} {U V M U' V' M' : Nat → Nat → ℝ}

theorem NF.congr (h : NF m n κ T A r U V M) (hU : ∀ i j, i < m → j < m → U i j = U' i j)
    (hV : ∀ i j, i < n → j < n → V i j = V' i j) (hM : ∀ i j, i < m → j < n → M i j = M' i j) : NF m n κ T A r U' V' M' := by
  unfold NF
  rw [← pk_congr hU, ← pk_congr hV, ← pk_congr hM]
  exact h

theorem NF.mono (hκ : 0 ≤ κ) (hT : 0 ≤ T) (h : NF m n κ T A r U V M) {r' : Nat} (hr : r ≤ r') : NF m n κ T A r' U V M := by
  obtain ⟨P, Q, h1, h2, h3, h4, h5⟩ := h
  have hp : (1 + κ) ^ r ≤ (1 + κ) ^ r' := pow_le_pow_right₀ (by linarith) hr
  refine ⟨P, Q, h1, h2, h3.trans ?_, h4.trans ?_, h5.trans ?_⟩
  · exact mul_le_mul_of_nonneg_right (by linarith) (Real.sqrt_nonneg _)
  · exact mul_le_mul_of_nonneg_right (by linarith) (Real.sqrt_nonneg _)
  · exact mul_le_mul_of_nonneg_right (by linarith) (add_nonneg (frob_nonneg _) hT)

theorem side_step {N : Nat} {U U' : Matrix (Fin N) (Fin N) ℝ} {P G : Matrix (Fin N) (Fin N) ℝ} (hκ : 0 ≤ κ) (hP : Orth P) (hG : Orth G)
    (h : frob (U - P) ≤ ((1 + κ) ^ r - 1) * Real.sqrt N) (hs : frob (U' - U * G) ≤ κ * frob U) :
    frob (U' - P * G) ≤ ((1 + κ) ^ (r + 1) - 1) * Real.sqrt N := by
  have h1 := frob_tri U' (U * G) (P * G)
  rw [← Matrix.sub_mul, frob_mul_orth _ hG] at h1
  have h2 : frob U ≤ frob (U - P) + frob P := by
    have := frob_add_le (U - P) P
    rwa [sub_add_cancel] at this
  rw [hP.frob] at h2
  have h3 := mul_le_mul_of_nonneg_left h2 hκ
  have h4 := mul_le_mul_of_nonneg_left h (show 0 ≤ 1 + κ by linarith)
  rw [pow_succ]
  nlinarith

/-- One transformation, from either side, with its rounding errors. -/
theorem NF.step (hκ : 0 ≤ κ) (h : NF m n κ T A r U V M) {G : Matrix (Fin m) (Fin m) ℝ} {H : Matrix (Fin n) (Fin n) ℝ}
    (hG : Orth G) (hH : Orth H) (hU : frob (pk m m U' - pk m m U * G) ≤ κ * frob (pk m m U))
    (hV : frob (pk n n V' - pk n n V * H) ≤ κ * frob (pk n n V))
    (hM : frob (pk m n M' - Gᵀ * pk m n M * H) ≤ κ * (frob (pk m n M) + T)) : NF m n κ T A (r + 1) U' V' M' := by
  obtain ⟨P, Q, h1, h2, h3, h4, h5⟩ := h
  refine ⟨P * G, Q * H, h1.mul hG, h2.mul hH, side_step hκ h1 hG h3 hU, side_step hκ h2 hH h4 hV, ?_⟩
  have e1 : P * pk m n M * Qᵀ - P * G * pk m n M' * (Q * H)ᵀ = P * G * (Gᵀ * pk m n M * H - pk m n M') * (Q * H)ᵀ := by
    rw [Matrix.mul_sub, Matrix.sub_mul, transpose_mul]
    congr 1
    simp only [Matrix.mul_assoc]
    rw [← Matrix.mul_assoc G Gᵀ, hG.right, Matrix.one_mul, ← Matrix.mul_assoc H Hᵀ, hH.right, Matrix.one_mul]
  have h6 := frob_tri A (P * pk m n M * Qᵀ) (P * G * pk m n M' * (Q * H)ᵀ)
  rw [e1, frob_mul_right _ (h2.mul hH), frob_mul_left _ (h1.mul hG), frob_sub_comm (Gᵀ * pk m n M * H)] at h6
  have h7 : frob (pk m n M) ≤ frob A + frob (A - P * pk m n M * Qᵀ) := by
    have := frob_sub_le A (A - P * pk m n M * Qᵀ)
    rwa [sub_sub_cancel, frob_mul_right _ h2, frob_mul_left _ h1] at this
  have h8 := mul_le_mul_of_nonneg_left h7 hκ
  have h9 := mul_le_mul_of_nonneg_left h5 (show 0 ≤ 1 + κ by linarith)
  rw [pow_succ]
  nlinarith

/-- An exact transformation costs nothing. -/
theorem NF.exact (h : NF m n κ T A r U V M) {G : Matrix (Fin m) (Fin m) ℝ} {H : Matrix (Fin n) (Fin n) ℝ}
    (hG : Orth G) (hH : Orth H) (hU : pk m m U' = pk m m U * G) (hV : pk n n V' = pk n n V * H)
    (hM : pk m n M' = Gᵀ * pk m n M * H) : NF m n κ T A r U' V' M' := by
  obtain ⟨P, Q, h1, h2, h3, h4, h5⟩ := h
  refine ⟨P * G, Q * H, h1.mul hG, h2.mul hH, ?_, ?_, ?_⟩
  · rw [hU, ← Matrix.sub_mul, frob_mul_orth _ hG]; exact h3
  · rw [hV, ← Matrix.sub_mul, frob_mul_orth _ hH]; exact h4
  · have e1 : P * G * pk m n M' * (Q * H)ᵀ = P * pk m n M * Qᵀ := by
      rw [hM, transpose_mul]
      simp only [Matrix.mul_assoc]
      rw [← Matrix.mul_assoc G Gᵀ, hG.right, Matrix.one_mul, ← Matrix.mul_assoc H Hᵀ, hH.right, Matrix.one_mul]
    rw [e1]; exact h5

theorem nf_zero_err {N : Nat} {X : Matrix (Fin m) (Fin N) ℝ} (hκ : 0 ≤ κ) : frob (X - X * (1 : Matrix (Fin N) (Fin N) ℝ)) ≤ κ * frob X := by
  rw [Matrix.mul_one, sub_self]
  have : frob (0 : Matrix (Fin m) (Fin N) ℝ) = 0 := by simp [LA.frob]
  rw [this]
  exact mul_nonneg hκ (frob_nonneg _)

/-- A small change of the middle factor. -/
theorem NF.perturb (hκ : 0 ≤ κ) (h : NF m n κ T A r U V M) (hM : frob (pk m n M' - pk m n M) ≤ κ * (frob (pk m n M) + T)) :
    NF m n κ T A (r + 1) U V M' := by
  refine h.step hκ orth_one orth_one (nf_zero_err hκ) (nf_zero_err hκ) ?_
  rw [transpose_one, Matrix.one_mul, Matrix.mul_one]
  exact hM

/-- Zeroing one entry of the middle factor. -/
theorem NF.deflate (hκ : 0 ≤ κ) (h : NF m n κ T A r U V M) {i0 j0 : Nat} (hi : i0 < m) (hj : j0 < n) (h0 : M' i0 j0 = 0)
    (hne : ∀ i j, ¬(i = i0 ∧ j = j0) → M' i j = M i j) (hb : |M i0 j0| ≤ κ * (frob (pk m n M) + T)) : NF m n κ T A (r + 1) U V M' := by
  refine h.perturb hκ ?_
  rw [frob_single (i0 := ⟨i0, hi⟩) (j0 := ⟨j0, hj⟩)]
  · rw [Matrix.sub_apply, show pk m n M' ⟨i0, hi⟩ ⟨j0, hj⟩ = 0 from h0, zero_sub, abs_neg]
    exact hb
  · intro i j hij
    rw [Matrix.sub_apply, sub_eq_zero]
    exact hne i j (by simpa [Fin.ext_iff] using hij)

end

/-! ## Rotations -/

/-- `F'` is `F` with columns `a`, `b` rotated, with small errors. -/
def RotErr (κ : ℝ) (m n a b : Nat) (c s : ℝ) (F F' : Nat → Nat → ℝ) : Prop :=
  ∀ i j, i < m → j < n → |F' i j - rotc F a b c s i j| ≤ if j = a ∨ j = b then κ * (|F i a| + |F i b|) else 0

/-- Row by row. -/
theorem RotErr.of_rows {κ : ℝ} {m n a b : Nat} {c s : ℝ} {F F' : Nat → Nat → ℝ}
    (h : ∀ i, i < m → ∃ x y x' y', F i a = x ∧ F i b = y ∧ F' i a = x' ∧ F' i b = y' ∧
      |x' - (c * x + s * y)| ≤ κ * (|x| + |y|) ∧ |y' - (-s * x + c * y)| ≤ κ * (|x| + |y|) ∧
      ∀ j, j < n → j ≠ a → j ≠ b → F' i j = F i j) : RotErr κ m n a b c s F F' := by
  intro i j hi hj
  obtain ⟨x, y, x', y', h1, h2, h3, h4, h5, h6, h7⟩ := h i hi
  unfold rotc
  rw [h1, h2]
  by_cases ha : j = a
  · rw [if_pos ha, if_pos (Or.inl ha), ha, h3]; exact h5
  · by_cases hb : j = b
    · rw [if_neg ha, if_pos hb, if_pos (Or.inr hb), hb, h4]; exact h6
    · rw [if_neg ha, if_neg hb, if_neg (by tauto), h7 j hj ha hb, sub_self, abs_zero]

theorem RotErr.frob {κ : ℝ} {m n a b : Nat} {c s : ℝ} {F F' : Nat → Nat → ℝ} (h : RotErr κ m n a b c s F F') (hκ : 0 ≤ κ) (ha : a < n)
    (hb : b < n) (hab : a ≠ b) : frob (pk m n F' - pk m n F * giv n a b c s) ≤ 2 * κ * frob (pk m n F) := by
  rw [← pk_rotc F ha hb hab]
  have e : 2 * κ * LA.frob (pk m n F) = LA.frob ((2 * κ) • pk m n F) := by rw [frob_smul, abs_of_nonneg (by positivity)]
  rw [e]
  refine Real.sqrt_le_sqrt (Finset.sum_le_sum fun i _ => ?_)
  set x : ℝ := κ * (|F i a| + |F i b|) with hx
  have h1 : ∑ j : Fin n, (pk m n F' - pk m n (rotc F a b c s)) i j ^ 2 ≤
      ∑ j : Fin n, ((if j = ⟨a, ha⟩ then x ^ 2 else 0) + (if j = ⟨b, hb⟩ then x ^ 2 else 0)) := by
    refine Finset.sum_le_sum fun j _ => ?_
    have h2 := h i j i.2 j.2
    have h3 : |(pk m n F' - pk m n (rotc F a b c s)) i j| ≤ if j.1 = a ∨ j.1 = b then x else 0 := h2
    by_cases h4 : j.1 = a
    · rw [if_pos (Or.inl h4)] at h3
      rw [if_pos (Fin.ext h4), if_neg (by rw [Fin.ext_iff]; dsimp only; omega), add_zero]
      exact sq_le_sq.2 (h3.trans (le_abs_self _))
    · by_cases h5 : j.1 = b
      · rw [if_pos (Or.inr h5)] at h3
        rw [if_neg (by rw [Fin.ext_iff]; dsimp only; omega), if_pos (Fin.ext h5), zero_add]
        exact sq_le_sq.2 (h3.trans (le_abs_self _))
      · rw [if_neg (by omega)] at h3
        rw [if_neg (by rw [Fin.ext_iff]; dsimp only; omega), if_neg (by rw [Fin.ext_iff]; dsimp only; omega), add_zero,
          abs_eq_zero.1 (le_antisymm h3 (abs_nonneg _))]
        norm_num
  refine h1.trans ?_
  rw [Finset.sum_add_distrib, Finset.sum_ite_eq', Finset.sum_ite_eq', if_pos (Finset.mem_univ _), if_pos (Finset.mem_univ _)]
  have h6 : F i a ^ 2 + F i b ^ 2 ≤ ∑ j : Fin n, F i j ^ 2 := by
    have := Finset.sum_le_univ_sum_of_nonneg (s := {(⟨a, ha⟩ : Fin n), ⟨b, hb⟩}) (fun j : Fin n => sq_nonneg (F i j))
    rwa [Finset.sum_pair (by rw [Ne, Fin.ext_iff]; exact hab)] at this
  have h7 : ∑ j : Fin n, ((2 * κ) • pk m n F) i j ^ 2 = 4 * κ ^ 2 * ∑ j : Fin n, F i j ^ 2 := by
    rw [Finset.mul_sum]
    refine Finset.sum_congr rfl fun j _ => ?_
    rw [Matrix.smul_apply, smul_eq_mul, show pk m n F i j = F i j from rfl]; ring
  rw [h7]
  have h8 : x ^ 2 + x ^ 2 ≤ 4 * κ ^ 2 * (F i a ^ 2 + F i b ^ 2) := by
    have e1 := sq_abs (F i a)
    have e2 := sq_abs (F i b)
    rw [hx, ← e1, ← e2]
    nlinarith [mul_nonneg (sq_nonneg κ) (sq_nonneg (|F i a| - |F i b|))]
  exact h8.trans (mul_le_mul_of_nonneg_left h6 (by positivity))

section
variable {m n : Nat} {κ κ0 T : ℝ} {A : Matrix (Fin m) (Fin n) ℝ} {r : Nat} {U V M U' V' M' : Nat → Nat → ℝ}

theorem NF.rotV (h0 : 0 ≤ κ0) (hκ : 2 * κ0 ≤ κ) (hT : 0 ≤ T) (h : NF m n κ T A r U V M) {a b : Nat} (ha : a < n) (hb : b < n)
    (hab : a ≠ b) {c s : ℝ} (hc : c ^ 2 + s ^ 2 = 1) (hV : RotErr κ0 n n a b c s V V') (hM : RotErr κ0 m n a b c s M M') :
    NF m n κ T A (r + 1) U V' M' := by
  have hk : 0 ≤ κ := by linarith
  refine h.step hk orth_one (giv_orth ha hb hab hc) (nf_zero_err hk) ((hV.frob h0 ha hb hab).trans ?_) ?_
  · exact mul_le_mul_of_nonneg_right hκ (frob_nonneg _)
  · rw [transpose_one, Matrix.one_mul]
    refine (hM.frob h0 ha hb hab).trans ?_
    have := mul_le_mul_of_nonneg_right hκ (frob_nonneg (pk m n M))
    have := mul_nonneg hk hT
    linarith

theorem NF.rotU (h0 : 0 ≤ κ0) (hκ : 2 * κ0 ≤ κ) (hT : 0 ≤ T) (h : NF m n κ T A r U V M) {a b : Nat} (ha : a < m) (hb : b < m)
    (hab : a ≠ b) {c s : ℝ} (hc : c ^ 2 + s ^ 2 = 1) (hU : RotErr κ0 m m a b c s U U')
    (hM : RotErr κ0 n m a b c s (fun i j => M j i) (fun i j => M' j i)) : NF m n κ T A (r + 1) U' V M' := by
  have hk : 0 ≤ κ := by linarith
  refine h.step hk (giv_orth ha hb hab hc) orth_one ((hU.frob h0 ha hb hab).trans ?_) (nf_zero_err hk) ?_
  · exact mul_le_mul_of_nonneg_right hκ (frob_nonneg _)
  · have e1 := hM.frob h0 ha hb hab
    have e2 : pk n m (fun i j => M' j i) = (pk m n M')ᵀ := rfl
    have e3 : pk n m (fun i j => M j i) = (pk m n M)ᵀ := rfl
    rw [e2, e3, frob_transpose, ← frob_transpose, transpose_sub, transpose_mul, transpose_transpose, transpose_transpose] at e1
    rw [Matrix.mul_one]
    refine e1.trans ?_
    have := mul_le_mul_of_nonneg_right hκ (frob_nonneg (pk m n M))
    have := mul_nonneg hk hT
    linarith

end

/-! ## Reflections -/

/-- `F'` is `F` with a reflection applied to its rows `lo..`, with small errors. -/
def RefErr (κ : ℝ) (lo m n : Nat) (u : Nat → ℝ) (F F' : Nat → Nat → ℝ) : Prop :=
  ∀ i j, i < m → j < n → |F' i j - refc lo m u F i j| ≤
    κ * if lo ≤ i then |F i j| + |u i| / u lo * ∑ t ∈ Ico lo m, |u t| * |F t j| else 0

theorem RefErr.frob {κ : ℝ} {lo m n : Nat} {u : Nat → ℝ} {F F' : Nat → Nat → ℝ} (h : RefErr κ lo m n u F F') (hκ : 0 ≤ κ)
    (hn : ∑ t ∈ Ico lo m, u t * u t = 2 * u lo) (hlo : 0 ≤ u lo) :
    frob (pk m n F' - hhl m lo u * pk m n F) ≤ 3 * κ * frob (pk m n F) := by
  rw [← pk_refc]
  set au : Nat → ℝ := fun i => |u i| with hau
  set aF : Nat → Nat → ℝ := fun i j => |F i j| with haF
  have hF : LA.frob (pk m n aF) = LA.frob (pk m n F) := by
    unfold LA.frob
    congr 1
    refine Finset.sum_congr rfl fun i _ => Finset.sum_congr rfl fun j _ => ?_
    exact sq_abs (F i j)
  have hn' : ∑ t ∈ Ico lo m, au t * au t = 2 * au lo := by
    rw [hau]
    dsimp only
    rw [abs_of_nonneg hlo, ← hn]
    exact Finset.sum_congr rfl fun t _ => abs_mul_abs_self (u t)
  have hB : LA.frob (κ • ((2 : ℝ) • pk m n aF - hhl m lo au * pk m n aF)) ≤ 3 * κ * LA.frob (pk m n F) := by
    rw [frob_smul, abs_of_nonneg hκ]
    have h1 := frob_sub_le ((2 : ℝ) • pk m n aF) (hhl m lo au * pk m n aF)
    rw [frob_mul_left _ (hhl_orth hn'), frob_smul, abs_of_pos (by norm_num : (0 : ℝ) < 2), hF] at h1
    have := mul_le_mul_of_nonneg_left h1 hκ
    linarith
  refine (frob_mono fun i j => ?_).trans hB
  have h1 := h i j i.2 j.2
  rw [← pk_refc]
  have e1 : (κ • ((2 : ℝ) • pk m n aF - pk m n (refc lo m au aF))) i j = κ * (2 * |F i j| - refc lo m au aF i j) := rfl
  rw [e1]
  refine (show |(pk m n F' - pk m n (refc lo m u F)) i j| ≤ _ from h1).trans (mul_le_mul_of_nonneg_left ?_ hκ)
  unfold refc
  by_cases hi : lo ≤ i.1
  · rw [if_pos hi, if_pos hi, hau, haF]
    dsimp only
    rw [abs_of_nonneg hlo]
    have : -(∑ t ∈ Ico lo m, |u t| * |F t j|) / u lo * |u i| = -(|u i| / u lo * ∑ t ∈ Ico lo m, |u t| * |F t j|) := by ring
    rw [this]
    linarith
  · rw [if_neg hi, if_neg hi]
    have := abs_nonneg (F i j)
    show 0 ≤ 2 * |F i j| - |F i j|
    linarith

end Std
end LA
