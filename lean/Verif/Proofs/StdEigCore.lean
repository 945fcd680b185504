import Verif.Proofs.EigTql
import Verif.Proofs.EigHqr3
import Verif.Proofs.StdMain

/-! # Orthogonal similarity transformations with rounding errors -/

set_option linter.unusedSectionVars false

namespace LA
open Finset Matrix
namespace Std
open SVD
open Eigen (trb tri trb_rot)

/-- `V` is close to an orthogonal `Q`, and `A` is close to `Q X Q'`; `r` counts the transformations. -/
def SF (n : Nat) (κ : ℝ) (A : Matrix (Fin n) (Fin n) ℝ) (r : Nat) (V X : Nat → Nat → ℝ) : Prop :=
  ∃ Q, Orth Q ∧ frob (pk n n V - Q) ≤ ((1 + κ) ^ r - 1) * Real.sqrt n ∧
    frob (A - Q * pk n n X * Qᵀ) ≤ ((1 + κ) ^ r - 1) * frob A

/-- A bound of the norms after `r` transformations. -/
noncomputable def nb {n : Nat} (κ : ℝ) (A : Matrix (Fin n) (Fin n) ℝ) (r : Nat) : ℝ := (1 + κ) ^ r * frob A

section
variable {n : Nat} {κ : ℝ} {A : Matrix (Fin n) (Fin n) ℝ} {r : Nat} {V X V' X' : Nat → Nat → ℝ}

theorem nb_nonneg (hκ : 0 ≤ κ) (r : Nat) : 0 ≤ nb κ A r := mul_nonneg (pow_nonneg (by linarith) r) (frob_nonneg A)

theorem nb_mono (hκ : 0 ≤ κ) {r r' : Nat} (h : r ≤ r') : nb κ A r ≤ nb κ A r' :=
  mul_le_mul_of_nonneg_right (pow_le_pow_right₀ (by linarith) h) (frob_nonneg A)

theorem SF.congr (h : SF n κ A r V X) (hV : ∀ i j, i < n → j < n → V i j = V' i j) (hX : ∀ i j, i < n → j < n → X i j = X' i j) :
    SF n κ A r V' X' := by
  unfold SF
  rw [← pk_congr hV, ← pk_congr hX]
  exact h

theorem SF.mono (hκ : 0 ≤ κ) (h : SF n κ A r V X) {r' : Nat} (hr : r ≤ r') : SF n κ A r' V X := by
  obtain ⟨Q, h1, h2, h3⟩ := h
  have hp : (1 + κ) ^ r ≤ (1 + κ) ^ r' := pow_le_pow_right₀ (by linarith) hr
  refine ⟨Q, h1, h2.trans ?_, h3.trans ?_⟩
  · exact mul_le_mul_of_nonneg_right (by linarith) (Real.sqrt_nonneg _)
  · exact mul_le_mul_of_nonneg_right (by linarith) (frob_nonneg _)

theorem SF.norm (h : SF n κ A r V X) : frob (pk n n X) ≤ nb κ A r := by
  obtain ⟨Q, h1, h2, h3⟩ := h
  have := frob_sub_le A (A - Q * pk n n X * Qᵀ)
  rw [sub_sub_cancel, frob_mul_right _ h1, frob_mul_left _ h1] at this
  unfold nb
  linarith

theorem SF.entry (h : SF n κ A r V X) {a b : Nat} (ha : a < n) (hb : b < n) : |X a b| ≤ nb κ A r :=
  (abs_le_frob (pk n n X) ⟨a, ha⟩ ⟨b, hb⟩).trans h.norm

/-- One transformation, with its rounding errors. -/
theorem SF.step (hκ : 0 ≤ κ) (h : SF n κ A r V X) {G : Matrix (Fin n) (Fin n) ℝ} (hG : Orth G)
    (hV : frob (pk n n V' - pk n n V * G) ≤ κ * frob (pk n n V))
    (hX : frob (pk n n X' - Gᵀ * pk n n X * G) ≤ κ * nb κ A r) : SF n κ A (r + 1) V' X' := by
  obtain ⟨Q, h1, h2, h3⟩ := h
  refine ⟨Q * G, h1.mul hG, side_step hκ h1 hG h2 hV, ?_⟩
  have e1 : Q * pk n n X * Qᵀ - Q * G * pk n n X' * (Q * G)ᵀ = Q * G * (Gᵀ * pk n n X * G - pk n n X') * (Q * G)ᵀ := by
    rw [Matrix.mul_sub, Matrix.sub_mul, transpose_mul]
    congr 1
    simp only [Matrix.mul_assoc]
    rw [← Matrix.mul_assoc G Gᵀ, hG.right, Matrix.one_mul, ← Matrix.mul_assoc G Gᵀ, hG.right, Matrix.one_mul]
  have h6 := frob_tri A (Q * pk n n X * Qᵀ) (Q * G * pk n n X' * (Q * G)ᵀ)
  rw [e1, frob_mul_right _ (h1.mul hG), frob_mul_left _ (h1.mul hG), frob_sub_comm (Gᵀ * pk n n X * G)] at h6
  unfold nb at hX
  rw [pow_succ]
  linarith

/-- A small change of the middle factor. -/
theorem SF.perturb (hκ : 0 ≤ κ) (h : SF n κ A r V X) (hX : frob (pk n n X' - pk n n X) ≤ κ * nb κ A r) : SF n κ A (r + 1) V X' := by
  refine h.step hκ orth_one (nf_zero_err hκ) ?_
  rw [transpose_one, Matrix.one_mul, Matrix.mul_one]
  exact hX

/-- A rotation of two columns and the same two rows. -/
theorem SF.rot {κ0 : ℝ} (h0 : 0 ≤ κ0) (hκ : 2 * κ0 ≤ κ) (h : SF n κ A r V X) {a b : Nat} (ha : a < n) (hb : b < n)
    (hab : a ≠ b) {c s : ℝ} (hc : c ^ 2 + s ^ 2 = 1) (hV : RotErr κ0 n n a b c s V V')
    (hX : frob (pk n n X' - pk n n (rotr (rotc X a b c s) a b c s)) ≤ κ * nb κ A r) : SF n κ A (r + 1) V' X' := by
  have hk : 0 ≤ κ := by linarith
  refine h.step hk (giv_orth ha hb hab hc) ((hV.frob h0 ha hb hab).trans ?_) ?_
  · exact mul_le_mul_of_nonneg_right hκ (frob_nonneg _)
  · rw [pk_rotr _ ha hb hab, pk_rotc _ ha hb hab, ← Matrix.mul_assoc] at hX
    exact hX

/-- Exchanging columns of `V` and diagonal entries. -/
theorem SF.perm (h : SF n κ A r V X) (σ : Equiv.Perm (Fin n)) (hV : ∀ i j : Fin n, V' i j = V i (σ j))
    (hX : ∀ i j : Fin n, X' i j = X (σ i) (σ j)) : SF n κ A r V' X' := by
  have e1 : pk n n V' = (pk n n V).submatrix id σ := by ext i j; exact hV i j
  have e2 : pk n n X' = (pk n n X).submatrix σ σ := by ext i j; exact hX i j
  obtain ⟨Q, h1, h2, h3⟩ := h
  refine ⟨Q.submatrix id σ, ?_, ?_, ?_⟩
  · unfold Orth
    have := Matrix.submatrix_mul_equiv Qᵀ Q σ (Equiv.refl _) σ
    rw [h1, Matrix.submatrix_one_equiv] at this
    rw [transpose_submatrix]
    exact this
  · rw [e1]
    refine le_trans (le_of_eq ?_) h2
    unfold frob
    congr 1
    refine Finset.sum_congr rfl fun i _ => ?_
    exact Equiv.sum_comp σ (fun j => (pk n n V - Q) i j ^ 2)
  · rw [e2, transpose_submatrix, Matrix.submatrix_mul_equiv, Matrix.submatrix_mul_equiv, Matrix.submatrix_id_id]
    exact h3

end

/-- Two bulged tridiagonal tables with the same bulge. -/
theorem trb_close {n k : Nat} {δ ε δ' ε' : Nat → ℝ} {β : ℝ} :
    frob (pk n n (trb k δ' ε' β) - pk n n (trb k δ ε β)) ≤ ∑ a ∈ range n, |δ' a - δ a| + 2 * ∑ a ∈ range n, |ε' a - ε a| := by
  refine (Eigen.frob_le_sum _).trans ?_
  have h1 : ∀ i j : Fin n, |(pk n n (trb k δ' ε' β) - pk n n (trb k δ ε β)) i j| ≤ (if j.1 = i.1 then |δ' i - δ i| else 0) +
      (if i.1 = j.1 + 1 then |ε' j - ε j| else 0) + (if j.1 = i.1 + 1 then |ε' i - ε i| else 0) := by
    intro i j
    rw [Matrix.sub_apply]
    show |trb k δ' ε' β i j - trb k δ ε β i j| ≤ _
    obtain ⟨i, hi⟩ := i
    obtain ⟨j, hj⟩ := j
    dsimp only
    unfold trb
    by_cases e1 : i = j
    · subst e1; rw [if_pos rfl, if_pos rfl, if_pos rfl, if_neg (by omega)]; linarith
    · rw [if_neg e1, if_neg e1, if_neg (Ne.symm e1)]
      by_cases e2 : i = j + 1
      · rw [if_pos e2, if_pos e2, if_pos e2, if_neg (by omega)]; linarith
      · rw [if_neg e2, if_neg e2, if_neg e2]
        by_cases e3 : j = i + 1
        · rw [if_pos e3, if_pos e3, if_pos e3]; linarith
        · rw [if_neg e3, if_neg e3, if_neg e3, sub_self, abs_zero]; linarith
  refine (Finset.sum_le_sum fun i _ => Finset.sum_le_sum fun j _ => h1 i j).trans ?_
  simp only [Finset.sum_add_distrib]
  have e1 : ∀ f : Nat → ℝ, ∑ i : Fin n, f i = ∑ a ∈ range n, f a := fun f => Fin.sum_univ_eq_sum_range f n
  have h2 : ∑ i : Fin n, ∑ j : Fin n, (if j.1 = i.1 then |δ' i - δ i| else 0) ≤ ∑ a ∈ range n, |δ' a - δ a| := by
    rw [← e1]
    exact Finset.sum_le_sum fun i _ => Eigen.sum_fin_le i.1 (abs_nonneg _)
  have h3 : ∑ i : Fin n, ∑ j : Fin n, (if i.1 = j.1 + 1 then |ε' j - ε j| else 0) ≤ ∑ a ∈ range n, |ε' a - ε a| := by
    rw [Finset.sum_comm, ← e1]
    exact Finset.sum_le_sum fun i _ => Eigen.sum_fin_le (i.1 + 1) (abs_nonneg _)
  have h4 : ∑ i : Fin n, ∑ j : Fin n, (if j.1 = i.1 + 1 then |ε' i - ε i| else 0) ≤ ∑ a ∈ range n, |ε' a - ε a| := by
    rw [← e1]
    exact Finset.sum_le_sum fun i _ => Eigen.sum_fin_le (i.1 + 1) (abs_nonneg _)
  linarith

theorem sum_two {n i : Nat} {g : Nat → ℝ} {x y : ℝ} (hx : 0 ≤ x) (hy : 0 ≤ y) (h1 : g i ≤ x) (h2 : g (i + 1) ≤ y)
    (h : ∀ a, a ≠ i → a ≠ i + 1 → g a = 0) : ∑ a ∈ range n, g a ≤ x + y := by
  have h3 : ∀ a ∈ range n, g a ≤ (if a = i then x else 0) + (if a = i + 1 then y else 0) := by
    intro a _
    by_cases e1 : a = i
    · rw [if_pos e1, if_neg (by omega), e1]; linarith
    · by_cases e2 : a = i + 1
      · rw [if_neg e1, if_pos e2, e2]; linarith
      · rw [if_neg e1, if_neg e2, h a e1 e2]; linarith
  refine (Finset.sum_le_sum h3).trans ?_
  rw [Finset.sum_add_distrib, Finset.sum_ite_eq', Finset.sum_ite_eq']
  split_ifs <;> linarith

theorem sum_all {n : Nat} {g : Nat → ℝ} {x : ℝ} (h : ∀ a, a < n → g a ≤ x) : ∑ a ∈ range n, g a ≤ n * x := by
  have := Finset.sum_le_card_nsmul (range n) g x fun a ha => h a (Finset.mem_range.1 ha)
  rwa [Finset.card_range, nsmul_eq_mul] at this

end Std
end LA
