import Verif.Proofs.Weyl
import Mathlib.LinearAlgebra.Matrix.Charpoly.Eigs
import Mathlib.Data.List.Sort

/-! # Perturbation of the eigenvalues of a symmetric matrix (mathematics only, no code) -/

set_option linter.unusedSectionVars false

namespace LA
open Finset Matrix

theorem rect_diagonal {n : Nat} (s : Nat → ℝ) :
    Matrix.of (fun (i : Fin n) (j : Fin n) => if i.1 = j.1 then s i else 0) = Matrix.diagonal (fun i : Fin n => s i) := by
  ext i j
  rw [of_apply, diagonal_apply]
  simp [Fin.ext_iff]

/-- Eigenvalues of symmetric matrices move by at most the norm of the perturbation. -/
theorem weyl_sym {n : Nat} {W V : Matrix (Fin n) (Fin n) ℝ} {l d : Nat → ℝ} (hW : Orth W) (hV : Orth V)
    (hl : ∀ i j, i ≤ j → j < n → l j ≤ l i) (hd : ∀ i j, i ≤ j → j < n → d j ≤ d i) {k : Nat} (hk : k < n) :
    |d k - l k| ≤ frob (W * Matrix.diagonal (fun i : Fin n => l i) * Wᵀ - V * Matrix.diagonal (fun i : Fin n => d i) * Vᵀ) := by
  set c := |l (n - 1)| + |d (n - 1)| with hc
  have h1 := sing_diag (m := n) (s := fun i => l i + c) hW hW (fun i j hij hj => by linarith [hl i j hij (by omega)])
    (fun i hi => by
      have := hl i (n - 1) (by omega) (by omega)
      have := neg_abs_le (l (n - 1))
      have := abs_nonneg (d (n - 1))
      linarith)
  have h2 := sing_diag (m := n) (s := fun i => d i + c) hV hV (fun i j hij hj => by linarith [hd i j hij (by omega)])
    (fun i hi => by
      have := hd i (n - 1) (by omega) (by omega)
      have := neg_abs_le (d (n - 1))
      have := abs_nonneg (l (n - 1))
      linarith)
  have h := h1.close h2 hk
  rw [if_pos hk, if_pos hk, rect_diagonal (fun i => l i + c), rect_diagonal (fun i => d i + c)] at h
  have key : ∀ {X : Matrix (Fin n) (Fin n) ℝ} (f : Nat → ℝ), Orth X →
      X * Matrix.diagonal (fun i : Fin n => f i + c) * Xᵀ = X * Matrix.diagonal (fun i : Fin n => f i) * Xᵀ + c • (1 : Matrix (Fin n) (Fin n) ℝ) := by
    intro X f hX
    have : Matrix.diagonal (fun i : Fin n => f i + c) = Matrix.diagonal (fun i : Fin n => f i) + c • (1 : Matrix (Fin n) (Fin n) ℝ) := by
      rw [← diagonal_one, ← diagonal_smul, diagonal_add]
      congr 1; ext i; simp
    rw [this, Matrix.mul_add, Matrix.add_mul, Matrix.mul_smul, Matrix.smul_mul, Matrix.mul_one, hX.right]
  rw [key l hW, key d hV] at h
  simpa using h

/-- The spectral theorem with sorted eigenvalues. -/
theorem spectral {n : Nat} {A : Matrix (Fin n) (Fin n) ℝ} (hA : A.IsSymm) :
    ∃ (W : Matrix (Fin n) (Fin n) ℝ) (l : Fin n → ℝ), Orth W ∧ Antitone l ∧ A = W * Matrix.diagonal l * Wᵀ := by
  set T := Matrix.toEuclideanLin A with hT
  have hS : T.IsSymmetric := by
    rw [hT, Matrix.isSymmetric_toEuclideanLin_iff]
    unfold Matrix.IsHermitian
    rw [conjTranspose_eq_transpose_of_trivial]; exact hA
  have hn : Module.finrank ℝ (EuclideanSpace ℝ (Fin n)) = n := by simp
  set b := hS.eigenvectorBasis hn with hb
  have hin : ∀ i j, ∑ k, b i k * b j k = if i = j then 1 else 0 := by
    intro i j
    have := orthonormal_iff_ite.1 b.orthonormal i j
    rw [← this, PiLp.inner_apply]
    exact sum_congr rfl fun k _ => by simp [mul_comm]
  have hW : Orth (Matrix.of fun i j => b j i) := by
    unfold Orth
    ext i j
    rw [Matrix.mul_apply, Matrix.one_apply, ← hin i j]
    rfl
  refine ⟨Matrix.of fun i j => b j i, hS.eigenvalues hn, hW, hS.eigenvalues_antitone hn, ?_⟩
  have h1 : A * Matrix.of (fun i j => b j i) = Matrix.of (fun i j => b j i) * Matrix.diagonal (hS.eigenvalues hn) := by
    ext i j
    rw [mul_diagonal, Matrix.mul_apply]
    have := (hS.hasEigenvector_eigenvectorBasis hn j).apply_eq_smul
    have h2 := congrArg (fun v : EuclideanSpace ℝ (Fin n) => v i) this
    have h3 : (T (b j)) i = ∑ k, A i k * (b j k) := by
      rw [hT, Matrix.toLpLin_apply]; rfl
    refine h3.symm.trans (h2.trans ?_)
    show hS.eigenvalues hn j * (b j i) = b j i * hS.eigenvalues hn j
    ring
  rw [← h1, Matrix.mul_assoc, hW.right, Matrix.mul_one]

/-- Two decreasing sequences that are permutations of each other are equal. -/
theorem antitone_perm {n : Nat} {f g : Fin n → ℝ} (hf : Antitone f) (hg : Antitone g)
    (h : Multiset.map f (univ : Finset (Fin n)).1 = Multiset.map g (univ : Finset (Fin n)).1) : f = g := by
  have h1 : (List.ofFn f).Perm (List.ofFn g) := by
    rw [← Multiset.coe_eq_coe]
    have e : ∀ f : Fin n → ℝ, ((List.ofFn f : List ℝ) : Multiset ℝ) = Multiset.map f (univ : Finset (Fin n)).1 := by
      intro f
      rw [List.ofFn_eq_map]
      rfl
    rw [e, e, h]
  have h2 : List.ofFn f = List.ofFn g :=
    h1.eq_of_sortedGE hf.sortedGE_ofFn hg.sortedGE_ofFn
  exact List.ofFn_injective h2

theorem charpoly_conj {n : Nat} {W : Matrix (Fin n) (Fin n) ℝ} (hW : Orth W) (D : Matrix (Fin n) (Fin n) ℝ) :
    (W * D * Wᵀ).charpoly = D.charpoly := by
  have := Matrix.charpoly_mul_comm (W * D) Wᵀ
  rw [this, ← Matrix.mul_assoc, hW, Matrix.one_mul]

theorem roots_unique {n : Nat} {l l' : Fin n → ℝ} (hl : Antitone l) (hl' : Antitone l')
    (h : ∏ i, (Polynomial.X - Polynomial.C (l i)) = ∏ i, (Polynomial.X - Polynomial.C (l' i))) : l = l' := by
  refine antitone_perm hl hl' ?_
  have := congrArg Polynomial.roots h
  have e : ∀ f : Fin n → ℝ, (∏ i, (Polynomial.X - Polynomial.C (f i))).roots = Multiset.map f (univ : Finset (Fin n)).1 := by
    intro f
    have h3 : ∏ i, (Polynomial.X - Polynomial.C (f i)) = (Multiset.map (fun a => Polynomial.X - Polynomial.C a) (Multiset.map f (univ : Finset (Fin n)).1)).prod := by
      rw [Multiset.map_map]; rfl
    rw [h3, Polynomial.roots_multiset_prod_X_sub_C]
  rwa [e, e] at this

end LA
