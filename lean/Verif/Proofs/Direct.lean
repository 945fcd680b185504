import Verif.Model.Direct
import Verif.Proofs.EigNew
import Verif.Props.LU
import Verif.Props.Blocks
import Verif.Props.Elementwise

/-! # `SVD::direct` -/

set_option linter.unusedSectionVars false

namespace LA
open Finset Matrix
namespace SVD

theorem mapM_sqrt {l : List ℝ} (h : ∀ x ∈ l, 0 ≤ x) : l.mapM (FloatOps.sqrt : ℝ → R ℝ) = .ok (l.map Real.sqrt) := by
  induction l with
  | nil => rfl
  | cons x l ih =>
    rw [List.mapM_cons, sqrt_ok (h x (by simp)), ok_bind, ih fun y hy => h y (by simp [hy])]
    rfl

theorem mapM_sqrt_neg {l : List ℝ} (h : ∃ x ∈ l, x < 0) : l.mapM (FloatOps.sqrt : ℝ → R ℝ) = .error .undef := by
  induction l with
  | nil => obtain ⟨x, hx, -⟩ := h; simp at hx
  | cons x l ih =>
    rw [List.mapM_cons]
    by_cases hx : x < 0
    · rw [show (FloatOps.sqrt x : R ℝ) = .error .undef from if_pos hx]; rfl
    · rw [sqrt_ok (not_lt.1 hx), ok_bind, ih]
      · rfl
      · obtain ⟨y, hy, h0⟩ := h
        rcases List.mem_cons.1 hy with rfl | hy
        · exact absurd h0 hx
        · exact ⟨y, hy, h0⟩

/-- The middle of `direct`, after the eigenvalues are known. -/
def tail {α : Type} [Zero α] [One α] [Add α] [Sub α] [Neg α] [Mul α] [FloatOps α] (a : Mat α) (v : Mat α) (l : List α) : R (SVD α) := do
  let sv ← l.mapM FloatOps.sqrt
  let s ← Mat.blockDiag sv.length sv.length sv
  let sInv ← unwrap (← s.inverse)
  let (sAug, sInvAug) ← pad a s sInv
  let u ← (← a.mul v).mul sInvAug
  return ⟨u, sAug, v⟩

theorem directTall_run {m n : Nat} (hm : 0 < m) (hn : 0 < n) (A : Matrix (Fin m) (Fin n) ℝ) :
    ∃ N V δ, Eigen.SymGood (Aᵀ * A) V δ ∧ ∀ fuel,
      directTall fuel (ofM A) = tail (ofM A) (ofM V) (List.ofFn fun i : Fin n => δ i) ∨
      (fuel < N ∧ directTall fuel (ofM A) = .error .fuel) := by
  have hsym : (Aᵀ * A).IsSymm := by
    unfold Matrix.IsSymm
    rw [transpose_mul, transpose_transpose]
  obtain ⟨N, x, ⟨V, δ, rfl, hG⟩, hf⟩ := Eigen.new_symm hn hsym
  refine ⟨N, V, δ, hG, fun fuel => ?_⟩
  unfold directTall
  rw [Props.C12_transpose hm, ok_bind, Props.C10_mul hn hm, ok_bind]
  rcases hf fuel with h | ⟨h1, h⟩
  · left
    dsimp only at h
    rw [h, ok_bind]
    rfl
  · right
    dsimp only at h
    exact ⟨h1, by rw [h]; rfl⟩

/-- The rectangular diagonal matrix. -/
def rdiag (m n : Nat) (s : Nat → ℝ) : Matrix (Fin m) (Fin n) ℝ := Matrix.of fun i j => if i.1 = j.1 then s i else 0

theorem rdiag_sq {n : Nat} (s : Nat → ℝ) : rdiag n n s = Matrix.diagonal fun i : Fin n => s i := by
  ext i j
  simp only [rdiag, of_apply, diagonal_apply, Fin.ext_iff]

theorem blockDiag_ofFn {n : Nat} (hn : 0 < n) (δ : Nat → ℝ) : Mat.blockDiag n n (List.ofFn fun i : Fin n => δ i) =
    .ok (ofM (Matrix.diagonal fun i : Fin n => δ i)) := by
  rw [Props.C05_blockDiag hn hn _ (by simp)]
  congr 2
  ext i j
  simp only [of_apply, diagonal_apply, Fin.ext_iff]
  split <;> simp

theorem map_sqrt_ofFn {n : Nat} (δ : Nat → ℝ) : (List.ofFn fun i : Fin n => δ i).map Real.sqrt =
    List.ofFn fun i : Fin n => (fun i => Real.sqrt (δ i)) i := by
  rw [List.map_ofFn]; rfl

theorem tail_neg {a v : Mat ℝ} {n : Nat} {δ : Nat → ℝ} (h : ∃ i, i < n ∧ δ i < 0) :
    tail a v (List.ofFn fun i : Fin n => δ i) = .error .undef := by
  obtain ⟨i, hi, h⟩ := h
  unfold tail
  rw [mapM_sqrt_neg ⟨δ i, (List.mem_ofFn' (fun i : Fin n => δ i) _).2 ⟨⟨i, hi⟩, rfl⟩, h⟩]
  rfl

theorem tail_zero {a v : Mat ℝ} {n : Nat} {δ : Nat → ℝ} (hn : 0 < n) (h : ∀ i, i < n → 0 ≤ δ i) (h0 : ∃ i, i < n ∧ δ i = 0) :
    tail a v (List.ofFn fun i : Fin n => δ i) = .error .unwrap := by
  unfold tail
  rw [mapM_sqrt (fun x hx => by
    obtain ⟨i, rfl⟩ := (List.mem_ofFn' (fun i : Fin n => δ i) _).1 hx
    exact h i i.2), ok_bind, map_sqrt_ofFn]
  simp only [List.length_ofFn]
  rw [blockDiag_ofFn hn (fun i => Real.sqrt (δ i)), ok_bind, (Props.C34_inverse_none hn _).2]
  · rfl
  · obtain ⟨i, hi, h1⟩ := h0
    rw [det_diagonal]
    exact Finset.prod_eq_zero (Finset.mem_univ (⟨i, hi⟩ : Fin n)) (by simp [h1])

theorem inv_diag {n : Nat} {σ : Nat → ℝ} (h : ∀ i, i < n → σ i ≠ 0) :
    (Matrix.diagonal fun i : Fin n => σ i)⁻¹ = Matrix.diagonal fun i : Fin n => (σ i)⁻¹ := by
  refine Matrix.inv_eq_left_inv ?_
  rw [diagonal_mul_diagonal, ← diagonal_one]
  congr 1
  funext i
  exact inv_mul_cancel₀ (h i i.2)

/-- `A·V·Σ⁺`: columns of `A·V` divided by the singular values, then zero columns. -/
noncomputable def dirU {m n : Nat} (A : Matrix (Fin m) (Fin n) ℝ) (V : Matrix (Fin n) (Fin n) ℝ) (σ : Nat → ℝ) :
    Matrix (Fin m) (Fin m) ℝ := Matrix.of fun i j => if h : j.1 < n then (A * V) i ⟨j, h⟩ / σ j else 0

theorem tail_pos {m n : Nat} (hn : 0 < n) (hnm : n ≤ m) (A : Matrix (Fin m) (Fin n) ℝ) (V : Matrix (Fin n) (Fin n) ℝ)
    {δ : Nat → ℝ} (h : ∀ i, i < n → 0 < δ i) :
    tail (ofM A) (ofM V) (List.ofFn fun i : Fin n => δ i) =
      .ok ⟨ofM (dirU A V fun i => Real.sqrt (δ i)), ofM (rdiag m n fun i => Real.sqrt (δ i)), ofM V⟩ := by
  obtain ⟨σ, hσ⟩ : ∃ σ : Nat → ℝ, σ = fun i => Real.sqrt (δ i) := ⟨_, rfl⟩
  have hσ0 : ∀ i, i < n → σ i ≠ 0 := fun i hi => by rw [hσ]; exact (Real.sqrt_pos.2 (h i hi)).ne'
  have hdet : (Matrix.diagonal fun i : Fin n => σ i).det ≠ 0 := by
    rw [det_diagonal]
    exact Finset.prod_ne_zero_iff.2 fun i _ => hσ0 i i.2
  unfold tail
  rw [mapM_sqrt (fun x hx => by
    obtain ⟨i, rfl⟩ := (List.mem_ofFn' (fun i : Fin n => δ i) _).1 hx
    exact (h i i.2).le), ok_bind, map_sqrt_ofFn, ← hσ]
  simp only [List.length_ofFn]
  rw [blockDiag_ofFn hn, ok_bind, (Props.C34_inverse hn _ hdet).1, inv_diag hσ0, ok_bind]
  show (pad _ _ _ >>= _) = _
  unfold pad
  rw [ofM_cols A (by omega), ok_bind, ofM_rows]
  obtain ⟨d, rfl⟩ : ∃ d, m = n + d := ⟨m - n, by omega⟩
  rcases Nat.eq_zero_or_pos d with rfl | hd
  · rw [if_pos (by simp), pure_eq_ok, ok_bind]
    dsimp only
    rw [Props.C10_mul hn hn, ok_bind, Props.C10_mul hn hn, ok_bind, show rdiag (n + 0) n σ = _ from rdiag_sq σ, pure_eq_ok]
    congr 3
    ext i j
    rw [mul_diagonal]
    simp only [dirU, of_apply]
    rw [dif_pos (show j.1 < n from j.2), div_eq_mul_inv]
  · have hu : usub (n + d) n = .ok d := by rw [usub_ok (by omega), Nat.add_sub_cancel_left]
    rw [if_neg (by simp; omega)]
    simp only [ok_bind, hu, ofM_cols _ hn, ofM_rows, Props.C05_zero, Props.C15_cb hn hd, (Props.C15_cr _ _).1, pure_eq_ok]
    rw [Props.C10_mul (by omega) hn, ok_bind, Props.C10_mul (by omega) hn, ok_bind]
    congr 3
    · ext i j
      simp only [dirU, of_apply, mul_apply]
      induction j using Fin.addCases with
      | left j =>
        simp only [Fin.append_left, Fin.val_castAdd, j.2, dif_pos]
        rw [Finset.sum_eq_single j]
        · rw [diagonal_apply_eq, div_eq_mul_inv]
        · intro b _ hb
          rw [diagonal_apply_ne _ hb, mul_zero]
        · simp
      | right j =>
        simp
    · ext i j
      simp only [rdiag, of_apply]
      induction i using Fin.addCases with
      | left i =>
        erw [Fin.append_left]
        simp only [Fin.val_castAdd, diagonal_apply, Fin.ext_iff]
      | right i =>
        have := j.2
        erw [Fin.append_right]
        rw [Fin.val_natAdd, if_neg (by omega)]
        rfl

theorem dirU_eq {m n : Nat} (hnm : n ≤ m) (A : Matrix (Fin m) (Fin n) ℝ) {V : Matrix (Fin n) (Fin n) ℝ} (hV : Orth V)
    {σ : Nat → ℝ} (h : ∀ i, i < n → σ i ≠ 0) : dirU A V σ * rdiag m n σ * Vᵀ = A := by
  have : dirU A V σ * rdiag m n σ = A * V := by
    ext i j
    rw [mul_apply, Finset.sum_eq_single (⟨j, by omega⟩ : Fin m)]
    · simp only [dirU, rdiag, of_apply, if_true, j.2, dif_pos]
      exact div_mul_cancel₀ _ (h j j.2)
    · intro b _ hb
      simp only [rdiag, of_apply]
      rw [if_neg (fun e => hb (Fin.ext e)), mul_zero]
    · simp
  rw [this, Matrix.mul_assoc, hV.right, Matrix.mul_one]

theorem symGood_entry {n : Nat} {B V : Matrix (Fin n) (Fin n) ℝ} {δ : Nat → ℝ} (h : Eigen.SymGood B V δ) (i j : Fin n) :
    |(Vᵀ * B * V - Matrix.diagonal fun i : Fin n => δ i) i j| ≤ n * (9 * Eigen.eps * frob B) := by
  refine le_trans (abs_le_frob _ i j) (le_trans (le_of_eq ?_) h.close)
  have hVt : Orth Vᵀ := by unfold Orth; rw [transpose_transpose]; exact h.orth.right
  have e : Vᵀ * B * V - Matrix.diagonal (fun i : Fin n => δ i) =
      Vᵀ * (B - V * Matrix.diagonal (fun i : Fin n => δ i) * Vᵀ) * (Vᵀ)ᵀ := by
    rw [Matrix.mul_sub, Matrix.sub_mul, transpose_transpose, Matrix.mul_assoc V, ← Matrix.mul_assoc Vᵀ V, h.orth,
      Matrix.one_mul, Matrix.mul_assoc _ Vᵀ V, h.orth, Matrix.mul_one]
  rw [e, frob_mul_right _ hVt, frob_mul_left _ hVt]

end SVD
end LA
