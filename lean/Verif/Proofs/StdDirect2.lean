import Verif.Proofs.StdDirect
import Verif.Proofs.StdEigNew
import Verif.Proofs.Direct
import Verif.Props.Elementwise

/-! # `SVD::direct` in rounded arithmetic -/

set_option linter.unusedSectionVars false

namespace LA
open Finset Matrix
namespace Std
open Sfp SVD

variable {α : Type} [Zero α] [One α] [Add α] [Sub α] [Neg α] [Mul α] [FloatOps α] [Sfp α]

/-- The matrix product as the code computes it. -/
def fmul {m n p : Nat} (A : Matrix (Fin m) (Fin n) α) (B : Matrix (Fin n) (Fin p) α) : Matrix (Fin m) (Fin p) α :=
  Matrix.of fun i j => (List.finRange n).foldl (fun s k => s + A i k * B k j) 0

theorem fmul_wt {m n p : Nat} (A : Matrix (Fin m) (Fin n) α) (B : Matrix (Fin n) (Fin p) α) (i : Fin m) (j : Fin p) :
    ∃ ρ : Fin n → ℝ, (∀ k, Wt (w α) (n + 1) (ρ k)) ∧ val (fmul A B i j) = ∑ k, ρ k * (val (A i k) * val (B k j)) := by
  have e : fmul A B i j = facc (· + ·) 0 (fun t => ext A i t * ext B t j) n := by
    unfold fmul
    rw [of_apply, ← foldl_facc]
    congr 1
    funext s k
    rw [ext_fin, ext_fin]
  obtain ⟨ρ, h1, h2⟩ := facc_wt (K := 1) (p := fun t => ext A i t * ext B t j) (a := fun t => val (ext A i t) * val (ext B t j)) n
    fun t _ => mul_rt _ _
  refine ⟨fun k => ρ k, fun k => by rw [add_comm n 1]; exact h1 k, ?_⟩
  rw [e, h2, ← Fin.sum_univ_eq_sum_range (fun t => ρ t * (val (ext A i t) * val (ext B t j)))]
  refine Finset.sum_congr rfl fun k _ => ?_
  rw [ext_fin, ext_fin]

/-- If products commute, the computed `AᵀA` is symmetric. -/
theorem gram_symm {m n : Nat} (hc : ∀ x y : α, x * y = y * x) (A : Matrix (Fin m) (Fin n) α) : (vm (fmul Aᵀ A)).IsSymm := by
  ext i j
  show val (fmul Aᵀ A j i) = val (fmul Aᵀ A i j)
  congr 1
  unfold fmul
  simp only [of_apply, transpose_apply]
  congr 1
  funext s k
  rw [hc]

theorem directTall_run {m n : Nat} (hc : ∀ x y : α, x * y = y * x) (hm : 0 < m) (hn : 0 < n) (hq : kq α ≤ 1 / 40)
    (A : Matrix (Fin m) (Fin n) α) (fuel : Nat) :
    directTall fuel (ofM A) = .error .fuel ∨ ∃ (V : Matrix (Fin n) (Fin n) α) (δ : Nat → α),
      SymGood (kae α n) (n * (fuel * (n + 1) + 4)) (vm (fmul Aᵀ A)) (vm V) (fun i => val (δ i)) ∧
      directTall fuel (ofM A) = tail (ofM A) (ofM V) (List.ofFn fun i : Fin n => δ i) := by
  unfold directTall
  rw [Props.C12_transpose hm, ok_bind, Props.C10_mul_general hn hm, ok_bind]
  rcases new_symm hn (gram_symm hc A) hq fuel with h | ⟨x, h, V, δ, ε, rfl, -, hG⟩
  · left
    have h' : Eigen.new fuel (ofM (Matrix.of fun i j => (List.finRange m).foldl (fun s k => s + Aᵀ i k * A k j) 0)) = .error .fuel := h
    rw [h']; rfl
  · right
    refine ⟨V, δ, hG, ?_⟩
    have h' : Eigen.new fuel (ofM (Matrix.of fun i j => (List.finRange m).foldl (fun s k => s + Aᵀ i k * A k j) 0)) = _ := h
    rw [h', ok_bind]; rfl

/-- The square root, where it exists. -/
def sq (x : α) : α := match FloatOps.sqrt x with
  | .ok z => z
  | .error _ => 0

theorem sq_ok {x : α} (h : 0 ≤ val x) : FloatOps.sqrt x = .ok (sq x) ∧ Rt (w α) 1 (val (sq x)) (Real.sqrt (val x)) := by
  obtain ⟨z, hz, hr⟩ := sqrt_rt h
  unfold sq
  rw [hz]
  exact ⟨rfl, hr⟩

theorem mapM_sq {l : List α} (h : ∀ x ∈ l, 0 ≤ val x) : l.mapM (FloatOps.sqrt : α → R α) = .ok (l.map sq) := by
  induction l with
  | nil => rfl
  | cons x l ih =>
    rw [List.mapM_cons, (sq_ok (h x (by simp))).1, ok_bind, ih fun y hy => h y (by simp [hy])]
    rfl

theorem mapM_sq_nonneg (hs : ∀ x z : α, FloatOps.sqrt x = .ok z → 0 ≤ val x) {l r : List α} (h : l.mapM (FloatOps.sqrt : α → R α) = .ok r) :
    ∀ x ∈ l, 0 ≤ val x := by
  induction l generalizing r with
  | nil => simp
  | cons x l ih =>
    rw [List.mapM_cons, bind_eq_ok] at h
    obtain ⟨z, hz, h⟩ := h
    rw [bind_eq_ok] at h
    obtain ⟨r', hr', -⟩ := h
    intro y hy
    rcases List.mem_cons.1 hy with rfl | hy
    · exact hs _ _ hz
    · exact ih hr' y hy

theorem blockDiag_ofFn {n : Nat} (hn : 0 < n) (s : Nat → α) : Mat.blockDiag n n (List.ofFn fun i : Fin n => s i) =
    .ok (ofM (Matrix.diagonal fun i : Fin n => s i)) := by
  rw [Props.C05_blockDiag hn hn _ (by simp)]
  congr 2
  ext i j
  simp only [of_apply, diagonal_apply, Fin.ext_iff]
  split <;> simp

theorem tail_nonneg (hs : ∀ x z : α, FloatOps.sqrt x = .ok z → 0 ≤ val x) {a v : Mat α} {n : Nat} {δ : Nat → α} {x : SVD α}
    (h : tail a v (List.ofFn fun i : Fin n => δ i) = .ok x) : ∀ i, i < n → 0 ≤ val (δ i) := by
  unfold tail at h
  rw [bind_eq_ok] at h
  obtain ⟨r, hr, -⟩ := h
  intro i hi
  exact mapM_sq_nonneg hs hr _ ((List.mem_ofFn' (fun i : Fin n => δ i) _).2 ⟨⟨i, hi⟩, rfl⟩)

theorem map_sq_ofFn {n : Nat} (δ : Nat → α) : (List.ofFn fun i : Fin n => δ i).map sq = List.ofFn fun i : Fin n => (fun i => sq (δ i)) i := by
  rw [List.map_ofFn]; rfl

theorem tail_zero {a v : Mat α} {n : Nat} {δ : Nat → α} (hn : 0 < n) (h : ∀ i, i < n → 0 ≤ val (δ i)) (h0 : ∃ i, i < n ∧ val (δ i) = 0) :
    tail a v (List.ofFn fun i : Fin n => δ i) = .error .unwrap := by
  unfold tail
  rw [mapM_sq (fun x hx => by
    obtain ⟨i, rfl⟩ := (List.mem_ofFn' (fun i : Fin n => δ i) _).1 hx
    exact h i i.2), ok_bind, map_sq_ofFn]
  simp only [List.length_ofFn]
  rw [blockDiag_ofFn hn (fun i => sq (δ i)), ok_bind, inverse_diag_none hn (fun i => sq (δ i))]
  · rfl
  · obtain ⟨i, hi, h1⟩ := h0
    exact ⟨i, hi, Rt_zero (sq_ok (h i hi)).2 (by rw [h1, Real.sqrt_zero])⟩

/-- The rectangular diagonal matrix. -/
def rdg (m n : Nat) (s : Nat → α) : Matrix (Fin m) (Fin n) α := Matrix.of fun i j => if i.1 = j.1 then s i else 0

theorem pad_ok {m n : Nat} (hn : 0 < n) (hnm : n ≤ m) (A : Matrix (Fin m) (Fin n) α) (s : Nat → α) (X : Matrix (Fin n) (Fin n) α) :
    ∃ X' : Matrix (Fin n) (Fin m) α, pad (ofM A) (ofM (Matrix.diagonal fun i : Fin n => s i)) (ofM X) = .ok (ofM (rdg m n s), ofM X') ∧
      (∀ (i : Fin n) (j : Fin m) (h : j.1 < n), X' i j = X i ⟨j, h⟩) ∧ ∀ (i : Fin n) (j : Fin m), n ≤ j.1 → X' i j = 0 := by
  unfold pad
  rw [ofM_cols A (by omega), ok_bind, ofM_rows]
  obtain ⟨d, rfl⟩ : ∃ d, m = n + d := ⟨m - n, by omega⟩
  rcases Nat.eq_zero_or_pos d with rfl | hd
  · rw [if_pos (by simp), pure_eq_ok]
    have e : rdg (n + 0) n s = Matrix.diagonal fun i : Fin n => s i := by
      ext i j
      simp only [rdg, of_apply, diagonal_apply, Fin.ext_iff]
    rw [e]
    exact ⟨X, rfl, fun i j h => rfl, fun i j h => absurd j.2 (by omega)⟩
  · have hu : usub (n + d) n = .ok d := by rw [usub_ok (by omega), Nat.add_sub_cancel_left]
    rw [if_neg (by simp; omega)]
    simp only [ok_bind, hu, ofM_cols _ hn, ofM_rows, Props.C05_zero, Props.C15_cb hn hd, (Props.C15_cr _ _).1, pure_eq_ok]
    refine ⟨Matrix.of fun i => Fin.append (X i) ((0 : Matrix (Fin n) (Fin d) α) i), ?_, ?_, ?_⟩
    · congr 2
      congr 1
      ext i j
      simp only [rdg, of_apply]
      induction i using Fin.addCases with
      | left i =>
        erw [Fin.append_left]
        simp only [Fin.val_castAdd, diagonal_apply, Fin.ext_iff]
      | right i =>
        erw [Fin.append_right]
        simp only [Fin.val_natAdd]
        rw [if_neg (by omega)]
        rfl
    · intro i j h
      exact Fin.append_left (X i) ((0 : Matrix (Fin n) (Fin d) α) i) ⟨j.1, h⟩
    · intro i j h
      have : j = Fin.natAdd n ⟨j.1 - n, by omega⟩ := Fin.ext (by simp; omega)
      rw [of_apply, this, Fin.append_right]; rfl

/-- What `SVD::direct` computes from the eigenvalues and eigenvectors, if the eigenvalues are positive. -/
theorem tail_pos {m n : Nat} (hn : 0 < n) (hnm : n ≤ m) (A : Matrix (Fin m) (Fin n) α) (V : Matrix (Fin n) (Fin n) α)
    {δ : Nat → α} (h : ∀ i, i < n → 0 < val (δ i)) :
    ∃ U : Matrix (Fin m) (Fin m) α,
      tail (ofM A) (ofM V) (List.ofFn fun i : Fin n => δ i) = .ok ⟨ofM U, ofM (rdg m n fun i => sq (δ i)), ofM V⟩ ∧
      (∀ i j : Fin m, n ≤ j.1 → val (U i j) = 0) ∧
      ∀ (i j : Fin m) (hj : j.1 < n), ∃ ρ : Fin n → ℝ, (∀ k, Wt (w α) (3 * n + 3) (ρ k)) ∧
        val (U i j) * val (sq (δ j)) = ∑ k, ρ k * (val (A i k) * val (V k ⟨j, hj⟩)) := by
  have hm : 0 < m := by omega
  obtain ⟨s, hs⟩ : ∃ s : Nat → α, s = fun i => sq (δ i) := ⟨_, rfl⟩
  have hs0 : ∀ i, i < n → val (s i) ≠ 0 := fun i hi => by
    rw [hs]
    exact (sq_ok (h i hi).le).2.ne w_one (Real.sqrt_pos.2 (h i hi)).ne'
  obtain ⟨X, e1, x1, x2⟩ := inverse_diag hn s hs0
  obtain ⟨X', e2, y1, y2⟩ := pad_ok hn hnm A s X
  refine ⟨fmul (fmul A V) X', ?_, fun i j hj => ?_, fun i j hj => ?_⟩
  · unfold tail
    rw [mapM_sq (fun x hx => by
      obtain ⟨i, rfl⟩ := (List.mem_ofFn' (fun i : Fin n => δ i) _).1 hx
      exact (h i i.2).le), ok_bind, map_sq_ofFn, ← hs]
    simp only [List.length_ofFn]
    rw [blockDiag_ofFn hn, ok_bind, e1, ok_bind]
    show (pad _ _ _ >>= _) = _
    rw [e2, ok_bind]
    dsimp only
    rw [Props.C10_mul_general hm hn, ok_bind]
    erw [Props.C10_mul_general hm hn]
    rfl
  · obtain ⟨ρ, -, e⟩ := fmul_wt (fmul A V) X' i j
    rw [e]
    refine Finset.sum_eq_zero fun k _ => ?_
    rw [y2 k j hj, Sfp.zero, mul_zero, mul_zero]
  · obtain ⟨ρ, h1, e⟩ := fmul_wt (fmul A V) X' i j
    rw [Finset.sum_eq_single (⟨j, hj⟩ : Fin n) (fun b _ hb => by
      rw [y1 b j hj, x1 b _ hb, mul_zero, mul_zero]) (by simp), y1 _ j hj] at e
    obtain ⟨σ, h2, e'⟩ := x2 ⟨j, hj⟩
    obtain ⟨τ, h3, e''⟩ := fmul_wt A V i ⟨j, hj⟩
    refine ⟨fun k => ρ ⟨j, hj⟩ * σ * τ k, fun k => ?_, ?_⟩
    · exact (((h1 _).mul w_one h2).mul w_one (h3 k)).mono w_one (by omega)
    · show val (fmul (fmul A V) X' i j) * val (sq (δ j)) = _
      have hne := hs0 j hj
      rw [hs] at hne e'
      dsimp only at hne e'
      rw [e, e', e'', mul_comm, Finset.sum_mul, Finset.mul_sum, Finset.mul_sum]
      refine Finset.sum_congr rfl fun k _ => ?_
      field_simp

end Std
end LA
