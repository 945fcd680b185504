import Verif.Proofs.StdEigTred2
import Verif.Proofs.StdEigLoop
import Verif.Proofs.StdGen
import Verif.Proofs.EigNew
import Verif.Props.Construction

/-! # `EigenDecomposition::new` on symmetric matrices, as a whole, in rounded arithmetic -/

set_option linter.unusedSectionVars false

namespace LA
open Finset Matrix
namespace Std
open Sfp SVD
open Eigen (tred2 tql2 isSymm tri trid loopF_next)

variable {α : Type} [Zero α] [One α] [Add α] [Sub α] [Neg α] [Mul α] [FloatOps α] [Sfp α]

/-- The error of one transformation, relative to the norm, for matrices with `n` rows and columns. -/
noncomputable def kae (α : Type) [Zero α] [One α] [Add α] [Sub α] [Neg α] [Mul α] [FloatOps α] [Sfp α] (n : Nat) : ℝ :=
  10 * kt α n + 200 * kq α + 50 * (n * kq α) + 1 / 2 ^ 47

theorem kae_ok (n : Nat) (h : kq α ≤ 1 / 40) : Eap α n (kae α n) := by
  have h1 := kt_nonneg (α := α) n
  have h2 := kq_nonneg (α := α)
  have h3 : 0 ≤ n * kq α := mul_nonneg (Nat.cast_nonneg _) h2
  have h4 : (0 : ℝ) ≤ 1 / 2 ^ 47 := by positivity
  unfold kae
  exact ⟨h, by linarith, by linarith, by linarith⟩

theorem kae_kt (n : Nat) : 10 * kt α n ≤ kae α n := by
  have h2 := kq_nonneg (α := α)
  have h3 : 0 ≤ n * kq α := mul_nonneg (Nat.cast_nonneg _) h2
  have h4 : (0 : ℝ) ≤ 1 / 2 ^ 47 := by positivity
  unfold kae
  linarith

theorem isSymm_true {n : Nat} {A : Matrix (Fin n) (Fin n) α} (hA : (vm A).IsSymm) : isSymm n (ofM A) = .ok true := by
  unfold isSymm
  rw [loopF_next]
  · rfl
  intro j _ hj
  rw [loopF_next]
  · rfl
  intro i _ hi
  rw [ofM_get A hi hj, ok_bind, ofM_get A hj hi, ok_bind, if_pos]
  · rfl
  · exact (Sfp.eq _ _).2 (hA.apply ⟨j, hj⟩ ⟨i, hi⟩)

theorem fillV_post {n : Nat} (A : Matrix (Fin n) (Fin n) α) :
    Post (loop 0 n (alloc α (n * n)) fun i v => loop 0 n v fun j v => do LA.wr v (i * n + j) (← (ofM A).get i j)) fun v =>
      FullG v n n (ext A) := by
  refine (loop_rows (lo := 0) (hi := n) (fun a b => some (ext A a b)) (grid_alloc n n) ?_).mono fun r h =>
    h.congr fun a b ha _ => by rw [if_pos ⟨by omega, ha⟩]
  intro i d' G' _ hi hG _
  refine (loop_cols (lo := 0) (hi := n) (fun a b => if a = i then some (ext A a b) else G' a b) hG ?_).mono fun r h =>
    h.congr fun a b _ hb => by
      by_cases e : a = i
      · subst e; rw [if_pos ⟨by omega, hb⟩, if_pos rfl]
      · rw [if_pos ⟨by omega, hb⟩, if_neg e, if_neg e]
  intro j d2 G2 _ hj hG2 h2
  rw [ofM_get A hi hj, ok_bind]
  refine (hG2.wr hi hj _).mono fun r h => h.congr fun a b ha hb => ?_
  have h3 := h2 a b
  have h4 := ext_eq A hi hj
  clear h2
  by_cases e : b = j
  · subst e
    rw [if_pos rfl]
    by_cases e2 : a = i
    · subst e2; simp [h4]
    · rw [upd_ne (by omega), if_neg e2, h3 (by omega)]
  · rw [upd_ne (by omega), if_neg e]

/-- What `new` returns for a symmetric matrix. -/
structure SymGood {n : Nat} (κ : ℝ) (r : Nat) (A V : Matrix (Fin n) (Fin n) ℝ) (δ : Nat → ℝ) : Prop where
  ord : ∀ a b, a < b → b < n → δ b ≤ δ a
  near : ∃ Q, Orth Q ∧ frob (V - Q) ≤ ((1 + κ) ^ r - 1) * Real.sqrt n ∧
    frob (A - Q * Matrix.diagonal (fun i : Fin n => δ i) * Qᵀ) ≤ ((1 + κ) ^ r - 1) * frob A

theorem new_symm {n : Nat} (hn : 0 < n) {A : Matrix (Fin n) (Fin n) α} (hA : (vm A).IsSymm) (hq : kq α ≤ 1 / 40) (fuel : Nat) :
    PF (Eigen.new fuel (ofM A)) fun x => ∃ (V : Matrix (Fin n) (Fin n) α) (δ ε : Nat → α),
      x = ⟨n, List.ofFn fun i : Fin n => δ i, List.ofFn fun i : Fin n => ε i, ofM V⟩ ∧ (∀ i, i < n → val (ε i) = 0) ∧
      SymGood (kae α n) (n * (fuel * (n + 1) + 4)) (vm A) (vm V) (fun i => val (δ i)) := by
  unfold Eigen.new Eigen.newWith
  obtain ⟨v, hv, hg⟩ := fillV_post A
  obtain ⟨st, hst, δ, ε, V, h1, h2, h3, h5⟩ := tred2_post (st := (⟨alloc α n, alloc α n, v⟩ : Eigen.Dev α)) (kae_kt n) hn (by simp [alloc])
    (by simp [alloc]) hg
  have hsym : pk n n (Eigen.sym (tt (ext A))) = vm A := by
    ext a b
    show Eigen.sym (tt (ext A)) a b = val (A a b)
    unfold Eigen.sym tt
    split
    · rw [ext_fin A]
    · rw [ext_fin A]; exact hA.apply _ _
  rw [hsym] at h5
  simp only [ofM_cols A hn, ok_bind, isSymm_true hA, if_true, hv, hst]
  refine PF.bind (tql2_post (kae_ok n hq) hn h1 h2 h3 h5 fuel) ?_
  rintro st' ⟨δ', ε', V', k1, k2, k0, k3, k4, k5⟩
  refine Or.inr ?_
  rw [Vect.freeze k1 δ' (fun i _ => rfl), ok_bind, Vect.freeze k2 ε' (fun i _ => rfl), ok_bind,
    Grid.freeze k3 (Matrix.of fun (i j : Fin n) => V' i j) (fun i j => rfl), ok_bind, Props.C01_new_ofM hn hn, ok_bind]
  refine Post.ok ⟨(Matrix.of fun (i j : Fin n) => V' i j), δ', ε', rfl, k0, k5, ?_⟩
  have e : pk n n (tri (fun a => val (δ' a)) fun _ => 0) = Matrix.diagonal fun i : Fin n => val (δ' i) := by
    ext a b
    show tri (fun a => val (δ' a)) (fun _ => 0) a b = _
    unfold tri
    rw [Matrix.diagonal_apply]
    by_cases h : a = b
    · rw [if_pos (by rw [h]), if_pos h]
    · rw [if_neg (by simpa [Fin.ext_iff] using h), if_neg h]; simp
  obtain ⟨Q, q1, q2, q3⟩ := k4
  rw [show n + n * (fuel * (n + 1) + 3) = n * (fuel * (n + 1) + 4) by ring] at q2 q3
  rw [e] at q3
  exact ⟨Q, q1, q2, q3⟩

end Std
end LA
