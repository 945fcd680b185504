import Verif.Proofs.StdGen
import Verif.Props.Construction

/-! # `SVD::new` as a whole in rounded arithmetic -/

set_option linter.unusedSectionVars false

namespace LA
open Finset Matrix
namespace Std
open Sfp SVD

variable {α : Type} [Zero α] [One α] [Add α] [Sub α] [Neg α] [Mul α] [FloatOps α] [Sfp α]

/-- The error of one transformation, relative to the norm, for matrices with at most `N` rows and columns. -/
noncomputable def kap (α : Type) [Zero α] [One α] [Add α] [Sub α] [Neg α] [Mul α] [FloatOps α] [Sfp α] (N : Nat) : ℝ :=
  3 * kr α N + w α ^ 4 / 2 ^ 51

theorem w4_nonneg : 0 ≤ w α ^ 4 / 2 ^ 51 := div_nonneg (pw_pos w_one 4).le (by positivity)

theorem kap_ok (N : Nat) : Kap α (kap α N) := by
  have h1 : k0 α ≤ kr α N := pw_kr (by omega)
  have h2 := k0_nonneg (α := α)
  have h3 := w4_nonneg (α := α)
  constructor
  · unfold kap; linarith
  · unfold kap; linarith

theorem kap_kr (N : Nat) : 3 * kr α N ≤ kap α N := by
  have h3 := w4_nonneg (α := α)
  unfold kap; linarith

/-- What `SVD::new` delivers. -/
structure Good (m n : Nat) (κ : ℝ) (r : Nat) (A : Matrix (Fin m) (Fin n) ℝ) (U : Matrix (Fin m) (Fin m) ℝ) (V : Matrix (Fin n) (Fin n) ℝ)
    (s : Nat → ℝ) : Prop where
  sorted : ∀ i j, i ≤ j → j < min m n → s j ≤ s i
  pos : ∀ i, i < min m n → 0 ≤ s i
  near : ∃ P Q, Orth P ∧ Orth Q ∧ frob (U - P) ≤ ((1 + κ) ^ r - 1) * Real.sqrt m ∧ frob (V - Q) ≤ ((1 + κ) ^ r - 1) * Real.sqrt n ∧
    frob (A - P * Matrix.of (fun (i : Fin m) (j : Fin n) => if i.1 = j.1 then s i else 0) * Qᵀ) ≤ ((1 + κ) ^ r - 1) * (frob A + tau)

theorem init_MI {m n : Nat} (hn : 0 < n) (hnm : n ≤ m) (A : Matrix (Fin m) (Fin n) α) :
    ∃ b u v s e U V, bidiag m n (min (m - 1) n) (n - 2) n (ofM A).data = .ok b ∧ genU m (min (m - 1) n) b.s b.u = .ok u ∧
      genV n (n - 2) b.e b.v = .ok v ∧ MI m n (kap α m) (vm A) (2 * n) n ⟨b.s, b.e, u, v⟩ s e U V := by
  have hκ0 := (kap_ok (α := α) m).nonneg
  obtain ⟨b, hb, s, e, U, V, ta, tb, hD⟩ := bidiag_post hn hnm A (kap_kr m) (le_add_of_nonneg_right tau_nonneg)
  obtain ⟨u, hu, ZU, hZU, hU⟩ := genU_post (kap_kr m) hD (by omega) (by omega)
  obtain ⟨v, hv, ZV, hZV, hV⟩ := genV_post (kap_kr m) hD hnm (fun k hk => by omega)
  refine ⟨b, u, v, s, e, ZU, ZV, hb, hu, hv, ⟨hD.bs, hD.be, hZU, hZV⟩, ⟨_, _, ?_, ?_, hU.trans (pw_mono hκ0 (by omega)),
    hV.trans (pw_mono hκ0 (by omega)), hD.err.trans ?_⟩, hD.ez, fun i j h1 h2 h3 => by omega, fun i h1 h2 => by omega⟩
  · exact prodL_orth fun t ht => hhl_orth (hD.u t ht).norm
  · refine prodL_orth fun t _ => ?_
    unfold rref
    split
    · exact hhl_orth (hD.v t ‹_›).norm
    · exact orth_one
  · exact mul_le_mul_of_nonneg_right (sub_le_sub_right (pow_le_pow_right₀ (by linarith) (by omega)) 1)
      (add_nonneg (frob_nonneg _) tau_nonneg)

theorem newTall_post {m n : Nat} (hn : 0 < n) (hnm : n ≤ m) (A : Matrix (Fin m) (Fin n) α) (fuel : Nat) :
    newTall fuel (ofM A) = .error .fuel ∨ ∃ (U : Matrix (Fin m) (Fin m) α) (V : Matrix (Fin n) (Fin n) α) (s : Nat → α), newTall fuel (ofM A) =
      .ok ⟨ofM U, ofM (Matrix.of fun (i : Fin m) (j : Fin n) => if i.1 = j.1 then s i else 0), ofM V⟩ ∧
      Good m n (kap α m) (2 * n * (fuel + 1)) (vm A) (vm U) (vm V) (fun i => val (s i)) := by
  obtain ⟨b, u, v, s, e, U, V, hb, hu, hv, hM⟩ := init_MI hn hnm A
  have e1 : (max 0 (min ((n : Int) - 2) (m : Int))).toNat = n - 2 := by omega
  have e2 : min n (m + 1) = n := by omega
  have hdef : newTall fuel (ofM A) = (do
      let st ← iterate m n (n - 1) fuel n ⟨b.s, b.e, u, v⟩
      return ⟨← Mat.new m m (← freeze st.u), ← Mat.blockDiag m n (← freeze st.s), ← Mat.new n n (← freeze st.v)⟩ : R (SVD α)) := by
    unfold newTall
    rw [ofM_cols A (by omega), ok_bind, ofM_rows, assert_lt hnm, ok_bind, usub_ok (by omega), ok_bind]
    dsimp only
    rw [e1, e2, hb, ok_bind, hu, ok_bind, hv, ok_bind, usub_ok (by omega), ok_bind]
  rw [hdef]
  rcases iterate_post (kap_ok m) hnm fuel (2 * n) n hM le_rfl with h | ⟨st, hst, s', e', U', V', hM'⟩
  · left; rw [h]; rfl
  · right
    rw [hst, ok_bind]
    have fu := Grid.freeze hM'.view.u ((Matrix.of fun (i j : Fin m) => U' i j)) (fun i j => rfl)
    have fv := Grid.freeze hM'.view.v ((Matrix.of fun (i j : Fin n) => V' i j)) (fun i j => rfl)
    have fs := Vect.freeze hM'.view.s s' (fun i _ => rfl)
    have hlen : (List.ofFn fun i : Fin n => s' i).length = min m n := by simp; omega
    have hbd := Props.C05_blockDiag (m := m) (n := n) (by omega) hn _ hlen
    rw [fu, ok_bind, Props.C01_new_ofM (by omega) (by omega), ok_bind, fs, ok_bind, hbd, ok_bind, fv, ok_bind,
      Props.C01_new_ofM hn hn, ok_bind]
    refine ⟨(Matrix.of fun (i j : Fin m) => U' i j), (Matrix.of fun (i j : Fin n) => V' i j), s', ?_, ?_, ?_, ?_⟩
    · have : (Matrix.of fun (i : Fin m) (j : Fin n) => if hij : i.1 = j.1 then
          (List.ofFn fun i : Fin n => s' i)[i.1]'(by rw [hlen]; omega) else 0) =
          Matrix.of fun (i : Fin m) (j : Fin n) => if i.1 = j.1 then s' i else 0 := by
        ext i j
        simp only [of_apply]
        by_cases e : i.1 = j.1
        · rw [dif_pos e, if_pos e]; simp
        · rw [dif_neg e, if_neg e]
      rw [this]; rfl
    · intro i j h1 h2
      exact hM'.sorted i j (Nat.zero_le _) h1 (by omega)
    · intro i h1
      exact hM'.pos i (Nat.zero_le _) (by omega)
    · obtain ⟨P, Q, h1, h2, h3, h4, h5⟩ := hM'.nf
      have hr : 2 * n + 2 * n * fuel = 2 * n * (fuel + 1) := by ring
      rw [hr] at h3 h4 h5
      refine ⟨P, Q, h1, h2, h3, h4, ?_⟩
      have e3 : (Matrix.of fun (i : Fin m) (j : Fin n) => if i.1 = j.1 then val (s' i) else 0) = pk m n (bid (vv s') (vv e')) := by
        ext i j
        show (if i.1 = j.1 then val (s' i) else 0) = bid (vv s') (vv e') i j
        unfold bid
        rw [show vv e' i = 0 from hM'.ez i (Nat.zero_le _), ite_self]
        simp only [eq_comm]
        rfl
      rw [e3]
      exact h5

theorem vm_transpose {m n : Nat} (A : Matrix (Fin m) (Fin n) α) : vm Aᵀ = (vm A)ᵀ := rfl

theorem new_post {m n : Nat} (hm : 0 < m) (hn : 0 < n) (A : Matrix (Fin m) (Fin n) α) (fuel : Nat) :
    SVD.new fuel (ofM A) = .error .fuel ∨ ∃ (U : Matrix (Fin m) (Fin m) α) (V : Matrix (Fin n) (Fin n) α) (s : Nat → α), SVD.new fuel (ofM A) =
      .ok ⟨ofM U, ofM (Matrix.of fun (i : Fin m) (j : Fin n) => if i.1 = j.1 then s i else 0), ofM V⟩ ∧
      Good m n (kap α (max m n)) (2 * min m n * (fuel + 1)) (vm A) (vm U) (vm V) (fun i => val (s i)) := by
  unfold SVD.new
  rw [ofM_cols A hm, ok_bind, ofM_rows]
  by_cases h : m < n
  · rw [if_pos h, Props.C12_transpose hm, ok_bind, Nat.max_eq_right h.le, Nat.min_eq_left h.le]
    rcases newTall_post hm h.le Aᵀ fuel with h1 | ⟨U, V, s, h1, hG⟩
    · left; rw [h1]; rfl
    · right
      rw [h1, ok_bind]
      dsimp only
      rw [Props.C12_transpose hn, ok_bind]
      have hT : ∀ {β : Type} [Zero β] (s : Nat → β), (Matrix.of fun (i : Fin n) (j : Fin m) => if i.1 = j.1 then s i else 0)ᵀ =
          Matrix.of fun (i : Fin m) (j : Fin n) => if i.1 = j.1 then s i else 0 := by
        intro β _ s
        ext i j
        simp only [transpose_apply, of_apply]
        by_cases e : j.1 = i.1
        · rw [if_pos e, if_pos e.symm, e]
        · rw [if_neg e, if_neg (Ne.symm e)]
      obtain ⟨P, Q, q1, q2, q3, q4, q5⟩ := hG.near
      refine ⟨V, U, s, by rw [hT]; rfl, ?_, ?_, Q, P, q2, q1, q4, q3, ?_⟩
      · rw [Nat.min_comm]; exact hG.sorted
      · rw [Nat.min_comm]; exact hG.pos
      · rw [vm_transpose, frob_transpose, ← frob_transpose, transpose_sub, transpose_mul, transpose_mul, transpose_transpose, transpose_transpose, hT (fun i => val (s i)),
          ← Matrix.mul_assoc] at q5
        exact q5
  · rw [if_neg h, Nat.max_eq_left (not_lt.1 h), Nat.min_eq_right (not_lt.1 h)]
    exact newTall_post hn (not_lt.1 h) A fuel

end Std
end LA
