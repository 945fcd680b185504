import Verif.Proofs.SVDGen
import Verif.Proofs.SVDIter
import Verif.Props.Construction

/-! # `SVD::new` as a whole -/

set_option linter.unusedSectionVars false

namespace LA
open Finset Matrix
namespace SVD

/-- What `SVD::new` delivers for `m ≥ n`. -/
structure Good (m n : Nat) (A : Matrix (Fin m) (Fin n) ℝ) (U : Matrix (Fin m) (Fin m) ℝ) (V : Matrix (Fin n) (Fin n) ℝ) (s : Nat → ℝ) :
    Prop where
  u : Orth U
  v : Orth V
  sorted : ∀ i j, i ≤ j → j < min m n → s j ≤ s i
  pos : ∀ i, i < min m n → 0 ≤ s i
  close : frob (U * Matrix.of (fun (i : Fin m) (j : Fin n) => if i.1 = j.1 then s i else 0) * Vᵀ - A) ≤
    ((min m n - 1 : Nat) : ℝ) * delta A

theorem init_MI {m n : Nat} (hn : 0 < n) (hnm : n ≤ m) (A : Matrix (Fin m) (Fin n) ℝ) :
    ∃ b u v s e U V, bidiag m n (min (m - 1) n) (n - 2) n (ofM A).data = .ok b ∧ genU m (min (m - 1) n) b.s b.u = .ok u ∧
      genV n (n - 2) b.e b.v = .ok v ∧ MI m n A n ⟨b.s, b.e, u, v⟩ s e U V A := by
  obtain ⟨b, hb, s, e, U, V, hD⟩ := bidiag_post hn hnm A
  obtain ⟨u, hu, ZU, hZU, hU⟩ := genU_post hD (by omega) (by omega)
  obtain ⟨v, hv, ZV, hZV, hV⟩ := genV_post hD (fun k hk => by omega)
  refine ⟨b, u, v, s, e, ZU, ZV, hb, hu, hv, ⟨hD.bs, hD.be, hZU, hZV⟩, ⟨?_, ?_, ?_⟩, hD.ez, fun i j h1 h2 h3 => by omega,
    fun i h1 h2 => by omega, le_rfl, ?_⟩
  · rw [hU]; exact prodL_orth fun t ht => hhl_orth (hD.un t ht)
  · rw [hV]
    refine prodL_orth fun t _ => ?_
    unfold rref
    split
    · exact hhl_orth (hD.vn t ‹_›)
    · exact orth_one
  · rw [hU, hV]; exact hD.eq
  · have h0 : frob (A - A) = 0 := by simp [frob]
    rw [h0, zero_add]
    have := cnt_init hn (hD.ez (n - 1) (by omega))
    have h2 : (cnt n e : ℝ) ≤ ((n - 1 : Nat) : ℝ) := by exact_mod_cast this
    exact mul_le_mul_of_nonneg_right h2 (delta_nonneg A)

theorem newTall_post {m n : Nat} (hn : 0 < n) (hnm : n ≤ m) (A : Matrix (Fin m) (Fin n) ℝ) :
    PostE (fun fuel => newTall fuel (ofM A)) fun x => ∃ U V s, x =
      ⟨ofM U, ofM (Matrix.of fun (i : Fin m) (j : Fin n) => if i.1 = j.1 then s i else 0), ofM V⟩ ∧ Good m n A U V s := by
  obtain ⟨b, u, v, s, e, U, V, hb, hu, hv, hM⟩ := init_MI hn hnm A
  have e1 : (max 0 (min ((n : Int) - 2) (m : Int))).toNat = n - 2 := by omega
  have e2 : min n (m + 1) = n := by omega
  refine PostE.congr (PostE.bind (f := fun _ st => (do
      return ⟨← Mat.new m m (← freeze st.u), ← Mat.blockDiag m n (← freeze st.s), ← Mat.new n n (← freeze st.v)⟩ : R (SVD ℝ))) (iterate_post hnm hM le_rfl) ?_) ?_
  rotate_left
  · intro fuel
    unfold newTall
    rw [ofM_cols A (by omega), ok_bind, ofM_rows, assert_lt hnm, ok_bind, usub_ok (by omega), ok_bind]
    dsimp only
    rw [e1, e2, hb, ok_bind, hu, ok_bind, hv, ok_bind, usub_ok (by omega), ok_bind]
  · rintro st ⟨s', e', U', V', X, hM'⟩
    refine Post.toE ?_
    have fu := hM'.view.u.freeze (pk m m U') (fun i j => rfl)
    have fv := hM'.view.v.freeze (pk n n V') (fun i j => rfl)
    have fs := Vect.freeze hM'.view.s s' (fun i _ => rfl)
    have hlen : (List.ofFn fun i : Fin n => s' i).length = min m n := by simp; omega
    have hbd := Props.C05_blockDiag (m := m) (n := n) (by omega) hn _ hlen
    rw [fu, ok_bind, Props.C01_new_ofM (by omega) (by omega), ok_bind, fs, ok_bind, hbd, ok_bind, fv, ok_bind,
      Props.C01_new_ofM hn hn, ok_bind]
    refine Post.ok ⟨pk m m U', pk n n V', s', ?_, hM'.fac.u, hM'.fac.v, ?_, ?_, ?_⟩
    · have : (Matrix.of fun (i : Fin m) (j : Fin n) => if hij : i.1 = j.1 then
          (List.ofFn fun i : Fin n => s' i)[i.1]'(by rw [hlen]; omega) else 0) =
          Matrix.of fun (i : Fin m) (j : Fin n) => if i.1 = j.1 then s' i else 0 := by
        ext i j
        simp only [of_apply]
        by_cases e : i.1 = j.1
        · rw [dif_pos e, if_pos e]; simp
        · rw [dif_neg e, if_neg e]
      rw [this]
    · intro i j h1 h2
      exact hM'.sorted i j (Nat.zero_le _) h1 (by omega)
    · intro i h1
      exact hM'.pos i (Nat.zero_le _) (by omega)
    · have h1 : (Matrix.of fun (i : Fin m) (j : Fin n) => if i.1 = j.1 then s' i else 0) = pk m n (bid s' e') := by
        ext i j
        show (if i.1 = j.1 then s' i else 0) = bid s' e' i j
        unfold bid
        rw [hM'.ez i (Nat.zero_le _), ite_self]
        simp only [eq_comm]
      rw [h1, ← hM'.fac.eq, show min m n = n by omega]
      have h2 := hM'.near.2
      have h3 : 0 ≤ (cnt n e' : ℝ) * delta A := mul_nonneg (Nat.cast_nonneg _) (delta_nonneg A)
      linarith

theorem new_post {m n : Nat} (hm : 0 < m) (hn : 0 < n) (A : Matrix (Fin m) (Fin n) ℝ) :
    PostE (fun fuel => SVD.new fuel (ofM A)) fun x => ∃ U V s, x =
      ⟨ofM U, ofM (Matrix.of fun (i : Fin m) (j : Fin n) => if i.1 = j.1 then s i else 0), ofM V⟩ ∧ Good m n A U V s := by
  by_cases h : m < n
  · refine PostE.congr (PostE.bind (f := fun _ svd => (do return ⟨svd.v, ← svd.s.t, svd.u⟩ : R (SVD ℝ)))
      (newTall_post hm h.le Aᵀ) ?_) ?_
    rotate_left
    · intro fuel
      unfold SVD.new
      rw [ofM_cols A hm, ok_bind, ofM_rows, if_pos h, Props.C12_transpose hm, ok_bind]
    · rintro x ⟨U, V, s, rfl, hG⟩
      refine Post.toE ?_
      dsimp only
      rw [Props.C12_transpose hn, ok_bind]
      have hT : (Matrix.of fun (i : Fin n) (j : Fin m) => if i.1 = j.1 then s i else 0)ᵀ =
          Matrix.of fun (i : Fin m) (j : Fin n) => if i.1 = j.1 then s i else 0 := by
        ext i j
        simp only [transpose_apply, of_apply]
        by_cases e : j.1 = i.1
        · rw [if_pos e, if_pos e.symm, e]
        · rw [if_neg e, if_neg (Ne.symm e)]
      refine Post.ok ⟨V, U, s, by rw [hT], hG.v, hG.u, ?_, ?_, ?_⟩
      · rw [Nat.min_comm]; exact hG.sorted
      · rw [Nat.min_comm]; exact hG.pos
      · have h2 := hG.close
        have h3 : delta Aᵀ = delta A := by unfold delta; rw [frob_transpose]
        rw [Nat.min_comm, ← h3, ← frob_transpose]
        rw [transpose_sub, transpose_mul, transpose_mul, transpose_transpose, ← hT, transpose_transpose, ← Matrix.mul_assoc]
        exact h2
  · refine (newTall_post hn (by omega) A).congr fun fuel => ?_
    unfold SVD.new
    rw [ofM_cols A hm, ok_bind, ofM_rows, if_neg h]

/-- A result found with some budget. -/
theorem new_ok {m n : Nat} (hm : 0 < m) (hn : 0 < n) (A : Matrix (Fin m) (Fin n) ℝ) {fuel : Nat} {x : SVD ℝ}
    (hx : SVD.new fuel (ofM A) = .ok x) : ∃ U V s, x =
      ⟨ofM U, ofM (Matrix.of fun (i : Fin m) (j : Fin n) => if i.1 = j.1 then s i else 0), ofM V⟩ ∧ Good m n A U V s := by
  obtain ⟨N, r, h1, h2⟩ := new_post hm hn A
  rcases h2 fuel with h | ⟨-, h⟩
  · dsimp only at h
    rw [h] at hx
    cases hx
    exact h1
  · dsimp only at h
    rw [h] at hx
    exact nomatch hx

end SVD
end LA
