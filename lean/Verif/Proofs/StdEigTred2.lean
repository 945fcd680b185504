import Verif.Proofs.StdEigAcc

/-! # `tred2` in rounded arithmetic -/

set_option linter.unusedSectionVars false

namespace LA
open Finset Matrix
namespace Std
open Sfp SVD
open Eigen (Dev tredScale tredSymv tredQ tredRank2 tredZero tredHouse tredStep tredApply tredAcc tred2 vhi tab Hm Wm trid)

variable {α : Type} [Zero α] [One α] [Add α] [Sub α] [Neg α] [Mul α] [FloatOps α] [Sfp α]

theorem tred2_post {n : Nat} {st : Dev α} {F0 : Nat → Nat → α} {κ : ℝ} (hκ : 10 * kt α n ≤ κ) (hn : 0 < n) (hd : st.d.length = n) (he : st.e.length = n)
    (hv : FullG st.v n n F0) :
    Post (tred2 n st) fun r => ∃ δ ε V, Full r.d n δ ∧ Full r.e n ε ∧ FullG r.v n n V ∧
      SF n κ (pk n n (Eigen.sym (tt F0))) n (tt V) (trid (vv δ) (vv ε)) := by
  unfold tred2
  have hu1 : usub n 1 = .ok (n - 1) := usub_ok (by omega)
  obtain ⟨d1, hr1, hd1⟩ := loop_part (lo := 0) (hi := n) (P := fun _ => False) (f := fun _ => 0)
    (body := fun j d => do wr d j (← rd st.v ((← usub n 1) * n + j))) (fun k => F0 (n - 1) k) (d := st.d)
    ⟨hd, fun _ _ h => h.elim⟩ (fun k d' _ hk _ => ⟨_, by rw [hu1, ok_bind, hv.rd (i := n - 1) (j := k) (by omega) hk, ok_bind], rfl⟩) le_rfl
  have hd1' : Full d1 n (fun k => F0 (n - 1) k) := (hd1.mono (Q := fun _ => True) (fun i hi _ =>
    ⟨Or.inr ⟨by omega, hi⟩, if_pos ⟨by omega, hi⟩⟩)).full fun _ _ => trivial
  rw [hr1, ok_bind]
  have hred := loopRev_post (lo := 1) (hi := n) (s := (⟨d1, st.e, st.v⟩ : Dev α)) (f := fun i st => tredStep n i st)
    (fun c st => ∃ F f ε U hs, RI n κ (pk n n (Eigen.sym (tt F0))) c st F f ε U hs) (by omega)
    ⟨F0, _, fun _ => 0, fun _ _ => 0, fun _ => 0, ⟨hv, hd1', ⟨he, fun i h1 h2 => by omega⟩, fun k _ => rfl, fun k h1 h2 => by omega,
      fun k h1 h2 => by omega, fun k h1 h2 => by omega, fun k h1 h2 => by omega, fun a b h1 h2 => by omega, by
        rw [Nat.sub_self, prodR, transpose_one, Matrix.one_mul, Matrix.mul_one]
        have e : pk n n (Eigen.sym (tt F0)) = pk n n (tab (n - 1) (tt F0) (vv fun _ => (0 : α))) := by
          ext a b
          show Eigen.sym (tt F0) a b = tab (n - 1) (tt F0) _ a b
          unfold tab
          rw [if_pos (by omega)]
        rw [← e, sub_self, Eigen.frob_zero]
        simp⟩⟩
    (fun i st h1 h2 ⟨F, f, ε, U, hs, hI⟩ => redStep hκ hI h1 h2)
  obtain ⟨st2, hr2, F, f, ε, U, hs, hI⟩ := hred
  rw [hr2, ok_bind, hu1, ok_bind]
  have hacc := loop_post (lo := 0) (hi := n - 1) (s := (st2.d, st2.v))
    (f := fun i (x : Buf α × Buf α) => (do let (d, v) := x; tredAcc n i d v : R (Buf α × Buf α)))
    (fun c r => (∃ f', Full r.1 n f' ∧ ∀ k, c < k → f' k = f k) ∧ FullG r.2 n n (accC n c F f)) (by omega)
    ⟨⟨f, hI.d, fun _ _ => rfl⟩, hI.v.congr fun a b _ _ => by
      simp only [accC]; rw [if_neg (by omega), if_neg (by omega), if_neg (by omega)]⟩ (by
    rintro i ⟨d, v⟩ - hi ⟨⟨f', h1, h2⟩, h3⟩
    exact tredAcc_post h1 h3 (by omega) (fun a b h4 h5 h6 => hI.zero a b h5 h4 h6) h2)
  obtain ⟨⟨d3, v3⟩, hr3, ⟨f3, hd3, -⟩, hg3⟩ := hacc
  dsimp only at hd3 hg3
  erw [hr3]
  rw [ok_bind]
  dsimp only
  have hlast := loop_post (lo := 0) (hi := n) (s := (d3, v3))
    (f := fun j (x : Buf α × Buf α) => (do
      let (d, v) := x
      let d ← wr d j (← rd v ((← (Except.ok (n - 1) : R Nat)) * n + j))
      let v ← wr v ((← (Except.ok (n - 1) : R Nat)) * n + j) 0
      return (d, v) : R (Buf α × Buf α)))
    (fun c r => Full r.1 n (fun k => if k < c then accC n (n - 1) F f (n - 1) k else f3 k) ∧
      FullG r.2 n n (fun a b => if a = n - 1 ∧ b < c then 0 else accC n (n - 1) F f a b)) (by omega)
    ⟨hd3.congr fun k _ => by rw [if_neg (by omega)], hg3.congr fun a b _ _ => by rw [if_neg (by omega)]⟩ (by
    rintro j ⟨d, v⟩ - hj ⟨h1, h2⟩
    dsimp only at h1 h2 ⊢
    obtain ⟨d4, hr4, hd4⟩ := h1.wr (i := j) hj (accC n (n - 1) F f (n - 1) j)
    obtain ⟨v4, hr5, hv4⟩ := h2.wr (i := n - 1) (j := j) (by omega) hj 0
    rw [ok_bind, h2.rd (i := n - 1) (j := j) (by omega) hj, ok_bind, if_neg (by omega), hr4, ok_bind, ok_bind, hr5, ok_bind]
    refine Post.ok ⟨hd4.congr fun k _ => ?_, hv4.congr fun a b _ _ => ?_⟩
    · simp only [updv]; grind
    · simp only [upd]; grind)
  obtain ⟨⟨d4, v4⟩, hr4, hd4, hg4⟩ := hlast
  dsimp only at hd4 hg4
  erw [hr4]
  rw [ok_bind]
  dsimp only
  obtain ⟨v5, hr5, hg5⟩ := hg4.wr (i := n - 1) (j := n - 1) (by omega) (by omega) 1
  obtain ⟨e5, hr6, he5⟩ := hI.e.wr (i := 0) hn 0
  rw [ok_bind, ok_bind, hr5, ok_bind, hr6, ok_bind]
  have hWt : ∀ a b, a < n → b < n → (upd (fun a b => if a = n - 1 ∧ b < n then 0 else accC n (n - 1) F f a b) (n - 1) (n - 1) 1) a b =
      Wc F f (n - 1) a b := by
    intro a b ha hb
    simp only [upd, accC]
    by_cases h1 : a = n - 1 ∨ b = n - 1
    · rw [Wc_out F f (n - 1) (by omega)]
      clear hd hv he hd1 hd1' hd3 hg3 hd4 hg4 hg5 he5 hI
      generalize Wc F f (n - 1) = W
      grind
    · generalize Wc F f (n - 1) = W
      clear hd hv he hd1 hd1' hd3 hg3 hd4 hg4 hg5 he5 hI
      grind
  obtain ⟨hO, hC⟩ := Wc_close (F := F) (f := f) (U := U) (hs := hs) (le_trans (by have := kt_nonneg (α := α) n; linarith) hκ)
    (fun k h1 h2 => hI.u k h1 h2) (fun k h1 h2 => hI.h k h1 h2) (fun k h1 h2 => hI.nonneg k h1 h2) (fun k h1 h2 => hI.sq k h1 h2) (n - 1) (by omega)
  have hk0 : 0 ≤ κ := le_trans (by have := kt_nonneg (α := α) n; linarith) hκ
  refine Post.ok ⟨fun k => F k k, updv ε 0 0, _, hd4.congr fun k hk => ?_, he5.full fun i _ => by omega, hg5, ?_⟩
  · rw [if_pos hk]
    simp only [accC]
    by_cases h1 : k < n - 1
    · rw [if_pos (by simpa using h1)]
    · rw [if_neg (by omega), if_neg (by omega), if_neg (by omega), show k = n - 1 by omega]
  · have hSF : SF n κ (pk n n (Eigen.sym (tt F0))) (n - 1) (tt (Wc F f (n - 1))) (tab 0 (tt F) (vv ε)) := by
      refine ⟨Wm n U hs (n - 1), hO, hC, ?_⟩
      have h5 := hI.err
      have h6 := prodL_mul_prodR (Hm n U hs) 0 (n - 1)
      rw [prodL, Matrix.one_mul, Nat.zero_add] at h6
      rw [show (1 : Nat) - 1 = 0 from rfl, h6] at h5
      rw [Eigen.Wm_eq, transpose_transpose]
      exact h5
    refine (hSF.mono hk0 (Nat.sub_le n 1)).congr (fun a b ha hb => ?_) (fun a b ha hb => ?_)
    · unfold tt
      rw [hWt a b ha hb]
    · have h0 : val (0 : α) = 0 := Sfp.zero
      unfold trid tab Eigen.sym vv updv tt
      clear hd hv he hd1 hd1' hd3 hg3 hd4 hg4 hg5 he5 hI hWt hO hC hSF
      by_cases e1 : a = b
      · subst e1
        grind
      · grind

end Std
end LA
