import Verif.Proofs.EigHqr5

/-! # `hqr2`: one double QR iteration -/

set_option linter.unusedSectionVars false

namespace LA
open Finset Matrix
namespace Eigen
open SVD (pk pk_congr)

theorem findL_post {nn n : Nat} {norm : ℝ} {h : Buf ℝ} {H : Nat → Nat → ℝ} (hh : FullG h nn nn H) (hn : n < nn) (hnorm : 0 < norm) :
    Post (findL nn norm h n) fun l => l ≤ n ∧ (∀ j, l < j → j ≤ n → H j (j - 1) ≠ 0) ∧
      (l ≠ 0 → |H l (l - 1)| ≤ eps * (|H (l - 1) (l - 1)| + |H l l| + norm)) := by
  induction n with
  | zero => exact Post.ok ⟨le_rfl, fun j _ _ => by omega, fun h => absurd rfl h⟩
  | succ n ih =>
    unfold findL
    rw [hh.rd (by omega) (by omega), ok_bind, hh.rd (by omega) (by omega), ok_bind, hh.rd (by omega) (by omega), ok_bind]
    simp only [Exact.abs_eq, eq_eq, lt_eq, decide_eq_true_eq]
    have hep := eps_pos
    have a1 := abs_nonneg (H n n)
    have a2 := abs_nonneg (H (n + 1) (n + 1))
    obtain ⟨S, hS, hS1, hS2⟩ : ∃ S, (if |H n n| + |H (n + 1) (n + 1)| = 0 then norm else |H n n| + |H (n + 1) (n + 1)|) = S ∧ 0 < S ∧
        S ≤ |H n n| + |H (n + 1) (n + 1)| + norm := by
      refine ⟨_, rfl, ?_, ?_⟩
      · split_ifs with h1
        · exact hnorm
        · exact lt_of_le_of_ne (by linarith) (Ne.symm h1)
      · split_ifs <;> linarith
    rw [hS]
    by_cases hc : |H (n + 1) n| < eps * S
    · rw [if_pos hc]
      refine Post.ok ⟨le_rfl, fun j h1 h2 => by omega, fun _ => ?_⟩
      rw [Nat.add_sub_cancel]
      exact hc.le.trans (mul_le_mul_of_nonneg_left hS2 hep.le)
    · rw [if_neg hc]
      refine (ih (by omega)).mono fun l hl => ⟨by omega, fun j h1 h2 => ?_, hl.2.2⟩
      by_cases h3 : j = n + 1
      · subst h3
        rw [Nat.add_sub_cancel]
        intro h0
        rw [h0, abs_zero] at hc
        exact hc (mul_pos hep hS1)
      · exact hl.2.1 j h1 (by omega)

theorem firstCol_post {nn m : Nat} {x y w : ℝ} {h : Buf ℝ} {H : Nat → Nat → ℝ} (hh : FullG h nn nn H) (hm : m + 2 < nn)
    (h1 : H (m + 1) m ≠ 0) (h2 : H (m + 2) (m + 1) ≠ 0) :
    Post (firstCol nn m x y w h) fun o => o.2.2.1 ≠ 0 ∧ o.2.2.2 = H m m := by
  unfold firstCol
  rw [hh.rd (by omega) (by omega), ok_bind, hh.rd (by omega) (by omega), ok_bind]
  dsimp only
  rw [rdiv_ok h1, ok_bind, hh.rd (by omega) (by omega), ok_bind, hh.rd (by omega) (by omega), ok_bind, hh.rd (by omega) (by omega), ok_bind]
  simp only [Exact.abs_eq]
  generalize ((x - H m m) * (y - H m m) - w) / H (m + 1) m + H m (m + 1) = P
  generalize H (m + 1) (m + 1) - H m m - (x - H m m) - (y - H m m) = Q
  have hs : |P| + |Q| + |H (m + 2) (m + 1)| ≠ 0 := by
    have := abs_pos.2 h2
    have := abs_nonneg P
    have := abs_nonneg Q
    intro hc; linarith
  rw [rdiv_ok hs, ok_bind, rdiv_ok hs, ok_bind, rdiv_ok hs, ok_bind]
  exact Post.ok ⟨div_ne_zero h2 hs, rfl⟩

theorem findStart_post {nn n l k : Nat} {x y w : ℝ} {h : Buf ℝ} {H : Nat → Nat → ℝ} (hh : FullG h nn nn H) (hn : n < nn)
    (hk : l + k + 2 ≤ n) (hne : ∀ j, l < j → j ≤ n → H j (j - 1) ≠ 0) :
    Post (findStart nn l x y w h k) fun o => l ≤ o.1 ∧ o.1 ≤ l + k ∧ o.2.2.2 ≠ 0 ∧ (l ≠ o.1 →
      |H o.1 (o.1 - 1)| * (|o.2.2.1| + |o.2.2.2|) ≤
        eps * (|o.2.1| * (|H (o.1 - 1) (o.1 - 1)| + |H o.1 o.1| + |H (o.1 + 1) (o.1 + 1)|))) := by
  induction k with
  | zero =>
    unfold findStart
    obtain ⟨⟨p, q, r, z⟩, hr, h1, h2⟩ := firstCol_post (x := x) (y := y) (w := w) hh (show l + 2 < nn by omega) (by simpa using hne (l + 1) (by omega) (by omega))
      (by simpa using hne (l + 2) (by omega) (by omega))
    rw [hr, ok_bind]
    exact Post.ok ⟨le_rfl, le_rfl, h1, fun h => absurd rfl h⟩
  | succ k ih =>
    unfold findStart
    obtain ⟨⟨p, q, r, z⟩, hr, h1, h2⟩ := firstCol_post (m := l + k + 1) (x := x) (y := y) (w := w) hh (show l + k + 1 + 2 < nn by omega)
      (by simpa using hne (l + k + 1 + 1) (by omega) (by omega)) (by simpa using hne (l + k + 1 + 2) (by omega) (by omega))
    dsimp only at h1 h2 ⊢
    rw [hr, ok_bind]
    dsimp only
    rw [hh.rd (by omega) (by omega), ok_bind, hh.rd (by omega) (by omega), ok_bind, hh.rd (by omega) (by omega), ok_bind]
    simp only [Exact.abs_eq, lt_eq, decide_eq_true_eq]
    split_ifs with hc
    · refine Post.ok ⟨by show l ≤ l + k + 1; omega, by show l + k + 1 ≤ _; omega, h1, fun _ => ?_⟩
      dsimp only
      rw [h2] at hc
      exact hc.le
    · refine (ih (by omega)).mono fun o ho => ⟨ho.1, by omega, ho.2.2.1, ho.2.2.2⟩

/-- One double QR iteration (`src/decomp/eigen.rs:462-607`). -/
theorem qrIter_post {nn n l : Nat} {A : Matrix (Fin nn) (Fin nn) ℝ} {e : Nat → ℝ} {E M norm : ℝ} {H V : Nat → Nat → ℝ} {st : Hqr ℝ}
    (hh : FullG st.h nn nn H) (hv : FullG st.v nn nn V) (hn : n < nn) (hln : l + 2 ≤ n) (he : ¬ e (n + 1) < 0)
    (hs : Sm nn A V (Tt (n + 1) e H st.ex) E) (hM : frob A + E ≤ M) (hex : |st.ex| ≤ 2 * M) (hnorm : norm ≤ nn * M)
    (hne : ∀ j, l < j → j ≤ n → H j (j - 1) ≠ 0)
    (hl : l ≠ 0 → |H l (l - 1)| ≤ eps * (|H (l - 1) (l - 1)| + |H l l| + norm)) :
    Post (qrIter nn n l st) fun o => o.d = st.d ∧ o.e = st.e ∧ ∃ H' V', FullG o.h nn nn H' ∧ FullG o.v nn nn V' ∧
      Sm nn A V' (Tt (n + 1) e H' o.ex) (E + (4 * nn + 24) * eps * M) ∧ |o.ex| ≤ 2 * M ∧ ∀ a b, n < a → H' a b = H a b := by
  have hep := eps_pos
  have hent : ∀ a b, a < nn → b < nn → |Tt (n + 1) e H st.ex a b| ≤ M := fun a b ha hb => (hs.entry ha hb).trans hM
  have h0M : 0 ≤ M := (abs_nonneg _).trans (hent 0 0 (by omega) (by omega))
  unfold qrIter
  obtain ⟨⟨h1, ex1, x, y, w⟩, hr1, H1, hg1, hT1, hex1, hoff1⟩ := hqrShift_post (iter := st.iter) hh hn (by omega) hent hex
  dsimp only at hg1 hT1 hex1
  rw [hr1, ok_bind]
  dsimp only
  have hne1 : ∀ j, l < j → j ≤ n → H1 j (j - 1) ≠ 0 := fun j h2 h3 => by rw [hoff1 j (j - 1) (Or.inl (by omega))]; exact hne j h2 h3
  obtain ⟨⟨m, p, q, r⟩, hr2, hm1, hm2, hr0, hsm⟩ := findStart_post (k := n - 2 - l) (x := x) (y := y) (w := w) hg1 hn (by omega) hne1
  dsimp only at hm1 hm2 hr0 hsm
  rw [hr2, ok_bind]
  dsimp only
  obtain ⟨h3, hr3, hg3⟩ := clearSub_post (m := m) hg1 hn (by omega)
  rw [hr3, ok_bind]
  set H3 : Nat → Nat → ℝ := (fun a b => if a ≤ n ∧ m + 2 ≤ a ∧ (b + 2 = a ∨ (b + 3 = a ∧ m + 2 < a)) then 0 else H1 a b) with hH3
  have hs3 : Sm nn A V (tadd (tmk (n + 1) e H3) (exd (n + 1) ex1)) E := by
    refine hs.congr fun a b _ _ => ?_
    rw [← hT1]
    unfold Tt tadd
    congr 1
    unfold tmk
    rw [hH3]
    beta_reduce
    by_cases h5 : b + 1 < a
    · rw [if_pos h5, if_pos h5]
    · rw [if_neg h5, if_neg h5, if_neg (show ¬(a ≤ n ∧ m + 2 ≤ a ∧ (b + 2 = a ∨ (b + 3 = a ∧ m + 2 < a))) by omega)]
  have hdg : ∀ a, a ≤ n → |H a a| ≤ 3 * M := fun a ha => by
    have h5 := hent a a (by omega) (by omega)
    rw [Tt_diag (by omega)] at h5
    have h6 := abs_sub (H a a + st.ex) st.ex
    rw [add_sub_cancel_right] at h6
    linarith
  have hdg1 : ∀ a, a ≤ n → |H1 a a| ≤ 3 * M := fun a ha => by
    have h5 := hent a a (by omega) (by omega)
    rw [← hT1, Tt_diag (by omega)] at h5
    have h6 := abs_sub (H1 a a + ex1) ex1
    rw [add_sub_cancel_right] at h6
    linarith
  have hnn : (0 : ℝ) ≤ nn := Nat.cast_nonneg _
  have hf : FirstOk l m H3 p q r ((4 * nn + 24) * eps * M) := by
    have hoff : m ≠ 0 → H3 m (m - 1) = H1 m (m - 1) := fun h => by rw [hH3]; exact if_neg (by omega)
    refine ⟨by positivity, Or.inr (Or.inr hr0), ?_, ?_⟩
    · intro h5 h6
      subst h5
      rw [hoff h6, hoff1 _ _ (Or.inl (by omega))]
      have b1 := hl h6
      have b2 := hdg (l - 1) (by omega)
      have b3 := hdg l (by omega)
      have : eps * (|H (l - 1) (l - 1)| + |H l l| + norm) ≤ eps * ((nn + 6) * M) := mul_le_mul_of_nonneg_left (by linarith) hep.le
      nlinarith
    · intro h5 s hs
      rw [hoff (by omega)]
      have b0 := hsm h5
      have b1 := hdg1 (m - 1) (by omega)
      have b2 := hdg1 m (by omega)
      have b3 := hdg1 (m + 1) (by omega)
      have b4 := hs.abs
      have b5 : |p| * (|H1 (m - 1) (m - 1)| + |H1 m m| + |H1 (m + 1) (m + 1)|) ≤ |s| * (9 * M) :=
        mul_le_mul b4 (by linarith) (by positivity) (abs_nonneg _)
      have b6 : eps * (|p| * (|H1 (m - 1) (m - 1)| + |H1 m m| + |H1 (m + 1) (m + 1)|)) ≤ eps * (|s| * (9 * M)) :=
        mul_le_mul_of_nonneg_left b5 hep.le
      have b7 : 0 ≤ eps * (|s| * M) := by positivity
      have b8 : 0 ≤ nn * (eps * (|s| * M)) := by positivity
      nlinarith
  have hZ : ∀ a b, a ≤ n → m ≤ b → b + 2 ≤ a → a ≤ b + 3 → H3 a b = 0 := fun a b h5 h6 h7 h8 => by
    rw [hH3]; exact if_pos (by omega)
  obtain ⟨⟨h4, v4⟩, hr4, H4, V4, hg4, hgv4, hs4, hrow4⟩ := sweep_post hg3 hv hn hm1 (by omega) he hs3 hZ hf
  erw [hr4]
  rw [ok_bind]
  refine Post.ok ⟨rfl, rfl, H4, V4, hg4, hgv4, hs4, hex1, fun a b ha => ?_⟩
  rw [hrow4 a b ha, hH3]
  beta_reduce
  rw [if_neg (by omega), hoff1 a b (Or.inr ha)]

end Eigen
end LA
