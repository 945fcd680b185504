import Verif.Proofs.EigHqr6

/-! # `hqr2`: roots and the outer loop -/

set_option linter.unusedSectionVars false

namespace LA
open Finset Matrix
namespace Eigen
open SVD (pk pk_congr pk_rotc pk_rotr)

/-- The relation between the eigenvalue arrays and the finished rows `c..` of the table. -/
structure Blk (nn c : Nat) (d e : Nat → ℝ) (H : Nat → Nat → ℝ) : Prop where
  zer : ∀ i, c ≤ i → i < nn → e i = 0 → d i = H i i
  pos : ∀ i, c ≤ i → i < nn → 0 < e i → i + 1 < nn ∧ e (i + 1) = -e i ∧ d (i + 1) = d i ∧ d i = (H i i + H (i + 1) (i + 1)) / 2 ∧
    e i * e i = -((H i i - H (i + 1) (i + 1)) / 2 * ((H i i - H (i + 1) (i + 1)) / 2) + H (i + 1) i * H i (i + 1))
  neg : ∀ i, c ≤ i → e i < 0 → c < i ∧ i < nn ∧ 0 < e (i - 1)

/-- The invariant of the outer loop; rows `c..` are finished. -/
structure HqInv (nn c : Nat) (A : Matrix (Fin nn) (Fin nn) ℝ) (E : ℝ) (st : Hqr ℝ) (H V : Nat → Nat → ℝ) (d e : Nat → ℝ) : Prop where
  hh : FullG st.h nn nn H
  vv : FullG st.v nn nn V
  dd : Part st.d nn (fun i => c ≤ i) d
  ee : Part st.e nn (fun i => c ≤ i) e
  sm : Sm nn A V (Tt c e H st.ex) E
  ex : |st.ex| ≤ 2 * (frob A + E)
  blk : Blk nn c d e H

theorem Blk.last {nn c : Nat} {d e : Nat → ℝ} {H : Nat → Nat → ℝ} (h : Blk nn c d e H) : ¬ e c < 0 := fun hc =>
  absurd (h.neg c le_rfl hc).1 (lt_irrefl _)

/-- The finished rows are not touched. -/
theorem Blk.congr {nn c : Nat} {d e : Nat → ℝ} {H H' : Nat → Nat → ℝ} (h : Blk nn c d e H) (hH : ∀ a b, c ≤ a → H' a b = H a b) :
    Blk nn c d e H' := by
  refine ⟨fun i h1 h2 h3 => ?_, fun i h1 h2 h3 => ?_, h.neg⟩
  · rw [hH i i h1]; exact h.zer i h1 h2 h3
  · rw [hH i i h1, hH (i + 1) (i + 1) (by omega), hH (i + 1) i (by omega), hH i (i + 1) h1]
    exact h.pos i h1 h2 h3

theorem HqInv.diag {nn n : Nat} {A : Matrix (Fin nn) (Fin nn) ℝ} {E : ℝ} {st : Hqr ℝ} {H V : Nat → Nat → ℝ} {d e : Nat → ℝ}
    (hI : HqInv nn (n + 1) A E st H V d e) (hn : n < nn) {a : Nat} (ha : a ≤ n) : |H a a| ≤ 3 * (frob A + E) := by
  have h5 := hI.sm.entry (show a < nn by omega) (show a < nn by omega)
  rw [Tt_diag (by omega)] at h5
  have h6 := abs_sub (H a a + st.ex) st.ex
  rw [add_sub_cancel_right] at h6
  have := hI.ex
  linarith

/-- Dropping the small entry `(l, l - 1)`. -/
theorem drop_small {nn n l : Nat} {A : Matrix (Fin nn) (Fin nn) ℝ} {E norm : ℝ} {st : Hqr ℝ} {H V : Nat → Nat → ℝ} {d e : Nat → ℝ}
    (hI : HqInv nn (n + 1) A E st H V d e) (hn : n < nn) (hln : l ≤ n) (hnorm : norm ≤ nn * (frob A + E))
    (hl : l ≠ 0 → |H l (l - 1)| ≤ eps * (|H (l - 1) (l - 1)| + |H l l| + norm)) {X : Nat → Nat → ℝ}
    (hX : ∀ a b, a < nn → b < nn → X a b = if a = l ∧ b + 1 = l then 0 else Tt (n + 1) e H st.ex a b) :
    Sm nn A V X (E + (4 * nn + 24) * eps * (frob A + E)) := by
  have hep := eps_pos
  have hnn : (0 : ℝ) ≤ nn := Nat.cast_nonneg _
  have hF : 0 ≤ frob A + E := (abs_nonneg _).trans (hI.sm.entry (show n < nn by omega) (show n < nn by omega))
  have h1 : Sm nn A V (fun a b => if a = l ∧ b + 1 = l then 0 else Tt (n + 1) e H st.ex a b) (E + (4 * nn + 24) * eps * (frob A + E)) := by
    refine hI.sm.pert ?_
    have hsub : pk nn nn (Tt (n + 1) e H st.ex) - pk nn nn (fun a b => if a = l ∧ b + 1 = l then 0 else Tt (n + 1) e H st.ex a b) =
        pk nn nn (fun a b => Tt (n + 1) e H st.ex a b - if a = l ∧ b + 1 = l then 0 else Tt (n + 1) e H st.ex a b) := rfl
    rw [hsub]
    refine (frob_three (k := l) (c := l - 1) (α := (4 * nn + 24) * eps * (frob A + E)) (β := 0) (γ := 0) ?_ ?_ ?_ ?_).trans (by simp)
    · intro a b hab
      rw [if_neg (by omega), sub_self]
    · by_cases h0 : l = 0
      · rw [if_neg (by omega), sub_self, abs_zero]; positivity
      · rw [if_pos (by omega), sub_zero, Tt_off (by omega) (by omega) (by omega)]
        have b1 := hl h0
        have b2 := hI.diag hn (show l - 1 ≤ n by omega)
        have b3 := hI.diag hn hln
        have : eps * (|H (l - 1) (l - 1)| + |H l l| + norm) ≤ eps * ((nn + 6) * (frob A + E)) :=
          mul_le_mul_of_nonneg_left (by linarith) hep.le
        have : 0 ≤ nn * (eps * (frob A + E)) := by positivity
        have : 0 ≤ eps * (frob A + E) := by positivity
        nlinarith
    · rw [if_neg (by omega), sub_self, abs_zero]
    · rw [if_neg (by omega), sub_self, abs_zero]
  exact h1.congr fun a b ha hb => (hX a b ha hb).symm

theorem oneRoot_post {nn n : Nat} {A : Matrix (Fin nn) (Fin nn) ℝ} {E norm : ℝ} {st : Hqr ℝ} {H V : Nat → Nat → ℝ} {d e : Nat → ℝ}
    (hI : HqInv nn (n + 1) A E st H V d e) (hn : n < nn) (hnorm : norm ≤ nn * (frob A + E))
    (hl : n ≠ 0 → |H n (n - 1)| ≤ eps * (|H (n - 1) (n - 1)| + |H n n| + norm)) :
    Post (oneRoot nn n st) fun o => ∃ H' V' d' e', HqInv nn n A (E + (4 * nn + 24) * eps * (frob A + E)) o H' V' d' e' := by
  have hep := eps_pos
  unfold oneRoot
  rw [hI.hh.rd hn hn, ok_bind]
  obtain ⟨h1, hr1, hg1⟩ := FullG.wrP hI.hh (i := n) (j := n) hn hn (H n n + st.ex)
  rw [hr1, ok_bind, hg1.rd hn hn, ok_bind, upd_same]
  obtain ⟨d1, hrd, hd1⟩ := hI.dd.wr hn (H n n + st.ex)
  obtain ⟨e1, hre, he1⟩ := hI.ee.wr hn 0
  rw [hrd, ok_bind, hre, ok_bind]
  have hsm : Sm nn A V (Tt n (updv e n 0) (upd H n n (H n n + st.ex)) st.ex) (E + (4 * nn + 24) * eps * (frob A + E)) := by
    refine drop_small hI hn le_rfl hnorm hl fun a b _ _ => ?_
    clear hl hI
    unfold Tt tadd tmk exd upd updv
    by_cases h2 : b + 1 < a
    · rw [if_pos h2, if_pos h2, if_neg (by omega), if_neg (by omega), if_neg (by omega)]
    · rw [if_neg h2, if_neg h2]
      by_cases h3 : a = n
      · subst h3
        by_cases h4 : b + 1 = a
        · rw [if_pos ⟨h4, le_rfl, by simp⟩, if_neg (by omega), if_pos ⟨rfl, h4⟩, add_zero]
        · by_cases h5 : a = b
          · subst h5; rw [if_neg (by omega), if_pos ⟨rfl, rfl⟩, if_neg (by omega), if_neg (by omega), if_neg (by omega), if_pos ⟨rfl, by omega⟩, add_zero]
          · rw [if_neg (by omega), if_neg (by omega), if_neg (by omega), if_neg (by omega), if_neg (by omega), if_neg (by omega)]
      · rw [if_neg h3, if_neg (show ¬(a = n ∧ b = n) by omega), if_neg (show ¬(a = n ∧ b + 1 = n) by omega)]
        have c1 : (n ≤ a) = (n + 1 ≤ a) := propext ⟨fun h => by omega, fun h => by omega⟩
        have c2 : (a = b ∧ a < n) = (a = b ∧ a < n + 1) := propext ⟨fun h => by omega, fun h => by omega⟩
        simp only [c1, c2]
  refine Post.ok ⟨_, V, _, _, hg1, hI.vv, hd1.mono fun i _ h => ⟨by omega, rfl⟩, he1.mono fun i _ h => ⟨by omega, rfl⟩, hsm, ?_, ?_⟩
  · have h2 := hI.ex
    have : 0 ≤ frob A + E := by linarith [abs_nonneg st.ex]
    have : 0 ≤ (4 * (nn : ℝ) + 24) * eps * (frob A + E) := by positivity
    show |st.ex| ≤ _
    linarith
  · have hb := hI.blk
    refine ⟨fun i h2 h3 h4 => ?_, fun i h2 h3 h4 => ?_, fun i h2 h3 => ?_⟩
    · by_cases h5 : i = n
      · subst h5; rw [updv_same, upd_same]
      · rw [updv_ne h5, upd_ne (by omega)]
        rw [updv_ne h5] at h4
        exact hb.zer i (by omega) h3 h4
    · by_cases h5 : i = n
      · subst h5; rw [updv_same] at h4; exact absurd h4 (lt_irrefl _)
      · rw [updv_ne h5] at h4
        rw [updv_ne h5, updv_ne h5, updv_ne (by omega), updv_ne (by omega), upd_ne (by omega), upd_ne (by omega), upd_ne (by omega), upd_ne (by omega)]
        exact hb.pos i (by omega) h3 h4
    · by_cases h5 : i = n
      · subst h5; rw [updv_same] at h3; exact absurd h3 (lt_irrefl _)
      · rw [updv_ne h5] at h3
        have := hb.neg i (by omega) h3
        rw [updv_ne (by omega)]
        exact ⟨by omega, this.2.1, this.2.2⟩

theorem rootRows_post {nn n : Nat} {p q : ℝ} {h : Buf ℝ} {F : Nat → Nat → ℝ} (hh : FullG h nn nn F) (hn : n < nn) (h0 : 0 < n) :
    Post (rootRows nn n p q h) fun h' => FullG h' nn nn (fun a b => if n - 1 ≤ b then rotr F (n - 1) n q p a b else F a b) := by
  unfold rootRows
  refine (loopG_cols (lo := n - 1) (hi := nn) (fun a b => rotr F (n - 1) n q p a b) hh ?_).mono fun h' h3 => h3.congr fun a b _ hb => ?_
  swap
  · by_cases e : n - 1 ≤ b
    · rw [if_pos ⟨e, hb⟩, if_pos e]
    · rw [if_neg (by omega), if_neg e]
  intro j d' G' hj1 hj2 hG heq
  have e3 : ∀ a, G' a j = F a j := fun a => heq a j (by omega)
  rw [hG.rd (i := n - 1) (j := j) (by omega) hj2, ok_bind, hG.rd (i := n) (j := j) (by omega) hj2, ok_bind]
  obtain ⟨d2, hd2, hg2⟩ := hG.wr (i := n - 1) (j := j) (by omega) hj2 (q * G' (n - 1) j + p * G' n j)
  rw [hd2, ok_bind, hg2.rd (i := n) (j := j) (by omega) hj2, ok_bind, upd_ne (by omega)]
  refine (FullG.wrP hg2 (i := n) (j := j) (by omega) hj2 _).mono fun r h => h.congr fun a b _ _ => ?_
  have e1 := e3 (n - 1)
  have e2 := e3 n
  have e4 := e3 a
  clear heq hg2 hG h e3 hh
  simp only [upd, rotr]
  grind

theorem rootCols_post {nn n hi : Nat} {p q : ℝ} {h : Buf ℝ} {F : Nat → Nat → ℝ} (hh : FullG h nn nn F) (hn : n < nn) (h0 : 0 < n) (hhi : hi ≤ nn) :
    Post (rootCols nn n hi p q h) fun h' => FullG h' nn nn (fun a b => if a < hi then rotc F (n - 1) n q p a b else F a b) := by
  unfold rootCols
  refine (loopG_rows (lo := 0) (hi := hi) (fun a b => rotc F (n - 1) n q p a b) hh ?_).mono fun h' h3 => h3.congr fun a b _ hb => ?_
  swap
  · by_cases e : a < hi
    · rw [if_pos ⟨by omega, e⟩, if_pos e]
    · rw [if_neg (by omega), if_neg e]
  intro j d' G' hj1 hj2 hG heq
  have e3 : ∀ a, G' j a = F j a := fun a => heq j a (by omega)
  rw [hG.rd (i := j) (j := n - 1) (by omega) (by omega), ok_bind, hG.rd (i := j) (j := n) (by omega) hn, ok_bind]
  obtain ⟨d2, hd2, hg2⟩ := hG.wr (i := j) (j := n - 1) (by omega) (by omega) (q * G' j (n - 1) + p * G' j n)
  rw [hd2, ok_bind, hg2.rd (i := j) (j := n) (by omega) hn, ok_bind, upd_ne (by omega)]
  refine (FullG.wrP hg2 (i := j) (j := n) (by omega) hn _).mono fun r h => h.congr fun a b _ _ => ?_
  have e1 := e3 (n - 1)
  have e2 := e3 n
  have e4 := e3 b
  clear heq hg2 hG h e3 hh
  simp only [upd, rotc]
  grind

/-- The table when the rows `n - 1`, `n` have been finished, before the rotation. -/
theorem two_tab {n : Nat} {e e' : Nat → ℝ} {H : Nat → Nat → ℝ} {ex : ℝ} (h0 : 0 < n) (he : ∀ a, n < a → e' a = e a) (he1 : ¬ e' (n - 1) < 0)
    (a b : Nat) :
    (if a = n ∧ b + 1 = n then H n (n - 1) else Tt (n - 1) e' (upd (upd H n n (H n n + ex)) (n - 1) (n - 1) (H (n - 1) (n - 1) + ex)) ex a b) =
      if a = n - 1 ∧ b + 1 = n - 1 then 0 else Tt (n + 1) e H ex a b := by
  obtain ⟨n, rfl⟩ : ∃ k, n = k + 1 := ⟨n - 1, by omega⟩
  have h1 := he a
  clear he
  simp only [Nat.add_sub_cancel] at *
  unfold Tt tadd tmk exd upd
  by_cases h2 : b + 1 = a
  · subst h2
    by_cases h3 : n + 1 < b + 1
    · rw [h1 h3]
      have c1 : (n ≤ b + 1) = True := eq_true (by omega)
      have c2 : (n + 1 + 1 ≤ b + 1) = True := eq_true (by omega)
      simp only [c1, c2]
      grind
    · by_cases h4 : b = n
      · subst h4; grind
      · by_cases h5 : b + 1 = n
        · subst h5; grind
        · grind
  · grind

/-- The eigenvalue arrays when the rows `n - 1`, `n` have been finished. -/
theorem Blk.two {nn n : Nat} {d e d' e' : Nat → ℝ} {H H' : Nat → Nat → ℝ} (h : Blk nn (n + 1) d e H) (h0 : 0 < n) (hn : n < nn)
    (hd : ∀ a, n < a → d' a = d a) (he : ∀ a, n < a → e' a = e a) (hH : ∀ a b, n < a → H' a b = H a b)
    (h1 : (e' (n - 1) = 0 ∧ e' n = 0 ∧ d' (n - 1) = H' (n - 1) (n - 1) ∧ d' n = H' n n) ∨
      (0 < e' (n - 1) ∧ e' n = -e' (n - 1) ∧ d' n = d' (n - 1) ∧ d' (n - 1) = (H' (n - 1) (n - 1) + H' n n) / 2 ∧
        e' (n - 1) * e' (n - 1) = -((H' (n - 1) (n - 1) - H' n n) / 2 * ((H' (n - 1) (n - 1) - H' n n) / 2) + H' n (n - 1) * H' (n - 1) n))) :
    Blk nn (n - 1) d' e' H' := by
  have e1 : n - 1 + 1 = n := by omega
  refine ⟨fun i h2 h3 h4 => ?_, fun i h2 h3 h4 => ?_, fun i h2 h3 => ?_⟩
  · by_cases h5 : n < i
    · rw [hd i h5, hH i i h5]
      exact h.zer i h5 h3 (by rw [← he i h5]; exact h4)
    · have h6 : i = n - 1 ∨ i = n := by omega
      rcases h1 with h1 | h1
      · rcases h6 with rfl | rfl
        · exact h1.2.2.1
        · exact h1.2.2.2
      · rcases h6 with rfl | rfl
        · linarith [h1.1]
        · linarith [h1.1, h1.2.1]
  · by_cases h5 : n < i
    · rw [hd i h5, hd (i + 1) (by omega), he i h5, he (i + 1) (by omega), hH _ _ h5, hH _ _ (by omega), hH _ _ (by omega), hH _ _ h5]
      exact h.pos i h5 h3 (by rw [← he i h5]; exact h4)
    · have h6 : i = n - 1 ∨ i = n := by omega
      rcases h1 with h1 | h1
      · rcases h6 with rfl | rfl
        · linarith [h1.1]
        · linarith [h1.2.1]
      · rcases h6 with rfl | rfl
        · rw [e1]; exact ⟨hn, h1.2⟩
        · linarith [h1.1, h1.2.1]
  · by_cases h5 : n < i
    · have := h.neg i h5 (by rw [← he i h5]; exact h3)
      rw [he (i - 1) (by omega)]
      exact ⟨by omega, this.2⟩
    · have h6 : i = n - 1 ∨ i = n := by omega
      rcases h1 with h1 | h1
      · rcases h6 with rfl | rfl
        · linarith [h1.1]
        · linarith [h1.2.1]
      · rcases h6 with rfl | rfl
        · linarith [h1.1]
        · exact ⟨by omega, hn, h1.1⟩

/-- The algebra of a real pair. -/
theorem pair_alg {a b c x p w z r cs sn : ℝ} (hp : p = (a - x) / 2) (hw : w = c * b) (hz : (z - p) * (z - p) = p * p + w)
    (hr : r ≠ 0) (hr2 : r * r = c * c + z * z) (hcs : cs = z / r) (hsn : sn = c / r) :
    cs ^ 2 + sn ^ 2 = 1 ∧ -sn * (cs * a + sn * b) + cs * (cs * c + sn * x) = 0 ∧
      cs * (cs * a + sn * b) + sn * (cs * c + sn * x) = x + z ∧
      -sn * (-sn * a + cs * b) + cs * (-sn * c + cs * x) = a - z := by
  have hr2' : r ^ 2 = c * c + z * z := by rw [← hr2]; ring
  have ha : a = x + 2 * p := by rw [hp]; ring
  have hq : z * z = 2 * p * z + c * b := by rw [← hw]; linarith
  subst hcs hsn
  have k1 : (z / r) ^ 2 + (c / r) ^ 2 = 1 := by
    field_simp; rw [hr2']; ring
  have k2 : -(c / r) * (z / r * a + c / r * b) + z / r * (z / r * c + c / r * x) = 0 := by
    rw [ha]; field_simp; nlinarith [congrArg (fun t => c * t) hq]
  have k3 : z / r * (z / r * a + c / r * b) + c / r * (z / r * c + c / r * x) = x + z := by
    have : z / r * (z / r * a + c / r * b) + c / r * (z / r * c + c / r * x) = (x + z) * ((z / r) ^ 2 + (c / r) ^ 2) := by
      rw [ha]; field_simp
      nlinarith [congrArg (fun t => z * t) hq]
    rw [this, k1, mul_one]
  refine ⟨k1, k2, k3, ?_⟩
  have : z / r * (z / r * a + c / r * b) + c / r * (z / r * c + c / r * x) +
    (-(c / r) * (-(c / r) * a + z / r * b) + z / r * (-(c / r) * c + z / r * x)) = (a + x) * ((z / r) ^ 2 + (c / r) ^ 2) := by ring
  rw [k1, k3] at this
  linarith

end Eigen
end LA
