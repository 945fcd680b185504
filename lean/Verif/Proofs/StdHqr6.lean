import Verif.Proofs.StdHqr5

/-! # `hqr2` in rounded arithmetic: one root, and the tools for two roots -/

set_option linter.unusedSectionVars false

namespace LA
open Finset Matrix
namespace Std
open Sfp SVD
open Eigen (Sm tadd exd tmk Tt Tt_diag Tt_off Hqr Blk oneRoot rootRows rootCols frob_three)

variable {α : Type} [Zero α] [One α] [Add α] [Sub α] [Neg α] [Mul α] [FloatOps α] [Sfp α]

/-- The invariant of the outer loop; rows `c..` are finished.  The table `X` agrees with the memory in the rows above `c`. -/
structure HI (nn c : Nat) (A : Matrix (Fin nn) (Fin nn) ℝ) (E : ℝ) (st : Hqr α) (F : Nat → Nat → α) (X V : Nat → Nat → ℝ)
    (d e : Nat → α) : Prop where
  hh : FullG st.h nn nn F
  hv : ∃ W, FullG st.v nn nn W
  dd : Part st.d nn (fun i => c ≤ i) d
  ee : Part st.e nn (fun i => c ≤ i) e
  low : ∀ a b, a < c → X a b = val (F a b)
  sm : Sm nn A V (Tt c (vv e) X (val st.ex)) E
  ex : |val st.ex| ≤ 6 * (frob A + E)
  blk : Blk nn c (vv d) (vv e) X

section
variable {nn n : Nat} {A : Matrix (Fin nn) (Fin nn) ℝ} {E : ℝ} {st : Hqr α} {F : Nat → Nat → α} {X V : Nat → Nat → ℝ} {d e : Nat → α}

theorem HI.nn0 {c : Nat} (hI : HI nn c A E st F X V d e) : 0 ≤ frob A + E := by
  have := hI.ex
  linarith [abs_nonneg (val st.ex)]

theorem HI.diag (hI : HI nn (n + 1) A E st F X V d e) (hn : n < nn) {a : Nat} (ha : a ≤ n) : |X a a| ≤ 7 * (frob A + E) := by
  have h5 := hI.sm.entry (show a < nn by omega) (show a < nn by omega)
  rw [Tt_diag (by omega)] at h5
  have h6 := abs_sub (X a a + val st.ex) (val st.ex)
  rw [add_sub_cancel_right] at h6
  have := hI.ex
  linarith

/-- Dropping the small entry `(l, l - 1)`. -/
theorem drop_ok {l : Nat} {N norm : ℝ} (hI : HI nn (n + 1) A E st F X V d e) (hn : n < nn) (hln : l ≤ n) (hN : 0 ≤ N)
    (hnorm : norm ≤ N * (frob A + E))
    (hl : l ≠ 0 → |val (F l (l - 1))| ≤ 2 * ep * (|val (F (l - 1) (l - 1))| + |val (F l l)| + norm)) {Y : Nat → Nat → ℝ}
    (hY : ∀ a b, a < nn → b < nn → Y a b = if a = l ∧ b + 1 = l then 0 else Tt (n + 1) (vv e) X (val st.ex) a b) :
    Sm nn A V Y (E + 2 * ep * (14 + N) * (frob A + E)) := by
  have hep := ep_pos
  have hF := hI.nn0
  have h1 : Sm nn A V (fun a b => if a = l ∧ b + 1 = l then 0 else Tt (n + 1) (vv e) X (val st.ex) a b) (E + 2 * ep * (14 + N) * (frob A + E)) := by
    refine hI.sm.pert ?_
    have hsub : pk nn nn (Tt (n + 1) (vv e) X (val st.ex)) - pk nn nn (fun a b => if a = l ∧ b + 1 = l then 0 else Tt (n + 1) (vv e) X (val st.ex) a b) =
        pk nn nn (fun a b => Tt (n + 1) (vv e) X (val st.ex) a b - if a = l ∧ b + 1 = l then 0 else Tt (n + 1) (vv e) X (val st.ex) a b) := rfl
    rw [hsub]
    refine (frob_three (k := l) (c := l - 1) (α := 2 * ep * (14 + N) * (frob A + E)) (β := 0) (γ := 0) ?_ ?_ ?_ ?_).trans (by simp)
    · intro a b hab
      rw [if_neg (by omega), sub_self]
    · by_cases h0 : l = 0
      · rw [if_neg (by omega), sub_self, abs_zero]; positivity
      · rw [if_pos (by omega), sub_zero, Tt_off (by omega) (by omega) (by omega)]
        have b1 := hl h0
        have b2 := hI.diag hn (show l - 1 ≤ n by omega)
        have b3 := hI.diag hn hln
        rw [hI.low _ _ (by omega)] at b2 b3
        rw [hI.low _ _ (by omega)]
        have : 2 * ep * (|val (F (l - 1) (l - 1))| + |val (F l l)| + norm) ≤ 2 * ep * ((14 + N) * (frob A + E)) :=
          mul_le_mul_of_nonneg_left (by linarith) (by linarith)
        linarith
    · rw [if_neg (by omega), sub_self, abs_zero]
    · rw [if_neg (by omega), sub_self, abs_zero]
  exact h1.congr fun a b ha hb => (hY a b ha hb).symm

theorem Tt_sub {c : Nat} {e : Nat → ℝ} {X Y : Nat → Nat → ℝ} {ex δ : ℝ} {a b : Nat} (hδ : 0 ≤ δ) (h : |X a b - Y a b| ≤ δ) :
    |Tt c e X ex a b - Tt c e Y ex a b| ≤ δ := by
  unfold Tt tadd tmk
  split_ifs
  · simpa using hδ
  · simpa using hδ
  · rwa [add_sub_add_right_eq_sub]

theorem oneRoot_ok {N norm : ℝ} (hI : HI nn (n + 1) A E st F X V d e) (hn : n < nn) (hN : 0 ≤ N) (hnorm : norm ≤ N * (frob A + E))
    (hl : n ≠ 0 → |val (F n (n - 1))| ≤ 2 * ep * (|val (F (n - 1) (n - 1))| + |val (F n n)| + norm)) :
    Post (oneRoot nn n st) fun o => ∃ F' X' V' d' e', HI nn n A (E + (2 * ep * (14 + N) + 13 * nn * kh α) * (frob A + E)) o F' X' V' d' e' := by
  have hep := ep_pos
  have hF := hI.nn0
  have hk0 := kh_nonneg (α := α)
  have hw : 1 ≤ w α := w_one
  have hnn : (0 : ℝ) ≤ nn := Nat.cast_nonneg _
  unfold oneRoot
  rw [hI.hh.rd hn hn, ok_bind]
  obtain ⟨h1, hr1, hg1⟩ := FullG.wrP hI.hh (i := n) (j := n) hn hn (F n n + st.ex)
  rw [hr1, ok_bind, hg1.rd hn hn, ok_bind, upd_same]
  obtain ⟨d1, hrd, hd1⟩ := hI.dd.wr hn (F n n + st.ex)
  obtain ⟨e1, hre, he1⟩ := hI.ee.wr hn 0
  rw [hrd, ok_bind, hre, ok_bind]
  have hent := hI.sm.entry hn hn
  rw [Tt_diag (by omega)] at hent
  have hrt := add_rt (F n n) st.ex
  rw [← hI.low n n (by omega)] at hrt
  have hδ : |val (F n n + st.ex) - (X n n + val st.ex)| ≤ kh α * (frob A + E) :=
    (hrt.sub hw).trans (mul_le_mul (pw_kh (by omega)) hent (abs_nonneg _) hk0)
  generalize F n n + st.ex = g at *
  have hM : 0 ≤ kh α * (frob A + E) := mul_nonneg hk0 hF
  have hsm0 : Sm nn A V (Tt n (updv (vv e) n 0) (upd X n n (X n n + val st.ex)) (val st.ex)) (E + 2 * ep * (14 + N) * (frob A + E)) := by
    refine drop_ok hI hn le_rfl hN hnorm hl fun a b _ _ => ?_
    clear hl hI
    unfold Tt tadd tmk exd upd updv
    by_cases h2 : b + 1 < a
    · rw [if_pos h2, if_pos h2, if_neg (by omega), if_neg (by omega), if_neg (by omega)]
    · rw [if_neg h2, if_neg h2]
      by_cases h3 : a = n
      · subst h3
        by_cases h4 : b + 1 = a
        · rw [if_pos ⟨h4, le_rfl, by simp⟩, if_neg (by omega), if_pos ⟨rfl, h4⟩, add_zero]
        · by_cases h5 : a = b
          · subst h5; rw [if_neg (by omega), if_pos ⟨rfl, rfl⟩, if_neg (by omega), if_neg (by omega), if_neg (by omega), if_pos ⟨rfl, by omega⟩, add_zero]
          · rw [if_neg (by omega), if_neg (by omega), if_neg (by omega), if_neg (by omega), if_neg (by omega), if_neg (by omega)]
      · rw [if_neg h3, if_neg (show ¬(a = n ∧ b = n) by omega), if_neg (show ¬(a = n ∧ b + 1 = n) by omega)]
        have c1 : (n ≤ a) = (n + 1 ≤ a) := propext ⟨fun h => by omega, fun h => by omega⟩
        have c2 : (a = b ∧ a < n) = (a = b ∧ a < n + 1) := propext ⟨fun h => by omega, fun h => by omega⟩
        simp only [c1, c2]
  have hsm := hsm0.ent (X' := Tt n (updv (vv e) n 0) (upd X n n (val g)) (val st.ex)) hM (fun a b _ _ => by
    refine Tt_sub hM ?_
    unfold upd
    split_ifs
    · rw [abs_sub_comm]; exact hδ
    · simpa using hM)
  have hsm2 := hsm.mono (E' := E + (2 * ep * (14 + N) + 13 * nn * kh α) * (frob A + E)) (by nlinarith [mul_nonneg hnn hM])
  refine Post.ok ⟨_, upd X n n (val g), V, _, _, hg1, hI.hv, hd1.mono fun i _ h => ⟨by omega, rfl⟩, he1.mono fun i _ h => ⟨by omega, rfl⟩, ?_, ?_, ?_, ?_⟩
  · intro a b ha
    rw [upd_ne (by omega), upd_ne (by omega)]
    exact hI.low a b (by omega)
  · rw [vv_updv, Sfp.zero]; exact hsm2
  · have h2 := hI.ex
    have : 0 ≤ (2 * ep * (14 + N) + 13 * nn * kh α) * (frob A + E) := by positivity
    show |val st.ex| ≤ _
    linarith
  · have hb := hI.blk
    rw [vv_updv, vv_updv, Sfp.zero]
    generalize vv d = d' at *
    generalize vv e = e' at *
    refine ⟨fun i h2 h3 h4 => ?_, fun i h2 h3 h4 => ?_, fun i h2 h3 => ?_⟩
    · by_cases h5 : i = n
      · subst h5; rw [updv_same, upd_same]
      · rw [updv_ne h5, upd_ne (by omega)]
        rw [updv_ne h5] at h4
        exact hb.zer i (by omega) h3 h4
    · by_cases h5 : i = n
      · subst h5; rw [updv_same] at h4; exact absurd h4 (lt_irrefl _)
      · rw [updv_ne h5] at h4
        rw [updv_ne h5, updv_ne h5, updv_ne (by omega), updv_ne (by omega), upd_ne (by omega), upd_ne (by omega), upd_ne (by omega), upd_ne (by omega)]
        exact hb.pos i (by omega) h3 h4
    · by_cases h5 : i = n
      · subst h5; rw [updv_same] at h3; exact absurd h3 (lt_irrefl _)
      · rw [updv_ne h5] at h3
        have := hb.neg i (by omega) h3
        rw [updv_ne (by omega)]
        exact ⟨by omega, this.2.1, this.2.2⟩

/-- The rows `n - 1`, `n` before the rotation, with the entries of the 2-by-2 block changed a little. -/
theorem two_sm {N norm x' a' b' δ : ℝ} {e' : Nat → ℝ} (hI : HI nn (n + 1) A E st F X V d e) (hn : n < nn) (h0 : 0 < n) (hN : 0 ≤ N)
    (hnorm : norm ≤ N * (frob A + E))
    (hl : n - 1 ≠ 0 → |val (F (n - 1) (n - 1 - 1))| ≤ 2 * ep * (|val (F (n - 1 - 1) (n - 1 - 1))| + |val (F (n - 1) (n - 1))| + norm))
    (he : ∀ a, n < a → e' a = vv e a) (he1 : ¬ e' (n - 1) < 0)
    (hx : |x' - (X n n + val st.ex)| ≤ δ) (ha : |a' - (X (n - 1) (n - 1) + val st.ex)| ≤ δ) (hb : |b' - X (n - 1) n| ≤ δ) :
    Sm nn A V (fun a b => if a = n ∧ b + 1 = n then X n (n - 1) else
      Tt (n - 1) e' (upd (upd (upd X n n x') (n - 1) (n - 1) a') (n - 1) n b') (val st.ex) a b) (E + 2 * ep * (14 + N) * (frob A + E) + nn * δ) := by
  have hδ : 0 ≤ δ := (abs_nonneg _).trans hx
  have h1 : Sm nn A V (fun a b => if a = n ∧ b + 1 = n then X n (n - 1) else
      Tt (n - 1) e' (upd (upd X n n (X n n + val st.ex)) (n - 1) (n - 1) (X (n - 1) (n - 1) + val st.ex)) (val st.ex) a b)
      (E + 2 * ep * (14 + N) * (frob A + E)) :=
    drop_ok hI hn (show n - 1 ≤ n by omega) hN hnorm hl fun a b _ _ => Eigen.two_tab h0 he he1 a b
  refine h1.ent hδ fun a b _ _ => ?_
  by_cases h2 : a = n ∧ b + 1 = n
  · rw [if_pos h2, if_pos h2, sub_self, abs_zero]; exact hδ
  · rw [if_neg h2, if_neg h2]
    refine Tt_sub hδ ?_
    by_cases c1 : a = n - 1 ∧ b = n
    · obtain ⟨rfl, rfl⟩ := c1
      rw [upd_same, upd_ne (by omega), upd_ne (by omega), abs_sub_comm]; exact hb
    · rw [upd_ne (i := n - 1) (j := n) (by omega)]
      by_cases c2 : a = n - 1 ∧ b = n - 1
      · obtain ⟨rfl, rfl⟩ := c2
        rw [upd_same, upd_same, abs_sub_comm]; exact ha
      · rw [upd_ne (i := n - 1) (j := n - 1) (by omega), upd_ne (i := n - 1) (j := n - 1) (by omega)]
        by_cases c3 : a = n ∧ b = n
        · obtain ⟨rfl, rfl⟩ := c3
          rw [upd_same, upd_same, abs_sub_comm]; exact hx
        · rw [upd_ne (by omega), upd_ne (by omega), sub_self, abs_zero]; exact hδ

end

/-- Rotation of two rows, as computed. -/
def fRr (n : Nat) (p q : α) (F : Nat → Nat → α) : Nat → Nat → α := fun a b =>
  if a = n - 1 then q * F (n - 1) b + p * F n b else if a = n then q * F n b - p * F (n - 1) b else F a b

/-- Rotation of two columns, as computed. -/
def fRc (n : Nat) (p q : α) (F : Nat → Nat → α) : Nat → Nat → α := fun a b =>
  if b = n - 1 then q * F a (n - 1) + p * F a n else if b = n then q * F a n - p * F a (n - 1) else F a b

theorem rootRows_ok {nn n : Nat} {p q : α} {h : Buf α} {F : Nat → Nat → α} (hh : FullG h nn nn F) (hn : n < nn) (h0 : 0 < n) :
    Post (rootRows nn n p q h) fun h' => FullG h' nn nn (fun a b => if n - 1 ≤ b then fRr n p q F a b else F a b) := by
  unfold rootRows
  refine (loopG_cols (lo := n - 1) (hi := nn) (fun a b => fRr n p q F a b) hh ?_).mono fun h' h3 => h3.congr fun a b _ hb => ?_
  swap
  · by_cases e : n - 1 ≤ b
    · rw [if_pos ⟨e, hb⟩, if_pos e]
    · rw [if_neg (by omega), if_neg e]
  intro j d' G' hj1 hj2 hG heq
  have e3 : ∀ a, G' a j = F a j := fun a => heq a j (by omega)
  rw [hG.rd (i := n - 1) (j := j) (by omega) hj2, ok_bind, hG.rd (i := n) (j := j) (by omega) hj2, ok_bind]
  obtain ⟨d2, hd2, hg2⟩ := FullG.wrP hG (i := n - 1) (j := j) (by omega) hj2 (q * G' (n - 1) j + p * G' n j)
  rw [hd2, ok_bind, hg2.rd (i := n) (j := j) (by omega) hj2, ok_bind, upd_ne (by omega)]
  refine (FullG.wrP hg2 (i := n) (j := j) (by omega) hj2 _).mono fun r h => h.congr fun a b _ _ => ?_
  rw [e3, e3]
  have e4 := e3 a
  by_cases c1 : b = j
  · subst c1
    rw [if_pos rfl]
    unfold fRr
    by_cases c2 : a = n
    · subst c2; rw [upd_same, if_neg (by omega), if_pos rfl]
    · rw [upd_ne (by omega)]
      by_cases c3 : a = n - 1
      · subst c3; rw [upd_same, if_pos rfl]
      · rw [upd_ne (by omega), if_neg c3, if_neg c2, e4]
  · rw [if_neg c1, upd_ne (by omega), upd_ne (by omega)]

theorem rootCols_ok {nn n hi : Nat} {p q : α} {h : Buf α} {F : Nat → Nat → α} (hh : FullG h nn nn F) (hn : n < nn) (h0 : 0 < n) (hhi : hi ≤ nn) :
    Post (rootCols nn n hi p q h) fun h' => FullG h' nn nn (fun a b => if a < hi then fRc n p q F a b else F a b) := by
  unfold rootCols
  refine (loopG_rows (lo := 0) (hi := hi) (fun a b => fRc n p q F a b) hh ?_).mono fun h' h3 => h3.congr fun a b _ hb => ?_
  swap
  · by_cases e : a < hi
    · rw [if_pos ⟨by omega, e⟩, if_pos e]
    · rw [if_neg (by omega), if_neg e]
  intro j d' G' hj1 hj2 hG heq
  have e3 : ∀ a, G' j a = F j a := fun a => heq j a (by omega)
  rw [hG.rd (i := j) (j := n - 1) (by omega) (by omega), ok_bind, hG.rd (i := j) (j := n) (by omega) hn, ok_bind]
  obtain ⟨d2, hd2, hg2⟩ := FullG.wrP hG (i := j) (j := n - 1) (by omega) (by omega) (q * G' j (n - 1) + p * G' j n)
  rw [hd2, ok_bind, hg2.rd (i := j) (j := n) (by omega) hn, ok_bind, upd_ne (by omega)]
  refine (FullG.wrP hg2 (i := j) (j := n) (by omega) hn _).mono fun r h => h.congr fun a b _ _ => ?_
  rw [e3, e3]
  have e4 := e3 b
  by_cases c1 : a = j
  · subst c1
    rw [if_pos rfl]
    unfold fRc
    by_cases c2 : b = n
    · subst c2; rw [upd_same, if_neg (by omega), if_pos rfl]
    · rw [upd_ne (by omega)]
      by_cases c3 : b = n - 1
      · subst c3; rw [upd_same, if_pos rfl]
      · rw [upd_ne (by omega), if_neg c3, if_neg c2, e4]
  · rw [if_neg c1, upd_ne (by omega), upd_ne (by omega)]

/-- The discriminant `p * p + w`, as computed, is the discriminant of a nearby block. -/
theorem q_alg {c b p : α} : ∃ P b', val (p * p + c * b) = P * P + val c * b' ∧ Rt (w α) 1 P (val p) ∧ Rt (w α) 2 b' (val b) ∧
    Rt (w α) 1 (val (c * b)) (val c * b') := by
  have hw : 1 ≤ w α := w_one
  obtain ⟨ρ1, a1, a2⟩ := add_rt (p * p) (c * b)
  obtain ⟨ρ2, b1, b2⟩ := mul_rt p p
  obtain ⟨ρ3, c1, c2⟩ := mul_rt c b
  refine ⟨Real.sqrt (ρ1 * ρ2) * val p, ρ1 * ρ3 * val b, ?_, ⟨_, Wt.sqrt hw (k := 1) (a1.mul hw b1), rfl⟩, ⟨_, a1.mul hw c1, rfl⟩, ⟨ρ1⁻¹, a1.inv hw, ?_⟩⟩
  · have h := Real.mul_self_sqrt (mul_nonneg (a1.pos hw).le (b1.pos hw).le)
    rw [a2, b2, c2]
    calc ρ1 * (ρ2 * (val p * val p) + ρ3 * (val c * val b)) = ρ1 * ρ2 * (val p * val p) + val c * (ρ1 * ρ3 * val b) := by ring
      _ = (Real.sqrt (ρ1 * ρ2) * Real.sqrt (ρ1 * ρ2)) * (val p * val p) + val c * (ρ1 * ρ3 * val b) := by rw [h]
      _ = _ := by ring
  · rw [c2]
    have := (a1.pos hw).ne'
    field_simp

end Std
end LA
