import Verif.Proofs.StdHqr3

/-! # `hqr2` in rounded arithmetic: the shift -/

set_option linter.unusedSectionVars false

namespace LA
open Finset Matrix
namespace Std
open Sfp SVD
open Eigen (Sm tadd exd tmk Tt Tt_diag Tt_off subDiag hqrShift)

variable {α : Type} [Zero α] [One α] [Add α] [Sub α] [Neg α] [Mul α] [FloatOps α] [Sfp α]

theorem w24 (hkh : kh α ≤ 1) {k : Nat} (hk : k ≤ 24) : w α ^ k ≤ 2 := by
  have := pw_kh (α := α) hk
  linarith

/-- One rounding is at most `kh / 24`. -/
theorem w_kh : 24 * (w α - 1) ≤ kh α := by
  have h := one_add_mul_le_pow (a := w α - 1) (by linarith [w_one (α := α)]) 24
  unfold kh
  rw [show 1 + (w α - 1) = w α by ring] at h
  push_cast at h
  linarith

theorem subDiag_ok {nn n : Nat} {x : α} {h : Buf α} {H : Nat → Nat → α} (hh : FullG h nn nn H) (hn : n < nn) :
    Post (subDiag nn n x h) fun h' => FullG h' nn nn (fun a b => if a = b ∧ a ≤ n then H a b - x else H a b) := by
  unfold subDiag
  refine (loop_post (fun i (h' : Buf α) => FullG h' nn nn (fun a b => if a = b ∧ a < i then H a b - x else H a b)) (by omega)
      (hh.congr fun a b _ _ => by rw [if_neg (by omega)]) ?_).mono fun h' h1 => h1.congr fun a b _ _ => ?_
  swap
  · by_cases h2 : a = b ∧ a ≤ n
    · rw [if_pos h2, if_pos (by omega)]
    · rw [if_neg h2, if_neg (by omega)]
  intro i h' _ h2 hg
  rw [hg.rd (by omega) (by omega), ok_bind, if_neg (by omega)]
  refine (FullG.wrP hg (i := i) (j := i) (by omega) (by omega) _).mono fun h5 hg5 => hg5.congr fun a b _ _ => ?_
  clear hg hg5 hh
  unfold upd
  grind

/-- A shift by `x` changes the table by rounding only. -/
theorem shift_tab {n : Nat} {e : Nat → ℝ} {F : Nat → Nat → α} {X : Nat → Nat → ℝ} {x ex : α} {M : ℝ} (hkh : kh α ≤ 1) (h0M : 0 ≤ M)
    (hlow : ∀ a b, a ≤ n → X a b = val (F a b)) (hdg : ∀ a, a ≤ n → |X a a| ≤ 7 * M) (hx : |val x| ≤ 10 * M) (h4 : |val ex + val x| ≤ 4 * M) :
    ∃ X', (∀ a b, a ≤ n → X' a b = val ((fun a b => if a = b ∧ a ≤ n then F a b - x else F a b : Nat → Nat → α) a b)) ∧
      (∀ a b, |Tt (n + 1) e X (val ex) a b - Tt (n + 1) e X' (val (ex + x)) a b| ≤ kh α * M) ∧ |val (ex + x)| ≤ 6 * M ∧
      ∀ a b, (a ≠ b ∨ n < a) → X' a b = X a b := by
  have hw : 1 ≤ w α := w_one
  have hwk := w_kh (α := α)
  have r1 := (add_rt ex x).sub hw
  rw [pow_one] at r1
  have hw1 : 0 ≤ w α - 1 := by linarith
  have e1 : |val (ex + x) - (val ex + val x)| ≤ (w α - 1) * (4 * M) := r1.trans (mul_le_mul_of_nonneg_left h4 hw1)
  refine ⟨fun a b => if a = b ∧ a ≤ n then val (F a b - x) else X a b, ?_, ?_, ?_, ?_⟩
  · intro a b ha
    beta_reduce
    split_ifs
    · rfl
    · exact hlow a b ha
  · intro a b
    by_cases h : a = b ∧ a ≤ n
    · obtain ⟨rfl, h⟩ := h
      rw [Tt_diag (by omega), Tt_diag (by omega), if_pos ⟨rfl, h⟩, hlow a a h]
      have r2 := (sub_rt (F a a) x).sub hw
      rw [pow_one, ← hlow a a h] at r2
      have e2 : |X a a - val x| ≤ 17 * M := (abs_sub _ _).trans (by linarith [hdg a h])
      have e3 := r2.trans (mul_le_mul_of_nonneg_left e2 hw1)
      rw [← hlow a a h, show X a a + val ex - (val (F a a - x) + val (ex + x)) =
        -((val (F a a - x) - (X a a - val x)) + (val (ex + x) - (val ex + val x))) by ring, abs_neg]
      refine (abs_add_le _ _).trans ?_
      nlinarith
    · have : Tt (n + 1) e X (val ex) a b - Tt (n + 1) e (fun a b => if a = b ∧ a ≤ n then val (F a b - x) else X a b) (val (ex + x)) a b = 0 := by
        unfold Tt tadd tmk exd
        beta_reduce
        rw [if_neg h, if_neg (show ¬(a = b ∧ a < n + 1) by omega), if_neg (show ¬(a = b ∧ a < n + 1) by omega), sub_self]
      rw [this, abs_zero]
      exact mul_nonneg kh_nonneg h0M
  · have h5 := abs_add_le (val (ex + x) - (val ex + val x)) (val ex + val x)
    rw [sub_add_cancel] at h5
    nlinarith
  · intro a b hab
    exact if_neg (by omega)

/-- The correction of the exceptional shift. -/
theorem corr_bd {p y x w' s c : α} {D bc M : ℝ} (hkh : kh α ≤ 1) (hp : Rt (w α) 3 (val p) ((val y - val x) / 2)) (hyx : |val y - val x| ≤ 2 * M)
    (hw' : Rt (w α) 1 (val w') bc) (hbc : |bc| ≤ M * M) (h0M : 0 ≤ M) (hs0 : 0 < val (p * p + w')) (hs : FloatOps.sqrt (p * p + w') = .ok s)
    (hD : D = val (p + (if FloatOps.lt y x then -s else s))) : D ≠ 0 ∧ (Rt (w α) 1 (val c) (val w' / D) → |val c| ≤ 2 * M) := by
  have hw : 1 ≤ w α := w_one
  obtain ⟨s', s1, s2⟩ := sqrt_rt hs0.le
  rw [hs] at s1
  injection s1 with s1
  subst s1
  set σ := (if FloatOps.lt y x then -s else s) with hσ
  have hsp : 0 < val s := s2.pos hw (Real.sqrt_pos.2 hs0)
  have hσa : |val σ| = val s := by
    rw [hσ]; split_ifs
    · rw [Sfp.neg, abs_neg, abs_of_pos hsp]
    · exact abs_of_pos hsp
  have hPs : 0 ≤ val p * val σ := by
    obtain ⟨ρ, ρ1, ρ2⟩ := hp
    have := ρ1.pos hw
    rw [hσ]
    by_cases h : FloatOps.lt y x = true
    · rw [if_pos h, Sfp.neg, ρ2]
      rw [Sfp.lt] at h
      have : 0 ≤ ρ * ((val x - val y) / 2) := mul_nonneg this.le (by linarith)
      nlinarith
    · rw [if_neg h, ρ2]
      rw [Sfp.lt, not_lt] at h
      exact mul_nonneg (mul_nonneg this.le (by linarith)) hsp.le
  have hDr := add_rt p σ
  rw [← hD] at hDr
  have hσ0 : val σ ≠ 0 := fun h => by rw [h, abs_zero] at hσa; linarith
  have hsum : |val p + val σ| = |val p| + val s := by rw [← hσa]; exact (abs_add_eq_add_abs_iff _ _).2 (by
    rcases le_or_gt 0 (val p) with h | h
    · left; refine ⟨h, ?_⟩
      rcases eq_or_lt_of_le h with h1 | h1
      · rw [← h1] at hp
        have h2 := (hp.zero_iff hw).1 rfl
        rw [hσ, if_neg (by rw [Sfp.lt]; linarith)]
        exact hsp.le
      · by_contra hc; push Not at hc; nlinarith
    · right; refine ⟨h.le, ?_⟩
      by_contra hc; push Not at hc; nlinarith)
  have hsum0 : val p + val σ ≠ 0 := fun h => by
    rw [h, abs_zero] at hsum; have := abs_nonneg (val p); linarith
  have hD0 : D ≠ 0 := hDr.ne hw hsum0
  refine ⟨hD0, fun hc => ?_⟩
  have hc2 : Rt (w α) 2 |val c| (|val w'| / (|val p| + val s)) := by
    have := (hc.trans hw ((Rt.refl (val w')).div hw hDr)).abs hw
    rw [abs_div, hsum] at this
    exact this
  have hden : 0 < |val p| + val s := by have := abs_nonneg (val p); linarith
  have h1 : |val c| * (|val p| + val s) ≤ w α ^ 2 * |val w'| := by
    have := hc2.le hw (by positivity)
    rw [← mul_div_assoc, le_div_iff₀ hden] at this
    exact this
  have w8 := w24 hkh (k := 8) (by omega)
  have w1 := w24 hkh (k := 6) (by omega)
  have hP : |val p| ≤ w α ^ 3 * M := by
    have := (hp.abs hw).le hw (abs_nonneg _)
    refine this.trans (mul_le_mul_of_nonneg_left ?_ (pw_pos hw 3).le)
    rw [abs_div, abs_two]; linarith
  obtain ⟨ρ1, a1, a2⟩ := add_rt (p * p) w'
  obtain ⟨ρ2, b1, b2⟩ := mul_rt p p
  have p1 := a1.pos hw
  have p2 := b1.pos hw
  have hwp := pw_pos hw (k := 1)
  rw [pow_one] at hwp
  rcases le_or_gt 0 (val w') with hW | hW
  · have hWM : val w' ≤ w α * (M * M) := by
      have := (hw'.abs hw).le hw (abs_nonneg _)
      rw [pow_one] at this
      exact (le_abs_self _).trans (this.trans (mul_le_mul_of_nonneg_left hbc hwp.le))
    rw [abs_of_nonneg hW] at h1
    have hs2 : val w' ≤ w α ^ 3 * (val s * val s) := by
      have c1 : val w' ≤ w α * val (p * p + w') := by
        have d1 := a1.1
        rw [pow_one] at d1
        rw [a2, b2]
        have : 0 ≤ ρ2 * (val p * val p) := mul_nonneg p2.le (mul_self_nonneg _)
        calc val w' ≤ 1 * (ρ2 * (val p * val p) + val w') := by linarith
          _ ≤ (ρ1 * w α) * (ρ2 * (val p * val p) + val w') := mul_le_mul_of_nonneg_right d1 (by linarith)
          _ = _ := by ring
      have c2 : val (p * p + w') ≤ w α ^ 2 * (val s * val s) := by
        obtain ⟨ρ3, e1, e2⟩ := s2
        have d1 := e1.1
        rw [pow_one] at d1
        have d2 := Real.mul_self_sqrt hs0.le
        have d3 : 1 * 1 ≤ (ρ3 * w α) * (ρ3 * w α) := mul_le_mul d1 d1 zero_le_one (by linarith)
        rw [e2]
        calc val (p * p + w') = 1 * 1 * (Real.sqrt (val (p * p + w')) * Real.sqrt (val (p * p + w'))) := by rw [d2]; ring
          _ ≤ _ := mul_le_mul_of_nonneg_right d3 (mul_self_nonneg _)
          _ = _ := by ring
      calc val w' ≤ w α * val (p * p + w') := c1
        _ ≤ w α * (w α ^ 2 * (val s * val s)) := mul_le_mul_of_nonneg_left c2 hwp.le
        _ = _ := by ring
    refine abs_le_of_sq_le_sq ?_ (by linarith)
    have h2 : |val c| * val s ≤ w α ^ 2 * val w' := by
      have := mul_nonneg (abs_nonneg (val c)) (abs_nonneg (val p)); linarith
    have h3 : |val c| * val s * (|val c| * val s) ≤ w α ^ 2 * val w' * (w α ^ 2 * val w') :=
      mul_le_mul h2 h2 (by positivity) (by positivity)
    have h4 : val c ^ 2 * (val s * val s) = |val c| * val s * (|val c| * val s) := by rw [← sq_abs]; ring
    have h5 : val c ^ 2 * (val s * val s) ≤ (w α ^ 7 * val w') * (val s * val s) := by
      rw [h4]
      refine h3.trans ?_
      calc w α ^ 2 * val w' * (w α ^ 2 * val w') = (w α ^ 4 * val w') * val w' := by ring
        _ ≤ (w α ^ 4 * val w') * (w α ^ 3 * (val s * val s)) := mul_le_mul_of_nonneg_left hs2 (by positivity)
        _ = _ := by ring
    have h6 := le_of_mul_le_mul_right h5 (mul_pos hsp hsp)
    have h7 : w α ^ 7 * val w' ≤ w α ^ 7 * (w α * (M * M)) := mul_le_mul_of_nonneg_left hWM (by positivity)
    have h8 : w α ^ 8 * (M * M) ≤ 2 * (M * M) := mul_le_mul_of_nonneg_right w8 (mul_self_nonneg _)
    nlinarith
  · rw [abs_of_neg hW] at h1
    have h2 : -val w' ≤ w α * (val p * val p) := by
      rw [a2, b2] at hs0
      have : 0 < ρ2 * (val p * val p) + val w' := by by_contra hc; push Not at hc; nlinarith
      have d2 := b1.2
      rw [pow_one] at d2
      have := mul_le_mul_of_nonneg_right d2 (mul_self_nonneg (val p))
      linarith
    have hp0 : 0 < |val p| := by
      refine abs_pos.2 fun h => ?_
      rw [h] at h2; linarith
    have h3 : |val c| * |val p| ≤ (w α ^ 3 * |val p|) * |val p| := by
      have h4 := mul_nonneg (abs_nonneg (val c)) hsp.le
      have h5 : w α ^ 2 * -val w' ≤ w α ^ 2 * (w α * (val p * val p)) := mul_le_mul_of_nonneg_left h2 (pw_pos hw 2).le
      have h6 := abs_mul_abs_self (val p)
      calc |val c| * |val p| ≤ w α ^ 2 * (w α * (val p * val p)) := by linarith
        _ = _ := by rw [← h6]; ring
    have h4 := le_of_mul_le_mul_right h3 hp0
    have h5 : w α ^ 3 * |val p| ≤ w α ^ 3 * (w α ^ 3 * M) := mul_le_mul_of_nonneg_left hP (pw_pos hw 3).le
    have h6 : w α ^ 6 * M ≤ 2 * M := mul_le_mul_of_nonneg_right w1 h0M
    calc |val c| ≤ w α ^ 3 * (w α ^ 3 * M) := h4.trans h5
      _ = w α ^ 6 * M := by ring
      _ ≤ _ := h6

theorem hqrShift_ok {nn n iter : Nat} {h : Buf α} {ex : α} {M : ℝ} {e : Nat → ℝ} {F : Nat → Nat → α} {X : Nat → Nat → ℝ} (hh : FullG h nn nn F)
    (hkh : kh α ≤ 1) (hlow : ∀ a b, a ≤ n → X a b = val (F a b)) (hn : n < nn) (h2 : 2 ≤ n)
    (hM : ∀ a b, a < nn → b < nn → |Tt (n + 1) e X (val ex) a b| ≤ M) (hex : |val ex| ≤ 6 * M) :
    Post (hqrShift nn n iter h ex) fun o => ∃ F' X', FullG o.1 nn nn F' ∧ (∀ a b, a ≤ n → X' a b = val (F' a b)) ∧
      (∀ a b, |Tt (n + 1) e X (val ex) a b - Tt (n + 1) e X' (val o.2.1) a b| ≤ kh α * M) ∧
      |val o.2.1| ≤ 6 * M ∧ ∀ a b, (a ≠ b ∨ n < a) → X' a b = X a b := by
  have hw : 1 ≤ w α := w_one
  have h0M : 0 ≤ M := (abs_nonneg _).trans (hM 0 0 (by omega) (by omega))
  have hk0 := mul_nonneg (kh_nonneg (α := α)) h0M
  have hdg : ∀ a, a ≤ n → |X a a| ≤ 7 * M := fun a ha => by
    have h5 := hM a a (by omega) (by omega)
    rw [Tt_diag (by omega)] at h5
    have h6 := abs_sub (X a a + val ex) (val ex)
    rw [add_sub_cancel_right] at h6
    linarith
  have hsame : ∃ F' X', FullG h nn nn F' ∧ (∀ a b, a ≤ n → X' a b = val (F' a b)) ∧
      (∀ a b, |Tt (n + 1) e X (val ex) a b - Tt (n + 1) e X' (val ex) a b| ≤ kh α * M) ∧
      |val ex| ≤ 6 * M ∧ ∀ a b, (a ≠ b ∨ n < a) → X' a b = X a b :=
    ⟨F, X, hh, hlow, fun a b => by rw [sub_self, abs_zero]; exact hk0, hex, fun _ _ _ => rfl⟩
  unfold hqrShift
  rw [hh.rd (by omega) (by omega), ok_bind, hh.rd (by omega) (by omega), ok_bind, hh.rd (by omega) (by omega), ok_bind, hh.rd (by omega) (by omega),
    ok_bind]
  dsimp only
  by_cases h10 : iter = 10
  · subst h10
    simp only [beq_self_eq_true, if_true]
    obtain ⟨h1, hr1, hg1⟩ := subDiag_ok (x := F n n) hh hn
    rw [hr1, ok_bind, hg1.rd (by omega) (by omega), ok_bind, hg1.rd (by omega) (by omega), ok_bind]
    have hx4 : |val ex + val (F n n)| ≤ 4 * M := by
      have := hM n n hn hn
      rw [Tt_diag (by omega), hlow n n le_rfl] at this
      rw [add_comm]; linarith
    have hx10 : |val (F n n)| ≤ 10 * M := by rw [← hlow n n le_rfl]; linarith [hdg n le_rfl]
    obtain ⟨X', c1, c2, c3, c4⟩ := shift_tab (e := e) (x := F n n) (ex := ex) hkh h0M hlow hdg hx10 hx4
    exact Post.ok ⟨_, X', hg1, c1, c2, c3, c4⟩
  · have e10 : (iter == 10) = false := by simpa using h10
    rw [e10]
    simp only [if_false, Bool.false_eq_true, pure_bind]
    by_cases h30 : iter = 30
    · subst h30
      simp only [beq_self_eq_true, if_true]
      have b1 := hM n n hn hn
      have b2 := hM (n - 1) (n - 1) (by omega) (by omega)
      have b3 := hM n (n - 1) (by omega) (by omega)
      have b4 := hM (n - 1) n (by omega) (by omega)
      rw [Tt_diag (by omega), hlow _ _ (by omega)] at b1
      rw [Tt_diag (by omega), hlow _ _ (by omega)] at b2
      rw [Tt_off (by omega) (by omega) (by omega), hlow _ _ (by omega)] at b3
      rw [Tt_off (by omega) (by omega) (by omega), hlow _ _ (by omega)] at b4
      have b5 := hdg n le_rfl
      rw [hlow _ _ (by omega)] at b5
      have hw' := mul_rt (F n (n - 1)) (F (n - 1) n)
      have hbc : |val (F n (n - 1)) * val (F (n - 1) n)| ≤ M * M := by
        rw [abs_mul]; exact mul_le_mul b3 b4 (abs_nonneg _) h0M
      generalize F n n = x at *
      generalize F (n - 1) (n - 1) = y at *
      generalize F n (n - 1) * F (n - 1) n = w' at *
      have h2c : Rt (w α) 1 (val (FloatOps.cst 2 1 : α)) 2 := by have := cst_rt (α := α) 2 1; norm_num at this; exact this
      obtain ⟨p, p1, p2⟩ := div_rt (y - x) (h2c.ne hw two_ne_zero)
      have p3 : Rt (w α) 3 (val p) ((val y - val x) / 2) := p2.trans hw (k := 1) (l := 1 + 1) ((sub_rt y x).div hw h2c)
      rw [p1, ok_bind]
      by_cases hs : 0 < val (p * p + w')
      · rw [if_pos (by rw [Sfp.lt, Sfp.zero]; exact hs)]
        obtain ⟨s, s1, s2⟩ := sqrt_rt hs.le
        rw [s1, ok_bind, ok_bind]
        have hyx : |val y - val x| ≤ 2 * M := by
          rw [show val y - val x = (val y + val ex) - (val x + val ex) by ring]
          exact (abs_sub _ _).trans (by linarith)
        have hcb := fun c => corr_bd (c := c) (D := val (p + (if FloatOps.lt y x then -s else s))) hkh p3 hyx hw' hbc h0M hs s1 rfl
        obtain ⟨c, c1, c2⟩ := div_rt w' (hcb p).1
        have hc := (hcb c).2 c2
        rw [c1, ok_bind]
        obtain ⟨h1, hr1, hg1⟩ := subDiag_ok (x := x - c) hh hn
        rw [hr1, ok_bind]
        have hsr := (sub_rt x c).sub hw
        rw [pow_one] at hsr
        have hxc : |val x - val c| ≤ 9 * M := (abs_sub _ _).trans (by linarith)
        have hwk := w_kh (α := α)
        have hsr2 : |val (x - c) - (val x - val c)| ≤ M := by
          have : w α - 1 ≤ 1 / 9 := by linarith
          refine hsr.trans ((mul_le_mul this hxc (abs_nonneg _) (by norm_num)).trans (by linarith))
        have hx10 : |val (x - c)| ≤ 10 * M := by
          have := abs_add_le (val (x - c) - (val x - val c)) (val x - val c)
          rw [sub_add_cancel] at this
          linarith
        have hx4 : |val ex + val (x - c)| ≤ 4 * M := by
          have t1 := abs_add_le (val (x - c) - (val x - val c)) (val x + val ex - val c)
          have t2 := abs_sub (val x + val ex) (val c)
          rw [show val (x - c) - (val x - val c) + (val x + val ex - val c) = val ex + val (x - c) by ring] at t1
          linarith
        obtain ⟨X', d1, d2, d3, d4⟩ := shift_tab (e := e) (x := x - c) (ex := ex) hkh h0M hlow hdg hx10 hx4
        exact Post.ok ⟨_, X', hg1, d1, d2, d3, d4⟩
      · rw [if_neg (by rw [Sfp.lt, Sfp.zero]; exact hs)]
        exact Post.ok hsame
    · have e30 : (iter == 30) = false := by simpa using h30
      rw [e30]
      simp only [if_false, Bool.false_eq_true]
      exact Post.ok hsame

end Std
end LA
