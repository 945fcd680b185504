import Verif.Proofs.StdMain

/-! # The main loop of `SVD::new` in rounded arithmetic: the chase -/

set_option linter.unusedSectionVars false

namespace LA
open Finset Matrix
namespace Std
open Sfp SVD

variable {α : Type} [Zero α] [One α] [Add α] [Sub α] [Neg α] [Mul α] [FloatOps α] [Sfp α]
variable {m n : Nat} {κ T : ℝ} {A : Matrix (Fin m) (Fin n) ℝ}

/-- Bidiagonal, with the bulge `(f, g)` in row `j - 1`. -/
def bulge (k j : Nat) (s e : Nat → ℝ) (f g : ℝ) : Nat → Nat → ℝ := fun i c =>
  if k < j ∧ i + 1 = j then (if c = i then s i else if c = j then f else if c = j + 1 then g else 0) else bid s e i c

/-- The table between the two rotations of a step of the chase. -/
def half (k j : Nat) (s e : Nat → ℝ) (t f1 e1 g1 s1 : ℝ) : Nat → Nat → ℝ := fun i c =>
  bid (updv (updv s j f1) (j + 1) s1) (fun i => if i = j then e1 else if k < j ∧ i + 1 = j then t else e i) i c +
    if i = j + 1 ∧ c = j then g1 else 0

theorem chase_rot1 {k j : Nat} {s e : Nat → ℝ} {f g c sn τ t f1 e1 g1 s1 κ0 : ℝ} (h0 : 0 ≤ κ0) (hkj : k ≤ j)
    (hk : k = j → ∀ i, i + 1 = k → e i = 0) (h1 : c * f + sn * g = τ) (h2 : -sn * f + c * g = 0)
    (t1 : |t - τ| ≤ κ0 * (|f| + |g|)) (t2 : |f1 - (c * s j + sn * e j)| ≤ κ0 * (|s j| + |e j|))
    (t3 : |e1 - (c * e j - sn * s j)| ≤ κ0 * (|e j| + |s j|)) (t4 : |g1 - sn * s (j + 1)| ≤ κ0 * |s (j + 1)|)
    (t5 : |s1 - c * s (j + 1)| ≤ κ0 * |s (j + 1)|) :
    RotErr κ0 m n j (j + 1) c sn (bulge k j s e f g) (half k j s e t f1 e1 g1 s1) := by
  refine RotErr.of_rows fun i _ => ?_
  by_cases hi : k < j ∧ i + 1 = j
  · obtain ⟨hi1, rfl⟩ := hi
    refine ⟨f, g, t, 0, ?_, ?_, ?_, ?_, by rw [h1]; exact t1, by rw [h2, sub_zero, abs_zero]; positivity, ?_⟩
    · simp only [bulge]; grind
    · simp only [bulge]; grind
    · simp only [half, bid, updv]; grind
    · simp only [half, bid, updv]; grind
    · intro q _ _ _
      simp only [half, bulge, bid, updv]; grind
  · by_cases hi2 : i = j
    · subst hi2
      refine ⟨s i, e i, f1, e1, ?_, ?_, ?_, ?_, t2, ?_, ?_⟩
      · simp only [bulge, bid]; grind
      · simp only [bulge, bid]; grind
      · simp only [half, bid, updv]; grind
      · simp only [half, bid, updv]; grind
      · rw [show -sn * s i + c * e i = c * e i - sn * s i by ring, add_comm |s i|]; exact t3
      · intro q _ _ _
        simp only [half, bulge, bid, updv]; grind
    · by_cases hi3 : i = j + 1
      · subst hi3
        refine ⟨0, s (j + 1), g1, s1, ?_, ?_, ?_, ?_, by simpa using t4, by simpa using t5, ?_⟩
        · simp only [bulge, bid]; grind
        · simp only [bulge, bid]; grind
        · simp only [half, bid, updv]; grind
        · simp only [half, bid, updv]; grind
        · intro q _ _ _
          simp only [half, bulge, bid, updv]; grind
      · have hz : i + 1 = j → e i = 0 := fun h => hk (by omega) i (by omega)
        clear t1 t2 t3 t4 t5 h1 h2 hk
        refine ⟨0, 0, 0, 0, ?_, ?_, ?_, ?_, by simp, by simp, ?_⟩
        · simp only [bulge, bid]; grind
        · simp only [bulge, bid]; grind
        · simp only [half, bid, updv]; grind
        · simp only [half, bid, updv]; grind
        · intro q _ _ _
          simp only [half, bulge, bid, updv]; grind

theorem chase_rot2 {k j : Nat} {s e : Nat → ℝ} {c sn τ t0 f1 e1 g1 s1 κ0 t f' g' s' e' : ℝ} (h0 : 0 ≤ κ0) (hkj : k ≤ j)
    (h1 : c * f1 + sn * g1 = τ) (h2 : -sn * f1 + c * g1 = 0)
    (t1 : |t - τ| ≤ κ0 * (|f1| + |g1|)) (t2 : |f' - (c * e1 + sn * s1)| ≤ κ0 * (|e1| + |s1|))
    (t3 : |s' - (-sn * e1 + c * s1)| ≤ κ0 * (|e1| + |s1|)) (t4 : |g' - sn * e (j + 1)| ≤ κ0 * |e (j + 1)|)
    (t5 : |e' - c * e (j + 1)| ≤ κ0 * |e (j + 1)|) :
    RotErr κ0 n m j (j + 1) c sn (fun q i => half k j s e t0 f1 e1 g1 s1 i q)
      (fun q i => bulge k (j + 1) (updv (updv s j t) (j + 1) s')
        (fun i => if i = j then e1 else if i = j + 1 then e' else if k < j ∧ i + 1 = j then t0 else e i) f' g' i q) := by
  refine RotErr.of_rows fun q _ => ?_
  by_cases hq : q = j
  · subst hq
    refine ⟨f1, g1, t, 0, ?_, ?_, ?_, ?_, by rw [h1]; exact t1, by rw [h2, sub_zero, abs_zero]; positivity, ?_⟩
    · simp only [half, bid, updv]; grind
    · simp only [half, bid, updv]; grind
    · simp only [bulge, bid, updv]; grind
    · simp only [bulge, bid, updv]; grind
    · intro i _ _ _
      simp only [half, bulge, bid, updv]; grind
  · by_cases hq2 : q = j + 1
    · subst hq2
      refine ⟨e1, s1, f', s', ?_, ?_, ?_, ?_, t2, t3, ?_⟩
      · simp only [half, bid, updv]; grind
      · simp only [half, bid, updv]; grind
      · simp only [bulge, bid, updv]; grind
      · simp only [bulge, bid, updv]; grind
      · intro i _ _ _
        simp only [half, bulge, bid, updv]; grind
    · by_cases hq3 : q = j + 2
      · subst hq3
        refine ⟨0, e (j + 1), g', e', ?_, ?_, ?_, ?_, by simpa using t4, by simpa using t5, ?_⟩
        · simp only [half, bid, updv]; grind
        · simp only [half, bid, updv]; grind
        · simp only [bulge, bid, updv]; grind
        · simp only [bulge, bid, updv]; grind
        · intro i _ _ _
          simp only [half, bulge, bid, updv]; grind
      · clear t1 t2 t3 t4 t5 h1 h2
        refine ⟨0, 0, 0, 0, ?_, ?_, ?_, ?_, by simp, by simp, ?_⟩
        · simp only [half, bid, updv]; grind
        · simp only [half, bid, updv]; grind
        · simp only [bulge, bid, updv]; grind
        · simp only [bulge, bid, updv]; grind
        · intro i _ _ _
          simp only [half, bulge, bid, updv]; grind

/-- One step of the chase. -/
theorem chase_ok {k j r : Nat} {st : Main α} {s e : Nat → α} {U V : Nat → Nat → α} {f g : α} (hκ : 2 * k0 α ≤ κ) (hT : 0 ≤ T)
    (hv : View m n st s e U V) (hF : NFv m n κ T A r U V (bulge k j (vv s) (vv e) (val f) (val g)))
    (hkj : k ≤ j) (hj : j + 1 < n) (hnm : n ≤ m) (hg : val g ≠ 0) (hs : val (s (j + 1)) ≠ 0) (hk : k = j → ∀ i, i + 1 = k → val (e i) = 0) :
    ∃ st' s' e' f' g' U' V', chase m n k j (st, f, g) = .ok (st', f', g') ∧ View m n st' s' e' U' V' ∧
      NFv m n κ T A (r + 2) U' V' (bulge k (j + 1) (vv s') (vv e') (val f') (val g')) ∧
      (val (e (j + 1)) ≠ 0 → val g' ≠ 0) ∧ (val (e (j + 1)) = 0 → val g' = 0) ∧
      (∀ i, i ≠ j → i ≠ j + 1 → s' i = s i) ∧ (val (e (j + 1)) = 0 → val (e' (j + 1)) = 0) ∧
      (∀ i, i + 1 < j ∨ j + 1 < i → e' i = e i) ∧ (∀ i, k = j → i + 1 = j → e' i = e i) := by
  obtain ⟨t1, c1, n1, τ1, C1, N1, a1, a3, a4, hr1, hN1⟩ := rot_facts (a := f) hg
  have hg2 : val (n1 * s (j + 1)) ≠ 0 := mul_ne (hr1.sn_ne hN1) hs
  obtain ⟨t2, c2, n2, τ2, C2, N2, b1, b3, b4, hr2, hN2⟩ := rot_facts (a := c1 * s j + n1 * e j) hg2
  -- the possibly updated `e`
  obtain ⟨e0, E0, he0, hve0, hE1, hE2, hE3⟩ : ∃ e0 E0, (if (j != k) = true then (do wr st.e (← usub j 1) t1) else
      (.ok st.e : R (Buf α))) = .ok e0 ∧ Full e0 n E0 ∧ (∀ i, k < j → i + 1 = j → E0 i = t1) ∧
      (∀ i, i + 1 ≠ j → E0 i = e i) ∧ (∀ i, k = j → E0 i = e i) := by
    by_cases hjk : j = k
    · subst hjk
      exact ⟨st.e, e, by simp, hv.e, fun i h => by omega, fun _ _ => rfl, fun _ _ => rfl⟩
    · obtain ⟨e1, he1, hve1⟩ := hv.e.wr (i := j - 1) (by omega) t1
      refine ⟨e1, _, ?_, hve1, fun i _ hi => ?_, fun i hi => ?_, fun i hi => by omega⟩
      · rw [if_pos (by simpa using hjk), usub_ok (by omega), ok_bind, he1]
      · rw [show i = j - 1 by omega, updv_same]
      · rw [updv_ne (by omega)]
  obtain ⟨e1, he1, hve1⟩ := hve0.wr (i := j) (by omega) (c1 * e j - n1 * s j)
  obtain ⟨x1, hx1, hvx1⟩ := hv.s.wr (i := j + 1) (by omega) (c1 * s (j + 1))
  obtain ⟨v1, hv1, hvv1⟩ := rotCols_ok hv.v (a := j) (b := j + 1) (by omega) (by omega) (by omega) c1 n1
  obtain ⟨x2, hx2, hvx2⟩ := hvx1.wr (i := j) (by omega) t2
  obtain ⟨x3, hx3, hvx3⟩ := hvx2.wr (i := j + 1) (by omega) (-n2 * (c1 * e j - n1 * s j) + c2 * (c1 * s (j + 1)))
  obtain ⟨e2, he2, hve2⟩ := hve1.wr (i := j + 1) (by omega) (c2 * e (j + 1))
  obtain ⟨u1, hu1, hvu1⟩ := rotCols_ok hv.u (a := j) (b := j + 1) (by omega) (by omega) (by omega) c2 n2
  have ej : E0 j = e j := hE2 j (by omega)
  have ej1 : E0 (j + 1) = e (j + 1) := hE2 (j + 1) (by omega)
  have hF1 := hF.rotV k0_nonneg hκ hT (a := j) (b := j + 1) (by omega) (by omega) (by omega) hr1.unit (rotF_err (F := V) hr1)
    (chase_rot1 (m := m) (n := n) (t := val t1) (f1 := val (c1 * s j + n1 * e j)) (e1 := val (c1 * e j - n1 * s j))
      (g1 := val (n1 * s (j + 1))) (s1 := val (c1 * s (j + 1))) k0_nonneg hkj hk hr1.top hr1.bot hr1.t_err
      (comb1 hr1.cs hr1.sn hr1.c_le.1 hr1.c_le.2) (comb3 hr1.cs hr1.sn hr1.c_le.1 hr1.c_le.2) (hr1.s_err _) (hr1.c_err _))
  have hF2 := hF1.rotU k0_nonneg hκ hT (a := j) (b := j + 1) (by omega) (by omega) (by omega) hr2.unit (rotF_err (F := U) hr2)
    (chase_rot2 (m := m) (n := n) (k := k) (s := vv s) (e := vv e) (t0 := val t1) (t := val t2)
      (f' := val (c2 * (c1 * e j - n1 * s j) + n2 * (c1 * s (j + 1))))
      (s' := val (-n2 * (c1 * e j - n1 * s j) + c2 * (c1 * s (j + 1)))) (g' := val (n2 * e (j + 1))) (e' := val (c2 * e (j + 1)))
      k0_nonneg hkj hr2.top hr2.bot hr2.t_err
      (comb1 hr2.cs hr2.sn hr2.c_le.1 hr2.c_le.2) (comb2 hr2.cs hr2.sn hr2.c_le.1 hr2.c_le.2) (hr2.s_err _) (hr2.c_err _))
  refine ⟨⟨x3, e2, u1, v1⟩, _, _, c2 * (c1 * e j - n1 * s j) + n2 * (c1 * s (j + 1)), n2 * e (j + 1), _, _, ?_,
    ⟨hvx3, hve2, hvu1, hvv1⟩, ?_, ?_, ?_, ?_, ?_, ?_, ?_⟩
  · unfold chase
    simp only [ok_bind, a1, a3, a4, pure_eq_ok]
    rw [he0]
    simp only [ok_bind, hv.s.rd (i := j) (by omega), hv.s.rd (i := j + 1) (by omega), hve0.rd (i := j) (by omega), ej,
      he1, hx1, hv1, b1, b3, b4, hx2, hve1.rd (i := j) (by omega), hvx2.rd (i := j + 1) (by omega), updv_same,
      updv_ne (show j + 1 ≠ j by omega), hx3, hve1.rd (i := j + 1) (by omega), ej1, he2]
    rw [if_pos (by omega), hu1]
    rfl
  · refine hF2.congr (fun _ _ _ _ => rfl) (fun _ _ _ _ => rfl) fun i q _ _ => ?_
    have e1 : updv (updv (vv s) j (val t2)) (j + 1) (val (-n2 * (c1 * e j - n1 * s j) + c2 * (c1 * s (j + 1)))) =
        vv (updv (updv (updv s (j + 1) (c1 * s (j + 1))) j t2) (j + 1) (-n2 * (c1 * e j - n1 * s j) + c2 * (c1 * s (j + 1)))) := by
      rw [vv_updv, vv_updv, vv_updv]
      funext i
      simp only [updv]
      grind
    have e2 : (fun i => if i = j then val (c1 * e j - n1 * s j) else if i = j + 1 then val (c2 * e (j + 1)) else
        if k < j ∧ i + 1 = j then val t1 else vv e i) = vv (updv (updv E0 j (c1 * e j - n1 * s j)) (j + 1) (c2 * e (j + 1))) := by
      rw [vv_updv, vv_updv]
      funext i
      simp only [updv]
      by_cases h1 : i = j
      · rw [if_pos h1, if_neg (by omega), if_pos h1]
      · by_cases h2 : i = j + 1
        · rw [if_neg h1, if_pos h2, if_pos h2]
        · rw [if_neg h1, if_neg h2, if_neg h2, if_neg h1]
          by_cases h3 : k < j ∧ i + 1 = j
          · rw [if_pos h3, vv, hE1 i h3.1 h3.2]
          · rw [if_neg h3, vv, vv]
            by_cases h4 : i + 1 = j
            · rw [hE3 i (by omega)]
            · rw [hE2 i h4]
    rw [e1, e2]
  · exact fun h => mul_ne (hr2.sn_ne hN2) h
  · exact fun h => mul_eq_zero' h
  · intro i h1 h2
    rw [updv_ne h2, updv_ne h1, updv_ne h2]
  · intro h
    rw [updv_same]
    exact mul_eq_zero' h
  · intro i h1
    rw [updv_ne (by omega), updv_ne (by omega), hE2 i (by omega)]
  · intro i h1 h2
    rw [updv_ne (by omega), updv_ne (by omega), hE3 i h1]

/-- The shift: never fails, and `g` is not zero. -/
theorem shiftFG_ok {p k : Nat} {s e : Nat → α} {sb eb : Buf α} (hs : Full sb n s) (he : Full eb n e)
    (hkp : k + 2 ≤ p) (hp : p ≤ n) (hnz : ∀ j, k ≤ j → j < p → val (s j) ≠ 0) (hne : ∀ j, k ≤ j → j + 1 < p → val (e j) ≠ 0) :
    ∃ f g, shiftFG p k sb eb = .ok (f, g) ∧ val g ≠ 0 := by
  have hw : 1 ≤ w α := w_one
  unfold shiftFG
  have h1 : usub p 1 = .ok (p - 1) := usub_ok (by omega)
  have h2 : usub p 2 = .ok (p - 2) := usub_ok (by omega)
  simp only [h1, h2, ok_bind, hs.rd (i := p - 1) (by omega), hs.rd (i := p - 2) (by omega), he.rd (i := p - 2) (by omega),
    hs.rd (i := k) (by omega), he.rd (i := k) (by omega)]
  obtain ⟨sc, hsc⟩ : ∃ sc : α, sc = FloatOps.max (FloatOps.max (FloatOps.max (FloatOps.max (FloatOps.abs (s (p - 1)))
    (FloatOps.abs (s (p - 2)))) (FloatOps.abs (e (p - 2)))) (FloatOps.abs (s k))) (FloatOps.abs (e k)) := ⟨_, rfl⟩
  rw [← hsc]
  have hsc0 : val sc ≠ 0 := by
    have h0 : 0 < |val (s (p - 1))| := abs_pos.2 (hnz _ (by omega) (by omega))
    have : |val (s (p - 1))| ≤ val sc := by
      rw [hsc]
      simp only [Sfp.max, Sfp.abs]
      exact le_max_of_le_left (le_max_of_le_left (le_max_of_le_left (le_max_left _ _)))
    exact (lt_of_lt_of_le h0 this).ne'
  obtain ⟨q1, d1, r1⟩ := div_rt (s (p - 1)) hsc0
  obtain ⟨q2, d2, r2⟩ := div_rt (s (p - 2)) hsc0
  obtain ⟨q3, d3, r3⟩ := div_rt (e (p - 2)) hsc0
  obtain ⟨q4, d4, r4⟩ := div_rt (s k) hsc0
  obtain ⟨q5, d5, r5⟩ := div_rt (e k) hsc0
  have n1 : val q1 ≠ 0 := r1.ne hw (div_ne_zero (hnz _ (by omega) (by omega)) hsc0)
  have n3 : val q3 ≠ 0 := r3.ne hw (div_ne_zero (hne _ (by omega) (by omega)) hsc0)
  have n4 : val q4 ≠ 0 := r4.ne hw (div_ne_zero (hnz _ (by omega) (by omega)) hsc0)
  have n5 : val q5 ≠ 0 := r5.ne hw (div_ne_zero (hne _ (by omega) (by omega)) hsc0)
  have h20 : val (FloatOps.cst 2 1 : α) ≠ 0 := (cst_rt 2 1).ne hw (by norm_num)
  obtain ⟨b, d6, -⟩ := div_rt ((q2 + q1) * (q2 - q1) + q3 * q3) h20
  simp only [d1, d2, d3, d4, d5, d6, ok_bind]
  set c : α := q1 * q3 * (q1 * q3) with hc
  have hcpos : 0 < val c := (mul_rt (q1 * q3) (q1 * q3)).pos hw (mul_self_pos.2 (mul_ne n1 n3))
  have hcond : (!(FloatOps.eq b 0) || !(FloatOps.eq c 0)) = true := by
    have : FloatOps.eq c 0 = false := by
      rw [Bool.eq_false_iff, Ne, Sfp.eq, Sfp.zero]
      exact hcpos.ne'
    rw [this]; simp
  have hbb : 0 ≤ val (b * b) := (mul_rt b b).nonneg hw (mul_self_nonneg _)
  have hbc : 0 < val (b * b + c) := (add_rt (b * b) c).pos hw (by linarith)
  obtain ⟨r, d7, r7⟩ := sqrt_rt hbc.le
  have hr : 0 < val r := r7.pos hw (Real.sqrt_pos.2 hbc)
  rw [if_pos hcond, d7, ok_bind]
  have hden : val (b + if FloatOps.lt b 0 = true then -r else r) ≠ 0 := by
    refine (add_rt _ _).ne hw ?_
    by_cases hb : FloatOps.lt b 0 = true
    · rw [if_pos hb, Sfp.neg]
      rw [Sfp.lt, Sfp.zero] at hb
      exact ne_of_lt (by linarith)
    · rw [if_neg hb]
      rw [Sfp.lt, Sfp.zero] at hb
      exact ne_of_gt (by linarith)
  obtain ⟨z, d8, -⟩ := div_rt c hden
  have d8' : RDiv.rdiv c (b + if FloatOps.lt b 0 = true then -r else r) = .ok z := d8
  simp only [d8', ok_bind]
  exact ⟨_, _, rfl, mul_ne n4 n5⟩

theorem kase3_post {p k r : Nat} {st : Main α} {s e : Nat → α} {U V : Nat → Nat → α} (hκ : 2 * k0 α ≤ κ) (hT : 0 ≤ T)
    (hv : View m n st s e U V) (hF : NFv m n κ T A r U V (bid (vv s) (vv e))) (hkp : k + 2 ≤ p) (hp : p ≤ n) (hnm : n ≤ m)
    (hnz : ∀ j, k ≤ j → j < p → val (s j) ≠ 0) (hne : ∀ j, k ≤ j → j + 1 < p → val (e j) ≠ 0)
    (hk : ∀ j, j + 1 = k → val (e j) = 0) (hp1 : val (e (p - 1)) = 0) :
    ∃ st', kase3 m n p k st = .ok st' ∧ ∃ s' e' U' V', View m n st' s' e' U' V' ∧
      NFv m n κ T A (r + 2 * (p - 1 - k)) U' V' (bid (vv s') (vv e')) ∧
      (∀ j, p ≤ j + 1 → val (e j) = 0 → val (e' j) = 0) ∧ (∀ j, p ≤ j → s' j = s j) := by
  obtain ⟨f, g, hfg, hg⟩ := shiftFG_ok hv.s hv.e hkp hp hnz hne
  unfold kase3
  have h1 : usub p 1 = .ok (p - 1) := usub_ok (by omega)
  have h2 : usub p 2 = .ok (p - 2) := usub_ok (by omega)
  simp only [hfg, ok_bind, h1, h2]
  have hloop := loop_post (lo := k) (hi := p - 1) (s := (st, f, g)) (f := fun j x => chase m n k j x)
    (fun j x => ∃ s' e' U' V', View m n x.1 s' e' U' V' ∧
      NFv m n κ T A (r + 2 * (j - k)) U' V' (bulge k j (vv s') (vv e') (val x.2.1) (val x.2.2)) ∧
      (j + 1 < p → val x.2.2 ≠ 0) ∧ (j + 1 = p → val x.2.2 = 0) ∧ (∀ i, j + 1 ≤ i → s' i = s i ∧ e' i = e i) ∧
      (∀ i, p ≤ i + 1 → val (e i) = 0 → val (e' i) = 0) ∧ (∀ i, p ≤ i → s' i = s i) ∧ (∀ i, i + 1 = k → val (e' i) = 0))
    (show k ≤ p - 1 by omega) ?_ ?_
  · obtain ⟨⟨st1, f1, g1⟩, hrun, s', e', U', V', r1, r2, -, r3, -, r4, r5, -⟩ := hloop
    obtain ⟨e1, he1, hve1⟩ := r1.e.wr (i := p - 2) (by omega) f1
    refine ⟨{ st1 with e := e1 }, ?_, s', _, U', V', ⟨r1.s, hve1, r1.u, r1.v⟩, ?_, ?_, r5⟩
    · rw [hrun]
      simp only [ok_bind]
      rw [he1]; rfl
    · refine r2.congr (fun _ _ _ _ => rfl) (fun _ _ _ _ => rfl) fun i c hi hc => ?_
      have h3 := r3 (by omega)
      dsimp only at h3 ⊢
      rw [h3, vv_updv]
      clear r3 r4 r5 hnz hne hk
      simp only [bulge, bid, updv]
      grind
    · intro j hj hj2
      rw [updv_ne (by omega)]
      exact r4 j hj hj2
  · refine ⟨s, e, U, V, hv, ?_, fun _ => hg, fun h => by omega, fun _ _ => ⟨rfl, rfl⟩, fun _ _ h => h, fun _ _ => rfl, hk⟩
    rw [Nat.sub_self, Nat.mul_zero, Nat.add_zero]
    refine hF.congr (fun _ _ _ _ => rfl) (fun _ _ _ _ => rfl) fun i c _ _ => ?_
    rw [bulge, if_neg (by omega)]
  · rintro j ⟨st1, f1, g1⟩ hkj hjp ⟨s1, e1, U1, V1, r1, r2, r3, -, r4, r5, r6, r7⟩
    dsimp only at r1 r2 r3 ⊢
    have hs1 : val (s1 (j + 1)) ≠ 0 := by rw [(r4 (j + 1) le_rfl).1]; exact hnz _ (by omega) (by omega)
    obtain ⟨st2, s2, e2, f2, g2, U2, V2, hrun, w2, q1, q2, q3, q4, q5, q6, q7⟩ :=
      chase_ok hκ hT r1 r2 hkj (by omega) hnm (r3 (by omega)) hs1 (fun _ => r7)
    refine ⟨_, hrun, s2, e2, U2, V2, w2, ?_, ?_, ?_, ?_, ?_, ?_, ?_⟩
    · rw [show r + 2 * (j + 1 - k) = r + 2 * (j - k) + 2 by omega]
      exact q1
    · intro h
      refine q2 ?_
      rw [(r4 (j + 1) le_rfl).2]
      exact hne _ (by omega) (by omega)
    · intro h
      refine q3 ?_
      rw [(r4 (j + 1) le_rfl).2, show j + 1 = p - 1 by omega, hp1]
    · intro i hi
      rw [q4 i (by omega) (by omega), q6 i (by omega)]
      exact r4 i (by omega)
    · intro i hi h0
      by_cases hij : i = j + 1
      · subst hij
        exact q5 (r5 _ hi h0)
      · rw [q6 i (by omega)]
        exact r5 i hi h0
    · intro i hi
      rw [q4 i (by omega) (by omega), r6 i hi]
    · intro i hi
      by_cases hik : i + 1 = j
      · rw [q7 i (by omega) hik, r7 i hi]
      · rw [q6 i (by omega), r7 i hi]

end Std
end LA
