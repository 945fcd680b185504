import Verif.Proofs.StdEigQl

/-! # The shift of a QL iteration in rounded arithmetic -/

set_option linter.unusedSectionVars false

namespace LA
open Finset Matrix
namespace Std
open Sfp SVD
open Eigen (trb tri trb_rot phi Sweep Dev tqlStep tqlRot tqlShift tqlIter tri_eq_trb)

variable {α : Type} [Zero α] [One α] [Add α] [Sub α] [Neg α] [Mul α] [FloatOps α] [Sfp α]

/-- `p + r` with the sign of `p`. -/
theorem shift_t {ph r0 : α} {p : ℝ} (hp : Rt (w α) 4 (val ph) p) (hr : Rt (w α) 4 (val r0) (Real.sqrt (val ph ^ 2 + 1))) :
    ∃ t : ℝ, Rt (w α) 9 (val (ph + if FloatOps.lt ph 0 then -r0 else r0)) t ∧ t ^ 2 = 2 * p * t + 1 ∧ 1 ≤ |t| := by
  have hw : 1 ≤ w α := w_one
  have h1 : Rt (w α) 4 (Real.sqrt (val ph ^ 2 + 1)) (Real.sqrt (p ^ 2 + 1)) := by
    refine Rt.sqrt hw (k := 4) ?_
    have h2 : Rt (w α) (2 * 4) (val ph ^ 2) (p ^ 2) := by rw [sq, sq]; exact hp.mul hw hp
    exact h2.add hw ((Rt.refl 1).mono hw (by omega)) (sq_nonneg _) (by norm_num)
  have h3 : Rt (w α) 8 (val r0) (Real.sqrt (p ^ 2 + 1)) := hr.trans hw h1
  have hs0 := Real.sqrt_nonneg (p ^ 2 + 1)
  have hs : Real.sqrt (p ^ 2 + 1) ^ 2 = p ^ 2 + 1 := Real.sq_sqrt (by positivity)
  have hs1 : 1 ≤ Real.sqrt (p ^ 2 + 1) := Real.one_le_sqrt.2 (by nlinarith [sq_nonneg p])
  generalize Real.sqrt (p ^ 2 + 1) = q at *
  have hp8 := hp.mono hw (show 4 ≤ 8 by omega)
  by_cases h : val ph < 0
  · have hl : FloatOps.lt ph 0 = true := (Sfp.lt _ _).2 (by rw [Sfp.zero]; exact h)
    have hp0 : p ≤ 0 := by
      by_contra h5; push Not at h5
      exact absurd (hp.pos hw h5) (by linarith)
    rw [if_pos hl]
    refine ⟨p + -q, ?_, by linear_combination hs, ?_⟩
    · refine Rt.trans (k := 1) (l := 8) hw (add_rt ph (-r0)) ?_
      rw [Sfp.neg]
      have := (hp8.neg.add hw h3 (by linarith) hs0).neg
      rw [neg_add, neg_neg, neg_add, neg_neg] at this
      exact this
    · rw [abs_of_nonpos (by linarith)]; linarith
  · have hl : ¬ FloatOps.lt ph 0 = true := fun h5 => h (by have := (Sfp.lt _ _).1 h5; rwa [Sfp.zero] at this)
    push Not at h
    have hp0 : 0 ≤ p := by
      by_contra h5; push Not at h5
      have := hp.neg.pos hw (by linarith)
      linarith
    rw [if_neg hl]
    refine ⟨p + q, ?_, by linear_combination hs, ?_⟩
    · exact (add_rt ph r0).trans hw (hp8.add hw h3 hp0 hs0)
    · rw [abs_of_nonneg (by linarith)]; linarith

theorem tqlShift_ok {n l : Nat} {d e : Buf α} {δ ε : Nat → α} {f : α} (hd : Full d n δ) (he : Full e n ε) (hl : l + 1 < n)
    (hne : val (ε l) ≠ 0) :
    Post (tqlShift n l d e f) fun r => ∃ (h t : α) (D : Nat → α) (ts : ℝ), Full r.1 n D ∧ r.2 = f + h ∧ h = δ l - D l ∧
      Rt (w α) 1 (val (D l)) (val (ε l) / val t) ∧ Rt (w α) 1 (val (D (l + 1))) (val (ε l) * val t) ∧ Rt (w α) 9 (val t) ts ∧
      1 ≤ |ts| ∧ val (ε l) * ts - val (ε l) / ts = val (δ (l + 1)) - val (δ l) ∧ (∀ a, a < l → D a = δ a) ∧
      (∀ a, l + 2 ≤ a → a < n → D a = δ a - h) := by
  have hw : 1 ≤ w α := w_one
  unfold tqlShift
  have c2 : Rt (w α) 1 (val (FloatOps.cst 2 1 : α)) 2 := by
    have := cst_rt (α := α) 2 1
    norm_num at this
    exact this
  have h2 := mul_rt' c2 (Rt.refl (val (ε l)))
  have h20 : val (FloatOps.cst 2 1 * ε l) ≠ 0 := h2.ne hw (mul_ne_zero two_ne_zero hne)
  obtain ⟨ph, p1, p2⟩ := div_rt (δ (l + 1) - δ l) h20
  have hp : Rt (w α) 4 (val ph) ((val (δ (l + 1)) - val (δ l)) / (2 * val (ε l))) :=
    (p2.trans hw ((sub_rt (δ (l + 1)) (δ l)).div hw h2)).mono hw (by omega)
  obtain ⟨r0, r1, r2⟩ := hypot_rt ph (1 : α)
  rw [Sfp.one, one_pow] at r2
  obtain ⟨ts, t1, t2, t3⟩ := shift_t hp r2
  have ht0 : ts ≠ 0 := by intro h; rw [h, abs_zero] at t3; norm_num at t3
  rw [hd.rd (i := l) (by omega), ok_bind, he.rd (i := l) (by omega), ok_bind, hd.rd (i := l + 1) hl, ok_bind, p1, ok_bind, r1, ok_bind]
  dsimp only
  generalize ph + (if FloatOps.lt ph 0 then -r0 else r0) = t at *
  obtain ⟨z, z1, z2⟩ := div_rt (ε l) (t1.ne hw ht0)
  obtain ⟨d1, hd1, hf1⟩ := hd.wr (i := l) (by omega) z
  obtain ⟨d2, hd2, hf2⟩ := hf1.wr (i := l + 1) (by omega) (ε l * t)
  rw [z1, ok_bind, hd1, ok_bind, hd2, ok_bind, hf2.rd (i := l) (by omega), ok_bind, updv_ne (by omega), updv_same]
  obtain ⟨d3, hr3, hp3⟩ := loop_vect (lo := l + 2) (hi := n) (f := fun i d => do LA.wr d i ((← LA.rd d i) - (δ l - z)))
    (fun i => some (δ i - (δ l - z))) hf2 (fun i d' g' h1 h2 hp hg => by
      rw [hp.rd (x := δ i) h2 (by rw [hg i (by omega), updv_ne (by omega), updv_ne (by omega)]), ok_bind]
      exact hp.wr h2 _)
  rw [hr3, ok_bind]
  refine Post.ok ⟨δ l - z, t, fun a => if l + 2 ≤ a ∧ a < n then δ a - (δ l - z) else updv (updv δ l z) (l + 1) (ε l * t) a, ts,
    Vect.congr hp3 fun a ha => ?_, rfl, ?_, ?_, ?_, t1, t3, ?_, ?_, ?_⟩
  · dsimp only
    split <;> rfl
  · beta_reduce; rw [if_neg (by omega), updv_ne (by omega), updv_same]
  · beta_reduce; rw [if_neg (by omega), updv_ne (by omega), updv_same]; exact z2
  · beta_reduce; rw [if_neg (by omega), updv_same]; exact mul_rt _ _
  · have h5 : 2 * val (ε l) ≠ 0 := mul_ne_zero two_ne_zero hne
    have : val (ε l) * ts - val (ε l) / ts = 2 * val (ε l) * ((val (δ (l + 1)) - val (δ l)) / (2 * val (ε l))) := by
      generalize (val (δ (l + 1)) - val (δ l)) / (2 * val (ε l)) = p at *
      field_simp
      linear_combination t2
    rw [this, mul_div_cancel₀ _ h5]
  · intro a ha
    beta_reduce; rw [if_neg (by omega), updv_ne (by omega), updv_ne (by omega)]
  · intro a h1 h2
    beta_reduce; rw [if_pos ⟨h1, h2⟩]

/-- What the shift does to the matrix: `D` and `f1` stand for almost the same numbers as `δ` and `f`. -/
theorem shift_err {n l : Nat} {N κ : ℝ} {δ ε D : Nat → α} {f h t : α} {ts : ℝ} (hE : Eap α n κ) (hl : l + 1 < n) (hN : 0 ≤ N)
    (q1 : h = δ l - D l)
    (q2 : Rt (w α) 1 (val (D l)) (val (ε l) / val t)) (q3 : Rt (w α) 1 (val (D (l + 1))) (val (ε l) * val t))
    (q4 : Rt (w α) 9 (val t) ts) (q5 : 1 ≤ |ts|) (q6 : val (ε l) * ts - val (ε l) / ts = val (δ (l + 1)) - val (δ l))
    (q8 : ∀ a, l + 2 ≤ a → a < n → D a = δ a - h)
    (b1 : ∀ a, l ≤ a → a < n → |val (δ a) + val f| ≤ N) (b2 : |val (ε l)| ≤ N) (b3 : |val f| ≤ 4 * N) :
    |val (f + h)| ≤ 4 * N ∧ (∀ a, l ≤ a → a < n → |val (D a)| ≤ 5 * N) ∧ |val (D l)| ≤ 2 * |val (ε l)| ∧
      ∀ a, l ≤ a → a < n → |(val (D a) + val (f + h)) - (val (δ a) + val f)| ≤ kq α * (20 * N) := by
  have hw : 1 ≤ w α := w_one
  have hk := kq_nonneg (α := α)
  have hs := hE.small
  have hts : ts ≠ 0 := by intro h; rw [h, abs_zero] at q5; norm_num at q5
  have hd1 := b1 l le_rfl (by omega)
  have hd2 := b1 (l + 1) (by omega) hl
  -- the new entries
  have r2 : Rt (w α) 20 (val (D l)) (val (ε l) / ts) :=
    (q2.trans hw ((Rt.refl (val (ε l))).div hw q4)).mono hw (by omega)
  have r3 : Rt (w α) 20 (val (D (l + 1))) (val (ε l) * ts) :=
    (q3.trans hw ((Rt.refl (val (ε l))).mul hw q4)).mono hw (by omega)
  have e1 : |val (ε l) / ts| ≤ |val (ε l)| := by
    rw [abs_div]; exact div_le_self (abs_nonneg _) q5
  have e2 : |val (ε l) * ts| ≤ 3 * N := by
    have e3 : val (ε l) * ts = (val (δ (l + 1)) + val f) - (val (δ l) + val f) + val (ε l) / ts := by linarith
    rw [e3]
    have := abs_add_le ((val (δ (l + 1)) + val f) - (val (δ l) + val f)) (val (ε l) / ts)
    have := abs_sub (val (δ (l + 1)) + val f) (val (δ l) + val f)
    linarith
  have s2 : |val (D l) - val (ε l) / ts| ≤ kq α * |val (ε l)| :=
    (r2.sub hw).trans (mul_le_mul_of_nonneg_left e1 hk)
  have s3 : |val (D (l + 1)) - val (ε l) * ts| ≤ kq α * (3 * N) :=
    (r3.sub hw).trans (mul_le_mul_of_nonneg_left e2 hk)
  have m2 : |val (D l)| ≤ 41 / 40 * |val (ε l)| := by
    have := abs_sub_abs_le_abs_sub (val (D l)) (val (ε l) / ts)
    have := mul_le_mul_of_nonneg_right hs (abs_nonneg (val (ε l)))
    linarith
  have m3 : |val (D (l + 1))| ≤ 41 / 40 * (3 * N) := by
    have := abs_sub_abs_le_abs_sub (val (D (l + 1))) (val (ε l) * ts)
    have := mul_le_mul_of_nonneg_right hs (show 0 ≤ 3 * N by linarith)
    linarith
  -- the shift
  have kN : kq α * N ≤ 1 / 40 * N := mul_le_mul_of_nonneg_right hs hN
  have kN0 : 0 ≤ kq α * N := mul_nonneg hk hN
  have g1 : |val (δ l) - val (D l)| ≤ 7 * N := by
    have h1 := abs_sub (val (δ l) + val f) (val f)
    rw [add_sub_cancel_right] at h1
    have h2 := abs_sub (val (δ l)) (val (D l))
    linarith
  have w1 : ∀ {x y : ℝ}, Rt (w α) 1 x y → |x - y| ≤ kq α * |y| := fun h =>
    ((h.mono hw (show 1 ≤ 20 by omega)).sub hw)
  have g2 : |val h - (val (δ l) - val (D l))| ≤ kq α * (7 * N) := by
    rw [q1]
    exact (w1 (sub_rt (δ l) (D l))).trans (mul_le_mul_of_nonneg_left g1 hk)
  have g3 : |val f + val h| ≤ 3 * N := by
    have h1 : val f + val h = (val (δ l) + val f) - val (D l) + (val h - (val (δ l) - val (D l))) := by ring
    rw [h1]
    have := abs_add_le ((val (δ l) + val f) - val (D l)) (val h - (val (δ l) - val (D l)))
    have := abs_sub (val (δ l) + val f) (val (D l))
    linarith
  have g4 : |val (f + h) - (val f + val h)| ≤ kq α * (3 * N) :=
    (w1 (add_rt f h)).trans (mul_le_mul_of_nonneg_left g3 hk)
  have g5 : |val (f + h)| ≤ 4 * N := by
    have := abs_sub_abs_le_abs_sub (val (f + h)) (val f + val h)
    linarith
  have g6 : ∀ a, l + 2 ≤ a → a < n → |val (δ a) - val h| ≤ 4 * N := by
    intro a h1 h2
    have h3 : val (δ a) - val h = (val (δ a) + val f) - (val f + val h) := by ring
    rw [h3]
    have := abs_sub (val (δ a) + val f) (val f + val h)
    have := b1 a (by omega) h2
    linarith
  have g7 : ∀ a, l + 2 ≤ a → a < n → |val (D a) - (val (δ a) - val h)| ≤ kq α * (4 * N) := by
    intro a h1 h2
    rw [q8 a h1 h2]
    exact (w1 (sub_rt (δ a) h)).trans (mul_le_mul_of_nonneg_left (g6 a h1 h2) hk)
  refine ⟨g5, ?_, ?_, ?_⟩
  · intro a h1 h2
    rcases Nat.lt_trichotomy a (l + 1) with h3 | h3 | h3
    · rw [show a = l by omega]; linarith
    · rw [h3]; linarith
    · have := g7 a h3 h2
      have := g6 a h3 h2
      have := abs_sub_abs_le_abs_sub (val (D a)) (val (δ a) - val h)
      linarith
  · have := abs_nonneg (val (ε l)); linarith
  · intro a h1 h2
    have ke : kq α * |val (ε l)| ≤ kq α * N := mul_le_mul_of_nonneg_left b2 hk
    rcases Nat.lt_trichotomy a (l + 1) with h3 | h3 | h3
    · rw [show a = l by omega]
      have e4 : val (D l) + val (f + h) - (val (δ l) + val f) = (val h - (val (δ l) - val (D l))) + (val (f + h) - (val f + val h)) := by ring
      rw [e4]
      have := abs_add_le (val h - (val (δ l) - val (D l))) (val (f + h) - (val f + val h))
      linarith
    · rw [h3]
      have e4 : val (D (l + 1)) + val (f + h) - (val (δ (l + 1)) + val f) = (val (D (l + 1)) - val (ε l) * ts) - (val (D l) - val (ε l) / ts) +
          ((val h - (val (δ l) - val (D l))) + (val (f + h) - (val f + val h))) := by linear_combination q6
      rw [e4]
      have := abs_add_le ((val (D (l + 1)) - val (ε l) * ts) - (val (D l) - val (ε l) / ts))
        ((val h - (val (δ l) - val (D l))) + (val (f + h) - (val f + val h)))
      have := abs_sub (val (D (l + 1)) - val (ε l) * ts) (val (D l) - val (ε l) / ts)
      have := abs_add_le (val h - (val (δ l) - val (D l))) (val (f + h) - (val f + val h))
      linarith
    · have e4 : val (D a) + val (f + h) - (val (δ a) + val f) = (val (D a) - (val (δ a) - val h)) + (val (f + h) - (val f + val h)) := by ring
      rw [e4]
      have := abs_add_le (val (D a) - (val (δ a) - val h)) (val (f + h) - (val f + val h))
      have := g7 a h3 h2
      linarith

end Std
end LA
