import Verif.Proofs.StdHqr

/-! # `hqr2` in rounded arithmetic: one reflection -/

set_option linter.unusedSectionVars false

namespace LA
open Finset Matrix
namespace Std
open Sfp SVD
open Eigen (Sm rfL rfR swk memStep mem2 rowStep RF qrRows qrCols qrReflect tadd exd)

variable {α : Type} [Zero α] [One α] [Add α] [Sub α] [Neg α] [Mul α] [FloatOps α] [Sfp α]

/-- The sum of two quantities of the same sign. -/
theorem _root_.LA.Rt.add_same {w : ℝ} (hw : 1 ≤ w) {k : Nat} {x y x' y' : ℝ} (h : Rt w k x y) (h' : Rt w k x' y') (hy : 0 ≤ y * y') :
    Rt w k (x + x') (y + y') := by
  rcases le_total 0 y with h0 | h0
  · rcases eq_or_lt_of_le h0 with h1 | h1
    · have hx : x = 0 := (h.zero_iff hw).2 h1.symm
      rw [hx, ← h1, zero_add, zero_add]; exact h'
    · exact h.add hw h' h0 (by by_contra hc; push Not at hc; nlinarith)
  · rcases eq_or_lt_of_le h0 with h1 | h1
    · have hx : x = 0 := (h.zero_iff hw).2 h1
      rw [hx, h1, zero_add, zero_add]; exact h'
    · have h2 : y' ≤ 0 := by by_contra hc; push Not at hc; nlinarith
      have := (h.neg.add hw h'.neg (by linarith) (by linarith)).neg
      rw [show -(-x + -x') = x + x' by ring, show -(-y + -y') = y + y' by ring] at this
      exact this

/-- The table after a reflection, as computed. -/
def cStep (n k : Nat) (nl : Bool) (t q r x y z : α) (F : Nat → Nat → α) : Nat → Nat → α :=
  let H1 : Nat → Nat → α := fun a b => if a = k ∧ b + 1 = k then t else F a b
  let H2 : Nat → Nat → α := fun a b => if k ≤ b then fL k nl q r x y z H1 a b else H1 a b
  fun a b => if a < min n (k + 3) + 1 then fR k nl q r x y z H2 a b else H2 a b

/-- The exact reflector of the column `(P, Q, R)` against the computed one. -/
theorem refl_par {p q r s : α} {P Q R : ℝ} (hp : Rt (w α) 1 (val p) P) (hq : Rt (w α) 1 (val q) Q) (hr : Rt (w α) 1 (val r) R)
    (h0 : P ≠ 0 ∨ Q ≠ 0 ∨ R ≠ 0) (hs : FloatOps.sqrt (p * p + q * q + r * r) = .ok s) (s' : α)
    (hs' : s' = if FloatOps.lt p 0 then -s else s) :
    ∃ S, Eigen.SF P Q R S ∧ Rt (w α) 4 (val s') S ∧ Rt (w α) 5 (val (p + s')) (P + S) := by
  have hw : 1 ≤ w α := w_one
  have hsf := Eigen.sf_mk h0
  have k1 : Rt (w α) 5 (val (p * p + q * q + r * r)) (P * P + Q * Q + R * R) := by
    have a1 := mul_rt' hp hp
    have a2 := mul_rt' hq hq
    have a3 := mul_rt' hr hr
    have b1 : Rt (w α) 4 (val (p * p + q * q)) (P * P + Q * Q) :=
      (add_rt _ _).trans hw (l := 3) (a1.add hw a2 (mul_self_nonneg _) (mul_self_nonneg _))
    exact (add_rt _ _).trans hw (l := 4) (b1.add hw (a3.mono hw (by omega)) (add_nonneg (mul_self_nonneg _) (mul_self_nonneg _)) (mul_self_nonneg _))
  have hnn : 0 ≤ P * P + Q * Q + R * R := by nlinarith [mul_self_nonneg P, mul_self_nonneg Q, mul_self_nonneg R]
  obtain ⟨s2, s3, s4⟩ := sqrt_rt (k1.nonneg hw hnn)
  rw [hs] at s3
  injection s3 with s3
  subst s3
  have k2 : Rt (w α) 4 (val s) (Real.sqrt (P * P + Q * Q + R * R)) := s4.trans hw ((k1.mono hw (show 5 ≤ 2 * 3 by omega)).sqrt hw)
  have hlt : FloatOps.lt p 0 = true ↔ P < 0 := by
    rw [Sfp.lt, Sfp.zero]
    obtain ⟨ρ, r1, r2⟩ := hp
    have := r1.pos hw
    rw [r2]
    constructor
    · intro h; by_contra hc; push Not at hc; nlinarith
    · intro h; nlinarith
  refine ⟨_, hsf, ?_⟩
  have k3 : Rt (w α) 4 (val s') (if P < 0 then -Real.sqrt (P * P + Q * Q + R * R) else Real.sqrt (P * P + Q * Q + R * R)) := by
    rw [hs']
    by_cases h : P < 0
    · rw [if_pos h, if_pos (hlt.2 h), Sfp.neg]; exact k2.neg
    · rw [if_neg h, if_neg (fun hc => h (hlt.1 hc))]; exact k2
  refine ⟨k3, (add_rt p s').trans hw (l := 4) ((hp.mono hw (by omega)).add_same hw k3 hsf.sgn)⟩

theorem _root_.LA.Eigen.SF.qle {p q r s : ℝ} (h : Eigen.SF p q r s) : |q / (p + s)| ≤ 1 ∧ |r / (p + s)| ≤ 1 ∧ |(p + s) / s| ≤ 2 := by
  obtain ⟨a1, a2, a3⟩ := h.xyz
  have hs : 0 < |s| := abs_pos.2 h.ne
  have hps : |s| ≤ |p + s| := sq_le_sq.1 (by nlinarith [h.sgn, mul_self_nonneg p])
  have h1 := h.sq
  have hq : |q| ≤ |s| := sq_le_sq.1 (by nlinarith [mul_self_nonneg p, mul_self_nonneg r])
  have hr : |r| ≤ |s| := sq_le_sq.1 (by nlinarith [mul_self_nonneg p, mul_self_nonneg q])
  have hp0 : 0 < |p + s| := hs.trans_le hps
  refine ⟨by rw [abs_div]; exact (div_le_one hp0).2 (hq.trans hps), by rw [abs_div]; exact (div_le_one hp0).2 (hr.trans hps), ?_⟩
  rw [abs_le] at a3 ⊢
  constructor <;> linarith [a3.1, a3.2]

theorem qrReflect_ok {nn n l m k : Nat} {p q r x : α} {P Q R : ℝ} {h v : Buf α} {F W : Nat → Nat → α} (hh : FullG h nn nn F)
    (hv : FullG v nn nn W) (hn : n < nn) (hkn : k < n) (hmk : m ≤ k) (hlm : l ≤ m) (hp : Rt (w α) 1 (val p) P)
    (hq : Rt (w α) 1 (val q) Q) (hr : Rt (w α) 1 (val r) R) (hr0 : k + 1 = n → R = 0) (h0 : P ≠ 0 ∨ Q ≠ 0 ∨ R ≠ 0) :
    Post (qrReflect nn n l m k p q r x h v) fun o => ∃ S t q' r' x' y' z', Eigen.SF P Q R S ∧
      FullG o.1 nn nn (cStep n k (decide (k ≠ n - 1)) t q' r' x' y' z' F) ∧ (∃ W', FullG o.2 nn nn W') ∧
      RP (decide (k ≠ n - 1)) q' r' x' y' z' (Q / (P + S)) (R / (P + S)) ((P + S) / S) (Q / S) (R / S) ∧
      (k ≠ m → Rt (w α) 5 (val t) (-S * val x)) ∧ (k = m → val t = if l ≠ m then -val (F k (k - 1)) else val (F k (k - 1))) := by
  have hw : 1 ≤ w α := w_one
  unfold qrReflect
  dsimp only
  have hnn : 0 ≤ val (p * p + q * q + r * r) := by
    have a1 := mul_rt' hp hp
    have a2 := mul_rt' hq hq
    have a3 := mul_rt' hr hr
    have b1 := a1.nonneg hw (mul_self_nonneg _)
    have b2 := a2.nonneg hw (mul_self_nonneg _)
    have b3 := a3.nonneg hw (mul_self_nonneg _)
    have c1 := (add_rt (p * p) (q * q)).nonneg hw (add_nonneg b1 b2)
    exact (add_rt (p * p + q * q) (r * r)).nonneg hw (add_nonneg c1 b3)
  obtain ⟨s, hs, -⟩ := sqrt_rt hnn
  rw [hs, ok_bind]
  obtain ⟨s', hs'⟩ : ∃ s', s' = if FloatOps.lt p 0 then -s else s := ⟨_, rfl⟩
  obtain ⟨S, hsf, k1, k2⟩ := refl_par hp hq hr h0 hs s' hs'
  rw [← hs']
  have hs0 : val s' ≠ 0 := k1.ne hw hsf.ne
  have hps0 : val (p + s') ≠ 0 := k2.ne hw hsf.ps
  rw [if_pos (by
    have : ¬ (FloatOps.eq s' 0 = true) := by rw [Sfp.eq, Sfp.zero]; exact hs0
    simpa using this)]
  set t := (if k ≠ m then -s' * x else if l ≠ m then -F k (k - 1) else F k (k - 1)) with ht
  have hwr : Post (if k ≠ m then LA.wr h (k * nn + (k - 1)) (-s' * x) else if l ≠ m then
      (do LA.wr h (k * nn + (k - 1)) (-(← LA.rd h (k * nn + (k - 1)))))
      else (pure h : LA.R (Buf α))) fun h1 => FullG h1 nn nn (fun a b => if a = k ∧ b + 1 = k then t else F a b) := by
    by_cases h1 : k ≠ m
    · rw [if_pos h1]
      refine (FullG.wrP hh (i := k) (j := k - 1) (by omega) (by omega) _).mono fun r h => h.congr fun a b _ _ => ?_
      unfold upd
      rw [ht, if_pos h1]
      by_cases h2 : a = k ∧ b + 1 = k
      · rw [if_pos h2, if_pos (by omega)]
      · rw [if_neg h2, if_neg (by omega)]
    · rw [if_neg h1]
      by_cases h3 : l ≠ m
      · rw [if_pos h3, hh.rd (i := k) (j := k - 1) (by omega) (by omega), ok_bind]
        refine (FullG.wrP hh (i := k) (j := k - 1) (by omega) (by omega) _).mono fun r h => h.congr fun a b _ _ => ?_
        unfold upd
        rw [ht, if_neg h1, if_pos h3]
        by_cases h2 : a = k ∧ b + 1 = k
        · rw [if_pos h2, if_pos (by omega)]
        · rw [if_neg h2, if_neg (by omega)]
      · rw [if_neg h3]
        refine Post.ok (hh.congr fun a b _ _ => ?_)
        by_cases h2 : a = k ∧ b + 1 = k
        · rw [if_pos h2, ht, if_neg h1, if_neg h3, h2.1, show b = k - 1 by omega]
        · rw [if_neg h2]
  obtain ⟨h1, hr1, hg1⟩ := hwr
  obtain ⟨x', x1, x2⟩ := div_rt (p + s') hs0
  obtain ⟨y', y1, y2⟩ := div_rt q hs0
  obtain ⟨z', z1, z2⟩ := div_rt r hs0
  obtain ⟨q', q1, q2⟩ := div_rt q hps0
  obtain ⟨r', r1, r2⟩ := div_rt r hps0
  rw [hr1, ok_bind, x1, ok_bind, y1, ok_bind, z1, ok_bind, q1, ok_bind, r1, ok_bind]
  have hnl1 : decide (k ≠ n - 1) = true → k + 2 < nn := fun h => by
    have := of_decide_eq_true h; omega
  obtain ⟨h2, hr2, hg2⟩ := qrRows_ok (q := q') (r := r') (x := x') (y := y') (z := z') hg1 (show k + 1 < nn by omega) hnl1
  obtain ⟨h3, hr3, hg3⟩ := qrCols_ok (q := q') (r := r') (x := x') (y := y') (z := z') (hi := min n (k + 3) + 1) hg2 (show k + 1 < nn by omega)
    (by omega) hnl1
  obtain ⟨v3, hr4, hg4⟩ := qrCols_ok (q := q') (r := r') (x := x') (y := y') (z := z') (hi := nn) hv (show k + 1 < nn by omega)
    le_rfl hnl1
  rw [hr2, ok_bind, hr3, ok_bind, hr4, ok_bind]
  obtain ⟨b1, b2, b3⟩ := hsf.xyz
  obtain ⟨c1, c2, c3⟩ := hsf.qle
  refine Post.ok ⟨S, t, q', r', x', y', z', hsf, hg3, ⟨_, hg4⟩, ⟨?_, ?_, ?_, ?_, ?_, c1, c2, c3, b1, b2, ?_⟩, ?_, ?_⟩
  · exact q2.trans hw (k := 1) (l := 1 + 5) (hq.div hw k2)
  · exact r2.trans hw (k := 1) (l := 1 + 5) (hr.div hw k2)
  · exact x2.trans hw (k := 1) (l := 5 + 4) (k2.div hw k1)
  · exact (y2.trans hw (k := 1) (l := 1 + 4) (hq.div hw k1)).mono hw (by omega)
  · exact (z2.trans hw (k := 1) (l := 1 + 4) (hr.div hw k1)).mono hw (by omega)
  · intro h
    have := of_decide_eq_false h
    rw [hr0 (by omega)]; simp
  · intro h
    rw [ht, if_pos h]
    have k3 : Rt (w α) 4 (val (-s')) (-S) := by rw [Sfp.neg]; exact k1.neg
    exact mul_rt' k3 (Rt.refl (val x))
  · intro h
    rw [ht, if_neg (by omega)]
    split_ifs
    · exact Sfp.neg _
    · rfl

/-- The computed reflection against the exact one. -/
theorem cStep_err {nn n k : Nat} {t q r x y z : α} {Q R X Y Z B : ℝ} {F : Nat → Nat → α} (hp : RP (decide (k ≠ n - 1)) q r x y z Q R X Y Z)
    (hkh : kh α ≤ 1) (hn : n < nn) (hkn : k < n) (hB : ∀ a b, a ≤ min n (k + 3) → k ≤ b → b < nn → |val (F a b)| ≤ B) {a b : Nat}
    (ha : a ≤ n) (hb : b < nn) :
    |val (cStep n k (decide (k ≠ n - 1)) t q r x y z F a b) - memStep n k (val t) Q R X Y Z (tt F) a b| ≤ kh α * (105 * B) := by
  have hnl : decide (k ≠ n - 1) = true → k + 2 ≤ n := fun h => by have := of_decide_eq_true h; omega
  generalize decide (k ≠ n - 1) = nl at *
  have hB0 : 0 ≤ B := (abs_nonneg _).trans (hB k k (by omega) le_rfl (by omega))
  set H1 : Nat → Nat → α := fun a b => if a = k ∧ b + 1 = k then t else F a b with hH1
  set H2 : Nat → Nat → α := fun a b => if k ≤ b then fL k nl q r x y z H1 a b else H1 a b with hH2
  have t1 : tt H1 = fun a b => if a = k ∧ b + 1 = k then val t else tt F a b := by
    funext a b; simp only [tt, hH1]; split_ifs <;> rfl
  have hB1 : ∀ a b, a ≤ min n (k + 3) → k ≤ b → b < nn → |val (H1 a b)| ≤ B := fun a b h1 h2 h3 => by
    rw [hH1]; beta_reduce; rw [if_neg (by omega)]; exact hB a b h1 h2 h3
  have e0 : ∀ a b, k ≤ b → fL k nl q r x y z H1 a b = fL k nl q r x y z F a b := fun a b hb => by
    have : ∀ a, H1 a b = F a b := fun a => by rw [hH1]; beta_reduce; rw [if_neg (by omega)]
    unfold fL; simp only [this]
  have e2 : ∀ a b, b < nn → |val (H2 a b) - mem2 k (val t) Q R X Y Z (tt F) a b| ≤ kh α * (7 * B) := by
    intro a b hb
    unfold mem2
    rw [hH2]
    beta_reduce
    by_cases h : k ≤ b
    · rw [if_pos h, if_pos h, e0 a b h]
      exact (fL_err hp (hB _ _ (by omega) h hb) (hB _ _ (by omega) h hb) (fun hl => hB _ _ (by have := hnl hl; omega) h hb) a).1
    · rw [if_neg h, if_neg h]
      have : val (H1 a b) = (if a = k ∧ b + 1 = k then val t else tt F a b) := congrFun (congrFun t1 a) b
      rw [this, sub_self, abs_zero]
      exact mul_nonneg kh_nonneg (by linarith)
  have hB2 : ∀ a b, a ≤ min n (k + 3) → k ≤ b → b < nn → |val (H2 a b)| ≤ 14 * B := fun a b h1 h2 h3 => by
    have h4 := e2 a b h3
    unfold mem2 at h4
    rw [if_pos h2] at h4
    by_cases hc : a = k ∨ a = k + 1 ∨ (a = k + 2 ∧ nl = true)
    · have h5 := (fL_err hp (hB _ _ (by omega) h2 h3) (hB _ _ (by omega) h2 h3) (fun hl => hB _ _ (by have := hnl hl; omega) h2 h3) a).2 hc
      have h6 := abs_add_le (val (H2 a b) - rfL k Q R X Y Z (tt F) a b) (rfL k Q R X Y Z (tt F) a b)
      rw [sub_add_cancel] at h6
      have h7 : kh α * (7 * B) ≤ 1 * (7 * B) := mul_le_mul_of_nonneg_right hkh (by linarith)
      linarith
    · have : H2 a b = H1 a b := by
        rw [hH2]; beta_reduce; rw [if_pos h2]; unfold fL
        rw [if_neg (by omega), if_neg (by omega), if_neg (by tauto)]
      rw [this]
      exact (hB1 _ _ h1 h2 h3).trans (by linarith)
  have hc : cStep n k nl t q r x y z F a b = if a < min n (k + 3) + 1 then fR k nl q r x y z H2 a b else H2 a b := rfl
  rw [hc, Eigen.memStep_eq]
  by_cases h : a < min n (k + 3) + 1
  · rw [if_pos h, if_pos h]
    have f1 := fR_err hp (B := 14 * B) (F := H2) (k := k) (a := a) (hB2 _ _ (by omega) le_rfl (by omega)) (hB2 _ _ (by omega) (by omega) (by omega))
      (fun hl => hB2 _ _ (by omega) (by omega) (by have := hnl hl; omega)) b
    have f2 := rfR_lip hp (k := k) (a := a) (F := tt H2) (G := mem2 k (val t) Q R X Y Z (tt F)) (δ := kh α * (7 * B)) (b := b)
      (e2 _ _ hb) (e2 _ _ (by omega)) (e2 _ _ (by omega)) (fun hl => e2 _ _ (by have := hnl hl; omega))
    have f3 := abs_sub_le (val (fR k nl q r x y z H2 a b)) (rfR k Q R X Y Z (tt H2) a b) (rfR k Q R X Y Z (mem2 k (val t) Q R X Y Z (tt F)) a b)
    linarith
  · rw [if_neg h, if_neg h]
    refine (e2 a b hb).trans (mul_le_mul_of_nonneg_left (by linarith) kh_nonneg)

/-- A reflection does not touch the rows below it. -/
theorem cStep_low {n k a b : Nat} {nl : Bool} {t q r x y z : α} {F : Nat → Nat → α} (ha : k + 3 ≤ a) (hab : ¬(a = k + 3 ∧ b ≤ k + 2)) :
    cStep n k nl t q r x y z F a b = F a b := by
  unfold cStep
  dsimp only
  have h2 : ∀ H : Nat → Nat → α, fL k nl q r x y z H a b = H a b := fun H => by
    unfold fL; rw [if_neg (by omega), if_neg (by omega), if_neg (by omega)]
  simp only [fR, h2]
  grind

/-- Only the rows up to `n` matter. -/
theorem memStep_congr {n k a b : Nat} {t q r x y z : ℝ} {X Y : Nat → Nat → ℝ} (hkn : k < n) (hlast : k + 1 = n → r = 0 ∧ z = 0) (ha : a ≤ n)
    (h : ∀ a b, a ≤ n → X a b = Y a b) : memStep n k t q r x y z X a b = memStep n k t q r x y z Y a b := by
  have key : ∀ b, mem2 k t q r x y z X a b = mem2 k t q r x y z Y a b := by
    intro b
    unfold mem2
    have ha' := h a b ha
    by_cases hb : k ≤ b
    · rw [if_pos hb, if_pos hb]
      unfold rfL
      have h0 := h k b (by omega)
      have h1 := h (k + 1) b (by omega)
      rw [h0, h1, ha']
      by_cases hk : k + 1 = n
      · rw [(hlast hk).1, (hlast hk).2]
        by_cases h2 : a = k + 2
        · omega
        · simp only [h2, if_false, zero_mul]
      · rw [h (k + 2) b (by omega)]
    · rw [if_neg hb, if_neg hb]
      split_ifs <;> first | rfl | exact ha'
  rw [Eigen.memStep_eq, Eigen.memStep_eq]
  unfold rfR
  simp only [key]

end Std
end LA
