import Verif.Proofs.EigHqr9
import Verif.Proofs.StdEigErr
import Verif.Proofs.StdEigTred

/-! # `hqr2` in rounded arithmetic: the reflections of the double QR sweep -/

set_option linter.unusedSectionVars false

namespace LA
open Finset Matrix
namespace Std
open Sfp SVD
open Eigen (Sm rfL rfR swk memStep mem2 rowStep RF qrRows qrCols qrReflect tadd exd)

variable {α : Type} [Zero α] [One α] [Add α] [Sub α] [Neg α] [Mul α] [FloatOps α] [Sfp α]

/-- The relative error of one reflected entry. -/
noncomputable def kh (α : Type) [Zero α] [One α] [Add α] [Sub α] [Neg α] [Mul α] [FloatOps α] [Sfp α] : ℝ := w α ^ 24 - 1

theorem kh_nonneg : 0 ≤ kh α := sub_nonneg.2 (pw_one w_one 24)

theorem pw_kh {k : Nat} (h : k ≤ 24) : w α ^ k - 1 ≤ kh α := sub_le_sub_right (pow_le_pow_right₀ w_one h) 1

/-- The row reflection, as computed. -/
def fL (k : Nat) (nl : Bool) (q r x y z : α) (F : Nat → Nat → α) : Nat → Nat → α := fun a b =>
  let p := if nl then F k b + q * F (k + 1) b + r * F (k + 2) b else F k b + q * F (k + 1) b
  if a = k then F k b - p * x else if a = k + 1 then F (k + 1) b - p * y
  else if a = k + 2 ∧ nl = true then F (k + 2) b - p * z else F a b

/-- The column reflection, as computed. -/
def fR (k : Nat) (nl : Bool) (q r x y z : α) (F : Nat → Nat → α) : Nat → Nat → α := fun a b =>
  let p := if nl then x * F a k + y * F a (k + 1) + z * F a (k + 2) else x * F a k + y * F a (k + 1)
  if b = k then F a k - p else if b = k + 1 then F a (k + 1) - p * q
  else if b = k + 2 ∧ nl = true then F a (k + 2) - p * r else F a b

theorem FullG.wrP {d : Buf α} {m n : Nat} {F : Nat → Nat → α} (h : FullG d m n F) {i j : Nat} (hi : i < m) (hj : j < n) (x : α) :
    Post (LA.wr d (i * n + j) x) fun d' => FullG d' m n (upd F i j x) := h.wr hi hj x

theorem qrRows_ok {nn k : Nat} {nl : Bool} {q r x y z : α} {h : Buf α} {F : Nat → Nat → α} (hh : FullG h nn nn F) (hk : k + 1 < nn)
    (h1 : nl = true → k + 2 < nn) :
    Post (qrRows nn k nl q r x y z h) fun h' => FullG h' nn nn (fun a b => if k ≤ b then fL k nl q r x y z F a b else F a b) := by
  unfold qrRows
  refine (loopG_cols (lo := k) (hi := nn) (fun a b => fL k nl q r x y z F a b) hh ?_).mono fun h' h3 => h3.congr fun a b _ hb => ?_
  swap
  · by_cases e : k ≤ b
    · rw [if_pos ⟨e, hb⟩, if_pos e]
    · rw [if_neg (by omega), if_neg e]
  intro j d' G' hj1 hj2 hG heq
  have e0 := heq k j (by omega)
  have e1 := heq (k + 1) j (by omega)
  have e2 := heq (k + 2) j (by omega)
  have e3 : ∀ a, G' a j = F a j := fun a => heq a j (by omega)
  rw [hG.rd (i := k) (j := j) (by omega) hj2, ok_bind, hG.rd (i := k + 1) (j := j) (by omega) hj2, ok_bind]
  dsimp only
  cases nl with
  | true =>
    have hk2 := h1 rfl
    obtain ⟨d1, hd1, hg1⟩ := hG.wr (i := k + 2) (j := j) hk2 hj2 (G' (k + 2) j - (G' k j + q * G' (k + 1) j + r * G' (k + 2) j) * z)
    rw [if_pos rfl, hG.rd (i := k + 2) (j := j) hk2 hj2, ok_bind, ok_bind, hd1, ok_bind]
    simp only [pure_eq_ok, ok_bind]
    rw [hg1.rd (i := k) (j := j) (by omega) hj2, ok_bind, upd_ne (by omega)]
    obtain ⟨d2, hd2, hg2⟩ := hg1.wr (i := k) (j := j) (by omega) hj2 (G' k j - (G' k j + q * G' (k + 1) j + r * G' (k + 2) j) * x)
    rw [hd2, ok_bind, hg2.rd (i := k + 1) (j := j) (by omega) hj2, ok_bind, upd_ne (by omega), upd_ne (by omega)]
    refine (FullG.wrP hg2 (i := k + 1) (j := j) (by omega) hj2 _).mono fun r h => h.congr fun a b _ _ => ?_
    clear heq hg2 hg1 hG h
    have e4 := e3 a
    clear e3
    simp only [upd, fL]
    grind
  | false =>
    rw [if_neg (by simp)]
    simp only [pure_eq_ok, ok_bind]
    rw [hG.rd (i := k) (j := j) (by omega) hj2, ok_bind]
    obtain ⟨d2, hd2, hg2⟩ := hG.wr (i := k) (j := j) (by omega) hj2 (G' k j - (G' k j + q * G' (k + 1) j) * x)
    rw [hd2, ok_bind, hg2.rd (i := k + 1) (j := j) (by omega) hj2, ok_bind, upd_ne (by omega)]
    refine (FullG.wrP hg2 (i := k + 1) (j := j) (by omega) hj2 _).mono fun r h => h.congr fun a b _ _ => ?_
    clear heq hg2 hG h
    have e4 := e3 a
    clear e3
    simp only [upd, fL]
    grind

theorem qrCols_ok {nn k hi : Nat} {nl : Bool} {q r x y z : α} {h : Buf α} {F : Nat → Nat → α} (hh : FullG h nn nn F) (hk : k + 1 < nn)
    (hhi : hi ≤ nn) (h1 : nl = true → k + 2 < nn) :
    Post (qrCols nn k hi nl q r x y z h) fun h' => FullG h' nn nn (fun a b => if a < hi then fR k nl q r x y z F a b else F a b) := by
  unfold qrCols
  refine (loopG_rows (lo := 0) (hi := hi) (fun a b => fR k nl q r x y z F a b) hh ?_).mono fun h' h3 => h3.congr fun a b _ hb => ?_
  swap
  · by_cases e : a < hi
    · rw [if_pos ⟨by omega, e⟩, if_pos e]
    · rw [if_neg (by omega), if_neg e]
  intro j d' G' hj1 hj2 hG heq
  have hj3 : j < nn := by omega
  have e0 := heq j k (by omega)
  have e1 := heq j (k + 1) (by omega)
  have e2 := heq j (k + 2) (by omega)
  have e3 : ∀ a, G' j a = F j a := fun a => heq j a (by omega)
  rw [hG.rd (i := j) (j := k) hj3 (by omega), ok_bind, hG.rd (i := j) (j := k + 1) hj3 (by omega), ok_bind]
  dsimp only
  cases nl with
  | true =>
    have hk2 := h1 rfl
    obtain ⟨d1, hd1, hg1⟩ := hG.wr (i := j) (j := k + 2) hj3 hk2 (G' j (k + 2) - (x * G' j k + y * G' j (k + 1) + z * G' j (k + 2)) * r)
    rw [if_pos rfl, hG.rd (i := j) (j := k + 2) hj3 hk2, ok_bind, ok_bind, hd1, ok_bind]
    simp only [pure_eq_ok, ok_bind]
    rw [hg1.rd (i := j) (j := k) hj3 (by omega), ok_bind, upd_ne (by omega)]
    obtain ⟨d2, hd2, hg2⟩ := hg1.wr (i := j) (j := k) hj3 (by omega) (G' j k - (x * G' j k + y * G' j (k + 1) + z * G' j (k + 2)))
    rw [hd2, ok_bind, hg2.rd (i := j) (j := k + 1) hj3 (by omega), ok_bind, upd_ne (by omega), upd_ne (by omega)]
    refine (FullG.wrP hg2 (i := j) (j := k + 1) hj3 (by omega) _).mono fun r h => h.congr fun a b _ _ => ?_
    clear heq hg2 hg1 hG h
    have e4 := e3 b
    clear e3
    simp only [upd, fR]
    grind
  | false =>
    rw [if_neg (by simp)]
    simp only [pure_eq_ok, ok_bind]
    rw [hG.rd (i := j) (j := k) hj3 (by omega), ok_bind]
    obtain ⟨d2, hd2, hg2⟩ := hG.wr (i := j) (j := k) hj3 (by omega) (G' j k - (x * G' j k + y * G' j (k + 1)))
    rw [hd2, ok_bind, hg2.rd (i := j) (j := k + 1) hj3 (by omega), ok_bind, upd_ne (by omega)]
    refine (FullG.wrP hg2 (i := j) (j := k + 1) hj3 (by omega) _).mono fun r h => h.congr fun a b _ _ => ?_
    clear heq hg2 hG h
    have e4 := e3 b
    clear e3
    simp only [upd, fR]
    grind

/-- The computed parameters `q r x y z` of a reflection are close to the exact ones. -/
structure RP (nl : Bool) (q r x y z : α) (Q R X Y Z : ℝ) : Prop where
  q : Rt (w α) 7 (val q) Q
  r : Rt (w α) 7 (val r) R
  x : Rt (w α) 10 (val x) X
  y : Rt (w α) 10 (val y) Y
  z : Rt (w α) 10 (val z) Z
  q1 : |Q| ≤ 1
  r1 : |R| ≤ 1
  x1 : |X| ≤ 2
  y1 : |Y| ≤ 1
  z1 : |Z| ≤ 1
  last : nl = false → R = 0 ∧ Z = 0

theorem Ws.of_rt {k : Nat} {x : α} {y B : ℝ} (h : Rt (w α) k (val x) y) (hB : |y| ≤ B) : Ws (w α) k (val x) y B :=
  ⟨(h.sub w_one).trans (mul_le_mul_of_nonneg_left hB (sub_nonneg.2 (pw_one w_one k))), hB⟩

theorem Ws.self {x : α} {B : ℝ} (h : |val x| ≤ B) : Ws (w α) 0 (val x) (val x) B := Ws.of_rt (Rt.refl _) h

theorem ws_kh {k : Nat} {x s a : ℝ} (h : Ws (w α) k x s a) (hk : k ≤ 24) : |x - s| ≤ kh α * a :=
  h.1.trans (mul_le_mul_of_nonneg_right (pw_kh hk) h.nonneg)

section
variable {nl : Bool} {q r x y z : α} {Q R X Y Z B : ℝ}

theorem fL_err (hp : RP nl q r x y z Q R X Y Z) {k b : Nat} {F : Nat → Nat → α} (h0 : |val (F k b)| ≤ B) (h1 : |val (F (k + 1) b)| ≤ B)
    (h2 : nl = true → |val (F (k + 2) b)| ≤ B) (a : Nat) :
    |val (fL k nl q r x y z F a b) - rfL k Q R X Y Z (tt F) a b| ≤ kh α * (7 * B) ∧
    (a = k ∨ a = k + 1 ∨ (a = k + 2 ∧ nl = true) → |rfL k Q R X Y Z (tt F) a b| ≤ 7 * B) := by
  have hB : 0 ≤ B := (abs_nonneg _).trans h0
  have s0 : Ws (w α) 0 (val (F k b)) (val (F k b)) B := Ws.self h0
  have s1 : Ws (w α) 0 (val (F (k + 1) b)) (val (F (k + 1) b)) B := Ws.self h1
  have q1 : Ws (w α) 7 (val q) Q 1 := Ws.of_rt hp.q hp.q1
  have r1 : Ws (w α) 7 (val r) R 1 := Ws.of_rt hp.r hp.r1
  have x1 : Ws (w α) 10 (val x) X 2 := Ws.of_rt hp.x hp.x1
  have y1 : Ws (w α) 10 (val y) Y 1 := Ws.of_rt hp.y hp.y1
  have z1 : Ws (w α) 10 (val z) Z 1 := Ws.of_rt hp.z hp.z1
  have t1 : Ws (w α) 9 (val (F k b + q * F (k + 1) b)) (val (F k b) + Q * val (F (k + 1) b)) (B + 1 * B) :=
    ws_add (s0.mono w_one (by omega)) (ws_mul q1 s1)
  obtain ⟨P, hP⟩ : ∃ P, P = if nl then F k b + q * F (k + 1) b + r * F (k + 2) b else F k b + q * F (k + 1) b := ⟨_, rfl⟩
  have hPw : Ws (w α) 10 (val P) (val (F k b) + Q * val (F (k + 1) b) + R * val (F (k + 2) b)) (3 * B) := by
    cases nl with
    | true =>
      rw [hP, if_pos rfl]
      have s2 : Ws (w α) 0 (val (F (k + 2) b)) (val (F (k + 2) b)) B := Ws.self (h2 rfl)
      have := ws_add t1 ((ws_mul r1 s2).mono w_one (show 1 + (7 + 0) ≤ 9 by omega))
      rw [show 3 * B = B + 1 * B + 1 * B by ring]
      exact this
    | false =>
      rw [hP, if_neg (by simp), (hp.last rfl).1, zero_mul, add_zero]
      have := t1.mono w_one (show 9 ≤ 10 by omega)
      refine ⟨this.1.trans (mul_le_mul_of_nonneg_left (by linarith) (sub_nonneg.2 (pw_one w_one _))), this.2.trans (by linarith)⟩
  have fin : ∀ (G v : α) (V V2 : ℝ), |val G| ≤ B → Ws (w α) 10 (val v) V V2 → 0 ≤ V2 → V2 ≤ 2 →
      |val (G - P * v) - (val G - (val (F k b) + Q * val (F (k + 1) b) + R * val (F (k + 2) b)) * V)| ≤ kh α * (7 * B) ∧
      |val G - (val (F k b) + Q * val (F (k + 1) b) + R * val (F (k + 2) b)) * V| ≤ 7 * B := by
    intro G v V V2 hG hv hv0 hv2
    have := ws_sub ((Ws.self hG).mono w_one (show 0 ≤ 1 + (10 + 10) by omega)) (ws_mul hPw hv)
    have hle : B + 3 * B * V2 ≤ 7 * B := by nlinarith
    exact ⟨(ws_kh this (by omega)).trans (mul_le_mul_of_nonneg_left hle kh_nonneg), this.2.trans hle⟩
  unfold fL rfL tt
  dsimp only
  rw [← hP]
  by_cases a0 : a = k
  · simp only [if_pos a0]
    have := fin (F k b) x X 2 h0 x1 (by norm_num) le_rfl
    exact ⟨this.1, fun _ => this.2⟩
  · simp only [if_neg a0]
    by_cases a1 : a = k + 1
    · simp only [if_pos a1]
      have := fin (F (k + 1) b) y Y 1 h1 y1 (by norm_num) (by norm_num)
      exact ⟨this.1, fun _ => this.2⟩
    · simp only [if_neg a1]
      by_cases a2 : a = k + 2
      · simp only [if_pos a2]
        cases nl with
        | true =>
          rw [if_pos ⟨a2, rfl⟩]
          have := fin (F (k + 2) b) z Z 1 (h2 rfl) z1 (by norm_num) (by norm_num)
          exact ⟨this.1, fun _ => this.2⟩
        | false =>
          rw [if_neg (by simp), a2, (hp.last rfl).2, mul_zero, sub_zero, sub_self, abs_zero]
          exact ⟨mul_nonneg kh_nonneg (by linarith), fun h => by simp at h⟩
      · simp only [if_neg a2]
        rw [if_neg (by omega), sub_self, abs_zero]
        exact ⟨mul_nonneg kh_nonneg (by linarith), fun h => by omega⟩

theorem fR_err (hp : RP nl q r x y z Q R X Y Z) {k a : Nat} {F : Nat → Nat → α} (h0 : |val (F a k)| ≤ B) (h1 : |val (F a (k + 1))| ≤ B)
    (h2 : nl = true → |val (F a (k + 2))| ≤ B) (b : Nat) :
    |val (fR k nl q r x y z F a b) - rfR k Q R X Y Z (tt F) a b| ≤ kh α * (5 * B) := by
  have hB : 0 ≤ B := (abs_nonneg _).trans h0
  have s0 : Ws (w α) 0 (val (F a k)) (val (F a k)) B := Ws.self h0
  have s1 : Ws (w α) 0 (val (F a (k + 1))) (val (F a (k + 1))) B := Ws.self h1
  have q1 : Ws (w α) 7 (val q) Q 1 := Ws.of_rt hp.q hp.q1
  have r1 : Ws (w α) 7 (val r) R 1 := Ws.of_rt hp.r hp.r1
  have x1 : Ws (w α) 10 (val x) X 2 := Ws.of_rt hp.x hp.x1
  have y1 : Ws (w α) 10 (val y) Y 1 := Ws.of_rt hp.y hp.y1
  have z1 : Ws (w α) 10 (val z) Z 1 := Ws.of_rt hp.z hp.z1
  have t1 : Ws (w α) 12 (val (x * F a k + y * F a (k + 1))) (X * val (F a k) + Y * val (F a (k + 1))) (2 * B + 1 * B) :=
    ws_add (ws_mul x1 s0) (ws_mul y1 s1)
  obtain ⟨P, hP⟩ : ∃ P, P = if nl then x * F a k + y * F a (k + 1) + z * F a (k + 2) else x * F a k + y * F a (k + 1) := ⟨_, rfl⟩
  have hPw : Ws (w α) 13 (val P) (X * val (F a k) + Y * val (F a (k + 1)) + Z * val (F a (k + 2))) (4 * B) := by
    cases nl with
    | true =>
      rw [hP, if_pos rfl]
      have s2 : Ws (w α) 0 (val (F a (k + 2))) (val (F a (k + 2))) B := Ws.self (h2 rfl)
      have := ws_add t1 ((ws_mul z1 s2).mono w_one (show 1 + (10 + 0) ≤ 12 by omega))
      rw [show 4 * B = 2 * B + 1 * B + 1 * B by ring]
      exact this
    | false =>
      rw [hP, if_neg (by simp), (hp.last rfl).2, zero_mul, add_zero]
      have := t1.mono w_one (show 12 ≤ 13 by omega)
      refine ⟨this.1.trans (mul_le_mul_of_nonneg_left (by linarith) (sub_nonneg.2 (pw_one w_one _))), this.2.trans (by linarith)⟩
  have fin : ∀ (G v : α) (V : ℝ), |val G| ≤ B → Ws (w α) 7 (val v) V 1 →
      |val (G - P * v) - (val G - (X * val (F a k) + Y * val (F a (k + 1)) + Z * val (F a (k + 2))) * V)| ≤ kh α * (5 * B) := by
    intro G v V hG hv
    have := ws_sub ((Ws.self hG).mono w_one (show 0 ≤ 1 + (13 + 7) by omega)) (ws_mul hPw hv)
    exact (ws_kh this (by omega)).trans (mul_le_mul_of_nonneg_left (by linarith) kh_nonneg)
  unfold fR rfR tt
  dsimp only
  rw [← hP]
  by_cases a0 : b = k
  · simp only [if_pos a0]
    have := ws_sub ((Ws.self h0).mono w_one (show 0 ≤ 13 by omega)) hPw
    exact (ws_kh this (by omega)).trans (mul_le_mul_of_nonneg_left (by linarith) kh_nonneg)
  · simp only [if_neg a0]
    by_cases a1 : b = k + 1
    · simp only [if_pos a1]
      exact fin (F a (k + 1)) q Q h1 q1
    · simp only [if_neg a1]
      by_cases a2 : b = k + 2
      · simp only [if_pos a2]
        cases nl with
        | true =>
          rw [if_pos ⟨a2, rfl⟩]
          exact fin (F a (k + 2)) r R (h2 rfl) r1
        | false =>
          rw [if_neg (by simp), a2, (hp.last rfl).1, mul_zero, sub_zero, sub_self, abs_zero]
          exact mul_nonneg kh_nonneg (by linarith)
      · simp only [if_neg a2]
        rw [if_neg (by omega), sub_self, abs_zero]
        exact mul_nonneg kh_nonneg (by linarith)

/-- The exact column reflection is Lipschitz. -/
theorem rfR_lip (hp : RP nl q r x y z Q R X Y Z) {k a : Nat} {F G : Nat → Nat → ℝ} {δ : ℝ} {b : Nat} (hb : |F a b - G a b| ≤ δ)
    (h0 : |F a k - G a k| ≤ δ) (h1 : |F a (k + 1) - G a (k + 1)| ≤ δ) (h2 : nl = true → |F a (k + 2) - G a (k + 2)| ≤ δ) :
    |rfR k Q R X Y Z F a b - rfR k Q R X Y Z G a b| ≤ 5 * δ := by
  have hδ : 0 ≤ δ := (abs_nonneg _).trans h0
  have c0 : |X * (F a k - G a k)| ≤ 2 * δ := by
    rw [abs_mul]; exact mul_le_mul hp.x1 h0 (abs_nonneg _) (by norm_num)
  have c1 : |Y * (F a (k + 1) - G a (k + 1))| ≤ 1 * δ := by
    rw [abs_mul]; exact mul_le_mul hp.y1 h1 (abs_nonneg _) (by norm_num)
  have c2 : |Z * (F a (k + 2) - G a (k + 2))| ≤ 1 * δ := by
    rw [abs_mul]
    cases nl with
    | true => exact mul_le_mul hp.z1 (h2 rfl) (abs_nonneg _) (by norm_num)
    | false => rw [(hp.last rfl).2, abs_zero, zero_mul]; linarith
  set D := X * (F a k - G a k) + Y * (F a (k + 1) - G a (k + 1)) + Z * (F a (k + 2) - G a (k + 2)) with hD
  have cD : |D| ≤ 4 * δ := by
    have u1 := abs_add_le (X * (F a k - G a k) + Y * (F a (k + 1) - G a (k + 1))) (Z * (F a (k + 2) - G a (k + 2)))
    have u2 := abs_add_le (X * (F a k - G a k)) (Y * (F a (k + 1) - G a (k + 1)))
    rw [← hD] at u1
    linarith
  have fin : ∀ (f g V : ℝ), |f - g| ≤ δ → |V| ≤ 1 → |f - g - D * V| ≤ 5 * δ := by
    intro f g V h hV
    have u1 := abs_sub (f - g) (D * V)
    rw [abs_mul] at u1
    have u2 : |D| * |V| ≤ |D| * 1 := mul_le_mul_of_nonneg_left hV (abs_nonneg _)
    linarith
  unfold rfR
  split_ifs with e1 e2 e3
  · have := fin (F a k) (G a k) 1 h0 (by norm_num)
    convert this using 2; rw [hD]; ring
  · have := fin (F a (k + 1)) (G a (k + 1)) Q h1 hp.q1
    convert this using 2; rw [hD]; ring
  · subst e3
    have := fin (F a (k + 2)) (G a (k + 2)) R hb hp.r1
    convert this using 2; rw [hD]; ring
  · linarith

end
end Std
end LA
