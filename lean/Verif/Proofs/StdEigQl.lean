import Verif.Proofs.StdEigCore
import Verif.Proofs.EigTql2

/-! # The implicit QL sweep in rounded arithmetic -/

set_option linter.unusedSectionVars false

namespace LA
open Finset Matrix
namespace Std
open Sfp SVD
open Eigen (trb tri trb_rot phi Sweep Dev tqlStep tqlRot tqlShift tqlIter)

variable {α : Type} [Zero α] [One α] [Add α] [Sub α] [Neg α] [Mul α] [FloatOps α] [Sfp α]

/-- Relative error of one rotation of the sweep. -/
noncomputable def kq (α : Type) [Zero α] [One α] [Add α] [Sub α] [Neg α] [Mul α] [FloatOps α] [Sfp α] : ℝ := w α ^ 20 - 1

theorem kq_nonneg : 0 ≤ kq α := sub_nonneg.2 (pw_one w_one 20)
theorem pw_kq {k : Nat} (h : k ≤ 20) : w α ^ k - 1 ≤ kq α := sub_le_sub_right (pow_le_pow_right₀ w_one h) 1

/-- `κ` bounds the errors of the transformations of `tql2`. -/
structure Eap (α : Type) [Zero α] [One α] [Add α] [Sub α] [Neg α] [Mul α] [FloatOps α] [Sfp α] (n : Nat) (κ : ℝ) : Prop where
  small : kq α ≤ 1 / 40
  rot : 200 * kq α ≤ κ
  shift : 50 * (n * kq α) ≤ κ
  eps : 1 / 2 ^ 47 ≤ κ

theorem Eap.nonneg {n : Nat} {κ : ℝ} (h : Eap α n κ) : 0 ≤ κ := by
  have := h.rot
  have := kq_nonneg (α := α)
  linarith

theorem Eap.w_le {n : Nat} {κ : ℝ} (h : Eap α n κ) {k : Nat} (hk : k ≤ 20) : w α ^ k ≤ 41 / 40 := by
  have := h.small
  have := pw_kq (α := α) hk
  linarith

/-- Columns `i`, `i + 1` rotated, as computed. -/
def tqlF (F : Nat → Nat → α) (i : Nat) (c s : α) : Nat → Nat → α := fun a b =>
  if b = i then c * F a i - s * F a (i + 1) else if b = i + 1 then s * F a i + c * F a (i + 1) else F a b

theorem tqlRot_post {n i : Nat} {v : Buf α} {V : Nat → Nat → α} (hv : FullG v n n V) (hi : i + 1 < n) (c s : α) :
    Post (tqlRot n i c s v) fun r => FullG r n n (tqlF V i c s) := by
  unfold tqlRot
  refine (loop_rows (lo := 0) (hi := n) (fun a b => some (tqlF V i c s a b)) hv ?_).mono fun r h =>
    Grid.congr h fun a b ha _ => by rw [if_pos ⟨by omega, ha⟩]
  intro k d' G' _ hk hG heq
  have e1 : G' k i = some (V k i) := heq k i (by omega)
  have e2 : G' k (i + 1) = some (V k (i + 1)) := heq k (i + 1) (by omega)
  rw [hG.rd hk hi e2, ok_bind, hG.rd hk (by omega) e1, ok_bind]
  refine (hG.wr hk hi _).bind fun d1 h1 => ?_
  rw [h1.rd (i := k) (j := i) (x := V k i) hk (by omega) (by rw [upd_ne (by omega)]; exact e1), ok_bind]
  refine (h1.wr hk (by omega) _).mono fun d2 h2 => h2.congr fun a b _ _ => ?_
  have h3 := heq k b (by omega)
  clear heq
  simp only [upd, tqlF]
  grind

theorem tqlF_err {n i : Nat} {F : Nat → Nat → α} {cs sn : α} {c s : ℝ} (hc : Rt (w α) 5 (val cs) c) (hs : Rt (w α) 5 (val sn) s)
    (h1 : |c| ≤ 1) (h2 : |s| ≤ 1) : RotErr (k0 α) n n i (i + 1) c (-s) (tt F) (tt (tqlF F i cs sn)) := by
  intro a b _ _
  unfold tt tqlF rotc
  by_cases hj : b = i
  · rw [if_pos hj, if_pos hj, if_pos (Or.inl hj)]
    have := comb3 (x := F a i) (y := F a (i + 1)) hc hs h1 h2
    rw [show c * val (F a i) + -s * val (F a (i + 1)) = c * val (F a i) - s * val (F a (i + 1)) by ring]
    exact this
  · rw [if_neg hj, if_neg hj]
    by_cases hj2 : b = i + 1
    · rw [if_pos hj2, if_pos hj2, if_pos (Or.inr hj2), neg_neg]
      exact comb1 hs hc h2 h1
    · rw [if_neg hj2, if_neg hj2, if_neg (by tauto), sub_self, abs_zero]

/-- State of the sweep when the rotations `k..m` have been done. -/
structure Sw (n l m : Nat) (κ : ℝ) (A : Matrix (Fin n) (Fin n) ℝ) (r0 : Nat) (B : ℝ) (f : ℝ) (δ0 ε0 : Nat → α) (k : Nat) (x : Sweep α)
    (δ ε : Nat → α) (V : Nat → Nat → α) (c s : ℝ) : Prop where
  d : Full x.st.d n δ
  e : Full x.st.e n ε
  v : FullG x.st.v n n V
  dlo : ∀ a, a ≤ k → δ a = δ0 a
  elo : ∀ a, a ≤ k → ε a = ε0 a
  ehi : ∀ a, m < a → ε a = ε0 a
  em : k < m → val (ε m) = 0
  nz : ∀ a, l ≤ a → a < m → val (ε a) ≠ 0
  cs : c ^ 2 + s ^ 2 = 1
  top : k = m → s = 0
  snz : k < m → s ≠ 0
  xc : Rt (w α) 5 (val x.c) c
  xs : Rt (w α) 5 (val x.s) s
  c2 : |val x.c2| ≤ 2
  p : |val x.p - (c * val (δ0 k) - s * val x.c2 * val (ε0 k))| ≤ kq α * (|val (δ0 k)| + 2 * |s * val (ε0 k)|)
  hist : k < m → ∃ P τ c2 s2 : ℝ, 0 < τ ∧ τ ^ 2 = P ^ 2 + val (ε0 k) ^ 2 ∧ c = P / τ ∧ s = val (ε0 k) / τ ∧
    |P - (c2 * val (δ0 (k + 1)) - s2 * val x.c3 * val (ε0 (k + 1)))| ≤ kq α * (|val (δ0 (k + 1))| + 2 * |s2 * val (ε0 (k + 1))|) ∧
    |val x.c3| ≤ 2 ∧ c2 ^ 2 + s2 ^ 2 = 1 ∧ Rt (w α) 5 (val x.c2) c2 ∧ Rt (w α) 5 (val x.s2) s2 ∧ (k + 1 = m → s2 = 0)
  sf : SF n κ A (r0 + (m - k)) (tt V) (trb k (fun a => (if a = k then c * val x.p else val (δ a)) + phi l f a)
    (fun a => if a = k then s * val x.p else if a + 1 = k then c * val (ε a) else val (ε a)) (s * val (ε (k - 1))))

theorem unit_le {c s : ℝ} (h : c ^ 2 + s ^ 2 = 1) : |c| ≤ 1 ∧ |s| ≤ 1 := by
  constructor <;> rw [abs_le] <;> constructor <;> nlinarith [sq_nonneg c, sq_nonneg s]

/-- The new `p`. -/
theorem step_p {cs sn c0 d e : α} {c s g : ℝ} {K : Nat} (hc : Rt (w α) 5 (val cs) c) (hs : Rt (w α) 5 (val sn) s)
    (h0 : Rt (w α) K (val c0) g) (hK : K ≤ 5) :
    |val (cs * d - sn * (c0 * e)) - (c * val d - s * (g * val e))| ≤ kq α * (|c * val d| + |s * (g * val e)|) := by
  have hw : 1 ≤ w α := w_one
  have a1 : Rt (w α) 12 (val (cs * d)) (c * val d) := (mul_rt' hc (Rt.refl (val d))).mono hw (by omega)
  have a2 : Rt (w α) 12 (val (sn * (c0 * e))) (s * (g * val e)) := (mul_rt' hs (mul_rt' h0 (Rt.refl (val e)))).mono hw (by omega)
  obtain ⟨σ, τ, q1, q2, q3⟩ := sub_wt a1 a2
  have := comb_err hw q1 q2 q3
  rw [abs_neg, ← sub_eq_add_neg] at this
  exact this.trans (mul_le_mul_of_nonneg_right (pw_kq (by omega)) (add_nonneg (abs_nonneg _) (abs_nonneg _)))

/-- The new diagonal entry. -/
theorem step_d {cs sn c0 p d e : α} {c s g : ℝ} (hc : Rt (w α) 5 (val cs) c) (hs : Rt (w α) 5 (val sn) s)
    (h0 : Rt (w α) 5 (val c0) g) :
    |val (c0 * p + sn * (cs * (c0 * e) + sn * d)) - (g * val p + s * (c * (g * val e) + s * val d))| ≤
      kq α * (|g * val p| + |s * (c * (g * val e))| + |s * (s * val d)|) := by
  have hw : 1 ≤ w α := w_one
  have a1 : Rt (w α) 12 (val (cs * (c0 * e))) (c * (g * val e)) := (mul_rt' hc (mul_rt' h0 (Rt.refl (val e)))).mono hw (by omega)
  have a2 : Rt (w α) 12 (val (sn * d)) (s * val d) := (mul_rt' hs (Rt.refl (val d))).mono hw (by omega)
  obtain ⟨σ, τ, q1, q2, q3⟩ := add_wt a1 a2
  obtain ⟨ρ, r1, r2⟩ := mul_rt' (l := 0) hs (Rt.refl (val (cs * (c0 * e) + sn * d)))
  obtain ⟨ρ1, r3, r4⟩ := mul_rt' (l := 0) h0 (Rt.refl (val p))
  obtain ⟨ρ2, r5, r6⟩ := add_rt (c0 * p) (sn * (cs * (c0 * e) + sn * d))
  rw [r6, r2, q3, r4]
  have w1 := ((r5.mul hw r3).mono hw (show 1 + (1 + (5 + 0)) ≤ 20 by omega)).sub hw
  have w2 := ((r5.mul hw (r1.mul hw q1)).mono hw (show 1 + (1 + (5 + 0) + (12 + 1)) ≤ 20 by omega)).sub hw
  have w3 := ((r5.mul hw (r1.mul hw q2)).mono hw (show 1 + (1 + (5 + 0) + (12 + 1)) ≤ 20 by omega)).sub hw
  have e1 : ρ2 * (ρ1 * (g * val p) + ρ * (s * (σ * (c * (g * val e)) + τ * (s * val d)))) -
      (g * val p + s * (c * (g * val e) + s * val d)) = (ρ2 * ρ1 - 1) * (g * val p) + (ρ2 * (ρ * σ) - 1) * (s * (c * (g * val e))) +
      (ρ2 * (ρ * τ) - 1) * (s * (s * val d)) := by ring
  rw [e1]
  refine (abs_add_le _ _).trans ?_
  rw [mul_add, mul_add]
  refine add_le_add ((abs_add_le _ _).trans (add_le_add ?_ ?_)) ?_
  · rw [abs_mul]; exact mul_le_mul_of_nonneg_right w1 (abs_nonneg _)
  · rw [abs_mul]; exact mul_le_mul_of_nonneg_right w2 (abs_nonneg _)
  · rw [abs_mul]; exact mul_le_mul_of_nonneg_right w3 (abs_nonneg _)

theorem abs_mul_le {x y z : ℝ} (h : |x| ≤ 1) (hy : |y| ≤ z) : |x * y| ≤ z := by
  rw [abs_mul]
  exact (mul_le_of_le_one_left (abs_nonneg _) h).trans hy

/-- The two tables after a step of the sweep. -/
theorem sw_close {n i l : Nat} {B f η : ℝ} {δ ε δ' ε' : Nat → ℝ} {c s c1 s1 τ p p1 : ℝ} (hl : l ≤ i)
    (g1 : ∀ a, a ≠ i → a ≠ i + 1 → δ' a = δ a) (g2 : ∀ a, a ≠ i → a ≠ i + 1 → ε' a = ε a)
    (u1 : c1 ^ 2 + s1 ^ 2 = 1) (u2 : c1 * p + s1 * ε i = τ) (u3 : -s1 * p + c1 * ε i = 0) (hη : 0 ≤ η) (hB : 0 ≤ B)
    (b1 : |p1 - (c1 * δ i - s1 * (c * ε i))| ≤ η * (6 * B))
    (b2 : |δ' (i + 1) - (c * p + s1 * (c1 * (c * ε i) + s1 * δ i))| ≤ η * (20 * B))
    (b3 : |ε' (i + 1) - s * τ| ≤ η * (15 * B)) :
    frob (pk n n (trb i (fun a => (if a = i then c1 * p1 else δ' a) + phi l f a)
        (fun a => if a = i then s1 * p1 else if a + 1 = i then c1 * ε' a else ε' a) (s1 * ε' (i - 1))) -
      pk n n (rotr (rotc (trb (i + 1) (fun a => (if a = i + 1 then c * p else δ a) + phi l f a)
        (fun a => if a = i + 1 then s * p else if a + 1 = i + 1 then c * ε a else ε a) (s * ε (i + 1 - 1))) i (i + 1) c1 (-s1)) i (i + 1) c1 (-s1))) ≤
      200 * η * B := by
  have hp0 : phi l f i = f := if_neg (by omega)
  have hp1 : phi l f (i + 1) = f := if_neg (by omega)
  obtain ⟨a1, a2⟩ := unit_le u1
  set pe := c1 * δ i - s1 * (c * ε i) with hpe
  have k2 : c1 * ε i = s1 * p := by linarith
  have k3 : c1 * τ = p := by linear_combination (-c1) * u2 + p * u1 + s1 * u3
  rw [← pk_congr (F := trb i (fun a => if a = i then c1 * pe + f else if a = i + 1 then (c * p + s1 * (c1 * (c * ε i) + s1 * δ i)) + f
      else δ a + phi l f a) (fun a => if a = i then s1 * pe else if a = i + 1 then s * τ else if a + 1 = i then c1 * ε a else ε a)
      (s1 * ε' (i - 1))) fun a b _ _ => (trb_rot ?_ ?_ ?_ ?_ ?_ ?_ ?_ ?_ ?_ a b).symm]
  · refine trb_close.trans ?_
    have h1 : ∑ a ∈ range n, |((if a = i then c1 * p1 else δ' a) + phi l f a) - (if a = i then c1 * pe + f else if a = i + 1
        then (c * p + s1 * (c1 * (c * ε i) + s1 * δ i)) + f else δ a + phi l f a)| ≤ η * (6 * B) + η * (20 * B) := by
      refine sum_two (i := i) (by positivity) (by positivity) ?_ ?_ ?_
      · rw [if_pos rfl, if_pos rfl, hp0, show c1 * p1 + f - (c1 * pe + f) = c1 * (p1 - pe) by ring]
        exact abs_mul_le a1 b1
      · rw [if_neg (show ¬ i + 1 = i by omega), if_neg (show ¬ i + 1 = i by omega), if_pos rfl, hp1, add_sub_add_right_eq_sub]
        exact b2
      · intro a h1 h2
        rw [if_neg h1, if_neg h1, if_neg h2, g1 a h1 h2, sub_self, abs_zero]
    have h2 : ∑ a ∈ range n, |(if a = i then s1 * p1 else if a + 1 = i then c1 * ε' a else ε' a) - (if a = i then s1 * pe else
        if a = i + 1 then s * τ else if a + 1 = i then c1 * ε a else ε a)| ≤ η * (6 * B) + η * (15 * B) := by
      refine sum_two (i := i) (by positivity) (by positivity) ?_ ?_ ?_
      · rw [if_pos rfl, if_pos rfl, ← mul_sub]
        exact abs_mul_le a2 b1
      · rw [if_neg (show ¬ i + 1 = i by omega), if_neg (show ¬ i + 1 = i by omega), if_pos rfl, if_neg (by omega)]
        exact b3
      · intro a h1 h2
        rw [if_neg h1, if_neg h1, if_neg h2, g2 a h1 h2, sub_self, abs_zero]
    have h3 : 0 ≤ η * B := mul_nonneg hη hB
    linarith
  · intro a h1 h2
    rw [if_neg h1, if_neg h2, if_neg h2]
  · intro a h1 h2 h3
    rw [if_neg h1, if_neg h2, if_neg h3, if_neg h2, if_neg (by omega)]
  · simp only [if_true, hp0, hp1]
    rw [if_neg (show ¬ i = i + 1 by omega), if_neg (show ¬ i = i + 1 by omega), hpe]
    linear_combination f * u1 + (- s1 * c) * k2
  · simp only [if_true, hp0, hp1]
    rw [if_neg (show ¬ i = i + 1 by omega), if_neg (show ¬ i = i + 1 by omega), if_neg (show ¬ i + 1 = i by omega)]
    linear_combination f * u1 + (c1 * c) * u2 + c * k3
  · simp only [if_true, hp0, hp1]
    rw [if_neg (show ¬ i = i + 1 by omega), if_neg (show ¬ i = i + 1 by omega), hpe]
    linear_combination (c1 * c) * k2
  · simp only [if_true]
    rw [if_neg (show ¬ i + 1 = i by omega), show i + 1 - 1 = i from rfl]
    linear_combination s * u2
  · simp only [if_true]
    rw [show i + 1 - 1 = i from rfl]
    linear_combination s * k2
  · intro hi0
    rw [if_neg (by omega), if_neg (by omega), if_neg (by omega), if_neg (by omega), if_pos (by omega)]
  · intro hi0
    rw [if_neg (by omega), if_neg (by omega), g2 (i - 1) (by omega) (by omega)]

/-- Bounds of the block at the start of the sweep. -/
structure Bd (l m : Nat) (B : ℝ) (δ0 ε0 : Nat → α) : Prop where
  nn : 0 ≤ B
  d : ∀ a, l ≤ a → a ≤ m → |val (δ0 a)| ≤ 5 * B
  e : ∀ a, l ≤ a → a < m → |val (ε0 a)| ≤ B

theorem Sw.p_le {n l m : Nat} {κ : ℝ} {A : Matrix (Fin n) (Fin n) ℝ} {r0 : Nat} {B f : ℝ} {δ0 ε0 : Nat → α} {k : Nat} {x : Sweep α}
    {δ ε : Nat → α} {V : Nat → Nat → α} {c s : ℝ} (h : Sw n l m κ A r0 B f δ0 ε0 k x δ ε V c s) (hb : Bd l m B δ0 ε0)
    (hE : Eap α n κ) (h1 : l ≤ k) (h2 : k ≤ m) : |val x.p| ≤ 14 * B := by
  obtain ⟨u1, u2⟩ := unit_le h.cs
  have a1 : |c * val (δ0 k)| ≤ 5 * B := abs_mul_le u1 (hb.d k h1 h2)
  have a2 : |s * val (ε0 k)| ≤ B := by
    rcases Nat.lt_or_ge k m with h3 | h3
    · exact abs_mul_le u2 (hb.e k h1 h3)
    · rw [h.top (by omega), zero_mul, abs_zero]; exact hb.nn
  have a3 : |s * val x.c2 * val (ε0 k)| ≤ 2 * B := by
    rw [show s * val x.c2 * val (ε0 k) = val x.c2 * (s * val (ε0 k)) by ring, abs_mul]
    exact mul_le_mul h.c2 a2 (abs_nonneg _) (by norm_num)
  have a4 : kq α * (|val (δ0 k)| + 2 * |s * val (ε0 k)|) ≤ 1 / 40 * (5 * B + 2 * B) :=
    mul_le_mul hE.small (add_le_add (hb.d k h1 h2) (by linarith)) (by positivity) (by norm_num)
  have a5 := h.p
  have a6 := abs_sub_abs_le_abs_sub (val x.p) (c * val (δ0 k) - s * val x.c2 * val (ε0 k))
  have a7 := abs_sub (c * val (δ0 k)) (s * val x.c2 * val (ε0 k))
  have := hb.nn
  linarith

theorem tqlStep_post {n l m : Nat} {κ : ℝ} {A : Matrix (Fin n) (Fin n) ℝ} {r0 : Nat} {B f : ℝ} {δ0 ε0 : Nat → α} {i : Nat} {x : Sweep α}
    {δ ε : Nat → α} {V : Nat → Nat → α} {c s : ℝ} (h : Sw n l m κ A r0 B f δ0 ε0 (i + 1) x δ ε V c s) (hb : Bd l m B δ0 ε0)
    (hE : Eap α n κ) (hB : B ≤ nb κ A r0) (hl : l ≤ i) (hm : i < m) (hn : m < n) :
    Post (tqlStep n i x) fun x' => ∃ δ ε V c s, Sw n l m κ A r0 B f δ0 ε0 i x' δ ε V c s := by
  have hw : 1 ≤ w α := w_one
  have hk0 := hE.nonneg
  unfold tqlStep
  have hei : val (ε i) ≠ 0 := h.nz i hl hm
  obtain ⟨t, cs, sn, τ, c1, s1, t1, t2, t3, hr, hs0⟩ := rot_facts (a := x.p) hei
  obtain ⟨e1, he1, hf1⟩ := h.e.wr (i := i + 1) (by omega) (x.s * t)
  obtain ⟨d1, hd1, hg1⟩ := h.d.wr (i := i + 1) (by omega) (x.c * x.p + sn * (cs * (x.c * ε i) + sn * δ i))
  obtain ⟨v1, hv1, hw1⟩ := tqlRot_post h.v (i := i) (by omega) cs sn
  rw [h.e.rd (i := i) (by omega), ok_bind, t1, ok_bind, he1, ok_bind, hf1.rd (i := i) (by omega), ok_bind,
    updv_ne (by omega), t3, ok_bind, t2, ok_bind, h.d.rd (i := i) (by omega), ok_bind, ok_bind, hd1, ok_bind, hv1, ok_bind]
  have hdi : δ i = δ0 i := h.dlo i (by omega)
  have hei' : ε i = ε0 i := h.elo i (by omega)
  have bd : |val (δ i)| ≤ 5 * B := by rw [hdi]; exact hb.d i hl (by omega)
  have be : |val (ε i)| ≤ B := by rw [hei']; exact hb.e i hl hm
  have bp : |val x.p| ≤ 14 * B := h.p_le hb hE (by omega) (by omega)
  have hB0 := hb.nn
  obtain ⟨uc, us⟩ := unit_le h.cs
  obtain ⟨uc1, us1⟩ := hr.c_le
  have hc2 : |val x.c| ≤ 2 := by
    have := (h.xc.abs hw).le hw (abs_nonneg _)
    have h3 := hE.w_le (k := 5) (by omega)
    have h4 : w α ^ 5 * |c| ≤ 41 / 40 * 1 := mul_le_mul h3 uc (abs_nonneg _) (by norm_num)
    linarith
  have hτ : |τ| ≤ 15 * B := by
    rw [← hr.top]
    refine (abs_add_le _ _).trans ?_
    have q1 := abs_mul_le uc1 bp
    have q2 := abs_mul_le us1 be
    linarith
  have hk := kq_nonneg (α := α)
  have hsq : τ ^ 2 = val x.p ^ 2 + val (ε i) ^ 2 := by
    have h3 := hr.unit
    have h4 := hr.top
    have h5 := hr.bot
    have : (c1 ^ 2 + s1 ^ 2) * (val x.p ^ 2 + val (ε i) ^ 2) = τ ^ 2 := by
      linear_combination (c1 * val x.p + s1 * val (ε i) + τ) * h4 + (-s1 * val x.p + c1 * val (ε i)) * h5
    rw [h3, one_mul] at this
    exact this.symm
  have hcτ : c1 * τ = val x.p := by
    linear_combination (-c1) * hr.top + val x.p * hr.unit + s1 * hr.bot
  have hsτ : s1 * τ = val (ε i) := by
    linear_combination (-s1) * hr.top + val (ε i) * hr.unit - c1 * hr.bot
  refine Post.ok ⟨_, _, _, c1, s1, hg1, hf1, hw1, ?_, ?_, ?_, ?_, ?_, hr.unit, ?_, ?_, hr.cs, hr.sn, hc2, ?_, ?_, ?_⟩
  · intro a ha
    rw [updv_ne (by omega), h.dlo a (by omega)]
  · intro a ha
    rw [updv_ne (by omega), h.elo a (by omega)]
  · intro a ha
    rw [updv_ne (by omega), h.ehi a ha]
  · intro _
    by_cases e : m = i + 1
    · subst e
      rw [updv_same]
      have : val x.s = 0 := (h.xs.zero_iff hw).2 (h.top rfl)
      exact ((mul_rt x.s t).zero_iff hw).2 (by rw [this, zero_mul])
    · rw [updv_ne e, h.em (by omega)]
  · intro a h1 h2
    by_cases e : a = i + 1
    · subst e
      rw [updv_same]
      exact mul_ne (h.xs.ne hw (h.snz h2)) (hr.t.ne hw hr.pos.ne')
    · rw [updv_ne e]; exact h.nz a h1 h2
  · intro e; omega
  · intro _; exact hs0
  · show |val (cs * δ i - sn * (x.c * ε i)) - (c1 * val (δ0 i) - s1 * val x.c * val (ε0 i))| ≤ _
    have := step_p (d := δ i) (e := ε i) hr.cs hr.sn (Rt.refl (val x.c)) (by omega)
    rw [← hdi, ← hei', mul_assoc s1]
    refine this.trans (mul_le_mul_of_nonneg_left (add_le_add ?_ ?_) hk)
    · exact abs_mul_le uc1 le_rfl
    · rw [show s1 * (val x.c * val (ε i)) = val x.c * (s1 * val (ε i)) by ring, abs_mul]
      exact mul_le_mul_of_nonneg_right hc2 (abs_nonneg _)
  · intro _
    refine ⟨val x.p, τ, c, s, hr.pos, ?_, ?_, ?_, h.p, h.c2, h.cs, h.xc, h.xs, fun e => h.top e⟩
    · rw [hsq, hei']
    · rw [eq_div_iff hr.pos.ne']; exact hcτ
    · rw [eq_div_iff hr.pos.ne', ← hei']; exact hsτ
  · have hrr : r0 + (m - i) = r0 + (m - (i + 1)) + 1 := by omega
    rw [hrr]
    have hk0q : k0 α ≤ kq α := pw_kq (by omega)
    refine h.sf.rot (κ0 := k0 α) k0_nonneg ?_ (a := i) (b := i + 1) (by omega) (by omega) (by omega) (c := c1) (s := -s1)
      (by rw [neg_sq]; exact hr.unit) (tqlF_err hr.cs hr.sn uc1 us1) ?_
    · have := hE.rot; linarith
    · refine (sw_close (δ' := fun a => val (updv δ (i + 1) (x.c * x.p + sn * (cs * (x.c * ε i) + sn * δ i)) a))
        (ε' := fun a => val (updv ε (i + 1) (x.s * t) a)) (τ := τ) (δ := fun a => val (δ a)) (ε := fun a => val (ε a))
        (η := kq α) (B := B) hl ?_ ?_ hr.unit hr.top hr.bot hk hb.nn ?_ ?_ ?_).trans ?_
      · intro a h1 h2
        rw [updv_ne h2]
      · intro a h1 h2
        rw [updv_ne h2]
      · refine (step_p hr.cs hr.sn h.xc le_rfl).trans (mul_le_mul_of_nonneg_left ?_ hk)
        have q1 := abs_mul_le uc1 bd
        have q2 := abs_mul_le us1 (abs_mul_le uc be)
        linarith
      · rw [updv_same]
        refine (step_d hr.cs hr.sn h.xc).trans (mul_le_mul_of_nonneg_left ?_ hk)
        have q1 := abs_mul_le uc bp
        have q2 := abs_mul_le us1 (abs_mul_le uc1 (abs_mul_le uc be))
        have q3 := abs_mul_le us1 (abs_mul_le us1 bd)
        linarith
      · rw [updv_same]
        have q1 := ((mul_rt' h.xs hr.t).mono hw (show 1 + (5 + 4) ≤ 20 by omega)).sub hw
        exact q1.trans (mul_le_mul_of_nonneg_left (abs_mul_le us hτ) hk)
      · have q1 : B ≤ nb κ A (r0 + (m - (i + 1))) := hB.trans (nb_mono hk0 (by omega))
        exact mul_le_mul hE.rot q1 hB0 hk0

end Std
end LA
