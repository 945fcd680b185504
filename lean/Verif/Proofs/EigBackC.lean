import Verif.Proofs.EigBack
import Verif.Proofs.EigGet

/-! # `hqr2`: back-substitution for a complex vector -/

set_option linter.unusedSectionVars false

namespace LA
open Finset Matrix
namespace Eigen
open SVD (pk pk_congr)

theorem cdiv_eq (xr xi yr yi : ℝ) (h : yr ≠ 0 ∨ yi ≠ 0) :
    ∃ cr ci, cdiv xr xi yr yi = .ok (cr, ci) ∧ cr * yr - ci * yi = xr ∧ cr * yi + ci * yr = xi := by
  have hsq : yr ^ 2 + yi ^ 2 ≠ 0 := by
    rcases h with h | h <;> positivity
  refine ⟨_, _, cdiv_ok xr xi yr yi h, ?_, ?_⟩ <;> field_simp <;> ring

/-- `(T - (p - iq)) (v + iw) = 0` on the rows `l..=n`, if `NR`. -/
structure CV (NR : Prop) (T : Nat → Nat → ℝ) (n l : Nat) (p q : ℝ) (v w : Nat → ℝ) : Prop where
  ne : w n ≠ 0
  z : v n = 0
  re : NR → ∀ a, l ≤ a → a ≤ n → rowS T n l v a = p * v a + q * w a
  im : NR → ∀ a, l ≤ a → a ≤ n → rowS T n l w a = p * w a - q * v a

theorem CV.scale {NR : Prop} {T : Nat → Nat → ℝ} {n l : Nat} {p q t : ℝ} {v w : Nat → ℝ} (h : CV NR T n l p q v w) (ht : t ≠ 0) :
    CV NR T n l p q (fun j => v j / t) (fun j => w j / t) := by
  refine ⟨div_ne_zero h.ne ht, by rw [h.z, zero_div], fun hN a h1 h2 => ?_, fun hN a h1 h2 => ?_⟩
  · rw [rowS_smul, h.re hN a h1 h2]; ring
  · rw [rowS_smul, h.im hN a h1 h2]; ring

theorem rowS_one {e : Nat → ℝ} {H : Nat → Nat → ℝ} {n i a : Nat} {t : ℝ} {x : Nat → ℝ} (hl : ¬ e (i + 1) < 0) (hin : i < n) (hia : i ≤ a) :
    rowS (Tf e H) n i (updv x i t) a = if a = i then H i i * t + rowS H n (i + 1) x i else rowS (Tf e H) n (i + 1) x a := by
  have hx : ∀ a, rowS (Tf e H) n (i + 1) (updv x i t) a = rowS (Tf e H) n (i + 1) x a := fun a => rowS_congr fun j h1 _ => by
    rw [updv_ne (by omega)]
  by_cases ha : a = i
  · subst ha
    have : rowS (Tf e H) n (a + 1) x a = rowS H n (a + 1) x a := rowS_congr fun j h1 _ => by rw [Tf_up (by omega)]
    rw [rowS_head (by omega), hx, updv_same, Tf_up le_rfl, this, if_pos rfl]
  · rw [rowS_ext hl (by omega) (by omega) (show i + 1 ≤ a by omega), hx, if_neg ha]

theorem rowS_two {e : Nat → ℝ} {H : Nat → Nat → ℝ} {n i a : Nat} {t u : ℝ} {x : Nat → ℝ} (hl : ¬ e (i + 2) < 0) (hin : i + 1 < n) (hia : i ≤ a)
    (he : e (i + 1) < 0) :
    rowS (Tf e H) n i (updv (updv x i t) (i + 1) u) a = if a = i then H i i * t + H i (i + 1) * u + rowS H n (i + 2) x i
      else if a = i + 1 then H (i + 1) i * t + H (i + 1) (i + 1) * u + rowS H n (i + 2) x (i + 1) else rowS (Tf e H) n (i + 2) x a := by
  have hx : ∀ a, rowS (Tf e H) n (i + 2) (updv (updv x i t) (i + 1) u) a = rowS (Tf e H) n (i + 2) x a := fun a => rowS_congr fun j h1 _ => by
    rw [updv_ne (by omega), updv_ne (by omega)]
  have hT : ∀ a, a ≤ i + 1 → rowS (Tf e H) n (i + 2) x a = rowS H n (i + 2) x a := fun a ha => rowS_congr fun j h1 _ => by rw [Tf_up (by omega)]
  by_cases ha : a = i
  · subst ha
    rw [if_pos rfl, rowS_head (by omega), rowS_head (by omega), hx, hT a (by omega), updv_same, updv_ne (by omega), updv_same, Tf_up le_rfl, Tf_up (by omega)]
    ring
  · rw [if_neg ha]
    by_cases ha1 : a = i + 1
    · subst ha1
      rw [if_pos rfl, rowS_head (by omega), rowS_head (by omega), hx, hT _ le_rfl, updv_same, updv_ne (by omega), updv_same, Tf_up le_rfl, Tf_sub he]
      ring
    · rw [if_neg ha1, rowS_ext hl (show i ≤ i + 2 by omega) (by omega) (show i + 2 ≤ a by omega), hx]

theorem CV.one {NR : Prop} {e : Nat → ℝ} {H : Nat → Nat → ℝ} {n i : Nat} {p q s t : ℝ} {v w : Nat → ℝ} (h : CV NR (Tf e H) n (i + 1) p q v w)
    (hl : ¬ e (i + 1) < 0) (hin : i < n) (h1 : s * (H i i - p) - t * q = -rowS H n (i + 1) v i)
    (h2 : s * q + t * (H i i - p) = -rowS H n (i + 1) w i) : CV NR (Tf e H) n i p q (updv v i s) (updv w i t) := by
  refine ⟨by rw [updv_ne (by omega)]; exact h.ne, by rw [updv_ne (by omega)]; exact h.z, fun hN a g1 g2 => ?_, fun hN a g1 g2 => ?_⟩
  · rw [rowS_one hl hin g1]
    by_cases ha : a = i
    · subst ha; rw [if_pos rfl, updv_same, updv_same]; linarith
    · rw [if_neg ha, updv_ne ha, updv_ne ha, h.re hN a (by omega) g2]
  · rw [rowS_one hl hin g1]
    by_cases ha : a = i
    · subst ha; rw [if_pos rfl, updv_same, updv_same]; linarith
    · rw [if_neg ha, updv_ne ha, updv_ne ha, h.im hN a (by omega) g2]

theorem CV.two {NR : Prop} {e : Nat → ℝ} {H : Nat → Nat → ℝ} {n i : Nat} {p q t1 t2 u1 u2 : ℝ} {v w : Nat → ℝ} (h : CV NR (Tf e H) n (i + 2) p q v w)
    (hl : ¬ e (i + 2) < 0) (hin : i + 1 < n) (he : e (i + 1) < 0)
    (h1 : NR → (H i i - p) * t1 - q * t2 + H i (i + 1) * u1 + rowS H n (i + 2) v i = 0)
    (h2 : NR → (H i i - p) * t2 + q * t1 + H i (i + 1) * u2 + rowS H n (i + 2) w i = 0)
    (h3 : NR → H (i + 1) i * t1 + (H (i + 1) (i + 1) - p) * u1 - q * u2 + rowS H n (i + 2) v (i + 1) = 0)
    (h4 : NR → H (i + 1) i * t2 + (H (i + 1) (i + 1) - p) * u2 + q * u1 + rowS H n (i + 2) w (i + 1) = 0) :
    CV NR (Tf e H) n i p q (updv (updv v i t1) (i + 1) u1) (updv (updv w i t2) (i + 1) u2) := by
  refine ⟨by rw [updv_ne (by omega), updv_ne (by omega)]; exact h.ne, by rw [updv_ne (by omega), updv_ne (by omega)]; exact h.z,
    fun hN a g1 g2 => ?_, fun hN a g1 g2 => ?_⟩
  · rw [rowS_two hl hin g1 he]
    by_cases ha : a = i
    · subst ha; rw [if_pos rfl, updv_ne (show a ≠ a + 1 by omega), updv_same, updv_ne (show a ≠ a + 1 by omega), updv_same]; linarith [h1 hN]
    · by_cases ha1 : a = i + 1
      · subst ha1; rw [if_neg ha, if_pos rfl, updv_same, updv_same]; linarith [h3 hN]
      · rw [if_neg ha, if_neg ha1, updv_ne ha1, updv_ne ha, updv_ne ha1, updv_ne ha, h.re hN a (by omega) g2]
  · rw [rowS_two hl hin g1 he]
    by_cases ha : a = i
    · subst ha; rw [if_pos rfl, updv_ne (show a ≠ a + 1 by omega), updv_same, updv_ne (show a ≠ a + 1 by omega), updv_same]; linarith [h2 hN]
    · by_cases ha1 : a = i + 1
      · subst ha1; rw [if_neg ha, if_pos rfl, updv_same, updv_same]; linarith [h4 hN]
      · rw [if_neg ha, if_neg ha1, updv_ne ha1, updv_ne ha, updv_ne ha1, updv_ne ha, h.im hN a (by omega) g2]

/-- The memory during the back-substitution of the columns `n - 1`, `n`. -/
def colMem2 (n l : Nat) (v w : Nat → ℝ) (G : Nat → Nat → ℝ) : Nat → Nat → ℝ := fun a b =>
  if b = n ∧ l ≤ a ∧ a ≤ n then w a else if b + 1 = n ∧ l ≤ a ∧ a ≤ n then v a else G a b

structure CInv (nn n : Nat) (NR : Prop) (e : Nat → ℝ) (H G : Nat → Nat → ℝ) (p q : ℝ) (i : Nat) (o : Buf ℝ × Nat × ℝ × ℝ × ℝ)
    (v w : Nat → ℝ) : Prop where
  hh : FullG o.1 nn nn (colMem2 n o.2.1 v w G)
  cv : CV NR (Tf e H) n o.2.1 p q v w
  nl : ¬ e o.2.1 < 0
  st : o.2.1 = i ∨ (o.2.1 = i + 1 ∧ i + 1 < n ∧ e i < 0 ∧ o.2.2.1 = H i i - p ∧ o.2.2.2.1 = rowS H n (i + 1) v i ∧
    o.2.2.2.2 = rowS H n (i + 1) w i)

/-- Solution of the 2-by-2 complex system. -/
theorem csolve {X Y Z W q ra sa r s t1 t2 vr vi : ℝ} (hvr : vr = W * Z - X * Y - q * q) (hvi : vi = q * (W + Z))
    (ht1 : t1 * vr - t2 * vi = X * r - Z * ra + q * sa) (ht2 : t1 * vi + t2 * vr = X * s - Z * sa - q * ra) :
    (X ≠ 0 → ∀ u1 u2, W * t1 - q * t2 + X * u1 + ra = 0 → W * t2 + q * t1 + X * u2 + sa = 0 →
      Y * t1 + Z * u1 - q * u2 + r = 0 ∧ Y * t2 + Z * u2 + q * u1 + s = 0) ∧
    (q ≠ 0 → ∀ u1 u2, Y * t1 + Z * u1 - q * u2 + r = 0 → Y * t2 + Z * u2 + q * u1 + s = 0 →
      W * t1 - q * t2 + X * u1 + ra = 0 ∧ W * t2 + q * t1 + X * u2 + sa = 0) := by
  subst hvr hvi
  constructor
  · intro hX u1 u2 h1 h2
    constructor
    · have : X * (Y * t1 + Z * u1 - q * u2 + r) = 0 := by linear_combination Z * h1 - q * h2 - ht1
      exact (mul_eq_zero.1 this).resolve_left hX
    · have : X * (Y * t2 + Z * u2 + q * u1 + s) = 0 := by linear_combination Z * h2 + q * h1 - ht2
      exact (mul_eq_zero.1 this).resolve_left hX
  · intro hq u1 u2 h1 h2
    set F1 := W * t1 - q * t2 + X * u1 + ra with hF1
    set F2 := W * t2 + q * t1 + X * u2 + sa with hF2
    have g1 : Z * F1 - q * F2 = 0 := by rw [hF1, hF2]; linear_combination X * h1 + ht1
    have g2 : Z * F2 + q * F1 = 0 := by rw [hF1, hF2]; linear_combination X * h2 + ht2
    have hpos : 0 < Z * Z + q * q := by have := mul_self_pos.2 hq; nlinarith [mul_self_nonneg Z]
    constructor
    · have : (Z * Z + q * q) * F1 = 0 := by linear_combination Z * g1 + q * g2
      exact (mul_eq_zero.1 this).resolve_left hpos.ne'
    · have : (Z * Z + q * q) * F2 = 0 := by linear_combination Z * g2 - q * g1
      exact (mul_eq_zero.1 this).resolve_left hpos.ne'

theorem complexSum {nn n l i : Nat} {h : Buf ℝ} {v w : Nat → ℝ} {H G : Nat → Nat → ℝ} (hn : n < nn) (hin : i + 1 < n) (hil : i < l)
    (hln : l < n) (hG : ∀ a b, b ≤ n → G a b = H a b) (hh : FullG h nn nn (colMem2 n l v w G)) :
    (loop l (n + 1) ((0 : ℝ), (0 : ℝ)) fun j (x : ℝ × ℝ) => (do
      let (ra, sa) := x
      return (ra + (← rd h (i * nn + j)) * (← rd h (j * nn + (n - 1))), sa + (← rd h (i * nn + j)) * (← rd h (j * nn + n))) : R (ℝ × ℝ))) =
      .ok (rowS H n l v i, rowS H n l w i) := by
  refine (loop_post (lo := l) (hi := n + 1) (fun k (x : ℝ × ℝ) => x = (∑ j ∈ Ico l k, H i j * v j, ∑ j ∈ Ico l k, H i j * w j)) (by omega) (by simp) ?_).eq_ok
  intro j s h1 h2 h3
  rw [h3]
  dsimp only
  have e1 : colMem2 n l v w G i j = H i j := by unfold colMem2; rw [if_neg (by omega), if_neg (by omega), hG i j (by omega)]
  have e2 : colMem2 n l v w G j (n - 1) = v j := by unfold colMem2; rw [if_neg (by omega), if_pos (by omega)]
  have e3 : colMem2 n l v w G j n = w j := by unfold colMem2; rw [if_pos (by omega)]
  rw [hh.rd (show i < nn by omega) (show j < nn by omega), ok_bind, hh.rd (show j < nn by omega) (show n - 1 < nn by omega), ok_bind, ok_bind,
    hh.rd (show j < nn by omega) hn, ok_bind, e1, e2, e3]
  refine Post.ok ?_
  rw [Finset.sum_Ico_succ_top h1, Finset.sum_Ico_succ_top h1]

theorem divCol2_post {nn n i : Nat} {t : ℝ} {h : Buf ℝ} {v w : Nat → ℝ} {G : Nat → Nat → ℝ} (hn : n < nn) (hi : i < n) (ht : t ≠ 0)
    (hh : FullG h nn nn (colMem2 n i v w G)) : Post (loop i (n + 1) h fun j h => do
          let h ← wr h (j * nn + (n - 1)) (← RDiv.rdiv (← rd h (j * nn + (n - 1))) t)
          wr h (j * nn + n) (← RDiv.rdiv (← rd h (j * nn + n)) t)) fun h' => FullG h' nn nn (colMem2 n i (fun j => v j / t) (fun j => w j / t) G) := by
  refine (loop_post (fun k (h' : Buf ℝ) => FullG h' nn nn (colMem2 n i (fun j => if j < k then v j / t else v j) (fun j => if j < k then w j / t else w j) G))
    (show i ≤ n + 1 by omega) (hh.congr fun a b _ _ => ?_) ?_).mono fun h' hg => hg.congr fun a b _ _ => ?_
  · unfold colMem2; beta_reduce
    clear hh
    by_cases h1 : i ≤ a ∧ a ≤ n
    · rw [if_neg (show ¬ a < i by omega), if_neg (show ¬ a < i by omega)]
    · rw [if_neg (by omega), if_neg (by omega), if_neg (by omega), if_neg (by omega)]
  · intro k h' h1 h2 hg
    have e1 : colMem2 n i (fun j => if j < k then v j / t else v j) (fun j => if j < k then w j / t else w j) G k (n - 1) = v k := by
      unfold colMem2; beta_reduce; rw [if_neg (by omega), if_pos ⟨by omega, h1, by omega⟩, if_neg (lt_irrefl _)]
    rw [hg.rd (show k < nn by omega) (show n - 1 < nn by omega), ok_bind, e1, rdiv_ok ht, ok_bind]
    obtain ⟨h3, hr3, hg3⟩ := FullG.wrP hg (i := k) (j := n - 1) (by omega) (by omega) (v k / t)
    have e2 : upd (colMem2 n i (fun j => if j < k then v j / t else v j) (fun j => if j < k then w j / t else w j) G) k (n - 1) (v k / t) k n = w k := by
      rw [upd_ne (by omega)]; unfold colMem2; beta_reduce; rw [if_pos ⟨rfl, h1, by omega⟩, if_neg (lt_irrefl _)]
    rw [hr3, ok_bind, hg3.rd (show k < nn by omega) hn, ok_bind, e2, rdiv_ok ht, ok_bind]
    refine (FullG.wrP hg3 (i := k) (j := n) (by omega) hn _).mono fun h5 hg5 => hg5.congr fun a b _ _ => ?_
    clear hg hg5 hh e1 hg3 e2
    unfold upd colMem2
    beta_reduce
    by_cases h4 : a = k
    · subst h4
      rw [if_neg (lt_irrefl _), if_neg (lt_irrefl _), if_pos (show a < a + 1 by omega), if_pos (show a < a + 1 by omega)]
      clear hr3
      grind
    · rw [if_neg (by omega), if_neg (by omega)]
      have c : (a < k + 1) = (a < k) := propext ⟨fun h => by omega, fun h => by omega⟩
      simp only [c]
  · unfold colMem2; beta_reduce
    clear hh hg
    by_cases h1 : i ≤ a ∧ a ≤ n
    · rw [if_pos (show a < n + 1 by omega), if_pos (show a < n + 1 by omega)]
    · rw [if_neg (by omega), if_neg (by omega), if_neg (by omega), if_neg (by omega)]

/-- Writing the two components of row `i` (a row of its own). -/
theorem colMem2_one {n i : Nat} {v w : Nat → ℝ} {G : Nat → Nat → ℝ} {s t : ℝ} (hin : i + 1 < n) (a b : Nat) :
    upd (upd (colMem2 n (i + 1) v w G) i (n - 1) s) i n t a b = colMem2 n i (updv v i s) (updv w i t) G a b := by
  unfold upd colMem2 updv
  grind

theorem colMem2_two {n i : Nat} {v w : Nat → ℝ} {G : Nat → Nat → ℝ} {t1 t2 u1 u2 : ℝ} (hin : i + 2 < n) (a b : Nat) :
    upd (upd (upd (upd (colMem2 n (i + 2) v w G) i (n - 1) t1) i n t2) (i + 1) (n - 1) u1) (i + 1) n u2 a b =
      colMem2 n i (updv (updv v i t1) (i + 1) u1) (updv (updv w i t2) (i + 1) u2) G a b := by
  unfold upd colMem2 updv
  by_cases h1 : a = i
  · subst h1; grind
  · by_cases h2 : a = i + 1
    · subst h2; grind
    · rw [if_neg (by omega), if_neg (by omega), if_neg (by omega), if_neg (by omega), if_neg h1, if_neg h1, if_neg h2, if_neg h2]
      grind

end Eigen
end LA
