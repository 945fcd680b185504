import Verif.Proofs.EigHqr9

/-! # `hqr2`: back-substitution for a real vector -/

set_option linter.unusedSectionVars false

namespace LA
open Finset Matrix
namespace Eigen
open SVD (pk pk_congr)

/-- The finished quasi-triangular table. -/
noncomputable def Tf (e : Nat → ℝ) (H : Nat → Nat → ℝ) : Nat → Nat → ℝ := tmk 0 e H

theorem Tf_up {e : Nat → ℝ} {H : Nat → Nat → ℝ} {a b : Nat} (h : a ≤ b) : Tf e H a b = H a b := by
  unfold Tf tmk; rw [if_neg (by omega), if_neg (by omega)]

theorem Tf_low {e : Nat → ℝ} {H : Nat → Nat → ℝ} {a b l : Nat} (hl : ¬ e l < 0) (hb : b < l) (ha : l ≤ a) : Tf e H a b = 0 := by
  unfold Tf tmk
  by_cases h : b + 1 < a
  · rw [if_pos h]
  · rw [if_neg h, if_pos ⟨by omega, Nat.zero_le _, by rw [show a = l by omega]; exact hl⟩]

theorem Tf_sub {e : Nat → ℝ} {H : Nat → Nat → ℝ} {a : Nat} (h : e (a + 1) < 0) : Tf e H (a + 1) a = H (a + 1) a := by
  unfold Tf tmk; rw [if_neg (by omega), if_neg (by rintro ⟨_, _, h2⟩; exact h2 h)]

/-- Row `a` of `T x`, for `x` supported on `l..=n`. -/
noncomputable def rowS (T : Nat → Nat → ℝ) (n l : Nat) (x : Nat → ℝ) (a : Nat) : ℝ := ∑ j ∈ Ico l (n + 1), T a j * x j

theorem rowS_head {T : Nat → Nat → ℝ} {n l a : Nat} {x : Nat → ℝ} (h : l ≤ n) : rowS T n l x a = T a l * x l + rowS T n (l + 1) x a := by
  unfold rowS; rw [Finset.sum_eq_sum_Ico_succ_bot (by omega)]

theorem rowS_congr {T T' : Nat → Nat → ℝ} {n l a : Nat} {x x' : Nat → ℝ} (h : ∀ j, l ≤ j → j ≤ n → T a j * x j = T' a j * x' j) :
    rowS T n l x a = rowS T' n l x' a := by
  unfold rowS
  refine Finset.sum_congr rfl fun j hj => ?_
  rw [Finset.mem_Ico] at hj
  exact h j hj.1 (by omega)

theorem rowS_smul {T : Nat → Nat → ℝ} {n l a : Nat} {x : Nat → ℝ} (t : ℝ) : rowS T n l (fun j => x j / t) a = rowS T n l x a / t := by
  unfold rowS
  rw [Finset.sum_div]
  exact Finset.sum_congr rfl fun j _ => by ring

/-- The rows below are not changed by the new components. -/
theorem rowS_ext {e : Nat → ℝ} {H : Nat → Nat → ℝ} {n l i a : Nat} {x : Nat → ℝ} (hl : ¬ e l < 0) (hil : i ≤ l) (hln : l ≤ n) (ha : l ≤ a) :
    rowS (Tf e H) n i x a = rowS (Tf e H) n l x a := by
  unfold rowS
  rw [← Finset.sum_Ico_consecutive _ hil (show l ≤ n + 1 by omega)]
  rw [Finset.sum_eq_zero, zero_add]
  intro j hj
  rw [Finset.mem_Ico] at hj
  rw [Tf_low hl hj.2 ha, zero_mul]

/-- Partial solution of `(T - p) x = 0` on the rows `l..=n`. -/
structure RV (T : Nat → Nat → ℝ) (n l : Nat) (p ε : ℝ) (x : Nat → ℝ) : Prop where
  ne : x n ≠ 0
  res : ∀ a, l ≤ a → a ≤ n → |rowS T n l x a - p * x a| ≤ ε * |x a|

theorem RV.scale {T : Nat → Nat → ℝ} {n l : Nat} {p ε t : ℝ} {x : Nat → ℝ} (h : RV T n l p ε x) (ht : t ≠ 0) :
    RV T n l p ε (fun j => x j / t) := by
  refine ⟨div_ne_zero h.ne ht, fun a h1 h2 => ?_⟩
  rw [rowS_smul, show rowS T n l x a / t - p * (x a / t) = (rowS T n l x a - p * x a) / t by ring, abs_div, abs_div, ← mul_div_assoc]
  exact div_le_div_of_nonneg_right (h.res a h1 h2) (abs_nonneg _)

/-- A new component (a row of its own). -/
theorem RV.one {e : Nat → ℝ} {H : Nat → Nat → ℝ} {n i : Nat} {p ε t : ℝ} {x : Nat → ℝ} (h : RV (Tf e H) n (i + 1) p ε x)
    (hl : ¬ e (i + 1) < 0) (hin : i < n) (ht : |(H i i - p) * t + rowS H n (i + 1) x i| ≤ ε * |t|) :
    RV (Tf e H) n i p ε (updv x i t) := by
  have hx : ∀ a, rowS (Tf e H) n (i + 1) (updv x i t) a = rowS (Tf e H) n (i + 1) x a := fun a => rowS_congr fun j h1 _ => by
    rw [updv_ne (by omega)]
  refine ⟨by rw [updv_ne (by omega)]; exact h.ne, fun a h1 h2 => ?_⟩
  by_cases ha : a = i
  · subst ha
    have : rowS (Tf e H) n (a + 1) x a = rowS H n (a + 1) x a := rowS_congr fun j h1 _ => by rw [Tf_up (by omega)]
    rw [rowS_head (by omega), hx, updv_same, Tf_up le_rfl, this]
    refine le_trans (le_of_eq ?_) ht
    congr 1; ring
  · rw [rowS_ext hl (by omega) (by omega) (show i + 1 ≤ a by omega), hx, updv_ne ha]
    exact h.res a (by omega) h2

/-- Two new components (a 2-by-2 block). -/
theorem RV.two {e : Nat → ℝ} {H : Nat → Nat → ℝ} {n i : Nat} {p ε t u : ℝ} {x : Nat → ℝ} (h : RV (Tf e H) n (i + 2) p ε x)
    (hl : ¬ e (i + 2) < 0) (hin : i + 1 < n) (hε : 0 ≤ ε) (he : e (i + 1) < 0)
    (h1 : (H i i - p) * t + H i (i + 1) * u + rowS H n (i + 2) x i = 0)
    (h2 : H (i + 1) i * t + (H (i + 1) (i + 1) - p) * u + rowS H n (i + 2) x (i + 1) = 0) :
    RV (Tf e H) n i p ε (updv (updv x i t) (i + 1) u) := by
  have hx : ∀ a, rowS (Tf e H) n (i + 2) (updv (updv x i t) (i + 1) u) a = rowS (Tf e H) n (i + 2) x a := fun a => rowS_congr fun j h1 _ => by
    rw [updv_ne (by omega), updv_ne (by omega)]
  have hT : ∀ a, a ≤ i + 1 → rowS (Tf e H) n (i + 2) x a = rowS H n (i + 2) x a := fun a ha => rowS_congr fun j h1 _ => by rw [Tf_up (by omega)]
  refine ⟨by rw [updv_ne (by omega), updv_ne (by omega)]; exact h.ne, fun a g1 g2 => ?_⟩
  by_cases ha : a = i
  · subst ha
    rw [rowS_head (by omega), rowS_head (by omega), hx, hT a (by omega), updv_same, updv_ne (by omega), updv_same, Tf_up le_rfl, Tf_up (by omega),
      show H a a * t + (H a (a + 1) * u + rowS H n (a + 1 + 1) x a) - p * t = (H a a - p) * t + H a (a + 1) * u + rowS H n (a + 2) x a by ring, h1,
      abs_zero]
    positivity
  · by_cases ha1 : a = i + 1
    · subst ha1
      rw [rowS_head (by omega), rowS_head (by omega), hx, hT _ le_rfl, updv_same, updv_ne (by omega), updv_same, Tf_up le_rfl, Tf_sub he,
        show H (i + 1) i * t + (H (i + 1) (i + 1) * u + rowS H n (i + 1 + 1) x (i + 1)) - p * u =
          H (i + 1) i * t + (H (i + 1) (i + 1) - p) * u + rowS H n (i + 2) x (i + 1) by ring, h2, abs_zero]
      positivity
    · rw [rowS_ext hl (show i ≤ i + 2 by omega) (by omega) (show i + 2 ≤ a by omega), hx, updv_ne (by omega), updv_ne (by omega)]
      exact h.res a (by omega) g2

/-- The eigenvalue arrays of the finished table. -/
theorem Blk.det {nn : Nat} {d e : Nat → ℝ} {H : Nat → Nat → ℝ} (h : Blk nn 0 d e H) {i : Nat} (hi : i < nn) (he : 0 < e i) (p : ℝ) :
    (H i i - p) * (H (i + 1) (i + 1) - p) - H i (i + 1) * H (i + 1) i = (d i - p) * (d i - p) + e i * e i ∧ H i (i + 1) ≠ 0 := by
  obtain ⟨_, _, _, h4, h5⟩ := h.pos i (Nat.zero_le _) hi he
  refine ⟨by rw [h5, h4]; ring, fun h0 => ?_⟩
  rw [h0, mul_zero, add_zero] at h5
  nlinarith [mul_self_nonneg ((H i i - H (i + 1) (i + 1)) / 2), mul_pos he he]

/-- The memory during the back-substitution of column `n`. -/
def colMem (n l : Nat) (x : Nat → ℝ) (G : Nat → Nat → ℝ) : Nat → Nat → ℝ := fun a b => if b = n ∧ l ≤ a ∧ a ≤ n then x a else G a b

theorem divCol_post {nn n i : Nat} {t : ℝ} {h : Buf ℝ} {x : Nat → ℝ} {G : Nat → Nat → ℝ} (hn : n < nn) (hi : i ≤ n) (ht : t ≠ 0)
    (hh : FullG h nn nn (colMem n i x G)) : Post (divCol nn n i n t h) fun h' => FullG h' nn nn (colMem n i (fun j => x j / t) G) := by
  unfold divCol
  refine (loop_post (fun k (h' : Buf ℝ) => FullG h' nn nn (colMem n i (fun j => if j < k then x j / t else x j) G)) (show i ≤ n + 1 by omega)
    (hh.congr fun a b _ _ => ?_) ?_).mono fun h' hg => hg.congr fun a b _ _ => ?_
  · unfold colMem; beta_reduce
    by_cases h1 : b = n ∧ i ≤ a ∧ a ≤ n
    · rw [if_pos h1, if_pos h1, if_neg (by omega)]
    · rw [if_neg h1, if_neg h1]
  · intro k h' h1 h2 hg
    have e1 : colMem n i (fun j => if j < k then x j / t else x j) G k n = x k := by
      unfold colMem; beta_reduce; rw [if_pos ⟨rfl, h1, by omega⟩, if_neg (lt_irrefl _)]
    rw [hg.rd (by omega) hn, ok_bind, e1, rdiv_ok ht, ok_bind]
    refine (FullG.wrP hg (i := k) (j := n) (by omega) hn _).mono fun h5 hg5 => hg5.congr fun a b _ _ => ?_
    clear hg hg5 hh e1
    unfold upd colMem
    beta_reduce
    by_cases h3 : b = n ∧ i ≤ a ∧ a ≤ n
    · rw [if_pos h3, if_pos h3]
      by_cases h4 : a = k
      · rw [if_pos ⟨h4, h3.1⟩, if_pos (by omega), h4]
      · rw [if_neg (by omega)]
        by_cases h5 : a < k
        · rw [if_pos h5, if_pos (by omega)]
        · rw [if_neg h5, if_neg (by omega)]
    · rw [if_neg h3, if_neg h3, if_neg (by omega)]
  · unfold colMem; beta_reduce
    by_cases h1 : b = n ∧ i ≤ a ∧ a ≤ n
    · rw [if_pos h1, if_pos h1, if_pos (by omega)]
    · rw [if_neg h1, if_neg h1]

/-- The invariant of the back-substitution of a real vector: the rows `i..=n` have been visited. -/
structure RInv (nn n : Nat) (e : Nat → ℝ) (H G : Nat → Nat → ℝ) (p ε : ℝ) (i : Nat) (o : Buf ℝ × Nat × ℝ × ℝ) (x : Nat → ℝ) : Prop where
  hh : FullG o.1 nn nn (colMem n o.2.1 x G)
  rv : RV (Tf e H) n o.2.1 p ε x
  nl : ¬ e o.2.1 < 0
  st : o.2.1 = i ∨ (o.2.1 = i + 1 ∧ i < n ∧ e i < 0 ∧ o.2.2.1 = H i i - p ∧ o.2.2.2 = rowS H n (i + 1) x i)

theorem realSum {nn n l i : Nat} {h : Buf ℝ} {x : Nat → ℝ} {H G : Nat → Nat → ℝ} (hn : n < nn) (hin : i < n) (hil : i < l)
    (hln : l ≤ n) (hG : ∀ a b, b ≤ n → G a b = H a b) (hh : FullG h nn nn (colMem n l x G)) :
    (loop l (n + 1) (0 : ℝ) fun j r => do return r + (← rd h (i * nn + j)) * (← rd h (j * nn + n))) = .ok (rowS H n l x i) := by
  refine loop_sum_Ico (fun j => H i j * x j) fun j s h1 h2 => ?_
  rw [hh.rd (show i < nn by omega) (show j < nn by omega), ok_bind, hh.rd (show j < nn by omega) hn, ok_bind]
  unfold colMem
  rw [if_neg (by omega), if_pos (by omega), hG i j (by omega)]
  rfl

theorem realStep_post {nn n i : Nat} {d e : Nat → ℝ} {H G : Nat → Nat → ℝ} {norm p ε : ℝ} {db eb : Buf ℝ} {o : Buf ℝ × Nat × ℝ × ℝ}
    {x : Nat → ℝ} (hd : Full db nn d) (he : Full eb nn e) (hb : Blk nn 0 d e H) (hn : n < nn) (hin : i < n) (hen : e n = 0) (hnorm : 0 < norm) (hε0 : 0 ≤ ε)
    (hε : H i i = p → eps * norm ≤ ε)
    (hG : ∀ a b, b ≤ n → G a b = H a b) (hI : RInv nn n e H G p ε (i + 1) o x) :
    Post (realStep nn n i norm p db eb o) fun o' => ∃ x', RInv nn n e H G p ε i o' x' := by
  obtain ⟨h, l, z, s⟩ := o
  obtain ⟨hh, rv, nl, hst⟩ := hI
  dsimp only at hh rv nl hst
  have hep : (0 : ℝ) < eps * norm := mul_pos eps_pos hnorm
  have hil : i < l := by omega
  have hln : l ≤ n := by omega
  unfold realStep
  dsimp only
  have e0 : colMem n l x G i i = H i i := by unfold colMem; rw [if_neg (by omega), hG _ _ (by omega)]
  rw [hh.rd (show i < nn by omega) (show i < nn by omega), ok_bind, e0, realSum hn hin hil hln hG hh, ok_bind, he.rd (show i < nn by omega), ok_bind, lt_eq]
  by_cases hei : e i < 0
  · rw [if_pos (by simpa using hei)]
    have hl : l = i + 1 := by
      rcases hst with h1 | ⟨h1, h2, h3, _⟩
      · exact h1
      · exfalso
        have := (hb.neg (i + 1) (Nat.zero_le _) h3).2.2
        rw [Nat.add_sub_cancel] at this
        linarith
    subst hl
    exact Post.ok ⟨x, hh, rv, nl, Or.inr ⟨rfl, hin, hei, rfl, rfl⟩⟩
  · rw [if_neg (by simpa using hei)]
    -- the new component(s)
    have hcomp : Post (realComp nn n i norm p (H i i - p) (rowS H n l x i) (e i) z s db h) fun h' => ∃ x', FullG h' nn nn (colMem n i x' G) ∧
        RV (Tf e H) n i p ε x' := by
      unfold realComp
      rw [eq_eq]
      by_cases he0 : e i = 0
      · rw [if_pos (by simpa using he0), eq_eq]
        have hl : l = i + 1 := by
          rcases hst with h1 | ⟨h1, h2, h3, _⟩
          · exact h1
          · exfalso
            have := (hb.neg (i + 1) (Nat.zero_le _) h3).2.2
            rw [Nat.add_sub_cancel] at this
            linarith
        subst hl
        have wrt : ∀ t : ℝ, |(H i i - p) * t + rowS H n (i + 1) x i| ≤ ε * |t| → Post (wr h (i * nn + n) t) fun h' => ∃ x',
            FullG h' nn nn (colMem n i x' G) ∧ RV (Tf e H) n i p ε x' := fun t ht => by
          refine (FullG.wrP hh (i := i) (j := n) (by omega) hn t).mono fun h' hg => ⟨updv x i t, hg.congr fun a b _ _ => ?_, rv.one nl hin ht⟩
          unfold upd colMem updv
          clear hG hst hh hg rv
          grind
        by_cases hw : H i i - p = 0
        · rw [if_neg (by simpa using hw), rdiv_ok hep.ne', ok_bind]
          refine wrt _ (le_trans (le_of_eq ?_) (mul_le_mul_of_nonneg_right (hε (by linarith)) (abs_nonneg _)))
          rw [hw, zero_mul, zero_add, abs_div, abs_neg, abs_of_pos hep, mul_comm (eps * norm), div_mul_cancel₀ _ hep.ne']
        · rw [if_pos (by simpa using hw), rdiv_ok hw, ok_bind]
          refine wrt _ ?_
          rw [show (H i i - p) * (-rowS H n (i + 1) x i / (H i i - p)) + rowS H n (i + 1) x i = 0 by field_simp; ring, abs_zero]
          positivity
      · rw [if_neg (by simpa using he0)]
        have hpos : 0 < e i := lt_of_le_of_ne (not_lt.1 hei) (Ne.symm he0)
        obtain ⟨p1, p2, p3, p4, p5⟩ := hb.pos i (Nat.zero_le _) (by omega) hpos
        have hneg : e (i + 1) < 0 := by rw [p2]; linarith
        have hst2 : l = i + 2 ∧ i + 1 < n ∧ z = H (i + 1) (i + 1) - p ∧ s = rowS H n (i + 2) x (i + 1) := by
          rcases hst with h1 | ⟨h1, h2, h3, h4, h5⟩
          · exfalso; rw [h1] at nl; exact nl hneg
          · exact ⟨h1, h2, h4, h5⟩
        obtain ⟨hl, hi1, hz, hs⟩ := hst2
        subst hl hz hs
        dsimp only
        have e1 : colMem n (i + 2) x G i (i + 1) = H i (i + 1) := by unfold colMem; rw [if_neg (by omega), hG _ _ (by omega)]
        have e2 : colMem n (i + 2) x G (i + 1) i = H (i + 1) i := by unfold colMem; rw [if_neg (by omega), hG _ _ (by omega)]
        rw [hh.rd (show i < nn by omega) (show i + 1 < nn by omega), ok_bind, hh.rd (show i + 1 < nn by omega) (show i < nn by omega), ok_bind, e1, e2,
          hd.rd (show i < nn by omega), ok_bind]
        obtain ⟨hdet, hx0⟩ := hb.det (show i < nn by omega) hpos p
        have hq : (d i - p) * (d i - p) + e i * e i ≠ 0 := by nlinarith [mul_self_nonneg (d i - p), mul_pos hpos hpos]
        rw [rdiv_ok hq, ok_bind]
        set q := (d i - p) * (d i - p) + e i * e i with hqd
        set X := H i (i + 1) with hX
        set Y := H (i + 1) i with hY
        set Z := H (i + 1) (i + 1) - p with hZ
        set W := H i i - p with hW
        set r := rowS H n (i + 2) x i with hr
        set s := rowS H n (i + 2) x (i + 1) with hs
        set t := (X * s - Z * r) / q with ht
        have htq : t * q = X * s - Z * r := by rw [ht]; field_simp
        obtain ⟨h1, hr1, hg1⟩ := FullG.wrP hh (i := i) (j := n) (by omega) hn t
        rw [hr1, ok_bind, Exact.abs_eq, Exact.abs_eq, lt_eq]
        have wrt : ∀ u : ℝ, W * t + X * u + r = 0 → Y * t + Z * u + s = 0 → Post (wr h1 ((i + 1) * nn + n) u) fun h' => ∃ x',
            FullG h' nn nn (colMem n i x' G) ∧ RV (Tf e H) n i p ε x' := fun u h2 h3 => by
          refine (FullG.wrP hg1 (i := i + 1) (j := n) (by omega) hn u).mono fun h' hg => ⟨updv (updv x i t) (i + 1) u, hg.congr fun a b _ _ => ?_,
            rv.two nl hi1 hε0 hneg h2 h3⟩
          clear_value t r s X Y Z W q
          unfold upd colMem updv
          clear hG hst hh hg rv hb hd he hg1
          grind
        by_cases hc : |Z| < |X|
        · rw [if_pos (by simpa using hc), rdiv_ok hx0, ok_bind]
          have f1 : W * t + X * ((-r - W * t) / X) + r = 0 := by field_simp; ring
          refine wrt _ f1 ?_
          have f2 : X * (Y * t + Z * ((-r - W * t) / X) + s) = 0 := by
            have : X * (Y * t + Z * ((-r - W * t) / X) + s) = X * Y * t + Z * (-r - W * t) + X * s := by field_simp
            rw [this]
            linear_combination (-t) * hdet - htq
          exact (mul_eq_zero.1 f2).resolve_left hx0
        · have hz0 : Z ≠ 0 := by
            intro h0; rw [h0, abs_zero] at hc; exact hc (abs_pos.2 hx0)
          rw [if_neg (by simpa using hc), rdiv_ok hz0, ok_bind]
          have f1 : Y * t + Z * ((-s - Y * t) / Z) + s = 0 := by field_simp; ring
          refine wrt _ ?_ f1
          have f2 : Z * (W * t + X * ((-s - Y * t) / Z) + r) = 0 := by
            have : Z * (W * t + X * ((-s - Y * t) / Z) + r) = Z * W * t + X * (-s - Y * t) + Z * r := by field_simp
            rw [this]
            linear_combination t * hdet + htq
          exact (mul_eq_zero.1 f2).resolve_left hz0
    obtain ⟨h', hrh, x', hg', hrv'⟩ := hcomp
    have e1 : colMem n i x' G i n = x' i := by unfold colMem; rw [if_pos ⟨rfl, le_rfl, by omega⟩]
    rw [hrh, ok_bind, hg'.rd (show i < nn by omega) hn, ok_bind, e1, Exact.abs_eq, lt_eq]
    by_cases hc : 1 < eps * |x' i| * |x' i|
    · have ht : |x' i| ≠ 0 := by intro h0; rw [h0, mul_zero] at hc; linarith
      obtain ⟨h2, hr2, hg2⟩ := divCol_post hn (show i ≤ n by omega) ht hg'
      rw [if_pos (by simpa using hc), hr2, ok_bind]
      exact Post.ok ⟨_, hg2, hrv'.scale ht, hei, Or.inl rfl⟩
    · rw [if_neg (by simpa using hc)]
      exact Post.ok ⟨_, hg', hrv', hei, Or.inl rfl⟩

theorem realVec_gen {jk : Left ℝ} {nn n : Nat} {d e : Nat → ℝ} {H G : Nat → Nat → ℝ} {norm p ε : ℝ} {db eb h : Buf ℝ} (hh : FullG h nn nn G)
    (hd : Full db nn d) (he : Full eb nn e) (hb : Blk nn 0 d e H) (hn : n < nn) (hen : e n = 0) (hp : p = d n) (hnorm : 0 < norm) (hε0 : 0 ≤ ε)
    (hε : ∀ i, i < n → H i i = p → eps * norm ≤ ε)
    (hG : ∀ a b, b ≤ n → G a b = H a b) :
    Post (realVec jk nn n norm p db eb h) fun h' => ∃ x, FullG h' nn nn (colMem n 0 x G) ∧ RV (Tf e H) n 0 p ε x := by
  unfold realVec
  obtain ⟨h1, hr1, hg1⟩ := FullG.wrP hh (i := n) (j := n) hn hn 1
  rw [hr1, ok_bind]
  have h0 : RInv nn n e H G p ε n (h1, n, jk.z, jk.s) (fun _ => 1) := by
    refine ⟨hg1.congr fun a b _ _ => ?_, ⟨one_ne_zero, fun a h2 h3 => ?_⟩, by simp [hen], Or.inl rfl⟩
    · unfold upd colMem; clear hG hh hg1; grind
    · have : a = n := by dsimp only at h2; omega
      subst this
      dsimp only
      unfold rowS
      rw [Nat.Ico_succ_singleton, Finset.sum_singleton, Tf_up le_rfl, hp, hb.zer a (Nat.zero_le _) hn hen, sub_self, abs_zero]
      positivity
  obtain ⟨o, hro, x, hI⟩ := loopRev_post (lo := 0) (hi := n) (f := fun i x => realStep nn n i norm p db eb x)
    (fun i o => ∃ x, RInv nn n e H G p ε i o x) (Nat.zero_le _) ⟨_, h0⟩
    (fun i o _ h2 ⟨x, hI⟩ => realStep_post hd he hb hn h2 hen hnorm hε0 (hε i h2) hG hI)
  rw [hro, ok_bind]
  obtain ⟨h', l, z, s⟩ := o
  have hl : l = 0 := by
    rcases hI.st with h1 | ⟨_, _, h3, _⟩
    · exact h1
    · exact absurd (hb.neg 0 le_rfl h3).1 (lt_irrefl _)
  subst hl
  exact Post.ok ⟨x, hI.hh, hI.rv⟩

theorem realVec_post {jk : Left ℝ} {nn n : Nat} {d e : Nat → ℝ} {H G : Nat → Nat → ℝ} {norm p : ℝ} {db eb h : Buf ℝ} (hh : FullG h nn nn G)
    (hd : Full db nn d) (he : Full eb nn e) (hb : Blk nn 0 d e H) (hn : n < nn) (hen : e n = 0) (hp : p = d n) (hnorm : 0 < norm)
    (hG : ∀ a b, b ≤ n → G a b = H a b) :
    Post (realVec jk nn n norm p db eb h) fun h' => ∃ x, FullG h' nn nn (colMem n 0 x G) ∧ RV (Tf e H) n 0 p (eps * norm) x :=
  realVec_gen hh hd he hb hn hen hp hnorm (mul_pos eps_pos hnorm).le (fun _ _ _ => le_rfl) hG

end Eigen
end LA
