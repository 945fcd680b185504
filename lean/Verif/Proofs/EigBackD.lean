import Verif.Proofs.EigBackC

/-! # `hqr2`: back-substitution for a complex vector, the loops -/

set_option linter.unusedSectionVars false

namespace LA
open Finset Matrix
namespace Eigen
open SVD (pk pk_congr)

/-- The pair `p ± iq` of the rows `n - 1`, `n` is not repeated above. -/
def NRep (n : Nat) (d e : Nat → ℝ) (p q : ℝ) : Prop := ∀ i, i + 1 < n → 0 < e i → ¬(d i = p ∧ e i * e i = q * q)

theorem complexOne_post {nn n i : Nat} {d e : Nat → ℝ} {H G : Nat → Nat → ℝ} {norm p q : ℝ} {db h : Buf ℝ} {z r s : ℝ} {v w : Nat → ℝ}
    (hn : n < nn) (hin : i + 1 < n) (hq : q < 0) (hh : FullG h nn nn (colMem2 n (i + 1) v w G)) (cv : CV (NRep n d e p q) (Tf e H) n (i + 1) p q v w)
    (nl : ¬ e (i + 1) < 0) (he0 : e i = 0) :
    Post (complexComp nn n i norm p q (H i i - p) (rowS H n (i + 1) v i) (rowS H n (i + 1) w i) (e i) z r s db h) fun h' => ∃ v' w',
      FullG h' nn nn (colMem2 n i v' w' G) ∧ CV (NRep n d e p q) (Tf e H) n i p q v' w' := by
  unfold complexComp
  rw [eq_eq, if_pos (by simpa using he0)]
  obtain ⟨cr, ci, hc, h1, h2⟩ := cdiv_eq (-rowS H n (i + 1) v i) (-rowS H n (i + 1) w i) (H i i - p) q (Or.inr hq.ne)
  rw [hc, ok_bind]
  dsimp only
  obtain ⟨h3, hr3, hg3⟩ := FullG.wrP hh (i := i) (j := n - 1) (by omega) (by omega) cr
  rw [hr3, ok_bind]
  exact (FullG.wrP hg3 (i := i) (j := n) (by omega) hn ci).mono fun h' hg => ⟨updv v i cr, updv w i ci,
    hg.congr fun a b _ _ => colMem2_one hin a b, cv.one nl (by omega) h1 h2⟩

theorem complexTwo_post {nn n i : Nat} {d e : Nat → ℝ} {H G : Nat → Nat → ℝ} {norm p q : ℝ} {db h : Buf ℝ} {v w : Nat → ℝ}
    (hd : Full db nn d) (hb : Blk nn 0 d e H) (hn : n < nn) (hin : i + 2 < n) (hq : q < 0) (hnorm : 0 < norm) (hG : ∀ a b, b ≤ n → G a b = H a b)
    (hh : FullG h nn nn (colMem2 n (i + 2) v w G)) (cv : CV (NRep n d e p q) (Tf e H) n (i + 2) p q v w) (nl : ¬ e (i + 2) < 0) (hpos : 0 < e i) :
    Post (complexComp nn n i norm p q (H i i - p) (rowS H n (i + 2) v i) (rowS H n (i + 2) w i) (e i) (H (i + 1) (i + 1) - p)
      (rowS H n (i + 2) v (i + 1)) (rowS H n (i + 2) w (i + 1)) db h) fun h' => ∃ v' w',
      FullG h' nn nn (colMem2 n i v' w' G) ∧ CV (NRep n d e p q) (Tf e H) n i p q v' w' := by
  obtain ⟨p1, p2, p3, p4, p5⟩ := hb.pos i (Nat.zero_le _) (by omega) hpos
  have hneg : e (i + 1) < 0 := by rw [p2]; linarith
  obtain ⟨hdet, hx0⟩ := hb.det (show i < nn by omega) hpos p
  have hep : (0 : ℝ) < eps * norm := mul_pos eps_pos hnorm
  unfold complexComp
  rw [eq_eq, if_neg (by simpa using hpos.ne')]
  dsimp only
  have e1 : colMem2 n (i + 2) v w G i (i + 1) = H i (i + 1) := by unfold colMem2; rw [if_neg (by omega), if_neg (by omega), hG _ _ (by omega)]
  have e2 : colMem2 n (i + 2) v w G (i + 1) i = H (i + 1) i := by unfold colMem2; rw [if_neg (by omega), if_neg (by omega), hG _ _ (by omega)]
  rw [hh.rd (show i < nn by omega) (show i + 1 < nn by omega), ok_bind, hh.rd (show i + 1 < nn by omega) (show i < nn by omega), ok_bind, e1, e2,
    hd.rd (show i < nn by omega), ok_bind]
  have hsum : (H i i - p) + (H (i + 1) (i + 1) - p) = (d i - p) * 2 := by rw [p4]; ring
  set X := H i (i + 1) with hX
  set Y := H (i + 1) i with hY
  set Z := H (i + 1) (i + 1) - p with hZ
  set W := H i i - p with hW
  set ra := rowS H n (i + 2) v i with hra
  set sa := rowS H n (i + 2) w i with hsa
  set r := rowS H n (i + 2) v (i + 1) with hr
  set s := rowS H n (i + 2) w (i + 1) with hs
  simp only [Exact.abs_eq, Exact.cst_eq, eq_eq, lt_eq]
  have hvi : (d i - p) * ((2 : ℕ) / (1 : ℕ)) * q = q * (W + Z) := by rw [hsum]; push_cast; ring
  have hvr : (d i - p) * (d i - p) + e i * e i - q * q = W * Z - X * Y - q * q := by rw [← hdet]
  generalize hVR : (d i - p) * (d i - p) + e i * e i - q * q = vr at hvr ⊢
  generalize hVI : (d i - p) * ((2 : ℕ) / (1 : ℕ)) * q = vi at hvi ⊢
  generalize hVR' : (if (decide (vr = 0) && decide (vi = 0)) = true then eps * norm * (|W| + |q| + |X| + |Y| + |Z|) else vr) = vr'
  have hne : vr' ≠ 0 ∨ vi ≠ 0 := by
    by_cases h1 : vr = 0 ∧ vi = 0
    · left
      rw [← hVR', if_pos (by simpa using h1)]
      have := abs_pos.2 hx0
      positivity
    · rw [if_neg (by simpa using h1)] at hVR'
      rw [← hVR']
      by_contra h2
      push Not at h2
      exact h1 h2
  have hnr : NRep n d e p q → vr' = vr := by
    intro hN
    rw [← hVR', if_neg]
    intro h1
    simp only [Bool.and_eq_true, decide_eq_true_eq] at h1
    obtain ⟨h1, h2⟩ := h1
    have h3 : d i = p := by
      rw [← hVI] at h2
      have : (d i - p) = 0 := by
        rcases mul_eq_zero.1 h2 with h4 | h4
        · rcases mul_eq_zero.1 h4 with h5 | h5
          · exact h5
          · norm_num at h5
        · exact absurd h4 hq.ne
      linarith
    refine hN i (by omega) hpos ⟨h3, ?_⟩
    rw [← hVR, h3] at h1
    linarith
  obtain ⟨t1, t2, hc, ht1, ht2⟩ := cdiv_eq (X * r - Z * ra + q * sa) (X * s - Z * sa - q * ra) vr' vi hne
  rw [hc, ok_bind]
  dsimp only
  have hcs : NRep n d e p q → _ := fun hN => csolve (ra := ra) (sa := sa) (r := r) (s := s) hvr hvi (by rw [← hnr hN]; exact ht1) (by rw [← hnr hN]; exact ht2)
  clear hVR' hnr ht1 ht2 hc
  obtain ⟨h3, hr3, hg3⟩ := FullG.wrP hh (i := i) (j := n - 1) (by omega) (by omega) t1
  rw [hr3, ok_bind]
  obtain ⟨h4, hr4, hg4⟩ := FullG.wrP hg3 (i := i) (j := n) (by omega) hn t2
  rw [hr4, ok_bind]
  have f1 : upd (upd (colMem2 n (i + 2) v w G) i (n - 1) t1) i n t2 i (n - 1) = t1 := by rw [upd_ne (by omega), upd_same]
  have f2 : upd (upd (colMem2 n (i + 2) v w G) i (n - 1) t1) i n t2 i n = t2 := by rw [upd_same]
  have wrt : ∀ u1 u2 : ℝ, (NRep n d e p q → W * t1 - q * t2 + X * u1 + ra = 0 ∧ W * t2 + q * t1 + X * u2 + sa = 0 ∧
      Y * t1 + Z * u1 - q * u2 + r = 0 ∧ Y * t2 + Z * u2 + q * u1 + s = 0) →
      ∀ h5, Post (wr h4 ((i + 1) * nn + (n - 1)) u1) (fun h6 => h6 = h5) → Post (wr h5 ((i + 1) * nn + n) u2) fun h' => ∃ v' w',
        FullG h' nn nn (colMem2 n i v' w' G) ∧ CV (NRep n d e p q) (Tf e H) n i p q v' w' := fun u1 u2 hu h5 hh5 => by
    have hg5 := FullG.wrP hg4 (i := i + 1) (j := n - 1) (by omega) (by omega) u1
    obtain ⟨h6, hr6, hg6⟩ := hg5
    obtain ⟨h7, hr7, rfl⟩ := hh5
    rw [hr6] at hr7
    cases hr7
    exact (FullG.wrP hg6 (i := i + 1) (j := n) (by omega) hn u2).mono fun h' hg => ⟨updv (updv v i t1) (i + 1) u1, updv (updv w i t2) (i + 1) u2,
      hg.congr fun a b _ _ => colMem2_two hin a b, cv.two nl (by omega) hneg (fun hN => (hu hN).1) (fun hN => (hu hN).2.1) (fun hN => (hu hN).2.2.1)
        (fun hN => (hu hN).2.2.2)⟩
  by_cases hcmp : |Z| + |q| < |X|
  · rw [if_pos (by simpa using hcmp), hg4.rd (show i < nn by omega) (show n - 1 < nn by omega), ok_bind, f1,
      hg4.rd (show i < nn by omega) hn, ok_bind, f2, rdiv_ok hx0, ok_bind]
    obtain ⟨h5, hr5, hg5⟩ := FullG.wrP hg4 (i := i + 1) (j := n - 1) (by omega) (by omega) ((-ra - W * t1 + q * t2) / X)
    have f3 : upd (upd (upd (colMem2 n (i + 2) v w G) i (n - 1) t1) i n t2) (i + 1) (n - 1) ((-ra - W * t1 + q * t2) / X) i (n - 1) = t1 := by
      rw [upd_ne (by omega), f1]
    have f4 : upd (upd (upd (colMem2 n (i + 2) v w G) i (n - 1) t1) i n t2) (i + 1) (n - 1) ((-ra - W * t1 + q * t2) / X) i n = t2 := by
      rw [upd_ne (by omega), f2]
    rw [hr5, ok_bind, hg5.rd (show i < nn by omega) hn, ok_bind, f4, hg5.rd (show i < nn by omega) (show n - 1 < nn by omega), ok_bind, f3, rdiv_ok hx0, ok_bind]
    refine wrt _ _ (fun hN => ?_) h5 ⟨h5, hr5, rfl⟩
    have g1 : W * t1 - q * t2 + X * ((-ra - W * t1 + q * t2) / X) + ra = 0 := by field_simp; ring
    have g2 : W * t2 + q * t1 + X * ((-sa - W * t2 - q * t1) / X) + sa = 0 := by field_simp; ring
    exact ⟨g1, g2, (hcs hN).1 hx0 _ _ g1 g2⟩
  · rw [if_neg (by simpa using hcmp), hg4.rd (show i < nn by omega) (show n - 1 < nn by omega), ok_bind, f1,
      hg4.rd (show i < nn by omega) hn, ok_bind, f2]
    obtain ⟨u1, u2, hc, hu1, hu2⟩ := cdiv_eq (-r - Y * t1) (-s - Y * t2) Z q (Or.inr hq.ne)
    rw [hc, ok_bind]
    dsimp only
    obtain ⟨h5, hr5, hg5⟩ := FullG.wrP hg4 (i := i + 1) (j := n - 1) (by omega) (by omega) u1
    rw [hr5, ok_bind]
    refine wrt _ _ (fun hN => ?_) h5 ⟨h5, hr5, rfl⟩
    have g1 : Y * t1 + Z * u1 - q * u2 + r = 0 := by linarith
    have g2 : Y * t2 + Z * u2 + q * u1 + s = 0 := by linarith
    have := (hcs hN).2 hq.ne _ _ g1 g2
    exact ⟨this.1, this.2, g1, g2⟩

theorem complexStep_post {nn n i : Nat} {d e : Nat → ℝ} {H G : Nat → Nat → ℝ} {norm p q : ℝ} {db eb : Buf ℝ}
    {o : Buf ℝ × Nat × ℝ × ℝ × ℝ} {v w : Nat → ℝ} (hd : Full db nn d) (he : Full eb nn e) (hb : Blk nn 0 d e H) (hn : n < nn)
    (hin : i + 1 < n) (hq : q < 0) (hnorm : 0 < norm) (hG : ∀ a b, b ≤ n → G a b = H a b)
    (hI : CInv nn n (NRep n d e p q) e H G p q (i + 1) o v w) :
    Post (complexStep nn n i norm p q db eb o) fun o' => ∃ v' w', CInv nn n (NRep n d e p q) e H G p q i o' v' w' := by
  obtain ⟨h, l, z, r, s⟩ := o
  obtain ⟨hh, cv, nl, hst⟩ := hI
  dsimp only at hh cv nl hst
  have hil : i < l := by omega
  have hln : l < n := by omega
  unfold complexStep
  dsimp only
  have e0 : colMem2 n l v w G i i = H i i := by unfold colMem2; rw [if_neg (by omega), if_neg (by omega), hG _ _ (by omega)]
  erw [complexSum hn hin hil hln hG hh]
  rw [ok_bind]
  dsimp only
  rw [hh.rd (show i < nn by omega) (show i < nn by omega), ok_bind, e0, he.rd (show i < nn by omega), ok_bind, lt_eq]
  have hone : e i ≤ 0 → l = i + 1 := fun hle => by
    rcases hst with h1 | ⟨h1, h2, h3, _⟩
    · exact h1
    · exfalso
      have := (hb.neg (i + 1) (Nat.zero_le _) h3).2.2
      rw [Nat.add_sub_cancel] at this
      linarith
  by_cases hei : e i < 0
  · rw [if_pos (by simpa using hei)]
    have hl := hone hei.le
    subst hl
    exact Post.ok ⟨v, w, hh, cv, nl, Or.inr ⟨rfl, hin, hei, rfl, rfl, rfl⟩⟩
  · rw [if_neg (by simpa using hei)]
    have hcomp : Post (complexComp nn n i norm p q (H i i - p) (rowS H n l v i) (rowS H n l w i) (e i) z r s db h) fun h' => ∃ v' w',
        FullG h' nn nn (colMem2 n i v' w' G) ∧ CV (NRep n d e p q) (Tf e H) n i p q v' w' := by
      by_cases he0 : e i = 0
      · have hl := hone he0.le
        subst hl
        exact complexOne_post hn hin hq hh cv nl he0
      · have hpos : 0 < e i := lt_of_le_of_ne (not_lt.1 hei) (Ne.symm he0)
        have hneg : e (i + 1) < 0 := by rw [(hb.pos i (Nat.zero_le _) (by omega) hpos).2.1]; linarith
        rcases hst with h1 | ⟨h1, h2, h3, h4, h5, h6⟩
        · exfalso; rw [h1] at nl; exact nl hneg
        · subst h1 h4 h5 h6
          exact complexTwo_post hd hb hn hln hq hnorm hG hh cv nl hpos
    obtain ⟨h', hrh, v', w', hg', hcv'⟩ := hcomp
    have e1 : colMem2 n i v' w' G i (n - 1) = v' i := by unfold colMem2; rw [if_neg (by omega), if_pos (by omega)]
    have e2 : colMem2 n i v' w' G i n = w' i := by unfold colMem2; rw [if_pos (by omega)]
    rw [hrh, ok_bind, hg'.rd (show i < nn by omega) (show n - 1 < nn by omega), ok_bind, hg'.rd (show i < nn by omega) hn, ok_bind, e1, e2,
      Exact.abs_eq, Exact.abs_eq, Exact.max_eq, lt_eq]
    by_cases hc : 1 < eps * max |v' i| |w' i| * max |v' i| |w' i|
    · have ht : max |v' i| |w' i| ≠ 0 := by intro h0; rw [h0, mul_zero] at hc; linarith
      obtain ⟨h2, hr2, hg2⟩ := divCol2_post hn (show i < n by omega) ht hg'
      rw [if_pos (by simpa using hc), hr2, ok_bind]
      exact Post.ok ⟨_, _, hg2, hcv'.scale ht, hei, Or.inl rfl⟩
    · rw [if_neg (by simpa using hc)]
      exact Post.ok ⟨_, _, hg', hcv', hei, Or.inl rfl⟩

theorem rowS_end {T : Nat → Nat → ℝ} {m a : Nat} {x : Nat → ℝ} : rowS T (m + 1) m x a = T a m * x m + T a (m + 1) * x (m + 1) := by
  unfold rowS
  rw [Finset.sum_Ico_succ_top (by omega), Finset.sum_Ico_succ_top (by omega), Finset.Ico_self, Finset.sum_empty, zero_add]

theorem complexLast_post {nn m : Nat} {NR : Prop} {d e : Nat → ℝ} {H G : Nat → Nat → ℝ} {p q : ℝ} {h : Buf ℝ} (hh : FullG h nn nn G)
    (hb : Blk nn 0 d e H) (hn : m + 1 < nn) (hp : p = d (m + 1)) (hqe : q = e (m + 1)) (hq : q < 0) (hG : ∀ a b, b ≤ m + 1 → G a b = H a b) :
    Post (complexLast nn (m + 1) p q h) fun h' => ∃ v w, FullG h' nn nn (colMem2 (m + 1) m v w G) ∧ CV NR (Tf e H) (m + 1) m p q v w := by
  have hem : 0 < e m := (hb.neg (m + 1) (Nat.zero_le _) (by rw [← hqe]; exact hq)).2.2
  obtain ⟨p1, p2, p3, p4, p5⟩ := hb.pos m (Nat.zero_le _) (by omega) hem
  have hneg : e (m + 1) < 0 := by rw [← hqe]; exact hq
  have hqq : q * q = -((H m m - H (m + 1) (m + 1)) / 2 * ((H m m - H (m + 1) (m + 1)) / 2) + H (m + 1) m * H m (m + 1)) := by
    rw [← p5, hqe, p2]; ring
  have hpp : H (m + 1) (m + 1) - p = -(H m m - p) := by rw [hp, p3, p4]; ring
  have hqq : H (m + 1) m * H m (m + 1) = -(q * q + (H m m - p) * (H m m - p)) := by
    have : (H m m - H (m + 1) (m + 1)) / 2 = H m m - p := by linarith
    rw [this] at hqq; linarith
  unfold complexLast
  rw [Nat.add_sub_cancel, hh.rd (show m + 1 < nn by omega) (show m < nn by omega), ok_bind, hh.rd (show m < nn by omega) hn, ok_bind,
    hG _ _ (show m ≤ m + 1 by omega), hG _ _ le_rfl, Exact.abs_eq, Exact.abs_eq, lt_eq]
  have key : ∀ x y : ℝ, H (m + 1) m * x = q → H (m + 1) m * y = H m m - p → (H m m - p) * x - q * y = 0 →
      (H m m - p) * y + H m (m + 1) + q * x = 0 → CV NR (Tf e H) (m + 1) m p q (updv (fun _ => x) (m + 1) 0) (updv (fun _ => y) (m + 1) 1) := by
    intro x y h1 h2 h3 h4
    have hne : m ≠ m + 1 := by omega
    refine ⟨by rw [updv_same]; exact one_ne_zero, updv_same _ _ _, fun _ a g1 g2 => ?_, fun _ a g1 g2 => ?_⟩
    · rw [rowS_end, updv_same, updv_ne hne]
      rcases (show a = m ∨ a = m + 1 by omega) with ha | ha
      · subst ha
        rw [Tf_up le_rfl, Tf_up (by omega), updv_ne hne, updv_ne hne]; linarith
      · subst ha
        rw [Tf_sub hneg, updv_same, updv_same]; linarith
    · rw [rowS_end, updv_same, updv_ne hne]
      rcases (show a = m ∨ a = m + 1 by omega) with ha | ha
      · subst ha
        rw [Tf_up le_rfl, Tf_up (by omega), updv_ne hne, updv_ne hne]; linarith
      · subst ha
        rw [Tf_sub hneg, Tf_up le_rfl, updv_same, updv_same]; linarith
  have wrt : ∀ x y : ℝ, Post (do
      let h ← wr h (m * nn + m) x
      wr h (m * nn + (m + 1)) y) fun h1 => FullG h1 nn nn (upd (upd G m m x) m (m + 1) y) := fun x y => by
    obtain ⟨h1, hr1, hg1⟩ := FullG.wrP hh (i := m) (j := m) (by omega) (by omega) x
    rw [hr1, ok_bind]
    exact FullG.wrP hg1 (i := m) (j := m + 1) (by omega) hn y
  have fin : ∀ (x y : ℝ) (h1 : Buf ℝ), FullG h1 nn nn (upd (upd G m m x) m (m + 1) y) →
      CV NR (Tf e H) (m + 1) m p q (updv (fun _ => x) (m + 1) 0) (updv (fun _ => y) (m + 1) 1) →
      Post (do
        let h ← wr h1 ((m + 1) * nn + m) 0
        wr h ((m + 1) * nn + (m + 1)) 1) fun h' => ∃ v w, FullG h' nn nn (colMem2 (m + 1) m v w G) ∧ CV NR (Tf e H) (m + 1) m p q v w := by
    intro x y h1 hg1 hcv
    obtain ⟨h2, hr2, hg2⟩ := FullG.wrP hg1 (i := m + 1) (j := m) (by omega) (by omega) 0
    rw [hr2, ok_bind]
    refine (FullG.wrP hg2 (i := m + 1) (j := m + 1) (by omega) hn 1).mono fun h' hg => ⟨_, _, hg.congr fun a b _ _ => ?_, hcv⟩
    clear hh hb hG hg hg1 hg2 hcv key wrt p5 hqq
    unfold upd colMem2 updv
    grind
  by_cases hc : |H m (m + 1)| < |H (m + 1) m|
  · have ha0 : H (m + 1) m ≠ 0 := by intro h0; rw [h0, abs_zero] at hc; exact absurd hc (not_lt.2 (abs_nonneg _))
    rw [if_pos (by simpa using hc), rdiv_ok ha0, ok_bind]
    obtain ⟨h1, hr1, hg1⟩ := FullG.wrP hh (i := m) (j := m) (by omega) (by omega) (q / H (m + 1) m)
    have e1 : upd G m m (q / H (m + 1) m) (m + 1) (m + 1) = H (m + 1) (m + 1) := by rw [upd_ne (by omega), hG _ _ le_rfl]
    rw [hr1, ok_bind, hg1.rd hn hn, ok_bind, e1, rdiv_ok ha0, ok_bind, hpp, neg_neg]
    obtain ⟨h2, hr2, hg2⟩ := FullG.wrP hg1 (i := m) (j := m + 1) (by omega) hn ((H m m - p) / H (m + 1) m)
    rw [hr2, ok_bind]
    refine fin _ _ h2 hg2 (key _ _ (by field_simp) (by field_simp) (by field_simp; ring) ?_)
    have : (H m m - p) * ((H m m - p) / H (m + 1) m) + H m (m + 1) + q * (q / H (m + 1) m) =
        ((H m m - p) * (H m m - p) + H (m + 1) m * H m (m + 1) + q * q) / H (m + 1) m := by field_simp
    rw [this, hqq]; ring
  · rw [if_neg (by simpa using hc), hh.rd (show m < nn by omega) (show m < nn by omega), ok_bind, hG _ _ (show m ≤ m + 1 by omega)]
    obtain ⟨x, y, hcd, h1, h2⟩ := cdiv_eq 0 (-H m (m + 1)) (H m m - p) q (Or.inr hq.ne)
    rw [hcd, ok_bind]
    dsimp only
    obtain ⟨h3, hr3, hg3⟩ := wrt x y
    rw [hr3, ok_bind]
    have hpos : 0 < q * q + (H m m - p) * (H m m - p) := by nlinarith [mul_pos_of_neg_of_neg hq hq, mul_self_nonneg (H m m - p)]
    refine fin _ _ h3 hg3 (key _ _ ?_ ?_ (by linarith) (by linarith))
    · have : (q * q + (H m m - p) * (H m m - p)) * (H (m + 1) m * x - q) = 0 := by
        have h5 : (q * q + (H m m - p) * (H m m - p)) * x = -H m (m + 1) * q := by linear_combination q * h2 + (H m m - p) * h1
        linear_combination H (m + 1) m * h5 - q * hqq
      have := (mul_eq_zero.1 this).resolve_left hpos.ne'
      linarith
    · have : (q * q + (H m m - p) * (H m m - p)) * (H (m + 1) m * y - (H m m - p)) = 0 := by
        have h5 : (q * q + (H m m - p) * (H m m - p)) * y = -H m (m + 1) * (H m m - p) := by linear_combination (H m m - p) * h2 - q * h1
        linear_combination H (m + 1) m * h5 - (H m m - p) * hqq
      have := (mul_eq_zero.1 this).resolve_left hpos.ne'
      linarith

theorem complexVec_post {jk : Left ℝ} {nn m : Nat} {d e : Nat → ℝ} {H G : Nat → Nat → ℝ} {norm p q : ℝ} {db eb h : Buf ℝ} (hh : FullG h nn nn G)
    (hd : Full db nn d) (he : Full eb nn e) (hb : Blk nn 0 d e H) (hn : m + 1 < nn) (hp : p = d (m + 1)) (hqe : q = e (m + 1)) (hq : q < 0)
    (hnorm : 0 < norm) (hG : ∀ a b, b ≤ m + 1 → G a b = H a b) :
    Post (complexVec jk nn (m + 1) norm p q db eb h) fun h' => ∃ v w, FullG h' nn nn (colMem2 (m + 1) 0 v w G) ∧
      CV (NRep (m + 1) d e p q) (Tf e H) (m + 1) 0 p q v w := by
  unfold complexVec
  have hem : 0 < e m := (hb.neg (m + 1) (Nat.zero_le _) (by rw [← hqe]; exact hq)).2.2
  obtain ⟨h1, hr1, v, w, hg1, hcv⟩ := complexLast_post (NR := NRep (m + 1) d e p q) hh hb hn hp hqe hq hG
  rw [show usub (m + 1) 1 = .ok m from rfl, ok_bind, hr1, ok_bind]
  have h0 : CInv nn (m + 1) (NRep (m + 1) d e p q) e H G p q m (h1, m, jk.z, jk.r, jk.s) v w :=
    ⟨hg1, hcv, not_lt.2 hem.le, Or.inl rfl⟩
  obtain ⟨o, hro, v', w', hI⟩ := loopRev_post (lo := 0) (hi := m) (f := fun i x => complexStep nn (m + 1) i norm p q db eb x)
    (fun i o => ∃ v w, CInv nn (m + 1) (NRep (m + 1) d e p q) e H G p q i o v w) (Nat.zero_le _) ⟨_, _, h0⟩
    (fun i o _ h2 ⟨v, w, hI⟩ => complexStep_post hd he hb hn (by omega) hq hnorm hG hI)
  rw [hro, ok_bind]
  obtain ⟨h', l, z, r, s⟩ := o
  have hl : l = 0 := by
    rcases hI.st with h1 | ⟨_, _, h3, _⟩
    · exact h1
    · exact absurd (hb.neg 0 le_rfl h3).1 (lt_irrefl _)
  subst hl
  exact Post.ok ⟨v', w', hI.hh, hI.cv⟩

end Eigen
end LA
