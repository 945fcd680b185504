import Verif.Proofs.StdHqr4

/-! # `hqr2` in rounded arithmetic: one double QR iteration -/

set_option linter.unusedSectionVars false

namespace LA
open Finset Matrix
namespace Std
open Sfp SVD
open Eigen (Sm tadd exd tmk Tt Tt_diag Tt_off findL firstCol findStart qrIter Hqr FirstOk)

variable {α : Type} [Zero α] [One α] [Add α] [Sub α] [Neg α] [Mul α] [FloatOps α] [Sfp α]

/-- The machine epsilon of the code. -/
noncomputable def ep : ℝ := 1 / 2 ^ 52

theorem ep_pos : 0 < ep := by unfold ep; positivity

theorem eps_rt : Rt (w α) 1 (val (Eigen.eps : α)) ep := by
  have := cst_rt (α := α) 1 (2 ^ 52)
  unfold Eigen.eps ep
  rw [Int.cast_one, Nat.cast_pow, Nat.cast_ofNat] at this
  exact this

theorem findL_ok {nn n : Nat} {norm : α} {h : Buf α} {H : Nat → Nat → α} (hkh : kh α ≤ 1) (hh : FullG h nn nn H) (hn : n < nn) (hnorm : 0 < val norm) :
    Post (findL nn norm h n) fun l => l ≤ n ∧ (∀ j, l < j → j ≤ n → val (H j (j - 1)) ≠ 0) ∧
      (l ≠ 0 → |val (H l (l - 1))| ≤ 2 * ep * (|val (H (l - 1) (l - 1))| + |val (H l l)| + val norm)) := by
  have hw : 1 ≤ w α := w_one
  induction n with
  | zero => exact Post.ok ⟨le_rfl, fun j _ _ => by omega, fun h => absurd rfl h⟩
  | succ n ih =>
    unfold findL
    rw [hh.rd (by omega) (by omega), ok_bind, hh.rd (by omega) (by omega), ok_bind, hh.rd (by omega) (by omega), ok_bind]
    have hep := ep_pos
    have a1 := abs_nonneg (val (H n n))
    have a2 := abs_nonneg (val (H (n + 1) (n + 1)))
    have hs1 := add_rt (FloatOps.abs (H n n)) (FloatOps.abs (H (n + 1) (n + 1)))
    rw [Sfp.abs, Sfp.abs] at hs1
    generalize FloatOps.abs (H n n) + FloatOps.abs (H (n + 1) (n + 1)) = s at *
    obtain ⟨S, hS, hS1, hS2⟩ : ∃ S, (if FloatOps.eq s 0 then norm else s) = S ∧ 0 < val S ∧
        val S ≤ w α ^ 1 * (|val (H n n)| + |val (H (n + 1) (n + 1))| + val norm) := by
      refine ⟨_, rfl, ?_, ?_⟩
      · split_ifs with h1
        · exact hnorm
        · rw [Sfp.eq, Sfp.zero] at h1
          exact lt_of_le_of_ne (hs1.nonneg hw (by linarith)) (Ne.symm h1)
      · split_ifs with h1
        · have : 1 * val norm ≤ w α ^ 1 * val norm := mul_le_mul_of_nonneg_right (pw_one hw 1) hnorm.le
          nlinarith [pw_pos hw 1]
        · have := hs1.le hw (by linarith)
          nlinarith [pw_pos hw 1]
    rw [hS]
    have hm := (mul_rt (Eigen.eps : α) S).trans hw (l := 1) ((eps_rt (α := α)).mul hw (Rt.refl (val S)))
    by_cases hc : FloatOps.lt (FloatOps.abs (H (n + 1) n)) (Eigen.eps * S) = true
    · rw [if_pos hc]
      rw [Sfp.lt, Sfp.abs] at hc
      refine Post.ok ⟨le_rfl, fun j h1 h2 => by omega, fun _ => ?_⟩
      rw [Nat.add_sub_cancel]
      have h3 := hm.le hw (by positivity)
      have hpos : 0 ≤ |val (H n n)| + |val (H (n + 1) (n + 1))| + val norm := by linarith
      calc |val (H (n + 1) n)| ≤ w α ^ (1 + 1) * (ep * val S) := hc.le.trans h3
        _ ≤ w α ^ (1 + 1) * (ep * (w α ^ 1 * (|val (H n n)| + |val (H (n + 1) (n + 1))| + val norm))) :=
          mul_le_mul_of_nonneg_left (mul_le_mul_of_nonneg_left hS2 hep.le) (pw_pos hw _).le
        _ = w α ^ 3 * (ep * (|val (H n n)| + |val (H (n + 1) (n + 1))| + val norm)) := by ring
        _ ≤ 2 * (ep * (|val (H n n)| + |val (H (n + 1) (n + 1))| + val norm)) :=
          mul_le_mul_of_nonneg_right (w24 hkh (by omega)) (mul_nonneg hep.le hpos)
        _ = _ := by ring
    · rw [if_neg hc]
      refine (ih (by omega)).mono fun l hl => ⟨by omega, fun j h1 h2 => ?_, hl.2.2⟩
      by_cases h3 : j = n + 1
      · subst h3
        rw [Nat.add_sub_cancel]
        intro h0
        rw [Sfp.lt, Sfp.abs, h0, abs_zero] at hc
        exact hc (hm.pos hw (mul_pos hep hS1))
      · exact hl.2.1 j h1 (by omega)

theorem firstCol_ok {nn m : Nat} {x y w' : α} {h : Buf α} {H : Nat → Nat → α} (hh : FullG h nn nn H) (hm : m + 2 < nn)
    (h1 : val (H (m + 1) m) ≠ 0) (h2 : val (H (m + 2) (m + 1)) ≠ 0) :
    Post (firstCol nn m x y w' h) fun o => val o.2.2.1 ≠ 0 ∧ o.2.2.2 = H m m := by
  have hw : 1 ≤ w α := w_one
  unfold firstCol
  rw [hh.rd (by omega) (by omega), ok_bind, hh.rd (by omega) (by omega), ok_bind]
  dsimp only
  obtain ⟨t, t1, -⟩ := div_rt ((x - H m m) * (y - H m m) - w') h1
  rw [t1, ok_bind, hh.rd (by omega) (by omega), ok_bind, hh.rd (by omega) (by omega), ok_bind, hh.rd (by omega) (by omega), ok_bind]
  generalize t + H m (m + 1) = P
  generalize H (m + 1) (m + 1) - H m m - (x - H m m) - (y - H m m) = Q
  have hs : val (FloatOps.abs P + FloatOps.abs Q + FloatOps.abs (H (m + 2) (m + 1))) ≠ 0 := by
    have c1 := add_rt (FloatOps.abs P) (FloatOps.abs Q)
    have c2 := add_rt (FloatOps.abs P + FloatOps.abs Q) (FloatOps.abs (H (m + 2) (m + 1)))
    have c3 : 0 ≤ val (FloatOps.abs P + FloatOps.abs Q) := c1.nonneg hw (by rw [Sfp.abs, Sfp.abs]; positivity)
    refine c2.ne hw ?_
    rw [Sfp.abs]
    have := abs_pos.2 h2
    linarith
  obtain ⟨a, a1, -⟩ := div_rt P hs
  obtain ⟨b, b1, -⟩ := div_rt Q hs
  obtain ⟨c, c1, c2⟩ := div_rt (H (m + 2) (m + 1)) hs
  rw [a1, ok_bind, b1, ok_bind, c1, ok_bind]
  exact Post.ok ⟨c2.ne hw (div_ne_zero h2 hs), rfl⟩

theorem findStart_ok {nn n l k : Nat} {x y w' : α} {h : Buf α} {H : Nat → Nat → α} (hkh : kh α ≤ 1) (hh : FullG h nn nn H) (hn : n < nn)
    (hk : l + k + 2 ≤ n) (hne : ∀ j, l < j → j ≤ n → val (H j (j - 1)) ≠ 0) :
    Post (findStart nn l x y w' h k) fun o => l ≤ o.1 ∧ o.1 ≤ l + k ∧ val o.2.2.2 ≠ 0 ∧ (l ≠ o.1 →
      |val (H o.1 (o.1 - 1))| * (|val o.2.2.1| + |val o.2.2.2|) ≤
        2 * ep * (|val o.2.1| * (|val (H (o.1 - 1) (o.1 - 1))| + |val (H o.1 o.1)| + |val (H (o.1 + 1) (o.1 + 1))|))) := by
  have hw : 1 ≤ w α := w_one
  induction k with
  | zero =>
    unfold findStart
    obtain ⟨⟨p, q, r, z⟩, hr, h1, h2⟩ := firstCol_ok (x := x) (y := y) (w' := w') hh (show l + 2 < nn by omega) (by simpa using hne (l + 1) (by omega) (by omega))
      (by simpa using hne (l + 2) (by omega) (by omega))
    rw [hr, ok_bind]
    exact Post.ok ⟨le_rfl, le_rfl, h1, fun h => absurd rfl h⟩
  | succ k ih =>
    unfold findStart
    obtain ⟨⟨p, q, r, z⟩, hr, h1, h2⟩ := firstCol_ok (m := l + k + 1) (x := x) (y := y) (w' := w') hh (show l + k + 1 + 2 < nn by omega)
      (by simpa using hne (l + k + 1 + 1) (by omega) (by omega)) (by simpa using hne (l + k + 1 + 2) (by omega) (by omega))
    dsimp only at h1 h2 ⊢
    rw [hr, ok_bind]
    dsimp only
    rw [hh.rd (by omega) (by omega), ok_bind, hh.rd (by omega) (by omega), ok_bind, hh.rd (by omega) (by omega), ok_bind]
    split_ifs with hc
    · refine Post.ok ⟨by show l ≤ l + k + 1; omega, by show l + k + 1 ≤ _; omega, h1, fun _ => ?_⟩
      dsimp only
      rw [h2, Sfp.lt] at hc
      generalize H (l + k + 1) (l + k + 1 - 1) = b at *
      generalize H (l + k + 1 - 1) (l + k + 1 - 1) = d0 at *
      generalize H (l + k + 1) (l + k + 1) = d1 at *
      generalize H (l + k + 1 + 1) (l + k + 1 + 1) = d2 at *
      have abr : ∀ t : α, Rt (w α) 0 (val (FloatOps.abs t)) |val t| := fun t => by rw [Sfp.abs]; exact Rt.refl _
      have L1 : Rt (w α) 1 (val (FloatOps.abs q + FloatOps.abs r)) (|val q| + |val r|) :=
        (add_rt _ _).trans hw (l := 0) ((abr q).add hw (abr r) (abs_nonneg _) (abs_nonneg _))
      have L2 : Rt (w α) 2 (val (FloatOps.abs b * (FloatOps.abs q + FloatOps.abs r))) (|val b| * (|val q| + |val r|)) := mul_rt' (abr b) L1
      have R1 : Rt (w α) 1 (val (FloatOps.abs d0 + FloatOps.abs d1)) (|val d0| + |val d1|) :=
        (add_rt _ _).trans hw (l := 0) ((abr d0).add hw (abr d1) (abs_nonneg _) (abs_nonneg _))
      have R2 : Rt (w α) 2 (val (FloatOps.abs d0 + FloatOps.abs d1 + FloatOps.abs d2)) (|val d0| + |val d1| + |val d2|) :=
        (add_rt _ _).trans hw (l := 1) (R1.add hw ((abr d2).mono hw (by omega)) (by positivity) (abs_nonneg _))
      have R3 : Rt (w α) 3 (val (FloatOps.abs p * (FloatOps.abs d0 + FloatOps.abs d1 + FloatOps.abs d2))) (|val p| * (|val d0| + |val d1| + |val d2|)) :=
        mul_rt' (abr p) R2
      have R4 := (mul_rt' (eps_rt (α := α)) R3).le hw (mul_nonneg ep_pos.le (by positivity))
      obtain ⟨ρ, s1, s2⟩ := L2
      have L3 : |val b| * (|val q| + |val r|) ≤ w α ^ 2 * val (FloatOps.abs b * (FloatOps.abs q + FloatOps.abs r)) := by
        rw [s2]
        calc |val b| * (|val q| + |val r|) = 1 * (|val b| * (|val q| + |val r|)) := by ring
          _ ≤ (ρ * w α ^ 2) * (|val b| * (|val q| + |val r|)) := mul_le_mul_of_nonneg_right s1.1 (by positivity)
          _ = _ := by ring
      calc |val b| * (|val q| + |val r|) ≤ w α ^ 2 * (w α ^ (1 + (1 + 3)) * (ep * (|val p| * (|val d0| + |val d1| + |val d2|)))) :=
            L3.trans (mul_le_mul_of_nonneg_left (hc.le.trans R4) (pw_pos hw _).le)
        _ = w α ^ 7 * (ep * (|val p| * (|val d0| + |val d1| + |val d2|))) := by ring
        _ ≤ 2 * (ep * (|val p| * (|val d0| + |val d1| + |val d2|))) := mul_le_mul_of_nonneg_right (w24 hkh (by omega)) (mul_nonneg ep_pos.le (by positivity))
        _ = _ := by ring
    · refine (ih (by omega)).mono fun o ho => ⟨ho.1, by omega, ho.2.2.1, ho.2.2.2⟩

/-- One double QR iteration. -/
theorem qrIter_ok {nn n l : Nat} {A : Matrix (Fin nn) (Fin nn) ℝ} {e : Nat → ℝ} {E N norm : ℝ} {X V : Nat → Nat → ℝ} {F : Nat → Nat → α}
    {st : Hqr α} (hkh : kh α ≤ 1) (hh : FullG st.h nn nn F) (hv : ∃ W, FullG st.v nn nn W) (hlow : ∀ a b, a ≤ n → X a b = val (F a b))
    (hn : n < nn) (hln : l + 2 ≤ n) (he : ¬ e (n + 1) < 0)
    (hs : Sm nn A V (Tt (n + 1) e X (val st.ex)) E) (hex : |val st.ex| ≤ 6 * (frob A + E)) (hN : 0 ≤ N) (hnorm : norm ≤ N * (frob A + E))
    (hne : ∀ j, l < j → j ≤ n → val (F j (j - 1)) ≠ 0)
    (hl : l ≠ 0 → |val (F l (l - 1))| ≤ 2 * ep * (|val (F (l - 1) (l - 1))| + |val (F l l)| + norm)) :
    Post (qrIter nn n l st) fun o => o.d = st.d ∧ o.e = st.e ∧ ∃ F' X' V' E', FullG o.h nn nn F' ∧ (∃ W, FullG o.v nn nn W) ∧
      (∀ a b, a ≤ n → X' a b = val (F' a b)) ∧ Sm nn A V' (Tt (n + 1) e X' (val o.ex)) E' ∧ E ≤ E' ∧
      frob A + E' ≤ (1 + ks α nn) ^ nn * ((1 + nn * kh α + 8 * ep * (14 + N)) * (frob A + E)) ∧ |val o.ex| ≤ 6 * (frob A + E') ∧
      ∀ a b, n < a → X' a b = X a b := by
  have hw : 1 ≤ w α := w_one
  have hep := ep_pos
  set M := frob A + E with hM
  have hent : ∀ a b, a < nn → b < nn → |Tt (n + 1) e X (val st.ex) a b| ≤ M := fun a b ha hb => hs.entry ha hb
  have h0M : 0 ≤ M := (abs_nonneg _).trans (hent 0 0 (by omega) (by omega))
  have hk0 := kh_nonneg (α := α)
  unfold qrIter
  obtain ⟨⟨h1, ex1, x, y, w'⟩, hr1, F1, X1, hg1, hlow1, hT1, hex1, hoff1⟩ := hqrShift_ok (iter := st.iter) hh hkh hlow hn (by omega) hent hex
  dsimp only at hg1 hT1 hex1
  rw [hr1, ok_bind]
  dsimp only
  have hs1 := hs.ent (X' := Tt (n + 1) e X1 (val ex1)) (mul_nonneg hk0 h0M) (fun a b _ _ => hT1 a b)
  have hne1 : ∀ j, l < j → j ≤ n → val (F1 j (j - 1)) ≠ 0 := fun j h2 h3 => by
    rw [← hlow1 _ _ h3, hoff1 j (j - 1) (Or.inl (by omega)), hlow _ _ h3]; exact hne j h2 h3
  obtain ⟨⟨m, p, q, r⟩, hr2, hm1, hm2, hr0, hsm⟩ := findStart_ok (k := n - 2 - l) (x := x) (y := y) (w' := w') hkh hg1 hn (by omega) hne1
  dsimp only at hm1 hm2 hr0 hsm
  rw [hr2, ok_bind]
  dsimp only
  obtain ⟨h3, hr3, hg3⟩ := clearSub_ok (m := m) hg1 hn (by omega)
  rw [hr3, ok_bind]
  set X3 : Nat → Nat → ℝ := (fun a b => if a ≤ n ∧ m + 2 ≤ a ∧ (b + 2 = a ∨ (b + 3 = a ∧ m + 2 < a)) then 0 else X1 a b) with hX3
  have hs3 : Sm nn A V (Tt (n + 1) e X3 (val ex1)) (E + nn * (kh α * M)) := by
    refine hs1.congr fun a b _ _ => ?_
    unfold Tt tadd
    congr 1
    unfold tmk
    rw [hX3]
    beta_reduce
    by_cases h5 : b + 1 < a
    · rw [if_pos h5, if_pos h5]
    · rw [if_neg h5, if_neg h5, if_neg (show ¬(a ≤ n ∧ m + 2 ≤ a ∧ (b + 2 = a ∨ (b + 3 = a ∧ m + 2 < a))) by omega)]
  have hlow3 : ∀ a b, a ≤ n → X3 a b = val ((fun a b => if a ≤ n ∧ m + 2 ≤ a ∧ (b + 2 = a ∨ (b + 3 = a ∧ m + 2 < a)) then 0 else F1 a b : Nat → Nat → α) a b) := by
    intro a b ha
    rw [hX3]
    beta_reduce
    split_ifs
    · exact Sfp.zero.symm
    · exact hlow1 a b ha
  have hnn : (0 : ℝ) ≤ nn := Nat.cast_nonneg _
  have hnk : 0 ≤ nn * (kh α * M) := by positivity
  have hdg : ∀ a, a ≤ n → |X a a| ≤ 7 * M := fun a ha => by
    have h5 := hent a a (by omega) (by omega)
    rw [Tt_diag (by omega)] at h5
    have h6 := abs_sub (X a a + val st.ex) (val st.ex)
    rw [add_sub_cancel_right] at h6
    linarith
  have hkM : kh α * M ≤ M := by nlinarith
  have hdg1 : ∀ a, a ≤ n → |X1 a a| ≤ 8 * M := fun a ha => by
    have h5 := hent a a (by omega) (by omega)
    have h7 := hT1 a a
    rw [Tt_diag (by omega)] at h5
    rw [Tt_diag (by omega), Tt_diag (by omega)] at h7
    have h6 := abs_sub (X1 a a + val ex1) (val ex1)
    rw [add_sub_cancel_right] at h6
    have h8 := abs_sub_abs_le_abs_sub (X1 a a + val ex1) (X a a + val st.ex)
    rw [abs_sub_comm] at h8
    linarith
  have hf : FirstOk l m X3 (val p) (val q) (val r) (8 * ep * (14 + N) * M) := by
    have hoff : m ≠ 0 → X3 m (m - 1) = X1 m (m - 1) := fun h => by rw [hX3]; exact if_neg (by omega)
    refine ⟨by positivity, Or.inr (Or.inr hr0), ?_, ?_⟩
    · intro h5 h6
      subst h5
      rw [hoff h6, hoff1 _ _ (Or.inl (by omega)), hlow _ _ (by omega)]
      have b1 := hl h6
      have b2 := hdg (l - 1) (by omega)
      have b3 := hdg l (by omega)
      rw [hlow _ _ (by omega)] at b2 b3
      have : 2 * ep * (|val (F (l - 1) (l - 1))| + |val (F l l)| + norm) ≤ 2 * ep * ((14 + N) * M) :=
        mul_le_mul_of_nonneg_left (by linarith) (by linarith)
      nlinarith
    · intro h5 s hs
      rw [hoff (by omega), hlow1 _ _ (by omega)]
      have b0 := hsm h5
      have b1 := hdg1 (m - 1) (by omega)
      have b2 := hdg1 m (by omega)
      have b3 := hdg1 (m + 1) (by omega)
      rw [hlow1 _ _ (by omega)] at b1 b2 b3
      have b4 := hs.abs
      have b5 : |val p| * (|val (F1 (m - 1) (m - 1))| + |val (F1 m m)| + |val (F1 (m + 1) (m + 1))|) ≤ |s| * (24 * M) :=
        mul_le_mul b4 (by linarith) (by positivity) (abs_nonneg _)
      have b6 := mul_le_mul_of_nonneg_left b5 (show 0 ≤ 2 * ep by linarith)
      have b7 : 0 ≤ ep * (|s| * M) := by positivity
      have b8 : 0 ≤ N * (ep * (|s| * M)) := by positivity
      nlinarith
  have hZ : ∀ a b, a ≤ n → m ≤ b → b + 2 ≤ a → a ≤ b + 3 → X3 a b = 0 := fun a b h5 h6 h7 h8 => by
    rw [hX3]; exact if_pos (by omega)
  have hex3 : |val ex1| ≤ 6 * (frob A + (E + nn * (kh α * M))) := hex1.trans (by linarith)
  obtain ⟨⟨h4, v4⟩, hr4, F4, X4, V4, E4, hg4, hgv4, hlow4, hs4, hE4, hE5, hrow4⟩ := sweep_ok hg3 hv hlow3 hkh hn hm1 (by omega) he hs3 hex3 hZ hf
  erw [hr4]
  rw [ok_bind]
  refine Post.ok ⟨rfl, rfl, F4, X4, V4, E4, hg4, hgv4, hlow4, hs4, by linarith, hE4.trans (le_of_eq ?_), ?_, fun a b ha => ?_⟩
  · rw [hM]; ring
  · exact hex1.trans (by linarith)
  · rw [hrow4 a b ha, hX3]
    beta_reduce
    rw [if_neg (by omega), hoff1 a b (Or.inr ha)]

end Std
end LA
