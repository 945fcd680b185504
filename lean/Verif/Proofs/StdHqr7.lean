import Verif.Proofs.StdHqr6

/-! # `hqr2` in rounded arithmetic: a pair of roots -/

set_option linter.unusedSectionVars false

namespace LA
open Finset Matrix
namespace Std
open Sfp SVD
open Eigen (Sm tadd exd tmk Tt Tt_diag Tt_off Hqr Blk realPair twoRoots rotMem)

variable {α : Type} [Zero α] [One α] [Add α] [Sub α] [Neg α] [Mul α] [FloatOps α] [Sfp α]

/-- The eigenvalues of a real pair. -/
theorem real_num {c b p x z0 : α} {P b' M : ℝ} (hkh : kh α ≤ 1) (hq : val (p * p + c * b) = P * P + val c * b') (hP : Rt (w α) 1 P (val p))
    (hb : Rt (w α) 1 (val (c * b)) (val c * b')) (hq0 : 0 ≤ val (p * p + c * b)) (hz0 : Rt (w α) 1 (val z0) (Real.sqrt (val (p * p + c * b))))
    (hM : 0 ≤ M) (hc : |val c| ≤ M) (hPM : P * P ≤ 2 * (M * M)) (hbM : |b'| ≤ 2 * M) (hx : |val x| ≤ 2 * M) :
    ∃ Z, (Z - P) * (Z - P) = P * P + val c * b' ∧ Rt (w α) 2 (val (if FloatOps.le 0 p then p + z0 else p - z0)) Z ∧ (Z = 0 → P = 0) ∧
      |val (x + if FloatOps.le 0 p then p + z0 else p - z0) - (val x + Z)| ≤ 6 * (kh α * M) ∧
      (Z ≠ 0 → ∃ t, RDiv.rdiv (c * b) (if FloatOps.le 0 p then p + z0 else p - z0) = .ok t ∧
        |val (x - t) - (val x + 2 * P - Z)| ≤ 10 * (kh α * M)) := by
  have hw : 1 ≤ w α := w_one
  have hk0 := kh_nonneg (α := α)
  have hs2 : Real.sqrt (val (p * p + c * b)) * Real.sqrt (val (p * p + c * b)) = P * P + val c * b' := by rw [Real.mul_self_sqrt hq0, hq]
  have hs0 : 0 ≤ Real.sqrt (val (p * p + c * b)) := Real.sqrt_nonneg _
  set s := Real.sqrt (val (p * p + c * b)) with hs
  clear_value s
  have hcb : val c * b' ≤ 2 * (M * M) := by
    refine (le_abs_self _).trans ?_
    rw [abs_mul]
    have := mul_le_mul hc hbM (abs_nonneg _) hM
    linarith
  have hsM : s ≤ 2 * M := by nlinarith
  have hP2 : |P| ≤ 2 * M := abs_le_of_sq_le_sq (by nlinarith [mul_nonneg hM hM]) (by linarith)
  have hpP : Rt (w α) 1 (val p) P := by
    obtain ⟨ρ, a1, a2⟩ := hP
    refine ⟨ρ⁻¹, a1.inv hw, ?_⟩
    have := (a1.pos hw).ne'
    rw [a2]; field_simp
  obtain ⟨Z, hZ1, hZ2, hZ3, hZ4⟩ : ∃ Z, (Z - P) * (Z - P) = P * P + val c * b' ∧
      Rt (w α) 2 (val (if FloatOps.le 0 p then p + z0 else p - z0)) Z ∧ (Z = 0 → P = 0) ∧ |Z| ≤ 4 * M := by
    by_cases h : FloatOps.le 0 p = true
    · rw [if_pos h]
      rw [Sfp.le, Sfp.zero] at h
      have hP0 : 0 ≤ P := hP.nonneg hw h
      refine ⟨P + s, by rw [← hs2]; ring, ?_, fun h => by linarith, ?_⟩
      · exact (add_rt p z0).trans hw (k := 1) (l := 1) (hpP.add hw hz0 hP0 hs0)
      · rw [abs_of_nonneg (by linarith)]
        have := le_abs_self P
        linarith
    · rw [if_neg h]
      rw [Sfp.le, Sfp.zero] at h
      have hP0 : 0 < -P := by have := hP.neg.pos hw (show 0 < -val p by linarith); exact this
      refine ⟨P - s, by rw [← hs2]; ring, ?_, fun h => by linarith, ?_⟩
      · have := (sub_rt p z0).trans hw (k := 1) (l := 1) (y := val p - val z0) (z := P - s) (by
          have := (hpP.neg.add hw hz0 hP0.le hs0).neg
          rwa [neg_add', neg_neg, neg_add', neg_neg] at this)
        exact this
      · rw [abs_of_nonpos (by linarith)]
        have := neg_abs_le P
        linarith
  generalize (if FloatOps.le 0 p then p + z0 else p - z0) = z at hZ2 ⊢
  refine ⟨Z, hZ1, hZ2, hZ3, ?_, fun hne => ?_⟩
  · have := ws_kh (ws_add ((Ws.self hx).mono hw (Nat.zero_le 2)) (Ws.of_rt hZ2 hZ4)) (by omega)
    refine this.trans (le_of_eq (by ring))
  · obtain ⟨t, t1, t2⟩ := div_rt (c * b) (hZ2.ne hw hne)
    refine ⟨t, t1, ?_⟩
    have h3 : val c * b' / Z = Z - 2 * P := by rw [div_eq_iff hne]; linarith
    have h4 := t2.trans hw (k := 1) (l := 3) (hb.div hw (l := 2) hZ2)
    rw [h3] at h4
    have h5 : |Z - 2 * P| ≤ 8 * M := by
      refine (abs_sub _ _).trans ?_
      rw [abs_mul, abs_two]; linarith
    have := ws_kh (ws_sub ((Ws.self hx).mono hw (Nat.zero_le 4)) (Ws.of_rt h4 h5)) (by omega)
    rw [show val x + 2 * P - Z = val x - (Z - 2 * P) by ring]
    refine this.trans (le_of_eq (by ring))

/-- The rotation of a real pair. -/
theorem rot_num {c z : α} {Z : ℝ} (hc : val c ≠ 0) (hz : Rt (w α) 2 (val z) Z) :
    ∃ p1 q1 r p2 q2 R0, RDiv.rdiv c (FloatOps.abs c + FloatOps.abs z) = .ok p1 ∧ RDiv.rdiv z (FloatOps.abs c + FloatOps.abs z) = .ok q1 ∧
      FloatOps.sqrt (p1 * p1 + q1 * q1) = .ok r ∧ RDiv.rdiv p1 r = .ok p2 ∧ RDiv.rdiv q1 r = .ok q2 ∧ R0 ≠ 0 ∧
      R0 * R0 = val c * val c + Z * Z ∧ Rt (w α) 9 (val p2) (val c / R0) ∧ Rt (w α) 9 (val q2) (Z / R0) := by
  have hw : 1 ≤ w α := w_one
  have hS : 0 < val (FloatOps.abs c + FloatOps.abs z) := by
    refine (add_rt _ _).pos hw ?_
    rw [Sfp.abs, Sfp.abs]
    have := abs_pos.2 hc
    have := abs_nonneg (val z)
    linarith
  generalize FloatOps.abs c + FloatOps.abs z = s at *
  obtain ⟨p1, a1, a2⟩ := div_rt c hS.ne'
  obtain ⟨q1, b1, b2⟩ := div_rt z hS.ne'
  have b3 := b2.trans hw (k := 1) (l := 2) (hz.div hw (l := 0) (Rt.refl (val s)))
  have hp2 := mul_rt' a2 a2
  have hq2 := mul_rt' b3 b3
  have hsum := (add_rt (p1 * p1) (q1 * q1)).trans hw (k := 1) (l := 7) ((hp2.mono hw (by omega)).add hw hq2 (mul_self_nonneg _) (mul_self_nonneg _))
  have hpos : 0 < val c / val s * (val c / val s) + Z / val s * (Z / val s) := by
    have := mul_self_pos.2 (div_ne_zero hc hS.ne')
    have := mul_self_nonneg (Z / val s)
    linarith
  obtain ⟨r, r1, r2⟩ := sqrt_rt (hsum.pos hw hpos).le
  have r3 := r2.trans hw (k := 1) (l := 4) (Rt.sqrt hw (k := 4) hsum)
  set r0 := Real.sqrt (val c / val s * (val c / val s) + Z / val s * (Z / val s)) with hr0
  have hr0p : 0 < r0 := Real.sqrt_pos.2 hpos
  have hr02 : r0 * r0 = val c / val s * (val c / val s) + Z / val s * (Z / val s) := Real.mul_self_sqrt hpos.le
  clear_value r0
  have hrne := r3.ne hw hr0p.ne'
  obtain ⟨p2, c1, c2⟩ := div_rt p1 hrne
  obtain ⟨q2, d1, d2⟩ := div_rt q1 hrne
  refine ⟨p1, q1, r, p2, q2, val s * r0, a1, b1, r1, c1, d1, by positivity, ?_, ?_, ?_⟩
  · have : val s * r0 * (val s * r0) = val s * val s * (r0 * r0) := by ring
    rw [this, hr02]; field_simp
  · rw [← div_div]
    exact (c2.trans hw (k := 1) (l := 6) (a2.div hw (k := 1) (l := 5) r3)).mono hw (by omega)
  · rw [← div_div]
    exact d2.trans hw (k := 1) (l := 8) (b3.div hw (k := 3) (l := 5) r3)

/-- The rotation of two entries. -/
theorem rot_comb {p q x y : α} {C S M : ℝ} (hq : Rt (w α) 9 (val q) C) (hp : Rt (w α) 9 (val p) S) (h1 : C ^ 2 + S ^ 2 = 1)
    (hx : |val x| ≤ M) (hy : |val y| ≤ M) :
    |val (q * x + p * y) - (C * val x + S * val y)| ≤ 2 * (kh α * M) ∧ |val (q * y - p * x) - (-S * val x + C * val y)| ≤ 2 * (kh α * M) := by
  have hC : |C| ≤ 1 := abs_le_of_sq_le_sq (by nlinarith [sq_nonneg S]) zero_le_one
  have hS : |S| ≤ 1 := abs_le_of_sq_le_sq (by nlinarith [sq_nonneg C]) zero_le_one
  have a1 := Ws.of_rt hq hC
  have a2 := Ws.of_rt hp hS
  constructor
  · have := ws_kh (ws_add (ws_mul a1 (Ws.self hx)) (ws_mul a2 (Ws.self hy))) (by omega)
    exact this.trans (le_of_eq (by ring))
  · have := ws_kh (ws_sub (ws_mul a1 (Ws.self hy)) (ws_mul a2 (Ws.self hx))) (by omega)
    rw [show -S * val x + C * val y = C * val y - S * val x by ring]
    exact this.trans (le_of_eq (by ring))

set_option maxHeartbeats 1000000 in
theorem twoRoots_ok {nn n : Nat} {A : Matrix (Fin nn) (Fin nn) ℝ} {E N norm : ℝ} {st : Hqr α} {F : Nat → Nat → α} {X V : Nat → Nat → ℝ}
    {d e : Nat → α} (hkh : kh α ≤ 1) (hI : HI nn (n + 1) A E st F X V d e) (hn : n < nn) (h0 : 0 < n) (hN : 0 ≤ N)
    (hnorm : norm ≤ N * (frob A + E))
    (hl : n - 1 ≠ 0 → |val (F (n - 1) (n - 1 - 1))| ≤ 2 * ep * (|val (F (n - 1 - 1) (n - 1 - 1))| + |val (F (n - 1) (n - 1))| + norm))
    (hne : val (F n (n - 1)) ≠ 0) :
    Post (twoRoots nn n st) fun o => ∃ F' X' V' d' e',
      HI nn (n - 1) A (E + (2 * ep * (14 + N) + 13 * nn * kh α) * (frob A + E)) o F' X' V' d' e' := by
  have hw : 1 ≤ w α := w_one
  have hep := ep_pos
  have hk0 := kh_nonneg (α := α)
  have hnn : (0 : ℝ) ≤ nn := Nat.cast_nonneg _
  have hM0 := hI.nn0
  have hexE : |val st.ex| ≤ 6 * (frob A + (E + (2 * ep * (14 + N) + 13 * nn * kh α) * (frob A + E))) := by
    have h2 := hI.ex
    have : 0 ≤ (2 * ep * (14 + N) + 13 * nn * kh α) * (frob A + E) := by positivity
    linarith
  have tt := fun (x' a' b' : ℝ) (e' : Nat → ℝ) => two_sm (x' := x') (a' := a') (b' := b') (δ := 3 * (kh α * (frob A + E))) (e' := e') hI hn h0 hN hnorm hl
  have hent : ∀ a b, a < nn → b < nn → |Tt (n + 1) (vv e) X (val st.ex) a b| ≤ frob A + E := fun a b ha hb => hI.sm.entry ha hb
  set M := frob A + E with hM
  clear_value M
  have kM : 0 ≤ kh α * M := mul_nonneg hk0 hM0
  -- the block
  have eA := hent (n - 1) (n - 1) (by omega) (by omega)
  rw [Tt_diag (by omega)] at eA
  have eX := hent n n hn hn
  rw [Tt_diag (by omega)] at eX
  have eC := hent n (n - 1) hn (by omega)
  rw [Tt_off (by omega) (by omega) (by omega)] at eC
  have eB := hent (n - 1) n (by omega) hn
  rw [Tt_off (by omega) (by omega) (by omega)] at eB
  have eR : ∀ a b, a < n - 1 → n - 1 ≤ b → b ≤ n → |val (F a b)| ≤ M := fun a b h1 h2 h3 => by
    have := hent a b (by omega) (by omega)
    rwa [Tt_off (by omega) (by omega) (by omega), hI.low a b (by omega)] at this
  clear hent
  unfold twoRoots
  rw [hI.hh.rd (by omega) (by omega), ok_bind, hI.hh.rd (by omega) (by omega), ok_bind, hI.hh.rd (by omega) (by omega), ok_bind, hI.hh.rd (by omega) (by omega),
    ok_bind]
  dsimp only
  have l1 := hI.low n n (by omega)
  have l2 := hI.low (n - 1) (n - 1) (by omega)
  have l3 := hI.low n (n - 1) (by omega)
  have l4 := hI.low (n - 1) n (by omega)
  have h2c := cst_rt (α := α) 2 1
  rw [Int.cast_ofNat, Nat.cast_one, div_one] at h2c
  obtain ⟨p, hp1, hp2⟩ := div_rt (F (n - 1) (n - 1) - F n n) (h2c.ne hw two_ne_zero)
  have hp3 := hp2.trans hw (k := 1) (l := 2) ((sub_rt _ _).div hw (k := 1) (l := 1) h2c)
  rw [hp1, ok_bind]
  obtain ⟨P, b', hq, hP, hb', hcb⟩ := q_alg (c := F n (n - 1)) (b := F (n - 1) n) (p := p)
  have hP0 := hP.trans hw (k := 1) (l := 3) hp3
  obtain ⟨z, hz1, hz2⟩ := sqrt_rt (x := FloatOps.abs (p * p + F n (n - 1) * F (n - 1) n)) (by rw [Sfp.abs]; exact abs_nonneg _)
  rw [hz1, ok_bind, ok_bind]
  rw [Sfp.abs] at hz2
  obtain ⟨h1, hr1, hg1⟩ := FullG.wrP hI.hh (i := n) (j := n) hn hn (F n n + st.ex)
  rw [hr1, ok_bind, hg1.rd (by omega) (by omega), ok_bind, upd_ne (by omega)]
  obtain ⟨h2, hr2, hg2⟩ := FullG.wrP hg1 (i := n - 1) (j := n - 1) (by omega) (by omega) (F (n - 1) (n - 1) + st.ex)
  rw [hr2, ok_bind, hg2.rd hn hn, ok_bind, upd_ne (by omega), upd_same]
  have hx1 := add_rt (F n n) st.ex
  rw [← l1] at hx1
  rw [← l1, ← l2] at hp3 hP0
  set F1 := upd (upd F n n (F n n + st.ex)) (n - 1) (n - 1) (F (n - 1) (n - 1) + st.ex) with hF1
  have v3 : F1 n (n - 1) = F n (n - 1) := by rw [hF1, upd_ne (by omega), upd_ne (by omega)]
  have v5 : ∀ a b, a < n - 1 → F1 a b = F a b := fun a b h => by rw [hF1, upd_ne (by omega), upd_ne (by omega)]
  clear_value F1
  generalize F n n + st.ex = x at *
  set x0 := X n n + val st.ex with hx0
  set a0 := X (n - 1) (n - 1) + val st.ex with ha0
  have hP0e : (X (n - 1) (n - 1) - X n n) / 2 = (a0 - x0) / 2 := by rw [hx0, ha0]; ring
  rw [hP0e] at hp3 hP0
  have hPb : |(a0 - x0) / 2| ≤ M := by
    rw [abs_div, abs_two]
    have := abs_sub a0 x0
    linarith
  have hxv : |val x| ≤ 2 * M := by
    have := (hx1.abs hw).le hw (abs_nonneg _)
    have h24 := w24 (k := 1) hkh (by omega)
    have := mul_le_mul h24 eX (abs_nonneg _) zero_le_two
    linarith
  have hPa : |P| ≤ w α ^ 4 * M := ((hP0.abs hw).le hw (abs_nonneg _)).trans (mul_le_mul_of_nonneg_left hPb (pw_pos hw _).le)
  have hPM : P * P ≤ 2 * (M * M) := by
    have h5 : |P| * |P| ≤ (w α ^ 4 * M) * (w α ^ 4 * M) := mul_le_mul hPa hPa (abs_nonneg _) (mul_nonneg (pw_pos hw _).le hM0)
    rw [abs_mul_abs_self] at h5
    have h6 : (w α ^ 4 * M) * (w α ^ 4 * M) = w α ^ 8 * (M * M) := by ring
    have h7 := mul_le_mul_of_nonneg_right (w24 (α := α) (k := 8) hkh (by omega)) (mul_self_nonneg M)
    linarith
  rw [← l4] at hb'
  have hbM : |b'| ≤ 2 * M := by
    have := (hb'.abs hw).le hw (abs_nonneg _)
    have := mul_le_mul (w24 (α := α) (k := 2) hkh (by omega)) eB (abs_nonneg _) zero_le_two
    linarith
  have dx : |val x - x0| ≤ kh α * M := (hx1.sub hw).trans (mul_le_mul (pw_kh (by omega)) eX (abs_nonneg _) hk0)
  have dP : |P - (a0 - x0) / 2| ≤ kh α * M := (hP0.sub hw).trans (mul_le_mul (pw_kh (by omega)) hPb (abs_nonneg _) hk0)
  have db : |b' - X (n - 1) n| ≤ kh α * M := (hb'.sub hw).trans (mul_le_mul (pw_kh (by omega)) eB (abs_nonneg _) hk0)
  by_cases hq0 : FloatOps.le 0 (p * p + F n (n - 1) * F (n - 1) n) = true
  · rw [if_pos hq0]
    rw [Sfp.le, Sfp.zero] at hq0
    rw [abs_of_nonneg hq0] at hz2
    rw [l3] at eC
    obtain ⟨Z, hZ1, hZ2, hZ3, hZ4, hZ5⟩ := real_num (x := x) hkh hq hP hcb hq0 hz2 hM0 eC hPM hbM hxv
    unfold realPair
    dsimp only
    generalize (if FloatOps.le 0 p then p + z else p - z) = zz at *
    obtain ⟨d1, hrd1, hd1⟩ := hI.dd.wr (show n - 1 < nn by omega) (x + zz)
    rw [hrd1, ok_bind, hd1.rd (show n - 1 < nn by omega) (Or.inr rfl), ok_bind, updv_same]
    obtain ⟨d2, hrd2, hd2⟩ := hd1.wr hn (x + zz)
    rw [hrd2, ok_bind]
    have hd3 : Post (do if !(FloatOps.eq zz 0) then LA.wr d2 n (x - (← RDiv.rdiv (F n (n - 1) * F (n - 1) n) zz)) else return d2 : LA.R (Buf α)) fun d3 =>
        ∃ y, Part d3 nn (fun i => n - 1 ≤ i) (updv (updv d (n - 1) (x + zz)) n y) ∧ |val y - (val x + 2 * P - Z)| ≤ 10 * (kh α * M) := by
      by_cases hz0 : Z = 0
      · have hzz : val zz = 0 := (hZ2.zero_iff hw).2 hz0
        rw [if_neg (by rw [Bool.not_eq_true', Bool.not_eq_false, Sfp.eq, Sfp.zero]; exact hzz)]
        refine Post.ok ⟨x + zz, hd2.mono fun i _ h => ⟨by omega, rfl⟩, ?_⟩
        have hP00 := hZ3 hz0
        rw [show val x + 2 * P - Z = val x + Z by rw [hP00, hz0]; ring]
        linarith
      · have hzz : ¬ FloatOps.eq zz 0 = true := by rw [Sfp.eq, Sfp.zero]; exact hZ2.ne hw hz0
        obtain ⟨t, t1, t2⟩ := hZ5 hz0
        rw [if_pos (by rw [Bool.not_eq_true']; simpa using hzz), t1, ok_bind]
        obtain ⟨d3, hrd3, hd3⟩ := hd2.wr hn (x - t)
        rw [hrd3]
        refine Post.ok ⟨x - t, hd3.mono fun i _ h => ⟨by omega, ?_⟩, t2⟩
        by_cases hi : i = n
        · subst hi; rw [updv_same, updv_same]
        · rw [updv_ne hi, updv_ne hi, updv_ne hi]
    obtain ⟨d3, hrd3, y, hd3, hy⟩ := hd3
    erw [hrd3]
    rw [ok_bind]
    obtain ⟨e1, hre1, he1⟩ := hI.ee.wr (show n - 1 < nn by omega) 0
    obtain ⟨e2, hre2, he2⟩ := he1.wr hn 0
    rw [hre1, ok_bind, hre2, ok_bind, hg2.rd (by omega) (by omega), ok_bind, v3]
    obtain ⟨p1, q1, r, sn, cs, R0, g1, g2, g3, g4, g5, hR0, hR2, hsn, hcs⟩ := rot_num hne hZ2
    rw [g1, ok_bind, g2, ok_bind, g3, ok_bind, g4, ok_bind, g5, ok_bind]
    set C := Z / R0 with hC
    set S := val (F n (n - 1)) / R0 with hS
    set a'' := val x + 2 * P with ha''
    obtain ⟨a1, a2, a3, a4⟩ := Eigen.pair_alg (a := a'') (b := b') (c := val (F n (n - 1))) (x := val x) (p := P) (w := val (F n (n - 1)) * b') (z := Z)
      (r := R0) (cs := C) (sn := S) (by rw [ha'']; ring) rfl hZ1 hR0 hR2 hC hS
    obtain ⟨h3, hr3, hg3⟩ := rootRows_ok (p := sn) (q := cs) hg2 hn h0
    obtain ⟨h4, hr4, hg4⟩ := rootCols_ok (p := sn) (q := cs) (hi := n + 1) hg3 hn h0 (by omega)
    obtain ⟨W, hW⟩ := hI.hv
    obtain ⟨v5', hr5, hg5⟩ := rootCols_ok (p := sn) (q := cs) (hi := nn) hW hn h0 le_rfl
    rw [hr3, ok_bind, hr4, ok_bind, hr5, ok_bind]
    have hT := tt (val x) a'' b' (updv (updv (vv e) (n - 1) 0) n 0) (fun a ha => by rw [updv_ne (by omega), updv_ne (by omega)])
      (by rw [updv_ne (by omega), updv_same]; simp) (by linarith) (by
        have : a'' - a0 = (val x - x0) + 2 * (P - (a0 - x0) / 2) := by rw [ha'']; ring
        rw [this]
        refine (abs_add_le _ _).trans ?_
        rw [abs_mul, abs_two]
        linarith) (by linarith)
    set X1 := upd (upd (upd X n n (val x)) (n - 1) (n - 1) a'') (n - 1) n b' with hX1
    have u1 : X1 n n = val x := by rw [hX1, upd_ne (by omega), upd_ne (by omega), upd_same]
    have u2 : X1 (n - 1) (n - 1) = a'' := by rw [hX1, upd_ne (by omega), upd_same]
    have u3 : X1 n (n - 1) = val (F n (n - 1)) := by rw [hX1, upd_ne (by omega), upd_ne (by omega), upd_ne (by omega), l3]
    have u4 : X1 (n - 1) n = b' := by rw [hX1, upd_same]
    have u5 : ∀ a b, n < a → X1 a b = X a b := fun a b h => by rw [hX1, upd_ne (by omega), upd_ne (by omega), upd_ne (by omega)]
    have u6 : ∀ a b, a < n - 1 → X1 a b = val (F a b) := fun a b h => by
      rw [hX1, upd_ne (by omega), upd_ne (by omega), upd_ne (by omega)]; exact hI.low a b (by omega)
    clear_value X1
    rw [l3, ← u3] at hT
    rw [← u1, ← u2, ← u3, ← u4] at a2
    have hT2 := hT.sim (V' := rotc V (n - 1) n C S)
      (X' := Tt (n - 1) (updv (updv (vv e) (n - 1) 0) n 0) (rotMem n C S X1) (val st.ex))
      (giv_orth (show n - 1 < nn by omega) hn (by omega) a1)
      (pk_rotc V (by omega) hn (by omega) C S) (by
        rw [← pk_rotr _ (by omega) hn (by omega), ← pk_rotc _ (by omega) hn (by omega)]
        refine pk_congr fun a b _ _ => (Eigen.rot_tab h0 (by rw [updv_ne (by omega), updv_same]) (updv_same _ _ _) ?_ a2 a b).symm
        rw [updv_ne (by omega), updv_ne (by omega)]
        exact hI.blk.last)
    have hrow : ∀ a b, n < a → rotMem n C S X1 a b = X1 a b := fun a b ha => by
      unfold rotMem rotr
      dsimp only
      rw [if_neg (show ¬ a < n + 1 by omega), if_neg (show ¬ a = n - 1 by omega), if_neg (show ¬ a = n by omega), ite_self]
    have m1 : rotMem n C S X1 (n - 1) (n - 1) = val x + Z := by
      unfold rotMem rotc rotr
      dsimp only
      rw [if_pos (show n - 1 < n + 1 by omega), if_pos rfl, if_pos le_rfl, if_pos rfl, if_pos (show n - 1 ≤ n by omega), if_pos rfl, u1, u2, u3, u4, ← a3]
      ring
    have m2 : rotMem n C S X1 n n = a'' - Z := by
      unfold rotMem rotc rotr
      dsimp only
      rw [if_pos (show n < n + 1 by omega), if_neg (by omega), if_pos rfl, if_pos le_rfl, if_neg (by omega), if_pos rfl,
        if_pos (show n - 1 ≤ n by omega), if_neg (by omega), if_pos rfl, u1, u2, u3, u4, ← a4]
      ring
    have m3 : ∀ a b, a < n - 1 → rotMem n C S X1 a b = rotc (fun a b => val (F a b)) (n - 1) n C S a b := fun a b h => by
      unfold rotMem rotc rotr
      dsimp only
      rw [if_pos (show a < n + 1 by omega), if_neg (show ¬ a = n - 1 by omega), if_neg (show ¬ a = n - 1 by omega), if_neg (show ¬ a = n - 1 by omega),
        if_neg (show ¬ a = n by omega), if_neg (show ¬ a = n by omega), if_neg (show ¬ a = n by omega), ite_self, ite_self, ite_self, u6 _ _ h, u6 _ _ h, u6 _ _ h]
    set G : Nat → Nat → α := (fun a b => if a < n + 1 then fRc n sn cs (fun a b => if n - 1 ≤ b then fRr n sn cs F1 a b else F1 a b) a b
      else (if n - 1 ≤ b then fRr n sn cs F1 a b else F1 a b)) with hG
    have m4 : ∀ a b, a < n - 1 → G a b = fRc n sn cs F a b := fun a b h => by
      rw [hG]
      unfold fRc fRr
      beta_reduce
      rw [if_pos (show a < n + 1 by omega), if_neg (show ¬ a = n - 1 by omega), if_neg (show ¬ a = n - 1 by omega), if_neg (show ¬ a = n - 1 by omega),
        if_neg (show ¬ a = n by omega), if_neg (show ¬ a = n by omega), if_neg (show ¬ a = n by omega), ite_self, ite_self, ite_self, v5 _ _ h, v5 _ _ h, v5 _ _ h]
    clear_value G
    set X2 : Nat → Nat → ℝ := (fun a b => if a < n - 1 then val (G a b) else if a = n - 1 ∧ b = n - 1 then val (x + zz) else if a = n ∧ b = n then val y
      else rotMem n C S X1 a b) with hX2
    have hT3 := hT2.ent (X' := Tt (n - 1) (updv (updv (vv e) (n - 1) 0) n 0) X2 (val st.ex)) (δ := 10 * (kh α * M)) (by linarith) (fun a b _ _ => by
      refine Tt_sub (by linarith) ?_
      rw [hX2]
      beta_reduce
      by_cases c1 : a < n - 1
      · rw [if_pos c1, m3 a b c1, m4 a b c1]
        obtain ⟨r1, r2⟩ := rot_comb hcs hsn a1 (eR a (n - 1) c1 le_rfl (by omega)) (eR a n c1 (by omega) le_rfl)
        unfold rotc fRc
        split_ifs
        · rw [abs_sub_comm]; linarith
        · rw [abs_sub_comm]; linarith
        · rw [sub_self, abs_zero]; linarith
      · rw [if_neg c1]
        by_cases c2 : a = n - 1 ∧ b = n - 1
        · rw [if_pos c2, c2.1, c2.2, m1, abs_sub_comm]; linarith
        · rw [if_neg c2]
          by_cases c3 : a = n ∧ b = n
          · rw [if_pos c3, c3.1, c3.2, m2, abs_sub_comm]; exact hy
          · rw [if_neg c3, sub_self, abs_zero]; linarith)
    have hT4 := hT3.mono (E' := E + (2 * ep * (14 + N) + 13 * nn * kh α) * M) (le_of_eq (by ring))
    refine Post.ok ⟨G, X2, rotc V (n - 1) n C S, _, _, hg4, ⟨_, hg5⟩, hd3, he2.mono fun i _ h => ⟨by omega, rfl⟩, fun a b ha => ?_, ?_, ?_, ?_⟩
    · rw [hX2]; exact if_pos ha
    · rw [vv_updv, vv_updv, Sfp.zero]; exact hT4
    · exact hexE
    · rw [vv_updv, vv_updv, vv_updv, vv_updv, Sfp.zero]
      refine hI.blk.two h0 hn (fun a ha => by rw [updv_ne (by omega), updv_ne (by omega)]) (fun a ha => by rw [updv_ne (by omega), updv_ne (by omega)])
        (fun a b ha => ?_) (Or.inl ⟨by rw [updv_ne (by omega), updv_same], updv_same _ _ _, ?_, ?_⟩)
      · rw [hX2]; beta_reduce
        rw [if_neg (by omega), if_neg (by omega), if_neg (by omega), hrow a b ha, u5 a b ha]
      · rw [updv_ne (by omega), updv_same, hX2]; beta_reduce
        rw [if_neg (by omega), if_pos ⟨rfl, rfl⟩]
      · rw [updv_same, hX2]; beta_reduce
        rw [if_neg (by omega), if_neg (by omega), if_pos ⟨rfl, rfl⟩]
  · rw [if_neg hq0]
    rw [Sfp.le, Sfp.zero, not_le] at hq0
    rw [abs_of_neg hq0] at hz2
    obtain ⟨ρ, s1, s2⟩ := hz2
    have hρ := s1.pos hw
    have hzp : 0 < val z := by rw [s2]; exact mul_pos hρ (Real.sqrt_pos.2 (by linarith))
    have hzz : val z * val z = -((ρ * P) * (ρ * P) + val (F n (n - 1)) * (ρ * ρ * b')) := by
      have := Real.mul_self_sqrt (show 0 ≤ -val (p * p + F n (n - 1) * F (n - 1) n) by linarith)
      rw [s2]
      calc _ = ρ * ρ * (Real.sqrt (-val (p * p + F n (n - 1) * F (n - 1) n)) * Real.sqrt (-val (p * p + F n (n - 1) * F (n - 1) n))) := by ring
        _ = _ := by rw [this, hq]; ring
    have hP2 : Rt (w α) 5 (ρ * P) ((a0 - x0) / 2) := (Rt.trans hw (k := 1) (l := 4) ⟨ρ, s1, rfl⟩ hP0)
    have hb2 : Rt (w α) 4 (ρ * ρ * b') (X (n - 1) n) := Rt.trans hw (k := 2) (l := 2) ⟨ρ * ρ, s1.mul hw s1, rfl⟩ hb'
    have dP2 : |ρ * P - (a0 - x0) / 2| ≤ kh α * M := (hP2.sub hw).trans (mul_le_mul (pw_kh (by omega)) hPb (abs_nonneg _) hk0)
    have db2 : |ρ * ρ * b' - X (n - 1) n| ≤ kh α * M := (hb2.sub hw).trans (mul_le_mul (pw_kh (by omega)) eB (abs_nonneg _) hk0)
    have hD := ws_kh (ws_add ((Ws.of_rt hx1 eX).mono hw (show 1 ≤ 3 by omega)) (Ws.of_rt hp3 hPb)) (by omega)
    obtain ⟨d1, hrd1, hd1⟩ := hI.dd.wr (show n - 1 < nn by omega) (x + p)
    obtain ⟨d2, hrd2, hd2⟩ := hd1.wr hn (x + p)
    obtain ⟨e1, hre1, he1⟩ := hI.ee.wr (show n - 1 < nn by omega) z
    obtain ⟨e2, hre2, he2⟩ := he1.wr hn (-z)
    rw [hrd1, ok_bind, hrd2, ok_bind, hre1, ok_bind, hre2, ok_bind]
    generalize x + p = D at *
    have hT := tt (val D - ρ * P) (val D + ρ * P) (ρ * ρ * b') (updv (updv (vv e) (n - 1) (val z)) n (-val z))
      (fun a ha => by rw [updv_ne (by omega), updv_ne (by omega)])
      (by rw [updv_ne (by omega), updv_same]; linarith) (by
        have : val D - ρ * P - x0 = (val D - (x0 + (a0 - x0) / 2)) - (ρ * P - (a0 - x0) / 2) := by ring
        rw [this]
        refine (abs_sub _ _).trans ?_
        linarith) (by
        have : val D + ρ * P - a0 = (val D - (x0 + (a0 - x0) / 2)) + (ρ * P - (a0 - x0) / 2) := by ring
        rw [this]
        refine (abs_add_le _ _).trans ?_
        linarith) (by linarith)
    set X1 := upd (upd (upd X n n (val D - ρ * P)) (n - 1) (n - 1) (val D + ρ * P)) (n - 1) n (ρ * ρ * b') with hX1
    have u1 : X1 n n = val D - ρ * P := by rw [hX1, upd_ne (by omega), upd_ne (by omega), upd_same]
    have u2 : X1 (n - 1) (n - 1) = val D + ρ * P := by rw [hX1, upd_ne (by omega), upd_same]
    have u3 : X1 n (n - 1) = val (F n (n - 1)) := by rw [hX1, upd_ne (by omega), upd_ne (by omega), upd_ne (by omega), l3]
    have u4 : X1 (n - 1) n = ρ * ρ * b' := by rw [hX1, upd_same]
    have u5 : ∀ a b, n < a → X1 a b = X a b := fun a b h => by rw [hX1, upd_ne (by omega), upd_ne (by omega), upd_ne (by omega)]
    have u6 : ∀ a b, a < n - 1 → X1 a b = val (F a b) := fun a b h => by
      rw [hX1, upd_ne (by omega), upd_ne (by omega), upd_ne (by omega)]; exact hI.low a b (by omega)
    clear_value X1
    have hT4 := hT.mono (E' := E + (2 * ep * (14 + N) + 13 * nn * kh α) * M) (by have := mul_nonneg hnn kM; linarith)
    refine Post.ok ⟨F1, X1, V, _, _, hg2, hI.hv, hd2.mono fun i _ h => ⟨by omega, rfl⟩, he2.mono fun i _ h => ⟨by omega, rfl⟩, fun a b ha => ?_, ?_, ?_, ?_⟩
    · rw [u6 a b ha, v5 a b ha]
    · rw [vv_updv, vv_updv, Sfp.neg]
      refine hT4.congr fun a b _ _ => ?_
      beta_reduce
      by_cases h5 : a = n ∧ b + 1 = n
      · rw [if_pos h5]
        unfold Tt tadd tmk exd
        rw [if_neg (by omega), if_neg (by rintro ⟨_, _, h⟩; rw [h5.1, updv_same] at h; exact h (by linarith)), if_neg (by omega), add_zero, h5.1,
          show b = n - 1 by omega, u3, l3]
      · rw [if_neg h5]
    · exact hexE
    · rw [vv_updv, vv_updv, vv_updv, vv_updv, Sfp.neg]
      refine hI.blk.two h0 hn (fun a ha => by rw [updv_ne (by omega), updv_ne (by omega)]) (fun a ha => by rw [updv_ne (by omega), updv_ne (by omega)])
        u5 (Or.inr ⟨?_, ?_, ?_, ?_, ?_⟩)
      · rw [updv_ne (by omega), updv_same]; exact hzp
      · rw [updv_same, updv_ne (by omega), updv_same]
      · rw [updv_same, updv_ne (by omega), updv_same]
      · rw [updv_ne (by omega), updv_same, u1, u2]; ring
      · rw [updv_ne (by omega), updv_same, hzz, u1, u2, u3, u4]; ring

end Std
end LA
