import Verif.Proofs.StdEigShift

/-! # One QL iteration in rounded arithmetic -/

set_option linter.unusedSectionVars false

namespace LA
open Finset Matrix
namespace Std
open Sfp SVD
open Eigen (trb tri trb_rot phi Sweep Dev tqlStep tqlRot tqlShift tqlIter tri_eq_trb)

variable {α : Type} [Zero α] [One α] [Add α] [Sub α] [Neg α] [Mul α] [FloatOps α] [Sfp α]

theorem _root_.LA.Rt.symm {w : ℝ} (hw : 1 ≤ w) {k : Nat} {x y : ℝ} (h : Rt w k x y) : Rt w k y x := by
  obtain ⟨ρ, h1, h2⟩ := h
  have := h1.pos hw
  exact ⟨ρ⁻¹, h1.inv hw, by rw [h2]; field_simp⟩

/-- The last `p` of the sweep and the formula that replaces it. -/
theorem close_p {η B P τ c s c2 s2 C2 C3 e e1 dl d1 p : ℝ} (hη : 0 ≤ η) (hB : 0 ≤ B) (hτ : 0 < τ) (hτ2 : τ ^ 2 = P ^ 2 + e ^ 2)
    (hc : c = P / τ) (hs : s = e / τ) (hP : |P - (c2 * d1 - s2 * C3 * e1)| ≤ η * (|d1| + 2 * |s2 * e1|)) (hC3 : |C3| ≤ 2)
    (hc2 : |c2| ≤ 1) (hC2 : |C2 - c2| ≤ η * |c2|) (hd : |dl * d1 - e ^ 2| ≤ η * e ^ 2) (hdl : |dl| ≤ 2 * |e|)
    (hp : |p - (c * dl - s * C2 * e)| ≤ η * (|dl| + 2 * |s * e|)) (b1 : |e| ≤ B) (b2 : |d1| ≤ 5 * B) (b3 : |s2 * e1| ≤ B) :
    |p - -(s2 * C3 * e1 * (dl / τ))| ≤ η * (20 * B) ∧ |s2 * C3 * e1 * (dl / τ)| ≤ 4 * B := by
  have he : |e| ≤ τ := by
    refine abs_le_of_sq_le_sq ?_ hτ.le
    nlinarith [sq_nonneg P]
  have hs1 : |s| ≤ 1 := by
    rw [hs, abs_div, abs_of_pos hτ]; exact (div_le_one hτ).2 he
  have hdt : |dl / τ| ≤ 2 := by
    rw [abs_div, abs_of_pos hτ, div_le_iff₀ hτ]; linarith
  have z1 : |s2 * C3 * e1 * (dl / τ)| ≤ 4 * B := by
    rw [show s2 * C3 * e1 * (dl / τ) = C3 * (dl / τ) * (s2 * e1) by ring, abs_mul, abs_mul]
    have h1 : |C3| * |dl / τ| ≤ 2 * 2 := mul_le_mul hC3 hdt (abs_nonneg _) (by norm_num)
    have h2 := mul_le_mul h1 b3 (abs_nonneg _) (by norm_num)
    linarith
  refine ⟨?_, z1⟩
  have key : c * dl - s * C2 * e + s2 * C3 * e1 * (dl / τ) = (P - (c2 * d1 - s2 * C3 * e1)) * (dl / τ) + c2 * ((dl * d1 - e ^ 2) / τ) -
      (C2 - c2) * (s * e) := by
    rw [hc, hs]; field_simp; ring
  have hse : |s * e| ≤ B := abs_mul_le hs1 b1
  have k1 : |(P - (c2 * d1 - s2 * C3 * e1)) * (dl / τ)| ≤ η * (7 * B) * 2 := by
    rw [abs_mul]
    refine mul_le_mul (hP.trans (mul_le_mul_of_nonneg_left (by linarith) hη)) hdt (abs_nonneg _) (by positivity)
  have k2 : |c2 * ((dl * d1 - e ^ 2) / τ)| ≤ η * B := by
    refine abs_mul_le hc2 ?_
    rw [abs_div, abs_of_pos hτ, div_le_iff₀ hτ]
    refine hd.trans ?_
    rw [mul_assoc]
    refine mul_le_mul_of_nonneg_left ?_ hη
    rw [← sq_abs, sq]
    exact mul_le_mul b1 he (abs_nonneg _) hB
  have k3 : |(C2 - c2) * (s * e)| ≤ η * B := by
    rw [abs_mul]
    exact mul_le_mul (hC2.trans (mul_le_of_le_one_right hη hc2)) hse (abs_nonneg _) hη
  have k4 : η * (|dl| + 2 * |s * e|) ≤ η * (4 * B) := mul_le_mul_of_nonneg_left (by linarith) hη
  have e5 : p - -(s2 * C3 * e1 * (dl / τ)) = (p - (c * dl - s * C2 * e)) + (c * dl - s * C2 * e + s2 * C3 * e1 * (dl / τ)) := by ring
  rw [e5, key]
  have a1 := abs_add_le (p - (c * dl - s * C2 * e)) ((P - (c2 * d1 - s2 * C3 * e1)) * (dl / τ) + c2 * ((dl * d1 - e ^ 2) / τ) -
      (C2 - c2) * (s * e))
  have a2 := abs_sub ((P - (c2 * d1 - s2 * C3 * e1)) * (dl / τ) + c2 * ((dl * d1 - e ^ 2) / τ)) ((C2 - c2) * (s * e))
  have a3 := abs_add_le ((P - (c2 * d1 - s2 * C3 * e1)) * (dl / τ)) (c2 * ((dl * d1 - e ^ 2) / τ))
  linarith

/-- State between two QL iterations on the block `l..=m`. -/
structure Ql (n l m : Nat) (κ : ℝ) (A : Matrix (Fin n) (Fin n) ℝ) (r : Nat) (st : Dev α) (f : α)
    (δ ε : Nat → α) (V : Nat → Nat → α) : Prop where
  d : Full st.d n δ
  e : Full st.e n ε
  v : FullG st.v n n V
  lo : ∀ a, a < l → val (ε a) = 0
  nz : ∀ a, l < a → a < m → val (ε a) ≠ 0
  fb : |val f| ≤ 4 * nb κ A r
  sf : SF n κ A r (tt V) (tri (fun a => val (δ a) + phi l (val f) a) (updv (fun a => val (ε a)) m 0))

theorem tri_close {n : Nat} {δ ε δ' ε' : Nat → ℝ} :
    frob (pk n n (tri δ' ε') - pk n n (tri δ ε)) ≤ ∑ a ∈ range n, |δ' a - δ a| + 2 * ∑ a ∈ range n, |ε' a - ε a| := by
  rw [pk_congr (F := tri δ' ε') (G := trb 0 δ' ε' 0) fun _ _ _ _ => tri_eq_trb, pk_congr (F := tri δ ε) (G := trb 0 δ ε 0) fun _ _ _ _ => tri_eq_trb]
  exact trb_close

theorem tri_dg {δ ε : Nat → ℝ} (a : Nat) : tri δ ε a a = δ a := by unfold tri; rw [if_pos rfl]
theorem tri_up {δ ε : Nat → ℝ} (a : Nat) : tri δ ε (a + 1) a = ε a := by unfold tri; rw [if_neg (by omega), if_pos rfl]

theorem tqlIter_post {n l m : Nat} {κ : ℝ} {A : Matrix (Fin n) (Fin n) ℝ} {r : Nat} {st : Dev α} {f : α} {δ ε : Nat → α}
    {V : Nat → Nat → α} (h : Ql n l m κ A r st f δ ε V) (hE : Eap α n κ) (hl : l < m) (hm : m < n) (hne : val (ε l) ≠ 0) :
    Post (tqlIter n l m st f) fun x => ∃ δ' ε' V', Ql n l m κ A (r + (m - l) + 2) x.1 x.2 δ' ε' V' ∧ val (ε' m) = 0 ∧
      (∀ a, m < a → ε' a = ε a) := by
  have hw : 1 ≤ w α := w_one
  have hk := kq_nonneg (α := α)
  have hκ := hE.nonneg
  set N := nb κ A r with hNd
  have hN : 0 ≤ N := nb_nonneg hκ r
  unfold tqlIter
  obtain ⟨⟨d1, f1⟩, hr1, sh, t, D, ts, hd1, hf1, q1, q2, q3, q4, q5, q6, q7, q8⟩ := tqlShift_ok (f := f) h.d h.e (l := l) (by omega) hne
  dsimp only at hf1 hd1
  rw [hr1, ok_bind]
  dsimp only
  have bd : ∀ a, l ≤ a → a < n → |val (δ a) + val f| ≤ N := by
    intro a h1 h2
    have := h.sf.entry h2 h2
    rwa [tri_dg, show phi l (val f) a = val f from if_neg (by omega)] at this
  have be : ∀ a, l ≤ a → a < m → |val (ε a)| ≤ N := by
    intro a h1 h2
    have := h.sf.entry (show a + 1 < n by omega) (show a < n by omega)
    rwa [tri_up, updv_ne (by omega)] at this
  obtain ⟨z1, z2, z3, z4⟩ := shift_err (ε := ε) (f := f) hE (by omega) hN q1 q2 q3 q4 q5 q6 q8 bd (be l le_rfl hl) h.fb
  rw [← hf1] at z1 z4
  rw [hd1.rd (i := l + 1) (by omega), ok_bind, hd1.rd (i := m) hm, ok_bind, h.e.rd (i := l + 1) (by omega), ok_bind]
  have sf1 : SF n κ A (r + 1) (tt V) (tri (fun a => val (D a) + phi l (val f1) a) (updv (fun a => val (ε a)) m 0)) := by
    refine h.sf.perturb hκ (tri_close.trans ?_)
    have s1 : ∑ a ∈ range n, |(val (D a) + phi l (val f1) a) - (val (δ a) + phi l (val f) a)| ≤ n * (kq α * (20 * N)) := by
      refine sum_all fun a ha => ?_
      by_cases h1 : a < l
      · rw [show phi l (val f1) a = 0 from if_pos h1, show phi l (val f) a = 0 from if_pos h1, q7 a h1, sub_self, abs_zero]
        positivity
      · rw [show phi l (val f1) a = val f1 from if_neg h1, show phi l (val f) a = val f from if_neg h1]
        exact z4 a (by omega) ha
    have s2 : ∑ a ∈ range n, |updv (fun a => val (ε a)) m 0 a - updv (fun a => val (ε a)) m 0 a| = 0 :=
      Finset.sum_eq_zero fun a _ => by rw [sub_self, abs_zero]
    rw [s2, mul_zero, add_zero]
    refine s1.trans ?_
    have s3 : 50 * (n * kq α) * N ≤ κ * N := mul_le_mul_of_nonneg_right hE.shift hN
    have s4 : 0 ≤ (n : ℝ) * kq α * N := by positivity
    linarith
  have hnz : ∀ a, l ≤ a → a < m → val (ε a) ≠ 0 := by
    intro a h1 h2
    by_cases e : a = l
    · rw [e]; exact hne
    · exact h.nz a (by omega) h2
  have hbd : Bd l m N D ε := ⟨hN, fun a h1 h2 => z2 a h1 (by omega), be⟩
  have v1 : val (1 : α) = 1 := Sfp.one
  have v0 : val (0 : α) = 0 := Sfp.zero
  have h0 : Sw n l m κ A (r + 1) N (val f1) D ε m (⟨⟨d1, st.e, st.v⟩, D m, 1, 1, 1, 0, 0⟩ : Sweep α) D ε V 1 0 := by
    refine ⟨hd1, h.e, h.v, fun _ _ => rfl, fun _ _ => rfl, fun _ _ => rfl, fun e => absurd e (lt_irrefl _), hnz, by norm_num,
      fun _ => rfl, fun e => absurd e (lt_irrefl _), ?_, ?_, ?_, ?_, fun e => absurd e (lt_irrefl _), ?_⟩
    · rw [v1]; exact (Rt.refl 1).mono hw (by omega)
    · rw [v0]; exact (Rt.refl 0).mono hw (by omega)
    · rw [v1]; norm_num
    · dsimp only
      rw [one_mul, zero_mul, zero_mul, sub_zero, sub_self, abs_zero]; positivity
    · rw [Nat.sub_self, add_zero]
      refine sf1.congr (fun _ _ _ _ => rfl) fun a b _ _ => ?_
      dsimp only
      rw [tri_eq_trb (k := m), zero_mul, zero_mul]
      congr 1
      · funext a
        rw [one_mul]
        by_cases e : a = m
        · rw [if_pos e, e]
        · rw [if_neg e]
      · funext a
        simp only [updv]
        by_cases e : a = m
        · rw [if_pos e, if_pos e]
        · rw [if_neg e, if_neg e]; split <;> ring
  have hsw := loopRev_post (lo := l) (hi := m) (s := (⟨⟨d1, st.e, st.v⟩, D m, 1, 1, 1, 0, 0⟩ : Sweep α)) (f := fun i x => tqlStep n i x)
    (fun k x => ∃ δ' ε' V' c s, Sw n l m κ A (r + 1) N (val f1) D ε k x δ' ε' V' c s) hl.le
    ⟨D, ε, V, 1, 0, h0⟩
    (fun i x h1 h2 ⟨δ', ε', V', c, s, hI⟩ => tqlStep_post hI hbd hE (nb_mono hκ (by omega)) h1 h2 hm)
  obtain ⟨x, hrx, δ', ε', V', c, s, hI⟩ := hsw
  rw [hrx, ok_bind, hI.e.rd (i := l) (by omega), ok_bind, hI.elo l le_rfl]
  obtain ⟨P, τ, c2, s2, u1, u2, u3, u4, u5, u6, u7, u8, u9, u10⟩ := hI.hist hl
  have ht0 : val t ≠ 0 := q4.ne hw (by intro h; rw [h, abs_zero] at q5; norm_num at q5)
  have hD1 : val (D (l + 1)) ≠ 0 := q3.ne hw (mul_ne_zero hne ht0)
  obtain ⟨uc, us⟩ := unit_le hI.cs
  obtain ⟨uc2, us2⟩ := unit_le u7
  have b3 : |s2 * val (ε (l + 1))| ≤ N := by
    rcases Nat.lt_or_ge (l + 1) m with h3 | h3
    · exact abs_mul_le us2 (be _ (by omega) h3)
    · rw [u10 (by omega), zero_mul, abs_zero]; exact hN
  have hdd : |val (D l) * val (D (l + 1)) - val (ε l) ^ 2| ≤ kq α * val (ε l) ^ 2 := by
    have h1 := ((q2.mul hw q3).mono hw (show 1 + 1 ≤ 20 by omega)).sub hw
    rwa [show val (ε l) / val t * (val (ε l) * val t) = val (ε l) ^ 2 by field_simp, abs_of_nonneg (sq_nonneg (val (ε l)))] at h1
  obtain ⟨w1, w2⟩ := close_p (η := kq α) (B := N) hk hN u1 u2 u3 u4 u5 u6 uc2 (((u8.mono hw (show 5 ≤ 20 by omega)).sub hw)) hdd z3 hI.p
    (be l le_rfl hl) (z2 (l + 1) (by omega) (by omega)) b3
  obtain ⟨pn, pn1, pn2⟩ := div_rt (-x.s * x.s2 * x.c3 * ε (l + 1) * ε l) hD1
  rw [pn1, ok_bind]
  set Z := -(s2 * val x.c3 * val (ε (l + 1)) * (val (D l) / τ)) with hZ
  have hpn : Rt (w α) 20 (val pn) Z := by
    have xs : Rt (w α) 5 (val (-x.s)) (-s) := by rw [Sfp.neg]; exact hI.xs.neg
    have m1 := mul_rt' (mul_rt' (mul_rt' (mul_rt' xs u9) (Rt.refl (val x.c3))) (Rt.refl (val (ε (l + 1))))) (Rt.refl (val (ε l)))
    have m2 : Rt (w α) 2 (val (ε l) * val (ε l) / val (D (l + 1))) (val (D l)) := by
      have m3 : Rt (w α) 1 (val (ε l) * val (ε l) / val (D (l + 1))) (val (ε l) / val t) := by
        have := ((Rt.refl (w := w α) (val (ε l) * val (ε l))).div hw q3).mono hw (show 0 + 1 ≤ 1 by omega)
        rwa [show val (ε l) * val (ε l) / (val (ε l) * val t) = val (ε l) / val t by field_simp] at this
      exact m3.trans hw (q2.symm hw)
    have m4 := pn2.trans hw (m1.div hw (Rt.refl (val (D (l + 1)))))
    have m5 : Rt (w α) 2 (-s * s2 * val x.c3 * val (ε (l + 1)) * val (ε l) / val (D (l + 1))) Z := by
      have := (Rt.refl (w := w α) (-(s2 * val x.c3 * val (ε (l + 1)) / τ))).mul hw m2
      rw [hZ, u4]
      convert this using 1
      · field_simp
      · field_simp
    exact (m4.trans hw m5).mono hw (by omega)
  have k1 : |val pn - val x.p| ≤ kq α * (24 * N) := by
    have h1 := hpn.sub hw
    have h2 : |Z| ≤ 4 * N := by rw [hZ, abs_neg]; exact w2
    have h3 : (w α ^ 20 - 1) * |Z| ≤ kq α * (4 * N) := mul_le_mul_of_nonneg_left h2 hk
    have h4 : val pn - val x.p = (val pn - Z) - (val x.p - Z) := by ring
    rw [h4]
    have := abs_sub (val pn - Z) (val x.p - Z)
    linarith
  have bp := hI.p_le hbd hE le_rfl hl.le
  have kN : kq α * N ≤ 1 / 40 * N := mul_le_mul_of_nonneg_right hE.small hN
  have k2 : |val pn| ≤ 15 * N := by
    have := abs_sub_abs_le_abs_sub (val pn) (val x.p)
    linarith
  have kc : ∀ {y : α} {z : ℝ}, Rt (w α) 5 (val y) z → |z| ≤ 1 → |val (y * pn) - z * val x.p| ≤ kq α * (39 * N) := by
    intro y z h1 h2
    have h3 := ((mul_rt' h1 (Rt.refl (val pn))).mono hw (show 1 + (5 + 0) ≤ 20 by omega)).sub hw
    have h4 : (w α ^ 20 - 1) * |z * val pn| ≤ kq α * (15 * N) := mul_le_mul_of_nonneg_left (abs_mul_le h2 k2) hk
    have h5 : |z * (val pn - val x.p)| ≤ kq α * (24 * N) := abs_mul_le h2 k1
    have h6 : val (y * pn) - z * val x.p = (val (y * pn) - z * val pn) + z * (val pn - val x.p) := by ring
    rw [h6]
    have := abs_add_le (val (y * pn) - z * val pn) (z * (val pn - val x.p))
    linarith
  obtain ⟨e2, he2, hf2⟩ := hI.e.wr (i := l) (by omega) (x.s * pn)
  obtain ⟨d2, hd2, hg2⟩ := hI.d.wr (i := l) (by omega) (x.c * pn)
  rw [he2, ok_bind, hd2, ok_bind]
  refine Post.ok ⟨_, _, V', ⟨hg2, hf2, hI.v, ?_, ?_, ?_, ?_⟩, ?_, ?_⟩
  · intro a ha
    rw [updv_ne (by omega), hI.elo a (by omega), h.lo a ha]
  · intro a h1 h2
    rw [updv_ne (by omega)]; exact hI.nz a (by omega) h2
  · exact z1.trans (mul_le_mul_of_nonneg_left (nb_mono hκ (by omega)) (by norm_num))
  · have hrr : r + (m - l) + 2 = r + 1 + (m - l) + 1 := by omega
    rw [hrr]
    have hz : l = 0 ∨ val (ε' (l - 1)) = 0 := by
      rcases Nat.eq_zero_or_pos l with h0 | h0
      · exact Or.inl h0
      · right; rw [hI.elo _ (by omega), h.lo _ (by omega)]
    have hem := hI.em hl
    have sf2 : SF n κ A (r + 1 + (m - l)) (tt V') (tri (fun a => (if a = l then c * val x.p else val (δ' a)) + phi l (val f1) a)
        (updv (fun a => if a = l then s * val x.p else val (ε' a)) m 0)) := by
      refine hI.sf.congr (fun _ _ _ _ => rfl) fun a b _ _ => ?_
      have hb : trb l (fun a => (if a = l then c * val x.p else val (δ' a)) + phi l (val f1) a)
          (fun a => if a = l then s * val x.p else if a + 1 = l then c * val (ε' a) else val (ε' a)) (s * val (ε' (l - 1))) a b =
          trb l (fun a => (if a = l then c * val x.p else val (δ' a)) + phi l (val f1) a)
          (fun a => if a = l then s * val x.p else if a + 1 = l then c * val (ε' a) else val (ε' a)) 0 a b := by
        rcases hz with h0 | h0
        · unfold trb
          rw [if_neg (show ¬ ((a = l + 1 ∧ b + 1 = l) ∨ (b = l + 1 ∧ a + 1 = l)) by omega),
            if_neg (show ¬ ((a = l + 1 ∧ b + 1 = l) ∨ (b = l + 1 ∧ a + 1 = l)) by omega)]
        · rw [h0, mul_zero]
      rw [hb, ← tri_eq_trb]
      congr 1
      funext a
      simp only [updv]
      by_cases c1 : a = l
      · rw [if_pos c1, if_neg (by omega), if_pos c1]
      · rw [if_neg c1, if_neg c1]
        by_cases c2 : a = m
        · rw [if_neg (by omega), if_pos c2, c2, hem]
        · rw [if_neg c2]
          by_cases c3 : a + 1 = l
          · rw [if_pos c3, show a = l - 1 by omega, hz.resolve_left (by omega), mul_zero]
          · rw [if_neg c3]
    refine sf2.perturb hκ (tri_close.trans ?_)
    have s1 : ∑ a ∈ range n, |(val (updv δ' l (x.c * pn) a) + phi l (val f1) a) - ((if a = l then c * val x.p else val (δ' a)) + phi l (val f1) a)| ≤
        kq α * (39 * N) + 0 := by
      refine sum_two (i := l) (by positivity) le_rfl ?_ ?_ ?_
      · rw [updv_same, if_pos rfl, add_sub_add_right_eq_sub]
        exact kc hI.xc uc
      · rw [updv_ne (by omega), if_neg (by omega), sub_self, abs_zero]
      · intro a h1 _
        rw [updv_ne h1, if_neg h1, sub_self, abs_zero]
    have s2 : ∑ a ∈ range n, |updv (fun a => val (updv ε' l (x.s * pn) a)) m 0 a - updv (fun a => if a = l then s * val x.p else val (ε' a)) m 0 a| ≤
        kq α * (39 * N) + 0 := by
      refine sum_two (i := l) (by positivity) le_rfl ?_ ?_ ?_
      · rw [updv_ne hl.ne, updv_ne hl.ne, updv_same, if_pos rfl]
        exact kc hI.xs us
      · by_cases e : l + 1 = m
        · rw [e, updv_same, updv_same, sub_self, abs_zero]
        · rw [updv_ne e, updv_ne e, updv_ne (by omega), if_neg (by omega), sub_self, abs_zero]
      · intro a h1 _
        by_cases e : a = m
        · rw [e, updv_same, updv_same, sub_self, abs_zero]
        · rw [updv_ne e, updv_ne e, updv_ne h1, if_neg h1, sub_self, abs_zero]
    have s3 : N ≤ nb κ A (r + 1 + (m - l)) := nb_mono hκ (by omega)
    have s4 : 200 * kq α * N ≤ κ * nb κ A (r + 1 + (m - l)) := mul_le_mul hE.rot s3 hN hκ
    have s5 : 0 ≤ kq α * N := mul_nonneg hk hN
    linarith
  · rw [updv_ne (by omega)]; exact hI.em hl
  · intro a ha
    rw [updv_ne (by omega)]; exact hI.ehi a ha

end Std
end LA
