import Verif.Proofs.EigHqr3

/-! # `hqr2`: the steps of the double QR sweep -/

set_option linter.unusedSectionVars false

namespace LA
open Finset Matrix
namespace Eigen
open SVD (pk pk_congr)

/-- The difference made by the treatment of column `k - 1`. -/
theorem row_diff {nn n m k : Nat} {e : Nat → ℝ} {H : Nat → Nat → ℝ} {val q r x y z c0 c1 c2 α β γ : ℝ} (hpos : 0 ≤ α + β + γ)
    (e0 : k ≠ 0 → swk n m k e H k (k - 1) = c0) (e1 : k ≠ 0 → swk n m k e H (k + 1) (k - 1) = c1)
    (e2 : k ≠ 0 → swk n m k e H (k + 2) (k - 1) = c2)
    (h0 : k ≠ 0 → |c0 - (c0 + q * c1 + r * c2) * x - val| ≤ α) (h1 : k ≠ 0 → |c1 - (c0 + q * c1 + r * c2) * y| ≤ β)
    (h2 : k ≠ 0 → |c2 - (c0 + q * c1 + r * c2) * z| ≤ γ) :
    frob (pk nn nn (rfL k q r x y z (swk n m k e H)) - pk nn nn (rowStep n m k e val q r x y z H)) ≤ α + β + γ := by
  have hsub : pk nn nn (rfL k q r x y z (swk n m k e H)) - pk nn nn (rowStep n m k e val q r x y z H) =
      pk nn nn (fun a b => rfL k q r x y z (swk n m k e H) a b - rowStep n m k e val q r x y z H a b) := rfl
  rw [hsub]
  by_cases hk : k = 0
  · have : pk nn nn (fun a b => rfL k q r x y z (swk n m k e H) a b - rowStep n m k e val q r x y z H a b) = 0 := by
      ext a b
      show rfL k q r x y z (swk n m k e H) a b - rowStep n m k e val q r x y z H a b = 0
      unfold rowStep
      rw [if_neg (by omega), if_neg (by omega), sub_self]
    rw [this, frob_zero]; exact hpos
  · refine frob_three (k := k) (c := k - 1) ?_ ?_ ?_ ?_
    · intro a b hab
      unfold rowStep
      rw [if_neg (by omega), if_neg (by omega), sub_self]
    · unfold rowStep rfL
      rw [if_pos rfl, if_pos (by omega), e0 hk, e1 hk, e2 hk]
      exact h0 hk
    · unfold rowStep rfL
      rw [if_neg (by omega), if_pos rfl, if_neg (by omega), if_pos (by omega), e0 hk, e1 hk, e2 hk, sub_zero]
      exact h1 hk
    · unfold rowStep rfL
      rw [if_neg (by omega), if_neg (by omega), if_pos rfl, if_neg (by omega), if_pos (by omega), e0 hk, e1 hk, e2 hk, sub_zero]
      exact h2 hk

/-- The invariant of the sweep. -/
structure QsInv (nn n m : Nat) (A : Matrix (Fin nn) (Fin nn) ℝ) (e : Nat → ℝ) (ex E δ : ℝ) (H0 : Nat → Nat → ℝ) (k : Nat) (h v : Buf ℝ)
    (H V : Nat → Nat → ℝ) : Prop where
  hh : FullG h nn nn H
  vv : FullG v nn nn V
  sm : Sm nn A V (tadd (swk n m k e H) (exd (n + 1) ex)) (if m < k then E + δ else E)
  Z : ∀ a b, a ≤ n → k ≤ b → b + 2 ≤ a → a ≤ b + 3 → (m < k → ¬(a = k + 2 ∧ b = k)) → H a b = 0
  rows : ∀ a b, n < a → H a b = H0 a b

theorem memStep_rows {n k a b : Nat} {val q r x y z : ℝ} {H : Nat → Nat → ℝ} (hkn : k < n) (hlast : k + 1 = n → r = 0 ∧ z = 0) (ha : n < a) :
    memStep n k val q r x y z H a b = H a b := by
  rw [memStep_eq, if_neg (by omega)]
  unfold mem2
  by_cases hb : k ≤ b
  · rw [if_pos hb]
    by_cases h : a = k + 2
    · obtain ⟨rfl, rfl⟩ := hlast (by omega)
      unfold rfL
      rw [if_neg (by omega), if_neg (by omega), if_pos h, h]; ring
    · exact rfL_out (Or.inr (by omega))
  · rw [if_neg hb, if_neg (by omega)]

theorem memStep_low {n k a b : Nat} {val q r x y z : ℝ} {H : Nat → Nat → ℝ} (ha : k + 3 ≤ a) (hab : ¬(a = k + 3 ∧ b ≤ k + 2)) :
    memStep n k val q r x y z H a b = H a b := by
  rw [memStep_eq]
  have h2 : mem2 k val q r x y z H a b = H a b := by
    unfold mem2
    by_cases hb : k ≤ b
    · rw [if_pos hb]; exact rfL_out (Or.inr (by omega))
    · rw [if_neg hb, if_neg (by omega)]
  split_ifs with h
  · unfold rfR
    rw [if_neg (by omega), if_neg (by omega), if_neg (by omega), h2]
  · exact h2

theorem QsInv.refl {nn n m k : Nat} {A : Matrix (Fin nn) (Fin nn) ℝ} {e : Nat → ℝ} {ex E δ : ℝ} {H0 H V : Nat → Nat → ℝ} {h v h' v' : Buf ℝ}
    {val q r x y z : ℝ} (hI : QsInv nn n m A e ex E δ H0 k h v H V) (hn : n < nn) (hkn : k < n) (hmk : m ≤ k) (he : ¬ e (n + 1) < 0)
    (hr : RF q r x y z) (hlast : k + 1 = n → r = 0)
    (hδ : frob (pk nn nn (rfL k q r x y z (swk n m k e H)) - pk nn nn (rowStep n m k e val q r x y z H)) ≤ if m < k then 0 else δ)
    (hh' : FullG h' nn nn (memStep n k val q r x y z H)) (hv' : FullG v' nn nn (rfR k q r x y z V)) :
    QsInv nn n m A e ex E δ H0 (k + 1) h' v' (memStep n k val q r x y z H) (rfR k q r x y z V) := by
  have hl2 : k + 1 = n → r = 0 ∧ z = 0 := fun h => ⟨hlast h, by rw [hr.z, hlast h, mul_zero]⟩
  refine ⟨hh', hv', ?_, ?_, ?_⟩
  · have := hI.sm.step hr hn hkn hmk he hl2 hI.Z hδ
    refine this.mono (le_of_eq ?_)
    rw [if_pos (show m < k + 1 by omega)]
    split_ifs <;> ring
  · intro a b h1 h2 h3 h4 h5
    rw [memStep_low (by omega) (by have := h5 (by omega); omega)]
    exact hI.Z a b h1 (by omega) h3 h4 (by omega)
  · intro a b ha
    rw [memStep_rows hkn hl2 ha, hI.rows a b ha]

/-- The error made at the first step of the sweep. -/
structure FirstOk (l m : Nat) (H : Nat → Nat → ℝ) (p q r δ : ℝ) : Prop where
  nn : 0 ≤ δ
  ne : p ≠ 0 ∨ q ≠ 0 ∨ r ≠ 0
  eq : l = m → m ≠ 0 → 4 * |H m (m - 1)| ≤ δ
  lt : l ≠ m → ∀ s, SF p q r s → |H m (m - 1)| * (2 * (|q| + |r|)) ≤ δ * |s|

theorem SF.diff {p q r s : ℝ} (h : SF p q r s) : |s - p| ≤ |q| + |r| := by
  have h1 := h.sq
  have h2 := h.sgn
  have h3 : (s - p) * (s - p) ≤ (|q| + |r|) * (|q| + |r|) := by
    have hq := abs_mul_abs_self q
    have hr := abs_mul_abs_self r
    have h4 : p * p ≤ p * s := by
      rcases lt_trichotomy p 0 with hp | hp | hp
      · have hs : s < 0 := by
          rcases lt_trichotomy s 0 with hs | hs | hs
          · exact hs
          · exact absurd hs h.ne
          · nlinarith
        nlinarith [mul_self_nonneg q, mul_self_nonneg r, mul_self_nonneg (s - p)]
      · rw [hp]; simp
      · have hs : 0 < s := by
          rcases lt_trichotomy s 0 with hs | hs | hs
          · nlinarith
          · exact absurd hs h.ne
          · exact hs
        nlinarith [mul_self_nonneg q, mul_self_nonneg r, mul_self_nonneg (s - p)]
    nlinarith [abs_nonneg q, abs_nonneg r, mul_nonneg (abs_nonneg q) (abs_nonneg r)]
  have h5 := abs_le_of_sq_le_sq' (a := s - p) (b := |q| + |r|) (by nlinarith) (by positivity)
  exact abs_le.2 h5

theorem SF.xyz {p q r s : ℝ} (h : SF p q r s) : |q / s| ≤ 1 ∧ |r / s| ≤ 1 ∧ |1 - (p + s) / s| ≤ 1 := by
  have h0 := h.ne
  have h1 := h.sq
  have hs : 0 < |s| := abs_pos.2 h0
  have hq : |q| ≤ |s| := sq_le_sq.1 (by nlinarith [mul_self_nonneg p, mul_self_nonneg r])
  have hr : |r| ≤ |s| := sq_le_sq.1 (by nlinarith [mul_self_nonneg p, mul_self_nonneg q])
  refine ⟨by rw [abs_div]; exact (div_le_one hs).2 hq, by rw [abs_div]; exact (div_le_one hs).2 hr, ?_⟩
  rw [show 1 - (p + s) / s = -(p / s) by field_simp; ring, abs_neg, abs_div]
  exact (div_le_one hs).2 h.abs

theorem qrStep_post {nn n l m k : Nat} {A : Matrix (Fin nn) (Fin nn) ℝ} {e : Nat → ℝ} {ex E δ : ℝ} {H0 H V : Nat → Nat → ℝ} {h v : Buf ℝ}
    {p q r : ℝ} (hI : QsInv nn n m A e ex E δ H0 k h v H V) (hn : n < nn) (hkn : k < n) (hmk : m ≤ k) (hlm : l ≤ m) (hmn : m + 2 ≤ n)
    (he : ¬ e (n + 1) < 0) (hf : k = m → FirstOk l m H p q r δ) :
    Post (qrStep nn n l m p q r k h v) fun o => ∃ H' V', QsInv nn n m A e ex E δ H0 (k + 1) o.1 o.2 H' V' := by
  unfold qrStep
  by_cases hkm : k = m
  · rw [if_neg (by omega)]
    subst hkm
    have hf := hf rfl
    refine (qrReflect_post hI.hh hI.vv hn hkn le_rfl hlm (by omega) hf.ne).mono fun o ho => ?_
    obtain ⟨s, hs, g1, g2⟩ := ho
    rw [if_neg (by omega)] at g1
    refine ⟨_, _, hI.refl hn hkn le_rfl he (rf_mk hs.ne hs.sq hs.ps) (by omega) ?_ g1 g2⟩
    rw [if_neg (lt_irrefl _)]
    have e0 : k ≠ 0 → swk n k k e H k (k - 1) = H k (k - 1) := fun h => by
      unfold swk; rw [if_neg (by omega), if_neg (by omega)]
    have e1 : k ≠ 0 → swk n k k e H (k + 1) (k - 1) = 0 := fun h => by
      unfold swk; rw [if_pos (by omega)]
    have e2 : k ≠ 0 → swk n k k e H (k + 2) (k - 1) = 0 := fun h => by
      unfold swk; rw [if_pos (by omega)]
    obtain ⟨b1, b2, b3⟩ := hs.xyz
    by_cases hlk : l = k
    · rw [if_neg (by omega)]
      by_cases hk0 : k = 0
      · have := row_diff (nn := nn) (n := n) (m := k) (k := k) (e := e) (H := H) (val := H k (k - 1)) (q := q / (p + s)) (r := r / (p + s))
          (x := (p + s) / s) (y := q / s) (z := r / s) (c0 := 0) (c1 := 0) (c2 := 0) (α := 0) (β := 0) (γ := 0) (by simp)
          (fun h => absurd hk0 h) (fun h => absurd hk0 h) (fun h => absurd hk0 h) (fun h => absurd hk0 h) (fun h => absurd hk0 h) (fun h => absurd hk0 h)
        exact this.trans (by simpa using hf.nn)
      · have hb := hf.eq hlk hk0
        refine (row_diff (α := 2 * |H k (k - 1)|) (β := |H k (k - 1)|) (γ := |H k (k - 1)|) (by positivity) e0 e1 e2 ?_ ?_ ?_).trans ?_
        · intro _
          rw [show H k (k - 1) - (H k (k - 1) + q / (p + s) * 0 + r / (p + s) * 0) * ((p + s) / s) - H k (k - 1) =
            H k (k - 1) * ((1 - (p + s) / s) - 1) by ring, abs_mul]
          have := abs_sub (1 - (p + s) / s) 1
          rw [abs_one] at this
          nlinarith [abs_nonneg (H k (k - 1))]
        · intro _
          rw [show 0 - (H k (k - 1) + q / (p + s) * 0 + r / (p + s) * 0) * (q / s) = -(H k (k - 1) * (q / s)) by ring, abs_neg, abs_mul]
          nlinarith [abs_nonneg (H k (k - 1))]
        · intro _
          rw [show 0 - (H k (k - 1) + q / (p + s) * 0 + r / (p + s) * 0) * (r / s) = -(H k (k - 1) * (r / s)) by ring, abs_neg, abs_mul]
          nlinarith [abs_nonneg (H k (k - 1))]
        · linarith
    · rw [if_pos hlk]
      have hb := hf.lt hlk s hs
      have hs0 : 0 < |s| := abs_pos.2 hs.ne
      have hd := hs.diff
      refine (row_diff (α := |H k (k - 1)| * ((|q| + |r|) / |s|)) (β := |H k (k - 1)| * (|q| / |s|)) (γ := |H k (k - 1)| * (|r| / |s|))
        (by positivity) e0 e1 e2 ?_ ?_ ?_).trans ?_
      · intro _
        have hsn := hs.ne
        rw [show H k (k - 1) - (H k (k - 1) + q / (p + s) * 0 + r / (p + s) * 0) * ((p + s) / s) - -H k (k - 1) =
          H k (k - 1) * ((s - p) / s) by field_simp; ring, abs_mul, abs_div]
        exact mul_le_mul_of_nonneg_left (div_le_div_of_nonneg_right hd hs0.le) (abs_nonneg _)
      · intro _
        rw [show 0 - (H k (k - 1) + q / (p + s) * 0 + r / (p + s) * 0) * (q / s) = -(H k (k - 1) * (q / s)) by ring, abs_neg, abs_mul, abs_div]
      · intro _
        rw [show 0 - (H k (k - 1) + q / (p + s) * 0 + r / (p + s) * 0) * (r / s) = -(H k (k - 1) * (r / s)) by ring, abs_neg, abs_mul, abs_div]
      · rw [← mul_add, ← mul_add, show (|q| + |r|) / |s| + |q| / |s| + |r| / |s| = (2 * (|q| + |r|)) / |s| by ring, ← mul_div_assoc,
          div_le_iff₀ hs0]
        exact hb
  · rw [if_pos hkm, hI.hh.rd (by omega) (by omega), ok_bind, hI.hh.rd (by omega) (by omega), ok_bind]
    set r0 := (if k ≠ n - 1 then H (k + 2) (k - 1) else 0) with hr0
    have hrd : (if k ≠ n - 1 then rd h ((k + 2) * nn + (k - 1)) else pure 0 : R ℝ) = .ok r0 := by
      rw [hr0]
      split_ifs with h1
      · exact hI.hh.rd (by omega) (by omega)
      · rfl
    rw [hrd, ok_bind]
    dsimp only
    simp only [eq_eq, Exact.abs_eq, decide_eq_true_eq]
    have hk0 : k ≠ 0 := by omega
    have e0 : k ≠ 0 → swk n m k e H k (k - 1) = H k (k - 1) := fun h => by
      unfold swk; rw [if_neg (by omega), if_neg (by omega)]
    have e1 : k ≠ 0 → swk n m k e H (k + 1) (k - 1) = H (k + 1) (k - 1) := fun h => by
      unfold swk; rw [if_neg (by omega), if_neg (by omega)]
    have e2 : k ≠ 0 → swk n m k e H (k + 2) (k - 1) = r0 := fun h => by
      unfold swk; rw [hr0]
      by_cases h1 : k ≠ n - 1
      · rw [if_neg (by omega), if_neg (by omega), if_pos h1]
      · rw [if_pos (by omega), if_neg h1]
    clear_value r0
    generalize hp0 : H k (k - 1) = p0 at e0
    generalize hq0 : H (k + 1) (k - 1) = q0 at e1
    by_cases hx : |p0| + |q0| + |r0| = 0
    · have z0 : p0 = 0 := abs_eq_zero.1 (by linarith [abs_nonneg p0, abs_nonneg q0, abs_nonneg r0])
      have z1 : q0 = 0 := abs_eq_zero.1 (by linarith [abs_nonneg p0, abs_nonneg q0, abs_nonneg r0])
      have z2 : r0 = 0 := abs_eq_zero.1 (by linarith [abs_nonneg p0, abs_nonneg q0, abs_nonneg r0])
      rw [if_pos hx]
      refine Post.ok ⟨H, V, hI.hh, hI.vv, ?_, ?_, hI.rows⟩
      · have h3 := hI.sm
        rw [if_pos (show m < k by omega)] at h3
        rw [if_pos (show m < k + 1 by omega)]
        refine h3.congr fun a b _ _ => ?_
        unfold tadd
        congr 1
        by_cases h4 : b + 1 = k ∧ (a = k + 1 ∨ a = k + 2)
        · obtain ⟨h5, h6⟩ := h4
          have hb : b = k - 1 := by omega
          have l : swk n m k e H a b = 0 := by
            rcases h6 with rfl | rfl
            · rw [hb, e1 hk0, z1]
            · rw [hb, e2 hk0, z2]
          rw [l]; unfold swk; rw [if_pos (by omega)]
        · have y1 : k + 3 ≤ n → H (k + 3) k = 0 := fun h1 => hI.Z _ _ h1 le_rfl (by omega) (by omega) (by omega)
          have y2 : k + 3 ≤ n → H (k + 3) (k + 1) = 0 := fun h1 => hI.Z _ _ h1 (by omega) (by omega) (by omega) (by omega)
          clear hI hf h3
          unfold swk
          by_cases h5 : b + 1 < a
          · by_cases h6 : a ≤ n ∧ b = k ∧ a = k + 2
            · rw [if_neg (by omega), if_neg (by omega), if_neg (by omega)]
            · rw [if_pos (by omega)]
              by_cases h7 : a ≤ n ∧ a = k + 3 ∧ (b = k ∨ b = k + 1)
              · rw [if_neg (by omega), if_neg (by omega)]
                obtain ⟨h8, h9, h10⟩ := h7
                subst h9
                rcases h10 with rfl | rfl
                · exact (y1 h8).symm
                · exact (y2 h8).symm
              · rw [if_pos (by omega)]
          · simp only [h5, false_and, if_false]
      · intro a b h1 h2 h3 h4 h5
        exact hI.Z a b h1 (by omega) h3 h4 (by omega)
    · rw [if_neg hx]
      set X := |p0| + |q0| + |r0| with hX
      rw [rdiv_ok hx, ok_bind, rdiv_ok hx, ok_bind, rdiv_ok hx, ok_bind]
      have hne : p0 / X ≠ 0 ∨ q0 / X ≠ 0 ∨ r0 / X ≠ 0 := by
        by_contra hc
        push Not at hc
        obtain ⟨c1, c2, c3⟩ := hc
        have c1 := (div_eq_zero_iff.1 c1).resolve_right hx
        have c2 := (div_eq_zero_iff.1 c2).resolve_right hx
        have c3 := (div_eq_zero_iff.1 c3).resolve_right hx
        exact hx (by rw [hX, c1, c2, c3]; simp)
      have hr1 : k + 1 = n → r0 / X = 0 := fun h => by
        rw [← e2 hk0]; unfold swk; rw [if_pos (by omega), zero_div]
      refine (qrReflect_post hI.hh hI.vv hn hkn hmk hlm hr1 hne).mono fun o ho => ?_
      obtain ⟨s, hs, g1, g2⟩ := ho
      rw [if_pos hkm] at g1
      refine ⟨_, _, hI.refl hn hkn hmk he (rf_mk hs.ne hs.sq hs.ps) (fun h => by rw [hr1 h, zero_div]) ?_ g1 g2⟩
      rw [if_pos (show m < k by omega)]
      have hc := hs.col
      have hcX : p0 + q0 / X / (p0 / X + s) * q0 + r0 / X / (p0 / X + s) * r0 = s * X := by
        conv_rhs => rw [← hc]
        field_simp
      refine (row_diff (α := 0) (β := 0) (γ := 0) (by simp) e0 e1 e2 ?_ ?_ ?_).trans (by simp)
      · intro _
        have := hs.ne
        rw [hcX, show p0 - s * X * ((p0 / X + s) / s) - -s * X = 0 by field_simp; ring, abs_zero]
      · intro _
        have := hs.ne
        rw [hcX, show q0 - s * X * (q0 / X / s) = 0 by field_simp; ring, abs_zero]
      · intro _
        have := hs.ne
        rw [hcX, show r0 - s * X * (r0 / X / s) = 0 by field_simp; ring, abs_zero]

end Eigen
end LA
