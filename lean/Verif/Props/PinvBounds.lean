import Verif.Props.QRBounds
import Verif.Props.PinvRounding
import Verif.Proofs.GramInv

/-! # C113: `pinverse` of doubles, in terms of the matrix alone

`C103_forward` speaks about runs in which every intermediate matrix is finite, and its bound contains the norms of computed factors.  Here the
hypotheses and the bound are about the given matrix: its Frobenius norm `F` and a lower bound `σ` of its singular values.  The quotient `F / σ` must
not be too large, because `pinverse` inverts `RᵀR`, whose condition is the square of the condition of the matrix. -/

namespace LA.Props
open LA Finset Fp Matrix
open _root_.LA.RQ (l2)
set_option linter.unusedSectionVars false

/-- `2^340`. -/
noncomputable def mid : ℝ := 2 ^ 340

theorem mid_pos : 0 < mid := by unfold mid; positivity

theorem mid_ge : (2 : ℝ) ^ 100 ≤ mid := by
  unfold mid
  exact pow_le_pow_right₀ (by norm_num) (by norm_num)

theorem mid_wide : wide = mid * 2 ^ 120 := by
  unfold wide mid
  rw [← pow_add]

theorem mid_500 : (1 : ℝ) / 2 ^ 500 = 1 / mid * (1 / 2 ^ 160) := by
  unfold mid
  rw [one_div_mul_one_div, ← pow_add]

theorem mid_tiny : tiny * mid ^ 2 = 1 / 2 ^ 220 := by
  unfold mid tiny
  rw [← pow_mul, one_div_mul_eq_div, div_eq_div_iff (by positivity) (by positivity), one_mul, ← pow_add]

theorem mid_700 : (2 : ℝ) ^ 700 = mid ^ 2 * 2 ^ 20 := by
  unfold mid
  rw [← pow_mul, ← pow_add]

theorem mid_800 : (2 : ℝ) ^ 800 = mid ^ 2 * 2 ^ 120 := by
  unfold mid
  rw [← pow_mul, ← pow_add]

theorem mid_top : mid ^ 2 * 2 ^ 100 ≤ Ω F64 := by
  refine le_trans ?_ wide_top
  refine mul_le_mul_of_nonneg_right (pow_le_pow_left₀ mid_pos.le ?_ 2) (by norm_num)
  rw [mid_wide]
  exact le_mul_of_one_le_right mid_pos.le (by norm_num)

theorem theta_wide {n : Nat} (h : n ≤ 2 ^ 40) : θ F64 n ≤ tiny * (1 / 2 ^ 134) := by
  have hn : (n : ℝ) ≤ 2 ^ 40 := by exact_mod_cast h
  have h1 := pow_f64 (k := n) h
  have h0 : 0 ≤ (1 + u F64) ^ n := by have := u_nonneg (α := F64); positivity
  unfold θ
  rw [eta_tiny]
  have := tiny_pos
  calc (n : ℝ) * (1 + u F64) ^ n * (tiny * (1 / 2 ^ 175)) ≤ 2 ^ 40 * 2 * (tiny * (1 / 2 ^ 175)) :=
        mul_le_mul_of_nonneg_right (mul_le_mul hn h1 h0 (by norm_num)) (mul_nonneg this.le (by norm_num))
    _ = tiny * (2 ^ 40 * 2 * (1 / 2 ^ 175)) := by ring
    _ ≤ _ := mul_le_mul_of_nonneg_left (by norm_num) this.le

variable {m n : Nat}

/-- A matrix of doubles for which `pinverse` works. -/
structure PinvGood (A : Matrix (Fin m) (Fin n) F64) (F σ : ℝ) : Prop where
  n_pos : 0 < n
  n_le : n ≤ m
  fin : ∀ i j, (A i j).isFin
  norm : frob (A.map F64.toReal) = F
  F_le : F ≤ mid
  σ_ge : 1 / mid ≤ σ
  lower : ∀ y, σ * l2 y ≤ l2 (A.map F64.toReal *ᵥ y)
  tall : ((m : ℝ) + 4) * n * F ^ 2 ≤ 2 ^ 40 * σ ^ 2
  cond : (n : ℝ) ^ 4 * 3 ^ n * F ^ 2 ≤ 2 ^ 47 * σ ^ 2

namespace PinvGood
variable {A : Matrix (Fin m) (Fin n) F64} {F σ : ℝ}

theorem σ_pos (h : PinvGood A F σ) : 0 < σ := lt_of_lt_of_le (by have := mid_pos; positivity) h.σ_ge

theorem σ_le (h : PinvGood A F σ) : σ ≤ F := by
  have h1 := h.lower (Pi.single ⟨0, h.n_pos⟩ 1)
  have h2 := GramInv.l2_mulVec_le (A.map F64.toReal) (Pi.single ⟨0, h.n_pos⟩ 1)
  rw [GramInv.l2_single, mul_one] at h1 h2
  rw [h.norm] at h2
  exact h1.trans h2

theorem F_pos (h : PinvGood A F σ) : 0 < F := h.σ_pos.trans_le h.σ_le

theorem size (h : PinvGood A F σ) : (m + 4) * n ≤ 2 ^ 40 := by
  have h1 : σ ^ 2 ≤ F ^ 2 := pow_le_pow_left₀ h.σ_pos.le h.σ_le 2
  have h2 : ((m : ℝ) + 4) * n * F ^ 2 ≤ 2 ^ 40 * F ^ 2 := h.tall.trans (mul_le_mul_of_nonneg_left h1 (by norm_num))
  have h3 := le_of_mul_le_mul_right h2 (pow_pos h.F_pos 2)
  exact_mod_cast h3

theorem n_small (h : PinvGood A F σ) : n ≤ 100 := by
  have h1 : σ ^ 2 ≤ F ^ 2 := pow_le_pow_left₀ h.σ_pos.le h.σ_le 2
  have h2 : (n : ℝ) ^ 4 * 3 ^ n * F ^ 2 ≤ 2 ^ 47 * F ^ 2 := h.cond.trans (mul_le_mul_of_nonneg_left h1 (by norm_num))
  have h3 := le_of_mul_le_mul_right h2 (pow_pos h.F_pos 2)
  by_contra hc
  have h4 : (3 : ℝ) ^ 100 ≤ 3 ^ n := pow_le_pow_right₀ (by norm_num) (by omega)
  have h5 : (1 : ℝ) ≤ (n : ℝ) ^ 4 := one_le_pow₀ (by exact_mod_cast h.n_pos)
  have h6 : (3 : ℝ) ^ n ≤ (n : ℝ) ^ 4 * 3 ^ n := le_mul_of_one_le_left (by positivity) h5
  have h7 : (3 : ℝ) ^ 100 ≤ 2 ^ 47 := h4.trans (h6.trans h3)
  norm_num at h7

/-- The computed `RᵀR`. -/
theorem gram (h : PinvGood A F σ) : ∃ (x : QR F64) (R : Matrix (Fin m) (Fin n) F64) (G : Matrix (Fin n) (Fin n) F64),
    QR.new (ofM A) = .ok x ∧ x.getR = .ok (ofM R) ∧ (ofM R.transpose).mul (ofM R) = .ok (ofM G) ∧ (∀ i j, (G i j).isFin) ∧
    frob ((A.map F64.toReal)ᵀ * A.map F64.toReal - G.map F64.toReal) ≤ (m + 4) * n / 2 ^ 45 * F ^ 2 := by
  have hF := h.F_pos
  have hσ := h.σ_pos
  have hs := h.size
  have hn := h.n_pos
  have hm : 0 < m := by have := h.n_le; omega
  have hm4 : m + 4 ≤ 2 ^ 40 := le_trans (Nat.le_mul_of_pos_right _ hn) hs
  have hs' : ((m : ℝ) + 4) * n ≤ 2 ^ 40 := by exact_mod_cast hs
  have hw := mid_pos
  have hwg := mid_ge
  have hcol : ∀ j, l2 (fun i => (A i j).toReal) ≤ F := by
    intro j
    have := GramInv.entry_le_l2 (fun j => l2 fun i => A.map F64.toReal i j) j
    rw [← GramInv.frob_cols, h.norm, abs_of_nonneg (RQ.l2_nonneg _)] at this
    exact this
  have h460 : (2 : ℝ) ^ 460 = mid * 2 ^ 120 := mid_wide
  obtain ⟨x, R, H, Qh, h1, h2, -, -, -, h6, -, -, -, Q, e1, e2, -⟩ := C112_factorisation hn h.n_le hs A h.fin (σ := σ) (by
      intro j
      rw [h460]
      exact (hcol j).trans (h.F_le.trans (le_mul_of_one_le_right hw.le (by norm_num)))) (by
      rw [h460, ← one_div_mul_one_div]
      exact (mul_le_of_le_one_right (by positivity) (by norm_num)).trans h.σ_ge) (by
      intro y
      exact h.lower y) (by
      have hn2 : √(∑ i, ∑ j, (A i j).toReal ^ 2) = F := h.norm
      rw [hn2]
      have a1 := h.tall
      have a2 : σ * σ ≤ σ * F := mul_le_mul_of_nonneg_left h.σ_le hσ.le
      have a3 : (((m : ℝ) + 4) * n * F) * F ≤ (2 ^ 40 * σ) * F := by
        have : (((m : ℝ) + 4) * n * F) * F = (m + 4) * n * F ^ 2 := by ring
        rw [this]
        refine a1.trans ?_
        rw [sq, mul_assoc]
        exact mul_le_mul_of_nonneg_left a2 (by norm_num)
      have a4 := le_of_mul_le_mul_right a3 hF
      have a5 : ((m : ℝ) + 4) * n / 2 ^ 44 * F = (m + 4) * n * F / 2 ^ 44 := by ring
      rw [a5]
      norm_num at a4 ⊢
      linarith)
  obtain ⟨G, g1, g2⟩ := C61_mul hn hm R.transpose R
  obtain ⟨G', g1', g3⟩ := C61_mul_finite hn hm R.transpose R (fun i k => h6 k i) h6
  obtain rfl : G = G' := ofM_inj (Except.ok.inj (g1.symm.trans g1'))
  refine ⟨x, R, G, h1, h2, g1, ?_⟩
  obtain ⟨δ, hδ⟩ : ∃ δ : ℝ, δ = ((m : ℝ) + 4) * n / 2 ^ 47 := ⟨_, rfl⟩
  have hn1 : (1 : ℝ) ≤ n := by exact_mod_cast hn
  have hm1 : (1 : ℝ) ≤ m := by exact_mod_cast hm
  have hδ1 : δ ≤ 1 / 2 ^ 7 := by
    rw [hδ]
    norm_num at hs' ⊢
    linarith
  have hmn : (m : ℝ) + 4 ≤ (m + 4) * n := le_mul_of_one_le_right (by linarith) hn1
  have hδ0 : 1 / 2 ^ 45 ≤ δ := by
    rw [hδ]
    norm_num
    linarith
  have hδp : 0 < δ := lt_of_lt_of_le (by norm_num) hδ0
  have hnr : (n : ℝ) ≤ 100 := by exact_mod_cast h.n_small
  have hFm : 1 / mid ≤ F := h.σ_ge.trans h.σ_le
  -- the error of the factorisation
  have hE : frob (A.map F64.toReal - Q * R.map F64.toReal) ≤ 9 / 8 * (δ * F) := by
    have a1 := columns_frobenius (E := A.map F64.toReal - Q * R.map F64.toReal) (A := A.map F64.toReal) (δ := δ) (ρ := 1 / 2 ^ 500) hδp.le
      (by positivity) (by
        intro j
        rw [hδ]
        exact e2 j)
    have a2 : √(n : ℝ) * (1 / 2 ^ 500) ≤ 1 / 8 * (δ * F) := by
      rw [mid_500]
      have b1 : √(n : ℝ) ≤ 10 := Real.sqrt_le_iff.mpr ⟨by norm_num, by linarith⟩
      have b2 : √(n : ℝ) * (1 / mid * (1 / 2 ^ 160)) ≤ 10 * (1 / mid * (1 / 2 ^ 160)) := mul_le_mul_of_nonneg_right b1 (by positivity)
      have b3 : 1 / 2 ^ 45 * (1 / mid) ≤ δ * F := mul_le_mul hδ0 hFm (by positivity) hδp.le
      refine b2.trans ?_
      generalize 1 / mid = w at *
      have hw0 : 0 ≤ w ∨ w < 0 := le_or_gt 0 w
      norm_num at b3 ⊢
      rcases hw0 with hw0 | hw0
      · linarith
      · nlinarith [mul_pos hδp hF]
    have a3 : frobenius (A.map F64.toReal) = F := h.norm
    rw [a3] at a1
    change frob _ ≤ _ at a1
    linarith
  have hδF : δ * F ≤ 1 / 2 ^ 7 * F := mul_le_mul_of_nonneg_right hδ1 hF.le
  have hR : frob (R.map F64.toReal) ≤ 102 / 100 * F := by
    have a1 := frob_sub_le (A.map F64.toReal) (A.map F64.toReal - Q * R.map F64.toReal)
    rw [sub_sub_cancel, h.norm, frob_mul_left _ e1] at a1
    norm_num at hδF
    linarith
  have hR0 := frob_nonneg (R.map F64.toReal)
  have hR2 : frob (R.map F64.toReal) * frob (R.map F64.toReal) ≤ 105 / 100 * F ^ 2 := by
    have := mul_le_mul hR hR hR0 (by positivity)
    nlinarith [sq_nonneg F]
  have ht := tiny_pos
  have hF2 : F ^ 2 ≤ mid ^ 2 := pow_le_pow_left₀ hF.le h.F_le 2
  have hF3 : tiny ≤ 1 / 2 ^ 220 * F ^ 2 := by
    have a1 : (1 / mid) ^ 2 ≤ F ^ 2 := pow_le_pow_left₀ (by positivity) hFm 2
    have a2 : tiny = 1 / 2 ^ 220 * (1 / mid) ^ 2 := by
      rw [← mid_tiny]; field_simp
    rw [a2]
    exact mul_le_mul_of_nonneg_left a1 (by norm_num)
  have hθ := theta_wide (n := m) (by omega)
  have hGf : ∀ i j, (G i j).isFin := by
    intro i j
    refine g3 i j ?_
    have a1 : ∑ k, |val (R.transpose i k)| * |val (R k j)| ≤ 105 / 100 * F ^ 2 := by
      have b1 := RQ.sum_abs_le (fun k => val (R k i)) (fun k => val (R k j))
      have b2 : ∀ j, l2 (fun k => val (R k j)) ≤ frob (R.map F64.toReal) := by
        intro j
        have := GramInv.entry_le_l2 (fun j => l2 fun i => R.map F64.toReal i j) j
        rwa [← GramInv.frob_cols, abs_of_nonneg (RQ.l2_nonneg _)] at this
      have b3 := mul_le_mul (b2 i) (b2 j) (RQ.l2_nonneg _) hR0
      refine le_trans (le_of_eq ?_) (b1.trans (b3.trans hR2))
      exact sum_congr rfl fun k _ => (abs_mul _ _).symm
    have a2 := pow_f64 (k := m + 1) (by omega)
    have a3 : (0 : ℝ) ≤ ∑ k, |val (R.transpose i k)| * |val (R k j)| := sum_nonneg fun _ _ => mul_nonneg (abs_nonneg _) (abs_nonneg _)
    have a4 := mul_le_mul a2 a1 a3 (by norm_num)
    have a5 := mid_top
    refine le_trans ?_ a5
    have a6 : tiny * (1 / 2 ^ 134) ≤ F ^ 2 := by
      have : tiny * (1 / 2 ^ 134) ≤ tiny := mul_le_of_le_one_right ht.le (by norm_num)
      have b : 1 / 2 ^ 220 * F ^ 2 ≤ F ^ 2 := mul_le_of_le_one_left (by positivity) (by norm_num)
      linarith
    have a7 : mid ^ 2 * 4 ≤ mid ^ 2 * 2 ^ 100 := mul_le_mul_of_nonneg_left (by norm_num) (by positivity)
    linarith
  refine ⟨hGf, ?_⟩
  have c1 := gram_close (A := A.map F64.toReal) (R := R.map F64.toReal) e1
  have c2 := product_frobenius (A := R.transpose) (B := R) (C := G) (fun i j => g2 i j (hGf i j))
  have c3 : frobenius (R.transpose.map val) = frob (R.map F64.toReal) := frob_transpose (R.map F64.toReal)
  have c4 : √(n * n : Nat) = (n : ℝ) := by
    push_cast
    exact Real.sqrt_mul_self (by positivity)
  have c5 : frobenius (R.map val) = frob (R.map F64.toReal) := rfl
  rw [c3, c4, c5] at c2
  have c6 := frob_tri ((A.map F64.toReal)ᵀ * A.map F64.toReal) ((R.map F64.toReal)ᵀ * R.map F64.toReal) (G.map F64.toReal)
  have c7 : frob ((R.map F64.toReal)ᵀ * R.map F64.toReal - G.map F64.toReal) = frobenius (G.map val - R.transpose.map val * R.map val) :=
    frob_sub_comm _ _
  rw [c7] at c6
  have c8 : frobenius (A.map F64.toReal) = F := h.norm
  rw [c8] at c1
  change frob _ ≤ 2 * F * frob (A.map F64.toReal - Q * R.map F64.toReal) + frob (A.map F64.toReal - Q * R.map F64.toReal) ^ 2 at c1
  have hE0 := frob_nonneg (A.map F64.toReal - Q * R.map F64.toReal)
  generalize frob (A.map F64.toReal - Q * R.map F64.toReal) = E at *
  have d1 : F * E ≤ 9 / 8 * (δ * F ^ 2) := by
    have := mul_le_mul_of_nonneg_left hE hF.le
    nlinarith
  have hδF2 : 0 ≤ δ * F ^ 2 := by positivity
  have d2 : E ^ 2 ≤ 1 / 20 * (δ * F ^ 2) := by
    have b1 : E ≤ 1 / 50 * F := by norm_num at hδF; linarith
    have b2 := mul_le_mul_of_nonneg_right b1 hE0
    rw [sq]
    nlinarith
  have d3 : γ F64 (m + 1) ≤ 1 / 8 * δ := by
    have := gamma_f64 (k := m + 1) (by omega)
    push_cast at this
    rw [hδ]
    norm_num at this ⊢
    linarith
  have d4 : γ F64 (m + 1) * (frob (R.map F64.toReal) * frob (R.map F64.toReal)) ≤ 1 / 8 * δ * (105 / 100 * F ^ 2) :=
    mul_le_mul d3 hR2 (mul_nonneg hR0 hR0) (by positivity)
  have d5 : n * θ F64 m ≤ 1 / 8 * (δ * F ^ 2) := by
    have b1 : n * θ F64 m ≤ 100 * (tiny * (1 / 2 ^ 134)) := mul_le_mul hnr hθ (θ_nonneg m) (by norm_num)
    have b2 : 1 / 2 ^ 45 * F ^ 2 ≤ δ * F ^ 2 := mul_le_mul_of_nonneg_right hδ0 (by positivity)
    norm_num at hF3 b1 b2 ⊢
    linarith
  have d6 : ((m : ℝ) + 4) * n / 2 ^ 45 * F ^ 2 = 4 * (δ * F ^ 2) := by rw [hδ]; ring
  rw [d6]
  linarith

set_option maxHeartbeats 2000000 in
/-- The computed inverse of `RᵀR`, and the product with `Aᵀ`. -/
theorem result (h : PinvGood A F σ) : ∃ X : Matrix (Fin n) (Fin m) F64, (ofM A).pinverse = .ok (ofM X) ∧ (∀ i j, (X i j).isFin) ∧
    frob (X.map F64.toReal - ((A.map F64.toReal)ᵀ * A.map F64.toReal)⁻¹ * (A.map F64.toReal)ᵀ) ≤
      (n ^ 3 * 3 ^ n * (F / σ) ^ 3 / 2 ^ 45 + (m + 4) * n * (F / σ) ^ 2 / 2 ^ 44) / σ := by
  have hF := h.F_pos
  have hσ := h.σ_pos
  have hn := h.n_pos
  have hm : 0 < m := by have := h.n_le; omega
  have hs := h.size
  have hm4 : m + 4 ≤ 2 ^ 40 := le_trans (Nat.le_mul_of_pos_right _ hn) hs
  have hs' : ((m : ℝ) + 4) * n ≤ 2 ^ 40 := by exact_mod_cast hs
  have hw := mid_pos
  have ht := tiny_pos
  have hn1 : (1 : ℝ) ≤ n := by exact_mod_cast hn
  have hm1 : (1 : ℝ) ≤ m := by exact_mod_cast hm
  have hnr : (n : ℝ) ≤ 100 := by exact_mod_cast h.n_small
  obtain ⟨x, R, G, x1, x2, x3, hGf, hG⟩ := h.gram
  set B := A.map F64.toReal with hB
  set K := G.map F64.toReal with hK
  obtain ⟨κ, hκ⟩ : ∃ κ : ℝ, κ = F / σ := ⟨_, rfl⟩
  have hFκ : F = κ * σ := by rw [hκ]; field_simp
  have hκ1 : 1 ≤ κ := by rw [hκ, one_le_div hσ]; exact h.σ_le
  have hσ2 : 0 < σ ^ 2 := by positivity
  have htall : ((m : ℝ) + 4) * n * κ ^ 2 ≤ 2 ^ 40 := by
    have := h.tall
    rw [hFκ, mul_pow, ← mul_assoc] at this
    exact le_of_mul_le_mul_right this hσ2
  have hcond : (n : ℝ) ^ 4 * 3 ^ n * κ ^ 2 ≤ 2 ^ 47 := by
    have := h.cond
    rw [hFκ, mul_pow, ← mul_assoc] at this
    exact le_of_mul_le_mul_right this hσ2
  have hF2 : F ^ 2 ≤ mid ^ 2 := pow_le_pow_left₀ hF.le h.F_le 2
  have hσF : σ ^ 2 ≤ F ^ 2 := pow_le_pow_left₀ hσ.le h.σ_le 2
  have hσm : (1 / mid) ^ 2 ≤ σ ^ 2 := pow_le_pow_left₀ (by positivity) h.σ_ge 2
  have htw : tiny = 1 / 2 ^ 220 * (1 / mid) ^ 2 := by rw [← mid_tiny]; field_simp
  have htσ : tiny ≤ 1 / 2 ^ 220 * σ ^ 2 := by
    rw [htw]
    exact mul_le_mul_of_nonneg_left hσm (by norm_num)
  have htF : tiny * F ^ 2 ≤ 1 / 2 ^ 220 := by
    rw [← mid_tiny]
    exact mul_le_mul_of_nonneg_left hF2 ht.le
  -- `RᵀR` is close to `AᵀA`
  have he : ((m : ℝ) + 4) * n / 2 ^ 45 * F ^ 2 ≤ σ ^ 2 / 2 := by
    have e : ((m : ℝ) + 4) * n / 2 ^ 45 * F ^ 2 = (m + 4) * n * κ ^ 2 * (σ ^ 2 / 2 ^ 45) := by rw [hFκ]; ring
    rw [e]
    have := mul_le_mul_of_nonneg_right htall (show 0 ≤ σ ^ 2 / 2 ^ 45 by positivity)
    refine this.trans ?_
    norm_num
    linarith
  have hlow := GramInv.near_lower hσ.le h.lower (hG.trans he)
  have hc2 : 0 < σ ^ 2 / 2 := by positivity
  have hdet := GramInv.det_ne hc2 hlow
  have hsq0 := Real.sqrt_nonneg (n : ℝ)
  have hsq1 : (1 : ℝ) ≤ √n := Real.one_le_sqrt.mpr hn1
  have hsq2 : √(n : ℝ) * √n = n := Real.mul_self_sqrt (by linarith)
  have hsqn : √(n : ℝ) ≤ n := by nlinarith
  have hGM : ∀ i j, (G i j).isFin ∧ |(G i j).toReal| ≤ 2 * F ^ 2 := by
    intro i j
    refine ⟨hGf i j, ?_⟩
    have a1 : |K i j| ≤ frob K := by
      have := GramInv.entry_le_l2 (fun i => K i j) i
      have b := GramInv.entry_le_l2 (fun j => l2 fun i => K i j) j
      rw [← GramInv.frob_cols, abs_of_nonneg (RQ.l2_nonneg _)] at b
      exact this.trans b
    have a2 := frob_sub_le (Bᵀ * B) (Bᵀ * B - K)
    rw [sub_sub_cancel] at a2
    have a3 := frob_mul_le Bᵀ B
    rw [frob_transpose, h.norm] at a3
    have a4 : F * F = F ^ 2 := (sq F).symm
    have a5 : |(G i j).toReal| = |K i j| := rfl
    rw [a5]
    linarith
  obtain ⟨Z, z1, z2, z3⟩ := C110_inverse hn h.n_small G (2 * F ^ 2) (√n / (σ ^ 2 / 2)) hGM (by
      have : 1 / 2 ^ 220 * σ ^ 2 ≤ σ ^ 2 := mul_le_of_le_one_left hσ2.le (by norm_num)
      linarith) (by
      rw [mid_800]
      have : mid ^ 2 * 2 ≤ mid ^ 2 * 2 ^ 120 := mul_le_mul_of_nonneg_left (by norm_num) (by positivity)
      linarith) K⁻¹ (Matrix.nonsing_inv_mul _ (isUnit_iff_ne_zero.mpr hdet)) (GramInv.inv_row hc2 hlow) (by
      have e : (n : ℝ) ^ 3 * 3 ^ n * (√n / (σ ^ 2 / 2) * (2 * F ^ 2)) = 4 * ((n ^ 3 * √n) * (3 ^ n * κ ^ 2)) := by
        rw [hFκ]; field_simp; ring
      have e2 : (n : ℝ) ^ 3 * √n * (3 ^ n * κ ^ 2) ≤ n ^ 4 * (3 ^ n * κ ^ 2) := by
        refine mul_le_mul_of_nonneg_right ?_ (by positivity)
        rw [pow_succ (n : ℝ) 3]
        exact mul_le_mul_of_nonneg_left hsqn (by positivity)
      rw [← mul_assoc ((n : ℝ) ^ 4)] at e2
      rw [e]
      norm_num at hcond ⊢
      linarith) (by
      rw [mid_700, div_le_iff₀ hc2]
      have a1 : (1 : ℝ) ≤ mid ^ 2 * σ ^ 2 := by
        have := mul_le_mul_of_nonneg_left hσm (show 0 ≤ mid ^ 2 by positivity)
        rwa [← mul_pow, mul_one_div_cancel hw.ne', one_pow] at this
      have a2 : √(n : ℝ) ≤ 10 := Real.sqrt_le_iff.mpr ⟨by norm_num, by linarith⟩
      have a3 : mid ^ 2 * 2 ^ 20 * (σ ^ 2 / 2) = mid ^ 2 * σ ^ 2 * 2 ^ 19 := by ring
      rw [a3]
      norm_num
      linarith)
  -- the error of the inverse
  have hZe : frob (Z.map F64.toReal - K⁻¹) ≤ 33 * (n ^ 3 * 3 ^ n * κ ^ 2) / 2 ^ 51 / σ ^ 2 := by
    have hT : (1 : ℝ) ≤ 3 ^ n := one_le_pow₀ (by norm_num)
    have hκ2 : 1 ≤ κ ^ 2 := one_le_pow₀ hκ1
    have a1 : ∀ i j, |(Z.map F64.toReal - K⁻¹) i j| ≤ 33 * (n ^ 2 * 3 ^ n * κ ^ 2) / 2 ^ 51 / σ ^ 2 := by
      intro i j
      refine (z3 i j).trans ?_
      have b1 := GramInv.inv_colsum hc2 hlow j
      have b2 : ((3 * n + 1 : ℝ)) * 3 ^ n / 2 ^ 51 * (2 * F ^ 2) * (∑ c, |K⁻¹ c j|) ≤
          (3 * n + 1) * 3 ^ n / 2 ^ 51 * (2 * F ^ 2) * (√n / (σ ^ 2 / 2)) := mul_le_mul_of_nonneg_left b1 (by positivity)
      have b3 : tiny * (1 + 2 * F ^ 2) ≤ 1 / 2 ^ 200 := by
        have : tiny ≤ 1 / 2 ^ 220 * F ^ 2 ∧ tiny * F ^ 2 ≤ 1 / 2 ^ 220 := ⟨htσ.trans (mul_le_mul_of_nonneg_left hσF (by norm_num)), htF⟩
        have b4 : tiny ≤ 1 / 2 ^ 201 := by
          unfold tiny
          exact one_div_le_one_div_of_le (by positivity) (pow_le_pow_right₀ (by norm_num) (by norm_num))
        norm_num at b4 htF ⊢
        linarith
      have b5 : √(n : ℝ) / (σ ^ 2 / 2) * ((3 * n + 1) * 3 ^ n / 2 ^ 51 * (2 * F ^ 2) * (√n / (σ ^ 2 / 2)) + 2 * (1 / 2 ^ 200)) =
          (8 * ((3 * n + 1) * n * 3 ^ n * κ ^ 2) / 2 ^ 51 + 4 * √n * (1 / 2 ^ 200)) / σ ^ 2 := by
        have : (3 * n + 1) * n * 3 ^ n * κ ^ 2 = ((3 * n + 1) * 3 ^ n * κ ^ 2) * (√n * √n) := by rw [hsq2]; ring
        rw [this, hFκ]
        field_simp
        ring
      have b6 : √(n : ℝ) / (σ ^ 2 / 2) * ((3 * n + 1) * 3 ^ n / 2 ^ 51 * (2 * F ^ 2) * (∑ c, |K⁻¹ c j|) + 2 * (tiny * (1 + 2 * F ^ 2))) ≤
          √(n : ℝ) / (σ ^ 2 / 2) * ((3 * n + 1) * 3 ^ n / 2 ^ 51 * (2 * F ^ 2) * (√n / (σ ^ 2 / 2)) + 2 * (1 / 2 ^ 200)) :=
        mul_le_mul_of_nonneg_left (add_le_add b2 (mul_le_mul_of_nonneg_left b3 (by norm_num))) (by positivity)
      refine b6.trans ?_
      rw [b5]
      refine div_le_div_of_nonneg_right ?_ hσ2.le
      have c1 : (3 * n + 1) * n * 3 ^ n * κ ^ 2 ≤ 4 * (n ^ 2 * 3 ^ n * κ ^ 2) := by
        have : (3 * (n : ℝ) + 1) * n ≤ 4 * n ^ 2 := by nlinarith
        have := mul_le_mul_of_nonneg_right this (show 0 ≤ 3 ^ n * κ ^ 2 by positivity)
        calc (3 * n + 1) * n * 3 ^ n * κ ^ 2 = (3 * (n : ℝ) + 1) * n * (3 ^ n * κ ^ 2) := by ring
          _ ≤ _ := this
          _ = _ := by ring
      have c2 : √(n : ℝ) ≤ n ^ 2 * 3 ^ n * κ ^ 2 := by
        have d1 : (1 : ℝ) ≤ 3 ^ n * κ ^ 2 := one_le_mul_of_one_le_of_one_le hT hκ2
        have d2 : (n : ℝ) ≤ n ^ 2 := by nlinarith
        calc √(n : ℝ) ≤ n ^ 2 := hsqn.trans d2
          _ ≤ n ^ 2 * (3 ^ n * κ ^ 2) := le_mul_of_one_le_right (by positivity) d1
          _ = _ := by ring
      norm_num
      linarith
    have a2 : frob (Z.map F64.toReal - K⁻¹) ≤ frob (Matrix.of fun (_ : Fin n) (_ : Fin n) => 33 * (n ^ 2 * 3 ^ n * κ ^ 2) / 2 ^ 51 / σ ^ 2) :=
      frob_mono fun i j => a1 i j
    have a3 := frobenius_const (m := n) (n := n) (33 * (n ^ 2 * 3 ^ n * κ ^ 2) / 2 ^ 51 / σ ^ 2) (by positivity)
    have a4 : √(n * n : Nat) = (n : ℝ) := by
      push_cast
      exact Real.sqrt_mul_self (by positivity)
    change frob _ = _ at a3
    rw [a3, a4] at a2
    refine a2.trans (le_of_eq ?_)
    ring
  have hZn : frob (Z.map F64.toReal) ≤ 5 * n / σ ^ 2 := by
    have a1 := frob_add_le K⁻¹ (Z.map F64.toReal - K⁻¹)
    rw [add_sub_cancel] at a1
    have a2 := GramInv.inv_frob hc2 hlow
    have a3 : √(n : ℝ) / (σ ^ 2 / 2) = 2 * √n / σ ^ 2 := by field_simp
    rw [a3] at a2
    have a4 : 33 * (n ^ 3 * 3 ^ n * κ ^ 2) / 2 ^ 51 ≤ 3 * (n : ℝ) := by
      have b1 : (n : ℝ) ^ 3 * 3 ^ n * κ ^ 2 ≤ n ^ 4 * 3 ^ n * κ ^ 2 :=
        mul_le_mul_of_nonneg_right (mul_le_mul_of_nonneg_right (pow_le_pow_right₀ hn1 (by norm_num)) (by positivity)) (by positivity)
      norm_num at hcond ⊢
      linarith
    have a5 := div_le_div_of_nonneg_right a4 hσ2.le
    have a6 : 2 * √(n : ℝ) / σ ^ 2 ≤ 2 * n / σ ^ 2 := div_le_div_of_nonneg_right (by linarith) hσ2.le
    have a7 : 5 * (n : ℝ) / σ ^ 2 = 2 * n / σ ^ 2 + 3 * n / σ ^ 2 := by ring
    rw [a7]
    linarith
  -- the product
  obtain ⟨X, y1, y2⟩ := C61_mul hn hn Z A.transpose
  obtain ⟨X', y1', y3⟩ := C61_mul_finite hn hn Z A.transpose z2 (fun k j => h.fin j k)
  obtain rfl : X = X' := ofM_inj (Except.ok.inj (y1.symm.trans y1'))
  have hZ0 := frob_nonneg (Z.map F64.toReal)
  have hprod : frob (Z.map F64.toReal) * F ≤ 5 * n * κ / σ := by
    have := mul_le_mul_of_nonneg_right hZn hF.le
    refine this.trans (le_of_eq ?_)
    rw [hFκ]
    field_simp
  have hκbound : κ ≤ 2 ^ 24 := by
    have a1 : (1 : ℝ) ≤ n ^ 4 * 3 ^ n := one_le_mul_of_one_le_of_one_le (one_le_pow₀ hn1) (one_le_pow₀ (by norm_num))
    have a2 : κ ^ 2 ≤ n ^ 4 * 3 ^ n * κ ^ 2 := le_mul_of_one_le_left (by positivity) a1
    have a3 : κ ^ 2 ≤ (2 ^ 24) ^ 2 := by
      refine a2.trans (hcond.trans ?_)
      norm_num
    exact (pow_le_pow_iff_left₀ (by linarith) (by norm_num) two_ne_zero).mp a3
  have hθ := theta_wide (n := n) (by have := h.n_small; omega)
  have hσi : 1 / σ ≤ mid := by
    rw [div_le_iff₀ hσ]
    have := mul_le_mul_of_nonneg_left h.σ_ge hw.le
    rwa [mul_one_div_cancel hw.ne'] at this
  have hXf : ∀ i j, (X i j).isFin := by
    intro i j
    refine y3 i j ?_
    have a1 : ∑ k, |val (Z i k)| * |val (A.transpose k j)| ≤ 5 * n * κ / σ := by
      have b1 := RQ.sum_abs_le (fun k => val (Z i k)) (fun k => val (A j k))
      have b2 : l2 (fun k => val (Z i k)) ≤ frob (Z.map F64.toReal) := by
        have := GramInv.entry_le_l2 (fun i => l2 fun j => Z.map F64.toReal i j) i
        rwa [← GramInv.frob_rows, abs_of_nonneg (RQ.l2_nonneg _)] at this
      have b3 : l2 (fun k => val (A j k)) ≤ F := by
        have := GramInv.entry_le_l2 (fun i => l2 fun j => B i j) j
        rwa [← GramInv.frob_rows, abs_of_nonneg (RQ.l2_nonneg _), h.norm] at this
      have b4 := mul_le_mul b2 b3 (RQ.l2_nonneg _) hZ0
      refine le_trans (le_of_eq ?_) (b1.trans (b4.trans hprod))
      exact sum_congr rfl fun k _ => (abs_mul _ _).symm
    have a2 := pow_f64 (k := n + 1) (by have := h.n_small; omega)
    have a3 : (0 : ℝ) ≤ ∑ k, |val (Z i k)| * |val (A.transpose k j)| := sum_nonneg fun _ _ => mul_nonneg (abs_nonneg _) (abs_nonneg _)
    have a4 := mul_le_mul a2 a1 a3 (by norm_num)
    have a5 := mid_top
    refine le_trans ?_ a5
    have a6 : 5 * n * κ / σ ≤ 500 * 2 ^ 24 * mid := by
      calc 5 * n * κ / σ = (5 * n * κ) * (1 / σ) := by ring
        _ ≤ (500 * 2 ^ 24) * mid := mul_le_mul (mul_le_mul (by linarith) hκbound (by linarith) (by norm_num)) hσi (by positivity) (by norm_num)
    have a7 : tiny * (1 / 2 ^ 134) ≤ 1 := mul_le_one₀ tiny_le (by norm_num) (by norm_num)
    have hwg := mid_ge
    have a8 : mid * 2 ^ 40 ≤ mid ^ 2 * 2 ^ 100 := by
      rw [sq, mul_assoc]
      refine mul_le_mul_of_nonneg_left ?_ hw.le
      norm_num at hwg ⊢
      linarith
    have a9 : 2 * (5 * n * κ / σ) + 1 ≤ mid * 2 ^ 40 := by
      generalize 5 * n * κ / σ = q at *
      norm_num at hwg a6 ⊢
      linarith only [hwg, a6]
    exact (add_le_add a4 (hθ.trans a7)).trans (a9.trans a8)
  have hP : frob (X.map F64.toReal - Z.map F64.toReal * Bᵀ) ≤ 11 * n ^ 2 * κ / 2 ^ 52 / σ := by
    have a1 := product_frobenius (A := Z) (B := A.transpose) (C := X) (fun i j => y2 i j (hXf i j))
    have a2 : frobenius (A.transpose.map val) = F := (frob_transpose B).trans h.norm
    rw [a2] at a1
    change frob (X.map F64.toReal - Z.map F64.toReal * Bᵀ) ≤ γ F64 (n + 1) * (frob (Z.map F64.toReal) * F) + _ at a1
    have a3 : γ F64 (n + 1) ≤ 2 * n / 2 ^ 52 := by
      have := gamma_f64 (k := n + 1) (by have := h.n_small; omega)
      push_cast at this
      refine this.trans (div_le_div_of_nonneg_right (by linarith) (by norm_num))
    have a4 : γ F64 (n + 1) * (frob (Z.map F64.toReal) * F) ≤ 2 * n / 2 ^ 52 * (5 * n * κ / σ) :=
      mul_le_mul a3 hprod (mul_nonneg hZ0 hF.le) (by positivity)
    have a5 : √((n * m : Nat) : ℝ) ≤ 2 ^ 20 := by
      refine Real.sqrt_le_iff.mpr ⟨by norm_num, ?_⟩
      push_cast
      have : (n : ℝ) * m ≤ (m + 4) * n := by nlinarith
      norm_num at hs' ⊢
      linarith
    have a6 : √((n * m : Nat) : ℝ) * θ F64 n ≤ 2 ^ 20 * (tiny * (1 / 2 ^ 134)) := mul_le_mul a5 hθ (θ_nonneg n) (by norm_num)
    have a7 : tiny ≤ 1 / σ := by
      rw [le_div_iff₀ hσ]
      have b1 : tiny * σ ≤ tiny * mid := mul_le_mul_of_nonneg_left (h.σ_le.trans h.F_le) ht.le
      have b2 : tiny * mid ≤ tiny * mid ^ 2 := by
        refine mul_le_mul_of_nonneg_left ?_ ht.le
        have hwg := mid_ge
        rw [sq]
        exact le_mul_of_one_le_right hw.le (by norm_num at hwg; linarith)
      rw [mid_tiny] at b2
      norm_num at b2
      linarith
    have a8 : 2 * n / 2 ^ 52 * (5 * n * κ / σ) = 10 * (n ^ 2 * κ) / 2 ^ 52 * (1 / σ) := by ring
    have a9 : 11 * n ^ 2 * κ / 2 ^ 52 / σ = 10 * (n ^ 2 * κ) / 2 ^ 52 * (1 / σ) + (n ^ 2 * κ) * (1 / σ) / 2 ^ 52 := by ring
    have a10 : 1 * (1 / σ) ≤ (n ^ 2 * κ) * (1 / σ) :=
      mul_le_mul_of_nonneg_right (one_le_mul_of_one_le_of_one_le (one_le_pow₀ hn1) hκ1) (by positivity)
    rw [a8] at a4
    rw [a9]
    generalize 10 * (n ^ 2 * κ) / 2 ^ 52 * (1 / σ) = p at *
    generalize (n ^ 2 * κ) * (1 / σ) = q at *
    rw [one_mul] at a10
    generalize 1 / σ = w at *
    generalize √((n * m : Nat) : ℝ) * θ F64 n = r at *
    have a11 : (2 : ℝ) ^ 20 * (tiny * (1 / 2 ^ 134)) ≤ tiny / 2 ^ 52 := by
      have : (2 : ℝ) ^ 20 * (tiny * (1 / 2 ^ 134)) = tiny * (1 / 2 ^ 114) := by ring
      rw [this, div_eq_mul_one_div tiny]
      exact mul_le_mul_of_nonneg_left (by norm_num) ht.le
    have a12 : tiny / 2 ^ 52 ≤ q / 2 ^ 52 := div_le_div_of_nonneg_right (a7.trans a10) (by norm_num)
    exact a1.trans (add_le_add a4 (a6.trans (a11.trans a12)))
  refine ⟨X, ?_, hXf, ?_⟩
  · unfold Mat.pinverse
    rw [x1, ok_bind, x2, ok_bind, t_ofM hm, ok_bind, x3, ok_bind, z1, ok_bind]
    simp only [unwrap, ok_bind]
    rw [t_ofM hm, ok_bind, y1]
  have hfin := GramInv.pinv_err hσ h.lower (Z := Z.map F64.toReal) hG he (X.map F64.toReal)
  refine hfin.trans ?_
  rw [h.norm]
  have b1 : frob (Z.map F64.toReal - K⁻¹) * F ≤ 33 * (n ^ 3 * 3 ^ n * κ ^ 3) / 2 ^ 51 / σ := by
    refine (mul_le_mul_of_nonneg_right hZe hF.le).trans (le_of_eq ?_)
    rw [hFκ]
    field_simp
  have b2 : 2 * (((m : ℝ) + 4) * n / 2 ^ 45 * F ^ 2) / σ ^ 3 = (m + 4) * n * κ ^ 2 / 2 ^ 44 / σ := by
    rw [hFκ]
    field_simp
  rw [b2, ← hκ]
  have b3 : 11 * n ^ 2 * κ / 2 ^ 52 / σ ≤ 11 * (n ^ 3 * 3 ^ n * κ ^ 3) / 2 ^ 52 / σ := by
    refine div_le_div_of_nonneg_right (div_le_div_of_nonneg_right ?_ (by norm_num)) hσ.le
    have c1 : (n : ℝ) ^ 2 ≤ n ^ 3 * 3 ^ n := by
      calc (n : ℝ) ^ 2 ≤ n ^ 3 := pow_le_pow_right₀ hn1 (by norm_num)
        _ ≤ _ := le_mul_of_one_le_right (by positivity) (one_le_pow₀ (by norm_num))
    have c2 : κ ≤ κ ^ 3 := le_self_pow₀ hκ1 (by norm_num)
    have := mul_le_mul c1 c2 (by linarith) (by positivity)
    linarith
  have b4 : (n ^ 3 * 3 ^ n * κ ^ 3 / 2 ^ 45 + (m + 4) * n * κ ^ 2 / 2 ^ 44) / σ =
      64 * (n ^ 3 * 3 ^ n * κ ^ 3 / 2 ^ 51 / σ) + (m + 4) * n * κ ^ 2 / 2 ^ 44 / σ := by ring
  rw [b4]
  have b5 : 33 * (n ^ 3 * 3 ^ n * κ ^ 3) / 2 ^ 51 / σ = 33 * (n ^ 3 * 3 ^ n * κ ^ 3 / 2 ^ 51 / σ) := by ring
  have b6 : 11 * (n ^ 3 * 3 ^ n * κ ^ 3) / 2 ^ 52 / σ = 11 / 2 * (n ^ 3 * 3 ^ n * κ ^ 3 / 2 ^ 51 / σ) := by ring
  have b7 : 0 ≤ n ^ 3 * 3 ^ n * κ ^ 3 / 2 ^ 51 / σ := by positivity
  rw [b5] at b1
  rw [b6] at b3
  linarith

end PinvGood

/-- C113: `pinverse` of a matrix of doubles with Frobenius norm at most `2^340`, whose singular values are at least `σ`, succeeds if the quotient `κ = F / σ`
satisfies `(m+4) n κ² ≤ 2^40` and `n^4 3^n κ² ≤ 2^47`.  All entries of the result are finite, and it is the Moore-Penrose inverse up to
`n³ 3^n κ³ 2^-45 + (m+4) n κ² 2^-44`, relative to `1 / σ`. -/
theorem C113_pinverse (hn : 0 < n) (hnm : n ≤ m) (A : Matrix (Fin m) (Fin n) F64) (hA : ∀ i j, (A i j).isFin) (F σ : ℝ)
    (hF : frobenius (A.map F64.toReal) = F) (hF1 : F ≤ 2 ^ 340) (hσ1 : 1 / 2 ^ 340 ≤ σ)
    (hσ : ∀ y : Fin n → ℝ, σ * l2 y ≤ l2 (fun i => ∑ j, (A i j).toReal * y j))
    (h1 : (m + 4) * n * (F / σ) ^ 2 ≤ 2 ^ 40) (h2 : n ^ 4 * 3 ^ n * (F / σ) ^ 2 ≤ 2 ^ 47) :
    ∃ X : Matrix (Fin n) (Fin m) F64, (ofM A).pinverse = .ok (ofM X) ∧ (∀ i j, (X i j).isFin) ∧
      frobenius (X.map F64.toReal - ((A.map F64.toReal)ᵀ * A.map F64.toReal)⁻¹ * (A.map F64.toReal)ᵀ) ≤
        (n ^ 3 * 3 ^ n * (F / σ) ^ 3 / 2 ^ 45 + (m + 4) * n * (F / σ) ^ 2 / 2 ^ 44) / σ := by
  have hσ0 : 0 < σ := lt_of_lt_of_le (by positivity) hσ1
  have h := PinvGood.mk hn hnm hA hF hF1 hσ1 (fun y => hσ y) (by
    rw [div_pow, ← mul_div_assoc, div_le_iff₀ (by positivity)] at h1
    exact h1) (by
    rw [div_pow, ← mul_div_assoc, div_le_iff₀ (by positivity)] at h2
    exact h2)
  exact h.result

/-- C113: the result is a left inverse up to `n³ 3^n κ⁴ 2^-45 + (m+4) n κ³ 2^-44`. -/
theorem C113_left_inverse (hn : 0 < n) (hnm : n ≤ m) (A : Matrix (Fin m) (Fin n) F64) (hA : ∀ i j, (A i j).isFin) (F σ : ℝ)
    (hF : frobenius (A.map F64.toReal) = F) (hF1 : F ≤ 2 ^ 340) (hσ1 : 1 / 2 ^ 340 ≤ σ)
    (hσ : ∀ y : Fin n → ℝ, σ * l2 y ≤ l2 (fun i => ∑ j, (A i j).toReal * y j))
    (h1 : (m + 4) * n * (F / σ) ^ 2 ≤ 2 ^ 40) (h2 : n ^ 4 * 3 ^ n * (F / σ) ^ 2 ≤ 2 ^ 47) :
    ∃ X : Matrix (Fin n) (Fin m) F64, (ofM A).pinverse = .ok (ofM X) ∧
      frobenius (X.map F64.toReal * A.map F64.toReal - 1) ≤ n ^ 3 * 3 ^ n * (F / σ) ^ 4 / 2 ^ 45 + (m + 4) * n * (F / σ) ^ 3 / 2 ^ 44 := by
  obtain ⟨X, a1, -, a2⟩ := C113_pinverse hn hnm A hA F σ hF hF1 hσ1 hσ h1 h2
  refine ⟨X, a1, ?_⟩
  have hσ0 : 0 < σ := lt_of_lt_of_le (by positivity) hσ1
  have hd := GramInv.det_ne (show 0 < σ ^ 2 by positivity) (GramInv.gram_lower (B := A.map F64.toReal) hσ0.le fun y => hσ y)
  have hF0 : 0 ≤ F := hF ▸ frobenius_nonneg _
  generalize A.map F64.toReal = B at *
  have e : X.map F64.toReal * B - 1 = (X.map F64.toReal - (Bᵀ * B)⁻¹ * Bᵀ) * B := by
    rw [Matrix.sub_mul, Matrix.mul_assoc _ Bᵀ, Matrix.nonsing_inv_mul _ (isUnit_iff_ne_zero.mpr hd)]
  rw [e]
  have b1 := frob_mul_le (X.map F64.toReal - (Bᵀ * B)⁻¹ * Bᵀ) B
  change frob _ = _ at hF
  change frob _ ≤ _ at a2
  change frob _ ≤ _
  rw [hF] at b1
  refine b1.trans ((mul_le_mul_of_nonneg_right a2 hF0).trans (le_of_eq ?_))
  rw [div_mul_eq_mul_div, mul_div_assoc]
  ring

/-- C113: and multiplied with a vector it gives the least-squares solution, up to the same error relative to the norm of the vector. -/
theorem C113_least_squares (hn : 0 < n) (hnm : n ≤ m) (A : Matrix (Fin m) (Fin n) F64) (hA : ∀ i j, (A i j).isFin) (F σ : ℝ)
    (hF : frobenius (A.map F64.toReal) = F) (hF1 : F ≤ 2 ^ 340) (hσ1 : 1 / 2 ^ 340 ≤ σ)
    (hσ : ∀ y : Fin n → ℝ, σ * l2 y ≤ l2 (fun i => ∑ j, (A i j).toReal * y j))
    (h1 : (m + 4) * n * (F / σ) ^ 2 ≤ 2 ^ 40) (h2 : n ^ 4 * 3 ^ n * (F / σ) ^ 2 ≤ 2 ^ 47) :
    ∃ X : Matrix (Fin n) (Fin m) F64, (ofM A).pinverse = .ok (ofM X) ∧
      ∀ (b : Fin m → ℝ) (z : Fin n → ℝ), (∀ y : Fin n → ℝ, l2 (fun i => b i - ∑ j, (A i j).toReal * z j) ≤ l2 (fun i => b i - ∑ j, (A i j).toReal * y j)) →
        l2 (fun i => ∑ j, (X i j).toReal * b j - z i) ≤
          (n ^ 3 * 3 ^ n * (F / σ) ^ 3 / 2 ^ 45 + (m + 4) * n * (F / σ) ^ 2 / 2 ^ 44) / σ * l2 b := by
  obtain ⟨X, a1, -, a2⟩ := C113_pinverse hn hnm A hA F σ hF hF1 hσ1 hσ h1 h2
  refine ⟨X, a1, fun b z hz => ?_⟩
  have hσ0 : 0 < σ := lt_of_lt_of_le (by positivity) hσ1
  have hd := GramInv.det_ne (show 0 < σ ^ 2 by positivity) (GramInv.gram_lower (B := A.map F64.toReal) hσ0.le fun y => hσ y)
  have hz' : ∀ y, l2 (b - A.map F64.toReal *ᵥ z) ≤ l2 (b - A.map F64.toReal *ᵥ y) := hz
  change l2 (X.map F64.toReal *ᵥ b - z) ≤ _
  generalize A.map F64.toReal = B at *
  have e : z = ((Bᵀ * B)⁻¹ * Bᵀ) *ᵥ b := by
    have hn0 := GramInv.normal_eq hz'
    rw [← mulVec_mulVec, hn0, mulVec_mulVec, Matrix.nonsing_inv_mul _ (isUnit_iff_ne_zero.mpr hd), one_mulVec]
  rw [e, ← sub_mulVec]
  exact (GramInv.l2_mulVec_le _ _).trans (mul_le_mul_of_nonneg_right a2 (RQ.l2_nonneg _))

/-- The hypotheses of the theorems above hold for a matrix with three rows and two columns. -/
example : ∃ X : Matrix (Fin 2) (Fin 3) F64, (ofM !![1, 1; 1, 0; 0, two 1]).pinverse = .ok (ofM X) ∧ ∀ i j, (X i j).isFin := by
  have h0 : (0 : F64).toReal = 0 := (Fp.zero (α := F64)).2
  have h1 : (1 : F64).toReal = 1 := (Fp.one (α := F64)).2
  have hbig : (3 : ℝ) ≤ 2 ^ 340 := by
    have := mid_ge
    unfold mid at this
    exact le_trans (by norm_num) this
  have hF : frobenius ((!![1, 1; 1, 0; 0, two 1] : Matrix (Fin 3) (Fin 2) F64).map F64.toReal) = √7 := by
    unfold frobenius
    congr 1
    simp [Fin.sum_univ_three, h0, h1, two_val]
    norm_num
  have h7 : √(7 : ℝ) ^ 2 = 7 := Real.sq_sqrt (by norm_num)
  obtain ⟨X, a1, a2, -⟩ := C113_pinverse (m := 3) (n := 2) (by norm_num) (by norm_num)
    !![1, 1; 1, 0; 0, two 1] (by intro i j; fin_cases i <;> fin_cases j <;> decide +kernel) (√7) 1 hF
    (le_trans (Real.sqrt_le_iff.mpr ⟨by norm_num, by norm_num⟩) hbig)
    (le_trans (one_div_le_one_div_of_le (by norm_num) hbig) (by norm_num)) (by
      intro y
      rw [one_mul]
      unfold RQ.l2
      refine Real.sqrt_le_sqrt ?_
      simp [Fin.sum_univ_three, h0, h1, two_val]
      nlinarith [sq_nonneg (y 0 + y 1), sq_nonneg (y 1), sq_nonneg (y 0)])
    (by rw [div_one, h7]; norm_num) (by rw [div_one, h7]; norm_num)
  exact ⟨X, a1, a2⟩

end LA.Props
