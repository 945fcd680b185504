import Verif.Proofs.RndQRFin
import Verif.Props.QRRounding
import Verif.Props.CholeskyBounds
import Verif.Props.LUBounds
import Verif.Proofs.Norm

/-! # C112: the QR decomposition of doubles, in terms of the matrix alone

`C77_f64` speaks about factorisations whose factors are finite and whose diagonal entries are in range.  Here no condition on the factors is left: the
columns of the matrix have norm at most `2^460`, and its smallest singular value is at least `2^-460` and at least `(m+4) n 2^-44` times its
Frobenius norm.  Then nothing overflows or underflows. -/

namespace LA.Props
open LA Finset Fp
open _root_.LA.RQ (l2)
set_option linter.unusedSectionVars false

/-- `2^460` and its inverse. -/
noncomputable def wide : ℝ := 2 ^ 460

theorem wide_pos : 0 < wide := by unfold wide; positivity

theorem wide_ge : (2 : ℝ) ^ 100 ≤ wide := by
  unfold wide
  exact pow_le_pow_right₀ (by norm_num) (by norm_num)

theorem wide_eta : η F64 * wide ^ 2 = 1 / 2 ^ 155 := by
  have hη : η F64 = F64.U / 2 := rfl
  rw [hη]
  unfold F64.U wide
  rw [← pow_mul, div_div, ← pow_succ, one_div_mul_eq_div, div_eq_div_iff (by positivity) (by positivity), one_mul, ← pow_add]

theorem wide_top : wide ^ 2 * 2 ^ 100 ≤ Ω F64 := by
  refine le_trans ?_ big_f64
  unfold wide
  rw [← pow_mul, ← pow_add, ← pow_add]
  exact pow_le_pow_right₀ (by norm_num) (by norm_num)

theorem wide_500 : (1 : ℝ) / 2 ^ 500 = 1 / wide * (1 / 2 ^ 40) ∧ (1 : ℝ) / 2 ^ 480 = 1 / wide * (1 / 2 ^ 20) ∧ (2 : ℝ) ^ 500 = wide * 2 ^ 40 := by
  unfold wide
  refine ⟨?_, ?_, ?_⟩
  · rw [one_div_mul_one_div, ← pow_add]
  · rw [one_div_mul_one_div, ← pow_add]
  · rw [← pow_add]

theorem wide_room {m : Nat} (hm : m + 4 ≤ 2 ^ 40) : QR.Rnd.Room F64 m (wide * 2 ^ 10) := by
  have hu : u F64 = 1 / 2 ^ 53 := rfl
  have hm' : (m : ℝ) + 4 ≤ 2 ^ 40 := by exact_mod_cast hm
  have hw := wide_pos
  have h1 := wide_ge
  have h2 := wide_eta
  have h3 := wide_top
  refine ⟨?_, ?_, ?_, ?_⟩
  · norm_num at h1 ⊢; linarith
  · refine le_trans ?_ h3
    rw [mul_pow, ← mul_assoc, mul_comm (100 : ℝ), mul_assoc]
    exact mul_le_mul_of_nonneg_left (by norm_num) (sq_nonneg _)
  · rw [hu]
    calc 2 * (m * η F64) * (wide * 2 ^ 10) ^ 2 = (m : ℝ) * (2 * 2 ^ 20) * (η F64 * wide ^ 2) := by ring
      _ = (m : ℝ) * (2 * 2 ^ 20) * (1 / 2 ^ 155) := by rw [h2]
      _ ≤ _ := by norm_num at hm' ⊢; linarith
  · have := gamma_f64 hm
    push_cast at this
    norm_num at this hm' ⊢
    linarith

theorem wide_Top {m : Nat} (hm : m + 4 ≤ 2 ^ 40) : QR.Rnd.Top F64 m (wide * 2 ^ 10) ≤ 1 / wide * (1 / 2 ^ 90) := by
  have hm' : (m : ℝ) + 4 ≤ 2 ^ 40 := by exact_mod_cast hm
  have hw := wide_pos
  have h1 := wide_ge
  have hη0 := η_nonneg (α := F64)
  have h2 : η F64 * wide = 1 / wide * (1 / 2 ^ 155) := by
    rw [← wide_eta]; field_simp
  have h3 : η F64 ≤ η F64 * wide := le_mul_of_one_le_right hη0 (by norm_num at h1; linarith)
  have hm0 : (0 : ℝ) ≤ m := by positivity
  have hθ : θ F64 m * wide ≤ 2 ^ 41 * (1 / wide * (1 / 2 ^ 155)) := by
    rw [← h2]
    unfold θ
    have := pow_f64 (k := m) (by omega)
    have h5 : (0 : ℝ) ≤ (1 + u F64) ^ m := by have := u_nonneg (α := F64); positivity
    calc (m : ℝ) * (1 + u F64) ^ m * η F64 * wide = m * (1 + u F64) ^ m * (η F64 * wide) := by ring
      _ ≤ 2 ^ 40 * 2 * (η F64 * wide) := mul_le_mul_of_nonneg_right (mul_le_mul (by linarith) this h5 (by norm_num)) (mul_nonneg hη0 hw.le)
      _ = _ := by ring
  have hsq : √(m : ℝ) ≤ 2 ^ 20 := Real.sqrt_le_iff.mpr ⟨by norm_num, by norm_num at hm' ⊢; linarith⟩
  have h4 : η F64 * √m ≤ η F64 * wide * 2 ^ 20 := mul_le_mul h3 hsq (Real.sqrt_nonneg _) (mul_nonneg hη0 hw.le)
  rw [h2] at h4
  have hi : 0 < 1 / wide := by positivity
  unfold QR.Rnd.Top
  have e : 10 * (θ F64 m * (wide * 2 ^ 10) + η F64 * (2 * (wide * 2 ^ 10)) + η F64 * √m) =
      10 * (2 ^ 10 * (θ F64 m * wide) + 2 ^ 11 * (η F64 * wide) + η F64 * √m) := by ring
  rw [e, h2]
  generalize 1 / wide = w at *
  generalize θ F64 m * wide = a at *
  generalize η F64 * √m = b at *
  norm_num at hθ h4 ⊢
  linarith

open QR.Rnd in
/-- Everything that is finite and in range: the results, before the errors are stated. -/
theorem qr_in_range {m n : Nat} (hn : 0 < n) (hnm : n ≤ m) (hs : (m + 4) * n ≤ 2 ^ 40) (A : Matrix (Fin m) (Fin n) F64)
    (hA : ∀ i j, F64.isFin (A i j)) (hC : ∀ j, l2 (fun i => (A i j).toReal) ≤ 2 ^ 460) {σ : ℝ} (hσ0 : 1 / 2 ^ 460 ≤ σ)
    (hσ : ∀ y : Fin n → ℝ, σ * l2 y ≤ l2 (fun i => ∑ j, (A i j).toReal * y j))
    (hcond : (m + 4) * n / 2 ^ 44 * √(∑ i, ∑ j, (A i j).toReal ^ 2) ≤ σ) :
    ∃ (x : QR F64) (R H : Matrix (Fin m) (Fin n) F64) (Qh : Matrix (Fin m) (Fin m) F64),
      QR.new (ofM A) = .ok x ∧ x.getR = .ok (ofM R) ∧ x.getH = .ok (ofM H) ∧ x.getQ = .ok (ofM Qh) ∧ x.isFullRank = .ok true ∧
      (∀ i j, F64.isFin (R i j)) ∧ (∀ i j, F64.isFin (H i j)) ∧ (∀ i j, F64.isFin (Qh i j)) ∧ QRRange64 R H ∧
      ∀ (i : Fin m) (k : Fin n), i.1 = k.1 → σ / 4 ≤ |(R i k).toReal| := by
  have hm : 0 < m := by omega
  have hmin : min m n = n := by omega
  obtain ⟨Gs, d, hG0, hstep, hnew⟩ := new_rnd hm hn A
  obtain ⟨Zs, hZr, hback, hq⟩ := getQ_rnd (m := m) (n := n) (Gs (min m n)) d hm
  rw [hmin] at hstep hnew hZr hback hq
  obtain ⟨b1, b2, -⟩ := f64_bounds hm hn (by rw [hmin]; exact hs)
  unfold qrDelta at b2
  rw [hmin] at b2
  have hm4 : m + 4 ≤ 2 ^ 40 := le_trans (Nat.le_mul_of_pos_right _ hn) hs
  have hn40 : n ≤ 2 ^ 40 := by omega
  have hs' : ((m : ℝ) + 4) * n ≤ 2 ^ 40 := by exact_mod_cast hs
  have hn' : (n : ℝ) ≤ 2 ^ 40 := by exact_mod_cast hn40
  have hw := wide_pos
  have hwg := wide_ge
  have hroom := wide_room hm4
  have hTop := wide_Top hm4
  have hv : ∀ x : F64, val x = x.toReal := fun _ => rfl
  have hcol : ∀ j : Fin n, (vec m fun r => Gs 0 r j) = fun i => (A i j).toReal := by
    intro j
    funext i
    simp only [vec, hG0, ext_fin, hv]
  obtain ⟨δ, hδ⟩ : ∃ δ : ℝ, δ = ((m : ℝ) + 4) * n / 2 ^ 47 := ⟨_, rfl⟩
  have hδ0 : 0 ≤ δ := by rw [hδ]; positivity
  have hδ1 : δ ≤ 1 / 2 ^ 7 := by
    rw [hδ]
    norm_num at hs' ⊢
    linarith
  rw [← hδ] at b2
  obtain ⟨q, hqd⟩ : ∃ q : ℝ, q = (1 + 16 * γ F64 (m + 4)) ^ n := ⟨_, rfl⟩
  have hq0 : 0 ≤ q := by rw [hqd]; have := γ_nonneg (α := F64) (m + 4); positivity
  rw [← hqd] at b2
  have hq2 : q ≤ 2 := by norm_num at hδ1; linarith
  have hTop0 : 0 ≤ Top F64 m (wide * 2 ^ 10) := by
    unfold QR.Rnd.Top
    have h1 := θ_nonneg (α := F64) m
    have h2 := η_nonneg (α := F64)
    have h3 := Real.sqrt_nonneg (m : ℝ)
    have h4 : 0 ≤ wide * 2 ^ 10 := mul_nonneg hw.le (by norm_num)
    have h5 : 0 ≤ 2 * (wide * 2 ^ 10) := mul_nonneg (by norm_num) h4
    exact mul_nonneg (by norm_num) (add_nonneg (add_nonneg (mul_nonneg h1 h4) (mul_nonneg h2 h5)) (mul_nonneg h2 h3))
  have hi : 0 < 1 / wide := by positivity
  have hi1 : 1 / wide * wide = 1 := one_div_mul_cancel hw.ne'
  have hile : 1 / wide ≤ 1 / 2 ^ 100 := one_div_le_one_div_of_le (by positivity) hwg
  have hnT : n * Top F64 m (wide * 2 ^ 10) ≤ 1 / wide * (1 / 2 ^ 50) := by
    calc n * Top F64 m (wide * 2 ^ 10) ≤ 2 ^ 40 * (1 / wide * (1 / 2 ^ 90)) := mul_le_mul hn' hTop hTop0 (by norm_num)
      _ = 1 / wide * (2 ^ 40 * (1 / 2 ^ 90)) := by ring
      _ = _ := by norm_num
  have hnT0 : 0 ≤ n * Top F64 m (wide * 2 ^ 10) := mul_nonneg (Nat.cast_nonneg _) hTop0
  have hρ : q * (n * Top F64 m (wide * 2 ^ 10)) ≤ 1 / wide * (1 / 2 ^ 40) := by
    calc q * (n * Top F64 m (wide * 2 ^ 10)) ≤ 2 * (1 / wide * (1 / 2 ^ 50)) := mul_le_mul hq2 hnT hnT0 (by norm_num)
      _ = 1 / wide * (2 * (1 / 2 ^ 50)) := by ring
      _ ≤ _ := mul_le_mul_of_nonneg_left (by norm_num) hi.le
  have hσw : 1 / wide ≤ σ := hσ0
  have hCw : ∀ j, l2 (fun i => (A i j).toReal) ≤ wide := hC
  -- the error of the whole matrix
  have hF : l2 (fun j : Fin n => l2 (fun i => (A i j).toReal)) = √(∑ i, ∑ j, (A i j).toReal ^ 2) := by
    unfold RQ.l2
    congr 1
    rw [Finset.sum_comm]
    exact sum_congr rfl fun j _ => Real.sq_sqrt (sum_nonneg fun _ _ => sq_nonneg _)
  have he : l2 (fun j : Fin n => δ * l2 (fun i => (A i j).toReal) + 1 / wide * (1 / 2 ^ 40)) ≤ σ / 8 + 1 / wide * (1 / 2 ^ 20) := by
    have h1 := RQ.l2_add (δ • fun j : Fin n => l2 (fun i => (A i j).toReal)) (fun _ : Fin n => 1 / wide * (1 / 2 ^ 40))
    rw [RQ.l2_smul, abs_of_nonneg hδ0, hF, RQ.l2_const _ (by positivity)] at h1
    have h2 : √(n : ℝ) ≤ 2 ^ 20 := Real.sqrt_le_iff.mpr ⟨by norm_num, by norm_num at hn' ⊢; linarith⟩
    have h3 : √(n : ℝ) * (1 / wide * (1 / 2 ^ 40)) ≤ 2 ^ 20 * (1 / wide * (1 / 2 ^ 40)) := mul_le_mul_of_nonneg_right h2 (by positivity)
    have h4 : δ * √(∑ i, ∑ j, (A i j).toReal ^ 2) = (m + 4) * n / 2 ^ 44 * √(∑ i, ∑ j, (A i j).toReal ^ 2) / 8 := by
      rw [hδ]; ring
    rw [h4] at h1
    refine le_trans h1 ?_
    have h5 : (2 : ℝ) ^ 20 * (1 / wide * (1 / 2 ^ 40)) = 1 / wide * (1 / 2 ^ 20) := by
      rw [mul_left_comm]; norm_num
    rw [h5] at h3
    linarith
  have he2 : σ / 2 ≤ σ - l2 (fun j : Fin n => δ * l2 (fun i => (A i j).toReal) + 1 / wide * (1 / 2 ^ 40)) := by
    have : 1 / wide * (1 / 2 ^ 20) ≤ 1 / wide * (1 / 4) := mul_le_mul_of_nonneg_left (by norm_num) hi.le
    linarith
  have hall : ∀ k, k < n → Good m n (wide * 2 ^ 10) Gs d k ∧ σ / 4 ≤ |val (d k)| := by
    intro k hk
    have := all_good hroom hnm hstep (fun r j hr hj => by rw [hG0, ext_eq _ hr hj]; exact hA _ _) (δ := δ) (ρ := 1 / wide * (1 / 2 ^ 40)) (σ := σ)
      (by rw [← hqd]; exact b2) (by rw [← hqd]; exact hρ) (by
        intro j
        rw [hcol]
        have h1 := hCw j
        have h2 : (1 + δ) * l2 (fun i => (A i j).toReal) ≤ 2 * wide :=
          mul_le_mul (by norm_num at hδ1; linarith) h1 (RQ.l2_nonneg _) (by norm_num)
        have h3 : 1 / wide * (1 / 2 ^ 40) ≤ 1 := by norm_num at hile ⊢; linarith
        norm_num at hwg h3 ⊢
        linarith) (by
        intro y
        refine (hσ y).trans (le_of_eq ?_)
        congr 1
        funext i
        simp only [hcol, Finset.sum_apply, Pi.smul_apply, smul_eq_mul]
        exact sum_congr rfl fun j _ => mul_comm _ _) (by
        simp only [hcol]
        have h1 : wide * (1 / wide) ≤ wide * σ := mul_le_mul_of_nonneg_left hσw hw.le
        rw [mul_one_div_cancel hw.ne'] at h1
        have h2 := mul_le_mul_of_nonneg_left he2 (show 0 ≤ wide * 2 ^ 10 from mul_nonneg hw.le (by norm_num))
        refine le_trans ?_ h2
        have e : wide * 2 ^ 10 * (σ / 2) = 2 ^ 9 * (wide * σ) := by ring
        rw [e]
        norm_num
        linarith) hk
    simp only [hcol] at this
    exact ⟨this.1, by linarith [this.2]⟩
  have hGn : ∀ r j, r < m → j < n → fin (Gs n r j) := by
    have := (hall (n - 1) (by omega)).1.fin_G
    rwa [show n - 1 + 1 = n by omega] at this
  -- finished columns stay
  have hcol2 : ∀ k t, k < t → t ≤ n → ∀ r, Gs t r k = Gs (k + 1) r k := by
    intro k t hkt
    induction t, hkt using Nat.le_induction with
    | base => intro _ _; rfl
    | succ t ht ih => intro h r; rw [(hstep t (by omega)).left r k (by omega), ih (by omega)]
  have hz0 := Fp.zero (α := F64)
  refine ⟨_, _, _, _, hnew, getR_rnd _ _ hm hn, getH_rnd _ _ hm hn, hq, ?_, ?_, ?_, ?_, ?_, ?_⟩
  · unfold QR.isFullRank
    have hc : (ob m n (Gs n) d).qr.cols = .ok n := ob_cols _ _ hm
    rw [hc, ok_bind]
    have hvd := ob_vect (m := m) (n := n) (Gs n) d
    rw [hmin] at hvd
    have hl := loopF_all (lo := 0) (hi := n) (f := fun j _ => do
      if FloatOps.eq (← idx (ob m n (Gs n) d).rdiag j) 0 then return Flow.ret false
      else return Flow.next ()) (fun j => FloatOps.eq (d j) 0 = false) (by
        intro j _ hj
        rw [hvd.idx (by omega), ok_bind]
        constructor
        · intro h; rw [if_neg (by simp [h])]; rfl
        · intro h; rw [if_pos (by simpa using h)]; rfl)
    rw [hl.1 fun j _ hj => ?_]
    · rfl
    · have g := (hall j hj).1
      have := Fp.eq (d j) 0 g.fin_d hz0.1
      rw [hz0.2] at this
      rw [← Bool.not_eq_true, this]; exact g.ne
  · intro i j
    simp only [rmat, Matrix.of_apply]
    split
    · exact hGn i j i.2 j.2
    · split
      · exact (hall j j.2).1.fin_d
      · exact hz0.1
  · intro i j
    simp only [hmat, Matrix.of_apply]
    split
    · exact hGn i j i.2 j.2
    · exact hz0.1
  · have hb : ∀ k, k < n → Back m k (fun r => Gs (k + 1) r k) (d k * Gs (k + 1) k k) (Zs (k + 1)) (Zs k) := by
      intro k hk
      have := hback k hk
      rw [hcol2 k _ hk le_rfl, show (fun r => Gs n r k) = fun r => Gs (k + 1) r k from funext fun r => hcol2 k _ hk le_rfl r] at this
      exact this
    have := all_back hm hroom hnm (fun k hk => (hall k hk).1) hZr hb (by
      rw [← hqd]
      have h1 : 1 / wide * (1 / 2 ^ 50) ≤ 1 := by norm_num at hile ⊢; linarith
      have h3 := hnT.trans h1
      have h2 : q * (1 + n * Top F64 m (wide * 2 ^ 10)) ≤ 2 * 2 := mul_le_mul hq2 (by linarith only [h3]) (by linarith only [hnT0]) (by norm_num)
      norm_num at hwg ⊢
      norm_num at h2
      linarith)
    exact fun i j => this i j i.2 j.2
  · intro i k hik
    right
    simp only [rmat, Matrix.of_apply]
    rw [if_neg (by omega), if_pos hik]
    obtain ⟨g, -⟩ := hall k k.2
    have g1 := g.ge
    have g2 := g.le
    rw [hv] at g1 g2
    rw [wide_500.2.1, wide_500.2.2]
    constructor
    · have h2 := mul_le_mul_of_nonneg_left g1 hi.le
      have e : 1 / wide * (wide * 2 ^ 10 * |(d k).toReal|) = (1 / wide * wide) * 2 ^ 10 * |(d k).toReal| := by ring
      rw [e, hi1, one_mul, mul_one] at h2
      have h3 : 1 / wide * (1 / 2 ^ 20) * 2 ^ 10 ≤ 1 / wide := by
        rw [mul_assoc]
        exact mul_le_of_le_one_right hi.le (by norm_num)
      refine le_of_mul_le_mul_right ?_ (show (0 : ℝ) < 2 ^ 10 by norm_num)
      rw [mul_comm |_|]
      exact h3.trans h2
    · norm_num at g2 ⊢
      linarith
  · intro i k hik
    simp only [rmat, Matrix.of_apply]
    rw [if_neg (by omega), if_pos hik]
    exact (hall k k.2).2

/-- C112: the QR decomposition of a well-conditioned matrix of doubles.  All factors are finite, the matrix is reported to have full rank, the diagonal of `R`
is at least a quarter of the smallest singular value, and there is an orthogonal matrix `Q` such that `Q R` is the given matrix up to `(m+4) n 2^-47` in
every column, and the columns of `get_q` are those of `Q` up to `(m+4) n 2^-47`. -/
theorem C112_factorisation {m n : Nat} (hn : 0 < n) (hnm : n ≤ m) (hs : (m + 4) * n ≤ 2 ^ 40) (A : Matrix (Fin m) (Fin n) F64)
    (hA : ∀ i j, F64.isFin (A i j)) (hC : ∀ j, l2 (fun i => (A i j).toReal) ≤ 2 ^ 460) {σ : ℝ} (hσ0 : 1 / 2 ^ 460 ≤ σ)
    (hσ : ∀ y : Fin n → ℝ, σ * l2 y ≤ l2 (fun i => ∑ j, (A i j).toReal * y j))
    (hcond : (m + 4) * n / 2 ^ 44 * √(∑ i, ∑ j, (A i j).toReal ^ 2) ≤ σ) :
    ∃ (x : QR F64) (R H : Matrix (Fin m) (Fin n) F64) (Qh : Matrix (Fin m) (Fin m) F64),
      QR.new (ofM A) = .ok x ∧ x.getR = .ok (ofM R) ∧ x.getH = .ok (ofM H) ∧ x.getQ = .ok (ofM Qh) ∧ x.isFullRank = .ok true ∧
      (∀ i j, F64.isFin (R i j)) ∧ (∀ i j, F64.isFin (H i j)) ∧ (∀ i j, F64.isFin (Qh i j)) ∧
      (∀ (i : Fin m) (k : Fin n), i.1 = k.1 → σ / 4 ≤ |(R i k).toReal|) ∧
      ∃ Q : Matrix (Fin m) (Fin m) ℝ, Q.transpose * Q = 1 ∧
        (∀ j, l2 (fun i => (A i j).toReal - ∑ k, Q i k * (R k j).toReal) ≤ (m + 4) * n / 2 ^ 47 * l2 (fun i => (A i j).toReal) + 1 / 2 ^ 500) ∧
        ∀ j : Fin m, j.1 < n → l2 (fun i => (Qh i j).toReal - Q i j) ≤ (m + 4) * n / 2 ^ 47 + 1 / 2 ^ 500 := by
  have hm : 0 < m := by omega
  have hmin : min m n = n := by omega
  obtain ⟨x, R, H, Qh, h1, h2, h3, h4, h5, h6, h7, h8, h9, h10⟩ := qr_in_range hn hnm hs A hA hC hσ0 hσ hcond
  obtain ⟨x', R', H', Qh', g1, g2, g3, g4, g5⟩ := C77_f64 hm hn (by rw [hmin]; exact hs) A
  obtain rfl : x = x' := Except.ok.inj (h1.symm.trans g1)
  obtain rfl : R = R' := ofM_inj (Except.ok.inj (h2.symm.trans g2))
  obtain rfl : H = H' := ofM_inj (Except.ok.inj (h3.symm.trans g3))
  obtain rfl : Qh = Qh' := ofM_inj (Except.ok.inj (h4.symm.trans g4))
  obtain ⟨-, Q, e1, e2, e3⟩ := g5 h6 h7 h9
  rw [hmin] at e2 e3
  exact ⟨x, R, H, Qh, h1, h2, h3, h4, h5, h6, h7, h8, h10, Q, e1, e2, e3 h8⟩

/-- C112: the columns of `get_q` are orthonormal up to rounding, and the product of the two returned factors is the given matrix up to rounding. -/
theorem C112_product {m n : Nat} (hn : 0 < n) (hnm : n ≤ m) (hs : (m + 4) * n ≤ 2 ^ 40) (A : Matrix (Fin m) (Fin n) F64)
    (hA : ∀ i j, F64.isFin (A i j)) (hC : ∀ j, l2 (fun i => (A i j).toReal) ≤ 2 ^ 460) {σ : ℝ} (hσ0 : 1 / 2 ^ 460 ≤ σ)
    (hσ : ∀ y : Fin n → ℝ, σ * l2 y ≤ l2 (fun i => ∑ j, (A i j).toReal * y j))
    (hcond : (m + 4) * n / 2 ^ 44 * √(∑ i, ∑ j, (A i j).toReal ^ 2) ≤ σ) :
    ∃ (x : QR F64) (R : Matrix (Fin m) (Fin n) F64) (Q : Matrix (Fin m) (Fin m) F64),
      QR.new (ofM A) = .ok x ∧ x.getR = .ok (ofM R) ∧ x.getQ = .ok (ofM Q) ∧
      (∀ i j : Fin m, i.1 < n → j.1 < n →
        |∑ k, (Q k i).toReal * (Q k j).toReal - (if i = j then 1 else 0)| ≤ (m + 4) * n / 2 ^ 45) ∧
      ∀ j, l2 (fun i => (A i j).toReal - ∑ k, (Q i k).toReal * (R k j).toReal) ≤
        √m * ((m + 4) * n) / 2 ^ 45 * l2 (fun i => (A i j).toReal) + 1 / 2 ^ 470 := by
  have hm : 0 < m := by omega
  have hmin : min m n = n := by omega
  obtain ⟨x, R, H, Qh, h1, h2, h3, h4, -, h6, h7, h8, h9, -⟩ := qr_in_range hn hnm hs A hA hC hσ0 hσ hcond
  obtain ⟨b1, b2, b3⟩ := f64_bounds hm hn (by rw [hmin]; exact hs)
  obtain ⟨x', R', H', Qh', g1, g2, g3, g4, g5⟩ := C77_factors hm hn A b1
  obtain rfl : x = x' := Except.ok.inj (h1.symm.trans g1)
  obtain rfl : R = R' := ofM_inj (Except.ok.inj (h2.symm.trans g2))
  obtain rfl : H = H' := ofM_inj (Except.ok.inj (h3.symm.trans g3))
  obtain rfl : Qh = Qh' := ofM_inj (Except.ok.inj (h4.symm.trans g4))
  have hm4 : m + 4 ≤ 2 ^ 40 := le_trans (Nat.le_mul_of_pos_right _ hn) hs
  have hs' : ((m : ℝ) + 4) * n ≤ 2 ^ 40 := by exact_mod_cast hs
  obtain ⟨e1, e2⟩ := g5 h6 h7 (f64_range (by omega) h9) h8
  have b3 := b3 R H h9
  rw [hmin] at b2
  have hδ0 := qrDelta_nonneg (α := F64) (m := m) (n := n)
  have hρ0 := qrRho_nonneg R
  have hd1 : ((m : ℝ) + 4) * n / 2 ^ 47 ≤ 1 / 2 ^ 7 := by norm_num at hs' ⊢; linarith
  have hw := wide_pos
  have hwg := wide_ge
  have hile : 1 / wide ≤ 1 / 2 ^ 100 := one_div_le_one_div_of_le (by positivity) hwg
  have hi : 0 < 1 / wide := by positivity
  have c470 : (1 : ℝ) / 2 ^ 470 = 1 / wide * (1 / 2 ^ 10) := by
    unfold wide
    rw [one_div_mul_one_div, ← pow_add]
  rw [wide_500.1] at b3
  rw [c470]
  have hm' : (m : ℝ) + 4 ≤ 2 ^ 40 := by exact_mod_cast hm4
  obtain ⟨e, hed⟩ : ∃ e : ℝ, e = ((m : ℝ) + 4) * n / 2 ^ 47 := ⟨_, rfl⟩
  have he45 : ((m : ℝ) + 4) * n / 2 ^ 45 = 4 * e := by rw [hed]; ring
  rw [← hed] at b2 hd1
  generalize qrDelta F64 m n = δ at *
  generalize qrRho R = ρ at *
  generalize 1 / wide = w at *
  have he0 : 0 ≤ e := hδ0.trans b2
  have hρ1 : ρ ≤ w * (1 / 2 ^ 40) := b3
  have hn1 : (1 : ℝ) ≤ n := by exact_mod_cast hn
  have hm1 : (1 : ℝ) ≤ m := by exact_mod_cast hm
  have he1 : 1 / 2 ^ 47 ≤ e := by
    rw [hed]
    have : (1 : ℝ) * 1 ≤ (m + 4) * n := mul_le_mul (by linarith) hn1 (by norm_num) (by linarith)
    norm_num at this ⊢
    linarith
  have hρe : ρ ≤ 1 / 8 * e := by
    norm_num at hile he1 hρ1 ⊢
    linarith
  have hD : δ + ρ ≤ 9 / 8 * e := by linarith
  have hD0 : 0 ≤ δ + ρ := add_nonneg hδ0 hρ0
  have hD1 : δ + ρ ≤ 1 / 2 ^ 6 := by norm_num at hd1 ⊢; linarith
  refine ⟨x, R, Qh, h1, h2, h4, fun i j hi hj => (e1 i j (by omega) (by omega)).trans ?_, fun j => (e2 j).trans ?_⟩
  · rw [he45]
    have : (δ + ρ) ^ 2 ≤ 1 / 2 ^ 6 * (δ + ρ) := by rw [sq]; exact mul_le_mul_of_nonneg_right hD1 hD0
    norm_num at this
    linarith
  · have hl0 := RQ.l2_nonneg (fun i => (A i j).toReal)
    change δ * l2 (fun i => (A i j).toReal) + ρ + √m * (δ + ρ) * ((1 + δ) * l2 (fun i => (A i j).toReal) + ρ) ≤ _
    have hsq1 : 1 ≤ √(m : ℝ) := Real.one_le_sqrt.mpr hm1
    have hsq : √(m : ℝ) ≤ 2 ^ 20 := Real.sqrt_le_iff.mpr ⟨by norm_num, by norm_num at hm' ⊢; linarith⟩
    have e3 : √m * ((m + 4) * n) / 2 ^ 45 = 4 * (√m * e) := by rw [hed]; ring
    rw [e3]
    generalize l2 (fun i => (A i j).toReal) = l at *
    generalize √(m : ℝ) = t at *
    have hte : 0 ≤ t * e := mul_nonneg (by linarith) he0
    have f1 : t * (δ + ρ) ≤ t * (9 / 8 * e) := mul_le_mul_of_nonneg_left hD (by linarith)
    have f2 : (1 + δ) * l + ρ ≤ 9 / 8 * l + ρ := by
      have : δ * l ≤ 1 / 8 * l := mul_le_mul_of_nonneg_right (by norm_num at hD1; linarith) hl0
      linarith
    have f3 : t * (δ + ρ) * ((1 + δ) * l + ρ) ≤ t * (9 / 8 * e) * (9 / 8 * l + ρ) :=
      mul_le_mul f1 f2 (add_nonneg (mul_nonneg (by linarith) hl0) hρ0) (by linarith)
    have f4 : δ * l ≤ 1 * e * l := mul_le_mul_of_nonneg_right (by linarith) hl0
    have f5 : 1 * e * l ≤ t * e * l := mul_le_mul_of_nonneg_right (mul_le_mul_of_nonneg_right hsq1 he0) hl0
    have f6 : t * e ≤ 2 ^ 20 * (1 / 2 ^ 7) := mul_le_mul hsq hd1 he0 (by norm_num)
    have f7 : t * e * ρ ≤ 2 ^ 20 * (1 / 2 ^ 7) * (w * (1 / 2 ^ 40)) := mul_le_mul f6 hρ1 hρ0 (by norm_num)
    have f8 : 0 ≤ t * e * l := mul_nonneg hte hl0
    norm_num at f7 hρ1 ⊢
    linarith

/-- The hypotheses hold for an ordinary matrix. -/
example : ∃ (x : QR F64) (R : Matrix (Fin 3) (Fin 2) F64) (Q : Matrix (Fin 3) (Fin 3) F64),
    QR.new (ofM !![1, 1; 1, 0; 0, two 1]) = .ok x ∧ x.getR = .ok (ofM R) ∧ x.getQ = .ok (ofM Q) ∧ x.isFullRank = .ok true ∧
    (∀ i j, (R i j).isFin) ∧ ∀ i j, (Q i j).isFin := by
  have h0 : (0 : F64).toReal = 0 := (Fp.zero (α := F64)).2
  have h1 : (1 : F64).toReal = 1 := (Fp.one (α := F64)).2
  have hbig : (3 : ℝ) ≤ 2 ^ 460 := by
    have := wide_ge
    unfold wide at this
    exact le_trans (by norm_num) this
  obtain ⟨x, R, H, Q, a1, a2, -, a4, a5, a6, -, a8, -⟩ := C112_factorisation (m := 3) (n := 2) (by norm_num) (by norm_num) (by norm_num)
    !![1, 1; 1, 0; 0, two 1] (by intro i j; fin_cases i <;> fin_cases j <;> decide +kernel) (by
      intro j
      refine le_trans ?_ hbig
      unfold RQ.l2
      refine Real.sqrt_le_iff.mpr ⟨by norm_num, ?_⟩
      fin_cases j <;> simp [Fin.sum_univ_three, h0, h1, two_val] <;> norm_num) (σ := 1) (by
      refine le_trans (one_div_le_one_div_of_le (by norm_num) hbig) (by norm_num)) (by
      intro y
      rw [one_mul]
      unfold RQ.l2
      refine Real.sqrt_le_sqrt ?_
      simp [Fin.sum_univ_three, h0, h1, two_val]
      nlinarith [sq_nonneg (y 0 + y 1), sq_nonneg (y 1), sq_nonneg (y 0)]) (by
      have : √(∑ i : Fin 3, ∑ j : Fin 2, ((!![1, 1; 1, 0; 0, two 1] : Matrix (Fin 3) (Fin 2) F64) i j).toReal ^ 2) ≤ 3 := by
        refine Real.sqrt_le_iff.mpr ⟨by norm_num, ?_⟩
        simp [Fin.sum_univ_three, h0, h1, two_val]
        norm_num
      generalize √(∑ i : Fin 3, ∑ j : Fin 2, ((!![1, 1; 1, 0; 0, two 1] : Matrix (Fin 3) (Fin 2) F64) i j).toReal ^ 2) = t at *
      norm_num
      linarith)
  exact ⟨x, R, Q, a1, a2, a4, a5, a6, a8⟩

end LA.Props
