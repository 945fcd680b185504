import Verif.Proofs.RndQR2
import Verif.Props.Accuracy
import Verif.Props.IEEE

/-! # C77: the QR decomposition in floating-point arithmetic -/

namespace LA.Props
open LA Finset Fp
open _root_.LA.RQ (l2)
set_option linter.unusedSectionVars false

section
variable {α : Type} [Zero α] [One α] [Add α] [Sub α] [Neg α] [Mul α] [FloatOps α] [Fp α] {m n : Nat}

/-- The condition under which the factorisation is accurate, in terms of `get_r` and `get_h`: each column of `get_h` is zero, or the square
of the diagonal entry of `get_r` is neither tiny (`m` underflows are below one rounding of it) nor huge (four times it does not
overflow). -/
def QRRange (R H : Matrix (Fin m) (Fin n) α) : Prop :=
  ∀ (i : Fin m) (k : Fin n), i.1 = k.1 → (∀ i, val (H i k) = 0) ∨
    (val (R i k) ≠ 0 ∧ m * η α ≤ u α * val (R i k) ^ 2 ∧ 4 * val (R i k) ^ 2 ≤ Ω α)

variable (α) in
/-- The relative error: `min m n` reflections, each with relative error `16 ((1+u)^(m+4) - 1)`. -/
noncomputable def qrDelta (m n : Nat) : ℝ := (1 + 16 * γ α (m + 4)) ^ min m n - 1

/-- The absolute error from underflow. -/
noncomputable def qrRho (R : Matrix (Fin m) (Fin n) α) : ℝ := (1 + 16 * γ α (m + 4)) ^ min m n *
  ∑ k : Fin (min m n), 10 * (θ α m / |val (R ⟨k, by omega⟩ ⟨k, by omega⟩)| + η α * |val (R ⟨k, by omega⟩ ⟨k, by omega⟩)| + η α * √m)

theorem qrDelta_nonneg : 0 ≤ qrDelta α m n := by
  unfold qrDelta
  have := γ_nonneg (α := α) (m + 4)
  have : 1 ≤ (1 + 16 * γ α (m + 4)) ^ min m n := one_le_pow₀ (by linarith)
  linarith

theorem qrRho_nonneg (R : Matrix (Fin m) (Fin n) α) : 0 ≤ qrRho R := by
  unfold qrRho
  have h1 := γ_nonneg (α := α) (m + 4)
  have h2 := η_nonneg (α := α)
  have h3 := θ_nonneg (α := α) m
  refine mul_nonneg (by positivity) (sum_nonneg fun k _ => by positivity)

open QR.Rnd in
/-- The factorisation in floating-point arithmetic: everything below follows from this. -/
theorem qr_rounding (hm : 0 < m) (hn : 0 < n) (A : Matrix (Fin m) (Fin n) α) (hε : γ α (m + 4) ≤ 1 / 64) :
    ∃ (x : QR α) (R H : Matrix (Fin m) (Fin n) α) (Qh : Matrix (Fin m) (Fin m) α),
      QR.new (ofM A) = .ok x ∧ x.getR = .ok (ofM R) ∧ x.getH = .ok (ofM H) ∧ x.getQ = .ok (ofM Qh) ∧
      ((∀ i j, fin (R i j)) → (∀ i j, fin (H i j)) → QRRange R H →
        (∀ i j, fin (A i j)) ∧ ∃ Q : Matrix (Fin m) (Fin m) ℝ, Q.transpose * Q = 1 ∧
          (∀ j, l2 (fun i => val (A i j) - ∑ k, Q i k * val (R k j)) ≤ qrDelta α m n * l2 (fun i => val (A i j)) + qrRho R) ∧
          ((∀ i j, fin (Qh i j)) → ∀ j : Fin m, j.1 < min m n →
            l2 (fun i => val (Qh i j) - Q i j) ≤ qrDelta α m n + qrRho R)) := by
  obtain ⟨Gs, d, hG0, hstep, hnew⟩ := new_rnd hm hn A
  obtain ⟨Zs, hZr, hback, hq⟩ := getQ_rnd (m := m) (n := n) (Gs (min m n)) d hm
  refine ⟨_, _, _, _, hnew, getR_rnd _ _ hm hn, getH_rnd _ _ hm hn, hq, ?_⟩
  intro hR hH hrange
  have hz0 := Fp.zero (α := α)
  -- all numbers are finite
  have hGr : ∀ r j, r < m → j < n → fin (Gs (min m n) r j) := by
    intro r j hr hj
    by_cases h : r < j
    · have := hR ⟨r, hr⟩ ⟨j, hj⟩
      simpa [rmat, h] using this
    · have := hH ⟨r, hr⟩ ⟨j, hj⟩
      simpa [hmat, show j ≤ r by omega] using this
  have hGk : ∀ t k, k + t = min m n → ∀ r j, r < m → j < n → fin (Gs k r j) := by
    intro t
    induction t with
    | zero => intro k hk; rw [Nat.add_zero] at hk; rw [hk]; exact hGr
    | succ t ih =>
      intro k hk
      exact step_fin (hstep k (by omega)) (by omega) (ih (k + 1) (by omega))
  have hG : ∀ k, k ≤ min m n → ∀ r j, r < m → j < n → fin (Gs k r j) := fun k hk => hGk (min m n - k) k (by omega)
  have hdf : ∀ k, k < min m n → fin (d k) := by
    intro k hk
    have := hR ⟨k, by omega⟩ ⟨k, by omega⟩
    simpa [rmat] using this
  -- finished columns stay
  have hcol : ∀ k t, k < t → t ≤ min m n → ∀ r, Gs t r k = Gs (k + 1) r k := by
    intro k t hkt
    induction t, hkt using Nat.le_induction with
    | base => intro _ _; rfl
    | succ t ht ih => intro h r; rw [(hstep t (by omega)).left r k (by omega), ih (by omega)]
  have hin : ∀ k, k < min m n → InRange m k (fun r => Gs (k + 1) r k) (d k) := by
    intro k hk
    rcases hrange ⟨k, by omega⟩ ⟨k, by omega⟩ rfl with h | h
    · left
      intro r h1 h2
      have := h ⟨r, h2⟩
      simp only [hmat, Matrix.of_apply, if_pos h1] at this
      rw [hcol k _ hk le_rfl] at this
      exact this
    · right
      simpa [rmat] using h
  have hc0 : 0 ≤ 16 * γ α (m + 4) := by have := γ_nonneg (α := α) (m + 4); linarith
  refine ⟨fun i j => ?_, RQ.houses (fun k => hvec m k fun r => Gs (k + 1) r k) (min m n), (RQ.houses_orth _ _).1, ?_, ?_⟩
  · have := hG 0 (Nat.zero_le _) i j i.2 j.2
    rwa [hG0, ext_fin] at this
  · have hρ : qrRho (rmat m n (Gs (min m n)) d) = (1 + 16 * γ α (m + 4)) ^ min m n * ∑ t ∈ range (min m n), Tau α m (val (d t)) := by
      unfold qrRho Tau
      rw [← Fin.sum_univ_eq_sum_range]
      congr 1
      refine sum_congr rfl fun k _ => ?_
      simp [rmat]
    intro j
    have hch := RQ.chain (u := fun k => hvec m k fun r => Gs (k + 1) r k) (w := fun t => wcol m (Gs t) d t j)
      (τ := fun t => Tau α m (val (d t))) (r := min m n) hc0 (fun t _ => Tau_nonneg m _) (fun t ht =>
        step_err (hstep t ht) (by omega) (by omega) (hG (t + 1) (by omega)) (hdf t ht) (hin t ht) hε j.2) le_rfl
    have e0 : wcol m (Gs 0) d 0 j = fun i => val (A i j) := by
      funext i
      simp only [wcol, hG0, ext_fin]
      rw [if_neg (by omega)]
    have er : wcol m (Gs (min m n)) d (min m n) j = fun i => val (rmat m n (Gs (min m n)) d i j) := by
      funext i
      simp only [wcol, rmat, Matrix.of_apply]
      by_cases h : j.1 < min m n
      · rw [if_pos h]
        split
        · rfl
        · split
          · rfl
          · rw [hz0.2]
      · rw [if_neg h, if_pos (by have := i.2; have := j.2; omega)]
    rw [e0, er] at hch
    have ho := RQ.houses_orth (fun k => hvec m k fun r => Gs (k + 1) r k) (min m n)
    rw [hρ]
    refine le_trans (le_of_eq ?_) hch
    generalize RQ.houses (fun k => hvec m k fun r => Gs (k + 1) r k) (min m n) = Q at *
    generalize rmat m n (Gs (min m n)) d = R at *
    have e1 : (fun i => val (A i j) - ∑ k, Q i k * val (R k j)) = (fun i => val (A i j)) - Q.mulVec (fun i => val (R i j)) := rfl
    have e2 := RQ.l2_orth (P := Q.transpose) (by rw [Matrix.transpose_transpose]; exact ho.2)
      ((fun i => val (A i j)) - Q.mulVec (fun i => val (R i j)))
    rw [Matrix.mulVec_sub, Matrix.mulVec_mulVec, ho.1, Matrix.one_mulVec] at e2
    rw [e1, e2]
  · have hρ : qrRho (rmat m n (Gs (min m n)) d) = (1 + 16 * γ α (m + 4)) ^ min m n * ∑ t ∈ range (min m n), Tau α m (val (d t)) := by
      unfold qrRho Tau
      rw [← Fin.sum_univ_eq_sum_range]
      congr 1
      refine sum_congr rfl fun k _ => ?_
      simp [rmat]
    intro hQ j hj
    have hZ0 : ∀ r c, r < m → c < m → fin (Zs 0 r c) := fun r c hr hc => hQ ⟨r, hr⟩ ⟨c, hc⟩
    have hZ : ∀ k, k ≤ min m n → ∀ r c, r < m → c < m → fin (Zs k r c) := by
      intro k
      induction k with
      | zero => intro _; exact hZ0
      | succ k ih => intro hk; exact back_fin (hback k (by omega)) (by omega) (ih (by omega))
    have hZcol : ∀ s t, t + s = min m n → ∀ c, c < t → ∀ r, Zs t r c = Zs (min m n) r c := by
      intro s
      induction s with
      | zero => intro t ht c _ r; rw [Nat.add_zero] at ht; rw [ht]
      | succ s ih =>
        intro t ht c hc r
        rw [(hback t (by omega)).left r c hc, ih (t + 1) (by omega) c (by omega)]
    have hb : ∀ k, k < min m n → Back m k (fun r => Gs (k + 1) r k) (d k * Gs (k + 1) k k) (Zs (k + 1)) (Zs k) := by
      intro k hk
      have := hback k hk
      rw [hcol k _ hk le_rfl, show (fun r => Gs (min m n) r k) = fun r => Gs (k + 1) r k from funext fun r => hcol k _ hk le_rfl r] at this
      exact this
    have hch := RQ.chain_rev (u := fun k => hvec m k fun r => Gs (k + 1) r k) (w := fun t => vec m fun r => Zs t r j)
      (τ := fun t => Tau α m (val (d t))) (r := min m n) hc0 (fun t _ => Tau_nonneg m _) (fun t ht =>
        back_err (hstep t ht) (by omega) (by omega) (hG (t + 1) (by omega)) (hdf t ht) (hin t ht) hε (hb t ht) (hZ t (by omega)) j.2
          (fun hjt r h1 h2 => by
            rw [hZcol (min m n - (t + 1)) (t + 1) (by omega) j (by omega), hZr, if_neg (by omega), hz0.2]))
    have er : (vec m fun r => Zs (min m n) r j) = Pi.single j 1 := by
      funext i
      simp only [vec, hZr]
      by_cases h : i = j
      · subst h
        rw [if_pos ⟨rfl, hj⟩, Fp.one.2, Pi.single_eq_same]
      · rw [if_neg (fun h' => h (Fin.ext h'.1)), hz0.2, Pi.single_eq_of_ne h]
    have hl1 : l2 (Pi.single j 1 : Fin m → ℝ) = 1 := by
      unfold RQ.l2
      rw [Finset.sum_eq_single j]
      · simp
      · intro i _ hi; rw [Pi.single_eq_of_ne hi]; simp
      · simp
    rw [er, hl1, mul_one, Matrix.mulVec_single_one] at hch
    rw [hρ]
    rw [RQ.l2_sub_comm] at hch
    exact hch

/-- C77: the `R` that is returned is, up to `min m n` times a few roundings and up to underflow, the factor of the given matrix for an exactly orthogonal
`Q`. -/
theorem C77_backward (hm : 0 < m) (hn : 0 < n) (A : Matrix (Fin m) (Fin n) α) (hε : γ α (m + 4) ≤ 1 / 64) :
    ∃ (x : QR α) (R H : Matrix (Fin m) (Fin n) α), QR.new (ofM A) = .ok x ∧ x.getR = .ok (ofM R) ∧ x.getH = .ok (ofM H) ∧
      ((∀ i j, fin (R i j)) → (∀ i j, fin (H i j)) → QRRange R H →
        (∀ i j, fin (A i j)) ∧ ∃ Q : Matrix (Fin m) (Fin m) ℝ, Q.transpose * Q = 1 ∧
          ∀ j, l2 (fun i => val (A i j) - ∑ k, Q i k * val (R k j)) ≤ qrDelta α m n * l2 (fun i => val (A i j)) + qrRho R) := by
  obtain ⟨x, R, H, Qh, h1, h2, h3, -, h5⟩ := qr_rounding hm hn A hε
  refine ⟨x, R, H, h1, h2, h3, fun a b c => ?_⟩
  obtain ⟨g1, Q, g2, g3, -⟩ := h5 a b c
  exact ⟨g1, Q, g2, g3⟩

theorem dot_l2 (x y : Fin m → ℝ) : |∑ i, x i * y i| ≤ l2 x * l2 y := RQ.dot_le x y

/-- C77: the columns of `get_q` (those that the decomposition defines, the first `min m n`) are orthonormal up to rounding, and the product of the returned factors is
the given matrix up to rounding. -/
theorem C77_factors (hm : 0 < m) (hn : 0 < n) (A : Matrix (Fin m) (Fin n) α) (hε : γ α (m + 4) ≤ 1 / 64) :
    ∃ (x : QR α) (R H : Matrix (Fin m) (Fin n) α) (Q : Matrix (Fin m) (Fin m) α),
      QR.new (ofM A) = .ok x ∧ x.getR = .ok (ofM R) ∧ x.getH = .ok (ofM H) ∧ x.getQ = .ok (ofM Q) ∧
      ((∀ i j, fin (R i j)) → (∀ i j, fin (H i j)) → QRRange R H → (∀ i j, fin (Q i j)) →
        (∀ i j : Fin m, i.1 < min m n → j.1 < min m n →
          |∑ k, val (Q k i) * val (Q k j) - (if i = j then 1 else 0)| ≤
            2 * (qrDelta α m n + qrRho R) + (qrDelta α m n + qrRho R) ^ 2) ∧
        ∀ j, l2 (fun i => val (A i j) - ∑ k, val (Q i k) * val (R k j)) ≤
          (qrDelta α m n * l2 (fun i => val (A i j)) + qrRho R) +
          √m * (qrDelta α m n + qrRho R) * ((1 + qrDelta α m n) * l2 (fun i => val (A i j)) + qrRho R)) := by
  obtain ⟨x, R, H, Qh, h1, h2, h3, h4, h5⟩ := qr_rounding hm hn A hε
  refine ⟨x, R, H, Qh, h1, h2, h3, h4, fun a b c e => ?_⟩
  obtain ⟨-, Q, g2, g3, g4⟩ := h5 a b c
  have g4 := g4 e
  have hδ := qrDelta_nonneg (α := α) (m := m) (n := n)
  have hρ := qrRho_nonneg R
  -- `R` is zero below row `min m n`
  have hR0 : ∀ (k : Fin m) (j : Fin n), min m n ≤ k.1 → val (R k j) = 0 := by
    obtain ⟨Gs, d, -, -, hnew⟩ := QR.Rnd.new_rnd hm hn A
    rw [h1] at hnew
    injection hnew with hnew
    rw [hnew, QR.Rnd.getR_rnd _ _ hm hn] at h2
    injection h2 with h2
    have := ofM_inj h2
    rw [← this]
    intro k j hk
    have hj := j.2
    have hkm := k.2
    simp only [QR.Rnd.rmat, Matrix.of_apply]
    rw [if_neg (by omega), if_neg (by omega), Fp.zero.2]
  generalize qrDelta α m n + qrRho R = D at *
  have hunit : ∀ j : Fin m, l2 (fun i => Q i j) = 1 := by
    intro j
    have : (Q.transpose * Q) j j = 1 := by rw [g2]; simp
    rw [Matrix.mul_apply] at this
    unfold RQ.l2
    rw [show ∑ i, Q i j ^ 2 = 1 by rw [← this]; exact sum_congr rfl fun i _ => by rw [Matrix.transpose_apply]; ring, Real.sqrt_one]
  refine ⟨fun i j hi hj => ?_, fun j => ?_⟩
  · have hij : ∑ k, Q k i * Q k j = if i = j then 1 else 0 := by
      have : (Q.transpose * Q) i j = if i = j then 1 else 0 := by rw [g2, Matrix.one_apply]
      rw [← this, Matrix.mul_apply]; rfl
    rw [← hij]
    have e1 : ∑ k, val (Qh k i) * val (Qh k j) - ∑ k, Q k i * Q k j =
        ∑ k, (val (Qh k i) - Q k i) * Q k j + ∑ k, Q k i * (val (Qh k j) - Q k j) +
          ∑ k, (val (Qh k i) - Q k i) * (val (Qh k j) - Q k j) := by
      rw [← sum_sub_distrib, ← sum_add_distrib, ← sum_add_distrib]
      exact sum_congr rfl fun k _ => by ring
    rw [e1]
    refine (abs_add_three _ _ _).trans ?_
    have a1 := dot_l2 (fun k => val (Qh k i) - Q k i) (fun k => Q k j)
    have a2 := dot_l2 (fun k => Q k i) (fun k => val (Qh k j) - Q k j)
    have a3 := dot_l2 (fun k => val (Qh k i) - Q k i) (fun k => val (Qh k j) - Q k j)
    rw [hunit] at a1 a2
    have b1 := g4 i hi
    have b2 := g4 j hj
    have b3 : l2 (fun k => val (Qh k i) - Q k i) * l2 (fun k => val (Qh k j) - Q k j) ≤ D * D :=
      mul_le_mul b1 b2 (RQ.l2_nonneg _) ((RQ.l2_nonneg _).trans b1)
    rw [mul_one] at a1
    rw [one_mul] at a2
    have : D ^ 2 = D * D := sq D
    linarith
  · have hsplit : (fun i => val (A i j) - ∑ k, val (Qh i k) * val (R k j)) =
        (fun i => val (A i j) - ∑ k, Q i k * val (R k j)) + ∑ k, (-val (R k j)) • (fun i => val (Qh i k) - Q i k) := by
      funext i
      simp only [Pi.add_apply, Finset.sum_apply, Pi.smul_apply, smul_eq_mul]
      have : ∑ k, -val (R k j) * (val (Qh i k) - Q i k) = ∑ k, Q i k * val (R k j) - ∑ k, val (Qh i k) * val (R k j) := by
        rw [← sum_sub_distrib]
        exact sum_congr rfl fun k _ => by ring
      rw [this]; ring
    rw [hsplit]
    refine (RQ.l2_add _ _).trans (add_le_add (g3 j) ?_)
    have hsum : l2 (∑ k, (-val (R k j)) • (fun i => val (Qh i k) - Q i k)) ≤ ∑ k, |val (R k j)| * D := by
      have key : ∀ (s : Finset (Fin m)) (f : Fin m → Fin m → ℝ), l2 (∑ k ∈ s, f k) ≤ ∑ k ∈ s, l2 (f k) := by
        intro s f
        induction s using Finset.induction_on with
        | empty => simp [RQ.l2_zero]
        | insert a s ha ih =>
          rw [sum_insert ha, sum_insert ha]
          exact (RQ.l2_add _ _).trans (by linarith)
      refine (key _ _).trans (sum_le_sum fun k _ => ?_)
      rw [RQ.l2_smul, abs_neg]
      by_cases hk : k.1 < min m n
      · exact mul_le_mul_of_nonneg_left (g4 k hk) (abs_nonneg _)
      · rw [hR0 k j (by omega)]; simp
    have hD : 0 ≤ D := (RQ.l2_nonneg _).trans (g4 ⟨0, hm⟩ (by dsimp only; omega))
    have hcs : ∑ k, |val (R k j)| ≤ √m * l2 (fun k => val (R k j)) := by
      have := dot_l2 (fun _ : Fin m => (1 : ℝ)) (fun k => |val (R k j)|)
      rw [RQ.l2_const 1 (by norm_num), mul_one, RQ.l2_abs] at this
      simp only [one_mul] at this
      exact (le_abs_self _).trans this
    have hRn : l2 (fun k => val (R k j)) ≤ (1 + qrDelta α m n) * l2 (fun i => val (A i j)) + qrRho R := by
      have e1 := RQ.l2_le_add (Q.mulVec fun k => val (R k j)) (fun i => val (A i j))
      rw [RQ.l2_orth g2, RQ.l2_sub_comm] at e1
      have e2 := g3 j
      have e3 : (fun i => val (A i j) - ∑ k, Q i k * val (R k j)) = (fun i => val (A i j)) - Q.mulVec (fun i => val (R i j)) := rfl
      rw [e3] at e2
      linarith
    refine hsum.trans ?_
    rw [← sum_mul]
    calc (∑ k, |val (R k j)|) * D ≤ √m * l2 (fun k => val (R k j)) * D := mul_le_mul_of_nonneg_right hcs hD
      _ = √m * D * l2 (fun k => val (R k j)) := by ring
      _ ≤ _ := mul_le_mul_of_nonneg_left hRn (by positivity)

end

/-! ## `f64` -/

theorem pow_le_linear {x : ℝ} {k : Nat} (hx : 0 ≤ x) (h : k * x ≤ 1) : (1 + x) ^ k ≤ 1 + 2 * (k * x) := by
  have h0 : 0 ≤ k * x := by positivity
  have h1 : (1 + x) ^ k ≤ Real.exp (k * x) := by
    rw [Real.exp_nat_mul]
    exact pow_le_pow_left₀ (by linarith) (by rw [add_comm]; exact Real.add_one_le_exp x) k
  have h2 := Real.abs_exp_sub_one_sub_id_le (x := k * x) (by rw [abs_of_nonneg h0]; exact h)
  have h3 := (abs_le.mp h2).2
  have h4 : (k * x) ^ 2 ≤ 1 * (k * x) := by rw [sq]; exact mul_le_mul_of_nonneg_right h h0
  linarith

/-- The condition of `C77_f64`: a column whose reflection is the identity, or a diagonal entry of `R` between `2^-480` and `2^500`. -/
def QRRange64 {m n : Nat} (R H : Matrix (Fin m) (Fin n) F64) : Prop :=
  ∀ (i : Fin m) (k : Fin n), i.1 = k.1 → ((∀ i, (H i k).toReal = 0) ∧ (R i k).toReal = 0) ∨
    (1 / 2 ^ 480 ≤ |(R i k).toReal| ∧ |(R i k).toReal| ≤ 2 ^ 500)

theorem f64_consts : η F64 = 1 / 2 ^ 480 * (1 / 2 ^ 595) ∧ η F64 = 1 / 2 ^ 500 * (1 / 2 ^ 575) := by
  have hη : η F64 = F64.U / 2 := rfl
  rw [hη]
  unfold F64.U
  constructor
  · rw [one_div_mul_one_div, ← pow_add, div_div, ← pow_succ]
  · rw [one_div_mul_one_div, ← pow_add, div_div, ← pow_succ]

theorem f64_range {m n : Nat} {R H : Matrix (Fin m) (Fin n) F64} (hm : m ≤ 2 ^ 40) (h : QRRange64 R H) : QRRange R H := by
  intro i k hik
  have hu : u F64 = 1 / 2 ^ 53 := rfl
  have hv : ∀ x : F64, val x = x.toReal := fun _ => rfl
  have hm' : (m : ℝ) ≤ 2 ^ 40 := by exact_mod_cast hm
  simp only [hv]
  rcases h i k hik with h | ⟨h1, h2⟩
  · exact Or.inl h.1
  right
  have h480 : (0 : ℝ) < 1 / 2 ^ 480 := by positivity
  have hpos : 0 < |(R i k).toReal| := lt_of_lt_of_le h480 h1
  refine ⟨abs_pos.mp hpos, ?_, ?_⟩
  · rw [f64_consts.1, hu, ← sq_abs]
    have e1 : (1 / 2 ^ 480 : ℝ) ^ 2 ≤ |(R i k).toReal| ^ 2 := pow_le_pow_left₀ h480.le h1 2
    have e2 : (1 / 2 ^ 595 : ℝ) = 1 / 2 ^ 480 * (1 / 2 ^ 115) := by rw [one_div_mul_one_div, ← pow_add]
    rw [e2]
    generalize (1 / 2 ^ 480 : ℝ) = x at *
    calc (m : ℝ) * (x * (x * (1 / 2 ^ 115))) = m * (1 / 2 ^ 115) * x ^ 2 := by ring
      _ ≤ 1 / 2 ^ 53 * x ^ 2 := mul_le_mul_of_nonneg_right
          ((mul_le_mul_of_nonneg_right hm' (by positivity)).trans (by norm_num)) (by positivity)
      _ ≤ _ := mul_le_mul_of_nonneg_left e1 (by positivity)
  · rw [← sq_abs]
    have e1 : |(R i k).toReal| ^ 2 ≤ (2 ^ 500) ^ 2 := pow_le_pow_left₀ hpos.le h2 2
    have hbig : (2 : ℝ) ^ 1023 ≤ Ω F64 := by
      refine le_trans ?_ f64_top
      exact le_mul_of_one_le_right (by positivity) (by norm_num)
    refine le_trans ?_ hbig
    have e3 : (2 : ℝ) ^ 1002 = 4 * (2 ^ 500) ^ 2 := by
      rw [← pow_mul, show (4 : ℝ) = 2 ^ 2 by norm_num, ← pow_add]
    have e4 : (2 : ℝ) ^ 1002 ≤ 2 ^ 1023 := pow_le_pow_right₀ (by norm_num) (by norm_num)
    rw [e3] at e4
    exact (mul_le_mul_of_nonneg_left e1 (by norm_num)).trans e4

theorem f64_bounds {m n : Nat} (hm : 0 < m) (hn : 0 < n) (hs : (m + 4) * min m n ≤ 2 ^ 40) :
    γ F64 (m + 4) ≤ 1 / 64 ∧ qrDelta F64 m n ≤ (m + 4) * min m n / 2 ^ 47 ∧
    ∀ R H : Matrix (Fin m) (Fin n) F64, QRRange64 R H → qrRho R ≤ 1 / 2 ^ 500 := by
  have hr1 : 1 ≤ min m n := by omega
  have hm4 : m + 4 ≤ 2 ^ 40 := le_trans (Nat.le_mul_of_pos_right _ hr1) hs
  have hr4 : min m n ≤ 2 ^ 40 := le_trans (Nat.le_mul_of_pos_left _ (by omega)) hs
  have hs' : ((m : ℝ) + 4) * (min m n : Nat) ≤ 2 ^ 40 := by exact_mod_cast hs
  have hm' : (m : ℝ) + 4 ≤ 2 ^ 40 := by exact_mod_cast hm4
  have hr' : ((min m n : Nat) : ℝ) ≤ 2 ^ 40 := by exact_mod_cast hr4
  have hr0 : (0 : ℝ) ≤ ((min m n : Nat) : ℝ) := by positivity
  have hm0 : (0 : ℝ) ≤ m := by positivity
  have hu : u F64 = 1 / 2 ^ 53 := rfl
  have hγ : γ F64 (m + 4) ≤ 2 * ((m + 4) * (1 / 2 ^ 53)) := by
    unfold γ
    have := pow_le_linear (x := u F64) (k := m + 4) (by rw [hu]; positivity) (by
      rw [hu]; push_cast; norm_num at hm' ⊢; linarith)
    rw [hu] at this ⊢
    push_cast at this
    linarith
  have hγ0 := γ_nonneg (α := F64) (m + 4)
  have hγ1 : γ F64 (m + 4) ≤ 1 / 64 := by
    refine hγ.trans ?_
    norm_num at hm' ⊢; linarith
  have hkx : ((min m n : Nat) : ℝ) * (16 * γ F64 (m + 4)) ≤ (m + 4) * (min m n : Nat) * (1 / 2 ^ 48) := by
    calc ((min m n : Nat) : ℝ) * (16 * γ F64 (m + 4)) ≤ ((min m n : Nat) : ℝ) * (16 * (2 * ((m + 4) * (1 / 2 ^ 53)))) :=
          mul_le_mul_of_nonneg_left (by linarith) hr0
      _ = (m + 4) * (min m n : Nat) * (32 / 2 ^ 53) := by ring
      _ = _ := by norm_num
  have hpow := pow_le_linear (x := 16 * γ F64 (m + 4)) (k := min m n) (by linarith) (by norm_num at hs' hkx ⊢; linarith)
  refine ⟨hγ1, ?_, ?_⟩
  · unfold qrDelta
    have e : ((m : ℝ) + 4) * (min m n : Nat) / 2 ^ 47 = 2 * ((m + 4) * (min m n : Nat) * (1 / 2 ^ 48)) := by ring
    rw [e]
    linarith
  · intro R H hR
    have hp2 : (1 + 16 * γ F64 (m + 4)) ^ min m n ≤ 2 := by
      refine hpow.trans ?_
      norm_num at hs' hkx ⊢; linarith
    have hη0 : 0 ≤ η F64 := η_nonneg
    have hθ : θ F64 m ≤ 2 ^ 41 * η F64 := by
      unfold θ
      have : (1 + u F64) ^ m ≤ 2 := by
        have := pow_le_linear (x := u F64) (k := m) (by rw [hu]; positivity) (by
          rw [hu]; norm_num at hm' ⊢; linarith)
        refine this.trans ?_
        rw [hu]; norm_num at hm' ⊢; linarith
      refine mul_le_mul_of_nonneg_right ?_ hη0
      calc (m : ℝ) * (1 + u F64) ^ m ≤ 2 ^ 40 * 2 := mul_le_mul (by linarith) this (by rw [hu]; positivity) (by norm_num)
        _ = _ := by norm_num
    have hq : (1 / 2 ^ 595 : ℝ) = 1 / 2 ^ 500 * (1 / 2 ^ 95) := by rw [one_div_mul_one_div, ← pow_add]
    have hq2 : (1 / 2 ^ 575 : ℝ) = 1 / 2 ^ 500 * (1 / 2 ^ 75) := by rw [one_div_mul_one_div, ← pow_add]
    have h480 : (1 / 2 ^ 480 : ℝ) ≤ 1 := by
      rw [div_le_one (by positivity)]; exact one_le_pow₀ (by norm_num)
    have h480p : (0 : ℝ) < 1 / 2 ^ 480 := by positivity
    have hqp : (0 : ℝ) < 1 / 2 ^ 500 := by positivity
    have hc := f64_consts
    have hq500 : (1 / 2 ^ 500 : ℝ) * 2 ^ 500 = 1 := one_div_mul_cancel (by positivity)
    have hη1 : η F64 ≤ 1 / 2 ^ 500 * (1 / 2 ^ 95) := by
      rw [hc.1, hq]
      exact mul_le_of_le_one_left (by positivity) h480
    have hsq : √(m : ℝ) ≤ 2 ^ 40 := by
      refine Real.sqrt_le_iff.mpr ⟨by norm_num, ?_⟩
      norm_num at hm' ⊢; linarith
    have hterm : ∀ t : ℝ, (t = 0 ∨ (1 / 2 ^ 480 ≤ |t| ∧ |t| ≤ 2 ^ 500)) →
        10 * (θ F64 m / |t| + η F64 * |t| + η F64 * √m) ≤ 1 / 2 ^ 500 * (1 / 2 ^ 42) := by
      intro t ht
      have c3 : η F64 * √m ≤ 1 / 2 ^ 500 * (1 / 2 ^ 95) * 2 ^ 40 := mul_le_mul hη1 hsq (Real.sqrt_nonneg _) (by positivity)
      have c1 : θ F64 m / |t| ≤ 2 ^ 41 * (1 / 2 ^ 500 * (1 / 2 ^ 95)) := by
        rcases ht with rfl | ⟨h1, h2⟩
        · rw [abs_zero, div_zero]; positivity
        · rw [div_le_iff₀ (lt_of_lt_of_le h480p h1)]
          refine hθ.trans ?_
          rw [hc.1, hq, mul_assoc (2 ^ 41 : ℝ)]
          refine mul_le_mul_of_nonneg_left ?_ (by norm_num)
          rw [mul_comm]
          exact mul_le_mul_of_nonneg_left h1 (by positivity)
      have c2 : η F64 * |t| ≤ 1 / 2 ^ 500 * (1 / 2 ^ 75) := by
        rcases ht with rfl | ⟨h1, h2⟩
        · rw [abs_zero, mul_zero]; positivity
        · refine (mul_le_mul_of_nonneg_left h2 hη0).trans ?_
          rw [hc.2, hq2]
          rw [mul_right_comm, hq500, one_mul]
      generalize (1 / 2 ^ 500 : ℝ) = q at *
      generalize θ F64 m / |t| = a at *
      generalize η F64 * |t| = b at *
      generalize η F64 * √m = c at *
      clear hc hη1 hq hq2 h480 h480p hq500 ht
      norm_num at c1 c2 c3 ⊢
      linarith
    have hsum : ∑ k : Fin (min m n), 10 * (θ F64 m / |val (R ⟨k, by omega⟩ ⟨k, by omega⟩)| + η F64 * |val (R ⟨k, by omega⟩ ⟨k, by omega⟩)| + η F64 * √m) ≤
        ((min m n : Nat) : ℝ) * (1 / 2 ^ 500 * (1 / 2 ^ 42)) := by
      refine (sum_le_sum fun k _ => hterm _ ?_).trans (le_of_eq ?_)
      · rcases hR ⟨k, by omega⟩ ⟨k, by omega⟩ rfl with h | h
        · exact Or.inl h.2
        · exact Or.inr h
      · rw [sum_const, card_univ, Fintype.card_fin, nsmul_eq_mul]
    have hsum0 : 0 ≤ ∑ k : Fin (min m n), 10 * (θ F64 m / |val (R ⟨k, by omega⟩ ⟨k, by omega⟩)| + η F64 * |val (R ⟨k, by omega⟩ ⟨k, by omega⟩)| + η F64 * √m) :=
      sum_nonneg fun k _ => by have := θ_nonneg (α := F64) m; positivity
    unfold qrRho
    calc _ ≤ 2 * (((min m n : Nat) : ℝ) * (1 / 2 ^ 500 * (1 / 2 ^ 42))) := mul_le_mul hp2 hsum hsum0 (by norm_num)
      _ ≤ 2 * (2 ^ 40 * (1 / 2 ^ 500 * (1 / 2 ^ 42))) := by
        refine mul_le_mul_of_nonneg_left (mul_le_mul_of_nonneg_right hr' (by positivity)) (by norm_num)
      _ = 1 / 2 ^ 500 * (1 / 2) := by ring
      _ ≤ _ := by linarith

/-- C77 for `f64`: with diagonal entries of `R` between `2^-480` and `2^500`, the relative error of every column of the factorisation is at most
`(m+4) min(m,n) 2^-47`. -/
theorem C77_f64 {m n : Nat} (hm : 0 < m) (hn : 0 < n) (hs : (m + 4) * min m n ≤ 2 ^ 40) (A : Matrix (Fin m) (Fin n) F64) :
    ∃ (x : QR F64) (R H : Matrix (Fin m) (Fin n) F64) (Qh : Matrix (Fin m) (Fin m) F64),
      QR.new (ofM A) = .ok x ∧ x.getR = .ok (ofM R) ∧ x.getH = .ok (ofM H) ∧ x.getQ = .ok (ofM Qh) ∧
      ((∀ i j, F64.isFin (R i j)) → (∀ i j, F64.isFin (H i j)) → QRRange64 R H →
        (∀ i j, F64.isFin (A i j)) ∧ ∃ Q : Matrix (Fin m) (Fin m) ℝ, Q.transpose * Q = 1 ∧
          (∀ j, l2 (fun i => (A i j).toReal - ∑ k, Q i k * (R k j).toReal) ≤
            (m + 4) * min m n / 2 ^ 47 * l2 (fun i => (A i j).toReal) + 1 / 2 ^ 500) ∧
          ((∀ i j, F64.isFin (Qh i j)) → ∀ j : Fin m, j.1 < min m n →
            l2 (fun i => (Qh i j).toReal - Q i j) ≤ (m + 4) * min m n / 2 ^ 47 + 1 / 2 ^ 500)) := by
  obtain ⟨b1, b2, b3⟩ := f64_bounds hm hn hs
  obtain ⟨x, R, H, Qh, h1, h2, h3, h4, h5⟩ := qr_rounding hm hn A b1
  refine ⟨x, R, H, Qh, h1, h2, h3, h4, fun hR hH hr => ?_⟩
  have hm40 : m ≤ 2 ^ 40 := by
    have h1 : m + 4 ≤ (m + 4) * min m n := Nat.le_mul_of_pos_right _ (by omega)
    omega
  obtain ⟨g1, Q, g2, g3, g4⟩ := h5 hR hH (f64_range hm40 hr)
  have b3 := b3 R H hr
  refine ⟨g1, Q, g2, fun j => (g3 j).trans (add_le_add (mul_le_mul_of_nonneg_right b2 (RQ.l2_nonneg _)) b3), fun hQ j hj =>
    (g4 hQ j hj).trans (add_le_add b2 b3)⟩

theorem f64_fin_toReal (k : Nat) (h : rep k = true) : (F64.fin false k h).toReal = (k : ℝ) * (1 / 2 ^ 1074) := by
  unfold F64.toReal F64.sgn F64.U
  dsimp only
  rw [if_neg (by simp)]
  push_cast
  rfl

/-- A diagonal entry in the range, decided by comparing with powers of two. -/
theorem f64_inRange {x : F64} (hx : x.isFin) (h1 : FloatOps.le (two (-480)) (FloatOps.abs x) = true)
    (h2 : FloatOps.le (FloatOps.abs x) (two 500) = true) : 1 / 2 ^ 480 ≤ |x.toReal| ∧ |x.toReal| ≤ 2 ^ 500 := by
  have t1 : two (-480) = .fin false (2 ^ 594) (by decide +kernel) := by decide +kernel
  have t2 : two 500 = .fin false (2 ^ 1574) (by decide +kernel) := by decide +kernel
  have e1 : (two (-480)).toReal = 1 / 2 ^ 480 := by
    rw [t1, f64_fin_toReal]
    push_cast
    rw [mul_one_div, div_eq_div_iff (by positivity) (by positivity), one_mul, ← pow_add]
  have e2 : (two 500).toReal = 2 ^ 500 := by
    rw [t2, f64_fin_toReal]
    push_cast
    rw [mul_one_div, div_eq_iff (by positivity), ← pow_add]
  have f1 : fin (two (-480)) := by rw [t1]; trivial
  have f2 : fin (two 500) := by rw [t2]; trivial
  have fx : fin (FloatOps.abs x) := (Fp.abs x).1.mpr hx
  have ex : val (FloatOps.abs x) = |x.toReal| := (Fp.abs x).2 hx
  have g1 := (Fp.le _ _ f1 fx).mp h1
  have g2 := (Fp.le _ _ fx f2).mp h2
  rw [ex] at g1 g2
  change (two (-480)).toReal ≤ _ at g1
  change _ ≤ (two 500).toReal at g2
  rw [e1] at g1
  rw [e2] at g2
  exact ⟨g1, g2⟩

/-- The hypotheses of `C77_f64` hold for the factorisation of an ordinary matrix (and `get_q` and `Q·R` are off by a unit in the last
place). -/
example : ∃ (x : QR F64) (R H Q P : Matrix (Fin 2) (Fin 2) F64),
    QR.new (ofM !![dec 3 0, dec 0 0; dec 4 0, dec 5 0]) = .ok x ∧ x.getR = .ok (ofM R) ∧ x.getH = .ok (ofM H) ∧ x.getQ = .ok (ofM Q) ∧
    (∀ i j, (R i j).isFin) ∧ (∀ i j, (H i j).isFin) ∧ QRRange64 R H ∧ (∀ i j, (Q i j).isFin) ∧
    (ofM Q).mul (ofM R) = .ok (ofM P) ∧ P 0 0 ≠ dec 3 0 := by
  refine ⟨⟨ofM !![dec 8 0, dec (-4) 0; dec 4 0, dec 6 0], [dec (-5) 0, dec (-3) 0]⟩, !![dec (-5) 0, dec (-4) 0; dec 0 0, dec (-3) 0],
    !![dec 8 0, dec 0 0; dec 4 0, dec 6 0], !![F64.ofRat (-5404319552844596) (2 ^ 53), dec 8 (-1); dec (-8) (-1), dec (-6) (-1)],
    !![F64.ofRat 6755399441055745 (2 ^ 51), dec 0 0; dec 4 0, dec 5 0],
    by decide +kernel, by decide +kernel, by decide +kernel, by decide +kernel, ?_, ?_, ?_, ?_, by decide +kernel, by decide +kernel⟩
  · intro i j; fin_cases i <;> fin_cases j <;> decide +kernel
  · intro i j; fin_cases i <;> fin_cases j <;> decide +kernel
  · intro i k hik
    obtain rfl := Fin.ext hik
    right
    fin_cases i
    · exact f64_inRange (by decide +kernel) (by decide +kernel) (by decide +kernel)
    · exact f64_inRange (by decide +kernel) (by decide +kernel) (by decide +kernel)
  · intro i j; fin_cases i <;> fin_cases j <;> decide +kernel

/-- The range is needed, below: the norm of the column `1e-170` underflows to zero, `get_q` divides by it, and `Q·R` is not a number. -/
example : ∃ x : QR F64, QR.new (ofM !![dec 1 (-170)]) = .ok x ∧ x.getQ = .ok (ofM !![.inf true]) ∧ x.getR = .ok (ofM !![.zero true]) ∧
    (ofM !![F64.inf true]).mul (ofM !![F64.zero true]) = .ok (ofM !![F64.nan]) := by
  refine ⟨⟨ofM !![dec 1 (-170)], [.zero true]⟩, ?_, ?_, ?_, ?_⟩ <;> decide +kernel

/-- The range is needed, above: for a column with norm `1.07e154` the product of norm and reflection vector overflows, no
reflection is applied, and the returned factors are finite and wrong: the entry `4e153` of the matrix is `0` in `Q·R`. -/
example : ∃ (x : QR F64) (R H : Matrix (Fin 2) (Fin 2) F64) (Q P : Matrix (Fin 2) (Fin 2) F64),
    QR.new (ofM !![dec 1 154, dec 1 0; dec 4 153, dec 2 0]) = .ok x ∧ x.getR = .ok (ofM R) ∧ x.getH = .ok (ofM H) ∧ x.getQ = .ok (ofM Q) ∧
    (ofM Q).mul (ofM R) = .ok (ofM P) ∧ (∀ i j, (R i j).isFin ∧ (H i j).isFin ∧ (Q i j).isFin ∧ (P i j).isFin) ∧ P 1 0 = 0 := by
  refine ⟨⟨ofM !![F64.ofRat (6976625053099546 * 2 ^ 460) 1, dec 1 0; dec 4 153, dec 4 0], [F64.ofRat (-7235373998632003 * 2 ^ 459) 1, dec (-2) 0]⟩,
    !![F64.ofRat (-7235373998632003 * 2 ^ 459) 1, dec 1 0; dec 0 0, dec (-2) 0],
    !![F64.ofRat (6976625053099546 * 2 ^ 460) 1, dec 0 0; dec 4 153, dec 4 0], !![dec 1 0, dec 0 0; dec 0 0, dec (-1) 0],
    !![F64.ofRat (-7235373998632003 * 2 ^ 459) 1, dec 1 0; dec 0 0, dec 2 0],
    by decide +kernel, by decide +kernel, by decide +kernel, by decide +kernel, by decide +kernel, ?_, by decide +kernel⟩
  intro i j; fin_cases i <;> fin_cases j <;> decide +kernel

end LA.Props
