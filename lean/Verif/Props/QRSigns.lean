import Verif.Props.Echelon
import Verif.Proofs.RndQR2

/-!
# C96: changing signs, QR decomposition

Changing the signs of rows and columns of `A` changes the signs of `H`, `R` and `Q`, and nothing else, unless a pivot is exactly zero.
-/

namespace LA.Props
open LA F64
set_option linter.unusedSectionVars false

variable {m n p : Nat}

open QR.Rnd

theorem dv_f64 (x y : F64) : dv x y = F64.div x y := rdiv_ok (dv_ok x y)

theorem sq_SA {g : ℤˣ} {x x' : F64} (h : SA g x x') : x' * x' = x * x := by
  rcases h with h | ⟨h1, h2⟩
  · rw [h, sg_mul, sq1]; exact if_pos rfl
  · obtain ⟨s, rfl⟩ := isZero_iff.1 h1
    obtain ⟨t, rfl⟩ := isZero_iff.1 (isZero_sg.1 h2)
    cases s <;> cases t <;> decide +kernel

theorem SA.exact {g : ℤˣ} {x x' : F64} (h : SA g x x') (h0 : ¬ F64.isZero x) : x' = sg g x := by
  rcases h with h | ⟨-, h2⟩
  · exact h
  · exact absurd (isZero_sg.1 h2) h0

theorem SA.of_eq {g : ℤˣ} {x x' : F64} (h : x' = sg g x) : SA g x x' := Or.inl h

/-- Division by the same number, zero or not. -/
theorem SA.div_same {g : ℤˣ} {x x' : F64} (h : SA g x x') (y : F64) : SA g (F64.div x y) (F64.div x' y) := by
  by_cases hy : F64.isZero y
  · rcases h with h | ⟨h1, h2⟩
    · left
      have := sg_div g 1 x y
      rw [_root_.mul_one] at this
      rw [h, ← this]
      congr 1
    · obtain ⟨s, rfl⟩ := isZero_iff.1 h1
      obtain ⟨t, rfl⟩ := isZero_iff.1 (isZero_sg.1 h2)
      obtain ⟨u, rfl⟩ := isZero_iff.1 hy
      left
      rcases Int.units_eq_one_or g with rfl | rfl <;> cases s <;> cases t <;> cases u <;> decide +kernel
  · have := h.div (SA.refl y) hy
    rwa [_root_.mul_one] at this

theorem fin_of_zero {x : F64} (h : F64.isZero x) : x.isFin ∧ x.toReal = 0 := by
  obtain ⟨s, rfl⟩ := isZero_iff.1 h
  refine ⟨by cases s <;> decide, ?_⟩
  unfold F64.zero F64.toReal
  cases s <;> simp [sgn]

/-- The difference of the pivot and the new diagonal entry of `R` is not zero. -/
theorem pivot_ne {x z w : F64} (hz : FloatOps.sqrt w = .ok z) (h0 : ¬ F64.isZero z) :
    ¬ F64.isZero (x - if FloatOps.lt 0 x then -z else z) := by
  intro h
  have hf := fin_of_zero h
  obtain ⟨h1, h2, h3, -⟩ := Fp.sub x _ hf.1
  have hv : Fp.val (x - if FloatOps.lt 0 x then -z else z) = 0 := hf.2
  have hu := Fp.u_lt_one (α := F64)
  rw [hv, zero_sub, _root_.abs_neg] at h3
  have h5 : Fp.val x - Fp.val (if FloatOps.lt 0 x then -z else z) = 0 := by
    by_contra hne
    have := abs_pos.2 hne
    nlinarith
  have hzf : Fp.fin z := by
    split at h2
    · exact Fp.neg_fin _ h2
    · exact h2
  obtain ⟨h6, h7, h8, -, -⟩ := Fp.sqrt w z hz hzf
  have h9 : Fp.val z ≠ 0 := fun h => h0 ((zero_iff_val hzf).1 h)
  have h10 : 0 < Fp.val z := lt_of_le_of_ne h8 (Ne.symm h9)
  have hl := Fp.lt 0 x (Fp.zero (α := F64)).1 h1
  rw [(Fp.zero (α := F64)).2] at hl
  split at h5
  · rename_i hlt
    rw [(Fp.neg z hzf).2] at h5
    have := hl.1 hlt
    linarith
  · rename_i hlt
    have : ¬ 0 < Fp.val x := fun h => hlt (hl.2 h)
    linarith

/-- A nonzero pivot determines the sign. -/
theorem lt_sg {x : F64} (h0 : ¬ F64.isZero x) (z : F64) (g : ℤˣ) :
    (if FloatOps.lt 0 (sg g x) then -z else z) = sg g (if FloatOps.lt 0 x then -z else z) ∨ x = .nan := by
  rcases Int.units_eq_one_or g with rfl | rfl
  · left; rfl
  rcases x with _ | s | ⟨s, a, ha⟩
  · exact Or.inr rfl
  · left
    cases s
    · exact (neg_neg z).symm
    · rfl
  · left
    have ha0 : a ≠ 0 := h0
    have e1 : (FloatOps.lt 0 (F64.fin s a ha) : Bool) = decide (0 < sgn s a) := rfl
    have e2 : (FloatOps.lt 0 (sg (-1) (F64.fin s a ha)) : Bool) = decide (0 < sgn (!s) a) := rfl
    rw [e1, e2]
    cases s
    · have h1 : (0 < sgn false a) := by simp [sgn]; omega
      have h2 : ¬ (0 < sgn (!false) a) := by simp [sgn]
      rw [decide_eq_true h1, decide_eq_false h2]
      exact (neg_neg z).symm
    · have h1 : ¬ (0 < sgn true a) := by simp [sgn]
      have h2 : (0 < sgn (!true) a) := by simp [sgn]; omega
      rw [decide_eq_true h2, decide_eq_false h1]
      rfl

theorem lt_zero_isZero {x : F64} (h0 : F64.isZero x) : (FloatOps.lt 0 x : Bool) = false := by
  obtain ⟨s, rfl⟩ := isZero_iff.1 h0
  cases s <;> decide

theorem not_zero {x : F64} : (FloatOps.eq x 0 : Bool) = false ↔ ¬ F64.isZero x := by
  rw [Bool.eq_false_iff, ne_eq, eq_zero_iff]

theorem app_SA {k r : Nat} {v v' x x' : Nat → F64} {b b' : F64} {e : Nat → ℤˣ} {f g : ℤˣ} (hk : k ≤ m)
    (hv : ∀ r, k ≤ r → r < m → SA (e r * f) (v r) (v' r)) (hx : ∀ r, r < m → SA (e r * g) (x r) (x' r)) (hb : b' = b) (hr : r < m) :
    SA (e r * g) (app m k v b x r) (app m k v' b' x' r) := by
  subst hb
  unfold app
  by_cases hkr : k ≤ r
  · rw [if_pos hkr, if_pos hkr]
    refine (hx r hr).add ?_
    rw [dv_f64, dv_f64]
    have hd : SA (f * g) (dotFrom m k v x) (dotFrom m k v' x') := by
      refine fdot_SA fun t ht => ?_
      have := (hv (k + t) (by omega) (by omega)).mul (hx (k + t) (by omega))
      rwa [show e (k + t) * f * (e (k + t) * g) = (e (k + t) * e (k + t)) * (f * g) by ac_rfl, sq1, _root_.one_mul] at this
    have := (SA.div_same hd b').mul (hv r hkr hr)
    rwa [show f * g * (e r * f) = (f * f) * (e r * g) by ac_rfl, sq1, _root_.one_mul] at this
  · rw [if_neg hkr, if_neg hkr]; exact hx r hr

theorem nan_sum {z : F64} {f : Nat → F64} (h : f 0 = .nan) (k : Nat) : facc (· + ·) z f (k + 1) = .nan := by
  induction k with
  | zero =>
    show z + f 0 = .nan
    rw [h]
    rcases z with _ | s | ⟨s, a, ha⟩ <;> rfl
  | succ k ih => rw [facc, ih]; rfl

/-- One reflection. -/
theorem step_SA {k : Nat} {G G' H H' : Nat → Nat → F64} {a a' : F64} {s t : Nat → ℤˣ} (h1 : Step m n k G H a) (h2 : Step m n k G' H' a')
    (hk : k < m) (hn : k < n) (hG : ∀ i j, i < m → j < n → SA (s i * t j) (G i j) (G' i j))
    (hp : s k * t k = 1 ∨ F64.isZero a ∨ FloatOps.eq (H k k) (-a) = false) :
    (∀ i j, i < m → j < n → SA (s i * t j) (H i j) (H' i j)) ∧ SA (s k * t k) a a' ∧ (F64.isZero (H k k) ∨ a' * H' k k = a * H k k) := by
  obtain ⟨z, hz, ha⟩ := h1.sqrt
  obtain ⟨z', hz', ha'⟩ := h2.sqrt
  have hzz : z' = z := by
    have : dotFrom m k (fun r => G' r k) (fun r => G' r k) = dotFrom m k (fun r => G r k) (fun r => G r k) := by
      unfold dotFrom fdot
      exact facc_congr fun i hi => sq_SA (hG (k + i) k (by omega) hn)
    rw [this, hz] at hz'
    exact (Except.ok.inj hz').symm
  subst hzz
  have hGk := hG k k hk hn
  -- the new diagonal entry
  have key : a' = sg (s k * t k) a ∨ (F64.isZero (G k k) ∧ F64.isZero a ∧ F64.isZero a') := by
    by_cases h0 : F64.isZero (G k k)
    · have e1 := lt_zero_isZero h0
      have e2 := lt_zero_isZero (hGk.isZero.2 h0)
      rw [e1] at ha
      rw [e2] at ha'
      have ha : a = z' := ha
      have ha' : a' = z' := ha'
      rcases hp with hp | hp | hp
      · left; rw [hp, ha, ha']; rfl
      · right; exact ⟨h0, hp, by rw [ha', ← ha]; exact hp⟩
      · by_cases hz0 : F64.isZero a
        · right; exact ⟨h0, hz0, by rw [ha', ← ha]; exact hz0⟩
        · left
          have hd := h1.diag (not_zero.2 hz0)
          have : H k k = -a := by
            rw [hd]
            obtain ⟨u, hu⟩ := isZero_iff.1 h0
            rw [hu]
            show zero u + -a = -a
            rw [add_comm]
            exact add_zero' _ _ (fun h => hz0 (isZero_neg.1 h))
          rw [this] at hp
          have hnan : a = .nan := by
            rcases a with _ | u | ⟨u, b, hb⟩
            · rfl
            · exfalso; revert hp
              cases u <;> decide
            · exfalso
              have : (FloatOps.eq (-(F64.fin u b hb)) (-(F64.fin u b hb)) : Bool) = decide (sgn (!u) b = sgn (!u) b) := rfl
              rw [this, decide_eq_true rfl] at hp
              cases hp
          rw [ha', ← ha, hnan]
          unfold sg; split <;> rfl
    · left
      have e := SA.exact hGk h0
      rw [e] at ha'
      rcases lt_sg h0 z' (s k * t k) with h | h
      · rw [ha', ha, h]
      · have hzn : z' = .nan := by
          have h9 : dotFrom m k (fun r => G r k) (fun r => G r k) = .nan := by
            have := nan_sum (z := 0) (f := fun i => G (k + i) k * G (k + i) k) (by rw [Nat.add_zero, h]; rfl) (m - k - 1)
            rwa [show m - k - 1 + 1 = m - k by omega] at this
          rw [h9] at hz
          exact (Except.ok.inj hz).symm
        rw [ha', ha, hzn]
        have e1 : ∀ b : Bool, (if b = true then -F64.nan else F64.nan) = F64.nan := by intro b; cases b <;> rfl
        rw [e1, e1]
        unfold sg; split <;> rfl
  have haa : SA (s k * t k) a a' := by
    rcases key with h | ⟨-, h3, h4⟩
    · exact SA.of_eq h
    · exact SA.zero _ h3 h4
  by_cases h0 : F64.isZero a
  · have h0' := haa.isZero.2 h0
    have e1 := h1.zero (eq_zero_iff.2 h0)
    have e2 := h2.zero (eq_zero_iff.2 h0')
    refine ⟨fun i j hi hj => by rw [e1, e2]; exact hG i j hi hj, haa, ?_⟩
    rw [e1, e2]
    by_cases h3 : F64.isZero (G k k)
    · exact Or.inl h3
    · right
      rcases key with h | ⟨h, -⟩
      · rw [h, SA.exact hGk h3, sg_mul, sq1]; exact if_pos rfl
      · exact absurd h h3
  · have h0' : ¬ F64.isZero a' := fun h => h0 (haa.isZero.1 h)
    have d1 := h1.diag (not_zero.2 h0)
    have d2 := h2.diag (not_zero.2 h0')
    have hz0 : ¬ F64.isZero z' := by
      intro h
      apply h0
      rw [ha]
      split
      · exact isZero_neg.2 h
      · exact h
    have hH0 : ¬ F64.isZero (H k k) := by
      rw [d1, ha]
      exact pivot_ne hz hz0
    have hHk : SA (s k * t k) (H k k) (H' k k) := by rw [d1, d2]; exact hGk.sub haa
    have hprod : a' * H' k k = a * H k k := by
      rw [SA.exact haa h0, SA.exact hHk hH0, sg_mul, sq1]; exact if_pos rfl
    have hcol : ∀ r, r < m → SA (s r * t k) (H r k) (H' r k) := by
      intro r hr
      by_cases hrk : r = k
      · subst hrk; exact hHk
      · rw [h1.low r hrk, h2.low r hrk]; exact hG r k hr hn
    refine ⟨fun i j hi hj => ?_, haa, Or.inr hprod⟩
    rcases lt_trichotomy j k with hjk | rfl | hjk
    · rw [h1.left i j hjk, h2.left i j hjk]; exact hG i j hi hj
    · exact hcol i hi
    · rw [h1.app (not_zero.2 h0) i j hi hjk hj, h2.app (not_zero.2 h0') i j hi hjk hj]
      exact app_SA hk.le (fun r _ hr => hcol r hr) (fun r hr => hG r j hr hj) hprod hi

/-- The two sequences of reflections. -/
theorem steps_SA {Gs Gs' : Nat → Nat → Nat → F64} {d d' : Nat → F64} {s t : Nat → ℤˣ}
    (h1 : ∀ k, k < min m n → Step m n k (Gs k) (Gs (k + 1)) (d k)) (h2 : ∀ k, k < min m n → Step m n k (Gs' k) (Gs' (k + 1)) (d' k))
    (h0 : ∀ i j, i < m → j < n → SA (s i * t j) (Gs 0 i j) (Gs' 0 i j))
    (hp : ∀ k, k < min m n → s k * t k = 1 ∨ F64.isZero (d k) ∨ FloatOps.eq (Gs (min m n) k k) (-(d k)) = false) :
    (∀ i j, i < m → j < n → SA (s i * t j) (Gs (min m n) i j) (Gs' (min m n) i j)) ∧
    (∀ k, k < min m n → SA (s k * t k) (d k) (d' k)) ∧
    ∀ k, k < min m n → F64.isZero (Gs (min m n) k k) ∨ d' k * Gs' (min m n) k k = d k * Gs (min m n) k k := by
  have keep : ∀ {Es : Nat → Nat → Nat → F64} {e : Nat → F64}, (∀ k, k < min m n → Step m n k (Es k) (Es (k + 1)) (e k)) →
      ∀ c r j, j < min m n → j + 1 + c ≤ min m n → Es (j + 1 + c) r j = Es (j + 1) r j := by
    intro Es e hE c r j hj
    induction c with
    | zero => intro _; rfl
    | succ c ih =>
      intro hc
      rw [← ih (by omega), show j + 1 + (c + 1) = (j + 1 + c) + 1 by omega]
      exact (hE (j + 1 + c) (by omega)).left r j (by omega)
  have last : ∀ {Es : Nat → Nat → Nat → F64} {e : Nat → F64}, (∀ k, k < min m n → Step m n k (Es k) (Es (k + 1)) (e k)) →
      ∀ r j, j < min m n → Es (min m n) r j = Es (j + 1) r j := by
    intro Es e hE r j hj
    have := keep hE (min m n - (j + 1)) r j hj (by omega)
    rwa [show j + 1 + (min m n - (j + 1)) = min m n by omega] at this
  have key : ∀ k, k ≤ min m n → ∀ i j, i < m → j < n → SA (s i * t j) (Gs k i j) (Gs' k i j) := by
    intro k
    induction k with
    | zero => intro _; exact h0
    | succ k ih =>
      intro hk
      exact (step_SA (h1 k (by omega)) (h2 k (by omega)) (by omega) (by omega) (ih (by omega)) (by
        have := hp k (by omega)
        rwa [last h1 k k (by omega)] at this)).1
  have st := fun k (hk : k < min m n) => step_SA (h1 k hk) (h2 k hk) (by omega) (by omega) (key k hk.le) (by
    have := hp k hk
    rwa [last h1 k k hk] at this)
  refine ⟨key _ le_rfl, fun k hk => (st k hk).2.1, fun k hk => ?_⟩
  rw [last h1 k k hk, last h2 k k hk]
  exact (st k hk).2.2

/-- C96: the two decompositions.  The condition on the pivots is on `get_h` and `get_r` of the first: no pivot is lost in the
reflection (in particular it was not zero), or the sign of this diagonal entry is not changed. -/
theorem C96_factors (hm : 0 < m) (hn : 0 < n) {A A' : Matrix (Fin m) (Fin n) F64} {s : Fin m → ℤˣ} {t : Fin n → ℤˣ} (hA : SignedBy s t A A')
    {x : QR F64} {H R : Matrix (Fin m) (Fin n) F64} (hx : QR.new (ofM A) = .ok x) (hH : x.getH = .ok (ofM H)) (hR : x.getR = .ok (ofM R))
    (hp : ∀ (i : Fin m) (j : Fin n), i.1 = j.1 → s i * t j = 1 ∨ F64.isZero (R i j) ∨ FloatOps.eq (H i j) (-(R i j)) = false) :
    ∃ (x' : QR F64) (H' R' : Matrix (Fin m) (Fin n) F64) (Q Q' : Matrix (Fin m) (Fin m) F64), QR.new (ofM A') = .ok x' ∧
      x'.getH = .ok (ofM H') ∧ x'.getR = .ok (ofM R') ∧ x.getQ = .ok (ofM Q) ∧ x'.getQ = .ok (ofM Q') ∧
      SignedBy s t H H' ∧ SignedBy s t R R' ∧ SignedBy s s Q Q' := by
  obtain ⟨Gs, d, g0, gs, e⟩ := new_rnd hm hn A
  obtain ⟨Gs', d', g0', gs', e'⟩ := new_rnd hm hn A'
  rw [e] at hx
  obtain rfl := Except.ok.inj hx
  rw [getH_rnd _ _ hm hn] at hH
  rw [getR_rnd _ _ hm hn] at hR
  obtain rfl := ofM_inj (Except.ok.inj hH)
  obtain rfl := ofM_inj (Except.ok.inj hR)
  obtain ⟨k1, k2, k3⟩ := steps_SA (s := fun k => if h : k < m then s ⟨k, h⟩ else 1) (t := fun k => if h : k < n then t ⟨k, h⟩ else 1) gs gs'
    (by
      intro i j hi hj
      rw [g0, g0', ext_eq A hi hj, ext_eq A' hi hj]
      beta_reduce
      rw [dif_pos hi, dif_pos hj]
      exact signed_iff.1 (hA _ _)) (by
      intro k hk
      have h1 : k < m := by omega
      have h2 : k < n := by omega
      have := hp ⟨k, h1⟩ ⟨k, h2⟩ rfl
      unfold rmat hmat at this
      simp only [Matrix.of_apply, lt_irrefl, le_refl, if_true, if_false] at this
      beta_reduce
      rw [dif_pos h1, dif_pos h2]
      exact this)
  obtain ⟨Zs, z1, z2, z3⟩ := getQ_rnd (m := m) (n := n) (Gs (min m n)) d hm
  obtain ⟨Zs', z1', z2', z3'⟩ := getQ_rnd (m := m) (n := n) (Gs' (min m n)) d' hm
  refine ⟨_, _, _, _, _, e', getH_rnd _ _ hm hn, getR_rnd _ _ hm hn, z3, z3', fun i j => signed_iff.2 ?_, fun i j => signed_iff.2 ?_,
    fun i j => signed_iff.2 ?_⟩
  · have := k1 i j i.2 j.2
    beta_reduce at this
    rw [dif_pos i.2, dif_pos j.2] at this
    unfold hmat
    simp only [Matrix.of_apply]
    split
    · exact this
    · exact SA.zero _ rfl rfl
  · unfold rmat
    simp only [Matrix.of_apply]
    have h1 := k1 i j i.2 j.2
    beta_reduce at h1
    rw [dif_pos i.2, dif_pos j.2] at h1
    split
    · exact h1
    · split
      · rename_i hij
        have h2 := k2 j (by have := i.2; have := j.2; omega)
        beta_reduce at h2
        rw [dif_pos (show j.1 < m by have := i.2; omega), dif_pos j.2] at h2
        have : i = ⟨j.1, by have := i.2; omega⟩ := Fin.ext hij
        rw [this]
        exact h2
      · exact SA.zero _ rfl rfl
  · have key : ∀ c, c ≤ min m n → ∀ i j (hi : i < m) (hj : j < m), SA (s ⟨i, hi⟩ * s ⟨j, hj⟩) (Zs (min m n - c) i j) (Zs' (min m n - c) i j) := by
      intro c
      induction c with
      | zero =>
        intro _ i j hi hj
        rw [Nat.sub_zero, z1, z1']
        split
        · rename_i h
          obtain ⟨rfl, -⟩ := h
          rw [sq1]; exact SA.refl _
        · exact SA.zero _ rfl rfl
      | succ c ih =>
        intro hc i j hi hj
        have hk : min m n - (c + 1) < min m n := by omega
        have ih := ih (by omega)
        rw [show min m n - c = (min m n - (c + 1)) + 1 by omega] at ih
        obtain ⟨k, hkk⟩ : ∃ k, k = min m n - (c + 1) := ⟨_, rfl⟩
        rw [← hkk] at ih hk ⊢
        have b1 := z2 k hk
        have b2 := z2' k hk
        have hv : ∀ r (hr : r < m), SA (s ⟨r, hr⟩ * t ⟨k, by omega⟩) (Gs (min m n) r k) (Gs' (min m n) r k) := by
          intro r hr
          have := k1 r k hr (by omega)
          beta_reduce at this
          rwa [dif_pos hr, dif_pos (show k < n by omega)] at this
        have hvk := hv k (by omega)
        by_cases h0 : F64.isZero (Gs (min m n) k k)
        · rw [b1.skip (eq_zero_iff.2 h0), b2.skip (eq_zero_iff.2 (hvk.isZero.2 h0))]
          exact ih i j hi hj
        · by_cases hjk : j < k
          · rw [b1.left i j hjk, b2.left i j hjk]; exact ih i j hi hj
          · rw [b1.app (not_zero.2 h0) i j hi (by omega) hj, b2.app (not_zero.2 fun h => h0 (hvk.isZero.1 h)) i j hi (by omega) hj]
            have hb := (k3 k hk).resolve_left h0
            have := app_SA (m := m) (k := k) (r := i) (v := fun r => Gs (min m n) r k) (v' := fun r => Gs' (min m n) r k)
              (x := fun r => Zs (k + 1) r j) (x' := fun r => Zs' (k + 1) r j) (e := fun r => if h : r < m then s ⟨r, h⟩ else 1)
              (f := t ⟨k, by omega⟩) (g := s ⟨j, hj⟩) (by omega)
              (fun r _ hr => by beta_reduce; rw [dif_pos hr]; exact hv r hr)
              (fun r hr => by beta_reduce; rw [dif_pos hr]; exact ih r j hr hj) hb hi
            beta_reduce at this
            rwa [dif_pos hi] at this
    have := key (min m n) le_rfl i j i.2 j.2
    rwa [Nat.sub_self] at this

/-- C96: products, with the signs of the inner index cancelling. -/
theorem C96_mul {q : Nat} (hm : 0 < m) (hq : 0 < q) {A A' : Matrix (Fin m) (Fin q) F64} {B B' : Matrix (Fin q) (Fin n) F64} {s : Fin m → ℤˣ}
    {g : Fin q → ℤˣ} {t : Fin n → ℤˣ} (hA : SignedBy s g A A') (hB : SignedBy g t B B') :
    ∃ C C' : Matrix (Fin m) (Fin n) F64, (ofM A).mul (ofM B) = .ok (ofM C) ∧ (ofM A').mul (ofM B') = .ok (ofM C') ∧ SignedBy s t C C' := by
  refine ⟨_, _, C10_mul_general hm hq A B, C10_mul_general hm hq A' B', fun i j => signed_iff.2 ?_⟩
  simp only [Matrix.of_apply]
  have : ∀ (l : List (Fin q)) (z z' : F64), SA (s i * t j) z z' →
      SA (s i * t j) (l.foldl (fun s k => s + A i k * B k j) z) (l.foldl (fun s k => s + A' i k * B' k j) z') := by
    intro l
    induction l with
    | nil => intro z z' h; exact h
    | cons k l ih =>
      intro z z' h
      refine ih _ _ (h.add ?_)
      have := (signed_iff.1 (hA i k)).mul (signed_iff.1 (hB k j))
      rwa [show s i * g k * (g k * t j) = (g k * g k) * (s i * t j) by ac_rfl, sq1, _root_.one_mul] at this
  exact this _ _ _ (SA.zero _ rfl rfl)

theorem SignedBy.transpose {A A' : Matrix (Fin m) (Fin n) F64} {s : Fin m → ℤˣ} {t : Fin n → ℤˣ} (h : SignedBy s t A A') :
    SignedBy t s A.transpose A'.transpose := fun i j => by
  have := h j i
  rwa [_root_.mul_comm] at this

/-- C96: the pseudoinverse, where it exists: rows and columns exchange their roles; otherwise both calls panic in the same way. -/
theorem C96_pinverse (hm : 0 < m) (hn : 0 < n) {A A' : Matrix (Fin m) (Fin n) F64} {s : Fin m → ℤˣ} {t : Fin n → ℤˣ} (hA : SignedBy s t A A')
    {x : QR F64} {H R : Matrix (Fin m) (Fin n) F64} (hx : QR.new (ofM A) = .ok x) (hH : x.getH = .ok (ofM H)) (hR : x.getR = .ok (ofM R))
    (hp : ∀ (i : Fin m) (j : Fin n), i.1 = j.1 → s i * t j = 1 ∨ F64.isZero (R i j) ∨ FloatOps.eq (H i j) (-(R i j)) = false) :
    (ofM A).pinverse = .error .unwrap ∧ (ofM A').pinverse = .error .unwrap ∨
    ∃ P P' : Matrix (Fin n) (Fin m) F64, (ofM A).pinverse = .ok (ofM P) ∧ (ofM A').pinverse = .ok (ofM P') ∧ SignedBy t s P P' := by
  obtain ⟨x', H', R', Q, Q', e', -, er', -, -, -, hR', -⟩ := C96_factors hm hn hA hx hH hR hp
  obtain ⟨C, C', c1, c2, c3⟩ := C96_mul hn hm hR'.transpose hR'
  have e1 : (ofM A).pinverse = (ofM C).inverse >>= fun i => unwrap i >>= fun i => (ofM A).t >>= fun a => i.mul a := by
    unfold Mat.pinverse
    rw [hx, ok_bind, hR, ok_bind, C12_transpose hm, ok_bind, c1, ok_bind]
  have e2 : (ofM A').pinverse = (ofM C').inverse >>= fun i => unwrap i >>= fun i => (ofM A').t >>= fun a => i.mul a := by
    unfold Mat.pinverse
    rw [e', ok_bind, er', ok_bind, C12_transpose hm, ok_bind, c2, ok_bind]
  rw [e1, e2, C12_transpose hm, C12_transpose hm]
  rcases C94_inverse hn c3 with ⟨i1, i2⟩ | ⟨X, X', i1, i2, i3⟩
  · left
    rw [i1, i2]
    exact ⟨rfl, rfl⟩
  · right
    obtain ⟨P, P', p1, p2, p3⟩ := C96_mul hn hn i3 hA.transpose
    refine ⟨P, P', ?_, ?_, p3⟩
    · rw [i1]; exact p1
    · rw [i2]; exact p2

/-- C96: the signs of zeros in the input only matter for the signs of zeros in the output, for every matrix. -/
theorem C96_zeros (hm : 0 < m) (hn : 0 < n) {A A' : Matrix (Fin m) (Fin n) F64} (hA : ∀ i j, A' i j = A i j ∨ F64.isZero (A i j) ∧ F64.isZero (A' i j)) :
    ∃ (x x' : QR F64) (H H' R R' : Matrix (Fin m) (Fin n) F64) (Q Q' : Matrix (Fin m) (Fin m) F64),
      QR.new (ofM A) = .ok x ∧ x.getH = .ok (ofM H) ∧ x.getR = .ok (ofM R) ∧ x.getQ = .ok (ofM Q) ∧
      QR.new (ofM A') = .ok x' ∧ x'.getH = .ok (ofM H') ∧ x'.getR = .ok (ofM R') ∧ x'.getQ = .ok (ofM Q') ∧
      (∀ i j, H' i j = H i j ∨ F64.isZero (H i j) ∧ F64.isZero (H' i j)) ∧ (∀ i j, R' i j = R i j ∨ F64.isZero (R i j) ∧ F64.isZero (R' i j)) ∧
      ∀ i j, Q' i j = Q i j ∨ F64.isZero (Q i j) ∧ F64.isZero (Q' i j) := by
  obtain ⟨Gs, d, -, -, e⟩ := new_rnd hm hn A
  have h := C96_factors hm hn (s := fun _ => 1) (t := fun _ => 1) (A := A) (A' := A') (fun i j => hA i j) e (getH_rnd _ _ hm hn) (getR_rnd _ _ hm hn)
    (fun _ _ _ => Or.inl rfl)
  obtain ⟨x', H', R', Q, Q', h1, h2, h3, h4, h5, h6, h7, h8⟩ := h
  exact ⟨_, x', _, H', _, R', Q, Q', e, getH_rnd _ _ hm hn, getR_rnd _ _ hm hn, h4, h1, h2, h3, h5, h6, h7, h8⟩

/-- The condition on the pivots is met by `3, 5; 4, 10`, so for any change of signs; row 2 and column 1 changed: -/
example : (∃ x : QR F64, QR.new (ofM !![dec 3 0, dec 5 0; dec 4 0, dec 10 0]) = .ok x ∧ x.getH = .ok (ofM !![dec 8 0, 0; dec 4 0, dec 4 0]) ∧
      x.getR = .ok (ofM !![dec (-5) 0, dec (-11) 0; 0, dec (-2) 0])) ∧
    (∀ i j : Fin 2, i.1 = j.1 → FloatOps.eq (!![dec 8 0, 0; dec 4 0, dec 4 0] i j) (-(!![dec (-5) 0, dec (-11) 0; 0, dec (-2) 0] i j)) = false) ∧
    (QR.new (ofM !![dec (-3) 0, dec 5 0; dec 4 0, dec (-10) 0]) >>= fun x => x.getR) = .ok (ofM !![dec 5 0, dec (-11) 0; 0, dec 2 0]) := by
  refine ⟨⟨⟨ofM !![dec 8 0, dec (-11) 0; dec 4 0, dec 4 0], [dec (-5) 0, dec (-2) 0]⟩, by decide +kernel, by decide +kernel, by decide +kernel⟩, ?_,
    by decide +kernel⟩
  intro i j; fin_cases i <;> fin_cases j <;> decide +kernel

/-- With a zero pivot the claim fails: changing the sign of the column `0, 1` does not change `R`. -/
theorem C96_zero_pivot : SignedBy (fun _ : Fin 2 => 1) (fun _ : Fin 1 => -1) !![dec 0 0; dec 1 0] !![dec 0 0; dec (-1) 0] ∧
    (QR.new (ofM !![dec 0 0; dec 1 0]) >>= fun x => x.getR) = .ok (ofM !![dec 1 0; 0]) ∧
    (QR.new (ofM !![dec 0 0; dec (-1) 0]) >>= fun x => x.getR) = .ok (ofM !![dec 1 0; 0]) := by
  refine ⟨?_, by decide +kernel, by decide +kernel⟩
  intro i j
  fin_cases i <;> fin_cases j
  · exact Or.inr ⟨eq_zero_iff.1 (by decide +kernel), eq_zero_iff.1 (by decide +kernel)⟩
  · left; decide +kernel

end LA.Props
