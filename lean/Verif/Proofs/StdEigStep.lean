import Verif.Proofs.StdEigHouse

/-! # `tred2` in rounded arithmetic: errors of one step of the reduction -/

set_option linter.unusedSectionVars false

namespace LA
open Finset Matrix
namespace Std
open Sfp SVD
open Eigen (Dev tredScale tredSymv tredQ tredRank2 tredZero tredHouse tredStep tredApply tredAcc tred2 vhi tredTab qvec pvec tab TredHV)

variable {α : Type} [Zero α] [One α] [Add α] [Sub α] [Neg α] [Mul α] [FloatOps α] [Sfp α]

/-- The error of one step. -/
noncomputable def kt (α : Type) [Zero α] [One α] [Add α] [Sub α] [Neg α] [Mul α] [FloatOps α] [Sfp α] (n : Nat) : ℝ :=
  w α ^ (8 * n + 46) - 1

theorem kt_nonneg (n : Nat) : 0 ≤ kt α n := sub_nonneg.2 (pw_one w_one _)

theorem pw_kt {k n : Nat} (h : k ≤ 8 * n + 46) : w α ^ k - 1 ≤ kt α n := sub_le_sub_right (pow_le_pow_right₀ w_one h) 1

theorem val_sym (F : Nat → Nat → α) (a b : Nat) : val (sym F a b) = Eigen.sym (tt F) a b := by
  unfold sym Eigen.sym tt
  split <;> rfl

/-- Absolute values of a table. -/
def aT (F : Nat → Nat → ℝ) : Nat → Nat → ℝ := fun a b => |F a b|
/-- Absolute values of a vector. -/
def aV (f : Nat → ℝ) : Nat → ℝ := fun a => |f a|

theorem sym_aT (F : Nat → Nat → ℝ) (a b : Nat) : Eigen.sym (aT F) a b = |Eigen.sym F a b| := by
  unfold Eigen.sym aT
  split <;> rfl

/-- The bound of the second vector. -/
noncomputable def qabs (i : Nat) (F : Nat → Nat → ℝ) (a : Nat → ℝ) (h : ℝ) (k : Nat) : ℝ :=
  pvec i F a h k + (∑ t ∈ range i, pvec i F a h t * a t) / (h + h) * a k

section
variable {K i : Nat} {f a : Nat → ℝ} {h η : ℝ} {x : Nat → α} {y z : α} {F : Nat → Nat → α}

theorem HT.pC_ws (H : HT K i f a h η x y z) (k : Nat) :
    Ws (w α) (2 * K + i + 2) (val (dv (pC i F x k) y)) (pvec i (tt F) a h k) (pvec i (aT (tt F)) (aV a) h k) := by
  have hw : 1 ≤ w α := w_one
  have h1 : Ws (w α) (1 + (0 + K) + i) (val (pC i F x k)) (∑ b ∈ range i, Eigen.sym (tt F) k b * a b)
      (∑ b ∈ range i, Eigen.sym (aT (tt F)) k b * aV a b) := by
    refine ws_facc (K := 1 + (0 + K)) i fun b hb => ?_
    refine ws_mul ?_ ((H.u b hb).ws hw)
    rw [val_sym, sym_aT]
    exact (Rt.refl _).ws hw
  exact (ws_div h1 H.h H.pos).mono hw (by omega)

theorem HT.qC_ws (H : HT K i f a h η x y z) {k : Nat} (hk : k < i) :
    Ws (w α) (5 * K + 2 * i + 7) (val (qC i F x y k)) (qvec i (tt F) a h k) (qabs i (aT (tt F)) (aV a) h k) := by
  have hw : 1 ≤ w α := w_one
  have h1 : Ws (w α) (1 + ((2 * K + i + 2) + K) + i) (val (facc (· + ·) 0 (fun t => dv (pC i F x t) y * x t) i))
      (∑ t ∈ range i, pvec i (tt F) a h t * a t) (∑ t ∈ range i, pvec i (aT (tt F)) (aV a) h t * aV a t) :=
    ws_facc (K := 1 + ((2 * K + i + 2) + K)) i fun t ht => ws_mul (H.pC_ws t) ((H.u t ht).ws hw)
  have h2 : Rt (w α) (1 + K) (val (y + y)) (h + h) := (add_rt y y).trans hw (H.h.add hw H.h H.pos.le H.pos.le)
  have h3 := ws_div h1 h2 (by have := H.pos; linarith)
  have h4 := ws_mul h3 ((H.u k hk).ws hw)
  exact (ws_sub ((H.pC_ws (F := F) k).mono hw (by omega)) h4).mono hw (by omega)

/-- Error of the rank-two update. -/
theorem HT.cTab_err {n : Nat} (H : HT (i + 6) i f a h η x y z) (hi : i ≤ n) {r c : Nat} (hc : c ≤ r) (hr : r < i) :
    |val (cTab i F x y r c) - tredTab i (tt F) a h r c| ≤ kt α n * (|tt F r c| +
      (aV a c * qabs i (aT (tt F)) (aV a) h r + qabs i (aT (tt F)) (aV a) h c * aV a r)) := by
  have hw : 1 ≤ w α := w_one
  have h1 := ws_mul ((H.u c (by omega)).ws hw) (H.qC_ws (F := F) hr)
  have h2 := ws_mul (H.qC_ws (F := F) (show c < i by omega)) ((H.u r hr).ws hw)
  have h3 := ws_add h1 (h2.mono hw (by omega))
  have h4 := ws_sub (((Rt.refl (val (F r c))).ws hw).mono hw (Nat.zero_le _)) h3
  unfold cTab
  rw [if_pos ⟨hc, hr⟩, Eigen.tredTab_lo hc hr]
  refine h4.1.trans (mul_le_mul_of_nonneg_right (pw_kt (by omega)) h4.nonneg)

end

/-- Both factors and all their terms taken with positive sign. -/
theorem hh_bound {N : Nat} {v : Fin N → ℝ} {c : ℝ} {M : Matrix (Fin N) (Fin N) ℝ} (hM : Mᵀ = M) (ho : Orth (hh v c)) {p : Fin N → ℝ}
    (hp : ∀ a, p a = (∑ t, v t * M a t) / c) {κ : ℝ} (hκ : κ = (∑ t, p t * v t) / (c + c)) :
    frob (Matrix.of fun a b => M a b + (v a * (p b + κ * v b) + (p a + κ * v a) * v b)) ≤ 9 * frob M := by
  have hs : ∀ a b, M a b = M b a := fun a b => by rw [← transpose_apply M, hM]
  have e : (Matrix.of fun a b => M a b + (v a * (p b + κ * v b) + (p a + κ * v a) * v b)) =
      hh v c * M * hh v c + ((2 : ℝ) • (M - hh v c * M) + (2 : ℝ) • (M - M * hh v c)) := by
    ext a b
    rw [Matrix.of_apply, Matrix.add_apply, Matrix.add_apply, Matrix.smul_apply, Matrix.smul_apply, Matrix.sub_apply, Matrix.sub_apply,
      Eigen.hh_both v c M hM a b p hp, mul_hh_apply, hh_mul_apply, ← hκ]
    have h1 : -(∑ t, v t * M t b) / c = -p b := by
      rw [hp, neg_div]
      congr 2
      exact Finset.sum_congr rfl fun t _ => by rw [hs t b]
    have h2 : -(v b) / c * ∑ t, v t * M a t = -(v b) * p a := by rw [hp]; ring
    rw [h1, h2, smul_eq_mul, smul_eq_mul]
    ring
  rw [e]
  have h1 : frob (hh v c * M * hh v c) = frob M := by rw [frob_mul_orth _ ho, frob_mul_left _ ho]
  have h2 := frob_sub_le M (hh v c * M)
  rw [frob_mul_left _ ho] at h2
  have h3 := frob_sub_le M (M * hh v c)
  rw [frob_mul_orth _ ho] at h3
  have h4 := frob_add_le (hh v c * M * hh v c) ((2 : ℝ) • (M - hh v c * M) + (2 : ℝ) • (M - M * hh v c))
  have h5 := frob_add_le ((2 : ℝ) • (M - hh v c * M)) ((2 : ℝ) • (M - M * hh v c))
  rw [frob_smul, frob_smul, abs_of_pos (by norm_num : (0 : ℝ) < 2)] at h5
  linarith

theorem frob_abs {m n : Nat} (M : Matrix (Fin m) (Fin n) ℝ) : frob (Matrix.of fun a b => |M a b|) = frob M := by
  unfold frob
  congr 1
  exact Finset.sum_congr rfl fun i _ => Finset.sum_congr rfl fun j _ => sq_abs _

theorem tab_aT (i : Nat) (F : Nat → Nat → ℝ) (ε : Nat → ℝ) (a b : Nat) : tab i (aT F) (aV ε) a b = |tab i F ε a b| := by
  unfold tab
  rw [sym_aT]
  split
  · rfl
  · split
    · rfl
    · split
      · rfl
      · split
        · rfl
        · exact abs_zero.symm

/-- The table after a step, with rounding errors, compared with both reflections applied exactly. -/
theorem tab_close {n i : Nat} (hi : i < n) (hi0 : 0 < i) {a ε : Nat → ℝ} {h η z : ℝ} {F F' : Nat → Nat → ℝ} {κ : ℝ} (hκ : 0 ≤ κ)
    (hh0 : 0 ≤ h) (H : TredHV i F a h η) (hlo : ∀ r c, c ≤ r → r < i → |F' r c - tredTab i F a h r c| ≤ κ * (|F r c| +
      (aV a c * qabs i (aT F) (aV a) h r + qabs i (aT F) (aV a) h c * aV a r)))
    (hhi : ∀ r, i ≤ r → F' r r = F r r) (hz : |z - η| ≤ κ * |η|) :
    frob (pk n n (tab (i - 1) F' (fun k => if k = i then z else ε k)) -
      hh (vhi n i a) h * pk n n (tab i F ε) * hh (vhi n i a) h) ≤ 10 * κ * frob (pk n n (tab i F ε)) := by
  rw [← Eigen.tab_step hi hi0 H]
  set M := pk n n (tab i (aT F) (aV ε)) with hM
  set v := vhi n i (aV a) with hv
  have hsq : ∑ t ∈ range i, aV a t * aV a t = 2 * h := by
    rw [← H.sq]
    exact Finset.sum_congr rfl fun t _ => abs_mul_abs_self (a t)
  have ho : Orth (hh v h) := Eigen.vhi_orth hi.le hsq
  have hX : frob (pk n n (tab (i - 1) (tredTab i F a h) (fun k => if k = i then η else ε k))) = frob (pk n n (tab i F ε)) := by
    rw [Eigen.tab_step hi hi0 H, frob_mul_orth _ (Eigen.vhi_orth hi.le H.sq), frob_mul_left _ (Eigen.vhi_orth hi.le H.sq)]
  have hMf : frob M = frob (pk n n (tab i F ε)) := by
    rw [← frob_abs (pk n n (tab i F ε))]
    congr 1
    ext r c
    exact tab_aT i F ε r c
  set X' := tab (i - 1) (tredTab i F a h) (fun k => if k = i then η else ε k) with hX'
  set p : Fin n → ℝ := fun r => (∑ t, v t * M r t) / h with hp
  set kk : ℝ := (∑ t, p t * v t) / (h + h) with hkk
  have hb := hh_bound (v := v) (c := h) (Eigen.pk_tab_symm n i (aT F) (aV ε)) ho (p := p) (fun _ => rfl) hkk
  rw [← hM] at hb
  have hvn : ∀ r, 0 ≤ v r := fun r => by
    simp only [hv, vhi]
    split
    · exact abs_nonneg _
    · exact le_rfl
  have hMn : ∀ r c, 0 ≤ M r c := fun r c => by
    show 0 ≤ tab i (aT F) (aV ε) r c
    rw [tab_aT]; exact abs_nonneg _
  have hpn : ∀ r, 0 ≤ p r := fun r => div_nonneg (Finset.sum_nonneg fun t _ => mul_nonneg (hvn t) (hMn r t)) hh0
  have hkn : 0 ≤ kk := div_nonneg (Finset.sum_nonneg fun t _ => mul_nonneg (hpn t) (hvn t)) (by linarith)
  have hpv : ∀ r : Fin n, r.1 < i → p r = pvec i (aT F) (aV a) h r := by
    intro r hr
    simp only [hp, pvec]
    congr 1
    have : ∑ t, v t * M r t = ∑ t ∈ range i, aV a t * tab i (aT F) (aV ε) r t := Eigen.sum_vhi hi.le (aV a) (fun t => tab i (aT F) (aV ε) r t)
    rw [this]
    refine Finset.sum_congr rfl fun t ht => ?_
    rw [Finset.mem_range] at ht
    simp only [tab]
    rw [if_pos (by omega), mul_comm]
  have hK : kk = (∑ t ∈ range i, pvec i (aT F) (aV a) h t * aV a t) / (h + h) := by
    rw [hkk]
    congr 1
    have := Eigen.sum_vhi hi.le (aV a) (fun t => pvec i (aT F) (aV a) h t)
    rw [Finset.sum_congr rfl fun t _ => mul_comm (pvec i (aT F) (aV a) h t) (aV a t), ← this]
    refine Finset.sum_congr rfl fun t _ => ?_
    by_cases h3 : t.1 < i
    · rw [hpv t h3, mul_comm]
    · have : v t = 0 := by simp only [hv, vhi]; rw [if_neg h3]
      rw [this, show vhi n i (aV a) t = 0 from this]; ring
  set B : Matrix (Fin n) (Fin n) ℝ := Matrix.of fun a b => M a b + (v a * (p b + kk * v b) + (p a + kk * v a) * v b) with hB
  have hBn : ∀ r c, 0 ≤ B r c := fun r c => by
    simp only [hB, Matrix.of_apply]
    have := hMn r c
    have := mul_nonneg (hvn r) (add_nonneg (hpn c) (mul_nonneg hkn (hvn c)))
    have := mul_nonneg (add_nonneg (hpn r) (mul_nonneg hkn (hvn r))) (hvn c)
    linarith
  have hBs : ∀ r c, B r c = B c r := fun r c => by
    simp only [hB, Matrix.of_apply]
    rw [show M r c = M c r from Eigen.tab_comm i (aT F) (aV ε) r c]
    ring
  have hBe : ∀ r c : Fin n, c.1 ≤ r.1 → r.1 < i → B r c = |F r c| +
      (aV a c * qabs i (aT F) (aV a) h r + qabs i (aT F) (aV a) h c * aV a r) := by
    intro r c h1 h2
    simp only [hB, Matrix.of_apply]
    have e1 : M r c = |F r c| := by
      show tab i (aT F) (aV ε) r c = _
      rw [Eigen.tab_lo h1 (by omega)]; rfl
    have e2 : ∀ t : Fin n, t.1 < i → v t = aV a t := fun t ht => by simp only [hv, vhi]; rw [if_pos ht]
    rw [e1, e2 r h2, e2 c (by omega), hpv r h2, hpv c (by omega), hK]
    simp only [qabs]
    ring
  -- componentwise
  have hcomp : ∀ r c : Fin n, |(pk n n (tab (i - 1) F' (fun k => if k = i then z else ε k)) - pk n n X') r c| ≤
      (κ • (B + Matrix.of fun a b => |pk n n X' a b|)) r c := by
    have key : ∀ r c : Fin n, c.1 ≤ r.1 → |tab (i - 1) F' (fun k => if k = i then z else ε k) r c - X' r c| ≤ κ * (B r c + |X' r c|) := by
      intro r c h1
      have h0 : 0 ≤ κ * (B r c + |X' r c|) := mul_nonneg hκ (add_nonneg (hBn r c) (abs_nonneg _))
      by_cases h2 : r.1 < i
      · rw [Eigen.tab_lo h1 (by omega), hX', Eigen.tab_lo h1 (by omega)]
        refine (hlo r c h1 h2).trans (mul_le_mul_of_nonneg_left ?_ hκ)
        rw [hBe r c h1 h2]
        linarith [abs_nonneg (tredTab i F a h r c)]
      · by_cases h3 : r.1 = c.1
        · have e1 : tab (i - 1) F' (fun k => if k = i then z else ε k) r c = F r r := by
            rw [← h3, Eigen.tab_dg (by omega), hhi r (by omega)]
          have e2 : X' r c = F r r := by
            rw [hX', ← h3, Eigen.tab_dg (by omega), Eigen.tredTab_hi h2 h2]
          rw [e1, e2, sub_self, abs_zero, ← e2]
          exact h0
        · by_cases h4 : r.1 = c.1 + 1
          · rw [Eigen.tab_sub h4 (by omega), hX', Eigen.tab_sub h4 (by omega)]
            by_cases h5 : r.1 = i
            · rw [if_pos h5, if_pos h5]
              refine hz.trans (mul_le_mul_of_nonneg_left ?_ hκ)
              linarith [hBn r c]
            · rw [if_neg h5, if_neg h5, sub_self, abs_zero]
              exact mul_nonneg hκ (add_nonneg (hBn r c) (abs_nonneg _))
          · rw [Eigen.tab_far (by omega) (by omega), hX', Eigen.tab_far (by omega) (by omega), sub_self, abs_zero]
            exact mul_nonneg hκ (add_nonneg (hBn r c) le_rfl)
    intro r c
    show |tab (i - 1) F' (fun k => if k = i then z else ε k) r c - X' r c| ≤ κ * (B r c + |X' r c|)
    rcases Nat.le_total c.1 r.1 with h1 | h1
    · exact key r c h1
    · have := key c r h1
      rw [Eigen.tab_comm, hBs c r, show X' c r = X' r c from Eigen.tab_comm _ _ _ _ _] at this
      exact this
  refine (frob_mono hcomp).trans ?_
  rw [frob_smul, abs_of_nonneg hκ]
  have h6 := frob_add_le B (Matrix.of fun a b => |pk n n X' a b|)
  rw [frob_abs, hX] at h6
  rw [hMf] at hb
  have := mul_le_mul_of_nonneg_left (h6.trans (add_le_add hb le_rfl)) hκ
  linarith

end Std
end LA
