import Verif.Proofs.StdEigRed

/-! # `tred2` in rounded arithmetic: accumulation of the transformations -/

set_option linter.unusedSectionVars false

namespace LA
open Finset Matrix
namespace Std
open Sfp SVD
open Eigen (Dev tredScale tredSymv tredQ tredRank2 tredZero tredHouse tredStep tredApply tredAcc tred2 vhi tab Hm Wm trid)

variable {α : Type} [Zero α] [One α] [Add α] [Sub α] [Neg α] [Mul α] [FloatOps α] [Sfp α]

theorem tredApply_post {n i j : Nat} {d v : Buf α} {f : Nat → α} {G : Nat → Nat → α} (hd : Full d n f) (hv : FullG v n n G)
    (hi : i + 1 < n) (hj : j ≤ i) :
    Post (tredApply n i j d v) fun r => FullG r n n (fun a b => if b = j then
      (if a < i + 1 then G a j - facc (· + ·) 0 (fun k => G k (i + 1) * G k j) (i + 1) * f a else G a j) else G a b) := by
  unfold tredApply
  have hsum : loop 0 (i + 1) (0 : α) (fun k g => do return g + (← rd v (k * n + (i + 1))) * (← rd v (k * n + j))) =
      .ok (facc (· + ·) 0 (fun k => G k (i + 1) * G k j) (i + 1)) :=
    loop_facc (fun k s hk => by
      rw [hv.rd (i := k) (j := i + 1) (by omega) (by omega), ok_bind, hv.rd (i := k) (j := j) (by omega) (by omega), ok_bind]; rfl)
  rw [hsum, ok_bind]
  set g := facc (· + ·) 0 (fun k => G k (i + 1) * G k j) (i + 1)
  refine (loop_post (lo := 0) (hi := i + 1) (fun c v => FullG v n n (fun a b => if b = j then
      (if a < c then G a j - g * f a else G a j) else G a b)) (by omega) (hv.congr fun a b _ _ => by
        by_cases h : b = j
        · rw [if_pos h, if_neg (by omega), h]
        · rw [if_neg h]) ?_)
  intro c v' _ hc h1
  rw [h1.rd (i := c) (j := j) (by omega) (by omega), ok_bind, hd.rd (i := c) (by omega), ok_bind]
  obtain ⟨v2, hv2, hg2⟩ := h1.wr (i := c) (j := j) (by omega) (by omega) (G c j - g * f c)
  rw [if_pos rfl, if_neg (by omega), hv2]
  refine Post.ok (hg2.congr fun a b _ _ => ?_)
  simp only [upd]
  clear hd hv h1 hg2 hsum
  grind

/-- The computed product of the first `c` reflections. -/
def Wc (F : Nat → Nat → α) (f : Nat → α) : Nat → Nat → Nat → α
  | 0 => fun a b => if a = b then 1 else 0
  | c + 1 => fun a b => if a < c + 1 ∧ b < c + 1 then
      (if FloatOps.eq (f (c + 1)) 0 then Wc F f c a b else
        Wc F f c a b - facc (· + ·) 0 (fun k => F k (c + 1) * Wc F f c k b) (c + 1) * dv (F a (c + 1)) (f (c + 1)))
      else if a = b then 1 else 0

theorem Wc_out (F : Nat → Nat → α) (f : Nat → α) (c : Nat) {a b : Nat} (h : c ≤ a ∨ c ≤ b) : Wc F f c a b = if a = b then 1 else 0 := by
  cases c with
  | zero => rfl
  | succ c => rw [Wc]; beta_reduce; rw [if_neg (show ¬ (a < c + 1 ∧ b < c + 1) by omega)]

/-- The table before step `c` of the accumulation. -/
def accC (n c : Nat) (F : Nat → Nat → α) (f : Nat → α) : Nat → Nat → α := fun a b =>
  if a = n - 1 ∧ b < c then F b b else if a < c ∧ b < c then Wc F f c a b else if b = c ∧ a < c then 0 else F a b

theorem tredAcc_post {n i : Nat} {d v : Buf α} {f f0 : Nat → α} {F : Nat → Nat → α} (hd : Full d n f)
    (hv : FullG v n n (accC n i F f0)) (hi : i + 1 < n) (hz : ∀ a b, a < n → 0 < a → b < a → F a b = 0)
    (hf : ∀ k, i < k → f k = f0 k) :
    Post (tredAcc n i d v) fun r => (∃ f', Full r.1 n f' ∧ ∀ k, i + 1 < k → f' k = f0 k) ∧
      FullG r.2 n n (accC n (i + 1) F f0) := by
  unfold tredAcc
  have hu1 : usub n 1 = .ok (n - 1) := usub_ok (by omega)
  rw [hu1, ok_bind, hv.rd (i := i) (j := i) (by omega) (by omega), ok_bind]
  obtain ⟨v1, hv1, hg1⟩ := hv.wr (i := n - 1) (j := i) (by omega) (by omega) (accC n i F f0 i i)
  obtain ⟨v2, hv2, hg2⟩ := hg1.wr (i := i) (j := i) (by omega) (by omega) 1
  rw [hv1, ok_bind, hv2, ok_bind, hd.rd (i := i + 1) (by omega), ok_bind, hf _ (by omega)]
  have e0 : accC n i F f0 i i = F i i := by
    simp only [accC]
    rw [if_neg (by omega), if_neg (by omega), if_neg (by omega)]
  rw [e0] at hg2
  set G : Nat → Nat → α := fun a b => if a = n - 1 ∧ b < i + 1 then F b b else if a < i + 1 ∧ b < i + 1 then Wc F f0 i a b
    else F a b with hG
  have hg3 : FullG v2 n n G := by
    refine hg2.congr fun a b ha hb => ?_
    simp only [hG, upd]
    by_cases h1 : a = i ∧ b = i
    · rw [if_pos h1, if_neg (by omega), if_pos (by omega), Wc_out F f0 i (by omega), if_pos (by omega)]
    · rw [if_neg h1]
      by_cases h2 : a = n - 1 ∧ b = i
      · rw [if_pos h2, if_pos (by omega), h2.2]
      · rw [if_neg h2]
        simp only [accC]
        by_cases h3 : a = n - 1 ∧ b < i
        · rw [if_pos h3, if_pos (by omega)]
        · rw [if_neg h3, if_neg (show ¬ (a = n - 1 ∧ b < i + 1) by omega)]
          by_cases h4 : a < i ∧ b < i
          · rw [if_pos h4, if_pos (by omega)]
          · rw [if_neg h4]
            by_cases h5 : b = i ∧ a < i
            · rw [if_pos h5, if_pos (by omega), Wc_out F f0 i (by omega), if_neg (by omega)]
            · rw [if_neg h5]
              by_cases h6 : a < i + 1 ∧ b < i + 1
              · rw [if_pos h6, Wc_out F f0 i (by omega), if_neg (by omega), hz a b ha (by omega) (by omega)]
              · rw [if_neg h6]
  have hmid : Post (do
      if !(FloatOps.eq (f0 (i + 1)) 0) then
        let d ← loop 0 (i + 1) d fun k d => do wr d k (← RDiv.rdiv (← rd v2 (k * n + (i + 1))) (f0 (i + 1)))
        let v ← loop 0 (i + 1) v2 fun j v => tredApply n i j d v
        return (d, v)
      else return (d, v2) : R (Buf α × Buf α)) fun r => (∃ f', Full r.1 n f' ∧ ∀ k, i + 1 < k → f' k = f0 k) ∧
        FullG r.2 n n (fun a b => if a = n - 1 ∧ b < i + 1 then F b b else if a < i + 1 ∧ b < i + 1 then Wc F f0 (i + 1) a b
    else F a b) := by
    have hW : ∀ a b, a < i + 1 → b < i + 1 → Wc F f0 (i + 1) a b = if FloatOps.eq (f0 (i + 1)) 0 then Wc F f0 i a b else Wc F f0 i a b -
      facc (· + ·) 0 (fun k => F k (i + 1) * Wc F f0 i k b) (i + 1) * dv (F a (i + 1)) (f0 (i + 1)) := by
      intro a b h1 h2
      rw [Wc]
      beta_reduce
      rw [if_pos (show a < i + 1 ∧ b < i + 1 from ⟨h1, h2⟩)]
    by_cases h0 : FloatOps.eq (f0 (i + 1)) 0 = true
    · rw [if_neg (by simpa using h0)]
      refine Post.ok ⟨⟨f, hd, fun k hk => hf k (by omega)⟩, hg3.congr fun a b ha hb => ?_⟩
      simp only [hG]
      by_cases h1 : a = n - 1 ∧ b < i + 1
      · rw [if_pos h1, if_pos h1]
      · rw [if_neg h1, if_neg h1]
        by_cases h2 : a < i + 1 ∧ b < i + 1
        · rw [if_pos h2, if_pos h2, hW a b h2.1 h2.2, if_pos h0]
        · rw [if_neg h2, if_neg h2]
    · rw [if_pos (by simpa using h0)]
      have hGc : ∀ k, k < i + 1 → G k (i + 1) = F k (i + 1) := by
        intro k hk
        simp only [hG]
        rw [if_neg (by omega), if_neg (by omega)]
      obtain ⟨d2, hr2, hd2⟩ := loop_part (lo := 0) (hi := i + 1) (body := fun k d => do
          wr d k (← RDiv.rdiv (← rd v2 (k * n + (i + 1))) (f0 (i + 1)))) (fun k => dv (F k (i + 1)) (f0 (i + 1))) hd.part
        (fun k d' _ hk _ => ⟨_, by rw [hg3.rd (i := k) (j := i + 1) (by omega) (by omega), ok_bind, (dv_ok _ (fun h => h0 (eq_zero_iff.2 h))).1, ok_bind], by rw [hGc k hk]⟩)
        (by omega)
      rw [hr2, ok_bind]
      have hd3 := hd2.full (fun _ _ => Or.inl trivial)
      obtain ⟨v3, hr3, hg4⟩ := loopG_cols (lo := 0) (hi := i + 1) (m := n) (n := n) (f := fun j v => tredApply n i j d2 v)
        (fun a b => if a < i + 1 then G a b - facc (· + ·) 0 (fun k => G k (i + 1) * G k b) (i + 1) * dv (F a (i + 1)) (f0 (i + 1)) else G a b) hg3
        (by
          intro j d' G' _ hj hG' heq
          refine (tredApply_post hd3 hG' hi (by omega)).mono fun r hr => hr.congr fun a b _ _ => ?_
          by_cases e : b = j
          · rw [if_pos e, if_pos e, heq a j (by omega)]
            by_cases h1 : a < i + 1
            · rw [if_pos h1, if_pos h1, if_pos ⟨by omega, h1⟩]
              congr 2
              exact facc_congr fun k _ => by rw [heq k j (by omega), heq k (i + 1) (by omega)]
            · rw [if_neg h1, if_neg h1]
          · rw [if_neg e, if_neg e])
      rw [hr3, ok_bind]
      refine Post.ok ⟨⟨_, hd3, fun k hk => ?_⟩, hg4.congr fun a b ha hb => ?_⟩
      · rw [if_neg (by omega), hf k (by omega)]
      · by_cases h1 : a = n - 1 ∧ b < i + 1
        · rw [if_pos h1, if_pos ⟨by omega, h1.2⟩, if_neg (by omega)]
          simp only [hG]
          rw [if_pos h1]
        · rw [if_neg h1]
          by_cases h2 : a < i + 1 ∧ b < i + 1
          · rw [if_pos h2, if_pos ⟨by omega, h2.2⟩, if_pos h2.1, hW a b h2.1 h2.2, if_neg h0]
            have hin : ∀ k, k < i + 1 → G k b = Wc F f0 i k b := by
              intro k hk
              simp only [hG]
              rw [if_neg (by omega), if_pos ⟨hk, h2.2⟩]
            rw [hin a h2.1]
            congr 2
            refine facc_congr fun k hk => ?_
            rw [hGc k hk, hin k hk]
          · rw [if_neg h2]
            have e1 : G a b = F a b := by
              simp only [hG]
              rw [if_neg h1, if_neg h2]
            by_cases h3 : b < i + 1
            · rw [if_pos ⟨by omega, h3⟩, if_neg (by omega), e1]
            · rw [if_neg (by omega), e1]
  obtain ⟨⟨d3, v3⟩, hr3, hd3, hg4⟩ := hmid
  dsimp only at hd3 hg4
  erw [hr3]
  rw [ok_bind]
  dsimp only
  obtain ⟨v4, hr4, hg5⟩ := loopG_rows (lo := 0) (hi := i + 1) (f := fun k v => wr v (k * n + (i + 1)) 0)
    (fun a b => if b = i + 1 then 0 else (fun a b => if a = n - 1 ∧ b < i + 1 then F b b else if a < i + 1 ∧ b < i + 1 then Wc F f0 (i + 1) a b
    else F a b) a b) hg4 (by
      intro k d' G' _ hk hG' heq
      obtain ⟨d2, hr, hg⟩ := hG'.wr (i := k) (j := i + 1) (by omega) (by omega) 0
      rw [hr]
      refine Post.ok (hg.congr fun a b _ _ => ?_)
      simp only [upd]
      by_cases e : a = k
      · subst e
        rw [if_pos rfl]
        by_cases e2 : b = i + 1
        · rw [if_pos ⟨rfl, e2⟩, if_pos e2]
        · rw [if_neg (by omega), if_neg e2, heq a b (by omega)]
      · rw [if_neg (by omega), if_neg e])
  rw [hr4, ok_bind]
  refine Post.ok ⟨hd3, hg5.congr fun a b ha hb => ?_⟩
  simp only [accC]
  clear hd hv hz hf hd3 hg4 hg5 hg3 hg2 hg1 e0 hG hr3 hr4
  generalize Wc F f0 (i + 1) = W
  grind


/-- One step of the accumulation. -/
theorem Wc_step {n c : Nat} (hc : c + 1 < n) {F : Nat → Nat → α} {f : Nat → α} {U : Nat → Nat → ℝ} {hs : Nat → ℝ}
    (hu : ∀ t, t < c + 1 → Rt (w α) (n + 6) (val (F t (c + 1))) (U t (c + 1))) (hh0 : Rt (w α) (n + 6) (val (f (c + 1))) (hs (c + 1)))
    (hnn : 0 ≤ hs (c + 1)) (hsq : ∑ t ∈ range (c + 1), U t (c + 1) * U t (c + 1) = 2 * hs (c + 1)) :
    frob (pk n n (tt (Wc F f (c + 1))) - Hm n U hs c * pk n n (tt (Wc F f c))) ≤ 3 * kt α n * frob (pk n n (tt (Wc F f c))) := by
  have hw : 1 ≤ w α := w_one
  have hk := kt_nonneg (α := α) n
  unfold Hm
  set a : Nat → ℝ := fun t => U t (c + 1) with ha
  set h : ℝ := hs (c + 1) with hh
  set W := tt (Wc F f c) with hW
  have hsq' : ∑ t ∈ range (c + 1), aV a t * aV a t = 2 * h := by
    rw [← hsq]
    exact Finset.sum_congr rfl fun t _ => abs_mul_abs_self (a t)
  set v := vhi n (c + 1) (aV a) with hv
  have ho : Orth (LA.hh v h) := Eigen.vhi_orth (by omega) hsq'
  set M : Matrix (Fin n) (Fin n) ℝ := Matrix.of fun r s => |pk n n W r s| with hM
  have hMf : frob M = frob (pk n n W) := frob_abs _
  have hB : frob (kt α n • ((2 : ℝ) • M - LA.hh v h * M)) ≤ 3 * kt α n * frob (pk n n W) := by
    rw [frob_smul, abs_of_nonneg hk]
    have h1 := frob_sub_le ((2 : ℝ) • M) (LA.hh v h * M)
    rw [frob_mul_left _ ho, frob_smul, abs_of_pos (by norm_num : (0 : ℝ) < 2), hMf] at h1
    have := mul_le_mul_of_nonneg_left h1 hk
    linarith
  refine (frob_mono fun r s => ?_).trans hB
  have e1 : (kt α n • ((2 : ℝ) • M - LA.hh v h * M)) r s = kt α n * (|W r s| + (∑ t ∈ range (c + 1), aV a t * |W t s|) * (v r / h)) := by
    rw [Matrix.smul_apply, Matrix.sub_apply, Matrix.smul_apply, hh_mul_apply, smul_eq_mul, smul_eq_mul]
    have e2 : ∑ t, v t * M t s = ∑ t ∈ range (c + 1), aV a t * |W t s| := Eigen.sum_vhi (by omega) (aV a) (fun t => |W t s|)
    rw [e2, show M r s = |W r s| from rfl]
    ring
  have e3 : (LA.hh (vhi n (c + 1) a) h * pk n n W) r s = W r s - (∑ t ∈ range (c + 1), a t * W t s) * (vhi n (c + 1) a r / h) := by
    rw [hh_mul_apply]
    have e2 : ∑ t, vhi n (c + 1) a t * pk n n W t s = ∑ t ∈ range (c + 1), a t * W t s := Eigen.sum_vhi (by omega) a (fun t => W t s)
    rw [e2, show pk n n W r s = W r s from rfl]
    ring
  rw [Matrix.sub_apply, e1, e3, show pk n n (tt (Wc F f (c + 1))) r s = val (Wc F f (c + 1) r s) from rfl]
  have hvn : 0 ≤ v r / h := by
    refine div_nonneg ?_ hnn
    simp only [hv, vhi]
    split
    · exact abs_nonneg _
    · exact le_rfl
  have hnon : 0 ≤ kt α n * (|W r s| + (∑ t ∈ range (c + 1), aV a t * |W t s|) * (v r / h)) :=
    mul_nonneg hk (add_nonneg (abs_nonneg _) (mul_nonneg (Finset.sum_nonneg fun t _ => mul_nonneg (abs_nonneg _) (abs_nonneg _)) hvn))
  by_cases hr : r.1 < c + 1
  · by_cases hs1 : s.1 < c + 1
    · have e4 : Wc F f (c + 1) r s = if FloatOps.eq (f (c + 1)) 0 then Wc F f c r s else
          Wc F f c r s - facc (· + ·) 0 (fun k => F k (c + 1) * Wc F f c k s) (c + 1) * dv (F r (c + 1)) (f (c + 1)) := by
        rw [Wc]
        beta_reduce
        rw [if_pos ⟨hr, hs1⟩]
      by_cases h0 : FloatOps.eq (f (c + 1)) 0 = true
      · have h1 : h = 0 := (hh0.zero_iff hw).1 (eq_zero_iff.1 h0)
        rw [e4, if_pos h0, show W r s = val (Wc F f c r s) from rfl, h1, div_zero, mul_zero, sub_zero, sub_self, abs_zero]
        rw [show W r s = val (Wc F f c r s) from rfl, h1] at hnon
        exact hnon
      · have h1 : h ≠ 0 := fun h1 => h0 (eq_zero_iff.2 ((hh0.zero_iff hw).2 h1))
        have hpos : 0 < h := lt_of_le_of_ne hnn (Ne.symm h1)
        have w1 : Ws (w α) (1 + ((n + 6) + 0) + (c + 1)) (val (facc (· + ·) 0 (fun k => F k (c + 1) * Wc F f c k s) (c + 1)))
            (∑ t ∈ range (c + 1), a t * W t s) (∑ t ∈ range (c + 1), aV a t * |W t s|) :=
          ws_facc (c + 1) fun t ht => ws_mul ((hu t ht).ws hw) ((Rt.refl _).ws hw)
        have w2 := ws_div ((hu r hr).ws hw) hh0 hpos
        have w3 := ws_mul w1 w2
        have w4 := ws_sub (((Rt.refl (val (Wc F f c r s))).ws hw).mono hw (Nat.zero_le _)) w3
        rw [e4, if_neg h0]
        have e5 : vhi n (c + 1) a r = a r := by simp only [vhi]; rw [if_pos hr]
        have e6 : v r = aV a r := by simp only [hv, vhi]; rw [if_pos hr]
        rw [e5, e6]
        exact w4.1.trans (mul_le_mul_of_nonneg_right (pw_kt (by omega)) w4.nonneg)
    · have e4 : Wc F f (c + 1) r s = Wc F f c r s := by rw [Wc_out F f _ (Or.inr (by omega)), Wc_out F f _ (Or.inr (by omega))]
      have e5 : ∑ t ∈ range (c + 1), a t * W t s = 0 := by
        refine Finset.sum_eq_zero fun t ht => ?_
        rw [Finset.mem_range] at ht
        rw [show W t s = val (Wc F f c t s) from rfl, Wc_out F f _ (Or.inr (by omega)), if_neg (by omega), Sfp.zero, mul_zero]
      rw [e4, e5, zero_mul, sub_zero, show W r s = val (Wc F f c r s) from rfl, sub_self, abs_zero]
      exact hnon
  · have e4 : Wc F f (c + 1) r s = Wc F f c r s := by rw [Wc_out F f _ (Or.inl (by omega)), Wc_out F f _ (Or.inl (by omega))]
    have e5 : vhi n (c + 1) a r = 0 := by simp only [vhi]; rw [if_neg hr]
    rw [e4, e5, zero_div, mul_zero, sub_zero, show W r s = val (Wc F f c r s) from rfl, sub_self, abs_zero]
    exact hnon

/-- The computed product is close to the product of the exact reflections. -/
theorem Wc_close {n : Nat} {κ : ℝ} (hκ : 3 * kt α n ≤ κ) {F : Nat → Nat → α} {f : Nat → α} {U : Nat → Nat → ℝ} {hs : Nat → ℝ}
    (hu : ∀ k, 1 ≤ k → k < n → ∀ t, t < k → Rt (w α) (n + 6) (val (F t k)) (U t k))
    (hh0 : ∀ k, 1 ≤ k → k < n → Rt (w α) (n + 6) (val (f k)) (hs k))
    (hnn : ∀ k, 1 ≤ k → k < n → 0 ≤ hs k) (hsq : ∀ k, 1 ≤ k → k < n → ∑ t ∈ range k, U t k * U t k = 2 * hs k) :
    ∀ c, c < n → Orth (Wm n U hs c) ∧ frob (pk n n (tt (Wc F f c)) - Wm n U hs c) ≤ ((1 + κ) ^ c - 1) * Real.sqrt n := by
  have hk0 : 0 ≤ κ := le_trans (by have := kt_nonneg (α := α) n; linarith) hκ
  intro c
  induction c with
  | zero =>
    intro _
    refine ⟨orth_one, ?_⟩
    have : pk n n (tt (Wc F f 0)) = Wm n U hs 0 := by
      ext a b
      show val (Wc F f 0 a b) = (1 : Matrix (Fin n) (Fin n) ℝ) a b
      rw [Wc, Matrix.one_apply]
      beta_reduce
      by_cases h : a = b
      · rw [if_pos (by rw [h]), if_pos h, Sfp.one]
      · rw [if_neg (by simpa [Fin.ext_iff] using h), if_neg h, Sfp.zero]
    rw [this, sub_self, Eigen.frob_zero]
    simp
  | succ c ih =>
    intro hc
    obtain ⟨i1, i2⟩ := ih (by omega)
    have ho : Orth (Hm n U hs c) := Eigen.vhi_orth (by omega) (hsq (c + 1) (by omega) hc)
    refine ⟨ho.mul i1, ?_⟩
    have h1 := Wc_step hc (fun t ht => hu (c + 1) (by omega) hc t ht) (hh0 (c + 1) (by omega) hc) (hnn (c + 1) (by omega) hc) (hsq (c + 1) (by omega) hc)
    have ht : (Hm n U hs c)ᵀ = Hm n U hs c := hh_transpose _ _
    have h2 := side_step (r := c) hk0 i1.transpose ho (U := (pk n n (tt (Wc F f c)))ᵀ) (U' := (pk n n (tt (Wc F f (c + 1))))ᵀ)
      (by rw [← transpose_sub, frob_transpose]; exact i2)
      (by
        have e : (pk n n (tt (Wc F f (c + 1))))ᵀ - (pk n n (tt (Wc F f c)))ᵀ * Hm n U hs c =
            (pk n n (tt (Wc F f (c + 1))) - Hm n U hs c * pk n n (tt (Wc F f c)))ᵀ := by
          rw [transpose_sub, transpose_mul, ht]
        rw [e, frob_transpose, frob_transpose]
        exact h1.trans (mul_le_mul_of_nonneg_right hκ (frob_nonneg _)))
    have e : (pk n n (tt (Wc F f (c + 1))))ᵀ - (Wm n U hs c)ᵀ * Hm n U hs c = (pk n n (tt (Wc F f (c + 1))) - Wm n U hs (c + 1))ᵀ := by
      rw [transpose_sub, Wm, transpose_mul, ht]
    rw [e, frob_transpose] at h2
    exact h2

end Std
end LA
