import Verif.Proofs.StdChase

/-! # The main loop of `SVD::new` in rounded arithmetic: convergence case and searches -/

set_option linter.unusedSectionVars false

namespace LA
open Finset Matrix
namespace Std
open Sfp SVD

variable {α : Type} [Zero α] [One α] [Add α] [Sub α] [Neg α] [Mul α] [FloatOps α] [Sfp α]

section
variable {m n : Nat} {κ T : ℝ} {A : Matrix (Fin m) (Fin n) ℝ} {r : Nat} {U V M : Nat → Nat → ℝ}

theorem NF.flipV (h : NF m n κ T A r U V M) (k : Nat) : NF m n κ T A r U (flipc V k) (flipc M k) :=
  h.exact orth_one (flipD_orth (k := k)) (Matrix.mul_one _).symm (pk_flipc V) (by
    rw [pk_flipc, transpose_one, Matrix.one_mul])

theorem NF.flipU (h : NF m n κ T A r U V M) (k : Nat) : NF m n κ T A r (flipc U k) V (flipr M k) :=
  h.exact (flipD_orth (k := k)) orth_one (pk_flipc U) (Matrix.mul_one _).symm (by
    rw [pk_flipr, Matrix.mul_one])

theorem NF.turnV (h : NF m n κ T A r U V M) {a b : Nat} (ha : a < n) (hb : b < n) (hab : a ≠ b) {c s : ℝ} (hc : c ^ 2 + s ^ 2 = 1) :
    NF m n κ T A r U (rotc V a b c s) (rotc M a b c s) :=
  h.exact orth_one (giv_orth ha hb hab hc) (Matrix.mul_one _).symm (pk_rotc V ha hb hab c s) (by
    rw [pk_rotc M ha hb hab, transpose_one, Matrix.one_mul])

theorem NF.turnU (h : NF m n κ T A r U V M) {a b : Nat} (ha : a < m) (hb : b < m) (hab : a ≠ b) {c s : ℝ} (hc : c ^ 2 + s ^ 2 = 1) :
    NF m n κ T A r (rotc U a b c s) V (rotr M a b c s) :=
  h.exact (giv_orth ha hb hab hc) orth_one (pk_rotc U ha hb hab c s) (Matrix.mul_one _).symm (by
    rw [pk_rotr M ha hb hab, Matrix.mul_one])

theorem NF.swap {k : Nat} {s e : Nat → ℝ} (h : NF m n κ T A r U V (bid s e)) (hk : k + 1 < n) (hnm : n ≤ m) (h0 : e k = 0)
    (h1 : e (k + 1) = 0) (h2 : ∀ i, i + 1 = k → e i = 0) :
    NF m n κ T A r (swapc U k) (swapc V k) (bid (fun i => if i = k then s (k + 1) else if i = k + 1 then s k else s i) e) := by
  have hR := (((h.turnV (a := k) (b := k + 1) (by omega) (by omega) (by omega) (c := 0) (s := 1) (by norm_num)).flipV
    (k + 1)).turnU (a := k) (b := k + 1) (by omega) (by omega) (by omega) (c := 0) (s := 1) (by norm_num)).flipU (k + 1)
  refine hR.congr (fun i j _ _ => ?_) (fun i j _ _ => ?_) (fun i c _ _ => ?_)
  · simp only [flipc, rotc, swapc]; grind
  · simp only [flipc, rotc, swapc]; grind
  · clear hR h
    have h3 := h2 i
    clear h2
    simp only [flipr, rotr, flipc, rotc, bid]
    rcases lt_trichotomy i k with hi | hi | hi
    · grind
    · subst hi; grind
    · by_cases hi2 : i = k + 1
      · subst hi2; grind
      · grind

end

/-- Columns `k`, `k+1` exchanged. -/
def swapF (F : Nat → Nat → α) (k : Nat) : Nat → Nat → α := fun i j =>
  if j = k then F i (k + 1) else if j = k + 1 then F i k else F i j

theorem tt_swapF (F : Nat → Nat → α) (k : Nat) : tt (swapF F k) = swapc (tt F) k := by
  funext i j
  unfold tt swapF swapc
  split
  · rfl
  · split <;> rfl

theorem swapCols_ok {N k : Nat} {d : Buf α} {F : Nat → Nat → α} (h : FullG d N N F) (hk : k + 1 < N) :
    ∃ d', swapCols N k d = .ok d' ∧ FullG d' N N (swapF F k) := by
  have := loop_rows (lo := 0) (hi := N) (f := fun i d => do
      let t ← rd d (i * N + (k + 1))
      let d ← wr d (i * N + (k + 1)) (← rd d (i * N + k))
      wr d (i * N + k) t) (fun i c => some (swapF F k i c)) h (by
    intro i d' G' _ hi hG' hsame
    have e1 : G' i k = some (F i k) := hsame i k (by omega)
    have e2 : G' i (k + 1) = some (F i (k + 1)) := hsame i (k + 1) (by omega)
    rw [hG'.rd hi (by omega) e1, hG'.rd hi hk e2]
    simp only [ok_bind]
    refine (hG'.wr hi hk _).bind fun d1 h1 => ?_
    refine (h1.wr hi (by omega) _).mono fun d2 h2 => h2.congr fun r c _ _ => ?_
    simp only [upd, swapF]
    grind)
  obtain ⟨d', h1, h2⟩ := this
  exact ⟨d', h1, h2.congr fun r c hr _ => by rw [if_pos ⟨by omega, hr⟩]⟩

variable {m n : Nat} {κ T : ℝ} {A : Matrix (Fin m) (Fin n) ℝ} {r : Nat}

theorem fixSign_post {q : Nat} {st : Main α} {s e : Nat → α} {U V : Nat → Nat → α}
    (hv : View m n st s e U V) (hF : NFv m n κ T A r U V (bid (vv s) (vv e))) (hq : q < n) (h0 : ∀ i, i + 1 = q → val (e i) = 0) :
    ∃ st', fixSign n (n - 1) q st = .ok st' ∧ ∃ s' V', View m n st' s' e U V' ∧ NFv m n κ T A r U V' (bid (vv s') (vv e)) ∧
      val (s' q) = |val (s q)| ∧ ∀ i, i ≠ q → s' i = s i := by
  unfold fixSign
  rw [hv.s.rd hq, ok_bind]
  by_cases h : val (s q) ≤ 0
  · rw [if_pos (by rw [Sfp.le, Sfp.zero]; exact h)]
    obtain ⟨x, hx⟩ : ∃ x : α, x = (if FloatOps.lt (s q) 0 = true then -s q else 0) := ⟨_, rfl⟩
    have hval : val x = |val (s q)| := by
      rw [hx]
      rcases h.lt_or_eq with h1 | h1
      · rw [if_pos (by rw [Sfp.lt, Sfp.zero]; exact h1), abs_of_neg h1, Sfp.neg]
      · rw [if_neg (by rw [Sfp.lt, Sfp.zero, h1]; exact lt_irrefl 0), h1, abs_zero, Sfp.zero]
    rw [← hx]
    obtain ⟨s1, hs1, hvs1⟩ := hv.s.wr hq x
    have hl := loop_rows (lo := 0) (hi := n) (f := fun i (d : Buf α) => do wr d (i * n + q) (-(← rd d (i * n + q))))
      (fun i c => some (if c = q then -V i c else V i c)) hv.v (by
      intro i d' G' _ hi hG' hsame
      have e1 : G' i q = some (V i q) := hsame i q (by omega)
      rw [hG'.rd hi hq e1, ok_bind]
      refine (hG'.wr hi hq _).mono fun d2 h2 => h2.congr fun r c _ _ => ?_
      have e2 : c < n → G' i c = some (V i c) := fun _ => hsame i c (by omega)
      simp only [upd]
      grind)
    obtain ⟨v1, hv1, hvv1⟩ := hl
    rw [hs1, ok_bind, show n - 1 + 1 = n by omega, hv1]
    refine ⟨_, rfl, updv s q x, fun i c => if c = q then -V i c else V i c, ⟨hvs1, hv.e, hv.u, ?_⟩, ?_, ?_, fun i hi => updv_ne hi⟩
    · exact Grid.congr hvv1 fun r c hr _ => by rw [if_pos ⟨by omega, hr⟩]
    · refine (NF.flipV hF q).congr (fun _ _ _ _ => rfl) (fun i j _ _ => ?_) fun i c _ _ => ?_
      · simp only [flipc, tt]
        split
        · rw [Sfp.neg]
        · rfl
      · have := h0 i
        rw [vv_updv, hval, abs_of_nonpos h]
        simp only [flipc, bid, updv, vv]
        grind
    · rw [updv_same, hval]
  · rw [if_neg (by rw [Sfp.le, Sfp.zero]; exact h)]
    exact ⟨_, rfl, s, V, hv, hF, by rw [abs_of_pos (not_le.1 h)], fun _ _ => rfl⟩

theorem order_post {q : Nat} {st : Main α} {s e : Nat → α} {U V : Nat → Nat → α}
    (hv : View m n st s e U V) (hF : NFv m n κ T A r U V (bid (vv s) (vv e))) (hq : q < n) (hnm : n ≤ m)
    (h0 : ∀ i, q ≤ i + 1 → val (e i) = 0)
    (hsort : ∀ i j, q < i → i ≤ j → j < n → val (s j) ≤ val (s i)) (hpos : ∀ i, q ≤ i → i < n → 0 ≤ val (s i)) :
    ∃ st', order m n (n - 1) q st = .ok st' ∧ ∃ s' U' V', View m n st' s' e U' V' ∧ NFv m n κ T A r U' V' (bid (vv s') (vv e)) ∧
      (∀ i j, q ≤ i → i ≤ j → j < n → val (s' j) ≤ val (s' i)) ∧ (∀ i, q ≤ i → i < n → 0 ≤ val (s' i)) := by
  unfold order
  let I : Nat → Main α → Prop := fun c st => ∃ s' U' V', View m n st s' e U' V' ∧ NFv m n κ T A r U' V' (bid (vv s') (vv e)) ∧
      (∀ i j, q ≤ i → i ≤ j → j < n → i ≠ c → val (s' j) ≤ val (s' i)) ∧ (∀ i, q ≤ i → i < n → 0 ≤ val (s' i))
  have hl := loopF_post (lo := q) (hi := n - 1) (s := st) (ρ := Main α) (f := fun k st => (do
    let x ← rd st.s k
    let y ← rd st.s (k + 1)
    if FloatOps.le y x then return Flow.ret st
    else
      let s ← wr st.s k y
      let s ← wr s (k + 1) x
      let vb ← (do if k + 1 < n then swapCols n k st.v else return st.v)
      let ub ← (do if k + 1 < m then swapCols m k st.u else return st.u)
      return Flow.next ⟨s, st.e, ub, vb⟩ : R (Flow (Main α) (Main α)))) I (fun st => I (n - 1) st) (by omega)
    ⟨s, U, V, hv, hF, fun i j h1 h2 h3 h4 => hsort i j (by omega) h2 h3, hpos⟩ (by
    rintro c st1 hc1 hc2 ⟨s1, U1, V1, r1, r2, r3, r4⟩
    rw [r1.s.rd (i := c) (by omega), r1.s.rd (i := c + 1) (by omega)]
    simp only [ok_bind]
    by_cases hle : val (s1 (c + 1)) ≤ val (s1 c)
    · rw [if_pos (by rw [Sfp.le]; exact hle)]
      refine Post.ok ⟨s1, U1, V1, r1, r2, ?_, r4⟩
      intro i j h1 h2 h3 h4
      by_cases hic : i = c
      · subst hic
        rcases h2.lt_or_eq with h5 | h5
        · exact (r3 (i + 1) j (by omega) (by omega) h3 (by omega)).trans hle
        · rw [h5]
      · exact r3 i j h1 h2 h3 hic
    · rw [if_neg (by rw [Sfp.le]; exact hle)]
      obtain ⟨x1, hx1, hvx1⟩ := r1.s.wr (i := c) (by omega) (s1 (c + 1))
      obtain ⟨x2, hx2, hvx2⟩ := hvx1.wr (i := c + 1) (by omega) (s1 c)
      obtain ⟨v1, hv1, hvv1⟩ := swapCols_ok r1.v (k := c) (by omega)
      obtain ⟨u1, hu1, hvu1⟩ := swapCols_ok r1.u (k := c) (by omega)
      rw [hx1, ok_bind, hx2, ok_bind, if_pos (show c + 1 < n by omega), hv1, ok_bind, if_pos (show c + 1 < m by omega),
        hu1, ok_bind]
      refine Post.ok ⟨fun i => if i = c then s1 (c + 1) else if i = c + 1 then s1 c else s1 i, swapF U1 c, swapF V1 c,
        ⟨?_, r1.e, hvu1, hvv1⟩, ?_, ?_, ?_⟩
      · refine hvx2.congr fun i _ => ?_
        simp only [updv]; grind
      · unfold NFv
        rw [tt_swapF, tt_swapF]
        refine (NF.swap r2 (by omega) hnm (h0 _ (by omega)) (h0 _ (by omega)) (fun i hi => h0 i (by omega))).congr
          (fun _ _ _ _ => rfl) (fun _ _ _ _ => rfl) fun i j _ _ => ?_
        congr 1
        funext i
        unfold vv
        dsimp only
        split
        · rfl
        · split <;> rfl
      · intro i j h1 h2 h3 h4
        have hlt := (not_le.1 hle).le
        dsimp only
        by_cases hic : i = c
        · subst hic
          rw [if_pos rfl]
          by_cases hjc : j = i
          · subst hjc; rw [if_pos rfl]
          · rw [if_neg hjc]
            by_cases hjc1 : j = i + 1
            · rw [if_pos hjc1]; exact hlt
            · rw [if_neg hjc1]; exact r3 (i + 1) j (by omega) (by omega) h3 (by omega)
        · rw [if_neg hic, if_neg h4]
          split
          · exact r3 i (c + 1) h1 (by omega) (by omega) hic
          · split
            · exact r3 i c h1 (by omega) (by omega) hic
            · exact r3 i j h1 h2 h3 hic
      · intro i h1 h2
        dsimp only
        split
        · exact r4 _ (by omega) (by omega)
        · split
          · exact r4 _ (by omega) (by omega)
          · exact r4 _ h1 h2)
  have hfin : ∀ st', I (n - 1) st' → ∃ s' U' V', View m n st' s' e U' V' ∧ NFv m n κ T A r U' V' (bid (vv s') (vv e)) ∧
      (∀ i j, q ≤ i → i ≤ j → j < n → val (s' j) ≤ val (s' i)) ∧ (∀ i, q ≤ i → i < n → 0 ≤ val (s' i)) := by
    rintro st' ⟨s', U', V', r1, r2, r3, r4⟩
    refine ⟨s', U', V', r1, r2, ?_, r4⟩
    intro i j h1 h2 h3
    by_cases hi : i = n - 1
    · rw [show j = i by omega]
    · exact r3 i j h1 h2 h3 hi
  obtain ⟨o, ho, hI⟩ := hl
  rw [ho, ok_bind]
  match o, hI with
  | .next st', hI => exact ⟨st', rfl, hfin st' hI⟩
  | .ret st', hI => exact ⟨st', rfl, hfin st' hI⟩

/-- The threshold of the two searches. -/
theorem thr_rt {a b : α} (ha : 0 ≤ val a) (hb : 0 ≤ val b) :
    Rt (w α) 4 (Sfp.val ((tiny : α) + eps * (a + b))) (1 / 2 ^ 966 + 1 / 2 ^ 52 * (val a + val b)) := by
  have hw : 1 ≤ w α := w_one
  have e1 : Rt (w α) 1 (val (eps : α)) (1 / 2 ^ 52) := by
    have := cst_rt (α := α) 1 (2 ^ 52)
    rw [Nat.cast_pow, Int.cast_one, Nat.cast_ofNat] at this
    exact this
  have e2 : Rt (w α) 1 (val (tiny : α)) (1 / 2 ^ 966) := by
    have := cst_rt (α := α) 1 (2 ^ 966)
    rw [Nat.cast_pow, Int.cast_one, Nat.cast_ofNat] at this
    exact this
  have e3 : Rt (w α) 3 (val (eps * (a + b) : α)) (1 / 2 ^ 52 * (val a + val b)) := mul_rt' e1 (add_rt a b)
  have hp : (0 : ℝ) ≤ 1 / 2 ^ 966 := by positivity
  have := (e2.mono hw (show 1 ≤ 3 by omega)).add hw e3 hp (by positivity)
  exact (add_rt _ _).trans hw this

theorem thr_pos {a b : α} (ha : 0 ≤ val a) (hb : 0 ≤ val b) : 0 < Sfp.val ((tiny : α) + eps * (a + b)) := by
  refine (thr_rt ha hb).pos w_one ?_
  have : (0 : ℝ) < 1 / 2 ^ 966 := by positivity
  have : (0 : ℝ) ≤ 1 / 2 ^ 52 * (val a + val b) := by positivity
  linarith

/-- What is below the threshold is negligible. -/
theorem thr_le {x a b : α} {F : ℝ} (ha : 0 ≤ val a) (hb : 0 ≤ val b) (ha' : val a ≤ F) (hb' : val b ≤ F)
    (h : |val x| ≤ Sfp.val ((tiny : α) + eps * (a + b))) : |val x| ≤ w α ^ 4 / 2 ^ 51 * (F + 1 / 2 ^ 915) := by
  have hp : (0 : ℝ) ≤ 1 / 2 ^ 966 := by positivity
  have h1 := (thr_rt ha hb).le w_one (by positivity)
  refine (h.trans h1).trans ?_
  rw [div_mul_eq_mul_div (w α ^ 4), mul_div_assoc (w α ^ 4)]
  refine mul_le_mul_of_nonneg_left ?_ (pw_pos (w_one (α := α)) 4).le
  have e : (1 : ℝ) / 2 ^ 966 = 1 / 2 ^ 915 / 2 ^ 51 := by
    rw [div_div, ← pow_add]
  rw [e]
  generalize (1 : ℝ) / 2 ^ 915 = t
  rw [add_div, add_comm]
  have : (1 : ℝ) / 2 ^ 52 * (val a + val b) ≤ F / 2 ^ 51 := by
    have : (2 : ℝ) ^ 52 = 2 ^ 51 * 2 := by norm_num
    rw [this, div_mul_eq_mul_div, one_mul, ← div_div]
    rw [div_le_iff₀ (by norm_num : (0:ℝ) < 2)]
    rw [div_mul_eq_mul_div, div_le_div_iff_of_pos_right (by positivity)]
    linarith
  linarith

/-- The search for a negligible superdiagonal entry. -/
theorem findE_ok {sb : Buf α} {s : Nat → α} (hs : Full sb n s) {e : Nat → α} {eb : Buf α}
    (he : Full eb n e) : ∀ c, c < n → ∃ k1 eb', findE sb c eb = .ok (k1, eb') ∧ k1 ≤ c ∧
      (∀ j, k1 ≤ j → j < c → val (e j) ≠ 0) ∧
      ((k1 = 0 ∧ eb' = eb) ∨ ∃ k, k1 = k + 1 ∧ Full eb' n (updv e k 0) ∧
        |val (e k)| ≤ Sfp.val ((tiny : α) + eps * (FloatOps.abs (s k) + FloatOps.abs (s (k + 1))))) := by
  intro c
  induction c with
  | zero => intro _; exact ⟨0, eb, rfl, le_rfl, fun j h1 h2 => by omega, Or.inl ⟨rfl, rfl⟩⟩
  | succ c ih =>
    intro hc
    unfold findE
    rw [he.rd (i := c) (by omega), hs.rd (i := c) (by omega), hs.rd (i := c + 1) (by omega)]
    simp only [ok_bind]
    by_cases h : |val (e c)| ≤ Sfp.val ((tiny : α) + eps * (FloatOps.abs (s c) + FloatOps.abs (s (c + 1))))
    · rw [if_pos (by rw [Sfp.le, Sfp.abs]; exact h)]
      obtain ⟨e1, he1, hve1⟩ := he.wr (i := c) (by omega) 0
      rw [he1]
      exact ⟨c + 1, e1, rfl, le_rfl, fun j h1 h2 => by omega, Or.inr ⟨c, rfl, hve1, h⟩⟩
    · rw [if_neg (by rw [Sfp.le, Sfp.abs]; exact h)]
      obtain ⟨k1, eb', h1, h2, h3, h4⟩ := ih (by omega)
      refine ⟨k1, eb', h1, by omega, ?_, h4⟩
      intro j hj1 hj2
      by_cases hjc : j = c
      · subst hjc
        intro h0
        rw [h0, abs_zero] at h
        exact h (thr_pos (by rw [Sfp.abs]; exact abs_nonneg _) (by rw [Sfp.abs]; exact abs_nonneg _)).le
      · exact h3 j hj1 (by omega)

/-- The search for a negligible diagonal entry. -/
theorem findS_ok {p k1 : Nat} {eb : Buf α} {e : Nat → α} (he : Full eb n e) {s : Nat → α} {sb : Buf α}
    (hs : Full sb n s) (hp : p ≤ n) : ∀ c, k1 + c ≤ p → ∃ o sb', findS p k1 eb c sb = .ok (o, sb') ∧
      ((o = none ∧ sb' = sb ∧ ∀ j, k1 ≤ j → j < k1 + c → val (s j) ≠ 0) ∨
        ∃ ks, o = some ks ∧ k1 ≤ ks ∧ ks < k1 + c ∧ Full sb' n (updv s ks 0) ∧
          |val (s ks)| ≤ Sfp.val ((tiny : α) + eps * (FloatOps.abs (e ks) + if ks ≠ k1 then FloatOps.abs (e (ks - 1)) else 0))) := by
  intro c
  induction c with
  | zero => intro _; exact ⟨none, sb, rfl, Or.inl ⟨rfl, rfl, fun j h1 h2 => by omega⟩⟩
  | succ c ih =>
    intro hc
    unfold findS
    have ht2 : (do if (k1 + c != k1) = true then return FloatOps.abs (← rd eb (← usub (k1 + c) 1)) else return 0 : R α) =
        .ok (if k1 + c ≠ k1 then FloatOps.abs (e (k1 + c - 1)) else 0) := by
      by_cases h : k1 + c = k1
      · rw [if_neg (by simpa using h), if_neg (by simpa using h)]; rfl
      · rw [if_pos (by simpa using h), if_pos h, usub_ok (by omega), ok_bind, he.rd (by omega), ok_bind]; rfl
    have ht1 : (do if (k1 + c != p) = true then return FloatOps.abs (← rd eb (k1 + c)) else return 0 : R α) =
        .ok (FloatOps.abs (e (k1 + c))) := by
      rw [if_pos (by simp; omega), he.rd (by omega), ok_bind]; rfl
    dsimp only at ht1 ht2 ⊢
    rw [ht1, ok_bind, ht2, ok_bind, hs.rd (i := k1 + c) (by omega)]
    simp only [ok_bind]
    by_cases h : |val (s (k1 + c))| ≤ Sfp.val ((tiny : α) + eps * (FloatOps.abs (e (k1 + c)) +
        if k1 + c ≠ k1 then FloatOps.abs (e (k1 + c - 1)) else 0))
    · rw [if_pos (by rw [Sfp.le, Sfp.abs]; exact h)]
      obtain ⟨s1, hs1, hvs1⟩ := hs.wr (i := k1 + c) (by omega) 0
      rw [hs1]
      exact ⟨_, s1, rfl, Or.inr ⟨k1 + c, rfl, by omega, by omega, hvs1, h⟩⟩
    · rw [if_neg (by rw [Sfp.le, Sfp.abs]; exact h)]
      obtain ⟨o, sb', h1, h2⟩ := ih (by omega)
      refine ⟨o, sb', h1, ?_⟩
      rcases h2 with ⟨r1, r2, r3⟩ | ⟨ks, r1, r2, r3, r4⟩
      · refine Or.inl ⟨r1, r2, ?_⟩
        intro j hj1 hj2
        by_cases hjc : j = k1 + c
        · subst hjc
          intro h0
          rw [h0, abs_zero] at h
          refine h (thr_pos (by rw [Sfp.abs]; exact abs_nonneg _) ?_).le
          split
          · rw [Sfp.abs]; exact abs_nonneg _
          · rw [Sfp.zero]
        · exact r3 j hj1 (by omega)
      · exact Or.inr ⟨ks, r1, r2, by omega, r4⟩

end Std
end LA
