import Verif.Proofs.StdFrob

/-! # The main loop of `SVD::new` in rounded arithmetic: rotations -/

set_option linter.unusedSectionVars false

namespace LA
open Finset Matrix
namespace Std
open Sfp SVD

variable {α : Type} [Zero α] [One α] [Add α] [Sub α] [Neg α] [Mul α] [FloatOps α] [Sfp α]

/-- A fully initialised vector. -/
def Full (d : Buf α) (n : Nat) (f : Nat → α) : Prop := Vect d n (fun i => some (f i))

/-- A fully initialised table. -/
def FullG (d : Buf α) (m n : Nat) (F : Nat → Nat → α) : Prop := Grid d m n (fun i j => some (F i j))

theorem Full.rd {d : Buf α} {n : Nat} {f : Nat → α} (h : Full d n f) {i : Nat} (hi : i < n) : rd d i = .ok (f i) :=
  Vect.rd h hi rfl

theorem Full.wr {d : Buf α} {n : Nat} {f : Nat → α} (h : Full d n f) {i : Nat} (hi : i < n) (x : α) :
    ∃ d', LA.wr d i x = .ok d' ∧ Full d' n (updv f i x) := by
  obtain ⟨d', h1, h2⟩ := Vect.wr h hi x
  exact ⟨d', h1, h2.congr fun j _ => by by_cases e : j = i <;> simp [updv, e]⟩

theorem Full.congr {d : Buf α} {n : Nat} {f g : Nat → α} (h : Full d n f) (hfg : ∀ i, i < n → f i = g i) : Full d n g :=
  Vect.congr h fun i hi => by rw [hfg i hi]

theorem FullG.rd {d : Buf α} {m n : Nat} {F : Nat → Nat → α} (h : FullG d m n F) {i j : Nat} (hi : i < m) (hj : j < n) :
    rd d (i * n + j) = .ok (F i j) := Grid.rd h hi hj rfl

theorem FullG.wr {d : Buf α} {m n : Nat} {F : Nat → Nat → α} (h : FullG d m n F) {i j : Nat} (hi : i < m) (hj : j < n)
    (x : α) : ∃ d', LA.wr d (i * n + j) x = .ok d' ∧ FullG d' m n (upd F i j x) := by
  obtain ⟨d', h1, h2⟩ := Grid.wr h hi hj x
  exact ⟨d', h1, h2.congr fun a b _ _ => by by_cases e : a = i ∧ b = j <;> simp [upd, e]⟩

theorem FullG.congr {d : Buf α} {m n : Nat} {F G : Nat → Nat → α} (h : FullG d m n F)
    (hFG : ∀ i j, i < m → j < n → F i j = G i j) : FullG d m n G :=
  Grid.congr h fun i j hi hj => by rw [hFG i j hi hj]

/-- The real numbers a vector stands for. -/
def vv (f : Nat → α) : Nat → ℝ := fun i => val (f i)
/-- The real numbers a table stands for. -/
def tt (F : Nat → Nat → α) : Nat → Nat → ℝ := fun i j => val (F i j)

theorem vv_updv (f : Nat → α) (i : Nat) (x : α) : vv (updv f i x) = updv (vv f) i (val x) := by
  funext j
  unfold vv updv
  split <;> rfl

/-- Columns `a`, `b` rotated, as computed. -/
def rotF (F : Nat → Nat → α) (a b : Nat) (cs sn : α) : Nat → Nat → α := fun i j =>
  if j = a then cs * F i a + sn * F i b else if j = b then -sn * F i a + cs * F i b else F i j

theorem rotCols_ok {N a b : Nat} {d : Buf α} {F : Nat → Nat → α} (h : FullG d N N F) (ha : a < N) (hb : b < N)
    (hab : a ≠ b) (cs sn : α) : ∃ d', rotCols N a b cs sn d = .ok d' ∧ FullG d' N N (rotF F a b cs sn) := by
  have := loop_rows (lo := 0) (hi := N) (f := fun i d => do
      let t := cs * (← rd d (i * N + a)) + sn * (← rd d (i * N + b))
      let d ← wr d (i * N + b) (-sn * (← rd d (i * N + a)) + cs * (← rd d (i * N + b)))
      wr d (i * N + a) t) (fun i c => some (rotF F a b cs sn i c)) h (by
    intro i d' G' _ hi hG' hsame
    have e1 : G' i a = some (F i a) := hsame i a (by omega)
    have e2 : G' i b = some (F i b) := hsame i b (by omega)
    rw [hG'.rd hi ha e1, hG'.rd hi hb e2]
    simp only [ok_bind]
    refine (hG'.wr hi hb _).bind fun d1 h1 => ?_
    refine (h1.wr hi ha _).mono fun d2 h2 => h2.congr fun r c _ _ => ?_
    simp only [upd, rotF]
    grind)
  obtain ⟨d', h1, h2⟩ := this
  exact ⟨d', h1, h2.congr fun r c hr _ => by rw [if_pos ⟨by omega, hr⟩]⟩

/-- Relative error of a rotation. -/
noncomputable def k0 (α : Type) [Zero α] [One α] [Add α] [Sub α] [Neg α] [Mul α] [FloatOps α] [Sfp α] : ℝ := w α ^ 7 - 1

theorem k0_nonneg : 0 ≤ k0 α := sub_nonneg.2 (pw_one w_one 7)

theorem rotF_err {m n a b : Nat} {F : Nat → Nat → α} {x y t cs sn : α} {τ c s : ℝ} (h : Rot x y t cs sn τ c s) :
    RotErr (k0 α) m n a b c s (tt F) (tt (rotF F a b cs sn)) := by
  intro i j _ _
  obtain ⟨h1, h2⟩ := h.c_le
  unfold tt rotF rotc
  by_cases hj : j = a
  · rw [if_pos hj, if_pos hj, if_pos (Or.inl hj)]
    exact comb1 h.cs h.sn h1 h2
  · rw [if_neg hj, if_neg hj]
    by_cases hj2 : j = b
    · rw [if_pos hj2, if_pos hj2, if_pos (Or.inr hj2)]
      exact comb2 h.cs h.sn h1 h2
    · rw [if_neg hj2, if_neg hj2, if_neg (by tauto), sub_self, abs_zero]

theorem Rot.t_err {x y t cs sn : α} {τ c s : ℝ} (h : Rot x y t cs sn τ c s) : |val t - τ| ≤ k0 α * (|val x| + |val y|) := by
  obtain ⟨h1, h2⟩ := h.c_le
  have e := (h.t.mono w_one (show 4 ≤ 7 by omega)).sub w_one
  refine e.trans (mul_le_mul_of_nonneg_left ?_ k0_nonneg)
  rw [← h.top]
  refine (abs_add_le _ _).trans ?_
  rw [abs_mul, abs_mul]
  exact add_le_add (mul_le_of_le_one_left (abs_nonneg _) h1) (mul_le_of_le_one_left (abs_nonneg _) h2)

theorem Rot.c_err {x y t cs sn : α} {τ c s : ℝ} (h : Rot x y t cs sn τ c s) (z : α) : |val (cs * z) - c * val z| ≤ k0 α * |val z| :=
  comb0 h.cs h.c_le.1

theorem Rot.s_err {x y t cs sn : α} {τ c s : ℝ} (h : Rot x y t cs sn τ c s) (z : α) : |val (sn * z) - s * val z| ≤ k0 α * |val z| :=
  comb0 h.sn h.c_le.2

theorem Rot.ns_err {x y t cs sn : α} {τ c s : ℝ} (h : Rot x y t cs sn τ c s) (z : α) : |val (-sn * z) - -s * val z| ≤ k0 α * |val z| := by
  refine comb0 ?_ (by rw [abs_neg]; exact h.c_le.2)
  rw [Sfp.neg]; exact h.sn.neg

theorem Rot.sn_ne {x y t cs sn : α} {τ c s : ℝ} (h : Rot x y t cs sn τ c s) (hs : s ≠ 0) : val sn ≠ 0 := h.sn.ne w_one hs

theorem mul_ne {x y : α} (hx : val x ≠ 0) (hy : val y ≠ 0) : val (x * y) ≠ 0 := (mul_rt x y).ne w_one (mul_ne_zero hx hy)
theorem mul_eq_zero' {x y : α} (hy : val y = 0) : val (x * y) = 0 := ((mul_rt x y).zero_iff w_one).2 (by rw [hy, mul_zero])
theorem neg_ne {x : α} (hx : val x ≠ 0) : val (-x) ≠ 0 := by rw [Sfp.neg]; exact neg_ne_zero.2 hx

/-- What the buffers of the main loop contain. -/
structure View (m n : Nat) (st : Main α) (s e : Nat → α) (U V : Nat → Nat → α) : Prop where
  s : Full st.s n s
  e : Full st.e n e
  u : FullG st.u m m U
  v : FullG st.v n n V

/-- The invariant on the contents. -/
abbrev NFv (m n : Nat) (κ T : ℝ) (A : Matrix (Fin m) (Fin n) ℝ) (r : Nat) (U V : Nat → Nat → α) (M : Nat → Nat → ℝ) : Prop :=
  NF m n κ T A r (tt U) (tt V) M

variable {m n : Nat} {κ T : ℝ} {A : Matrix (Fin m) (Fin n) ℝ}

/-- The table of one step of `kase == 1`. -/
theorem kase1_rot {p k j : Nat} {s e : Nat → ℝ} {f : ℝ} {c sn τ t e1 f1 κ0 : ℝ} (h0 : 0 ≤ κ0) (hkj : k ≤ j) (hj : j + 1 < p)
    (hs : s (p - 1) = 0) (he : e (p - 2) = 0) (hk : ∀ i, i + 1 = k → e i = 0) (h1 : c * s j + sn * f = τ) (h2 : -sn * s j + c * f = 0)
    (t1 : |t - τ| ≤ κ0 * (|s j| + |f|)) (t2 : ∀ i, k ≤ i → i + 1 = j → |e1 - c * e i| ≤ κ0 * |e i|)
    (t3 : ∀ i, k ≤ i → i + 1 = j → |f1 - -sn * e i| ≤ κ0 * |e i|) :
    RotErr κ0 m n j (p - 1) c sn (fun i q => bid s e i q + if i = j ∧ q = p - 1 then f else 0)
      (fun i q => bid (updv s j t) (fun i => if k ≤ i ∧ i + 1 = j then e1 else e i) i q + if k < j ∧ i + 1 = j ∧ q = p - 1 then f1 else 0) := by
  obtain ⟨P, rfl⟩ : ∃ P, p = P + 2 := ⟨p - 2, by omega⟩
  simp only [Nat.add_sub_cancel, show P + 2 - 1 = P + 1 by omega] at *
  refine RotErr.of_rows fun i _ => ?_
  by_cases hi : i = j
  · subst hi
    refine ⟨s i, f, t, 0, ?_, ?_, ?_, ?_, by rw [h1]; exact t1, by rw [h2, sub_zero, abs_zero]; positivity, ?_⟩
    · simp only [bid]; grind
    · simp only [bid]; grind
    · simp only [bid, updv]; grind
    · simp only [bid, updv]; grind
    · intro q _ _ _
      simp only [bid, updv]; grind
  · by_cases hi2 : k ≤ i ∧ i + 1 = j
    · obtain ⟨hi3, rfl⟩ := hi2
      have a2 := t2 i hi3 rfl
      have a3 := t3 i hi3 rfl
      refine ⟨e i, 0, e1, f1, ?_, ?_, ?_, ?_, by simpa using a2, by simpa using a3, ?_⟩
      · simp only [bid]; grind
      · simp only [bid]; grind
      · simp only [bid, updv]; grind
      · simp only [bid, updv]; grind
      · intro q _ _ _
        simp only [bid, updv]; grind
    · have hz := hk i
      clear hk t2 t3 t1 h1 h2
      refine ⟨0, 0, 0, 0, ?_, ?_, ?_, ?_, by simp, by simp, ?_⟩
      · simp only [bid]; grind
      · simp only [bid]; grind
      · simp only [bid, updv]; grind
      · simp only [bid, updv]; grind
      · intro q _ _ _
        simp only [bid, updv]; grind

theorem kase1_post {p k r : Nat} {st : Main α} {s e : Nat → α} {U V : Nat → Nat → α} (hκ : 2 * k0 α ≤ κ) (hT : 0 ≤ T)
    (hv : View m n st s e U V) (hF : NFv m n κ T A r U V (bid (vv s) (vv e))) (hkp : k + 2 ≤ p) (hp : p ≤ n)
    (hs : val (s (p - 1)) = 0) (hnz : ∀ j, k ≤ j → j + 1 < p → val (e j) ≠ 0) (hk : ∀ j, j + 1 = k → val (e j) = 0) :
    ∃ st', kase1 n p k st = .ok st' ∧ ∃ s' e' V', View m n st' s' e' U V' ∧
      NFv m n κ T A (r + (p - 1 - k)) U V' (bid (vv s') (vv e')) ∧
      (∀ j, val (e j) = 0 → val (e' j) = 0) ∧ (∀ j, p ≤ j → s' j = s j) := by
  have h2 : usub p 2 = .ok (p - 2) := usub_ok (by omega)
  have h1 : usub p 1 = .ok (p - 1) := usub_ok (by omega)
  unfold kase1
  obtain ⟨e0, he0, hve0⟩ := hv.e.wr (i := p - 2) (by omega) 0
  simp only [h1, h2, ok_bind, hv.e.rd (i := p - 2) (by omega), he0]
  have hloop := loopRev_post (lo := k) (hi := p - 1) (s := (st.s, e0, st.v, e (p - 2)))
    (f := fun j (x : Buf α × Buf α × Buf α × α) => (do
      let (s, e, v, f) := x
      let t ← hypot (← rd s j) f
      let cs ← RDiv.rdiv (← rd s j) t
      let sn ← RDiv.rdiv f t
      let s ← wr s j t
      let (e, f) ← (do
        if j != k then
          let f := -sn * (← rd e (← usub j 1))
          let e ← wr e (← usub j 1) (cs * (← rd e (← usub j 1)))
          return (e, f)
        else return (e, f))
      let v ← rotCols n j (p - 1) cs sn v
      return (s, e, v, f) : R (Buf α × Buf α × Buf α × α)))
    (fun c x => ∃ s' e' V', Full x.1 n s' ∧ Full x.2.1 n e' ∧ FullG x.2.2.1 n n V' ∧
      NFv m n κ T A (r + (p - 1 - c)) U V'
        (fun i j => bid (vv s') (vv e') i j + if k < c ∧ i + 1 = c ∧ j = p - 1 then val x.2.2.2 else 0) ∧
      (k < c → val x.2.2.2 ≠ 0) ∧ val (e' (p - 2)) = 0 ∧ (∀ j, val (e j) = 0 → val (e' j) = 0) ∧ (∀ j, j + 1 < c → e' j = e j) ∧
      val (s' (p - 1)) = 0 ∧ (∀ j, p ≤ j → s' j = s j))
    (show k ≤ p - 1 by omega) ?_ ?_
  · obtain ⟨⟨s1, e1, v1, f1⟩, hrun, s', e', V', r1, r2, r3, r4, -, r6, r7, -, -, r10⟩ := hloop
    refine ⟨⟨s1, e1, st.u, v1⟩, ?_, s', e', V', ⟨r1, r2, hv.u, r3⟩, ?_, r7, r10⟩
    · erw [hrun]; rfl
    · refine r4.congr (fun _ _ _ _ => rfl) (fun _ _ _ _ => rfl) fun i j _ _ => ?_
      rw [if_neg (by omega), add_zero]
  · refine ⟨s, _, V, hv.s, hve0, hv.v, ?_, fun _ => hnz _ (by omega) (by omega), by simp [Sfp.zero], ?_, ?_, hs, fun _ _ => rfl⟩
    · rw [Nat.sub_self, Nat.add_zero]
      refine hF.congr (fun _ _ _ _ => rfl) (fun _ _ _ _ => rfl) fun i j _ _ => ?_
      rw [vv_updv, Sfp.zero]
      simp only [bid, updv]
      have : vv e (p - 2) = val (e (p - 2)) := rfl
      grind
    · intro j hj
      simp only [updv]
      split
      · exact Sfp.zero
      · exact hj
    · intro j hj
      rw [updv_ne (by omega)]
  · rintro j ⟨s1, e1, v1, f1⟩ hkj hjp ⟨s', e', V', r1, r2, r3, r4, r5, r6, r7, r8, r9, r10⟩
    dsimp only at r1 r2 r3 r4 r5 ⊢
    have hf : val f1 ≠ 0 := r5 (by omega)
    obtain ⟨t, cs, sn, τ, c, sg, t1, t3, t4, hrot, hsg⟩ := rot_facts (a := s' j) hf
    obtain ⟨s2, hs2, hvs2⟩ := r1.wr (i := j) (by omega) t
    obtain ⟨v2, hv2, hvv2⟩ := rotCols_ok r3 (a := j) (b := p - 1) (by omega) (by omega) (by omega) cs sn
    have hkz : ∀ i, i + 1 = k → vv e' i = 0 := fun i hi => r7 i (hk i hi)
    have r4' : NFv m n κ T A (r + (p - 1 - (j + 1))) U V'
        (fun i q => bid (vv s') (vv e') i q + if i = j ∧ q = p - 1 then val f1 else 0) :=
      r4.congr (fun _ _ _ _ => rfl) (fun _ _ _ _ => rfl) fun i q _ _ => by
        have : (k < j + 1 ∧ i + 1 = j + 1 ∧ q = p - 1) ↔ (i = j ∧ q = p - 1) := by omega
        simp only [this]
    have hR := r4'.rotV k0_nonneg hκ hT (a := j) (b := p - 1) (by omega) (by omega) (by omega) hrot.unit
      (rotF_err (F := V') hrot)
      (kase1_rot (m := m) (n := n) (k := k) (e1 := val (cs * e' (j - 1))) (f1 := val (-sn * e' (j - 1))) k0_nonneg hkj (by omega)
        r9 r6 hkz hrot.top hrot.bot hrot.t_err
        (fun i _ hi => by rw [show j - 1 = i by omega]; exact hrot.c_err (e' i))
        (fun i _ hi => by rw [show j - 1 = i by omega]; exact hrot.ns_err (e' i)))
    rw [show r + (p - 1 - (j + 1)) + 1 = r + (p - 1 - j) by omega] at hR
    simp only [r1.rd (i := j) (by omega), ok_bind, t1, t3, t4, hs2]
    by_cases hjk : j = k
    · subst hjk
      simp only [bne_self_eq_false, Bool.false_eq_true, if_false, pure_eq_ok, ok_bind, hv2]
      refine Post.ok ⟨updv s' j t, e', _, hvs2, r2, hvv2, ?_, ?_, r6, r7, ?_, ?_, ?_⟩
      · refine hR.congr (fun _ _ _ _ => rfl) (fun _ _ _ _ => rfl) fun i q _ _ => ?_
        rw [vv_updv]
        have : (fun i => if j ≤ i ∧ i + 1 = j then val (cs * e' (j - 1)) else vv e' i) = vv e' := by
          funext i; rw [if_neg (by omega)]
        rw [this, if_neg (by omega), if_neg (by omega)]
      · intro h; omega
      · intro i hi; exact r8 i (by omega)
      · rw [updv_ne (by omega), r9]
      · intro i hi; rw [updv_ne (by omega), r10 i hi]
    · have hj1 : usub j 1 = .ok (j - 1) := usub_ok (by omega)
      obtain ⟨e2, he2, hve2⟩ := r2.wr (i := j - 1) (by omega) (cs * e' (j - 1))
      rw [if_pos (by simpa using hjk)]
      simp only [hj1, ok_bind, r2.rd (i := j - 1) (by omega), pure_eq_ok, he2, hv2]
      refine Post.ok ⟨updv s' j t, _, _, hvs2, hve2, hvv2, ?_, ?_, ?_, ?_, ?_, ?_, ?_⟩
      · refine hR.congr (fun _ _ _ _ => rfl) (fun _ _ _ _ => rfl) fun i q _ _ => ?_
        rw [vv_updv, vv_updv]
        have : (fun i => if k ≤ i ∧ i + 1 = j then val (cs * e' (j - 1)) else vv e' i) = updv (vv e') (j - 1) (val (cs * e' (j - 1))) := by
          funext i
          unfold updv
          by_cases h : i = j - 1
          · rw [if_pos h, if_pos (by omega)]
          · rw [if_neg h, if_neg (by omega)]
        rw [this]
      · intro _
        dsimp only
        rw [r8 (j - 1) (by omega)]
        exact mul_ne (neg_ne (hrot.sn_ne hsg)) (hnz _ (by omega) (by omega))
      · rw [updv_ne (by omega), r6]
      · intro i hi
        have h7 := r7 i hi
        by_cases h : i = j - 1
        · rw [h, updv_same]; rw [h] at h7; exact mul_eq_zero' h7
        · rw [updv_ne h]; exact h7
      · intro i hi
        rw [updv_ne (by omega), r8 i (by omega)]
      · rw [updv_ne (by omega), r9]
      · intro i hi; rw [updv_ne (by omega), r10 i hi]

/-- The table of one step of `kase == 2` (transposed). -/
theorem kase2_rot {k j : Nat} {s e : Nat → ℝ} {f : ℝ} {c sn τ t e1 f1 κ0 : ℝ} (h0 : 0 ≤ κ0) (hk : 0 < k) (hkj : k ≤ j)
    (hs : s (k - 1) = 0) (he : e (k - 1) = 0) (h1 : c * s j + sn * f = τ) (h2 : -sn * s j + c * f = 0)
    (t1 : |t - τ| ≤ κ0 * (|s j| + |f|)) (t2 : |e1 - c * e j| ≤ κ0 * |e j|) (t3 : |f1 - -sn * e j| ≤ κ0 * |e j|) :
    RotErr κ0 n m j (k - 1) c sn (fun q i => bid s e i q + if i = k - 1 ∧ q = j then f else 0)
      (fun q i => bid (updv s j t) (updv e j e1) i q + if i = k - 1 ∧ q = j + 1 then f1 else 0) := by
  obtain ⟨K, rfl⟩ : ∃ K, k = K + 1 := ⟨k - 1, by omega⟩
  simp only [Nat.add_sub_cancel] at *
  refine RotErr.of_rows fun q _ => ?_
  by_cases hq : q = j
  · subst hq
    refine ⟨s q, f, t, 0, ?_, ?_, ?_, ?_, by rw [h1]; exact t1, by rw [h2, sub_zero, abs_zero]; positivity, ?_⟩
    · simp only [bid]; grind
    · simp only [bid]; grind
    · simp only [bid, updv]; grind
    · simp only [bid, updv]; grind
    · intro i _ _ _
      simp only [bid, updv]; grind
  · by_cases hq2 : q = j + 1
    · subst hq2
      refine ⟨e j, 0, e1, f1, ?_, ?_, ?_, ?_, by simpa using t2, by simpa using t3, ?_⟩
      · simp only [bid]; grind
      · simp only [bid]; grind
      · simp only [bid, updv]; grind
      · simp only [bid, updv]; grind
      · intro i _ _ _
        simp only [bid, updv]; grind
    · clear t2 t3 t1 h1 h2
      refine ⟨0, 0, 0, 0, ?_, ?_, ?_, ?_, by simp, by simp, ?_⟩
      · simp only [bid]; grind
      · simp only [bid]; grind
      · simp only [bid, updv]; grind
      · simp only [bid, updv]; grind
      · intro i _ _ _
        simp only [bid, updv]; grind

theorem kase2_post {p k r : Nat} {st : Main α} {s e : Nat → α} {U V : Nat → Nat → α} (hκ : 2 * k0 α ≤ κ) (hT : 0 ≤ T)
    (hv : View m n st s e U V) (hF : NFv m n κ T A r U V (bid (vv s) (vv e))) (hk0 : 0 < k) (hkp : k < p) (hp : p ≤ n)
    (hnm : n ≤ m) (hs : val (s (k - 1)) = 0) (hnz : ∀ j, k ≤ j + 1 → j + 1 < p → val (e j) ≠ 0) (hp1 : val (e (p - 1)) = 0) :
    ∃ st', kase2 m p k st = .ok st' ∧ ∃ s' e' U', View m n st' s' e' U' V ∧
      NFv m n κ T A (r + (p - k)) U' V (bid (vv s') (vv e')) ∧
      (∀ j, val (e j) = 0 → val (e' j) = 0) ∧ (∀ j, p ≤ j → s' j = s j) := by
  have h1 : usub k 1 = .ok (k - 1) := usub_ok (by omega)
  unfold kase2
  obtain ⟨e0, he0, hve0⟩ := hv.e.wr (i := k - 1) (by omega) 0
  simp only [h1, ok_bind, hv.e.rd (i := k - 1) (by omega), he0]
  have hloop := loop_post (lo := k) (hi := p) (s := (st.s, e0, st.u, e (k - 1)))
    (f := fun j (x : Buf α × Buf α × Buf α × α) => (do
      let (s, e, uu, f) := x
      let t ← hypot (← rd s j) f
      let cs ← RDiv.rdiv (← rd s j) t
      let sn ← RDiv.rdiv f t
      let s ← wr s j t
      let f := -sn * (← rd e j)
      let e ← wr e j (cs * (← rd e j))
      let uu ← rotCols m j (k - 1) cs sn uu
      return (s, e, uu, f) : R (Buf α × Buf α × Buf α × α)))
    (fun c x => ∃ s' e' U', Full x.1 n s' ∧ Full x.2.1 n e' ∧ FullG x.2.2.1 m m U' ∧
      NFv m n κ T A (r + (c - k)) U' V (fun i j => bid (vv s') (vv e') i j + if i = k - 1 ∧ j = c then val x.2.2.2 else 0) ∧
      (c < p → val x.2.2.2 ≠ 0) ∧ (c = p → val x.2.2.2 = 0) ∧ val (e' (k - 1)) = 0 ∧ (∀ j, val (e j) = 0 → val (e' j) = 0) ∧
      (∀ j, c ≤ j → e' j = e j) ∧ val (s' (k - 1)) = 0 ∧ (∀ j, p ≤ j → s' j = s j))
    (show k ≤ p by omega) ?_ ?_
  · obtain ⟨⟨s1, e1, u1, f1⟩, hrun, s', e', U', r1, r2, r3, r4, -, r5, r6, r7, -, -, r10⟩ := hloop
    refine ⟨⟨s1, e1, u1, st.v⟩, ?_, s', e', U', ⟨r1, r2, r3, hv.v⟩, ?_, r7, r10⟩
    · erw [hrun]; rfl
    · refine r4.congr (fun _ _ _ _ => rfl) (fun _ _ _ _ => rfl) fun i j _ _ => ?_
      rw [r5 rfl, ite_self, add_zero]
  · refine ⟨s, _, U, hv.s, hve0, hv.u, ?_, fun _ => hnz _ (by omega) (by omega), fun h => by omega, by simp [Sfp.zero], ?_, ?_, hs,
      fun _ _ => rfl⟩
    · rw [Nat.sub_self, Nat.add_zero]
      refine hF.congr (fun _ _ _ _ => rfl) (fun _ _ _ _ => rfl) fun i j _ _ => ?_
      clear hnz
      rw [vv_updv, Sfp.zero]
      have : vv e (k - 1) = val (e (k - 1)) := rfl
      simp only [bid, updv]
      grind
    · intro j hj
      simp only [updv]
      split
      · exact Sfp.zero
      · exact hj
    · intro j hj
      rw [updv_ne (by omega)]
  · rintro j ⟨s1, e1, u1, f1⟩ hkj hjp ⟨s', e', U', r1, r2, r3, r4, r5, -, r6, r7, r8, r9, r10⟩
    dsimp only at r1 r2 r3 r4 r5 ⊢
    have hf : val f1 ≠ 0 := r5 (by omega)
    obtain ⟨t, cs, sn, τ, c, sg, t1, t3, t4, hrot, hsg⟩ := rot_facts (a := s' j) hf
    obtain ⟨s2, hs2, hvs2⟩ := r1.wr (i := j) (by omega) t
    obtain ⟨v2, hv2, hvv2⟩ := rotCols_ok r3 (a := j) (b := k - 1) (by omega) (by omega) (by omega) cs sn
    have hR := r4.rotU k0_nonneg hκ hT (a := j) (b := k - 1) (by omega) (by omega) (by omega) hrot.unit
      (rotF_err (F := U') hrot)
      (M' := fun i q => bid (updv (vv s') j (val t)) (updv (vv e') j (val (cs * e' j))) i q +
        if i = k - 1 ∧ q = j + 1 then val (-sn * e' j) else 0)
      (kase2_rot k0_nonneg hk0 hkj r9 r6 hrot.top hrot.bot hrot.t_err (hrot.c_err (e' j)) (hrot.ns_err (e' j)))
    rw [show r + (j - k) + 1 = r + (j + 1 - k) by omega] at hR
    obtain ⟨e2, he2, hve2⟩ := r2.wr (i := j) (by omega) (cs * e' j)
    simp only [r1.rd (i := j) (by omega), r2.rd (i := j) (by omega), ok_bind, t1, t3, t4, hs2, he2, hv2, pure_eq_ok]
    refine Post.ok ⟨updv s' j t, _, _, hvs2, hve2, hvv2, ?_, ?_, ?_, ?_, ?_, ?_, ?_, ?_⟩
    · rw [vv_updv, vv_updv]
      exact hR
    · intro h
      dsimp only
      rw [r8 j le_rfl]
      exact mul_ne (neg_ne (hrot.sn_ne hsg)) (hnz _ (by omega) (by omega))
    · intro h
      dsimp only
      rw [r8 j le_rfl, show j = p - 1 by omega]
      exact mul_eq_zero' hp1
    · rw [updv_ne (by omega), r6]
    · intro i hi
      have h7 := r7 i hi
      by_cases h : i = j
      · rw [h, updv_same]; rw [h] at h7; exact mul_eq_zero' h7
      · rw [updv_ne h]; exact h7
    · intro i hi
      rw [updv_ne (by omega), r8 i (by omega)]
    · rw [updv_ne (by omega), r9]
    · intro i hi; rw [updv_ne (by omega), r10 i hi]

end Std
end LA
