import Verif.Proofs.StdEigIter
import Verif.Proofs.EigTql3
import Verif.Proofs.EigTred3

/-! # `tql2` in rounded arithmetic: deflation and sorting -/

set_option linter.unusedSectionVars false

namespace LA
open Finset Matrix
namespace Std
open Sfp SVD
open Eigen (trb tri phi Dev tqlIter tqlLoop tqlOne findM swap2 tqlSort tql2 tri_eq_trb)

/-- Either the budget of iterations was too small, or the result satisfies `P`. -/
def PF {β : Type} (x : R β) (P : β → Prop) : Prop := x = .error .fuel ∨ Post x P

theorem PF.bind {β γ : Type} {x : R β} {f : β → R γ} {P : β → Prop} {Q : γ → Prop} (h : PF x P) (hf : ∀ a, P a → PF (f a) Q) :
    PF (x >>= f) Q := by
  rcases h with h | ⟨a, h1, h2⟩
  · left; rw [h]; rfl
  · rw [h1, ok_bind]; exact hf a h2

theorem PF.mono {β : Type} {x : R β} {P Q : β → Prop} (h : PF x P) (hq : ∀ a, P a → Q a) : PF x Q := by
  rcases h with h | h
  · exact Or.inl h
  · exact Or.inr (h.mono hq)

theorem loop_pf {σ : Type} {lo hi : Nat} {s : σ} {f : Nat → σ → R σ} (Inv : Nat → σ → Prop) (hle : lo ≤ hi) (h0 : Inv lo s)
    (hstep : ∀ i s, lo ≤ i → i < hi → Inv i s → PF (f i s) (Inv (i + 1))) : PF (loop lo hi s f) (Inv hi) := by
  induction hi, hle using Nat.le_induction with
  | base => rw [loop_self]; exact Or.inr (Post.ok h0)
  | succ k hk ih =>
    rw [loop_succ hk]
    exact (ih fun i s h1 h2 h3 => hstep i s h1 (by omega) h3).bind fun a ha => hstep k a hk (by omega) ha

variable {α : Type} [Zero α] [One α] [Add α] [Sub α] [Neg α] [Mul α] [FloatOps α] [Sfp α]

theorem Ql.mono {n l m : Nat} {κ : ℝ} {A : Matrix (Fin n) (Fin n) ℝ} {r : Nat} {st : Dev α} {f : α} {δ ε : Nat → α}
    {V : Nat → Nat → α} (h : Ql n l m κ A r st f δ ε V) (hκ : 0 ≤ κ) {r' : Nat} (hr : r ≤ r') : Ql n l m κ A r' st f δ ε V :=
  ⟨h.d, h.e, h.v, h.lo, h.nz, h.fb.trans (mul_le_mul_of_nonneg_left (nb_mono hκ hr) (by norm_num)), h.sf.mono hκ hr⟩

theorem tqlLoop_post {n l m : Nat} {κ : ℝ} {A : Matrix (Fin n) (Fin n) ℝ} {tst1 : α} (hE : Eap α n κ) (hl : l < m) (hm : m < n)
    (ht : 0 ≤ val ((Eigen.eps : α) * tst1)) (fuel : Nat) : ∀ {r : Nat} {st : Dev α} {f : α} {δ ε : Nat → α} {V : Nat → Nat → α},
    Ql n l m κ A r st f δ ε V → val (ε l) ≠ 0 →
    PF (tqlLoop n l m tst1 fuel st f) fun x => ∃ δ' ε' V', Ql n l m κ A (r + fuel * (n + 1)) x.1 x.2 δ' ε' V' ∧ val (ε' m) = 0 ∧
      (∀ a, m < a → ε' a = ε a) ∧ |val (ε' l)| ≤ val ((Eigen.eps : α) * tst1) := by
  induction fuel with
  | zero => intro r st f δ ε V h hne; exact Or.inl rfl
  | succ fuel ih =>
    intro r st f δ ε V h hne
    obtain ⟨⟨st1, f1⟩, hr1, δ', ε', V', hI, g1, g2⟩ := tqlIter_post h hE hl hm hne
    dsimp only at hI
    have hI' := hI.mono hE.nonneg (show r + (m - l) + 2 ≤ r + (n + 1) by omega)
    simp only [tqlLoop]
    rw [hr1, ok_bind]
    dsimp only
    rw [hI.e.rd (i := l) (by omega), ok_bind]
    have hb : FloatOps.le (FloatOps.abs (ε' l)) (Eigen.eps * tst1) = true ↔ |val (ε' l)| ≤ val ((Eigen.eps : α) * tst1) := by
      rw [Sfp.le, Sfp.abs]
    by_cases hle : |val (ε' l)| ≤ val ((Eigen.eps : α) * tst1)
    · rw [if_pos (hb.2 hle)]
      refine Or.inr (Post.ok ⟨δ', ε', V', hI'.mono hE.nonneg ?_, g1, g2, hle⟩)
      rw [add_mul]; omega
    · rw [if_neg (fun h => hle (hb.1 h))]
      have hne' : val (ε' l) ≠ 0 := by
        intro h0; rw [h0, abs_zero] at hle; exact hle ht
      refine (ih hI' hne').mono fun x ⟨δ2, ε2, V2, k1, k2, k3, k5⟩ => ⟨δ2, ε2, V2, ?_, k2, fun a ha => by rw [k3 a ha, g2 a ha], k5⟩
      rw [show r + (fuel + 1) * (n + 1) = r + (n + 1) + fuel * (n + 1) by ring]
      exact k1

theorem findM_post {n : Nat} {e : Buf α} {ε : Nat → α} (he : Full e n ε) {tst1 : α} (ht : 0 ≤ val ((Eigen.eps : α) * tst1))
    (hz : val (ε (n - 1)) = 0) :
    ∀ k l : Nat, l + k = n → 0 < k → Post (findM e tst1 k l) fun m => l ≤ m ∧ m < n ∧ |val (ε m)| ≤ val ((Eigen.eps : α) * tst1) ∧
      ∀ a, l ≤ a → a < m → val ((Eigen.eps : α) * tst1) < |val (ε a)| := by
  intro k
  induction k with
  | zero => intro l _ h; omega
  | succ k ih =>
    intro l hl _
    simp only [findM]
    rw [he.rd (i := l) (by omega), ok_bind]
    have hb : FloatOps.le (FloatOps.abs (ε l)) (Eigen.eps * tst1) = true ↔ |val (ε l)| ≤ val ((Eigen.eps : α) * tst1) := by
      rw [Sfp.le, Sfp.abs]
    by_cases h : |val (ε l)| ≤ val ((Eigen.eps : α) * tst1)
    · rw [if_pos (hb.2 h)]
      exact Post.ok ⟨le_rfl, by omega, h, fun a h1 h2 => by omega⟩
    · rw [if_neg (fun h' => h (hb.1 h'))]
      have hk : 0 < k := by
        rcases Nat.eq_zero_or_pos k with h0 | h0
        · exfalso; apply h
          rw [show l = n - 1 by omega, hz, abs_zero]; exact ht
        · exact h0
      refine (ih (l + 1) (by omega) hk).mono fun m ⟨h1, h2, h3, h4⟩ => ⟨by omega, h2, h3, fun a h5 h6 => ?_⟩
      by_cases e : a = l
      · rw [e]; exact not_le.1 h
      · exact h4 a (by omega) h6

/-- State before the `l`-th eigenvalue. -/
structure One' (n : Nat) (κ : ℝ) (A : Matrix (Fin n) (Fin n) ℝ) (r l : Nat) (x : Dev α × α × α) (δ ε : Nat → α) (V : Nat → Nat → α) :
    Prop where
  d : Full x.1.d n δ
  e : Full x.1.e n ε
  v : FullG x.1.v n n V
  lo : ∀ a, a < l → val (ε a) = 0
  last : val (ε (n - 1)) = 0
  f : |val x.2.1| ≤ 4 * nb κ A r
  t0 : 0 ≤ val x.2.2
  t1 : val x.2.2 ≤ 7 * nb κ A r
  sf : SF n κ A r (tt V) (tri (fun a => val (δ a) + phi l (val x.2.1) a) (fun a => val (ε a)))

/-- Setting the off-diagonal entry `m` to zero. -/
theorem SF.deflate {n m r : Nat} {κ : ℝ} {A : Matrix (Fin n) (Fin n) ℝ} {V : Nat → Nat → ℝ} {δ ε : Nat → ℝ} (hκ : 0 ≤ κ)
    (h : SF n κ A r V (tri δ ε)) (ht : 2 * |ε m| ≤ κ * nb κ A r) : SF n κ A (r + 1) V (tri δ (updv ε m 0)) := by
  refine h.perturb hκ (tri_close.trans (le_trans ?_ ht))
  have s1 : ∑ a ∈ range n, |δ a - δ a| = 0 := Finset.sum_eq_zero fun a _ => by rw [sub_self, abs_zero]
  have s2 : ∑ a ∈ range n, |updv ε m 0 a - ε a| ≤ |ε m| + 0 := by
    refine sum_two (i := m) (abs_nonneg _) le_rfl ?_ ?_ ?_
    · rw [updv_same, zero_sub, abs_neg]
    · rw [updv_ne (by omega), sub_self, abs_zero]
    · intro a h1 _
      rw [updv_ne h1, sub_self, abs_zero]
  linarith

theorem tqlOne_post {n l r : Nat} {κ : ℝ} {A : Matrix (Fin n) (Fin n) ℝ} {x : Dev α × α × α} {δ ε : Nat → α} {V : Nat → Nat → α}
    (hE : Eap α n κ) (h : One' n κ A r l x δ ε V) (hl : l < n) (fuel : Nat) :
    PF (tqlOne fuel n l x) fun x' => ∃ δ ε V, One' n κ A (r + (fuel * (n + 1) + 3)) (l + 1) x' δ ε V := by
  have hw : 1 ≤ w α := w_one
  have hκ := hE.nonneg
  have hk := kq_nonneg (α := α)
  obtain ⟨st, f, tst⟩ := x
  have hd := h.d
  have he := h.e
  have hf := h.f
  have ht0 := h.t0
  have ht1 := h.t1
  have hsf := h.sf
  dsimp only at hd he hf ht0 ht1 hsf
  set N := nb κ A r with hNd
  have hN : 0 ≤ N := nb_nonneg hκ r
  have kN : kq α * N ≤ 1 / 40 * N := mul_le_mul_of_nonneg_right hE.small hN
  set T : α := FloatOps.max tst (FloatOps.abs (δ l) + FloatOps.abs (ε l)) with hT
  have hdl : |val (δ l)| ≤ 5 * N := by
    have h1 := hsf.entry hl hl
    rw [tri_dg, show phi l (val f) l = val f from if_neg (lt_irrefl l)] at h1
    have h3 := abs_sub (val (δ l) + val f) (val f)
    rw [add_sub_cancel_right] at h3
    linarith
  have hel : |val (ε l)| ≤ N := by
    by_cases e : l + 1 < n
    · have h1 := hsf.entry e hl
      rwa [tri_up] at h1
    · rw [show l = n - 1 by omega, h.last, abs_zero]; exact hN
  have hTv : val T = Max.max (val tst) (val (FloatOps.abs (δ l) + FloatOps.abs (ε l))) := Sfp.max _ _
  have hT0 : 0 ≤ val T := by rw [hTv]; exact ht0.trans (le_max_left _ _)
  have hT1 : val T ≤ 7 * N := by
    rw [hTv]
    refine max_le ht1 ?_
    have h1 := (add_rt (FloatOps.abs (δ l)) (FloatOps.abs (ε l)))
    rw [Sfp.abs, Sfp.abs] at h1
    have h2 := h1.le hw (by positivity)
    have h3 := hE.w_le (k := 1) (by omega)
    have h4 : w α ^ 1 * (|val (δ l)| + |val (ε l)|) ≤ 41 / 40 * (6 * N) := mul_le_mul h3 (by linarith) (by positivity) (by norm_num)
    linarith
  have hep : Rt (w α) 2 (val ((Eigen.eps : α) * T)) (1 / 2 ^ 52 * val T) := by
    have h1 : Rt (w α) 1 (val (Eigen.eps : α)) (1 / 2 ^ 52) := by
      have := cst_rt (α := α) 1 (2 ^ 52)
      unfold Eigen.eps
      rwa [show ((1 : ℤ) : ℝ) / (((2 ^ 52 : ℕ)) : ℝ) = 1 / 2 ^ 52 by norm_num] at this
    exact mul_rt' h1 (Rt.refl (val T))
  set θ := val ((Eigen.eps : α) * T) with hθd
  have hθ : 0 ≤ θ := hep.nonneg hw (by positivity)
  have hθ1 : 2 * θ ≤ κ * N := by
    have h1 := hep.le hw (by positivity)
    have h2 := hE.w_le (k := 2) (by omega)
    have h3 : w α ^ 2 * (1 / 2 ^ 52 * val T) ≤ 41 / 40 * (1 / 2 ^ 52 * (7 * N)) :=
      mul_le_mul h2 (mul_le_mul_of_nonneg_left hT1 (by positivity)) (by positivity) (by norm_num)
    have h4 : 1 / 2 ^ 47 * N ≤ κ * N := mul_le_mul_of_nonneg_right hE.eps hN
    norm_num at h3 h4
    linarith
  obtain ⟨m, hrm, hm1, hm2, hm3, hm4⟩ := findM_post he hθ h.last (n - l) l (by omega) (by omega)
  -- the end of the step
  have hend : ∀ (st' : Dev α) (f' : α) (δ' ε' : Nat → α) (V' : Nat → Nat → α) (r' : Nat), Full st'.d n δ' → Full st'.e n ε' →
      FullG st'.v n n V' → (∀ a, a < l → val (ε' a) = 0) → val (ε' (n - 1)) = 0 → r ≤ r' → r' + 1 ≤ r + (fuel * (n + 1) + 3) →
      |val f'| ≤ 4 * nb κ A r' →
      SF n κ A r' (tt V') (tri (fun a => val (δ' a) + phi l (val f') a) (updv (fun a => val (ε' a)) l 0)) →
      PF (do
        let d ← LA.wr st'.d l ((← LA.rd st'.d l) + f')
        let e ← LA.wr st'.e l 0
        return ((⟨d, e, st'.v⟩, f', T) : Dev α × α × α)) fun x' => ∃ δ ε V, One' n κ A (r + (fuel * (n + 1) + 3)) (l + 1) x' δ ε V := by
    intro st' f' δ' ε' V' r' k1 k2 k3 k4 k5 kr kr2 k6 k7
    obtain ⟨d1, hd1, hg1⟩ := k1.wr (i := l) hl (δ' l + f')
    obtain ⟨e1, he1, hg2⟩ := k2.wr (i := l) hl 0
    rw [k1.rd (i := l) hl, ok_bind, hd1, ok_bind, he1, ok_bind]
    have v0 : val (0 : α) = 0 := Sfp.zero
    refine Or.inr (Post.ok ⟨_, _, V', hg1, hg2, k3, ?_, ?_, ?_, hT0, ?_, ?_⟩)
    · intro a ha
      by_cases e : a = l
      · rw [e, updv_same, v0]
      · rw [updv_ne e, k4 a (by omega)]
    · by_cases e : n - 1 = l
      · rw [e, updv_same, v0]
      · rw [updv_ne e, k5]
    · exact k6.trans (mul_le_mul_of_nonneg_left (nb_mono hκ (by omega)) (by norm_num))
    · exact hT1.trans (mul_le_mul_of_nonneg_left (nb_mono hκ (by omega)) (by norm_num))
    · refine SF.mono hκ (SF.perturb hκ k7 (tri_close.trans ?_)) kr2
      have hN' : 0 ≤ nb κ A r' := nb_nonneg hκ r'
      have s1 : ∑ a ∈ range n, |(val (updv δ' l (δ' l + f') a) + phi (l + 1) (val f') a) - (val (δ' a) + phi l (val f') a)| ≤
          kq α * nb κ A r' + 0 := by
        refine sum_two (i := l) (by positivity) le_rfl ?_ ?_ ?_
        · rw [updv_same, show phi (l + 1) (val f') l = 0 from if_pos (by omega), show phi l (val f') l = val f' from if_neg (lt_irrefl l), add_zero]
          have h1 := k7.entry hl hl
          rw [tri_dg, show phi l (val f') l = val f' from if_neg (lt_irrefl l)] at h1
          have h2 := (((add_rt (δ' l) f').mono hw (show 1 ≤ 20 by omega)).sub hw)
          exact h2.trans (mul_le_mul_of_nonneg_left h1 hk)
        · rw [updv_ne (by omega), show phi (l + 1) (val f') (l + 1) = val f' from if_neg (by omega),
            show phi l (val f') (l + 1) = val f' from if_neg (by omega), sub_self, abs_zero]
        · intro a h1 h2
          have h3 : phi (l + 1) (val f') a = phi l (val f') a := by
            unfold phi
            by_cases h4 : a < l
            · rw [if_pos h4, if_pos (by omega)]
            · rw [if_neg h4, if_neg (by omega)]
          rw [updv_ne h1, h3, sub_self, abs_zero]
      have s2 : ∑ a ∈ range n, |val (updv ε' l (0 : α) a) - updv (fun a => val (ε' a)) l 0 a| = 0 := by
        refine Finset.sum_eq_zero fun a _ => ?_
        by_cases e : a = l
        · rw [e, updv_same, updv_same, v0, sub_self, abs_zero]
        · rw [updv_ne e, updv_ne e, sub_self, abs_zero]
      have s3 : 200 * kq α * nb κ A r' ≤ κ * nb κ A r' := mul_le_mul_of_nonneg_right hE.rot hN'
      have s4 : 0 ≤ kq α * nb κ A r' := mul_nonneg hk hN'
      linarith
  have hpre : tqlOne fuel n l (st, f, tst) = ((do if l < m then tqlLoop n l m T fuel st f else return (st, f)) >>=
      fun x : Dev α × α => (do
        let d ← LA.wr x.1.d l ((← LA.rd x.1.d l) + x.2)
        let e ← LA.wr x.1.e l 0
        return ((⟨d, e, x.1.v⟩, x.2, T) : Dev α × α × α))) := by
    unfold tqlOne
    dsimp only
    rw [hd.rd hl, ok_bind, he.rd hl, ok_bind, ← hT, hrm, ok_bind]
  rw [hpre]
  by_cases hlm : l < m
  · rw [if_pos hlm]
    have hne : val (ε l) ≠ 0 := by
      intro h0
      have := hm4 l le_rfl hlm
      rw [h0, abs_zero] at this
      linarith
    have hQ : Ql n l m κ A (r + 1) st f δ ε V := by
      refine ⟨hd, he, h.v, h.lo, fun a h1 h2 => ?_, hf.trans (mul_le_mul_of_nonneg_left (nb_mono hκ (by omega)) (by norm_num)),
        hsf.deflate hκ (by linarith)⟩
      intro h0
      have := hm4 a (by omega) h2
      rw [h0, abs_zero] at this
      linarith
    refine (tqlLoop_post hE hlm hm2 hθ fuel hQ hne).bind ?_
    rintro ⟨st1, f1⟩ ⟨δ', ε', V', k1, k2, k3, k5⟩
    dsimp only at k1
    refine hend st1 f1 δ' ε' V' (r + 1 + fuel * (n + 1) + 1) k1.d k1.e k1.v k1.lo ?_ (by omega) (by omega)
      (k1.fb.trans (mul_le_mul_of_nonneg_left (nb_mono hκ (by omega)) (by norm_num))) ?_
    · by_cases e : n - 1 = m
      · rw [e, k2]
      · rw [k3 (n - 1) (by omega), h.last]
    · refine SF.deflate (ε := fun a => val (ε' a)) hκ (k1.sf.congr (fun _ _ _ _ => rfl) fun a b _ _ => ?_) ?_
      · congr 1
        funext a
        by_cases e : a = m
        · rw [e, updv_same, k2]
        · rw [updv_ne e]
      · have h1 : κ * N ≤ κ * nb κ A (r + 1 + fuel * (n + 1)) := mul_le_mul_of_nonneg_left (nb_mono hκ (by omega)) hκ
        linarith
  · rw [if_neg hlm]
    have hml : m = l := by omega
    rw [hml] at hm3
    refine hend st f δ ε V (r + 1) hd he h.v h.lo h.last (by omega) (by omega)
      (hf.trans (mul_le_mul_of_nonneg_left (nb_mono hκ (by omega)) (by norm_num))) (hsf.deflate hκ (by linarith))

theorem swap2_post {n i k : Nat} {v : Buf α} {V : Nat → Nat → α} (hv : FullG v n n V) (hi : i < n) (hk : k < n) :
    Post (swap2 n i k v) fun r => FullG r n n (fun a b => V a (if b = i then k else if b = k then i else b)) := by
  unfold swap2
  refine (loop_rows (lo := 0) (hi := n) (fun a b => some (V a (if b = i then k else if b = k then i else b))) hv ?_).mono
    fun r h => Grid.congr h fun a b ha _ => by rw [if_pos ⟨by omega, ha⟩]
  intro j d' G' _ hj hG heq
  have e1 : G' j i = some (V j i) := heq j i (by omega)
  have e2 : G' j k = some (V j k) := heq j k (by omega)
  rw [hG.rd hj hi e1, ok_bind, hG.rd hj hk e2, ok_bind]
  refine (hG.wr hj hi _).bind fun d1 h1 => ?_
  refine (h1.wr hj hk _).mono fun d2 h2 => h2.congr fun a b _ _ => ?_
  have h3 := heq j b (by omega)
  clear heq
  simp only [upd]
  grind

/-- State of the sort. -/
structure Srt (n : Nat) (κ : ℝ) (A : Matrix (Fin n) (Fin n) ℝ) (r : Nat) (i : Nat) (d v : Buf α) (δ : Nat → α) (V : Nat → Nat → α) :
    Prop where
  d : Full d n δ
  v : FullG v n n V
  ord : ∀ a b, a < i → a < b → b < n → val (δ b) ≤ val (δ a)
  sf : SF n κ A r (tt V) (tri (fun a => val (δ a)) fun _ => 0)

theorem tqlSort_post {n i r : Nat} {κ : ℝ} {A : Matrix (Fin n) (Fin n) ℝ} {d v : Buf α} {δ : Nat → α} {V : Nat → Nat → α}
    (h : Srt n κ A r i d v δ V) (hi : i < n) :
    Post (tqlSort n i d v) fun x => ∃ δ V, Srt n κ A r (i + 1) x.1 x.2 δ V := by
  unfold tqlSort
  rw [h.d.rd (i := i) hi, ok_bind]
  have hl := loop_post (lo := i + 1) (hi := n) (s := (i, δ i)) (f := fun j (x : Nat × α) => (do
      let (k, p) := x
      if FloatOps.lt p (← LA.rd d j) then return (j, ← LA.rd d j) else return (k, p) : R (Nat × α)))
    (fun c x => i ≤ x.1 ∧ x.1 < n ∧ x.2 = δ x.1 ∧ ∀ a, i ≤ a → a < c → val (δ a) ≤ val x.2) (by omega)
    ⟨le_rfl, hi, rfl, fun a h1 h2 => by rw [show a = i by omega]⟩ (by
    rintro j ⟨k, p⟩ hj1 hj2 ⟨h1, h2, h3, h4⟩
    dsimp only at h1 h2 h3 h4 ⊢
    rw [h.d.rd (i := j) hj2, ok_bind]
    by_cases hc : val p < val (δ j)
    · rw [if_pos ((Sfp.lt _ _).2 hc), ok_bind]
      refine Post.ok ⟨by show i ≤ j; omega, hj2, rfl, fun a h5 h6 => ?_⟩
      show val (δ a) ≤ val (δ j)
      by_cases e : a = j
      · rw [e]
      · exact (h4 a h5 (by omega)).trans hc.le
    · rw [if_neg (fun h' => hc ((Sfp.lt _ _).1 h'))]
      refine Post.ok ⟨h1, h2, h3, fun a h5 h6 => ?_⟩
      show val (δ a) ≤ val p
      by_cases e : a = j
      · rw [e]; exact not_lt.1 hc
      · exact h4 a h5 (by omega))
  obtain ⟨⟨k, p⟩, hr, h1, h2, h3, h4⟩ := hl
  dsimp only at h1 h2 h3 h4
  erw [hr]
  rw [ok_bind]
  dsimp only
  by_cases hk : k = i
  · rw [if_neg (by simpa using hk)]
    refine Post.ok ⟨δ, V, h.d, h.v, fun a b ha hab hb => ?_, h.sf⟩
    by_cases e : a = i
    · rw [e]
      rw [hk] at h3
      rw [← h3]
      exact h4 b (by omega) hb
    · exact h.ord a b (by omega) hab hb
  · rw [if_pos (by simpa using hk)]
    obtain ⟨d1, hd1, hf1⟩ := h.d.wr (i := k) h2 (δ i)
    obtain ⟨d2, hd2, hf2⟩ := hf1.wr (i := i) hi p
    obtain ⟨v1, hv1, hg1⟩ := swap2_post (i := i) (k := k) h.v hi h2
    rw [ok_bind, hd1, ok_bind, hd2, ok_bind, hv1, ok_bind]
    have hval : ∀ a, updv (updv δ k (δ i)) i p a = δ (if a = i then k else if a = k then i else a) := by
      intro a
      simp only [updv]
      by_cases e : a = i
      · rw [if_pos e, if_pos e, h3]
      · rw [if_neg e, if_neg e]
        by_cases e2 : a = k
        · rw [if_pos e2, if_pos e2]
        · rw [if_neg e2, if_neg e2]
    refine Post.ok ⟨_, _, hf2, hg1, fun a b ha hab hb => ?_, ?_⟩
    · rw [hval, hval]
      by_cases e : a = i
      · rw [if_pos e, ← h3, if_neg (show ¬ b = i by omega)]
        split
        · exact h4 i le_rfl hi
        · exact h4 b (by omega) hb
      · rw [if_neg e, if_neg (show ¬ a = k by omega)]
        split
        · exact h.ord a k (by omega) (by omega) h2
        · split
          · exact h.ord a i (by omega) (by omega) hi
          · exact h.ord a b (by omega) hab hb
    · have hsw : ∀ j : Fin n, ((Equiv.swap (⟨i, hi⟩ : Fin n) ⟨k, h2⟩ j : Fin n) : Nat) =
          if j.1 = i then k else if j.1 = k then i else j.1 := by
        intro j
        rw [Equiv.swap_apply_def]
        simp only [Fin.ext_iff]
        split
        · rfl
        · split <;> rfl
      refine h.sf.perm (Equiv.swap ⟨i, hi⟩ ⟨k, h2⟩) (fun a b => ?_) (fun a b => ?_)
      · show val (V a (if b.1 = i then k else if b.1 = k then i else b.1)) = val (V a _)
        rw [hsw]
      · show tri (fun c => val (updv (updv δ k (δ i)) i p c)) (fun _ => 0) a b = tri (fun c => val (δ c)) (fun _ => 0) _ _
        have : ((Equiv.swap (⟨i, hi⟩ : Fin n) ⟨k, h2⟩ a : Fin n) : Nat) = ((Equiv.swap (⟨i, hi⟩ : Fin n) ⟨k, h2⟩ b : Fin n) : Nat) ↔ a.1 = b.1 := by
          rw [← Fin.ext_iff, ← Fin.ext_iff]; exact (Equiv.swap _ _).injective.eq_iff
        simp only [tri, this, ite_self]
        rw [hval, hsw]

/-- `tql2`: if `A` is close to `V T V'` with a tridiagonal `T`, the result is close to a spectral decomposition of `A`. -/
theorem tql2_post {n r : Nat} {κ : ℝ} {A : Matrix (Fin n) (Fin n) ℝ} {st : Dev α} {δ ε : Nat → α} {V : Nat → Nat → α} (hE : Eap α n κ)
    (hn : 0 < n) (hd : Full st.d n δ) (he : Full st.e n ε) (hv : FullG st.v n n V)
    (hA : SF n κ A r (tt V) (Eigen.trid (fun a => val (δ a)) (fun a => val (ε a)))) (fuel : Nat) :
    PF (tql2 fuel n st) fun x => ∃ δ' ε' V', Full x.d n δ' ∧ Full x.e n ε' ∧ (∀ a, a < n → val (ε' a) = 0) ∧ FullG x.v n n V' ∧
      SF n κ A (r + n * (fuel * (n + 1) + 3)) (tt V') (tri (fun a => val (δ' a)) fun _ => 0) ∧
      ∀ a b, a < b → b < n → val (δ' b) ≤ val (δ' a) := by
  have hκ := hE.nonneg
  unfold tql2
  have hu1 : usub n 1 = .ok (n - 1) := usub_ok (by omega)
  obtain ⟨e1, hr1, hf1⟩ := loop_post (lo := 1) (hi := n) (s := st.e) (f := fun i e => do LA.wr e (← usub i 1) (← LA.rd e i))
    (fun c e => Full e n (fun a => if a + 1 < c then ε (a + 1) else ε a)) (by omega)
    (he.congr fun a _ => by rw [if_neg (by omega)]) (by
    intro i e h1 h2 h3
    obtain ⟨e2, hr2, hf2⟩ := h3.wr (i := i - 1) (by omega) (ε i)
    rw [usub_ok (by omega), ok_bind, h3.rd (i := i) h2, ok_bind, if_neg (by omega), hr2]
    refine Post.ok (hf2.congr fun a _ => ?_)
    by_cases e : a = i - 1
    · rw [e, updv_same, if_pos (by omega), show i - 1 + 1 = i by omega]
    · rw [updv_ne e]
      by_cases e2 : a + 1 < i
      · rw [if_pos e2, if_pos (by omega)]
      · rw [if_neg e2, if_neg (by omega)])
  obtain ⟨e2, hr2, hf2⟩ := hf1.wr (i := n - 1) (by omega) 0
  simp only [hu1, hr1, hr2, ok_bind]
  have v0 : val (0 : α) = 0 := Sfp.zero
  have h0 : One' n κ A r 0 ((⟨st.d, e2, st.v⟩ : Dev α), (0 : α), (0 : α)) δ
      (updv (fun a => if a + 1 < n then ε (a + 1) else ε a) (n - 1) 0) V := by
    have hN : 0 ≤ nb κ A r := nb_nonneg hκ r
    refine ⟨hd, hf2, hv, fun a h => by omega, by rw [updv_same, v0], by rw [v0, abs_zero]; linarith, by rw [v0],
      by rw [v0]; linarith, ?_⟩
    refine hA.congr (fun _ _ _ _ => rfl) fun a b ha hb => ?_
    dsimp only
    rw [v0]
    unfold tri Eigen.trid phi updv
    clear hr1 hr2 hf1 hf2
    grind
  refine (loop_pf (f := fun l x => tqlOne fuel n l x) (fun l x => ∃ δ ε V, One' n κ A (r + l * (fuel * (n + 1) + 3)) l x δ ε V)
    (Nat.zero_le n) ⟨_, _, _, by rw [zero_mul, add_zero]; exact h0⟩
    (fun i x _ hi ⟨δ, ε, V, h⟩ => by
      have := tqlOne_post hE h hi fuel
      rw [show r + (i + 1) * (fuel * (n + 1) + 3) = r + i * (fuel * (n + 1) + 3) + (fuel * (n + 1) + 3) by ring]
      exact this)).bind ?_
  rintro ⟨st1, f1, t1⟩ ⟨δ1, ε1, V1, h1⟩
  refine Or.inr ?_
  dsimp only
  have hs := loop_post (lo := 0) (hi := n - 1) (s := (st1.d, st1.v))
    (f := fun i (x : Buf α × Buf α) => (do let (d, v) := x; tqlSort n i d v : R (Buf α × Buf α)))
    (fun i x => ∃ δ V, Srt n κ A (r + n * (fuel * (n + 1) + 3)) i x.1 x.2 δ V) (by omega)
    ⟨δ1, V1, h1.d, h1.v, fun a b h => by omega, h1.sf.congr (fun _ _ _ _ => rfl) fun a b ha hb => by
      have e1 := h1.lo a
      have e2 := h1.lo b
      unfold tri phi
      clear h0 h1
      grind⟩ (by
    rintro i ⟨d, v⟩ - hi ⟨δ, V, h⟩
    exact tqlSort_post h (by omega))
  obtain ⟨⟨d2, v2⟩, hr3, δ2, V2, h2⟩ := hs
  erw [hr3]
  rw [ok_bind]
  exact Post.ok ⟨δ2, ε1, V2, h2.d, h1.e, fun a ha => h1.lo a ha, h2.v, h2.sf, fun a b hab hb => h2.ord a b (by omega) hab hb⟩

end Std
end LA
