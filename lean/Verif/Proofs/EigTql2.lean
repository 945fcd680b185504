import Verif.Proofs.EigTql
import Verif.Proofs.Wilk

/-! # `tql2`: the implicit QL sweep -/

set_option linter.unusedSectionVars false

namespace LA
open Finset Matrix
namespace Eigen
open SVD (pk pk_rotc pk_rotr pk_congr)

theorem tqlRot_post {n i : Nat} {v : Buf ℝ} {V : Nat → Nat → ℝ} (hv : FullG v n n V) (hi : i + 1 < n) (c s : ℝ) :
    Post (tqlRot n i c s v) fun r => FullG r n n (rotc V i (i + 1) c (-s)) := by
  unfold tqlRot
  refine (loopG_rows (lo := 0) (hi := n) (fun a b => rotc V i (i + 1) c (-s) a b) hv ?_).mono fun r h => h.congr fun a b ha _ => by
    rw [if_pos ⟨by omega, ha⟩]
  intro k d' G' _ hk hG heq
  obtain ⟨v1, hr1, hg1⟩ := hG.wr (i := k) (j := i + 1) hk hi (s * G' k i + c * G' k (i + 1))
  obtain ⟨v2, hr2, hg2⟩ := hg1.wr (i := k) (j := i) hk (by omega) (c * G' k i - s * G' k (i + 1))
  rw [hG.rd (i := k) (j := i + 1) hk hi, ok_bind, hG.rd (i := k) (j := i) hk (by omega), ok_bind, hr1, ok_bind,
    hg1.rd (i := k) (j := i) hk (by omega), ok_bind, upd_ne (by omega), hr2]
  refine Post.ok (hg2.congr fun a b _ _ => ?_)
  have h1 := heq k i (by omega)
  have h2 := heq k (i + 1) (by omega)
  have h3 := heq k b (by omega)
  clear heq
  simp only [upd, rotc]
  grind

/-- The accumulated shift belongs to the indices `l..`. -/
def phi (l : Nat) (f : ℝ) : Nat → ℝ := fun a => if a < l then 0 else f

/-- State of the sweep when the rotations `k..m` have been done. -/
structure SwInv (n l m : Nat) (A : Matrix (Fin n) (Fin n) ℝ) (E f : ℝ) (δ0 ε0 : Nat → ℝ) (k : Nat) (x : Sweep ℝ)
    (δ ε : Nat → ℝ) (V : Nat → Nat → ℝ) : Prop where
  d : Full x.st.d n δ
  e : Full x.st.e n ε
  v : FullG x.st.v n n V
  dlo : ∀ a, a ≤ k → δ a = δ0 a
  elo : ∀ a, a ≤ k → ε a = ε0 a
  ehi : ∀ a, m < a → ε a = ε0 a
  em : k < m → ε m = 0
  nz : ∀ a, l ≤ a → a < m → ε a ≠ 0
  cs : x.c ^ 2 + x.s ^ 2 = 1
  top : k = m → x.c = 1 ∧ x.s = 0
  snz : k < m → x.s ≠ 0
  c2 : |x.c2| ≤ 1
  p : x.p = x.c * δ0 k - x.s * x.c2 * ε0 k
  hist : k < m → ∃ p1 r, 0 < r ∧ r ^ 2 = p1 ^ 2 + ε0 k ^ 2 ∧ x.c = p1 / r ∧ x.s = ε0 k / r ∧
    p1 = x.c2 * δ0 (k + 1) - x.s2 * x.c3 * ε0 (k + 1) ∧ ε (k + 1) = x.s2 * r ∧ |x.c3| ≤ 1 ∧ x.c2 ^ 2 + x.s2 ^ 2 = 1 ∧
    (k + 1 = m → x.s2 = 0)
  ap : Ap n A V (trb k (fun a => (if a = k then x.c * x.p else δ a) + phi l f a)
    (fun a => if a = k then x.s * x.p else if a + 1 = k then x.c * ε a else ε a) (x.s * ε (k - 1))) E

theorem tqlStep_post {n l m : Nat} {A : Matrix (Fin n) (Fin n) ℝ} {E f : ℝ} {δ0 ε0 : Nat → ℝ} {i : Nat} {x : Sweep ℝ}
    {δ ε : Nat → ℝ} {V : Nat → Nat → ℝ} (h : SwInv n l m A E f δ0 ε0 (i + 1) x δ ε V) (hl : l ≤ i) (hm : i < m) (hn : m < n) :
    Post (tqlStep n i x) fun x' => ∃ δ ε V, SwInv n l m A E f δ0 ε0 i x' δ ε V := by
  unfold tqlStep
  have hei : ε i ≠ 0 := h.nz i hl hm
  obtain ⟨r, r1, r2, r3, r4, r5, r6, r7, r8, r9⟩ := SVD.rot_facts (a := x.p) hei
  obtain ⟨e1, he1, hf1⟩ := h.e.wr (i := i + 1) (by omega) (x.s * r)
  rw [h.e.rd (i := i) (by omega), ok_bind, r1, ok_bind, he1, ok_bind, hf1.rd (i := i) (by omega), ok_bind,
    updv_ne (by omega), r4, ok_bind, r3, ok_bind, h.d.rd (i := i) (by omega), ok_bind, ok_bind]
  set c := x.p / r with hc
  set s := ε i / r with hs
  obtain ⟨d1, hd1, hg1⟩ := h.d.wr (i := i + 1) (by omega) (x.c * x.p + s * (c * (x.c * ε i) + s * δ i))
  obtain ⟨v1, hv1, hw1⟩ := tqlRot_post h.v (i := i) (by omega) c s
  rw [hd1, ok_bind, hv1, ok_bind]
  have hsq : r ^ 2 = x.p ^ 2 + ε i ^ 2 := by
    have e1 : c * r = x.p := by rw [hc]; field_simp
    have e2 : s * r = ε i := by rw [hs]; field_simp
    have : (c ^ 2 + s ^ 2) * r ^ 2 = x.p ^ 2 + ε i ^ 2 := by rw [← e1, ← e2]; ring
    rw [r5, one_mul] at this; exact this
  refine Post.ok ⟨_, _, _, hg1, hf1, hw1, ?_, ?_, ?_, ?_, ?_, r5, ?_, ?_, ?_, ?_, ?_, ?_⟩
  · intro a ha
    rw [updv_ne (by omega), h.dlo a (by omega)]
  · intro a ha
    rw [updv_ne (by omega), h.elo a (by omega)]
  · intro a ha
    rw [updv_ne (by omega), h.ehi a ha]
  · intro _
    by_cases e : m = i + 1
    · subst e
      rw [updv_same, (h.top rfl).2, zero_mul]
    · rw [updv_ne e, h.em (by omega)]
  · intro a h1 h2
    by_cases e : a = i + 1
    · subst e
      rw [updv_same]
      exact mul_ne_zero (h.snz h2) r2
    · rw [updv_ne e]; exact h.nz a h1 h2
  · intro e; omega
  · intro _; exact r7
  · show |x.c| ≤ 1
    have := h.cs
    exact abs_le.2 ⟨by nlinarith [sq_nonneg x.s], by nlinarith [sq_nonneg x.s]⟩
  · show c * δ i - s * (x.c * ε i) = c * δ0 i - s * x.c * ε0 i
    rw [h.dlo i (by omega), h.elo i (by omega)]; ring
  · intro _
    refine ⟨x.p, r, r9, ?_, rfl, ?_, h.p, by rw [updv_same], h.c2, h.cs, fun e => (h.top e).2⟩
    · rw [hsq, h.elo i (by omega)]
    · rw [hs, h.elo i (by omega)]
  · have hA := h.ap.rot (i := i) (j := i + 1) (by omega) (by omega) (by omega) (cs := c) (sn := -s) (by rw [neg_sq]; exact r5)
    refine hA.congr fun a b _ _ => ?_
    have hp0 : phi l f i = f := if_neg (by omega)
    have hp1 : phi l f (i + 1) = f := if_neg (by omega)
    have k1 : s * ε i + c * x.p = r := by linarith
    have k2 : c * ε i = s * x.p := by linarith
    have k3 : c * r = x.p := by rw [hc]; field_simp
    clear_value c s
    refine trb_rot ?_ ?_ ?_ ?_ ?_ ?_ ?_ ?_ ?_ a b
    · intro a h1 h2
      dsimp only
      rw [if_neg h1, if_neg h2, updv_ne h2]
    · intro a h1 h2 h3
      dsimp only
      rw [if_neg h1, if_neg h3, if_neg h2, if_neg (by omega), updv_ne h2]
    · simp only [if_true, hp0, hp1]
      rw [if_neg (show ¬ i = i + 1 by omega), if_neg (show ¬ i = i + 1 by omega)]
      linear_combination f * r5 + (- s * x.c) * k2
    · simp only [if_true, hp0, hp1]
      rw [if_neg (show ¬ i = i + 1 by omega), if_neg (show ¬ i = i + 1 by omega), if_neg (show ¬ i + 1 = i by omega), updv_same]
      linear_combination f * r5 + (c * x.c) * k1 + x.c * k3
    · simp only [if_true, hp0, hp1]
      rw [if_neg (show ¬ i = i + 1 by omega), if_neg (show ¬ i = i + 1 by omega)]
      linear_combination (c * x.c) * k2
    · simp only [if_true]
      rw [if_neg (show ¬ i + 1 = i by omega), if_neg (show ¬ i + 1 + 1 = i by omega), updv_same, show i + 1 - 1 = i from rfl]
      linear_combination x.s * k1
    · simp only [if_true]
      rw [show i + 1 - 1 = i from rfl]
      linear_combination x.s * k2
    · intro hi0
      dsimp only
      rw [if_neg (by omega), if_neg (by omega), if_neg (by omega), if_pos (by omega), updv_ne (by omega)]
    · intro hi0
      dsimp only
      rw [if_neg (by omega), if_neg (by omega), updv_ne (by omega)]

theorem tqlShift_post {n l : Nat} {d e : Buf ℝ} {δ ε : Nat → ℝ} {f : ℝ} (hd : Full d n δ) (he : Full e n ε) (hl : l + 1 < n)
    (hne : ε l ≠ 0) :
    Post (tqlShift n l d e f) fun r => ∃ h, r.2 = f + h ∧ Full r.1 n (fun a => if a < l then δ a else δ a - h) ∧
      (δ l - h) * (δ (l + 1) - h) = ε l ^ 2 ∧ |δ l - h| ≤ |ε l| := by
  unfold tqlShift
  have h2 : (2 : ℝ) * ε l ≠ 0 := mul_ne_zero (by norm_num) hne
  rw [hd.rd (i := l) (by omega), ok_bind, he.rd (i := l) (by omega), ok_bind, hd.rd (i := l + 1) hl, ok_bind, Exact.cst_eq]
  have h2' : (((2 : ℤ) : ℝ) / ((1 : ℕ) : ℝ)) = 2 := by norm_num
  rw [h2', rdiv_ok h2, ok_bind, Props.C51_hypot, ok_bind, lt_eq]
  dsimp only
  set p := (δ (l + 1) - δ l) / (2 * ε l) with hp
  set r := if decide (p < 0) = true then -Real.sqrt (p ^ 2 + 1 ^ 2) else Real.sqrt (p ^ 2 + 1 ^ 2) with hr
  have hs : Real.sqrt (p ^ 2 + 1 ^ 2) ^ 2 = p ^ 2 + 1 := by rw [Real.sq_sqrt (by positivity)]; ring
  have hs0 := Real.sqrt_nonneg (p ^ 2 + 1 ^ 2)
  have hrr : r ^ 2 = p ^ 2 + 1 := by rw [hr]; split <;> simp only [neg_sq, hs]
  have hpr : 0 ≤ p * r := by
    rw [hr]
    by_cases h : p < 0
    · rw [if_pos (by simpa using h)]; nlinarith
    · rw [if_neg (by simpa using h)]; push Not at h; exact mul_nonneg h hs0
  set t := p + r with ht
  have htt : t ^ 2 = 2 * p * t + 1 := by rw [ht]; linear_combination hrr
  have ht1 : 1 ≤ t ^ 2 := by
    rw [ht]; nlinarith [sq_nonneg p]
  have ht0 : t ≠ 0 := by
    intro h; rw [h] at ht1; norm_num at ht1
  obtain ⟨d1, hd1, hf1⟩ := hd.wr (i := l) (by omega) (ε l / t)
  obtain ⟨d2, hd2, hf2⟩ := hf1.wr (i := l + 1) (by omega) (ε l * t)
  rw [rdiv_ok ht0, ok_bind, hd1, ok_bind, hd2, ok_bind, hf2.rd (i := l) (by omega), ok_bind, updv_ne (by omega), updv_same]
  have hp2 : δ (l + 1) - δ l = 2 * ε l * p := by rw [hp]; field_simp
  have hkey : δ (l + 1) - (δ l - ε l / t) = ε l * t := by
    have : ε l * t - ε l / t = 2 * ε l * p := by
      field_simp
      linear_combination htt
    linarith
  obtain ⟨d3, hr3, hp3⟩ := loop_part (lo := l + 2) (hi := n) (body := fun i d => do wr d i ((← rd d i) - (δ l - ε l / t)))
    (fun i => δ i - (δ l - ε l / t)) hf2.part (fun i d' h1 h2 hp => ⟨_, by rw [hp.rd (i := i) h2 (Or.inl trivial), ok_bind], by
      rw [if_neg (by omega), updv_ne (by omega), updv_ne (by omega)]⟩) le_rfl
  rw [hr3, ok_bind]
  refine Post.ok ⟨δ l - ε l / t, rfl, (hp3.full fun _ _ => Or.inl trivial).congr fun a ha => ?_, ?_, ?_⟩
  · by_cases h1 : l + 2 ≤ a
    · rw [if_pos ⟨h1, ha⟩, if_neg (by omega)]
    · rw [if_neg (by omega)]
      by_cases h3 : a = l + 1
      · rw [h3, updv_same, if_neg (by omega), hkey]
      · rw [updv_ne h3]
        by_cases h4 : a = l
        · rw [h4, updv_same, if_neg (by omega)]; ring
        · rw [updv_ne h4, if_pos (by omega)]
  · rw [hkey]
    field_simp
    ring
  · rw [show δ l - (δ l - ε l / t) = ε l / t by ring, abs_div, div_le_iff₀ (abs_pos.2 ht0)]
    have : 1 ≤ |t| := by
      by_contra h
      push Not at h
      nlinarith [abs_nonneg t, sq_abs t]
    nlinarith [abs_nonneg (ε l)]

/-- State between two QL iterations on the block `l..=m`. -/
structure QlInv (n l m : Nat) (A : Matrix (Fin n) (Fin n) ℝ) (E : ℝ) (st : Dev ℝ) (f : ℝ)
    (δ ε : Nat → ℝ) (V : Nat → Nat → ℝ) : Prop where
  d : Full st.d n δ
  e : Full st.e n ε
  v : FullG st.v n n V
  lo : ∀ a, a < l → ε a = 0
  nz : ∀ a, l < a → a < m → ε a ≠ 0
  ap : Ap n A V (tri (fun a => δ a + phi l f a) (updv ε m 0)) E

theorem tri_eq_trb {k : Nat} {δ ε : Nat → ℝ} {a b : Nat} : tri δ ε a b = trb k δ ε 0 a b := by
  unfold tri trb; grind

/-- An eigenvalue of a symmetric `2 × 2` block is at most the Frobenius norm. -/
theorem shift_bound {n l : Nat} (hl : l + 1 < n) (X : Nat → Nat → ℝ) {f b : ℝ} (h1 : X l (l + 1) = b) (h2 : X (l + 1) l = b)
    (h : (X l l - f) * (X (l + 1) (l + 1) - f) = b ^ 2) : |f| ≤ frob (pk n n X) := by
  set α := X l l with hα
  set β := X (l + 1) (l + 1) with hβ
  have h3 : f ^ 2 ≤ frob (pk n n X) ^ 2 := by
    have h4 : f ^ 2 ≤ α ^ 2 + b ^ 2 + (b ^ 2 + β ^ 2) := by
      have : f ^ 2 + (α + β - f) ^ 2 = α ^ 2 + β ^ 2 + 2 * b ^ 2 := by linear_combination 2 * h
      nlinarith [sq_nonneg (α + β - f)]
    refine h4.trans ?_
    rw [frob_sq]
    have hr : ∀ i : Fin n, pk n n X i ⟨l, by omega⟩ ^ 2 + pk n n X i ⟨l + 1, hl⟩ ^ 2 ≤ ∑ j, pk n n X i j ^ 2 := by
      intro i
      have hne : (⟨l, by omega⟩ : Fin n) ≠ ⟨l + 1, hl⟩ := by simp [Fin.ext_iff]
      rw [← Finset.sum_pair hne (f := fun j => pk n n X i j ^ 2)]
      exact Finset.sum_le_sum_of_subset_of_nonneg (Finset.subset_univ _) fun _ _ _ => sq_nonneg _
    have hne : (⟨l, by omega⟩ : Fin n) ≠ ⟨l + 1, hl⟩ := by simp [Fin.ext_iff]
    have h5 : (∑ j, pk n n X ⟨l, by omega⟩ j ^ 2) + (∑ j, pk n n X ⟨l + 1, hl⟩ j ^ 2) ≤ ∑ i, ∑ j, pk n n X i j ^ 2 := by
      rw [← Finset.sum_pair hne (f := fun i => ∑ j, pk n n X i j ^ 2)]
      exact Finset.sum_le_sum_of_subset_of_nonneg (Finset.subset_univ _)
        fun _ _ _ => Finset.sum_nonneg fun _ _ => sq_nonneg _
    have h6 := hr ⟨l, by omega⟩
    have h7 := hr ⟨l + 1, hl⟩
    have e1 : pk n n X ⟨l, by omega⟩ ⟨l, by omega⟩ = α := rfl
    have e2 : pk n n X ⟨l, by omega⟩ ⟨l + 1, hl⟩ = b := h1
    have e3 : pk n n X ⟨l + 1, hl⟩ ⟨l, by omega⟩ = b := h2
    have e4 : pk n n X ⟨l + 1, hl⟩ ⟨l + 1, hl⟩ = β := rfl
    rw [e1, e2] at h6
    rw [e3, e4] at h7
    linarith
  exact abs_le_of_sq_le_sq' h3 (frob_nonneg _) |> abs_le.2

theorem tqlIter_post {n l m : Nat} {A : Matrix (Fin n) (Fin n) ℝ} {E : ℝ} {st : Dev ℝ} {f : ℝ} {δ ε : Nat → ℝ}
    {V : Nat → Nat → ℝ} (h : QlInv n l m A E st f δ ε V) (hl : l < m) (hm : m < n) (hne : ε l ≠ 0) :
    Post (tqlIter n l m st f) fun r => ∃ δ' ε' V', QlInv n l m A E r.1 r.2 δ' ε' V' ∧ ε' m = 0 ∧ (∀ a, m < a → ε' a = ε a) ∧
      |r.2| ≤ frob A ∧ |ε' l| ^ 3 ≤ 2 * (ε l ^ 2 * |ε (l + 1)|) ∧
      ε' l ^ 2 * |ε' (l + 1)| ≤ 4 / 5 * (ε l ^ 2 * |ε (l + 1)|) := by
  unfold tqlIter
  obtain ⟨⟨d1, f1⟩, hr1, sh, hf1, hd1, hs1, hs2⟩ := tqlShift_post (f := f) h.d h.e (l := l) (by omega) hne
  dsimp only at hf1 hd1
  rw [hr1, ok_bind]
  dsimp only
  set δ0 : Nat → ℝ := fun a => if a < l then δ a else δ a - sh with hδ0
  have e0 : δ0 l = δ l - sh := if_neg (by omega)
  have e1 : δ0 (l + 1) = δ (l + 1) - sh := if_neg (by omega)
  rw [hd1.rd (i := l + 1) (by omega), ok_bind, hd1.rd (i := m) hm, ok_bind, h.e.rd (i := l + 1) (by omega), ok_bind]
  have hdd : ∀ a, δ0 a + phi l f1 a = δ a + phi l f a := by
    intro a
    simp only [hδ0, phi, hf1]
    split <;> ring
  have hfb : |f1| ≤ frob A := by
    refine le_trans (shift_bound (n := n) (l := l) (by omega) (tri (fun a => δ a + phi l f a) (updv ε m 0)) (b := ε l) ?_ ?_ ?_) h.ap.nrm
    · unfold tri; rw [if_neg (by omega), if_neg (by omega), if_pos rfl, updv_ne (by omega)]
    · unfold tri; rw [if_neg (by omega), if_pos rfl, updv_ne (by omega)]
    · rw [← hs1]
      simp only [tri, if_true, phi]
      rw [if_neg (by omega), if_neg (by omega), hf1]
      ring
  have hnz : ∀ a, l ≤ a → a < m → ε a ≠ 0 := by
    intro a h1 h2
    by_cases e : a = l
    · rw [e]; exact hne
    · exact h.nz a (by omega) h2
  have h0 : SwInv n l m A E f1 δ0 ε m (⟨⟨d1, st.e, st.v⟩, δ0 m, 1, 1, 1, 0, 0⟩ : Sweep ℝ) δ0 ε V := by
    refine ⟨hd1, h.e, h.v, fun _ _ => rfl, fun _ _ => rfl, fun _ _ => rfl, fun e => absurd e (lt_irrefl _), hnz, by norm_num,
      fun _ => ⟨rfl, rfl⟩, fun e => absurd e (lt_irrefl _), by norm_num, by simp, fun e => absurd e (lt_irrefl _), ?_⟩
    refine h.ap.congr fun a b _ _ => ?_
    dsimp only
    rw [tri_eq_trb (k := m), zero_mul, zero_mul]
    congr 1
    · funext a
      rw [one_mul, ← hdd]
      by_cases e : a = m
      · rw [if_pos e, e]
      · rw [if_neg e]
    · funext a
      simp only [updv]
      by_cases e : a = m
      · rw [if_pos e, if_pos e]
      · rw [if_neg e, if_neg e]; split <;> ring
  have hsw := loopRev_post (lo := l) (hi := m) (s := (⟨⟨d1, st.e, st.v⟩, δ0 m, 1, 1, 1, 0, 0⟩ : Sweep ℝ)) (f := fun i x => tqlStep n i x)
    (fun k x => ∃ δ' ε' V', SwInv n l m A E f1 δ0 ε k x δ' ε' V') hl.le
    ⟨δ0, ε, V, h0⟩
    (fun i x h1 h2 ⟨δ', ε', V', hI⟩ => tqlStep_post hI h1 h2 hm)
  obtain ⟨x, hrx, δ', ε', V', hI⟩ := hsw
  rw [hrx, ok_bind, hI.e.rd (i := l) (by omega), ok_bind, hI.elo l le_rfl]
  obtain ⟨p1, r, hr0, hr2, hc, hs, hp1, he1, hc3, hcs2, hlast⟩ := hI.hist hl
  have hp : x.p = p1 / r * δ0 l - ε l / r * x.c2 * ε l := by rw [hI.p, hc, hs]
  rw [← e0, ← e1] at hs1
  rw [← e0] at hs2
  obtain ⟨w1, w2, w3⟩ := wilk hne hs1 hs2 hr0 hr2 hp1 hc3 hcs2 hp
  have hD1 : δ0 (l + 1) ≠ 0 := by
    intro h0; rw [h0, mul_zero] at hs1
    exact hne (pow_eq_zero_iff (by norm_num) |>.1 hs1.symm)
  rw [rdiv_ok hD1, ok_bind]
  have hpe : -x.s * x.s2 * x.c3 * ε (l + 1) * ε l / δ0 (l + 1) = x.p := by rw [w1, hs]
  rw [hpe]
  obtain ⟨e2, he2, hf2⟩ := hI.e.wr (i := l) (by omega) (x.s * x.p)
  obtain ⟨d2, hd2, hg2⟩ := hI.d.wr (i := l) (by omega) (x.c * x.p)
  rw [he2, ok_bind, hd2, ok_bind]
  refine Post.ok ⟨_, _, V', ⟨hg2, hf2, hI.v, ?_, ?_, ?_⟩, ?_, ?_, hfb, ?_, ?_⟩
  · intro a ha
    rw [updv_ne (by omega), hI.elo a (by omega), h.lo a ha]
  · intro a h1 h2
    rw [updv_ne (by omega)]; exact hI.nz a (by omega) h2
  · refine hI.ap.congr fun a b _ _ => ?_
    have hz : l = 0 ∨ ε' (l - 1) = 0 := by
      rcases Nat.eq_zero_or_pos l with h0 | h0
      · exact Or.inl h0
      · right; rw [hI.elo _ (by omega), h.lo _ (by omega)]
    have hem := hI.em hl
    have hb : trb l (fun a => (if a = l then x.c * x.p else δ' a) + phi l f1 a)
        (fun a => if a = l then x.s * x.p else if a + 1 = l then x.c * ε' a else ε' a) (x.s * ε' (l - 1)) a b =
        trb l (fun a => (if a = l then x.c * x.p else δ' a) + phi l f1 a)
        (fun a => if a = l then x.s * x.p else if a + 1 = l then x.c * ε' a else ε' a) 0 a b := by
      rcases hz with h0 | h0
      · unfold trb
        rw [if_neg (show ¬ ((a = l + 1 ∧ b + 1 = l) ∨ (b = l + 1 ∧ a + 1 = l)) by omega),
          if_neg (show ¬ ((a = l + 1 ∧ b + 1 = l) ∨ (b = l + 1 ∧ a + 1 = l)) by omega)]
      · rw [h0, mul_zero]
    rw [hb, ← tri_eq_trb]
    congr 1
    funext a
    simp only [updv]
    by_cases c1 : a = l
    · rw [if_pos c1, if_neg (by omega), if_pos c1]
    · rw [if_neg c1, if_neg c1]
      by_cases c2 : a = m
      · rw [if_neg (by omega), if_pos c2, c2, hem]
      · rw [if_neg c2]
        by_cases c3 : a + 1 = l
        · rw [if_pos c3, show a = l - 1 by omega, hz.resolve_left (by omega), mul_zero]
        · rw [if_neg c3]
  · rw [updv_ne (by omega)]; exact hI.em hl
  · intro a ha
    rw [updv_ne (by omega)]; exact hI.ehi a ha
  · rw [updv_same, hs]; exact w2
  · rw [updv_same, updv_ne (by omega), he1, hs]; exact w3

end Eigen
end LA
