import Verif.Proofs.EigNew
import Verif.Proofs.House

/-! # `orthes`: the reduction to Hessenberg form -/

set_option linter.unusedSectionVars false

namespace LA
open Finset Matrix
namespace Eigen
open SVD (pk pk_congr)

theorem loopRev_sum {lo hi : Nat} {f : Nat → ℝ → R ℝ} (x : Nat → ℝ) (hf : ∀ i s, lo ≤ i → i < hi → f i s = .ok (s + x i)) :
    loopRev lo hi (0 : ℝ) f = .ok (∑ i ∈ Ico lo hi, x i) := by
  by_cases hle : lo ≤ hi
  swap
  · rw [loopRev_empty (by omega), Finset.Ico_eq_empty (by omega), Finset.sum_empty]
  refine Post.eq_ok (loopRev_post (fun i s => s = ∑ t ∈ Ico i hi, x t) hle (by simp) ?_)
  rintro i s h1 h2 rfl
  rw [hf i _ h1 h2, Finset.sum_eq_sum_Ico_succ_bot h2]
  exact Post.ok (add_comm _ _)

/-- Reflection of rows `lo..`. -/
noncomputable def reflL (lo n : Nat) (u : Nat → ℝ) (c : ℝ) (F : Nat → Nat → ℝ) : Nat → Nat → ℝ := fun a b =>
  if lo ≤ a then F a b - (∑ t ∈ Ico lo n, u t * F t b) / c * u a else F a b

/-- Reflection of columns `lo..`. -/
noncomputable def reflR (lo n : Nat) (u : Nat → ℝ) (c : ℝ) (F : Nat → Nat → ℝ) : Nat → Nat → ℝ := fun a b =>
  if lo ≤ b then F a b - (∑ t ∈ Ico lo n, u t * F a t) / c * u b else F a b

theorem pk_reflL {lo n : Nat} (u : Nat → ℝ) (c : ℝ) (F : Nat → Nat → ℝ) :
    pk n n (reflL lo n u c F) = hh (vlo n lo u) c * pk n n F := by
  ext i j
  rw [hh_mul_apply, show ∑ t, vlo n lo u t * pk n n F t j = _ from sum_vlo u (fun t => F t j)]
  simp only [SVD.pk, LU.packed, of_apply, reflL, vlo]
  split
  · ring
  · simp

theorem pk_reflR {lo n : Nat} (u : Nat → ℝ) (c : ℝ) (F : Nat → Nat → ℝ) :
    pk n n (reflR lo n u c F) = pk n n F * hh (vlo n lo u) c := by
  ext i j
  rw [mul_hh_apply, show ∑ t, vlo n lo u t * pk n n F i t = _ from sum_vlo u (fun t => F i t)]
  simp only [SVD.pk, LU.packed, of_apply, reflR, vlo]
  split
  · ring
  · simp

theorem orthCol_post {n m j : Nat} {hn : ℝ} {ort h : Buf ℝ} {P : Nat → Prop} {u : Nat → ℝ} {F : Nat → Nat → ℝ}
    (ho : Part ort n P u) (hP : ∀ i, m ≤ i → i < n → P i) (hh : FullG h n n F) (hj : j < n) (hne : hn ≠ 0) :
    Post (orthCol n m j hn ort h) fun r => FullG r n n (fun a b => if b = j then reflL m n u hn F a j else F a b) := by
  unfold orthCol
  rw [loopRev_sum (fun t => u t * F t j) (fun i s h1 h2 => by
    rw [ho.rd (i := i) h2 (hP i h1 h2), ok_bind, hh.rd (i := i) (j := j) h2 hj, ok_bind]; rfl), ok_bind, rdiv_ok hne, ok_bind]
  refine (loopG_rows (lo := m) (hi := n) (fun a b => if b = j then reflL m n u hn F a j else F a b) hh ?_).mono fun r h =>
    h.congr fun a b ha _ => ?_
  · intro i d' G' h1 h2 hG heq
    obtain ⟨d2, hd2, hg2⟩ := hG.wr (i := i) (j := j) h2 hj (F i j - (∑ t ∈ Ico m n, u t * F t j) / hn * u i)
    rw [hG.rd (i := i) (j := j) h2 hj, ok_bind, ho.rd (i := i) h2 (hP i h1 h2), ok_bind, heq i j (by omega), hd2]
    refine Post.ok (hg2.congr fun a b _ _ => ?_)
    have h3 := heq i b (by omega)
    clear heq
    simp only [upd, reflL]
    by_cases e : a = i
    · subst e
      by_cases e2 : b = j
      · rw [if_pos ⟨rfl, e2⟩, if_pos rfl, if_pos e2, if_pos h1]
      · rw [if_neg (by simp [e2]), if_pos rfl, if_neg e2, h3]
    · rw [if_neg (by simp [e]), if_neg e]
  · by_cases h3 : m ≤ a
    · rw [if_pos ⟨h3, ha⟩]
    · rw [if_neg (by omega)]
      simp only [reflL]
      rw [if_neg h3]
      by_cases e : b = j
      · rw [if_pos e, e]
      · rw [if_neg e]

theorem orthRow_post {n m i : Nat} {hn : ℝ} {ort h : Buf ℝ} {P : Nat → Prop} {u : Nat → ℝ} {F : Nat → Nat → ℝ}
    (ho : Part ort n P u) (hP : ∀ i, m ≤ i → i < n → P i) (hh : FullG h n n F) (hi : i < n) (hne : hn ≠ 0) :
    Post (orthRow n m i hn ort h) fun r => FullG r n n (fun a b => if a = i then reflR m n u hn F i b else F a b) := by
  unfold orthRow
  rw [loopRev_sum (fun t => u t * F i t) (fun j s h1 h2 => by
    rw [ho.rd (i := j) h2 (hP j h1 h2), ok_bind, hh.rd (i := i) (j := j) hi h2, ok_bind]; rfl), ok_bind, rdiv_ok hne, ok_bind]
  refine (loopG_cols (lo := m) (hi := n) (fun a b => if a = i then reflR m n u hn F i b else F a b) hh ?_).mono fun r h =>
    h.congr fun a b _ hb => ?_
  · intro j d' G' h1 h2 hG heq
    obtain ⟨d2, hd2, hg2⟩ := hG.wr (i := i) (j := j) hi h2 (F i j - (∑ t ∈ Ico m n, u t * F i t) / hn * u j)
    rw [hG.rd (i := i) (j := j) hi h2, ok_bind, ho.rd (i := j) h2 (hP j h1 h2), ok_bind, heq i j (by omega), hd2]
    refine Post.ok (hg2.congr fun a b _ _ => ?_)
    have h3 := heq a j (by omega)
    clear heq
    simp only [upd, reflR]
    by_cases e : b = j
    · subst e
      by_cases e2 : a = i
      · rw [if_pos ⟨e2, rfl⟩, if_pos rfl, if_pos e2, if_pos h1]
      · rw [if_neg (by simp [e2]), if_pos rfl, if_neg e2, h3]
    · rw [if_neg (by simp [e]), if_neg e]
  · by_cases h3 : m ≤ b
    · rw [if_pos ⟨h3, hb⟩]
    · rw [if_neg (by omega)]
      simp only [reflR]
      rw [if_neg h3]
      by_cases e : a = i
      · rw [if_pos e, e]
      · rw [if_neg e]

theorem orthScale_post {n m : Nat} {scale : ℝ} {h ort : Buf ℝ} {P : Nat → Prop} {o : Nat → ℝ} {F : Nat → Nat → ℝ}
    (ho : Part ort n P o) (hh : FullG h n n F) (hs : scale ≠ 0) (hm : m ≤ n) (hm1 : 1 ≤ m) :
    Post (orthScale n m scale h ort) fun r =>
      Part r.1 n (fun i => P i ∨ m ≤ i) (fun i => if m ≤ i then F i (m - 1) / scale else o i) ∧
      r.2 = ∑ t ∈ Ico m n, F t (m - 1) / scale * (F t (m - 1) / scale) := by
  unfold orthScale
  refine (loopRev_post (lo := m) (hi := n) (fun c (r : Buf ℝ × ℝ) =>
    Part r.1 n (fun i => P i ∨ c ≤ i) (fun i => if c ≤ i then F i (m - 1) / scale else o i) ∧
      r.2 = ∑ t ∈ Ico c n, F t (m - 1) / scale * (F t (m - 1) / scale)) hm ?_ ?_)
  · refine ⟨ho.mono fun i hi h => ⟨h.resolve_right (by omega), by rw [if_neg (by omega)]⟩, by simp⟩
  · rintro i ⟨ort1, s⟩ h1 h2 ⟨k1, k2⟩
    dsimp only at k1 k2 ⊢
    obtain ⟨d2, hd2, hf2⟩ := k1.wr (i := i) h2 (F i (m - 1) / scale)
    rw [hh.rd (i := i) (j := m - 1) h2 (by omega), ok_bind, rdiv_ok hs, ok_bind, hd2, ok_bind,
      hf2.rd (i := i) h2 (Or.inr rfl), ok_bind, updv_same]
    refine Post.ok ⟨hf2.mono fun a ha h => ?_, ?_⟩
    · simp only [updv]
      by_cases e : a = i
      · subst e
        exact ⟨Or.inr rfl, by rw [if_pos rfl, if_pos le_rfl]⟩
      · refine ⟨Or.inl (h.imp id fun h => by omega), ?_⟩
        rw [if_neg e]
        by_cases h3 : i + 1 ≤ a
        · rw [if_pos h3, if_pos (by omega)]
        · rw [if_neg h3, if_neg (by omega)]
    · rw [k2, Finset.sum_eq_sum_Ico_succ_bot h2]
      exact add_comm _ _

/-- The reduced table: zeros below the subdiagonal in the columns that are done. -/
def hz (c : Nat) (F : Nat → Nat → ℝ) : Nat → Nat → ℝ := fun a b => if b + 1 < c ∧ b + 1 < a then 0 else F a b

/-- The reflection of step `m`, as stored in the lower part of `h` and in `ort`. -/
noncomputable def Om (n : Nat) (F : Nat → Nat → ℝ) (o : Nat → ℝ) (m : Nat) : Matrix (Fin n) (Fin n) ℝ :=
  if F m (m - 1) = 0 then 1 else hh (vlo n m (fun i => if i = m then o m else F i (m - 1))) (-(o m * F m (m - 1)))

theorem hh_scale {n m : Nat} {u : Nat → ℝ} {c s : ℝ} (hs : s ≠ 0) :
    hh (vlo n m (fun i => s * u i)) (s * s * c) = hh (vlo n m u) c := by
  unfold hh
  congr 1
  ext i j
  simp only [Matrix.smul_apply, vecMulVec_apply, smul_eq_mul, vlo]
  by_cases hc : c = 0
  · rw [hc]; simp
  split <;> split <;> first | (field_simp; done) | simp

/-- State of the reduction before step `c`. -/
structure OrInv (n : Nat) (A : Matrix (Fin n) (Fin n) ℝ) (c : Nat) (h ort : Buf ℝ) (F : Nat → Nat → ℝ) (o : Nat → ℝ) : Prop where
  h : FullG h n n F
  ort : Part ort n (fun i => 1 ≤ i ∧ i < c ∧ F i (i - 1) ≠ 0) o
  nz : ∀ i, 1 ≤ i → i < c → F i (i - 1) ≠ 0 → o i ≠ 0
  orth : ∀ i, 1 ≤ i → i < c → Orth (Om n F o i)
  eq : A = prodL (fun t => Om n F o (t + 1)) (c - 1) * pk n n (hz c F) * (prodL (fun t => Om n F o (t + 1)) (c - 1))ᵀ

theorem Om_congr {n m : Nat} {F F' : Nat → Nat → ℝ} {o o' : Nat → ℝ} (hF : ∀ i, F i (m - 1) = F' i (m - 1)) (ho : o m = o' m) :
    Om n F o m = Om n F' o' m := by
  unfold Om
  simp only [hF, ho]

theorem orthStep_post {n m : Nat} {A : Matrix (Fin n) (Fin n) ℝ} {h ort : Buf ℝ} {F : Nat → Nat → ℝ} {o : Nat → ℝ}
    (hI : OrInv n A m h ort F o) (hm1 : 1 ≤ m) (hm2 : m + 1 < n) :
    Post (orthStep n m h ort) fun r => ∃ F o, OrInv n A (m + 1) r.1 r.2 F o := by
  unfold orthStep
  rw [loop_sum_Ico (fun t => |F t (m - 1)|) (fun i s h1 h2 => by
    rw [hI.h.rd (i := i) (j := m - 1) h2 (by omega), ok_bind, Exact.abs_eq]; rfl), ok_bind, eq_eq]
  set scale := ∑ t ∈ Ico m n, |F t (m - 1)| with hsc
  by_cases hs : scale = 0
  · rw [if_neg (by simpa using hs)]
    have hz0 : ∀ t, m ≤ t → t < n → F t (m - 1) = 0 := by
      intro t h1 h2
      have := (Finset.sum_eq_zero_iff_of_nonneg (fun t _ => abs_nonneg (F t (m - 1)))).1 (hsc ▸ hs) t (Finset.mem_Ico.2 ⟨h1, h2⟩)
      exact abs_eq_zero.1 this
    have hOm : Om n F o m = 1 := if_pos (hz0 m le_rfl (by omega))
    refine Post.ok ⟨F, o, hI.h, ?_, ?_, ?_, ?_⟩
    · refine hI.ort.mono fun i hi hP => ⟨⟨hP.1, ?_, hP.2.2⟩, rfl⟩
      rcases Nat.lt_or_ge i m with h1 | h1
      · exact h1
      · exfalso
        have : i = m := by omega
        subst this
        exact hP.2.2 (hz0 i le_rfl hi)
    · intro i h1 h2 h3
      by_cases e : i = m
      · subst e; exact absurd (hz0 i le_rfl (by omega)) h3
      · exact hI.nz i h1 (by omega) h3
    · intro i h1 h2
      by_cases e : i = m
      · subst e; rw [hOm]; exact orth_one
      · exact hI.orth i h1 (by omega)
    · have e1 : m + 1 - 1 = (m - 1) + 1 := by omega
      rw [e1, prodL, show m - 1 + 1 = m by omega, hOm, Matrix.mul_one]
      have e2 : pk n n (hz (m + 1) F) = pk n n (hz m F) := by
        refine pk_congr fun a b ha hb => ?_
        unfold hz
        by_cases h1 : b + 1 < m ∧ b + 1 < a
        · rw [if_pos h1, if_pos (by omega)]
        · rw [if_neg h1]
          by_cases h2 : b + 1 < m + 1 ∧ b + 1 < a
          · rw [if_pos h2, show b = m - 1 by omega, hz0 a (by omega) ha]
          · rw [if_neg h2]
      rw [e2]; exact hI.eq
  · rw [if_pos (by simpa using hs)]
    obtain ⟨⟨ort1, hn0⟩, hr1, ho1, hsum⟩ := orthScale_post hI.ort hI.h hs (show m ≤ n by omega) hm1
    dsimp only at ho1 hsum
    rw [hr1, ok_bind]
    dsimp only
    set x : Nat → ℝ := fun t => F t (m - 1) / scale with hx
    have hx' : ∀ t, F t (m - 1) = scale * x t := by intro t; rw [hx]; field_simp
    have hn0' : 0 ≤ hn0 := by rw [hsum]; exact Finset.sum_nonneg fun t _ => mul_self_nonneg _
    rw [sqrt_ok hn0', ok_bind, ho1.rd (i := m) (by omega) (Or.inr le_rfl), ok_bind, if_pos le_rfl, lt_eq]
    set g := if decide (0 < x m) = true then -Real.sqrt hn0 else Real.sqrt hn0 with hg
    have hg2 : g ^ 2 = ∑ t ∈ Ico m n, x t * x t := by
      rw [← hsum, hg]
      split <;> simp only [neg_sq, Real.sq_sqrt hn0']
    have hsg : x m * g ≤ 0 := by
      have := Real.sqrt_nonneg hn0
      rw [hg]
      by_cases h1 : 0 < x m
      · rw [if_pos (by simpa using h1)]; nlinarith
      · rw [if_neg (by simpa using h1)]; nlinarith
    have hg0 : g ≠ 0 := by
      intro h0
      rw [h0] at hg2
      apply hs
      rw [hsc]
      refine Finset.sum_eq_zero fun t ht => ?_
      have := (Finset.sum_eq_zero_iff_of_nonneg (fun t _ => mul_self_nonneg (x t))).1 (by rw [← hg2]; ring) t ht
      rw [hx' t, mul_self_eq_zero.1 this]; simp
    change Post (do
      let ort ← wr ort1 m (x m - g)
      let h ← loop m n h fun j h => orthCol n m j (hn0 - x m * g) ort h
      let h ← loop 0 n h fun i h => orthRow n m i (hn0 - x m * g) ort h
      let ort ← wr ort m (scale * (← rd ort m))
      let h ← wr h (m * n + (m - 1)) (scale * g)
      return (h, ort)) _
    obtain ⟨ort2, hr2, ho2⟩ := ho1.wr (i := m) (by omega) (x m - g)
    rw [hr2, ok_bind]
    set u : Nat → ℝ := updv (fun i => if m ≤ i then x i else o i) m (x m - g) with hu
    have hut : ∀ t ∈ Ico m n, u t = if t = m then x t - g else x t := by
      intro t ht
      rw [Finset.mem_Ico] at ht
      rw [hu]
      by_cases e : t = m
      · subst e; rw [updv_same, if_pos rfl]
      · rw [updv_ne e, if_neg e, if_pos ht.1]
    obtain ⟨q1, q2, q3, q4, q5⟩ := house2 (s := Ico m n) (π := m) (Finset.mem_Ico.2 ⟨le_rfl, by omega⟩) hg2 hsg hg0 hut (h := hn0 - x m * g)
      (by rw [hsum])
    set hn := hn0 - x m * g with hhn
    have hPu : ∀ i, m ≤ i → i < n → ((1 ≤ i ∧ i < m ∧ F i (i - 1) ≠ 0) ∨ m ≤ i) ∨ i = m := fun i h1 _ => Or.inl (Or.inr h1)
    obtain ⟨h2, hr3, hF2⟩ := loopG_cols (lo := m) (hi := n) (f := fun j h => orthCol n m j hn ort2 h) (reflL m n u hn F) hI.h
      (fun j d' G' h1 h2 hG heq => (orthCol_post ho2 hPu hG h2 q1.ne').mono fun r h => h.congr fun a b _ _ => by
        by_cases e : b = j
        · rw [if_pos e, if_pos e]
          simp only [reflL, heq _ j (show ¬ (m ≤ j ∧ j < j) by omega)]
        · rw [if_neg e, if_neg e])
    rw [hr3, ok_bind]
    obtain ⟨h3, hr4, hF3⟩ := loopG_rows (lo := 0) (hi := n) (f := fun i h => orthRow n m i hn ort2 h)
      (reflR m n u hn (fun r c => if m ≤ c ∧ c < n then reflL m n u hn F r c else F r c)) hF2
      (fun i d' G' h1 h2 hG heq => (orthRow_post ho2 hPu hG h2 q1.ne').mono fun r h => h.congr fun a b _ _ => by
        by_cases e : a = i
        · rw [if_pos e, if_pos e]
          simp only [reflR, heq i _ (show ¬ (0 ≤ i ∧ i < i) by omega)]
        · rw [if_neg e, if_neg e])
    rw [hr4, ok_bind, ho2.rd (i := m) (by omega) (Or.inr rfl), ok_bind]
    obtain ⟨ort3, hr5, ho3⟩ := ho2.wr (i := m) (by omega) (scale * u m)
    obtain ⟨h4, hr6, hF4⟩ := hF3.wr (i := m) (j := m - 1) (by omega) (by omega) (scale * g)
    rw [hr5, ok_bind, hr6, ok_bind]
    clear hr1 hr2 hr3 hr4 hr5 hr6
    set F' := upd (fun r c => if 0 ≤ r ∧ r < n then reflR m n u hn (fun r c => if m ≤ c ∧ c < n then reflL m n u hn F r c else F r c) r c
      else (fun r c => if m ≤ c ∧ c < n then reflL m n u hn F r c else F r c) r c) m (m - 1) (scale * g) with hF'
    -- columns left of `m`
    have hlow : ∀ a b, b < m → ¬ (a = m ∧ b = m - 1) → F' a b = F a b := by
      intro a b hb hne
      rw [hF', upd_ne hne]
      simp only [reflR]
      rw [if_neg (show ¬ m ≤ b by omega), if_neg (show ¬ (m ≤ b ∧ b < n) by omega), ite_self]
    have hpiv : F' m (m - 1) = scale * g := by rw [hF']; simp [upd]
    have hhigh : ∀ a b, a < n → b < n → m ≤ b → F' a b = reflR m n u hn (reflL m n u hn F) a b := by
      intro a b ha hb hmb
      rw [hF', upd_ne (by omega), if_pos ⟨by omega, ha⟩]
      simp only [reflR]
      rw [if_pos hmb, if_pos hmb, if_pos ⟨hmb, hb⟩]
      congr 3
      refine Finset.sum_congr rfl fun t ht => ?_
      rw [Finset.mem_Ico] at ht
      rw [if_pos ht]
    set o' := updv u m (scale * u m) with ho'
    have hOmOld : ∀ t, 1 ≤ t → t < m → Om n F' o' t = Om n F o t := by
      intro t h1 h2
      refine Om_congr (fun i => hlow i (t - 1) (by omega) (by omega)) ?_
      rw [ho', updv_ne (by omega), hu, updv_ne (by omega), if_neg (by omega)]
    have hOmNew : Om n F' o' m = hh (vlo n m u) hn := by
      unfold Om
      rw [if_neg (by rw [hpiv]; exact mul_ne_zero hs hg0), hpiv]
      rw [← hh_scale (u := u) (c := hn) hs]
      congr 1
      · funext i
        simp only [vlo]
        by_cases h1 : m ≤ i.1
        · rw [if_pos h1, if_pos h1]
          by_cases e : i.1 = m
          · rw [if_pos e, ho', updv_same, e]
          · rw [if_neg e, hlow _ _ (by omega) (by omega), hx', hut _ (Finset.mem_Ico.2 ⟨h1, i.2⟩), if_neg e]
        · rw [if_neg h1, if_neg h1]
      · rw [ho', updv_same]
        linear_combination (-(scale * scale)) * q5
    have hOrth : Orth (hh (vlo n m u) hn) := by
      refine hh_orth ?_
      rw [← q2, ← sum_vlo, dotProduct]
      refine Finset.sum_congr rfl fun t _ => ?_
      simp only [vlo]
      split <;> simp
    refine Post.ok ⟨F', o', hF4, ?_, ?_, ?_, ?_⟩
    · refine ho3.mono fun i hi hP => ⟨?_, rfl⟩
      by_cases e : i = m
      · exact Or.inr e
      · refine Or.inl (Or.inl (Or.inl ⟨hP.1, by omega, ?_⟩))
        have h5 := hP.2.2
        rwa [hlow i (i - 1) (by omega) (by omega)] at h5
    · intro i h1 h2 h3
      by_cases e : i = m
      · rw [e, ho', updv_same]; exact mul_ne_zero hs q4
      · rw [hlow i (i - 1) (by omega) (by omega)] at h3
        have h4 := hI.nz i h1 (by omega) h3
        rw [ho', updv_ne e, hu, updv_ne e, if_neg (by omega)]; exact h4
    · intro i h1 h2
      by_cases e : i = m
      · rw [e, hOmNew]; exact hOrth
      · rw [hOmOld i h1 (by omega)]; exact hI.orth i h1 (by omega)
    · have e1 : m + 1 - 1 = (m - 1) + 1 := by omega
      rw [e1, prodL, show m - 1 + 1 = m by omega, hOmNew]
      rw [prodL_congr (H' := fun t => Om n F o (t + 1)) (fun t ht => hOmOld (t + 1) (by omega) (by omega))]
      have hT : pk n n (hz (m + 1) F') = hh (vlo n m u) hn * pk n n (hz m F) * hh (vlo n m u) hn := by
        rw [← pk_reflL, ← pk_reflR]
        refine pk_congr fun a b ha hb => ?_
        by_cases hmb : m ≤ b
        · unfold hz
          rw [if_neg (by omega), hhigh a b ha hb hmb]
          simp only [reflR, reflL]
          have e3 : ∀ t r, m ≤ t → ¬ (t + 1 < m ∧ t + 1 < r) := by intro t r h; omega
          rw [if_pos hmb, if_pos hmb]
          have e4 : ∀ r b, m ≤ b → (if b + 1 < m ∧ b + 1 < r then 0 else F r b) = F r b := fun r b h => if_neg (e3 b r h)
          congr 1
          · rw [e4 a b hmb]
            simp only [e4 _ b hmb]
          · congr 2
            refine Finset.sum_congr rfl fun t ht => ?_
            rw [Finset.mem_Ico] at ht
            rw [e4 a t ht.1]
            simp only [e4 _ t ht.1]
        · have e5 : reflR m n u hn (reflL m n u hn (hz m F)) a b = reflL m n u hn (hz m F) a b := if_neg hmb
          rw [e5]
          by_cases hb1 : b + 1 < m
          · have e6 : ∀ t, m ≤ t → hz m F t b = 0 := fun t ht => if_pos ⟨hb1, by omega⟩
            have e7 : reflL m n u hn (hz m F) a b = hz m F a b := by
              unfold reflL
              by_cases h1 : m ≤ a
              · rw [if_pos h1, Finset.sum_eq_zero (fun t ht => by rw [e6 t (Finset.mem_Ico.1 ht).1, mul_zero])]; ring
              · rw [if_neg h1]
            rw [e7]
            unfold hz
            rw [hlow a b (by omega) (by omega)]
            by_cases h1 : b + 1 < a
            · rw [if_pos (by omega), if_pos (by omega)]
            · rw [if_neg (by omega), if_neg (by omega)]
          · have hbm : b = m - 1 := by omega
            have e6 : ∀ t, hz m F t b = F t b := fun t => if_neg (by omega)
            unfold reflL
            by_cases h1 : m ≤ a
            · rw [if_pos h1]
              simp only [e6]
              have e8 : ∑ t ∈ Ico m n, u t * F t b = scale * hn := by
                rw [← q3, Finset.mul_sum]
                refine Finset.sum_congr rfl fun t _ => ?_
                rw [hbm, hx']; ring
              rw [e8, mul_div_assoc, div_self q1.ne', mul_one, hbm, hx', hut a (Finset.mem_Ico.2 ⟨h1, ha⟩)]
              unfold hz
              by_cases e : a = m
              · rw [if_neg (by omega), e, hpiv, if_pos rfl]; ring
              · rw [if_pos (by omega), if_neg e]; ring
            · rw [if_neg h1, e6]
              unfold hz
              rw [if_neg (by omega), hlow a b (by omega) (by omega)]
      have hsq : hh (vlo n m u) hn * hh (vlo n m u) hn = 1 := by
        have := hOrth
        unfold Orth at this
        rwa [hh_transpose] at this
      rw [hT, transpose_mul, hh_transpose]
      have hA := hI.eq
      generalize hh (vlo n m u) hn = P at hsq
      generalize prodL (fun t => Om n F o (t + 1)) (m - 1) = W at hA
      generalize pk n n (hz m F) = T at hA
      calc A = W * T * Wᵀ := hA
        _ = W * (P * P) * T * (P * P) * Wᵀ := by rw [hsq, Matrix.mul_one, Matrix.mul_one]
        _ = _ := by simp only [Matrix.mul_assoc]

theorem orthAccCol_post {n m j : Nat} {h ort v : Buf ℝ} {P : Nat → Prop} {w : Nat → ℝ} {F V : Nat → Nat → ℝ}
    (hh : FullG h n n F) (ho : Part ort n P w) (hP : ∀ i, m ≤ i → i < n → P i) (hv : FullG v n n V) (hm1 : 1 ≤ m) (hm : m < n)
    (hj : j < n) (h1 : w m ≠ 0) (h2 : F m (m - 1) ≠ 0) :
    Post (orthAccCol n m j h ort v) fun r =>
      FullG r n n (fun a b => if b = j then reflL m n w (-(w m * F m (m - 1))) V a j else V a b) := by
  unfold orthAccCol
  rw [loop_sum_Ico (fun t => w t * V t j) (fun i s h1 h2 => by
    rw [ho.rd (i := i) h2 (hP i h1 h2), ok_bind, hv.rd (i := i) (j := j) h2 hj, ok_bind]; rfl), ok_bind,
    ho.rd (i := m) hm (hP m le_rfl hm), ok_bind, rdiv_ok h1, ok_bind, hh.rd (i := m) (j := m - 1) hm (by omega), ok_bind,
    rdiv_ok h2, ok_bind]
  refine (loopG_rows (lo := m) (hi := n) (fun a b => if b = j then reflL m n w (-(w m * F m (m - 1))) V a j else V a b) hv ?_).mono fun r h =>
    h.congr fun a b ha _ => ?_
  · intro i d' G' h3 h4 hG heq
    obtain ⟨d2, hd2, hg2⟩ := hG.wr (i := i) (j := j) h4 hj (V i j + (∑ t ∈ Ico m n, w t * V t j) / w m / F m (m - 1) * w i)
    rw [hG.rd (i := i) (j := j) h4 hj, ok_bind, ho.rd (i := i) h4 (hP i h3 h4), ok_bind, heq i j (by omega), hd2]
    refine Post.ok (hg2.congr fun a b _ _ => ?_)
    have h5 := heq i b (by omega)
    clear heq
    simp only [upd, reflL]
    by_cases e : a = i
    · subst e
      by_cases e2 : b = j
      · rw [if_pos ⟨rfl, e2⟩, if_pos rfl, if_pos e2, if_pos h3, div_neg, div_div]; ring
      · rw [if_neg (by simp [e2]), if_pos rfl, if_neg e2, h5]
    · rw [if_neg (by simp [e]), if_neg e]
  · by_cases h3 : m ≤ a
    · rw [if_pos ⟨h3, ha⟩]
    · rw [if_neg (by omega)]
      simp only [reflL]
      rw [if_neg h3]
      by_cases e : b = j
      · rw [if_pos e, e]
      · rw [if_neg e]

/-- State of the accumulation when the steps `c..` are done. -/
structure AcInv (n : Nat) (F : Nat → Nat → ℝ) (o : Nat → ℝ) (c : Nat) (ort v : Buf ℝ) (V : Nat → Nat → ℝ) : Prop where
  ort : Part ort n (fun i => 1 ≤ i ∧ i < c ∧ F i (i - 1) ≠ 0) o
  v : FullG v n n V
  lo : ∀ a b, b < c → V a b = if a = b then 1 else 0
  eq : pk n n V = prodR (fun t => Om n F o (t + 1)) (c - 1) (n - 1 - c)

theorem orthAcc_post {n m : Nat} {h ort v : Buf ℝ} {F V : Nat → Nat → ℝ} {o : Nat → ℝ} (hh : FullG h n n F)
    (hnz : ∀ i, 1 ≤ i → i < n - 1 → F i (i - 1) ≠ 0 → o i ≠ 0)
    (hI : AcInv n F o (m + 1) ort v V) (hm1 : 1 ≤ m) (hm2 : m < n - 1) :
    Post (orthAcc n m h ort v) fun r => ∃ V, AcInv n F o m r.1 r.2 V := by
  unfold orthAcc
  rw [hh.rd (i := m) (j := m - 1) (by omega) (by omega), ok_bind, eq_eq]
  have hc : n - 1 - m = (n - 1 - (m + 1)) + 1 := by omega
  have hc2 : m - 1 + 1 = m := by omega
  by_cases h0 : F m (m - 1) = 0
  · rw [if_neg (by simpa using h0)]
    refine Post.ok ⟨V, hI.ort.mono fun i _ hP => ⟨⟨hP.1, by omega, hP.2.2⟩, rfl⟩, hI.v, fun a b hb => hI.lo a b (by omega), ?_⟩
    rw [hc, prodR, hc2, show Om n F o m = 1 from if_pos h0, Matrix.one_mul]
    exact hI.eq
  · rw [if_pos (by simpa using h0)]
    have ho0 : o m ≠ 0 := hnz m hm1 hm2 h0
    obtain ⟨ort1, hr1, ho1⟩ := loop_part (lo := m + 1) (hi := n) (body := fun i ort => do wr ort i (← rd h (i * n + (m - 1))))
      (fun i => F i (m - 1)) hI.ort (fun i d' h1 h2 _ => ⟨_, by rw [hh.rd (i := i) (j := m - 1) h2 (by omega), ok_bind], rfl⟩) le_rfl
    rw [hr1, ok_bind]
    set w : Nat → ℝ := fun r => if m + 1 ≤ r ∧ r < n then F r (m - 1) else o r with hw
    have hwm : w m = o m := if_neg (by omega)
    have hP : ∀ i, m ≤ i → i < n → (1 ≤ i ∧ i < m + 1 ∧ F i (i - 1) ≠ 0) ∨ (m + 1 ≤ i ∧ i < n) := by
      intro i h1 h2
      by_cases e : i = m
      · subst e; exact Or.inl ⟨hm1, by omega, h0⟩
      · exact Or.inr ⟨by omega, h2⟩
    obtain ⟨v1, hr2, hV1⟩ := loopG_cols (lo := m) (hi := n) (f := fun j v => orthAccCol n m j h ort1 v)
      (reflL m n w (-(w m * F m (m - 1))) V) hI.v (fun j d' G' h1 h2 hG heq =>
        (orthAccCol_post hh ho1 hP hG hm1 (by omega) h2 (by rw [hwm]; exact ho0) h0).mono fun r h => h.congr fun a b _ _ => by
        by_cases e : b = j
        · rw [if_pos e, if_pos e]
          simp only [reflL, heq _ j (show ¬ (m ≤ j ∧ j < j) by omega)]
        · rw [if_neg e, if_neg e])
    rw [hr2, ok_bind]
    have hfull : ∀ a b, a < n → b < n → (if m ≤ b ∧ b < n then reflL m n w (-(w m * F m (m - 1))) V a b else V a b) =
        reflL m n w (-(w m * F m (m - 1))) V a b := by
      intro a b ha hb
      by_cases h1 : m ≤ b
      · rw [if_pos ⟨h1, hb⟩]
      · rw [if_neg (by omega)]
        unfold reflL
        rw [Finset.sum_eq_zero fun t ht => by
          rw [hI.lo t b (by omega), if_neg (by rw [Finset.mem_Ico] at ht; omega), mul_zero]]
        simp
    refine Post.ok ⟨_, ?_, hV1, ?_, ?_⟩
    · refine ho1.mono fun i _ hQ => ⟨Or.inl ⟨hQ.1, by omega, hQ.2.2⟩, ?_⟩
      rw [hw]; exact if_neg (by omega)
    · intro a b hb
      rw [if_neg (by omega)]; exact hI.lo a b (by omega)
    · rw [hc, prodR, hc2, pk_congr hfull, pk_reflL]
      have e1 : Om n F o m = LA.hh (vlo n m w) (-(w m * F m (m - 1))) := by
        unfold Om
        rw [if_neg h0, hwm]
        congr 1
        funext i
        simp only [vlo]
        by_cases h1 : m ≤ i.1
        · rw [if_pos h1, if_pos h1]
          by_cases e : i.1 = m
          · rw [if_pos e, e, hwm]
          · rw [if_neg e, hw]
            exact (if_pos ⟨by omega, i.2⟩).symm
        · rw [if_neg h1, if_neg h1]
      rw [e1, hI.eq]
      rfl

/-- The Hessenberg part of a table. -/
def hess (F : Nat → Nat → ℝ) : Nat → Nat → ℝ := fun a b => if b + 1 < a then 0 else F a b

theorem orthes_post {n : Nat} {h v : Buf ℝ} {F0 : Nat → Nat → ℝ} {G : Nat → Nat → Option ℝ} (hn : 0 < n) (hh : FullG h n n F0)
    (hv : Grid v n n G) :
    Post (orthes n h v) fun r => ∃ F V, FullG r.1 n n F ∧ FullG r.2 n n V ∧ Orth (pk n n V) ∧
      pk n n F0 = pk n n V * pk n n (hess F) * (pk n n V)ᵀ := by
  unfold orthes
  rw [usub_ok (show 1 ≤ n by omega), ok_bind]
  -- the reduction
  have hred : Post (loop 1 (n - 1) (h, alloc ℝ n) fun m (x : Buf ℝ × Buf ℝ) => (do let (h, ort) := x; orthStep n m h ort : R (Buf ℝ × Buf ℝ)))
      fun r => ∃ F o, OrInv n (pk n n F0) (max 1 (n - 1)) r.1 r.2 F o := by
    have h0 : OrInv n (pk n n F0) 1 h (alloc ℝ n) F0 (fun _ => 0) := by
      refine ⟨hh, (part_alloc n (fun _ => 0)).mono fun i _ hP => absurd hP.2.1 (by omega), fun i h1 h2 => by omega, fun i h1 h2 => by omega, ?_⟩
      rw [show 1 - 1 = 0 from rfl, prodL, transpose_one, Matrix.one_mul, Matrix.mul_one]
      refine pk_congr fun a b _ _ => ?_
      unfold hz
      rw [if_neg (by omega)]
    by_cases h1 : n = 1
    · rw [loop_empty (by omega)]
      subst h1
      exact Post.ok ⟨F0, _, h0⟩
    · rw [show max 1 (n - 1) = n - 1 by omega]
      refine loop_post (lo := 1) (hi := n - 1) (fun c (r : Buf ℝ × Buf ℝ) => ∃ F o, OrInv n (pk n n F0) c r.1 r.2 F o) (by omega) ⟨F0, _, h0⟩ ?_
      rintro i ⟨h1, ort1⟩ h2 h3 ⟨F, o, hI⟩
      exact orthStep_post hI h2 (by omega)
  obtain ⟨⟨h1, ort1⟩, hr1, F, o, hI⟩ := hred
  erw [hr1]
  rw [ok_bind]
  dsimp only at hI ⊢
  -- the identity
  have hid : Post (loop 0 n v fun i v => loop 0 n v fun j v => wr v (i * n + j) (if i = j then (1 : ℝ) else 0)) fun r =>
      FullG r n n (fun a b => if a = b then 1 else 0) := by
    refine (loop_rows (lo := 0) (hi := n) (fun a b => some (if a = b then (1 : ℝ) else 0)) hv ?_).mono fun r h =>
      h.congr fun a b ha _ => by rw [if_pos ⟨by omega, ha⟩]
    intro i d' G' _ hi hG _
    refine (loop_cols (lo := 0) (hi := n) (fun a b => if a = i then some (if a = b then (1 : ℝ) else 0) else G' a b) hG ?_).mono
      fun r h => h.congr fun a b _ hb => by
        by_cases e : a = i
        · subst e; rw [if_pos ⟨by omega, hb⟩]
        · rw [if_pos ⟨by omega, hb⟩, if_neg e, if_neg e]
    intro j d2 G2 _ hj hG2 h2
    refine (hG2.wr hi hj _).mono fun r h => h.congr fun a b ha hb => ?_
    have h3 := h2 a b
    clear h2
    by_cases e : b = j
    · subst e
      rw [if_pos rfl]
      by_cases e2 : a = i
      · subst e2; simp
      · rw [upd_ne (by omega), if_neg e2, h3 (by omega)]
    · rw [upd_ne (by omega), if_neg e]
  obtain ⟨v1, hr2, hv1⟩ := hid
  rw [hr2, ok_bind]
  have hone : pk n n (fun a b => if a = b then 1 else 0) = 1 := by
    ext a b
    rw [Matrix.one_apply]
    show (if a.1 = b.1 then (1 : ℝ) else 0) = _
    simp [Fin.ext_iff]
  -- the accumulation
  have hacc : Post (loopRev 1 (n - 1) (ort1, v1) fun m (x : Buf ℝ × Buf ℝ) => (do let (ort, v) := x; orthAcc n m h1 ort v : R (Buf ℝ × Buf ℝ)))
      fun r => ∃ V, FullG r.2 n n V ∧ pk n n V = prodL (fun t => Om n F o (t + 1)) (max 1 (n - 1) - 1) := by
    by_cases h2 : n = 1
    · rw [loopRev_empty (by omega)]
      refine Post.ok ⟨_, hv1, ?_⟩
      subst h2
      rw [hone]; rfl
    · rw [show max 1 (n - 1) = n - 1 by omega] at hI ⊢
      refine (loopRev_post (lo := 1) (hi := n - 1) (fun c (r : Buf ℝ × Buf ℝ) => ∃ V, AcInv n F o c r.1 r.2 V) (by omega) ⟨_, hI.ort, hv1, fun a b _ => rfl, ?_⟩ ?_).mono ?_
      · rw [hone, Nat.sub_self]; rfl
      · rintro i ⟨ort2, v2⟩ h3 h4 ⟨V, hA⟩
        exact orthAcc_post hI.h hI.nz hA h3 h4
      · rintro r ⟨V, hA⟩
        refine ⟨V, hA.v, ?_⟩
        have h5 := prodL_mul_prodR (fun t => Om n F o (t + 1)) 0 (n - 1 - 1)
        rw [prodL, Matrix.one_mul, Nat.zero_add] at h5
        rw [hA.eq, ← h5]
  obtain ⟨⟨ort2, v2⟩, hr3, V, hV, hVe⟩ := hacc
  erw [hr3]
  rw [ok_bind]
  refine Post.ok ⟨F, V, hI.h, hV, ?_, ?_⟩
  · rw [hVe]
    exact prodL_orth fun t ht => hI.orth (t + 1) (by omega) (by omega)
  · rw [hVe]
    have := hI.eq
    rw [this]
    congr 2
    refine pk_congr fun a b ha hb => ?_
    unfold hz hess
    by_cases h2 : b + 1 < a
    · rw [if_pos h2, if_pos (by omega)]
    · rw [if_neg h2, if_neg (by omega)]

end Eigen
end LA
