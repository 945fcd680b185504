import Verif.Proofs.EigBackD

/-! # `hqr2`: the vectors and the back transformation -/

set_option linter.unusedSectionVars false

namespace LA
open Finset Matrix
namespace Eigen
open SVD (pk pk_congr)

theorem RV.congr {T : Nat → Nat → ℝ} {n l : Nat} {p ε : ℝ} {x x' : Nat → ℝ} (h : RV T n l p ε x) (hx : ∀ a, a ≤ n → x' a = x a) : RV T n l p ε x' := by
  have h1 : ∀ a, rowS T n l x' a = rowS T n l x a := fun a => rowS_congr fun j _ h2 => by rw [hx j h2]
  exact ⟨by rw [hx n le_rfl]; exact h.ne, fun a g1 g2 => by rw [h1, hx a g2]; exact h.res a g1 g2⟩

theorem CV.congr {NR : Prop} {T : Nat → Nat → ℝ} {n l : Nat} {p q : ℝ} {v w v' w' : Nat → ℝ} (h : CV NR T n l p q v w)
    (hv : ∀ a, a ≤ n → v' a = v a) (hw : ∀ a, a ≤ n → w' a = w a) : CV NR T n l p q v' w' := by
  have h1 : ∀ a, rowS T n l v' a = rowS T n l v a := fun a => rowS_congr fun j _ h2 => by rw [hv j h2]
  have h2 : ∀ a, rowS T n l w' a = rowS T n l w a := fun a => rowS_congr fun j _ h2 => by rw [hw j h2]
  exact ⟨by rw [hw n le_rfl]; exact h.ne, by rw [hv n le_rfl]; exact h.z, fun hN a g1 g2 => by rw [h1, hv a g2, hw a g2]; exact h.re hN a g1 g2,
    fun hN a g1 g2 => by rw [h2, hv a g2, hw a g2]; exact h.im hN a g1 g2⟩

/-- The columns `c..` hold the vectors. -/
structure Vecs (nn c : Nat) (d e : Nat → ℝ) (H : Nat → Nat → ℝ) (ε : ℝ) (X : Nat → Nat → ℝ) : Prop where
  keep : ∀ a b, b < c → ¬(b + 1 = c ∧ e c < 0) → X a b = H a b
  real : ∀ b, c ≤ b → b < nn → e b = 0 → RV (Tf e H) b 0 (d b) ε (fun a => X a b)
  cplx : ∀ b, c ≤ b → b < nn → e b < 0 → CV (NRep b d e (d b) (e b)) (Tf e H) b 0 (d b) (e b) (fun a => X a (b - 1)) (fun a => X a b)

theorem vecStep_post {jk : Nat → Left ℝ} {nn n : Nat} {d e : Nat → ℝ} {H X : Nat → Nat → ℝ} {norm : ℝ} {db eb h : Buf ℝ} (hh : FullG h nn nn X)
    (hd : Full db nn d) (he : Full eb nn e) (hb : Blk nn 0 d e H) (hn : n < nn) (hnorm : 0 < norm) (hX : Vecs nn (n + 1) d e H (eps * norm) X) :
    Post (vecStep jk nn norm db eb n h) fun h' => ∃ X', FullG h' nn nn X' ∧ Vecs nn n d e H (eps * norm) X' := by
  unfold vecStep
  rw [hd.rd hn, ok_bind, he.rd hn, ok_bind, eq_eq]
  have hnx : e (n + 1) < 0 → 0 < e n := fun h1 => (hb.neg (n + 1) (Nat.zero_le _) h1).2.2
  have hk : e n ≤ 0 → ∀ a b, b ≤ n → X a b = H a b := fun hle a b hbn => hX.keep a b (by omega) fun h1 => absurd (hnx h1.2) (not_lt.2 hle)
  by_cases h0 : e n = 0
  · rw [if_pos (by simpa using h0)]
    refine (realVec_post hh hd he hb hn h0 rfl hnorm (hk h0.le)).mono fun h' ⟨x, hg, hrv⟩ => ⟨_, hg, ?_, ?_, ?_⟩
    · intro a b h1 _
      unfold colMem
      rw [if_neg (by omega)]
      exact hk h0.le a b (by omega)
    · intro b h1 h2 h3
      by_cases hbn : b = n
      · subst hbn
        refine hrv.congr fun a ha => ?_
        unfold colMem; rw [if_pos ⟨rfl, Nat.zero_le _, ha⟩]
      · refine (hX.real b (by omega) h2 h3).congr fun a ha => ?_
        unfold colMem; rw [if_neg (by omega)]
    · intro b h1 h2 h3
      have hbn : b ≠ n := by rintro rfl; linarith
      have hbn1 : b ≠ n + 1 := by rintro rfl; linarith [hnx h3]
      refine (hX.cplx b (by omega) h2 h3).congr (fun a ha => ?_) (fun a ha => ?_)
      · unfold colMem; rw [if_neg (by omega)]
      · unfold colMem; rw [if_neg (by omega)]
  · rw [if_neg (by simpa using h0), lt_eq]
    by_cases h1 : e n < 0
    · rw [if_pos (by simpa using h1)]
      obtain ⟨m, rfl⟩ : ∃ m, n = m + 1 := ⟨n - 1, by have := (hb.neg n (Nat.zero_le _) h1).1; omega⟩
      have hem : 0 < e m := (hb.neg (m + 1) (Nat.zero_le _) h1).2.2
      refine (complexVec_post hh hd he hb hn rfl rfl h1 hnorm (hk h1.le)).mono fun h' ⟨v, w, hg, hcv⟩ => ⟨_, hg, ?_, ?_, ?_⟩
      · intro a b g1 g2
        have : b + 1 ≠ m + 1 := fun hc => g2 ⟨hc, h1⟩
        unfold colMem2
        rw [if_neg (by omega), if_neg (by omega)]
        exact hk h1.le a b (by omega)
      · intro b g1 g2 g3
        have hbn : b ≠ m + 1 := by rintro rfl; linarith
        refine (hX.real b (by omega) g2 g3).congr fun a ha => ?_
        unfold colMem2; rw [if_neg (by omega), if_neg (by omega)]
      · intro b g1 g2 g3
        by_cases hbn : b = m + 1
        · subst hbn
          refine hcv.congr (fun a ha => ?_) (fun a ha => ?_)
          · unfold colMem2; rw [if_neg (by omega), if_pos (by omega)]
          · unfold colMem2; rw [if_pos (by omega)]
        · have hbn1 : b ≠ m + 2 := by rintro rfl; linarith [hnx g3]
          refine (hX.cplx b (by omega) g2 g3).congr (fun a ha => ?_) (fun a ha => ?_)
          · unfold colMem2; rw [if_neg (by omega), if_neg (by omega)]
          · unfold colMem2; rw [if_neg (by omega), if_neg (by omega)]
    · rw [if_neg (by simpa using h1)]
      have hpos : 0 < e n := lt_of_le_of_ne (not_lt.1 h1) (Ne.symm h0)
      have hneg : e (n + 1) < 0 := by rw [(hb.pos n (Nat.zero_le _) hn hpos).2.1]; linarith
      refine Post.ok ⟨X, hh, fun a b g1 _ => hX.keep a b (by omega) (by omega), fun b g1 g2 g3 => ?_, fun b g1 g2 g3 => ?_⟩
      · exact hX.real b (by have : b ≠ n := (by rintro rfl; linarith); omega) g2 g3
      · exact hX.cplx b (by have : b ≠ n := (by rintro rfl; linarith); omega) g2 g3

theorem vecs_post {jk : Nat → Left ℝ} {nn : Nat} {d e : Nat → ℝ} {H : Nat → Nat → ℝ} {norm : ℝ} {db eb h : Buf ℝ} (hh : FullG h nn nn H)
    (hd : Full db nn d) (he : Full eb nn e) (hb : Blk nn 0 d e H) (hnorm : 0 < norm) :
    Post (loopRev 0 nn h fun n h => vecStep jk nn norm db eb n h) fun h' => ∃ X, FullG h' nn nn X ∧ Vecs nn 0 d e H (eps * norm) X :=
  loopRev_post (lo := 0) (hi := nn) (f := fun n h => vecStep jk nn norm db eb n h)
    (fun c h => ∃ X, FullG h nn nn X ∧ Vecs nn c d e H (eps * norm) X) (Nat.zero_le _)
    ⟨H, hh, fun _ _ _ _ => rfl, fun b h1 h2 _ => absurd h1 (by omega), fun b h1 h2 _ => absurd h1 (by omega)⟩
    (fun n _ _ h2 ⟨_, hg, hX⟩ => vecStep_post hg hd he hb h2 hnorm hX)

/-- The upper triangle. -/
def trunc (X : Nat → Nat → ℝ) : Nat → Nat → ℝ := fun a b => if a ≤ b then X a b else 0

theorem backTransform_post {nn : Nat} {h v : Buf ℝ} {X V : Nat → Nat → ℝ} (hh : FullG h nn nn X) (hv : FullG v nn nn V) :
    Post (backTransform nn h v) fun v' => ∃ W, FullG v' nn nn W ∧ pk nn nn W = pk nn nn V * pk nn nn (trunc X) := by
  unfold backTransform
  refine (loopRev_post (lo := 0) (hi := nn) (fun c (v' : Buf ℝ) => FullG v' nn nn fun a b => if c ≤ b then ∑ k ∈ Ico 0 (b + 1), V a k * X k b else V a b)
    (Nat.zero_le _) (hv.congr fun a b _ hb => by rw [if_neg (by omega)]) ?_).mono fun v' hg => ⟨_, hg, ?_⟩
  · intro j v1 _ hj hg1
    refine (loopG_rows (lo := 0) (hi := nn) (fun a b => if j ≤ b then ∑ k ∈ Ico 0 (b + 1), V a k * X k b else V a b) hg1 ?_).mono fun v' hg => hg.congr fun a b ha _ => ?_
    · intro i v2 G' _ hi hg2 hG'
      have hrow : ∀ c, G' i c = if j + 1 ≤ c then ∑ k ∈ Ico 0 (c + 1), V i k * X k c else V i c := fun c => hG' i c (by omega)
      rw [show min j (nn - 1) + 1 = j + 1 by omega, loop_sum_Ico (fun k => V i k * X k j) (fun k s h1 h2 => by
        rw [hg2.rd hi (show k < nn by omega), ok_bind, hh.rd (show k < nn by omega) hj, ok_bind, hrow k, if_neg (by omega)]; rfl), ok_bind]
      refine (FullG.wrP hg2 (i := i) (j := j) hi hj _).mono fun v3 hg3 => hg3.congr fun a b _ _ => ?_
      by_cases ha : a = i
      · subst ha
        rw [if_pos rfl]
        by_cases hb : b = j
        · subst hb; rw [upd_same, if_pos le_rfl]
        · rw [upd_ne (by omega), hrow]
          by_cases hjb : j ≤ b
          · rw [if_pos hjb, if_pos (by omega)]
          · rw [if_neg hjb, if_neg (by omega)]
      · rw [upd_ne (by omega), if_neg ha]
    · rw [if_pos ⟨Nat.zero_le _, ha⟩]
  · ext a b
    rw [Matrix.mul_apply]
    show (if 0 ≤ b.1 then ∑ k ∈ Ico 0 (b.1 + 1), V a k * X k b else V a b) = ∑ k : Fin nn, V a k * trunc X k b
    rw [if_pos (Nat.zero_le _), ← Finset.sum_range (fun k => V a k * trunc X k b), Finset.range_eq_Ico,
      ← Finset.sum_Ico_consecutive _ (Nat.zero_le _) (show b.1 + 1 ≤ nn by omega)]
    have h2 : ∑ k ∈ Ico (b.1 + 1) nn, V a k * trunc X k b = 0 := by
      refine Finset.sum_eq_zero fun k hk => ?_
      rw [Finset.mem_Ico] at hk
      unfold trunc
      rw [if_neg (by omega), mul_zero]
    rw [h2, add_zero]
    refine Finset.sum_congr rfl fun k hk => ?_
    rw [Finset.mem_Ico] at hk
    unfold trunc
    rw [if_pos (by omega)]

/-- What `hqr2` returns. -/
structure HqGood (nn : Nat) (A : Matrix (Fin nn) (Fin nn) ℝ) (E ε : ℝ) (d e : Nat → ℝ) (W V H X : Nat → Nat → ℝ) : Prop where
  orth : Orth (pk nn nn V)
  err : frob (A - pk nn nn V * pk nn nn (Tf e H) * (pk nn nn V)ᵀ) ≤ E
  blk : Blk nn 0 d e H
  vec : Vecs nn 0 d e H ε X
  mul : pk nn nn W = pk nn nn V * pk nn nn (trunc X)

theorem hqr2_post {jk : Nat → Left ℝ} {nn : Nat} {A : Matrix (Fin nn) (Fin nn) ℝ} {st : Dev ℝ} {h : Buf ℝ} {H V : Nat → Nat → ℝ} (hA : A ≠ 0)
    (hd : st.d.length = nn) (he : st.e.length = nn) (hv : FullG st.v nn nn V) (hh : FullG h nn nn H) (hV : Orth (pk nn nn V))
    (hAV : A = pk nn nn V * pk nn nn (hess H) * (pk nn nn V)ᵀ) (fuel : Nat) :
    PostF (hqr2 jk fuel nn st h) (fun o => ∃ E d e W V' H' X norm, Full o.d nn d ∧ Full o.e nn e ∧ FullG o.v nn nn W ∧
      HqGood nn A E (eps * norm) d e W V' H' X ∧ frob A + E ≤ (1 + (4 * nn + 24) * eps) ^ fuel * frob A ∧ norm ≤ nn * frob A ∧ 0 < norm) ∧
    (nn ≤ 2 → nn ≤ fuel → hqr2 jk fuel nn st h ≠ .error .fuel) := by
  have hfr : frob (pk nn nn (hess H)) = frob A := by rw [hAV, frob_conj _ hV]
  unfold hqr2
  rw [hqrNorm_post hh, ok_bind, norm_eq]
  set norm := ∑ i : Fin nn, ∑ j : Fin nn, |pk nn nn (hess H) i j| with hnormd
  have hle : norm ≤ nn * frob A := by rw [← hfr]; exact sum_abs_le _
  have hpos : 0 < norm := by
    have h1 : frob (pk nn nn (hess H)) ≤ norm := frob_le_sum _
    rw [hfr] at h1
    refine lt_of_lt_of_le ?_ h1
    rcases lt_or_eq_of_le (frob_nonneg A) with h2 | h2
    · exact h2
    · exfalso
      apply hA
      ext i j
      have := abs_le_frob A i j
      rw [← h2] at this
      exact abs_eq_zero.1 (le_antisymm this (abs_nonneg _))
  have h0 : HqInv nn nn A 0 (⟨st.d, st.e, h, st.v, 0, 0⟩ : Hqr ℝ) H V (fun _ => 0) (fun _ => 0) := by
    refine ⟨hh, hv, ⟨hd, fun i h1 h2 => absurd h2 (by omega)⟩, ⟨he, fun i h1 h2 => absurd h2 (by omega)⟩, ⟨hV, ?_⟩, ?_,
      ⟨fun i h1 h2 => absurd h1 (by omega), fun i h1 h2 => absurd h1 (by omega), fun i h1 h2 => absurd h2 (lt_irrefl _)⟩⟩
    · have : pk nn nn (Tt nn (fun _ => 0) H 0) = pk nn nn (hess H) := pk_congr fun a b ha hb => by
        unfold Tt tadd tmk exd hess
        simp only [ite_self, add_zero]
        by_cases h1 : b + 1 < a
        · rw [if_pos h1, if_pos h1]
        · rw [if_neg h1, if_neg h1, if_neg (by omega)]
      show frob (A - pk nn nn V * pk nn nn (Tt nn (fun _ => 0) H 0) * (pk nn nn V)ᵀ) ≤ 0
      rw [this, ← hAV, sub_self, frob_zero]
    · show |(0 : ℝ)| ≤ _
      rw [abs_zero]; have := frob_nonneg A; linarith
  obtain ⟨hloop, hfuel⟩ := hqrLoop_post hpos hle fuel nn _ 0 H V _ _ le_rfl h0
  have hrest : ∀ o, (∃ E' H' V' d' e', HqInv nn 0 A E' o H' V' d' e' ∧ frob A + E' ≤ (1 + (4 * nn + 24) * eps) ^ fuel * (frob A + 0)) →
      Post (if FloatOps.eq norm 0 = true then (pure ⟨o.d, o.e, o.v⟩ : R (Dev ℝ)) else do
        let h ← loopRev 0 nn o.h fun n h => vecStep jk nn norm o.d o.e n h
        return ⟨o.d, o.e, ← backTransform nn h o.v⟩) (fun o => ∃ E d e W V' H' X norm, Full o.d nn d ∧ Full o.e nn e ∧ FullG o.v nn nn W ∧
      HqGood nn A E (eps * norm) d e W V' H' X ∧ frob A + E ≤ (1 + (4 * nn + 24) * eps) ^ fuel * frob A ∧ norm ≤ nn * frob A ∧ 0 < norm) := by
    rintro o ⟨E', H', V', d', e', hI, hE⟩
    rw [eq_eq, if_neg (by simpa using hpos.ne')]
    have hdd := hI.dd.full fun i _ => Nat.zero_le i
    have hee := hI.ee.full fun i _ => Nat.zero_le i
    obtain ⟨h1, hr1, X, hg1, hX⟩ := vecs_post hI.hh hdd hee hI.blk hpos
    obtain ⟨v1, hr2, W, hg2, hW⟩ := backTransform_post hg1 hI.vv
    rw [hr1, ok_bind, hr2, ok_bind]
    refine Post.ok ⟨E', d', e', W, V', H', X, norm, hdd, hee, hg2, ⟨hI.sm.orth, ?_, hI.blk, hX, hW⟩, by rwa [add_zero] at hE, hle, hpos⟩
    have : pk nn nn (Tt 0 e' H' o.ex) = pk nn nn (Tf e' H') := pk_congr fun a b ha hb => by
      unfold Tt tadd exd Tf
      rw [if_neg (by omega), add_zero]
    rw [← this]
    exact hI.sm.err
  constructor
  · rcases hloop with h1 | ⟨o, hro, ho⟩
    · left; rw [h1]; rfl
    · right
      rw [hro, ok_bind]
      exact hrest o ho
  · intro h1 h2
    rcases hloop with h3 | ⟨o, hro, ho⟩
    · exact absurd h3 (hfuel h1 h2)
    · rw [hro, ok_bind]
      obtain ⟨o', hro', _⟩ := hrest o ho
      intro h4
      rw [h4] at hro'
      cases hro'

end Eigen
end LA
