import Verif.Proofs.StdEigErr

/-! # `tred2` in rounded arithmetic: one Householder step -/

set_option linter.unusedSectionVars false

namespace LA
open Finset Matrix
namespace Std
open Sfp SVD
open Eigen (Dev tredScale tredSymv tredQ tredRank2 tredZero tredHouse tredStep tredApply tredAcc tred2 vhi tredTab qvec pvec tab TredHV)

variable {α : Type} [Zero α] [One α] [Add α] [Sub α] [Neg α] [Mul α] [FloatOps α] [Sfp α]

/-- A computed reflection (`x`, `y`, image `z`) close to an exact one (`a`, `h`, image `η`) of the vector `f`. -/
structure HT (K i : Nat) (f a : Nat → ℝ) (h η : ℝ) (x : Nat → α) (y z : α) : Prop where
  pos : 0 < h
  sq : ∑ t ∈ range i, a t * a t = 2 * h
  row : ∀ k, k < i → f k - (∑ t ∈ range i, a t * f t) / h * a k = if k = i - 1 then η else 0
  u : ∀ t, t < i → Rt (w α) K (val (x t)) (a t)
  h : Rt (w α) K (val y) h
  e : Rt (w α) K (val z) η

theorem house_tred {i : Nat} (hi0 : 0 < i) (f : Nat → α) {scale : α} (hs : 0 < val scale) (hf : ∃ k, k < i ∧ val (f k) ≠ 0) :
    ∃ g0, FloatOps.sqrt (facc (· + ·) 0 (fun t => dv (f t) scale * dv (f t) scale) i) = .ok g0 ∧
      ∃ a h η, HT (i + 6) i (fun t => val (f t)) a h η
        (fun t => if t = i - 1 then dv (f t) scale - (if FloatOps.lt 0 (dv (f (i - 1)) scale) then -g0 else g0) else dv (f t) scale)
        (facc (· + ·) 0 (fun t => dv (f t) scale * dv (f t) scale) i -
          dv (f (i - 1)) scale * (if FloatOps.lt 0 (dv (f (i - 1)) scale) then -g0 else g0))
        (scale * (if FloatOps.lt 0 (dv (f (i - 1)) scale) then -g0 else g0)) := by
  have hw : 1 ≤ w α := w_one
  set x : Nat → ℝ := fun t => val (f t) / val scale with hx
  have hd : ∀ t, Rt (w α) 1 (val (dv (f t) scale)) (x t) := fun t => (dv_ok (f t) hs.ne').2
  have hh1 : Rt (w α) (3 + i) (val (facc (· + ·) 0 (fun t => dv (f t) scale * dv (f t) scale) i)) (∑ t ∈ range i, x t * x t) :=
    rt_facc (K := 3) (fun t => mul_self_nonneg (x t)) i fun t _ => mul_rt' (hd t) (hd t)
  generalize facc (· + ·) 0 (fun t => dv (f t) scale * dv (f t) scale) i = h1 at *
  have hnn : 0 ≤ ∑ t ∈ range i, x t * x t := Finset.sum_nonneg fun t _ => mul_self_nonneg _
  have hpos : 0 < ∑ t ∈ range i, x t * x t := by
    obtain ⟨k, hk, h0⟩ := hf
    refine Finset.sum_pos' (fun t _ => mul_self_nonneg _) ⟨k, Finset.mem_range.2 hk, ?_⟩
    exact mul_self_pos.2 (div_ne_zero h0 hs.ne')
  obtain ⟨g0, r1, r2⟩ := sqrt_rt (hh1.nonneg hw hnn)
  refine ⟨g0, r1, ?_⟩
  have hg0 : Rt (w α) (i + 3) (val g0) (Real.sqrt (∑ t ∈ range i, x t * x t)) :=
    (r2.trans hw (Rt.sqrt hw (k := i + 2) (hh1.mono hw (by omega)))).mono hw (by omega)
  set g : ℝ := if 0 < x (i - 1) then -Real.sqrt (∑ t ∈ range i, x t * x t) else Real.sqrt (∑ t ∈ range i, x t * x t) with hg
  have hg' : Rt (w α) (i + 3) (val (if FloatOps.lt 0 (dv (f (i - 1)) scale) then -g0 else g0)) g := by
    have e1 : FloatOps.lt 0 (dv (f (i - 1)) scale) = true ↔ 0 < x (i - 1) := by
      rw [Sfp.lt, Sfp.zero]
      obtain ⟨ρ, q1, q2⟩ := hd (i - 1)
      rw [q2]
      exact mul_pos_iff_of_pos_left (q1.pos hw)
    by_cases h3 : 0 < x (i - 1)
    · rw [if_pos (e1.2 h3), hg, if_pos h3, Sfp.neg]; exact hg0.neg
    · rw [if_neg (fun h => h3 (e1.1 h)), hg, if_neg h3]; exact hg0
  generalize (if FloatOps.lt 0 (dv (f (i - 1)) scale) then -g0 else g0) = gc at hg'
  have hg2 : g ^ 2 = ∑ t ∈ range i, x t * x t := by
    rw [hg]; split <;> simp [Real.sq_sqrt hnn]
  have hgs : x (i - 1) * g ≤ 0 := by
    have := Real.sqrt_nonneg (∑ t ∈ range i, x t * x t)
    rw [hg]
    by_cases h3 : 0 < x (i - 1)
    · rw [if_pos h3]; nlinarith
    · rw [if_neg h3]; push Not at h3; nlinarith
  have hgne : g ≠ 0 := by
    intro h0
    rw [h0] at hg2
    linarith
  obtain ⟨hhpos, hsq, hdot, -, -⟩ := house2 (s := range i) (π := i - 1) (by simp; omega) (x := x)
    (u := fun t => if t = i - 1 then x t - g else x t) (g := g) (h := (∑ t ∈ range i, x t * x t) - x (i - 1) * g)
    hg2 hgs hgne (fun _ _ => rfl) rfl
  have hfg : Rt (w α) (i + 5) (val (-(dv (f (i - 1)) scale * gc))) (-(x (i - 1) * g)) := by
    rw [Sfp.neg]
    exact ((mul_rt' (hd (i - 1)) hg').neg).mono hw (by omega)
  refine ⟨fun t => if t = i - 1 then x t - g else x t, (∑ t ∈ range i, x t * x t) - x (i - 1) * g, val scale * g,
    hhpos, hsq, ?_, ?_, ?_, ?_⟩
  · intro k hk
    have e1 : ∑ t ∈ range i, (if t = i - 1 then x t - g else x t) * val (f t) =
        val scale * ((∑ t ∈ range i, x t * x t) - x (i - 1) * g) := by
      rw [← hdot, Finset.mul_sum]
      refine Finset.sum_congr rfl fun t ht => ?_
      simp only [hx]
      field_simp
    rw [e1, mul_div_assoc, div_self hhpos.ne', mul_one]
    have e2 : val (f k) = val scale * x k := by simp only [hx]; field_simp
    rw [e2]
    split <;> ring
  · intro t ht
    beta_reduce
    by_cases e : t = i - 1
    · rw [if_pos e, if_pos e, e]
      have h1 := sub_rt (dv (f (i - 1)) scale) gc
      refine (h1.trans hw (l := i + 3) ?_).mono hw (by omega)
      -- `x` and `-g` have the same sign
      have h2 := (hd (i - 1)).mono hw (show 1 ≤ i + 3 by omega)
      rw [sub_eq_add_neg, sub_eq_add_neg]
      by_cases h3 : 0 < x (i - 1)
      · have h4 : 0 ≤ -g := by
          rw [hg, if_pos h3, neg_neg]; exact Real.sqrt_nonneg _
        exact h2.add hw hg'.neg h3.le h4
      · have h4 : 0 ≤ g := by
          rw [hg, if_neg h3]; exact Real.sqrt_nonneg _
        have := (h2.neg.add hw hg' (by linarith) h4).neg
        rwa [neg_add, neg_neg, neg_add, neg_neg] at this
    · rw [if_neg e, if_neg e]
      exact (hd t).mono hw (by omega)
  · have h2 := sub_rt h1 (dv (f (i - 1)) scale * gc)
    refine (h2.trans hw (l := i + 5) ?_).mono hw (by omega)
    rw [Sfp.neg] at hfg
    rw [sub_eq_add_neg, sub_eq_add_neg]
    exact (hh1.mono hw (by omega)).add hw hfg hnn (by linarith)
  · exact (mul_rt' (Rt.refl (val scale)) hg').mono hw (by omega)

/-- The computed product of the symmetric table with the vector. -/
def pC (i : Nat) (F : Nat → Nat → α) (x : Nat → α) (k : Nat) : α := facc (· + ·) 0 (fun b => sym F k b * x b) i

/-- The computed second vector of the rank-two update. -/
def qC (i : Nat) (F : Nat → Nat → α) (x : Nat → α) (y : α) (k : Nat) : α :=
  dv (pC i F x k) y - dv (facc (· + ·) 0 (fun t => dv (pC i F x t) y * x t) i) (y + y) * x k

/-- The computed table after step `i`. -/
def cTab (i : Nat) (F : Nat → Nat → α) (x : Nat → α) (y : α) : Nat → Nat → α := fun a b =>
  if b ≤ a ∧ a < i then F a b - (x b * qC i F x y a + qC i F x y b * x a)
  else if a = i ∧ b < i then 0 else if b = i ∧ a < i then x a else F a b

theorem tredHouse_post {n i : Nat} {st : Dev α} {f ε : Nat → α} {P : Nat → Prop} {F : Nat → Nat → α}
    (hd : Full st.d n f) (he : Part st.e n P ε) (hv : FullG st.v n n F) (hi : i < n) (hi0 : 0 < i)
    {scale : α} (hs : 0 < val scale) (hf : ∃ k, k < i ∧ val (f k) ≠ 0) :
    Post (tredHouse n i scale st) fun r => ∃ (x : Nat → α) (y z : α) (a : Nat → ℝ) (h η : ℝ),
      HT (i + 6) i (fun t => val (f t)) a h η x y z ∧
      Full r.d n (fun k => if k < i then cTab i F x y (i - 1) k else if k = i then y else f k) ∧
      Part r.e n (fun k => P k ∨ k = i) (fun k => if k = i then z else if k < i then qC i F x y k else ε k) ∧
      FullG r.v n n (cTab i F x y) := by
  have hw : 1 ≤ w α := w_one
  unfold tredHouse
  obtain ⟨⟨d1, h1⟩, hr1, hd1, hh1⟩ := tredScale_post hd (i := i) (by omega) hs.ne'
  dsimp only at hd1 hh1
  rw [hr1, ok_bind]
  dsimp only
  have hu1 : usub i 1 = .ok (i - 1) := usub_ok (by omega)
  obtain ⟨g0, hg0, a, h, η, H⟩ := house_tred hi0 f hs hf
  rw [← hh1] at hg0 H
  rw [hu1, ok_bind, hd1.rd (i := i - 1) (by omega), ok_bind, hg0, ok_bind, if_pos (show i - 1 < i by omega)]
  set g : α := if FloatOps.lt 0 (dv (f (i - 1)) scale) then -g0 else g0 with hg
  obtain ⟨e1, he1, hpe1⟩ := he.wr (i := i) hi (scale * g)
  obtain ⟨d2, hd2, hf2⟩ := hd1.wr (i := i - 1) (by omega) (dv (f (i - 1)) scale - g)
  rw [he1, ok_bind, ok_bind, hd2, ok_bind]
  set y : α := h1 - dv (f (i - 1)) scale * g with hy
  set x : Nat → α := updv (fun k => if k < i then dv (f k) scale else f k) (i - 1) (dv (f (i - 1)) scale - g) with hx
  have H' : HT (i + 6) i (fun t => val (f t)) a h η x y (scale * g) := by
    refine ⟨H.pos, H.sq, H.row, fun t ht => ?_, H.h, H.e⟩
    have := H.u t ht
    beta_reduce at this
    have e : x t = (if t = i - 1 then dv (f t) scale - g else dv (f t) scale) := by
      simp only [hx, updv]
      by_cases h3 : t = i - 1
      · rw [if_pos h3, if_pos h3, h3]
      · rw [if_neg h3, if_neg h3, if_pos ht]
    rw [e]
    exact this
  have hy0 : val y ≠ 0 := H'.h.ne hw H'.pos.ne'
  have hyy : val (y + y) ≠ 0 := by
    have h2 := (add_rt y y).trans hw (H'.h.add hw H'.h H'.pos.le H'.pos.le)
    exact h2.ne hw (by have := H'.pos; positivity)
  obtain ⟨e2, he2, hpe2⟩ := loop_part (lo := 0) (hi := i) (body := fun j e => LA.wr e j 0) (fun _ => 0) hpe1
    (fun k d' _ hk _ => ⟨0, rfl, rfl⟩) hi.le
  rw [he2, ok_bind]
  obtain ⟨⟨e3, v3⟩, hr3, hpe3, hg3⟩ := tredSymv_post hf2 hpe2 (i := i) (fun k hk => Or.inr ⟨by omega, hk⟩)
    (fun k hk => if_pos ⟨by omega, hk⟩) hv hi
  dsimp only at hpe3 hg3
  rw [hr3, ok_bind]
  dsimp only
  obtain ⟨e4, hr4, hpe4⟩ := tredQ_post hf2 hpe3 (i := i) (fun k hk => Or.inr ⟨by omega, hk⟩) hy0 hyy hi.le
  rw [hr4, ok_bind]
  replace hpe4 : Part e4 n (fun k => P k ∨ k = i ∨ k < i) (fun k => if k = i then scale * g else if k < i then qC i F x y k else ε k) := by
    refine hpe4.mono fun k _ hk => ⟨by rcases hk with h | h | h
                                       · exact Or.inl (Or.inl h)
                                       · exact Or.inl (Or.inr h)
                                       · exact Or.inr ⟨by omega, h⟩, ?_⟩
    by_cases h4 : k < i
    · rw [if_pos h4, if_pos h4, if_neg (show ¬ k = i by omega), if_pos h4, qC, pC]
      congr 2
      congr 1
      refine facc_congr fun t ht => ?_
      rw [if_pos ht, pC]
    · rw [if_neg h4, if_neg h4, if_neg (by omega), if_neg h4, updv]
  obtain ⟨⟨d5, v5⟩, hr5, hd5, hv5⟩ := tredRank2_post hf2 hpe4 (i := i) (fun k hk => Or.inr (Or.inr hk)) hg3 hi hi0
  dsimp only at hd5 hv5
  rw [hr5, ok_bind]
  dsimp only
  obtain ⟨d6, hd6, hf6⟩ := hd5.wr (i := i) hi y
  rw [hd6, ok_bind]
  have htab : ∀ a b, (if b ≤ a ∧ a < i then (if b = i ∧ a < i then x a else F a b) - (x b * qC i F x y a + qC i F x y b * x a)
      else if a = i ∧ b < i then 0 else if b = i ∧ a < i then x a else F a b) = cTab i F x y a b := by
    intro a b
    simp only [cTab]
    by_cases h3 : b ≤ a ∧ a < i
    · rw [if_pos h3, if_pos h3, if_neg (show ¬ (b = i ∧ a < i) by omega)]
    · rw [if_neg h3, if_neg h3]
  refine Post.ok ⟨x, y, scale * g, a, h, η, H', ?_, ?_, ?_⟩
  · refine hf6.congr fun k _ => ?_
    simp only [updv]
    by_cases h3 : k = i
    · rw [if_pos h3, if_neg (by omega), if_pos h3]
    · rw [if_neg h3]
      by_cases h4 : k < i
      · rw [if_pos h4, if_pos h4, if_neg (show ¬ i - 1 = i by omega), if_pos (show i - 1 < i by omega), if_neg h3, if_pos h4,
          ← htab, if_pos (show k ≤ i - 1 ∧ i - 1 < i by omega)]
      · rw [if_neg h4, if_neg h4, if_neg h3]
        simp only [hx, updv]
        rw [if_neg (by omega), if_neg h4]
  · exact hpe4.mono fun k _ hk => ⟨by tauto, rfl⟩
  · refine hv5.congr fun a b _ _ => ?_
    rw [← htab]
    by_cases h3 : b ≤ a ∧ a < i
    · rw [if_pos h3, if_pos h3, if_neg (show ¬ a = i by omega), if_pos (show a < i by omega), if_neg (show ¬ b = i by omega), if_pos (show b < i by omega)]
    · rw [if_neg h3, if_neg h3]

end Std
end LA
