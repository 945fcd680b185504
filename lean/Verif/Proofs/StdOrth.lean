import Verif.Proofs.StdHqr8
import Verif.Proofs.EigOrth

/-! # `orthes` in rounded arithmetic: the reflection of one column or row -/

set_option linter.unusedSectionVars false

namespace LA
open Finset Matrix
namespace Std
open Sfp SVD
open Eigen (reflL reflR pk_reflL pk_reflR orthScale orthCol orthRow orthStep)

variable {α : Type} [Zero α] [One α] [Add α] [Sub α] [Neg α] [Mul α] [FloatOps α] [Sfp α]

/-- `F'` is `F` with a reflection applied to its rows `lo..`, with small errors. -/
def LErr (κ : ℝ) (lo n : Nat) (a : Nat → ℝ) (c : ℝ) (F F' : Nat → Nat → ℝ) : Prop :=
  ∀ i j, i < n → j < n → |F' i j - reflL lo n a c F i j| ≤
    κ * if lo ≤ i then |F i j| + |a i| / c * ∑ t ∈ Ico lo n, |a t| * |F t j| else 0

theorem vlo_dot {n lo : Nat} {a : Nat → ℝ} {c : ℝ} (hsq : ∑ t ∈ Ico lo n, a t * a t = 2 * c) : vlo n lo a ⬝ᵥ vlo n lo a = 2 * c := by
  rw [← hsq, ← sum_vlo, dotProduct]
  refine Finset.sum_congr rfl fun t _ => ?_
  simp only [vlo]
  split <;> simp

theorem LErr.frob {κ : ℝ} {lo n : Nat} {a : Nat → ℝ} {c : ℝ} {F F' : Nat → Nat → ℝ} (h : LErr κ lo n a c F F') (hκ : 0 ≤ κ)
    (hn : ∑ t ∈ Ico lo n, a t * a t = 2 * c) :
    frob (pk n n F' - hh (vlo n lo a) c * pk n n F) ≤ 3 * κ * frob (pk n n F) := by
  rw [← pk_reflL]
  set au : Nat → ℝ := fun i => |a i| with hau
  set aF : Nat → Nat → ℝ := fun i j => |F i j| with haF
  have hF : LA.frob (pk n n aF) = LA.frob (pk n n F) := by
    unfold LA.frob
    congr 1
    refine Finset.sum_congr rfl fun i _ => Finset.sum_congr rfl fun j _ => ?_
    exact sq_abs (F i j)
  have hn' : ∑ t ∈ Ico lo n, au t * au t = 2 * c := by
    rw [← hn]
    exact Finset.sum_congr rfl fun t _ => abs_mul_abs_self (a t)
  have hB : LA.frob (κ • ((2 : ℝ) • pk n n aF - hh (vlo n lo au) c * pk n n aF)) ≤ 3 * κ * LA.frob (pk n n F) := by
    rw [frob_smul, abs_of_nonneg hκ]
    have h1 := frob_sub_le ((2 : ℝ) • pk n n aF) (hh (vlo n lo au) c * pk n n aF)
    rw [frob_mul_left _ (hh_orth (vlo_dot hn')), frob_smul, abs_of_pos (by norm_num : (0 : ℝ) < 2), hF] at h1
    have := mul_le_mul_of_nonneg_left h1 hκ
    linarith
  refine (frob_mono fun i j => ?_).trans hB
  have h1 := h i j i.2 j.2
  rw [← pk_reflL]
  have e1 : (κ • ((2 : ℝ) • pk n n aF - pk n n (reflL lo n au c aF))) i j = κ * (2 * |F i j| - reflL lo n au c aF i j) := rfl
  rw [e1]
  refine (show |(pk n n F' - pk n n (reflL lo n a c F)) i j| ≤ _ from h1).trans (mul_le_mul_of_nonneg_left ?_ hκ)
  unfold reflL
  by_cases hi : lo ≤ i.1
  · rw [if_pos hi, if_pos hi]
    show _ ≤ 2 * |F i j| - (|F i j| - (∑ t ∈ Ico lo n, |a t| * |F t j|) / c * |a i|)
    have : (∑ t ∈ Ico lo n, |a t| * |F t j|) / c * |a i| = |a i| / c * ∑ t ∈ Ico lo n, |a t| * |F t j| := by ring
    rw [this]
    linarith
  · rw [if_neg hi, if_neg hi]
    have := abs_nonneg (F i j)
    show 0 ≤ 2 * |F i j| - |F i j|
    linarith

/-- The same for columns. -/
def RErr (κ : ℝ) (lo n : Nat) (a : Nat → ℝ) (c : ℝ) (F F' : Nat → Nat → ℝ) : Prop :=
  ∀ i j, i < n → j < n → |F' i j - reflR lo n a c F i j| ≤
    κ * if lo ≤ j then |F i j| + |a j| / c * ∑ t ∈ Ico lo n, |a t| * |F i t| else 0

theorem RErr.frob {κ : ℝ} {lo n : Nat} {a : Nat → ℝ} {c : ℝ} {F F' : Nat → Nat → ℝ} (h : RErr κ lo n a c F F') (hκ : 0 ≤ κ)
    (hn : ∑ t ∈ Ico lo n, a t * a t = 2 * c) :
    frob (pk n n F' - pk n n F * hh (vlo n lo a) c) ≤ 3 * κ * frob (pk n n F) := by
  have h1 : LErr κ lo n a c (fun i j => F j i) (fun i j => F' j i) := fun i j hi hj => h j i hj hi
  have h2 := h1.frob hκ hn
  have e : ∀ G : Nat → Nat → ℝ, pk n n (fun i j => G j i) = (pk n n G)ᵀ := fun G => rfl
  rw [e F', e F, frob_transpose] at h2
  rw [← frob_transpose, transpose_sub, transpose_mul, hh_transpose]
  exact h2

/-- A computed reflection (`x`, `y`, image `z`) close to an exact one (`a`, `c`, image `η`) of the vector `f`. -/
structure HO (K m n : Nat) (f a : Nat → ℝ) (c η : ℝ) (x : Nat → α) (y z : α) : Prop where
  pos : 0 < c
  sq : ∑ t ∈ Ico m n, a t * a t = 2 * c
  row : ∀ k, m ≤ k → k < n → f k - (∑ t ∈ Ico m n, a t * f t) / c * a k = if k = m then η else 0
  u : ∀ t, m ≤ t → t < n → Rt (w α) K (val (x t)) (a t)
  h : Rt (w α) K (val y) c
  e : Rt (w α) K (val z) η

theorem house_orth {m n : Nat} (hmn : m < n) (f : Nat → α) {scale h1 : α} (hs : 0 < val scale) (hf : ∃ k, m ≤ k ∧ k < n ∧ val (f k) ≠ 0)
    (hh1 : Rt (w α) (3 + n) (val h1) (∑ t ∈ Ico m n, val (f t) / val scale * (val (f t) / val scale))) :
    ∃ g0, FloatOps.sqrt h1 = .ok g0 ∧
      ∃ a c η, HO (n + 6) m n (fun t => val (f t)) a c η
        (fun t => if t = m then dv (f t) scale - (if FloatOps.lt 0 (dv (f m) scale) then -g0 else g0) else dv (f t) scale)
        (h1 - dv (f m) scale * (if FloatOps.lt 0 (dv (f m) scale) then -g0 else g0))
        (scale * (if FloatOps.lt 0 (dv (f m) scale) then -g0 else g0)) := by
  have hw : 1 ≤ w α := w_one
  set x : Nat → ℝ := fun t => val (f t) / val scale with hx
  have hd : ∀ t, Rt (w α) 1 (val (dv (f t) scale)) (x t) := fun t => (dv_ok (f t) hs.ne').2
  change Rt (w α) (3 + n) (val h1) (∑ t ∈ Ico m n, x t * x t) at hh1
  have hnn : 0 ≤ ∑ t ∈ Ico m n, x t * x t := Finset.sum_nonneg fun t _ => mul_self_nonneg _
  have hpos : 0 < ∑ t ∈ Ico m n, x t * x t := by
    obtain ⟨k, hk1, hk, h0⟩ := hf
    refine Finset.sum_pos' (fun t _ => mul_self_nonneg _) ⟨k, Finset.mem_Ico.2 ⟨hk1, hk⟩, ?_⟩
    exact mul_self_pos.2 (div_ne_zero h0 hs.ne')
  obtain ⟨g0, r1, r2⟩ := sqrt_rt (hh1.nonneg hw hnn)
  refine ⟨g0, r1, ?_⟩
  have hg0 : Rt (w α) (n + 3) (val g0) (Real.sqrt (∑ t ∈ Ico m n, x t * x t)) :=
    (r2.trans hw (Rt.sqrt hw (k := n + 2) (hh1.mono hw (by omega)))).mono hw (by omega)
  set g : ℝ := if 0 < x m then -Real.sqrt (∑ t ∈ Ico m n, x t * x t) else Real.sqrt (∑ t ∈ Ico m n, x t * x t) with hg
  have hg' : Rt (w α) (n + 3) (val (if FloatOps.lt 0 (dv (f m) scale) then -g0 else g0)) g := by
    have e1 : FloatOps.lt 0 (dv (f m) scale) = true ↔ 0 < x m := by
      rw [Sfp.lt, Sfp.zero]
      obtain ⟨ρ, q1, q2⟩ := hd m
      rw [q2]
      exact mul_pos_iff_of_pos_left (q1.pos hw)
    by_cases h3 : 0 < x m
    · rw [if_pos (e1.2 h3), hg, if_pos h3, Sfp.neg]; exact hg0.neg
    · rw [if_neg (fun h => h3 (e1.1 h)), hg, if_neg h3]; exact hg0
  generalize (if FloatOps.lt 0 (dv (f m) scale) then -g0 else g0) = gc at hg'
  have hg2 : g ^ 2 = ∑ t ∈ Ico m n, x t * x t := by
    rw [hg]; split <;> simp [Real.sq_sqrt hnn]
  have hgs : x m * g ≤ 0 := by
    have := Real.sqrt_nonneg (∑ t ∈ Ico m n, x t * x t)
    rw [hg]
    by_cases h3 : 0 < x m
    · rw [if_pos h3]; nlinarith
    · rw [if_neg h3]; push Not at h3; nlinarith
  have hgne : g ≠ 0 := by
    intro h0
    rw [h0] at hg2
    linarith
  obtain ⟨hhpos, hsq, hdot, -, -⟩ := house2 (s := Ico m n) (π := m) (Finset.mem_Ico.2 ⟨le_rfl, hmn⟩) (x := x)
    (u := fun t => if t = m then x t - g else x t) (g := g) (h := (∑ t ∈ Ico m n, x t * x t) - x m * g)
    hg2 hgs hgne (fun _ _ => rfl) rfl
  have hfg : Rt (w α) (n + 5) (val (-(dv (f m) scale * gc))) (-(x m * g)) := by
    rw [Sfp.neg]
    exact ((mul_rt' (hd m) hg').neg).mono hw (by omega)
  refine ⟨fun t => if t = m then x t - g else x t, (∑ t ∈ Ico m n, x t * x t) - x m * g, val scale * g,
    hhpos, hsq, ?_, ?_, ?_, ?_⟩
  · intro k _ hk
    have e1 : ∑ t ∈ Ico m n, (if t = m then x t - g else x t) * val (f t) =
        val scale * ((∑ t ∈ Ico m n, x t * x t) - x m * g) := by
      rw [← hdot, Finset.mul_sum]
      refine Finset.sum_congr rfl fun t ht => ?_
      simp only [hx]
      field_simp
    rw [e1, mul_div_assoc, div_self hhpos.ne', mul_one]
    have e2 : val (f k) = val scale * x k := by simp only [hx]; field_simp
    rw [e2]
    split <;> ring
  · intro t _ ht
    beta_reduce
    by_cases e : t = m
    · rw [if_pos e, if_pos e, e]
      have h1 := sub_rt (dv (f m) scale) gc
      refine (h1.trans hw (l := n + 3) ?_).mono hw (by omega)
      have h2 := (hd m).mono hw (show 1 ≤ n + 3 by omega)
      rw [sub_eq_add_neg, sub_eq_add_neg]
      by_cases h3 : 0 < x m
      · have h4 : 0 ≤ -g := by
          rw [hg, if_pos h3, neg_neg]; exact Real.sqrt_nonneg _
        exact h2.add hw hg'.neg h3.le h4
      · have h4 : 0 ≤ g := by
          rw [hg, if_neg h3]; exact Real.sqrt_nonneg _
        have := (h2.neg.add hw hg' (by linarith) h4).neg
        rwa [neg_add, neg_neg, neg_add, neg_neg] at this
    · rw [if_neg e, if_neg e]
      exact (hd t).mono hw (by omega)
  · have h2 := sub_rt h1 (dv (f m) scale * gc)
    refine (h2.trans hw (l := n + 5) ?_).mono hw (by omega)
    rw [Sfp.neg] at hfg
    rw [sub_eq_add_neg, sub_eq_add_neg]
    exact (hh1.mono hw (by omega)).add hw hfg hnn (by linarith)
  · exact (mul_rt' (Rt.refl (val scale)) hg').mono hw (by omega)

theorem rev_ws {lo hi K : Nat} {f : Nat → α → R α} {p : Nat → α} {s a : Nat → ℝ} (hle : lo ≤ hi)
    (hf : ∀ i x, lo ≤ i → i < hi → f i x = .ok (x + p i)) (h : ∀ t, lo ≤ t → t < hi → Ws (w α) K (val (p t)) (s t) (a t)) :
    Post (loopRev lo hi (0 : α) f) fun r => Ws (w α) (K + hi) (val r) (∑ t ∈ Ico lo hi, s t) (∑ t ∈ Ico lo hi, a t) := by
  refine (loopRev_post (lo := lo) (hi := hi) (s := (0 : α)) (f := f)
    (fun c r => Ws (w α) (K + (hi - c)) (val r) (∑ t ∈ Ico c hi, s t) (∑ t ∈ Ico c hi, a t)) hle ?_ ?_).mono fun r hr => hr.mono w_one (by omega)
  · rw [Sfp.zero, Finset.Ico_self, Finset.sum_empty, Finset.sum_empty]
    exact ⟨by simp, by simp⟩
  · intro i x h1 h2 h3
    rw [hf i x h1 h2, Finset.sum_eq_sum_Ico_succ_bot h2, Finset.sum_eq_sum_Ico_succ_bot h2, add_comm (s i), add_comm (a i)]
    exact Post.ok ((ws_add h3 ((h i h1 h2).mono w_one (by omega))).mono w_one (by omega))

theorem orthCol_ok {n m j K : Nat} {y : α} {ort h : Buf α} {P : Nat → Prop} {x : Nat → α} {F : Nat → Nat → α} {a : Nat → ℝ} {c : ℝ}
    (ho : Part ort n P x) (hP : ∀ i, m ≤ i → i < n → P i) (hh : FullG h n n F) (hj : j < n) (hm : m ≤ n) (hc : 0 < c)
    (hy : Rt (w α) K (val y) c) (hx : ∀ t, m ≤ t → t < n → Rt (w α) K (val (x t)) (a t)) :
    Post (orthCol n m j y ort h) fun r => ∃ φ : α,
      Ws (w α) (2 + 2 * K + n) (val φ) ((∑ t ∈ Ico m n, a t * val (F t j)) / c) ((∑ t ∈ Ico m n, |a t| * |val (F t j)|) / c) ∧
      FullG r n n (fun r s => if s = j ∧ m ≤ r then F r j - φ * x r else F r s) := by
  have hw : 1 ≤ w α := w_one
  unfold orthCol
  obtain ⟨s, hs, hws⟩ := rev_ws (lo := m) (hi := n) (K := 1 + (K + 0)) (f := fun i f => do return f + (← LA.rd ort i) * (← LA.rd h (i * n + j)))
    (p := fun t => x t * F t j) (s := fun t => a t * val (F t j)) (a := fun t => |a t| * |val (F t j)|) hm
    (fun i z h1 h2 => by rw [ho.rd (i := i) h2 (hP i h1 h2), ok_bind, hh.rd (i := i) (j := j) h2 hj, ok_bind]; rfl)
    (fun t h1 h2 => ws_mul ((hx t h1 h2).ws hw) ((Rt.refl _).ws hw))
  rw [hs, ok_bind, (dv_ok s (hy.ne hw hc.ne')).1, ok_bind]
  have hφ := ws_div hws hy hc
  generalize dv s y = φ at hφ ⊢
  refine (loopG_rows (lo := m) (hi := n) (fun r s => if s = j then F r j - φ * x r else F r s) hh ?_).mono fun r h =>
    ⟨φ, hφ.mono hw (by omega), h.congr fun a b ha _ => ?_⟩
  · intro i d' G' h1 h2 hG heq
    obtain ⟨d2, hd2, hg2⟩ := hG.wr (i := i) (j := j) h2 hj (F i j - φ * x i)
    rw [hG.rd (i := i) (j := j) h2 hj, ok_bind, ho.rd (i := i) h2 (hP i h1 h2), ok_bind, heq i j (by omega), hd2]
    refine Post.ok (hg2.congr fun a b _ _ => ?_)
    have h3 := heq i b (by omega)
    clear heq
    simp only [upd]
    grind
  · grind

theorem orthRow_ok {n m i K : Nat} {y : α} {ort h : Buf α} {P : Nat → Prop} {x : Nat → α} {F : Nat → Nat → α} {a : Nat → ℝ} {c : ℝ}
    (ho : Part ort n P x) (hP : ∀ i, m ≤ i → i < n → P i) (hh : FullG h n n F) (hi : i < n) (hm : m ≤ n) (hc : 0 < c)
    (hy : Rt (w α) K (val y) c) (hx : ∀ t, m ≤ t → t < n → Rt (w α) K (val (x t)) (a t)) :
    Post (orthRow n m i y ort h) fun r => ∃ φ : α,
      Ws (w α) (2 + 2 * K + n) (val φ) ((∑ t ∈ Ico m n, a t * val (F i t)) / c) ((∑ t ∈ Ico m n, |a t| * |val (F i t)|) / c) ∧
      FullG r n n (fun r s => if r = i ∧ m ≤ s then F i s - φ * x s else F r s) := by
  have hw : 1 ≤ w α := w_one
  unfold orthRow
  obtain ⟨s, hs, hws⟩ := rev_ws (lo := m) (hi := n) (K := 1 + (K + 0)) (f := fun j f => do return f + (← LA.rd ort j) * (← LA.rd h (i * n + j)))
    (p := fun t => x t * F i t) (s := fun t => a t * val (F i t)) (a := fun t => |a t| * |val (F i t)|) hm
    (fun j z h1 h2 => by rw [ho.rd (i := j) h2 (hP j h1 h2), ok_bind, hh.rd (i := i) (j := j) hi h2, ok_bind]; rfl)
    (fun t h1 h2 => ws_mul ((hx t h1 h2).ws hw) ((Rt.refl _).ws hw))
  rw [hs, ok_bind, (dv_ok s (hy.ne hw hc.ne')).1, ok_bind]
  have hφ := ws_div hws hy hc
  generalize dv s y = φ at hφ ⊢
  refine (loopG_cols (lo := m) (hi := n) (fun r s => if r = i then F i s - φ * x s else F r s) hh ?_).mono fun r h =>
    ⟨φ, hφ.mono hw (by omega), h.congr fun a b ha hb => ?_⟩
  · intro j d' G' h1 h2 hG heq
    obtain ⟨d2, hd2, hg2⟩ := hG.wr (i := i) (j := j) hi h2 (F i j - φ * x j)
    rw [hG.rd (i := i) (j := j) hi h2, ok_bind, ho.rd (i := j) h2 (hP j h1 h2), ok_bind, heq i j (by omega), hd2]
    refine Post.ok (hg2.congr fun a b _ _ => ?_)
    have h3 := heq a j (by omega)
    clear heq
    simp only [upd]
    grind
  · grind

end Std
end LA
