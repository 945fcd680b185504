import Verif.Proofs.StdIter
import Verif.Proofs.Flops
import Verif.Proofs.SVDGen

/-! # Householder reflections in rounded arithmetic -/

set_option linter.unusedSectionVars false

namespace LA
open Finset Matrix
namespace Std
open Sfp SVD

variable {α : Type} [Zero α] [One α] [Add α] [Sub α] [Neg α] [Mul α] [FloatOps α] [Sfp α]

/-- The computed quotient. -/
def dv (x y : α) : α := match RDiv.rdiv x y with
  | .ok z => z
  | .error _ => x

theorem dv_ok (x : α) {y : α} (h : val y ≠ 0) : RDiv.rdiv x y = .ok (dv x y) ∧ Rt (w α) 1 (val (dv x y)) (val x / val y) := by
  obtain ⟨z, h1, h2⟩ := div_rt x h
  unfold dv
  rw [h1]
  exact ⟨rfl, h2⟩

/-- The computed sum of products over `lo..N`. -/
def dotI (lo N : Nat) (x y : Nat → α) : α := facc (· + ·) 0 (fun t => x (lo + t) * y (lo + t)) (N - lo)

theorem dotI_congr {lo N : Nat} {x y x' y' : Nat → α} (h : ∀ i, lo ≤ i → i < N → x i = x' i ∧ y i = y' i) :
    dotI lo N x y = dotI lo N x' y' := facc_congr fun i hi => by
  rw [(h (lo + i) (by omega) (by omega)).1, (h (lo + i) (by omega) (by omega)).2]

theorem loop_dotI {lo N : Nat} {x y : Nat → α} {f : Nat → α → R α} (hle : lo ≤ N)
    (h : ∀ i s, lo ≤ i → i < N → f i s = .ok (s + x i * y i)) : loop lo N (0 : α) f = .ok (dotI lo N x y) := by
  refine (loop_post (fun i s => s = facc (· + ·) 0 (fun t => x (lo + t) * y (lo + t)) (i - lo)) hle (by rw [Nat.sub_self]; rfl) ?_).eq_ok
  rintro i s h1 h2 rfl
  rw [h i _ h1 h2, show i + 1 - lo = (i - lo) + 1 by omega, facc]
  refine Post.ok ?_
  rw [show lo + (i - lo) = i by omega]

theorem sum_err {w : ℝ} (hw : 1 ≤ w) {k : Nat} {ι : Type} (S : Finset ι) {ρ a : ι → ℝ} (h : ∀ t, Wt w k (ρ t)) :
    |∑ t ∈ S, ρ t * a t - ∑ t ∈ S, a t| ≤ (w ^ k - 1) * ∑ t ∈ S, |a t| := by
  rw [← Finset.sum_sub_distrib, Finset.mul_sum]
  refine (Finset.abs_sum_le_sum_abs _ _).trans (Finset.sum_le_sum fun t _ => ?_)
  rw [show ρ t * a t - a t = (ρ t - 1) * a t by ring, abs_mul]
  exact mul_le_mul_of_nonneg_right ((h t).sub hw) (abs_nonneg _)

theorem facc_wt {K : Nat} {p : Nat → α} {a : Nat → ℝ} : ∀ c, (∀ t, t < c → Rt (w α) K (val (p t)) (a t)) →
    ∃ ρ : Nat → ℝ, (∀ t, Wt (w α) (K + c) (ρ t)) ∧ val (facc (· + ·) 0 p c) = ∑ t ∈ range c, ρ t * a t := by
  intro c
  have hw : 1 ≤ w α := w_one
  induction c with
  | zero => intro _; exact ⟨fun _ => 1, fun _ => Wt.one.mono hw (by omega), by rw [facc, Sfp.zero]; simp⟩
  | succ c ih =>
    intro h
    obtain ⟨ρ, h1, h2⟩ := ih fun t ht => h t (by omega)
    obtain ⟨σ, s1, s2⟩ := h c (by omega)
    obtain ⟨τ, t1, t2⟩ := add_rt (facc (· + ·) 0 p c) (p c)
    refine ⟨fun t => if t < c then τ * ρ t else τ * σ, ?_, ?_⟩
    · intro t
      dsimp only
      split
      · exact (t1.mul hw (h1 t)).mono hw (by omega)
      · exact (t1.mul hw s1).mono hw (by omega)
    · rw [facc, t2, h2, s2, Finset.sum_range_succ]
      beta_reduce
      rw [if_neg (lt_irrefl c), mul_add, Finset.mul_sum]
      congr 1
      · refine Finset.sum_congr rfl fun t ht => ?_
        rw [if_pos (Finset.mem_range.1 ht), mul_assoc]
      · rw [mul_assoc]

theorem dotI_wt {K lo N : Nat} {x f : Nat → α} {a : Nat → ℝ} (h : ∀ t, lo ≤ t → t < N → Rt (w α) K (val (x t)) (a t)) :
    ∃ ρ : Nat → ℝ, (∀ t, Wt (w α) (K + 1 + N) (ρ t)) ∧ val (dotI lo N x f) = ∑ t ∈ Ico lo N, ρ t * (a t * val (f t)) := by
  have hw : 1 ≤ w α := w_one
  obtain ⟨ρ, h1, h2⟩ := facc_wt (K := K + 1) (p := fun t => x (lo + t) * f (lo + t)) (a := fun t => a (lo + t) * val (f (lo + t)))
    (N - lo) (fun t ht => (mul_rt' (h (lo + t) (by omega) (by omega)) (Rt.refl (val (f (lo + t))))).mono hw (by omega))
  refine ⟨fun t => ρ (t - lo), fun t => (h1 _).mono hw (by omega), ?_⟩
  unfold dotI
  rw [h2, Finset.sum_Ico_eq_sum_range]
  refine Finset.sum_congr rfl fun t _ => ?_
  beta_reduce
  rw [Nat.add_sub_cancel_left]

/-- What the code turns the column `f` into, with reflection vector `x`. -/
def appc (lo N : Nat) (x f : Nat → α) (i : Nat) : α :=
  if lo ≤ i then f i + dv (-(dotI lo N x f)) (x lo) * x i else f i

/-- What the code turns the row `f` into, with reflection vector `x`. -/
def appr (lo N : Nat) (x f : Nat → α) (j : Nat) : α :=
  if lo ≤ j then f j + dv (-(x j)) (x lo) * dotI lo N x f else f j

theorem app_aux {w : ℝ} (hw : 1 ≤ w) {k : Nat} {S : Finset Nat} {σ τ F x xlo y : ℝ} {ρ a : Nat → ℝ} (hσ : Wt w k σ) (hρ : ∀ t, Wt w k (τ * ρ t))
    (hlo : 0 < xlo) (hy : y = σ * F + τ * (-(∑ t ∈ S, ρ t * a t) / xlo * x)) :
    |y - (F + -(∑ t ∈ S, a t) / xlo * x)| ≤ (w ^ k - 1) * (|F| + |x| / xlo * ∑ t ∈ S, |a t|) := by
  have h1 := sum_err hw S (a := fun t => a t * (-x / xlo)) hρ
  have e1 : ∑ t ∈ S, τ * ρ t * (a t * (-x / xlo)) = τ * (-(∑ t ∈ S, ρ t * a t) / xlo * x) := by
    rw [← Finset.sum_neg_distrib, Finset.sum_div, Finset.sum_mul, Finset.mul_sum]
    exact Finset.sum_congr rfl fun t _ => by ring
  have e2 : ∑ t ∈ S, a t * (-x / xlo) = -(∑ t ∈ S, a t) / xlo * x := by
    rw [← Finset.sum_neg_distrib, Finset.sum_div, Finset.sum_mul]
    exact Finset.sum_congr rfl fun t _ => by ring
  have e3 : ∑ t ∈ S, |a t * (-x / xlo)| = |x| / xlo * ∑ t ∈ S, |a t| := by
    rw [Finset.mul_sum]
    refine Finset.sum_congr rfl fun t _ => ?_
    rw [abs_mul, abs_div, abs_neg, abs_of_pos hlo, mul_comm]
  rw [e1, e2, e3] at h1
  have h2 := hσ.sub hw
  have h3 := mul_le_mul_of_nonneg_right h2 (abs_nonneg F)
  rw [← abs_mul] at h3
  have e4 : y - (F + -(∑ t ∈ S, a t) / xlo * x) =
      (σ - 1) * F + (τ * (-(∑ t ∈ S, ρ t * a t) / xlo * x) - -(∑ t ∈ S, a t) / xlo * x) := by rw [hy]; ring
  rw [e4, mul_add]
  exact (abs_add_le _ _).trans (add_le_add h3 h1)

theorem appc_err {K lo N : Nat} {x f : Nat → α} {a : Nat → ℝ} (h : ∀ t, lo ≤ t → t < N → Rt (w α) K (val (x t)) (a t)) (hlo : 0 < a lo)
    {i : Nat} (h1 : lo ≤ i) (h2 : i < N) :
    |val (appc lo N x f i) - (val (f i) + -(∑ t ∈ Ico lo N, a t * val (f t)) / a lo * a i)| ≤
      (w α ^ (3 * K + N + 4) - 1) * (|val (f i)| + |a i| / a lo * ∑ t ∈ Ico lo N, |a t * val (f t)|) := by
  have hw : 1 ≤ w α := w_one
  obtain ⟨ρ, r1, r2⟩ := dotI_wt (f := f) h
  obtain ⟨ρ4, q1, q2⟩ := h lo le_rfl (by omega)
  obtain ⟨ρ3, p1, p2⟩ := h i h1 h2
  have hne : val (x lo) ≠ 0 := by rw [q2]; exact mul_ne_zero (q1.pos hw).ne' hlo.ne'
  obtain ⟨ρ2, o1, o2⟩ := (dv_ok (-(dotI lo N x f)) hne).2
  obtain ⟨ρ1, n1, n2⟩ := mul_rt (dv (-(dotI lo N x f)) (x lo)) (x i)
  obtain ⟨ρ0, m1, m2⟩ := add_rt (f i) (dv (-(dotI lo N x f)) (x lo) * x i)
  unfold appc
  rw [if_pos h1]
  refine app_aux hw (τ := ρ0 * (ρ1 * (ρ2 * (ρ3 * ρ4⁻¹)))) (ρ := ρ) (m1.mono hw (by omega)) (fun t => ?_) hlo ?_
  · exact ((m1.mul hw (n1.mul hw (o1.mul hw (p1.mul hw (q1.inv hw))))).mul hw (r1 t)).mono hw (by omega)
  · rw [m2, n2, o2, p2, q2, Sfp.neg, r2]
    have := (q1.pos hw).ne'
    have := hlo.ne'
    field_simp

theorem appr_err {K lo N : Nat} {x f : Nat → α} {a : Nat → ℝ} (h : ∀ t, lo ≤ t → t < N → Rt (w α) K (val (x t)) (a t)) (hlo : 0 < a lo)
    {i : Nat} (h1 : lo ≤ i) (h2 : i < N) :
    |val (appr lo N x f i) - (val (f i) + -(∑ t ∈ Ico lo N, a t * val (f t)) / a lo * a i)| ≤
      (w α ^ (3 * K + N + 4) - 1) * (|val (f i)| + |a i| / a lo * ∑ t ∈ Ico lo N, |a t * val (f t)|) := by
  have hw : 1 ≤ w α := w_one
  obtain ⟨ρ, r1, r2⟩ := dotI_wt (f := f) h
  obtain ⟨ρ4, q1, q2⟩ := h lo le_rfl (by omega)
  obtain ⟨ρ3, p1, p2⟩ := h i h1 h2
  have hne : val (x lo) ≠ 0 := by rw [q2]; exact mul_ne_zero (q1.pos hw).ne' hlo.ne'
  obtain ⟨ρ2, o1, o2⟩ := (dv_ok (-(x i)) hne).2
  obtain ⟨ρ1, n1, n2⟩ := mul_rt (dv (-(x i)) (x lo)) (dotI lo N x f)
  obtain ⟨ρ0, m1, m2⟩ := add_rt (f i) (dv (-(x i)) (x lo) * dotI lo N x f)
  unfold appr
  rw [if_pos h1]
  refine app_aux hw (τ := ρ0 * (ρ1 * (ρ2 * (ρ3 * ρ4⁻¹)))) (ρ := ρ) (m1.mono hw (by omega)) (fun t => ?_) hlo ?_
  · exact ((m1.mul hw (n1.mul hw (o1.mul hw (p1.mul hw (q1.inv hw))))).mul hw (r1 t)).mono hw (by omega)
  · rw [m2, n2, o2, Sfp.neg, p2, q2, r2]
    have := (q1.pos hw).ne'
    have := hlo.ne'
    field_simp

/-- A computed reflection vector `u` (and image `s`) close to an exact one `a` (and image `g`) for `x`. -/
structure HVr (K lo N : Nat) (x a : Nat → ℝ) (g : ℝ) (u : Nat → α) (s : α) : Prop where
  hv : HV lo N x a g
  nonneg : 0 ≤ a lo
  u : ∀ t, lo ≤ t → t < N → Rt (w α) K (val (u t)) (a t)
  s : Rt (w α) K (val s) g

theorem HVr.zero {K lo N : Nat} {x a : Nat → ℝ} {g : ℝ} {u : Nat → α} {s : α} (h : HVr K lo N x a g u s) (h0 : val s = 0) :
    ∀ i, lo ≤ i → i < N → a i = 0 := h.hv.zero ((h.s.zero_iff w_one).1 h0)

theorem HVr.pos {K lo N : Nat} {x a : Nat → ℝ} {g : ℝ} {u : Nat → α} {s : α} (h : HVr K lo N x a g u s) (h0 : val s ≠ 0) : 0 < a lo :=
  lt_of_le_of_ne h.nonneg (Ne.symm (h.hv.nz fun h1 => h0 ((h.s.zero_iff w_one).2 h1)))

/-- The image of the vector itself: the error of its norm is covered by the generic bound. -/
theorem HVr.own {K lo N : Nat} {x a : Nat → ℝ} {g : ℝ} {u : Nat → α} {s : α} (h : HVr K lo N x a g u s) (hlo : lo < N) :
    |val s - g| ≤ (w α ^ K - 1) * (|x lo| + |a lo| / a lo * ∑ t ∈ Ico lo N, |a t * x t|) := by
  refine (h.s.sub w_one).trans (mul_le_mul_of_nonneg_left ?_ (sub_nonneg.2 (pw_one (w_one (α := α)) K)))
  have h1 := h.hv.refl lo le_rfl hlo
  rw [if_pos rfl] at h1
  rw [← h1]
  refine (abs_add_le _ _).trans (add_le_add le_rfl ?_)
  rw [neg_div, neg_mul, abs_neg, abs_mul, abs_div, abs_of_nonneg h.nonneg]
  have h2 := Finset.abs_sum_le_sum_abs (fun t => a t * x t) (Ico lo N)
  have h3 : 0 ≤ a lo / a lo := div_nonneg h.nonneg h.nonneg
  calc |∑ t ∈ Ico lo N, a t * x t| / a lo * a lo = a lo / a lo * |∑ t ∈ Ico lo N, a t * x t| := by ring
    _ ≤ _ := mul_le_mul_of_nonneg_left h2 h3

end Std
end LA
