import Verif.Proofs.SVDMain
import Verif.Proofs.QR

/-! # Householder vectors as `SVD::new` builds them, and their application to tables -/

set_option linter.unusedSectionVars false

namespace LA
open Finset Matrix

/-- `u` is a reflection vector on `lo..N` that maps `x` to `s · e_lo` (`u = 0` if `s = 0`). -/
structure HV (lo N : Nat) (x u : Nat → ℝ) (s : ℝ) : Prop where
  norm : ∑ t ∈ Ico lo N, u t * u t = 2 * u lo
  zero : s = 0 → ∀ i, lo ≤ i → i < N → u i = 0
  nz : s ≠ 0 → u lo ≠ 0
  refl : ∀ i, lo ≤ i → i < N → x i + -(∑ t ∈ Ico lo N, u t * x t) / u lo * u i = if i = lo then s else 0

theorem house_zero {lo N : Nat} {x : Nat → ℝ} (h : lo < N) (h0 : ∑ t ∈ Ico lo N, x t ^ 2 = 0) : HV lo N x x 0 := by
  have hx : ∀ i, lo ≤ i → i < N → x i = 0 := by
    intro i h1 h2
    have := (Finset.sum_eq_zero_iff_of_nonneg (fun i _ => sq_nonneg (x i))).1 h0 i (Finset.mem_Ico.2 ⟨h1, h2⟩)
    exact pow_eq_zero_iff (two_ne_zero) |>.1 this
  refine ⟨?_, fun _ => hx, fun h => absurd rfl h, ?_⟩
  · rw [hx lo le_rfl h, mul_zero, ← h0]
    exact Finset.sum_congr rfl fun t _ => by ring
  · intro i h1 h2
    rw [hx i h1 h2, mul_zero, add_zero, ite_self]

theorem sum_delta {lo N : Nat} (h : lo < N) (u v w : Nat → ℝ) (hu : ∀ t, u t = if t = lo then w t + 1 else w t) :
    ∑ t ∈ Ico lo N, u t * v t = ∑ t ∈ Ico lo N, w t * v t + v lo := by
  have : ∀ t ∈ Ico lo N, u t * v t = w t * v t + if t = lo then v t else 0 := by
    intro t _
    rw [hu t]
    split <;> ring
  rw [Finset.sum_congr rfl this, Finset.sum_add_distrib, Finset.sum_ite_eq', if_pos (Finset.mem_Ico.2 ⟨le_rfl, h⟩)]

theorem house {lo N : Nat} {x u : Nat → ℝ} {g : ℝ} (h : lo < N) (hg : g ^ 2 = ∑ t ∈ Ico lo N, x t ^ 2) (h0 : g ≠ 0)
    (hsign : 0 ≤ x lo / g) (hu : ∀ t, u t = if t = lo then x t / g + 1 else x t / g) : HV lo N x u (-g) := by
  have hlo : u lo = x lo / g + 1 := by rw [hu, if_pos rfl]
  have hpos : u lo ≠ 0 := by rw [hlo]; positivity
  have hxx : ∑ t ∈ Ico lo N, x t / g * x t = g := by
    have : ∑ t ∈ Ico lo N, x t / g * x t = (∑ t ∈ Ico lo N, x t ^ 2) / g := by
      rw [Finset.sum_div]; exact Finset.sum_congr rfl fun t _ => by ring
    rw [this, ← hg]; field_simp
  have hux : ∑ t ∈ Ico lo N, u t * x t = g + x lo := by
    rw [sum_delta h u x (fun t => x t / g) hu, hxx]
  have huw : ∑ t ∈ Ico lo N, u t * (x t / g) = u lo := by
    have : ∑ t ∈ Ico lo N, u t * (x t / g) = (∑ t ∈ Ico lo N, u t * x t) / g := by
      rw [Finset.sum_div]; exact Finset.sum_congr rfl fun t _ => by ring
    rw [this, hux, hlo]; field_simp; ring
  refine ⟨?_, fun h => absurd (neg_eq_zero.1 h) h0, fun _ => hpos, ?_⟩
  · rw [sum_delta h u u (fun t => x t / g) hu, Finset.sum_congr rfl (fun t _ => mul_comm (x t / g) (u t)), huw]; ring
  · intro i h1 h2
    have e1 : -(∑ t ∈ Ico lo N, u t * x t) / u lo = -g := by
      rw [hux, hlo, div_eq_iff (by rw [← hlo]; exact hpos)]
      field_simp
      ring
    rw [e1, hu i]
    split
    · field_simp; ring
    · field_simp; ring

/-- `u` restricted to `lo..`. -/
def vlo (N lo : Nat) (u : Nat → ℝ) : Fin N → ℝ := fun i => if lo ≤ i.1 then u i else 0

theorem sum_vlo {N lo : Nat} (u f : Nat → ℝ) : ∑ t : Fin N, vlo N lo u t * f t = ∑ t ∈ Ico lo N, u t * f t := by
  unfold vlo
  rw [Fin.sum_univ_eq_sum_range (fun t => (if lo ≤ t then u t else 0) * f t) N, Finset.range_eq_Ico]
  by_cases h : lo ≤ N
  · rw [← Finset.sum_Ico_consecutive _ (Nat.zero_le lo) h]
    have e1 : ∑ i ∈ Ico 0 lo, (if lo ≤ i then u i else 0) * f i = 0 := by
      refine Finset.sum_eq_zero fun t ht => ?_
      rw [Finset.mem_Ico] at ht
      rw [if_neg (by omega), zero_mul]
    rw [e1, zero_add]
    refine Finset.sum_congr rfl fun t ht => ?_
    rw [Finset.mem_Ico] at ht
    rw [if_pos ht.1]
  · rw [Finset.Ico_eq_empty (show ¬ lo < N by omega), Finset.sum_empty]
    refine Finset.sum_eq_zero fun t ht => ?_
    rw [Finset.mem_Ico] at ht
    rw [if_neg (by omega), zero_mul]

/-- The reflection with vector `u` on `lo..`. -/
noncomputable def hhl (N lo : Nat) (u : Nat → ℝ) : Matrix (Fin N) (Fin N) ℝ := hh (vlo N lo u) (u lo)

theorem hhl_congr {N lo : Nat} {u u' : Nat → ℝ} (hlo : lo < N) (h : ∀ i, lo ≤ i → i < N → u i = u' i) :
    hhl N lo u = hhl N lo u' := by
  have : vlo N lo u = vlo N lo u' := by
    funext i
    simp only [vlo]
    split
    · exact h i ‹_› i.2
    · rfl
  rw [hhl, hhl, this, h lo le_rfl hlo]

theorem hhl_orth {N lo : Nat} {u : Nat → ℝ} (h : ∑ t ∈ Ico lo N, u t * u t = 2 * u lo) : Orth (hhl N lo u) := by
  refine hh_orth ?_
  rw [← h, ← sum_vlo, dotProduct]
  refine Finset.sum_congr rfl fun t _ => ?_
  simp only [vlo]
  split <;> simp

theorem hhl_sq {N lo : Nat} {u : Nat → ℝ} (h : ∑ t ∈ Ico lo N, u t * u t = 2 * u lo) : hhl N lo u * hhl N lo u = 1 := by
  have := hhl_orth h
  unfold Orth at this
  rwa [hhl, hh_transpose] at this

theorem hhl_transpose {N lo : Nat} (u : Nat → ℝ) : (hhl N lo u)ᵀ = hhl N lo u := hh_transpose _ _

/-- Reflection applied to the rows `lo..` of a table. -/
noncomputable def refc (lo m : Nat) (u : Nat → ℝ) (F : Nat → Nat → ℝ) : Nat → Nat → ℝ := fun i j =>
  if lo ≤ i then F i j + -(∑ t ∈ Ico lo m, u t * F t j) / u lo * u i else F i j

theorem pk_refc {lo m n : Nat} (u : Nat → ℝ) (F : Nat → Nat → ℝ) :
    SVD.pk m n (refc lo m u F) = hhl m lo u * SVD.pk m n F := by
  ext i j
  rw [hhl, hh_mul_apply, show ∑ t, vlo m lo u t * SVD.pk m n F t j = _ from sum_vlo u (fun t => F t j)]
  simp only [SVD.pk, LU.packed, of_apply, refc, vlo]
  split <;> simp

/-- Reflection applied to the columns `lo..` of a table. -/
noncomputable def refr (lo n : Nat) (u : Nat → ℝ) (F : Nat → Nat → ℝ) : Nat → Nat → ℝ := fun i j =>
  if lo ≤ j then F i j + -(u j) / u lo * ∑ t ∈ Ico lo n, u t * F i t else F i j

theorem pk_refr {lo m n : Nat} (u : Nat → ℝ) (F : Nat → Nat → ℝ) :
    SVD.pk m n (refr lo n u F) = SVD.pk m n F * hhl n lo u := by
  ext i j
  rw [hhl, mul_hh_apply, show ∑ t, vlo n lo u t * SVD.pk m n F i t = _ from sum_vlo u (fun t => F i t)]
  simp only [SVD.pk, LU.packed, of_apply, refr, vlo]
  split <;> simp

/-- A zero vector gives the identity. -/
theorem refc_zero {lo m : Nat} {u : Nat → ℝ} (hu : ∀ i, lo ≤ i → i < m → u i = 0) (F : Nat → Nat → ℝ) {i : Nat} (hi : i < m)
    (j : Nat) : refc lo m u F i j = F i j := by
  unfold refc
  split
  · rw [hu i ‹_› hi]; ring
  · rfl

theorem refr_zero {lo n : Nat} {u : Nat → ℝ} (hu : ∀ i, lo ≤ i → i < n → u i = 0) (F : Nat → Nat → ℝ) {j : Nat} (hj : j < n)
    (i : Nat) : refr lo n u F i j = F i j := by
  unfold refr
  split
  · rw [hu j ‹_› hj]; ring
  · rfl

theorem hhl_zero {N lo : Nat} {u : Nat → ℝ} (hlo : lo < N) (hu : ∀ i, lo ≤ i → i < N → u i = 0) : hhl N lo u = 1 := by
  rw [hhl, hu lo le_rfl hlo, hh_zero]

theorem hypot_acc {a x : ℝ} (ha : 0 ≤ a) : hypot (Real.sqrt a) x = .ok (Real.sqrt (a + x ^ 2)) := by
  rw [Props.C51_hypot, Real.sq_sqrt ha]

end LA
