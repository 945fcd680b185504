import Verif.Proofs.EigHqr2

/-! # `hqr2`: the double QR sweep -/

set_option linter.unusedSectionVars false

namespace LA
open Finset Matrix
namespace Eigen
open SVD (pk pk_congr)

/-- The accumulated shift, on the active rows. -/
def exd (c : Nat) (ex : ℝ) : Nat → Nat → ℝ := fun a b => if a = b ∧ a < c then ex else 0

/-- Sum of tables. -/
def tadd (F G : Nat → Nat → ℝ) : Nat → Nat → ℝ := fun a b => F a b + G a b

theorem pk_tadd {n : Nat} (F G : Nat → Nat → ℝ) : pk n n (tadd F G) = pk n n F + pk n n G := rfl

/-- The vector `(1, q, r)` at position `k`. -/
def w3 (k : Nat) (q r : ℝ) (a : Nat) : ℝ := if a = k then 1 else if a = k + 1 then q else if a = k + 2 then r else 0

theorem rfL_w {k : Nat} {q r x y z : ℝ} (h : RF q r x y z) (F : Nat → Nat → ℝ) (a b : Nat) :
    rfL k q r x y z F a b = F a b - (F k b + q * F (k + 1) b + r * F (k + 2) b) * x * w3 k q r a := by
  unfold rfL w3
  rw [h.y, h.z]
  split_ifs with h1 h2 h3
  · rw [h1]; ring
  · rw [h2]; ring
  · rw [h3]; ring
  · ring

theorem rfR_w {k : Nat} {q r x y z : ℝ} (h : RF q r x y z) (F : Nat → Nat → ℝ) (a b : Nat) :
    rfR k q r x y z F a b = F a b - (F a k + q * F a (k + 1) + r * F a (k + 2)) * x * w3 k q r b := by
  unfold rfR w3
  rw [h.y, h.z]
  split_ifs with h1 h2 h3
  · rw [h1]; ring
  · rw [h2]; ring
  · rw [h3]; ring
  · ring

theorem exd_w {k c : Nat} {ex q r : ℝ} (hk : k + 1 < c) (h2 : c ≤ k + 2 → r = 0) (b : Nat) :
    exd c ex k b + q * exd c ex (k + 1) b + r * exd c ex (k + 2) b = ex * w3 k q r b := by
  unfold exd w3
  have h0 : k < c := by omega
  by_cases hc : c ≤ k + 2
  · rw [h2 hc]
    grind
  · grind

theorem exd_symm (c : Nat) (ex : ℝ) (a b : Nat) : exd c ex a b = exd c ex b a := by
  unfold exd; grind

theorem exd_comm {k c : Nat} {ex q r x y z : ℝ} (h : RF q r x y z) (hk : k + 1 < c) (h2 : c ≤ k + 2 → r = 0) (a b : Nat) :
    rfL k q r x y z (exd c ex) a b = rfR k q r x y z (exd c ex) a b := by
  rw [rfL_w h, rfR_w h, exd_w hk h2, exd_symm c ex a k, exd_symm c ex a (k + 1), exd_symm c ex a (k + 2), exd_w hk h2]
  ring

theorem Sm.step {nn n m k : Nat} {A : Matrix (Fin nn) (Fin nn) ℝ} {V H : Nat → Nat → ℝ} {e : Nat → ℝ} {ex E δ val q r x y z : ℝ}
    (h : Sm nn A V (tadd (swk n m k e H) (exd (n + 1) ex)) E) (hr : RF q r x y z) (hn : n < nn) (hkn : k < n) (hmk : m ≤ k)
    (he : ¬ e (n + 1) < 0) (hlast : k + 1 = n → r = 0 ∧ z = 0)
    (hZ : ∀ a b, a ≤ n → k ≤ b → b + 2 ≤ a → a ≤ b + 3 → (m < k → ¬(a = k + 2 ∧ b = k)) → H a b = 0)
    (hδ : frob (pk nn nn (rfL k q r x y z (swk n m k e H)) - pk nn nn (rowStep n m k e val q r x y z H)) ≤ δ) :
    Sm nn A (rfR k q r x y z V) (tadd (swk n m (k + 1) e (memStep n k val q r x y z H)) (exd (n + 1) ex)) (E + δ) := by
  have hk1 : k + 1 < nn := by omega
  have hr2 : nn ≤ k + 2 → r = 0 := fun h => (hlast (by omega)).1
  have hP := rf_orth hk1 hr2 hr
  have hPT := hh_transpose (v3 nn k q r) x⁻¹
  have h1 : Sm nn A (rfR k q r x y z V) (rfR k q r x y z (rfL k q r x y z (tadd (swk n m k e H) (exd (n + 1) ex)))) E :=
    h.sim hP (pk_rfR hk1 hr2 hr V) (by rw [pk_rfR hk1 hr2 hr, pk_rfL hk1 hr2 hr, hPT])
  refine h1.pert ?_
  have hD : pk nn nn (rfR k q r x y z (rfL k q r x y z (exd (n + 1) ex))) = pk nn nn (exd (n + 1) ex) := by
    rw [pk_rfR hk1 hr2 hr, pk_congr (fun a b _ _ => exd_comm hr (show k + 1 < n + 1 by omega) (fun h => (hlast (by omega)).1) a b),
      pk_rfR hk1 hr2 hr, Matrix.mul_assoc]
    have := hP
    unfold Orth at this
    rw [hPT] at this
    rw [this, Matrix.mul_one]
  have e1 : pk nn nn (rfR k q r x y z (rfL k q r x y z (tadd (swk n m k e H) (exd (n + 1) ex)))) =
      pk nn nn (rfL k q r x y z (swk n m k e H)) * hh (v3 nn k q r) x⁻¹ + pk nn nn (exd (n + 1) ex) := by
    rw [← hD, pk_rfR hk1 hr2 hr, pk_rfR hk1 hr2 hr, pk_rfL hk1 hr2 hr, pk_rfL hk1 hr2 hr, pk_rfL hk1 hr2 hr, pk_tadd, Matrix.mul_add,
      Matrix.add_mul]
  have e2 : pk nn nn (tadd (swk n m (k + 1) e (memStep n k val q r x y z H)) (exd (n + 1) ex)) =
      pk nn nn (rowStep n m k e val q r x y z H) * hh (v3 nn k q r) x⁻¹ + pk nn nn (exd (n + 1) ex) := by
    rw [pk_tadd, pk_congr (fun a b _ _ => sw_step hkn hmk he hlast hZ a b), pk_rfR hk1 hr2 hr]
  rw [e1, e2, add_sub_add_right_eq_sub, ← Matrix.sub_mul]
  have := frob_mul_right (pk nn nn (rfL k q r x y z (swk n m k e H)) - pk nn nn (rowStep n m k e val q r x y z H)) hP
  rw [hPT] at this
  rw [this]
  exact hδ

theorem frob_le_sum {m n : Nat} (M : Matrix (Fin m) (Fin n) ℝ) : frob M ≤ ∑ i, ∑ j, |M i j| := by
  refine Real.sqrt_le_iff.2 ⟨Finset.sum_nonneg fun _ _ => Finset.sum_nonneg fun _ _ => abs_nonneg _, ?_⟩
  rw [← Finset.sum_product' (f := fun i j => M i j ^ 2), ← Finset.sum_product' (f := fun i j => |M i j|)]
  rw [Finset.sum_congr rfl (fun x _ => (sq_abs (M x.1 x.2)).symm)]
  exact Finset.sum_sq_le_sq_sum_of_nonneg fun _ _ => abs_nonneg _

/-- A table with at most three nonzero entries, in one column. -/
theorem frob_three {n k c : Nat} {F : Nat → Nat → ℝ} {α β γ : ℝ}
    (h0 : ∀ a b, ¬(b = c ∧ (a = k ∨ a = k + 1 ∨ a = k + 2)) → F a b = 0) (h1 : |F k c| ≤ α) (h2 : |F (k + 1) c| ≤ β)
    (h3 : |F (k + 2) c| ≤ γ) : frob (pk n n F) ≤ α + β + γ := by
  have ha := (abs_nonneg _).trans h1
  have hb := (abs_nonneg _).trans h2
  have hc := (abs_nonneg _).trans h3
  refine (frob_le_sum _).trans ?_
  have hrow : ∀ i : Fin n, ∑ j : Fin n, |pk n n F i j| ≤
      (if i.1 = k then α else 0) + (if i.1 = k + 1 then β else 0) + (if i.1 = k + 2 then γ else 0) := by
    intro i
    set x := (if i.1 = k then α else 0) + (if i.1 = k + 1 then β else 0) + (if i.1 = k + 2 then γ else 0) with hx
    have hx0 : 0 ≤ x := by rw [hx]; split_ifs <;> simp_all <;> positivity
    refine le_trans (Finset.sum_le_sum (g := fun j : Fin n => if j.1 = c then x else 0) fun j _ => ?_) (sum_fin_le c hx0)
    show |F i j| ≤ _
    by_cases hj : j.1 = c
    · rw [if_pos hj, hj, hx]
      by_cases e1 : i.1 = k
      · rw [e1, if_pos rfl, if_neg (by omega), if_neg (by omega)]; linarith
      · by_cases e2 : i.1 = k + 1
        · rw [e2, if_neg (by omega), if_pos rfl, if_neg (by omega)]; linarith
        · by_cases e3 : i.1 = k + 2
          · rw [e3, if_neg (by omega), if_neg (by omega), if_pos rfl]; linarith
          · rw [h0 _ _ (by omega), if_neg e1, if_neg e2, if_neg e3]; simp
    · rw [h0 _ _ (by omega), if_neg hj, abs_zero]
  refine (Finset.sum_le_sum fun i _ => hrow i).trans ?_
  rw [Finset.sum_add_distrib, Finset.sum_add_distrib]
  exact add_le_add (add_le_add (sum_fin_le k ha) (sum_fin_le (k + 1) hb)) (sum_fin_le (k + 2) hc)

/-- The facts about `s` (`src/decomp/eigen.rs:556-559`). -/
structure SF (p q r s : ℝ) : Prop where
  ne : s ≠ 0
  sq : s * s = p * p + q * q + r * r
  ps : p + s ≠ 0
  sgn : 0 ≤ p * s

theorem sf_mk {p q r : ℝ} (h : p ≠ 0 ∨ q ≠ 0 ∨ r ≠ 0) :
    SF p q r (if p < 0 then -Real.sqrt (p * p + q * q + r * r) else Real.sqrt (p * p + q * q + r * r)) := by
  have hpos : 0 < p * p + q * q + r * r := by
    rcases h with h | h | h
    · have := mul_self_pos.2 h; nlinarith [mul_self_nonneg q, mul_self_nonneg r]
    · have := mul_self_pos.2 h; nlinarith [mul_self_nonneg p, mul_self_nonneg r]
    · have := mul_self_pos.2 h; nlinarith [mul_self_nonneg p, mul_self_nonneg q]
  have hs := Real.sqrt_pos.2 hpos
  have hs2 := Real.mul_self_sqrt hpos.le
  split_ifs with hp
  · refine ⟨by linarith, by linarith, by linarith, by nlinarith⟩
  · refine ⟨by linarith, by linarith, by linarith, by nlinarith⟩

theorem SF.abs {p q r s : ℝ} (h : SF p q r s) : |p| ≤ |s| := by
  have := h.sq
  exact sq_le_sq.1 (by nlinarith [mul_self_nonneg q, mul_self_nonneg r])

/-- The column `(p, q, r)` is mapped to `(-s, 0, 0)`. -/
theorem SF.col {p q r s : ℝ} (h : SF p q r s) : p + q / (p + s) * q + r / (p + s) * r = s := by
  have h1 := h.ps
  have := h.sq
  field_simp
  nlinarith

theorem qrReflect_post {nn n l m k : Nat} {p q r x : ℝ} {h v : Buf ℝ} {H V : Nat → Nat → ℝ} (hh : FullG h nn nn H) (hv : FullG v nn nn V)
    (hn : n < nn) (hkn : k < n) (hmk : m ≤ k) (hlm : l ≤ m) (hr : k + 1 = n → r = 0) (h0 : p ≠ 0 ∨ q ≠ 0 ∨ r ≠ 0) :
    Post (qrReflect nn n l m k p q r x h v) fun o => ∃ s, SF p q r s ∧
      FullG o.1 nn nn (memStep n k (if k ≠ m then -s * x else if l ≠ m then -H k (k - 1) else H k (k - 1)) (q / (p + s)) (r / (p + s))
        ((p + s) / s) (q / s) (r / s) H) ∧
      FullG o.2 nn nn (rfR k (q / (p + s)) (r / (p + s)) ((p + s) / s) (q / s) (r / s) V) := by
  unfold qrReflect
  have hsf := sf_mk h0
  dsimp only
  rw [sqrt_ok (by nlinarith [mul_self_nonneg p, mul_self_nonneg q, mul_self_nonneg r]), ok_bind]
  simp only [lt_eq, eq_eq, decide_eq_true_eq]
  generalize (if p < 0 then -Real.sqrt (p * p + q * q + r * r) else Real.sqrt (p * p + q * q + r * r)) = s at hsf
  rw [if_pos (by simpa using hsf.ne)]
  set val := (if k ≠ m then -s * x else if l ≠ m then -H k (k - 1) else H k (k - 1)) with hval
  have hw : Post (if k ≠ m then wr h (k * nn + (k - 1)) (-s * x) else if l ≠ m then (do wr h (k * nn + (k - 1)) (-(← rd h (k * nn + (k - 1)))))
      else (pure h : R (Buf ℝ))) fun h1 => FullG h1 nn nn (fun a b => if a = k ∧ b + 1 = k then val else H a b) := by
    by_cases h1 : k ≠ m
    · rw [if_pos h1]
      refine (FullG.wrP hh (i := k) (j := k - 1) (by omega) (by omega) _).mono fun r h => h.congr fun a b _ _ => ?_
      unfold upd
      rw [hval, if_pos h1]
      by_cases h2 : a = k ∧ b + 1 = k
      · rw [if_pos h2, if_pos (by omega)]
      · rw [if_neg h2, if_neg (by omega)]
    · rw [if_neg h1]
      by_cases h3 : l ≠ m
      · rw [if_pos h3, hh.rd (i := k) (j := k - 1) (by omega) (by omega), ok_bind]
        refine (FullG.wrP hh (i := k) (j := k - 1) (by omega) (by omega) _).mono fun r h => h.congr fun a b _ _ => ?_
        unfold upd
        rw [hval, if_neg h1, if_pos h3]
        by_cases h2 : a = k ∧ b + 1 = k
        · rw [if_pos h2, if_pos (by omega)]
        · rw [if_neg h2, if_neg (by omega)]
      · rw [if_neg h3]
        refine Post.ok (hh.congr fun a b _ _ => ?_)
        by_cases h2 : a = k ∧ b + 1 = k
        · rw [if_pos h2, hval, if_neg h1, if_neg h3, h2.1, show b = k - 1 by omega]
        · rw [if_neg h2]
  obtain ⟨h1, hr1, hg1⟩ := hw
  rw [hr1, ok_bind, rdiv_ok hsf.ne, ok_bind, rdiv_ok hsf.ne, ok_bind, rdiv_ok hsf.ne, ok_bind, rdiv_ok hsf.ps, ok_bind, rdiv_ok hsf.ps, ok_bind]
  have hnl1 : decide (k ≠ n - 1) = true → k + 2 < nn := fun h => by
    have := of_decide_eq_true h; omega
  have hnl2 : decide (k ≠ n - 1) = false → r / (p + s) = 0 ∧ r / s = 0 := fun h => by
    have := of_decide_eq_false h
    rw [hr (by omega)]; simp
  obtain ⟨h2, hr2, hg2⟩ := qrRows_post (x := (p + s) / s) (y := q / s) (q := q / (p + s)) hg1 (show k + 1 < nn by omega) hnl1 hnl2
  obtain ⟨h3, hr3, hg3⟩ := qrCols_post (x := (p + s) / s) (y := q / s) (q := q / (p + s)) (hi := min n (k + 3) + 1) hg2 (show k + 1 < nn by omega)
    (by omega) hnl1 hnl2
  obtain ⟨v3, hr4, hg4⟩ := qrCols_post (x := (p + s) / s) (y := q / s) (q := q / (p + s)) (hi := nn) hv (show k + 1 < nn by omega)
    le_rfl hnl1 hnl2
  rw [hr2, ok_bind, hr3, ok_bind, hr4, ok_bind]
  refine Post.ok ⟨s, hsf, hg3, hg4.congr fun a b ha _ => by rw [if_pos ha]⟩

end Eigen
end LA
