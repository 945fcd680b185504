import Verif.Proofs.EigHqr8
import Mathlib.Algebra.Order.Chebyshev

/-! # `hqr2`: the outer loop -/

set_option linter.unusedSectionVars false

namespace LA
open Finset Matrix
namespace Eigen
open SVD (pk pk_congr)

theorem hqrNorm_post {nn : Nat} {h : Buf ℝ} {H : Nat → Nat → ℝ} (hh : FullG h nn nn H) :
    hqrNorm nn h = .ok (∑ i ∈ Ico 0 nn, ∑ j ∈ Ico (i - 1) nn, |H i j|) := by
  unfold hqrNorm
  have key : ∀ i s, 0 ≤ i → i < nn → (loop (i - 1) nn s fun j norm => do return norm + FloatOps.abs (← rd h (i * nn + j))) =
      .ok (s + ∑ j ∈ Ico (i - 1) nn, |H i j|) := by
    intro i s _ hi
    have := loop_post (lo := i - 1) (hi := nn) (s := s) (f := fun j norm => do return norm + FloatOps.abs (← rd h (i * nn + j)))
      (fun k s' => s' = s + ∑ j ∈ Ico (i - 1) k, |H i j|) (by omega) (by simp) (by
        intro k s' h1 h2 h3
        rw [hh.rd hi h2, ok_bind, Exact.abs_eq]
        refine Post.ok ?_
        rw [h3, Finset.sum_Ico_succ_top h1, add_assoc])
    exact this.eq_ok
  refine (loop_post (fun k s' => s' = ∑ i ∈ Ico 0 k, ∑ j ∈ Ico (i - 1) nn, |H i j|) (Nat.zero_le _) (by simp) ?_).eq_ok
  intro i s h1 h2 h3
  rw [key i s h1 h2]
  refine Post.ok ?_
  rw [h3, Finset.sum_Ico_succ_top h1]

theorem sum_abs_le {n : Nat} (M : Matrix (Fin n) (Fin n) ℝ) : ∑ i, ∑ j, |M i j| ≤ n * frob M := by
  have h1 : (∑ x ∈ (Finset.univ : Finset (Fin n)) ×ˢ (Finset.univ : Finset (Fin n)), |M x.1 x.2|) ^ 2 ≤
      (Finset.univ ×ˢ Finset.univ : Finset (Fin n × Fin n)).card * ∑ x ∈ (Finset.univ : Finset (Fin n)) ×ˢ (Finset.univ : Finset (Fin n)), |M x.1 x.2| ^ 2 :=
    sq_sum_le_card_mul_sum_sq
  rw [Finset.sum_product' (f := fun i j => |M i j|), Finset.sum_product' (f := fun i j => |M i j| ^ 2), Finset.card_product] at h1
  simp only [Finset.card_univ, Fintype.card_fin, sq_abs, Nat.cast_mul] at h1
  refine abs_le_of_sq_le_sq' ?_ (mul_nonneg (Nat.cast_nonneg _) (frob_nonneg _)) |>.2
  refine h1.trans (le_of_eq ?_)
  unfold frob
  rw [mul_pow, Real.sq_sqrt (sumsq_nonneg M)]
  ring

theorem norm_eq {nn : Nat} {H : Nat → Nat → ℝ} :
    ∑ i ∈ Ico 0 nn, ∑ j ∈ Ico (i - 1) nn, |H i j| = ∑ i : Fin nn, ∑ j : Fin nn, |pk nn nn (hess H) i j| := by
  rw [← Finset.range_eq_Ico, Finset.sum_range]
  refine Finset.sum_congr rfl fun i _ => ?_
  have h1 : ∑ j : Fin nn, |pk nn nn (hess H) i j| = ∑ j ∈ range nn, |hess H i j| := (Finset.sum_range (fun j => |hess H i j|)).symm
  rw [h1]
  have h2 : Ico (i.1 - 1) nn ⊆ range nn := fun x hx => by
    rw [Finset.mem_Ico] at hx; exact Finset.mem_range.2 hx.2
  rw [← Finset.sum_subset h2]
  · refine Finset.sum_congr rfl fun j hj => ?_
    rw [Finset.mem_Ico] at hj
    unfold hess
    rw [if_neg (by omega)]
  · intro j h3 h4
    rw [Finset.mem_range] at h3
    rw [Finset.mem_Ico] at h4
    unfold hess
    rw [if_pos (by omega), abs_zero]

/-- `x` runs out of budget or has a result that satisfies `P`. -/
def PostF {α : Type} (x : R α) (P : α → Prop) : Prop := x = .error .fuel ∨ Post x P

theorem hqrLoop_post {nn : Nat} {norm : ℝ} {A : Matrix (Fin nn) (Fin nn) ℝ} (hpos : 0 < norm) (hnorm : norm ≤ nn * frob A) :
    ∀ (fuel c : Nat) (st : Hqr ℝ) (E : ℝ) (H V : Nat → Nat → ℝ) (d e : Nat → ℝ), c ≤ nn → HqInv nn c A E st H V d e →
      PostF (hqrLoop nn norm fuel c st) (fun o => ∃ E' H' V' d' e', HqInv nn 0 A E' o H' V' d' e' ∧
        frob A + E' ≤ (1 + (4 * nn + 24) * eps) ^ fuel * (frob A + E)) ∧
      (c ≤ 2 → c ≤ fuel → hqrLoop nn norm fuel c st ≠ .error .fuel) := by
  have hep := eps_pos
  have hFA := frob_nonneg A
  have hnn : (0 : ℝ) ≤ nn := Nat.cast_nonneg _
  have hC : 1 ≤ 1 + (4 * (nn : ℝ) + 24) * eps := by
    have : 0 ≤ (4 * (nn : ℝ) + 24) * eps := by positivity
    linarith
  intro fuel
  induction fuel with
  | zero =>
    intro c st E H V d e hc hI
    cases c with
    | zero => 
      unfold hqrLoop
      exact ⟨Or.inr (Post.ok ⟨E, H, V, d, e, hI, by rw [pow_zero, one_mul]⟩), fun _ _ h => by cases h⟩
    | succ n =>
      unfold hqrLoop
      exact ⟨Or.inl rfl, fun _ h => by omega⟩
  | succ fuel ih =>
    intro c st E H V d e hc hI
    cases c with
    | zero =>
      unfold hqrLoop
      have h0 := hI.sm.nonneg
      exact ⟨Or.inr (Post.ok ⟨E, H, V, d, e, hI, le_mul_of_one_le_left (by linarith) (one_le_pow₀ hC)⟩), fun _ _ h => by cases h⟩
    | succ n =>
      have h0 := hI.sm.nonneg
      have hn : n < nn := by omega
      have hnE : norm ≤ nn * (frob A + E) := hnorm.trans (mul_le_mul_of_nonneg_left (by linarith) hnn)
      unfold hqrLoop
      obtain ⟨l, hrl, hl1, hl2, hl3⟩ := findL_post hI.hh hn hpos
      rw [hrl, ok_bind]
      have fin : ∀ {x : R (Hqr ℝ)} {fl : Nat}, PostF x (fun o => ∃ E' H' V' d' e', HqInv nn 0 A E' o H' V' d' e' ∧
            frob A + E' ≤ (1 + (4 * nn + 24) * eps) ^ fuel * (frob A + (E + (4 * nn + 24) * eps * (frob A + E)))) →
          PostF x (fun o => ∃ E' H' V' d' e', HqInv nn 0 A E' o H' V' d' e' ∧
            frob A + E' ≤ (1 + (4 * nn + 24) * eps) ^ (fuel + 1) * (frob A + E)) := by
        rintro x fl (h | h)
        · exact Or.inl h
        · refine Or.inr (h.mono ?_)
          rintro o ⟨E', H', V', d', e', h1, h2⟩
          refine ⟨E', H', V', d', e', h1, h2.trans (le_of_eq ?_)⟩
          rw [pow_succ]; ring
      by_cases hln : l = n
      · subst hln
        rw [if_pos rfl]
        obtain ⟨o, hro, H', V', d', e', hI'⟩ := oneRoot_post hI hn hnE hl3
        rw [hro, ok_bind]
        have := ih l o _ H' V' d' e' (by omega) hI'
        exact ⟨fin (fl := 0) this.1, fun h1 h2 => this.2 (by omega) (by omega)⟩
      · rw [if_neg hln]
        by_cases hln1 : l + 1 = n
        · rw [if_pos hln1]
          have hl4 : l = n - 1 := by omega
          subst hl4
          obtain ⟨o, hro, H', V', d', e', hI'⟩ := twoRoots_post hI hn (by omega) hnE hl3 (hl2 n (by omega) le_rfl)
          rw [hro, ok_bind]
          have := ih (n - 1) o _ H' V' d' e' (by omega) hI'
          exact ⟨fin (fl := 0) this.1, fun h1 h2 => this.2 (by omega) (by omega)⟩
        · rw [if_neg hln1]
          obtain ⟨o, hro, hod, hoe, H', V', hg1, hg2, hs, hex, hrow⟩ := qrIter_post hI.hh hI.vv hn (by omega) hI.blk.last hI.sm le_rfl hI.ex hnE hl2 hl3
          rw [hro, ok_bind]
          have hI' : HqInv nn (n + 1) A (E + (4 * nn + 24) * eps * (frob A + E)) o H' V' d e := by
            refine ⟨hg1, hg2, by rw [hod]; exact hI.dd, by rw [hoe]; exact hI.ee, hs, ?_, hI.blk.congr fun a b ha => hrow a b ha⟩
            have : 0 ≤ (4 * (nn : ℝ) + 24) * eps * (frob A + E) := by positivity
            linarith
          have := ih (n + 1) o _ H' V' d e hc hI'
          exact ⟨fin (fl := 0) this.1, fun h1 h2 => by omega⟩

end Eigen
end LA
