import Verif.Proofs.StdHqr7

/-! # `hqr2` in rounded arithmetic: the outer loop -/

set_option linter.unusedSectionVars false

namespace LA
open Finset Matrix
namespace Std
open Sfp SVD
open Eigen (Sm tadd exd tmk Tt Hqr Blk hqrLoop hqrNorm PostF hess)

variable {α : Type} [Zero α] [One α] [Add α] [Sub α] [Neg α] [Mul α] [FloatOps α] [Sfp α]

/-- The growth of the error bound in one iteration of the outer loop. -/
noncomputable def phi (α : Type) [Zero α] [One α] [Add α] [Sub α] [Neg α] [Mul α] [FloatOps α] [Sfp α] (nn : Nat) (N : ℝ) : ℝ :=
  (1 + ks α nn) ^ nn * (1 + 13 * nn * kh α + 8 * ep * (14 + N))

theorem hqrLoop_ok {nn : Nat} {norm : α} {A : Matrix (Fin nn) (Fin nn) ℝ} {N : ℝ} (hkh : kh α ≤ 1) (hN : 0 ≤ N) (hpos : 0 < val norm)
    (hnorm : val norm ≤ N * frob A) :
    ∀ (fuel c : Nat) (st : Hqr α) (E : ℝ) (F : Nat → Nat → α) (X V : Nat → Nat → ℝ) (d e : Nat → α), c ≤ nn → HI nn c A E st F X V d e →
      PostF (hqrLoop nn norm fuel c st) (fun o => ∃ E' F' X' V' d' e', HI nn 0 A E' o F' X' V' d' e' ∧
        frob A + E' ≤ phi α nn N ^ fuel * (frob A + E)) := by
  have hep := ep_pos
  have hFA := frob_nonneg A
  have hk0 := kh_nonneg (α := α)
  have hs0 := ks_nonneg (α := α) (nn := nn)
  have hnn : (0 : ℝ) ≤ nn := Nat.cast_nonneg _
  have hp1 : 1 ≤ (1 + ks α nn) ^ nn := one_le_pow₀ (by linarith)
  have hb0 : 0 ≤ 13 * nn * kh α + 8 * ep * (14 + N) := by positivity
  have hC : 1 ≤ phi α nn N := by
    unfold phi
    exact one_le_mul_of_one_le_of_one_le hp1 (by linarith)
  intro fuel
  induction fuel with
  | zero =>
    intro c st E F X V d e hc hI
    cases c with
    | zero => 
      unfold hqrLoop
      exact Or.inr (Post.ok ⟨E, F, X, V, d, e, hI, by rw [pow_zero, one_mul]⟩)
    | succ n =>
      unfold hqrLoop
      exact Or.inl rfl
  | succ fuel ih =>
    intro c st E F X V d e hc hI
    cases c with
    | zero =>
      unfold hqrLoop
      have h0 := hI.sm.nonneg
      exact Or.inr (Post.ok ⟨E, F, X, V, d, e, hI, le_mul_of_one_le_left (by linarith) (one_le_pow₀ hC)⟩)
    | succ n =>
      have h0 := hI.sm.nonneg
      have hM := hI.nn0
      have hn : n < nn := by omega
      have hnE : val norm ≤ N * (frob A + E) := hnorm.trans (mul_le_mul_of_nonneg_left (by linarith) hN)
      unfold hqrLoop
      obtain ⟨l, hrl, hl1, hl2, hl3⟩ := findL_ok hkh hI.hh hn hpos
      rw [hrl, ok_bind]
      have fin : ∀ {x : LA.R (Hqr α)} {E1 : ℝ}, frob A + E1 ≤ phi α nn N * (frob A + E) →
          PostF x (fun o => ∃ E' F' X' V' d' e', HI nn 0 A E' o F' X' V' d' e' ∧ frob A + E' ≤ phi α nn N ^ fuel * (frob A + E1)) →
          PostF x (fun o => ∃ E' F' X' V' d' e', HI nn 0 A E' o F' X' V' d' e' ∧ frob A + E' ≤ phi α nn N ^ (fuel + 1) * (frob A + E)) := by
        rintro x E1 hE1 (h | h)
        · exact Or.inl h
        · refine Or.inr (h.mono ?_)
          rintro o ⟨E', F', X', V', d', e', h1, h2⟩
          refine ⟨E', F', X', V', d', e', h1, h2.trans ?_⟩
          rw [pow_succ, mul_assoc]
          exact mul_le_mul_of_nonneg_left hE1 (by positivity)
      have g1 : frob A + (E + (2 * ep * (14 + N) + 13 * nn * kh α) * (frob A + E)) ≤ phi α nn N * (frob A + E) := by
        have a1 : frob A + (E + (2 * ep * (14 + N) + 13 * nn * kh α) * (frob A + E)) = (1 + 13 * nn * kh α + 2 * ep * (14 + N)) * (frob A + E) := by ring
        rw [a1]
        refine mul_le_mul_of_nonneg_right ?_ hM
        unfold phi
        have a2 : 1 + 13 * nn * kh α + 2 * ep * (14 + N) ≤ 1 + 13 * nn * kh α + 8 * ep * (14 + N) := by
          have : 0 ≤ ep * (14 + N) := by positivity
          linarith
        exact a2.trans (le_mul_of_one_le_left (by linarith) hp1)
      by_cases hln : l = n
      · subst hln
        rw [if_pos rfl]
        obtain ⟨o, hro, F', X', V', d', e', hI'⟩ := oneRoot_ok hI hn hN hnE hl3
        rw [hro, ok_bind]
        exact fin g1 (ih l o _ F' X' V' d' e' (by omega) hI')
      · rw [if_neg hln]
        by_cases hln1 : l + 1 = n
        · rw [if_pos hln1]
          have hl4 : l = n - 1 := by omega
          subst hl4
          obtain ⟨o, hro, F', X', V', d', e', hI'⟩ := twoRoots_ok hkh hI hn (by omega) hN hnE hl3 (hl2 n (by omega) le_rfl)
          rw [hro, ok_bind]
          exact fin g1 (ih (n - 1) o _ F' X' V' d' e' (by omega) hI')
        · rw [if_neg hln1]
          obtain ⟨o, hro, hod, hoe, F', X', V', E', hg1, hg2, hlow, hs, hE, hE2, hex, hrow⟩ := qrIter_ok hkh hI.hh hI.hv
            (fun a b ha => hI.low a b (by omega)) hn (by omega) hI.blk.last hI.sm hI.ex hN hnE hl2 hl3
          rw [hro, ok_bind]
          have hI' : HI nn (n + 1) A E' o F' X' V' d e :=
            ⟨hg1, hg2, by rw [hod]; exact hI.dd, by rw [hoe]; exact hI.ee, fun a b ha => hlow a b (by omega), hs, hex, hI.blk.congr fun a b ha => hrow a b ha⟩
          refine fin (hE2.trans ?_) (ih (n + 1) o _ F' X' V' d e hc hI')
          unfold phi
          rw [mul_assoc ((1 + ks α nn) ^ nn)]
          refine mul_le_mul_of_nonneg_left (mul_le_mul_of_nonneg_right ?_ hM) (zero_le_one.trans hp1)
          have : 0 ≤ nn * kh α := by positivity
          linarith

/-- The terms of `norm`: entry `t` of row `i`. -/
theorem hqrNorm_ok {nn : Nat} {h : Buf α} {F : Nat → Nat → α} (hh : FullG h nn nn F) :
    Post (hqrNorm nn h) fun norm => ∃ k, k ≤ nn * nn ∧ Rt (w α) k (val norm) (∑ i ∈ range nn, ∑ j ∈ Ico (i - 1) nn, |val (F i j)|) := by
  have hw : 1 ≤ w α := w_one
  unfold hqrNorm
  have key : ∀ i (s : α) (k : Nat) (S : ℝ), i < nn → 0 ≤ S → Rt (w α) k (val s) S →
      Post (loop (i - 1) nn s fun j norm => do return norm + FloatOps.abs (← LA.rd h (i * nn + j))) fun s' =>
        Rt (w α) (k + nn) (val s') (S + ∑ j ∈ Ico (i - 1) nn, |val (F i j)|) := by
    intro i s k S hi hS hs
    refine (loop_post (lo := i - 1) (hi := nn) (s := s) (f := fun j norm => do return norm + FloatOps.abs (← LA.rd h (i * nn + j)))
      (fun t s' => Rt (w α) (k + t) (val s') (S + ∑ j ∈ Ico (i - 1) t, |val (F i j)|)) (by omega) (by
        rw [Finset.Ico_self, Finset.sum_empty, add_zero]; exact hs.mono hw (by omega)) ?_)
    intro t s' h1 h2 h3
    rw [hh.rd hi h2, ok_bind]
    refine Post.ok ?_
    rw [Finset.sum_Ico_succ_top h1, ← add_assoc S]
    have h3' : Rt (w α) (k + t) (val s') (S + ∑ j ∈ Ico (i - 1) t, |val (F i j)|) := h3
    have h4 := Rt.add hw (k := k + t) h3' (x' := val (FloatOps.abs (F i t))) (y' := |val (F i t)|) (by rw [Sfp.abs]; exact (Rt.refl _).mono hw (by omega))
      (add_nonneg hS (Finset.sum_nonneg fun _ _ => abs_nonneg _)) (abs_nonneg _)
    have h5 := (add_rt s' (FloatOps.abs (F i t))).trans hw h4
    show Rt (w α) (k + (t + 1)) _ _
    exact h5.mono hw (by omega)
  refine (loop_post (lo := 0) (hi := nn) (s := (0 : α)) (f := fun i norm => loop (i - 1) nn norm fun j norm => do return norm + FloatOps.abs (← LA.rd h (i * nn + j)))
    (fun t s' => Rt (w α) (t * nn) (val s') (∑ i ∈ range t, ∑ j ∈ Ico (i - 1) nn, |val (F i j)|)) (Nat.zero_le _) (by
      rw [Finset.range_zero, Finset.sum_empty, Sfp.zero]; exact (Rt.refl _).mono hw (by omega)) ?_).mono fun s hs => ⟨_, le_rfl, hs⟩
  intro t s' h1 h2 h3
  have := key t s' _ _ h2 (Finset.sum_nonneg fun _ _ => Finset.sum_nonneg fun _ _ => abs_nonneg _) h3
  rw [Finset.sum_range_succ, show (t + 1) * nn = t * nn + nn by ring]
  exact this

end Std
end LA
