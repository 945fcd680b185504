import Verif.Proofs.EigHqr4

/-! # `hqr2`: shift, start of the sweep, one double QR iteration -/

set_option linter.unusedSectionVars false

namespace LA
open Finset Matrix
namespace Eigen
open SVD (pk pk_congr)

/-- The quasi-triangular table: zeros below the subdiagonal, and zeros on the subdiagonal of the finished rows except
inside a complex pair. -/
noncomputable def tmk (c : Nat) (e : Nat → ℝ) (H : Nat → Nat → ℝ) : Nat → Nat → ℝ := fun a b =>
  if b + 1 < a then 0 else if b + 1 = a ∧ c ≤ a ∧ ¬ e a < 0 then 0 else H a b

theorem swk_start (n m : Nat) (e : Nat → ℝ) (H : Nat → Nat → ℝ) (a b : Nat) : swk n m m e H a b = tmk (n + 1) e H a b := by
  unfold swk tmk
  simp only [lt_irrefl, false_and, not_false_eq_true, and_true]

theorem swk_end {n m : Nat} (e : Nat → ℝ) (H : Nat → Nat → ℝ) (a b : Nat) : swk n m n e H a b = tmk (n + 1) e H a b := by
  unfold swk tmk
  by_cases h : b + 1 < a
  · rw [if_pos (by omega), if_pos h]
  · simp only [h, false_and, if_false]

theorem clearSub_post {nn n m : Nat} {h : Buf ℝ} {H : Nat → Nat → ℝ} (hh : FullG h nn nn H) (hn : n < nn) (hmn : m + 2 ≤ n) :
    Post (clearSub nn n m h) fun h' => FullG h' nn nn (fun a b =>
      if a ≤ n ∧ m + 2 ≤ a ∧ (b + 2 = a ∨ (b + 3 = a ∧ m + 2 < a)) then 0 else H a b) := by
  unfold clearSub
  refine (loop_post (fun i (h' : Buf ℝ) => FullG h' nn nn (fun a b =>
      if a < i ∧ m + 2 ≤ a ∧ (b + 2 = a ∨ (b + 3 = a ∧ m + 2 < a)) then 0 else H a b)) (by omega)
      (hh.congr fun a b _ _ => by rw [if_neg (by omega)]) ?_).mono fun h' h1 => h1.congr fun a b _ _ => ?_
  swap
  · by_cases h2 : a ≤ n ∧ m + 2 ≤ a ∧ (b + 2 = a ∨ (b + 3 = a ∧ m + 2 < a))
    · rw [if_pos h2, if_pos (by omega)]
    · rw [if_neg h2, if_neg (by omega)]
  intro i h' h1 h2 hg
  obtain ⟨h3, hr3, hg3⟩ := FullG.wrP hg (i := i) (j := i - 2) (by omega) (by omega) 0
  rw [hr3, ok_bind]
  by_cases h4 : i > m + 2
  · rw [if_pos h4]
    refine (FullG.wrP hg3 (i := i) (j := i - 3) (by omega) (by omega) 0).mono fun h5 hg5 => hg5.congr fun a b _ _ => ?_
    clear hg hg3 hg5 hh hr3
    unfold upd
    beta_reduce
    by_cases h6 : a < i + 1 ∧ m + 2 ≤ a ∧ (b + 2 = a ∨ (b + 3 = a ∧ m + 2 < a))
    · rw [if_pos h6]
      by_cases h7 : a = i
      · by_cases h8 : b + 3 = a
        · rw [if_pos (by omega)]
        · rw [if_neg (by omega), if_pos (by omega)]
      · rw [if_neg (by omega), if_neg (by omega), if_pos (by omega)]
    · rw [if_neg h6, if_neg (by omega), if_neg (by omega), if_neg (by omega)]
  · rw [if_neg h4]
    refine Post.ok (hg3.congr fun a b _ _ => ?_)
    clear hg hg3 hh hr3
    unfold upd
    beta_reduce
    by_cases h6 : a < i + 1 ∧ m + 2 ≤ a ∧ (b + 2 = a ∨ (b + 3 = a ∧ m + 2 < a))
    · rw [if_pos h6]
      by_cases h7 : a = i
      · rw [if_pos (by omega)]
      · rw [if_neg (by omega), if_pos (by omega)]
    · rw [if_neg h6, if_neg (by omega), if_neg (by omega)]

/-- The sweep (`src/decomp/eigen.rs:541-606`). -/
theorem sweep_post {nn n l m : Nat} {A : Matrix (Fin nn) (Fin nn) ℝ} {e : Nat → ℝ} {ex E δ : ℝ} {H V : Nat → Nat → ℝ} {h v : Buf ℝ}
    {p q r : ℝ} (hh : FullG h nn nn H) (hv : FullG v nn nn V) (hn : n < nn) (hlm : l ≤ m) (hmn : m + 2 ≤ n) (he : ¬ e (n + 1) < 0)
    (hs : Sm nn A V (tadd (tmk (n + 1) e H) (exd (n + 1) ex)) E)
    (hZ : ∀ a b, a ≤ n → m ≤ b → b + 2 ≤ a → a ≤ b + 3 → H a b = 0) (hf : FirstOk l m H p q r δ) :
    Post (loop m n (h, v) fun k (x : Buf ℝ × Buf ℝ) => (do let (h, v) := x; qrStep nn n l m p q r k h v : R (Buf ℝ × Buf ℝ)))
      fun o => ∃ H' V', FullG o.1 nn nn H' ∧ FullG o.2 nn nn V' ∧
        Sm nn A V' (tadd (tmk (n + 1) e H') (exd (n + 1) ex)) (E + δ) ∧ ∀ a b, n < a → H' a b = H a b := by
  have h0 : QsInv nn n m A e ex E δ H m h v H V := by
    refine ⟨hh, hv, ?_, fun a b h1 h2 h3 h4 _ => hZ a b h1 h2 h3 h4, fun _ _ _ => rfl⟩
    rw [if_neg (lt_irrefl _)]
    exact hs.congr fun a b _ _ => by unfold tadd; rw [swk_start]
  refine (loop_post (fun k (o : Buf ℝ × Buf ℝ) => ∃ H' V', QsInv nn n m A e ex E δ H k o.1 o.2 H' V' ∧ (k = m → H' = H)) (by omega)
    ⟨H, V, h0, fun _ => rfl⟩ ?_).mono ?_
  · rintro k ⟨h1, v1⟩ h2 h3 ⟨H', V', hI, hk⟩
    refine (qrStep_post hI hn h3 h2 hlm hmn he (fun h => by rw [hk h]; exact hf)).mono ?_
    rintro o ⟨H2, V2, h5⟩
    exact ⟨H2, V2, h5, fun h => by omega⟩
  · rintro o ⟨H', V', hI, _⟩
    refine ⟨H', V', hI.hh, hI.vv, ?_, hI.rows⟩
    have := hI.sm
    rw [if_pos (show m < n by omega)] at this
    exact this.congr fun a b _ _ => by unfold tadd; rw [swk_end]

theorem subDiag_post {nn n : Nat} {x : ℝ} {h : Buf ℝ} {H : Nat → Nat → ℝ} (hh : FullG h nn nn H) (hn : n < nn) :
    Post (subDiag nn n x h) fun h' => FullG h' nn nn (fun a b => if a = b ∧ a ≤ n then H a b - x else H a b) := by
  unfold subDiag
  refine (loop_post (fun i (h' : Buf ℝ) => FullG h' nn nn (fun a b => if a = b ∧ a < i then H a b - x else H a b)) (by omega)
      (hh.congr fun a b _ _ => by rw [if_neg (by omega)]) ?_).mono fun h' h1 => h1.congr fun a b _ _ => ?_
  swap
  · by_cases h2 : a = b ∧ a ≤ n
    · rw [if_pos h2, if_pos (by omega)]
    · rw [if_neg h2, if_neg (by omega)]
  intro i h' _ h2 hg
  rw [hg.rd (by omega) (by omega), ok_bind, if_neg (by omega)]
  refine (FullG.wrP hg (i := i) (j := i) (by omega) (by omega) _).mono fun h5 hg5 => hg5.congr fun a b _ _ => ?_
  clear hg hg5 hh
  unfold upd
  grind

/-- A real eigenvalue of a `2 × 2` block is bounded by its entries. -/
theorem root_bound {x y b c t M : ℝ} (h : (x - t) * (y - t) = b * c) (hx : |x| ≤ M) (hy : |y| ≤ M) (hb : |b| ≤ M) (hc : |c| ≤ M) :
    |t| ≤ 2 * M := by
  have hM := (abs_nonneg _).trans hx
  have sq : ∀ {u : ℝ}, |u| ≤ M → u ^ 2 ≤ M ^ 2 := fun {u} hu => by rw [← sq_abs]; exact pow_le_pow_left₀ (abs_nonneg _) hu 2
  refine abs_le_of_sq_le_sq ?_ (by linarith)
  nlinarith [sq hx, sq hy, sq hb, sq hc, sq_nonneg (t - x - y), sq_nonneg (b - c)]

/-- The table of `hqr2` with its shift. -/
noncomputable def Tt (c : Nat) (e : Nat → ℝ) (H : Nat → Nat → ℝ) (ex : ℝ) : Nat → Nat → ℝ := tadd (tmk c e H) (exd c ex)

theorem Tt_diag {c : Nat} {e : Nat → ℝ} {H : Nat → Nat → ℝ} {ex : ℝ} {a : Nat} (ha : a < c) : Tt c e H ex a a = H a a + ex := by
  unfold Tt tadd tmk exd
  rw [if_neg (by omega), if_neg (by omega), if_pos ⟨rfl, ha⟩]

theorem Tt_off {c : Nat} {e : Nat → ℝ} {H : Nat → Nat → ℝ} {ex : ℝ} {a b : Nat} (ha : a < c) (hab : a ≠ b) (h : a ≤ b + 1) :
    Tt c e H ex a b = H a b := by
  unfold Tt tadd tmk exd
  rw [if_neg (by omega), if_neg (by omega), if_neg (by omega), add_zero]

/-- After a shift. -/
theorem Tt_shift {n : Nat} {e : Nat → ℝ} {H : Nat → Nat → ℝ} {ex x : ℝ} (a b : Nat) :
    Tt (n + 1) e (fun a b => if a = b ∧ a ≤ n then H a b - x else H a b) (ex + x) a b = Tt (n + 1) e H ex a b := by
  unfold Tt tadd tmk exd
  beta_reduce
  by_cases h : a = b ∧ a ≤ n
  · rw [if_neg (by omega), if_neg (by omega), if_pos h, if_pos (by omega), if_neg (by omega), if_neg (by omega), if_pos (by omega)]
    ring
  · rw [if_neg h, if_neg (show ¬(a = b ∧ a < n + 1) by omega), if_neg (show ¬(a = b ∧ a < n + 1) by omega)]

theorem hqrShift_post {nn n iter : Nat} {h : Buf ℝ} {ex M : ℝ} {e : Nat → ℝ} {H : Nat → Nat → ℝ} (hh : FullG h nn nn H) (hn : n < nn)
    (h2 : 2 ≤ n) (hM : ∀ a b, a < nn → b < nn → |Tt (n + 1) e H ex a b| ≤ M) (hex : |ex| ≤ 2 * M) :
    Post (hqrShift nn n iter h ex) fun o => ∃ H', FullG o.1 nn nn H' ∧ (∀ a b, Tt (n + 1) e H' o.2.1 a b = Tt (n + 1) e H ex a b) ∧
      |o.2.1| ≤ 2 * M ∧ ∀ a b, (a ≠ b ∨ n < a) → H' a b = H a b := by
  have h0M : 0 ≤ M := (abs_nonneg _).trans (hM 0 0 (by omega) (by omega))
  unfold hqrShift
  rw [hh.rd (by omega) (by omega), ok_bind, hh.rd (by omega) (by omega), ok_bind, hh.rd (by omega) (by omega), ok_bind, hh.rd (by omega) (by omega),
    ok_bind]
  dsimp only
  by_cases h10 : iter = 10
  · subst h10
    simp only [beq_self_eq_true, if_true]
    obtain ⟨h1, hr1, hg1⟩ := subDiag_post (x := H n n) hh hn
    rw [hr1, ok_bind, hg1.rd (by omega) (by omega), ok_bind, hg1.rd (by omega) (by omega), ok_bind]
    refine Post.ok ⟨_, hg1, Tt_shift, ?_, ?_⟩
    · have := hM n n hn hn
      rw [Tt_diag (by omega)] at this
      show |ex + H n n| ≤ _
      rw [add_comm]; linarith
    · intro a b hab
      rw [if_neg (by omega)]
  · have e10 : (iter == 10) = false := by simpa using h10
    rw [e10]
    simp only [if_false, Bool.false_eq_true, pure_bind]
    by_cases h30 : iter = 30
    · subst h30
      simp only [beq_self_eq_true, if_true]
      set x := H n n
      set y := H (n - 1) (n - 1)
      set w := H n (n - 1) * H (n - 1) n with hw
      have h2c : (FloatOps.cst 2 1 : ℝ) = 2 := by rw [Exact.cst_eq]; norm_num
      rw [h2c, rdiv_ok two_ne_zero, ok_bind]
      simp only [lt_eq, decide_eq_true_eq]
      by_cases hs : 0 < (y - x) / 2 * ((y - x) / 2) + w
      · rw [if_pos hs, sqrt_ok hs.le, ok_bind, ok_bind]
        set s := Real.sqrt ((y - x) / 2 * ((y - x) / 2) + w) with hsd
        have hs0 : 0 < s := Real.sqrt_pos.2 hs
        have hs2 : s * s = (y - x) / 2 * ((y - x) / 2) + w := Real.mul_self_sqrt hs.le
        obtain ⟨σ, hσ, hσ2, hσ0⟩ : ∃ σ, (if y < x then -s else s) = σ ∧ σ * σ = (y - x) / 2 * ((y - x) / 2) + w ∧ (y - x) / 2 + σ ≠ 0 := by
          refine ⟨_, rfl, ?_, ?_⟩
          · split_ifs
            · linarith
            · exact hs2
          · split_ifs
            · linarith
            · have : x ≤ y := by linarith
              intro hc; linarith
        rw [hσ, rdiv_ok hσ0, ok_bind]
        obtain ⟨h1, hr1, hg1⟩ := subDiag_post (x := x - w / ((y - x) / 2 + σ)) hh hn
        rw [hr1, ok_bind]
        refine Post.ok ⟨_, hg1, Tt_shift, ?_, ?_⟩
        · have b1 := hM n n hn hn
          have b2 := hM (n - 1) (n - 1) (by omega) (by omega)
          have b3 := hM n (n - 1) (by omega) (by omega)
          have b4 := hM (n - 1) n (by omega) (by omega)
          rw [Tt_diag (by omega)] at b1
          rw [Tt_diag (by omega)] at b2
          rw [Tt_off (by omega) (by omega) (by omega)] at b3
          rw [Tt_off (by omega) (by omega) (by omega)] at b4
          have hq : w / ((y - x) / 2 + σ) = σ - (y - x) / 2 := by
            rw [div_eq_iff hσ0]; nlinarith
          rw [hq]
          refine root_bound (x := x + ex) (y := y + ex) (b := H n (n - 1)) (c := H (n - 1) n) ?_ b1 b2 b3 b4
          rw [← hw]
          nlinarith
        · intro a b hab
          rw [if_neg (by omega)]
      · rw [if_neg hs]
        exact Post.ok ⟨H, hh, fun _ _ => rfl, hex, fun _ _ _ => rfl⟩
    · have e30 : (iter == 30) = false := by simpa using h30
      rw [e30]
      simp only [if_false, Bool.false_eq_true]
      exact Post.ok ⟨H, hh, fun _ _ => rfl, hex, fun _ _ _ => rfl⟩

end Eigen
end LA
