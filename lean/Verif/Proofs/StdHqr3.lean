import Verif.Proofs.StdHqr2

/-! # `hqr2` in rounded arithmetic: the double QR sweep -/

set_option linter.unusedSectionVars false

namespace LA
open Finset Matrix
namespace Eigen
open SVD (pk pk_congr)

/-- Entrywise changes. -/
theorem frob_ent {n : Nat} {M : Matrix (Fin n) (Fin n) ℝ} {δ : ℝ} (hδ : 0 ≤ δ) (h : ∀ i j, |M i j| ≤ δ) : frob M ≤ n * δ := by
  refine Real.sqrt_le_iff.2 ⟨by positivity, ?_⟩
  calc ∑ i, ∑ j, M i j ^ 2 ≤ ∑ _i : Fin n, ∑ _j : Fin n, δ ^ 2 :=
        Finset.sum_le_sum fun i _ => Finset.sum_le_sum fun j _ => by
          rw [← sq_abs]; exact pow_le_pow_left₀ (abs_nonneg _) (h i j) 2
    _ = (n * δ) ^ 2 := by simp; ring

theorem Sm.ent {n : Nat} {A : Matrix (Fin n) (Fin n) ℝ} {V X X' : Nat → Nat → ℝ} {E δ : ℝ} (h : Sm n A V X E) (hδ : 0 ≤ δ)
    (hX : ∀ a b, a < n → b < n → |X a b - X' a b| ≤ δ) : Sm n A V X' (E + n * δ) :=
  h.pert (frob_ent hδ fun i j => hX i j i.2 j.2)

theorem swk_sub {n m k : Nat} {e : Nat → ℝ} {X Y : Nat → Nat → ℝ} {a b : Nat} {δ : ℝ} (hδ : 0 ≤ δ) (h : |X a b - Y a b| ≤ δ) :
    |swk n m k e X a b - swk n m k e Y a b| ≤ δ := by
  unfold swk
  split_ifs <;> first | exact h | simpa using hδ

end Eigen
namespace Std
open Sfp SVD
open Eigen (Sm rfL rfR swk memStep mem2 rowStep RF qrRows qrCols qrReflect tadd exd qrStep clearSub tmk Tt FirstOk)

variable {α : Type} [Zero α] [One α] [Add α] [Sub α] [Neg α] [Mul α] [FloatOps α] [Sfp α]

/-- The state of a sweep before step `k`: the rows `..=n` of the table `X` are the memory, the finished rows are kept apart. -/
structure QI (nn n m : Nat) (A : Matrix (Fin nn) (Fin nn) ℝ) (e : Nat → ℝ) (ex E : ℝ) (X0 : Nat → Nat → ℝ) (k : Nat) (h v : Buf α)
    (F : Nat → Nat → α) (X V : Nat → Nat → ℝ) : Prop where
  hh : FullG h nn nn F
  vv : ∃ W, FullG v nn nn W
  low : ∀ a b, a ≤ n → X a b = val (F a b)
  sm : Sm nn A V (tadd (swk n m k e X) (exd (n + 1) ex)) E
  Z : ∀ a b, a ≤ n → k ≤ b → b + 2 ≤ a → a ≤ b + 3 → (m < k → ¬(a = k + 2 ∧ b = k)) → X a b = 0
  rows : ∀ a b, n < a → X a b = X0 a b

section
variable {nn n m k : Nat} {A : Matrix (Fin nn) (Fin nn) ℝ} {e : Nat → ℝ} {ex E : ℝ} {X0 : Nat → Nat → ℝ} {h v h' v' : Buf α}
  {F : Nat → Nat → α} {X V : Nat → Nat → ℝ}

/-- The entries a reflection reads are bounded. -/
theorem QI.bd (hI : QI nn n m A e ex E X0 k h v F X V) (hex : |ex| ≤ 6 * (frob A + E)) (hn : n < nn) (hkn : k < n) (hmk : m ≤ k)
    {a b : Nat} (ha : a ≤ min n (k + 3)) (hb : k ≤ b) (hb2 : b < nn) : |val (F a b)| ≤ 7 * (frob A + E) := by
  have hM : 0 ≤ frob A + E := add_nonneg (frob_nonneg _) hI.sm.nonneg
  rw [← hI.low a b (by omega)]
  by_cases hz : b + 2 ≤ a ∧ a ≤ b + 3 ∧ (m < k → ¬(a = k + 2 ∧ b = k))
  · rw [hI.Z a b (by omega) hb hz.1 hz.2.1 hz.2.2, abs_zero]; linarith
  · have h1 := hI.sm.entry (a := a) (b := b) (by omega) hb2
    unfold tadd at h1
    have h2 : swk n m k e X a b = X a b := by
      unfold swk
      rw [if_neg (by omega), if_neg (by omega)]
    rw [h2] at h1
    have h3 : |exd (n + 1) ex a b| ≤ 6 * (frob A + E) := by
      unfold exd; split_ifs
      · exact hex
      · rw [abs_zero]; linarith
    have h4 := abs_sub (X a b + exd (n + 1) ex a b) (exd (n + 1) ex a b)
    rw [add_sub_cancel_right] at h4
    linarith

theorem QI.refl {t q r x y z : α} {Q R XX Y Z δ : ℝ} (hI : QI nn n m A e ex E X0 k h v F X V) (hkh : kh α ≤ 1)
    (hex : |ex| ≤ 6 * (frob A + E)) (hn : n < nn) (hkn : k < n) (hmk : m ≤ k) (he : ¬ e (n + 1) < 0)
    (hr : RF Q R XX Y Z) (hlast : k + 1 = n → R = 0) (hp : RP (decide (k ≠ n - 1)) q r x y z Q R XX Y Z)
    (hδ : frob (pk nn nn (rfL k Q R XX Y Z (swk n m k e X)) - pk nn nn (rowStep n m k e (val t) Q R XX Y Z X)) ≤ δ)
    (hh' : FullG h' nn nn (cStep n k (decide (k ≠ n - 1)) t q r x y z F)) (hv' : ∃ W, FullG v' nn nn W) :
    ∃ F' X' V', QI nn n m A e ex (E + δ + 735 * nn * kh α * (frob A + E)) X0 (k + 1) h' v' F' X' V' := by
  have hM : 0 ≤ frob A + E := add_nonneg (frob_nonneg _) hI.sm.nonneg
  have hl2 : k + 1 = n → R = 0 ∧ Z = 0 := fun h => ⟨hlast h, by rw [hr.z, hlast h, mul_zero]⟩
  set G := cStep n k (decide (k ≠ n - 1)) t q r x y z F with hG
  set X' : Nat → Nat → ℝ := fun a b => if a ≤ n then val (G a b) else X a b with hX'
  have hd0 : 0 ≤ kh α * (105 * (7 * (frob A + E))) := mul_nonneg kh_nonneg (by linarith)
  have hd : ∀ a b, b < nn → |memStep n k (val t) Q R XX Y Z X a b - X' a b| ≤ kh α * (105 * (7 * (frob A + E))) := by
    intro a b hb
    rw [hX']
    beta_reduce
    by_cases ha : a ≤ n
    · rw [if_pos ha, memStep_congr (Y := tt F) hkn hl2 ha (fun a b h => hI.low a b h), abs_sub_comm]
      exact cStep_err hp hkh hn hkn (fun a b h1 h2 h3 => hI.bd hex hn hkn hmk h1 h2 h3) ha hb
    · rw [if_neg ha, Eigen.memStep_rows hkn hl2 (by omega), sub_self, abs_zero]
      exact hd0
  refine ⟨G, X', rfR k Q R XX Y Z V, hh', hv', ?_, ?_, ?_, ?_⟩
  · intro a b ha; rw [hX']; beta_reduce; rw [if_pos ha]
  · have h1 := hI.sm.step hr hn hkn hmk he hl2 hI.Z hδ
    have h2 := h1.ent (X' := tadd (swk n m (k + 1) e X') (exd (n + 1) ex)) hd0 fun a b ha hb => by
      unfold tadd
      rw [add_sub_add_right_eq_sub]
      exact Eigen.swk_sub hd0 (hd a b hb)
    exact h2.mono (le_of_eq (by ring))
  · intro a b h1 h2 h3 h4 h5
    rw [hX']; beta_reduce
    rw [if_pos h1, hG, cStep_low (by omega) (by have := h5 (by omega); omega), ← hI.low a b h1]
    exact hI.Z a b h1 (by omega) h3 h4 (by omega)
  · intro a b ha
    rw [hX']; beta_reduce
    rw [if_neg (by omega), hI.rows a b ha]

end

/-- The relative error of one step of a sweep. -/
noncomputable def ks (α : Type) [Zero α] [One α] [Add α] [Sub α] [Neg α] [Mul α] [FloatOps α] [Sfp α] (nn : Nat) : ℝ := 740 * nn * kh α

theorem ks_nonneg (nn : Nat) : 0 ≤ ks α nn := by unfold ks; have := kh_nonneg (α := α); positivity

theorem qrStep_ok {nn n l m k : Nat} {A : Matrix (Fin nn) (Fin nn) ℝ} {e : Nat → ℝ} {ex E δ : ℝ} {X0 X V : Nat → Nat → ℝ} {h v : Buf α}
    {F : Nat → Nat → α} {p q r : α} (hI : QI nn n m A e ex E X0 k h v F X V) (hkh : kh α ≤ 1) (hex : |ex| ≤ 6 * (frob A + E))
    (hn : n < nn) (hkn : k < n) (hmk : m ≤ k) (hlm : l ≤ m) (hmn : m + 2 ≤ n) (he : ¬ e (n + 1) < 0)
    (hf : k = m → FirstOk l m X (val p) (val q) (val r) δ) :
    Post (qrStep nn n l m p q r k h v) fun o => ∃ F' X' V',
      QI nn n m A e ex (E + (if k = m then δ else 0) + ks α nn * (frob A + E)) X0 (k + 1) o.1 o.2 F' X' V' := by
  have hw : 1 ≤ w α := w_one
  have hM : 0 ≤ frob A + E := add_nonneg (frob_nonneg _) hI.sm.nonneg
  have hk0' := kh_nonneg (α := α)
  have hnn1 : (1 : ℝ) ≤ nn := by exact_mod_cast (show 1 ≤ nn by omega)
  have hks : 3 * kh α * (frob A + E) + 735 * nn * kh α * (frob A + E) ≤ ks α nn * (frob A + E) := by
    unfold ks
    have : 3 * (kh α * (frob A + E)) ≤ 5 * nn * (kh α * (frob A + E)) :=
      mul_le_mul_of_nonneg_right (by linarith) (mul_nonneg hk0' hM)
    linarith
  have h3k : 0 ≤ 3 * kh α * (frob A + E) := mul_nonneg (by linarith) hM
  obtain ⟨W, hW⟩ := hI.vv
  unfold qrStep
  by_cases hkm : k = m
  · rw [if_neg (by omega), if_pos hkm]
    subst hkm
    have hf := hf rfl
    refine (qrReflect_ok (P := val p) (Q := val q) (R := val r) hI.hh hW hn hkn le_rfl hlm ((Rt.refl _).mono hw (by omega)) ((Rt.refl _).mono hw (by omega))
      ((Rt.refl _).mono hw (by omega)) (by omega) hf.ne).mono fun o ho => ?_
    obtain ⟨s, t, q', r', x', y', z', hs, g1, g2, g3, -, g4⟩ := ho
    have g4 := g4 rfl
    rw [← hI.low k (k - 1) (by omega)] at g4
    have hx := hI.refl (t := t) (δ := δ) hkh hex hn hkn le_rfl he (Eigen.rf_mk hs.ne hs.sq hs.ps) (by omega) g3 ?_ g1 g2
    · obtain ⟨F', X', V', h5⟩ := hx
      exact ⟨F', X', V', h5.hh, h5.vv, h5.low, h5.sm.mono (by linarith), h5.Z, h5.rows⟩
    rw [g4]
    generalize val p = p at *
    generalize val q = q at *
    generalize val r = r at *
    have e0 : k ≠ 0 → swk n k k e X k (k - 1) = X k (k - 1) := fun h => by
      unfold swk; rw [if_neg (by omega), if_neg (by omega)]
    have e1 : k ≠ 0 → swk n k k e X (k + 1) (k - 1) = 0 := fun h => by
      unfold swk; rw [if_pos (by omega)]
    have e2 : k ≠ 0 → swk n k k e X (k + 2) (k - 1) = 0 := fun h => by
      unfold swk; rw [if_pos (by omega)]
    obtain ⟨b1, b2, b3⟩ := hs.xyz
    by_cases hlk : l = k
    · rw [if_neg (by omega)]
      by_cases hk0 : k = 0
      · have := Eigen.row_diff (nn := nn) (n := n) (m := k) (k := k) (e := e) (H := X) (val := X k (k - 1)) (q := q / (p + s)) (r := r / (p + s))
          (x := (p + s) / s) (y := q / s) (z := r / s) (c0 := 0) (c1 := 0) (c2 := 0) (α := 0) (β := 0) (γ := 0) (by simp)
          (fun h => absurd hk0 h) (fun h => absurd hk0 h) (fun h => absurd hk0 h) (fun h => absurd hk0 h) (fun h => absurd hk0 h) (fun h => absurd hk0 h)
        exact this.trans (by simpa using hf.nn)
      · have hb := hf.eq hlk hk0
        refine (Eigen.row_diff (α := 2 * |X k (k - 1)|) (β := |X k (k - 1)|) (γ := |X k (k - 1)|) (by positivity) e0 e1 e2 ?_ ?_ ?_).trans ?_
        · intro _
          rw [show X k (k - 1) - (X k (k - 1) + q / (p + s) * 0 + r / (p + s) * 0) * ((p + s) / s) - X k (k - 1) =
            X k (k - 1) * ((1 - (p + s) / s) - 1) by ring, abs_mul]
          have := abs_sub (1 - (p + s) / s) 1
          rw [abs_one] at this
          nlinarith [abs_nonneg (X k (k - 1))]
        · intro _
          rw [show 0 - (X k (k - 1) + q / (p + s) * 0 + r / (p + s) * 0) * (q / s) = -(X k (k - 1) * (q / s)) by ring, abs_neg, abs_mul]
          nlinarith [abs_nonneg (X k (k - 1))]
        · intro _
          rw [show 0 - (X k (k - 1) + q / (p + s) * 0 + r / (p + s) * 0) * (r / s) = -(X k (k - 1) * (r / s)) by ring, abs_neg, abs_mul]
          nlinarith [abs_nonneg (X k (k - 1))]
        · linarith
    · rw [if_pos hlk]
      have hb := hf.lt hlk s hs
      have hs0 : 0 < |s| := abs_pos.2 hs.ne
      have hd := hs.diff
      refine (Eigen.row_diff (α := |X k (k - 1)| * ((|q| + |r|) / |s|)) (β := |X k (k - 1)| * (|q| / |s|)) (γ := |X k (k - 1)| * (|r| / |s|))
        (by positivity) e0 e1 e2 ?_ ?_ ?_).trans ?_
      · intro _
        have hsn := hs.ne
        rw [show X k (k - 1) - (X k (k - 1) + q / (p + s) * 0 + r / (p + s) * 0) * ((p + s) / s) - -X k (k - 1) =
          X k (k - 1) * ((s - p) / s) by field_simp; ring, abs_mul, abs_div]
        exact mul_le_mul_of_nonneg_left (div_le_div_of_nonneg_right hd hs0.le) (abs_nonneg _)
      · intro _
        rw [show 0 - (X k (k - 1) + q / (p + s) * 0 + r / (p + s) * 0) * (q / s) = -(X k (k - 1) * (q / s)) by ring, abs_neg, abs_mul, abs_div]
      · intro _
        rw [show 0 - (X k (k - 1) + q / (p + s) * 0 + r / (p + s) * 0) * (r / s) = -(X k (k - 1) * (r / s)) by ring, abs_neg, abs_mul, abs_div]
      · rw [← mul_add, ← mul_add, show (|q| + |r|) / |s| + |q| / |s| + |r| / |s| = (2 * (|q| + |r|)) / |s| by ring, ← mul_div_assoc,
          div_le_iff₀ hs0]
        exact hb
  · rw [if_pos hkm, if_neg hkm, add_zero, hI.hh.rd (by omega) (by omega), ok_bind, hI.hh.rd (by omega) (by omega), ok_bind]
    set rf := (if k ≠ n - 1 then F (k + 2) (k - 1) else 0) with hrf
    have hrd : (if k ≠ n - 1 then LA.rd h ((k + 2) * nn + (k - 1)) else pure 0 : LA.R α) = .ok rf := by
      rw [hrf]
      split_ifs with h1
      · exact hI.hh.rd (by omega) (by omega)
      · rfl
    rw [hrd, ok_bind]
    dsimp only
    have hk0 : k ≠ 0 := by omega
    have e0 : k ≠ 0 → swk n m k e X k (k - 1) = val (F k (k - 1)) := fun h => by
      rw [← hI.low _ _ (by omega)]
      unfold swk; rw [if_neg (by omega), if_neg (by omega)]
    have e1 : k ≠ 0 → swk n m k e X (k + 1) (k - 1) = val (F (k + 1) (k - 1)) := fun h => by
      rw [← hI.low _ _ (by omega)]
      unfold swk; rw [if_neg (by omega), if_neg (by omega)]
    have e2 : k ≠ 0 → swk n m k e X (k + 2) (k - 1) = val rf := fun h => by
      unfold swk; rw [hrf]
      by_cases h1 : k ≠ n - 1
      · rw [if_neg (by omega), if_neg (by omega), if_pos h1, ← hI.low _ _ (by omega)]
      · rw [if_pos (by omega), if_neg h1, Sfp.zero]
    have hlst : k + 1 = n → val rf = 0 := fun h => by rw [← e2 hk0]; unfold swk; rw [if_pos (by omega)]
    clear_value rf
    generalize hp0 : F k (k - 1) = p0 at e0
    generalize hq0 : F (k + 1) (k - 1) = q0 at e1
    have o1 : ∀ a, k ≤ a → a < nn → |swk n m k e X a (k - 1)| ≤ frob A + E := fun a h1 h2 => by
      have := hI.sm.entry (a := a) (b := k - 1) h2 (by omega)
      unfold tadd exd at this
      rwa [if_neg (by omega), add_zero] at this
    have m0 : |val p0| ≤ frob A + E := by rw [← e0 hk0]; exact o1 k le_rfl (by omega)
    have m1 : |val q0| ≤ frob A + E := by rw [← e1 hk0]; exact o1 (k + 1) (by omega) (by omega)
    have m2 : |val rf| ≤ frob A + E := by
      by_cases h : k + 1 = n
      · rw [hlst h, abs_zero]; exact hM
      · rw [← e2 hk0]; exact o1 (k + 2) (by omega) (by omega)
    have hX0 : ∀ x : α, FloatOps.eq x 0 = true ↔ val x = 0 := fun x => by rw [Sfp.eq, Sfp.zero]
    have hXr : Rt (w α) 2 (val (FloatOps.abs p0 + FloatOps.abs q0 + FloatOps.abs rf)) (|val p0| + |val q0| + |val rf|) := by
      have a1 := add_rt (FloatOps.abs p0) (FloatOps.abs q0)
      have a2 := add_rt (FloatOps.abs p0 + FloatOps.abs q0) (FloatOps.abs rf)
      rw [Sfp.abs] at a2
      rw [Sfp.abs, Sfp.abs] at a1
      exact a2.trans hw (l := 1) (a1.add hw ((Rt.refl _).mono hw (by omega)) (by positivity) (abs_nonneg _))
    generalize FloatOps.abs p0 + FloatOps.abs q0 + FloatOps.abs rf = x at hXr ⊢
    by_cases hx : val x = 0
    · have hx' : |val p0| + |val q0| + |val rf| = 0 := (hXr.zero_iff hw).1 hx
      have z1 : val q0 = 0 := abs_eq_zero.1 (by linarith [abs_nonneg (val p0), abs_nonneg (val q0), abs_nonneg (val rf)])
      have z2 : val rf = 0 := abs_eq_zero.1 (by linarith [abs_nonneg (val p0), abs_nonneg (val q0), abs_nonneg (val rf)])
      rw [if_pos ((hX0 x).2 hx)]
      refine Post.ok ⟨F, X, V, hI.hh, hI.vv, hI.low, ?_, ?_, hI.rows⟩
      · have h3 := hI.sm.mono (show E ≤ E + ks α nn * (frob A + E) by have := mul_nonneg (ks_nonneg (α := α) nn) hM; linarith)
        refine h3.congr fun a b _ _ => ?_
        unfold tadd
        congr 1
        by_cases h4 : b + 1 = k ∧ (a = k + 1 ∨ a = k + 2)
        · obtain ⟨h5, h6⟩ := h4
          have hb : b = k - 1 := by omega
          have l : swk n m k e X a b = 0 := by
            rcases h6 with rfl | rfl
            · rw [hb, e1 hk0, z1]
            · rw [hb, e2 hk0, z2]
          rw [l]; unfold swk; rw [if_pos (by omega)]
        · have y1 : k + 3 ≤ n → X (k + 3) k = 0 := fun h1 => hI.Z _ _ h1 le_rfl (by omega) (by omega) (by omega)
          have y2 : k + 3 ≤ n → X (k + 3) (k + 1) = 0 := fun h1 => hI.Z _ _ h1 (by omega) (by omega) (by omega) (by omega)
          clear hI hf h3 o1 e0 e1 e2
          unfold swk
          by_cases h5 : b + 1 < a
          · by_cases h6 : a ≤ n ∧ b = k ∧ a = k + 2
            · rw [if_neg (by omega), if_neg (by omega), if_neg (by omega)]
            · rw [if_pos (by omega)]
              by_cases h7 : a ≤ n ∧ a = k + 3 ∧ (b = k ∨ b = k + 1)
              · rw [if_neg (by omega), if_neg (by omega)]
                obtain ⟨h8, h9, h10⟩ := h7
                subst h9
                rcases h10 with rfl | rfl
                · exact (y1 h8).symm
                · exact (y2 h8).symm
              · rw [if_pos (by omega)]
          · simp only [h5, false_and, if_false]
      · intro a b h1 h2 h3 h4 h5
        exact hI.Z a b h1 (by omega) h3 h4 (by omega)
    · rw [if_neg (fun hc => hx ((hX0 x).1 hc))]
      obtain ⟨p1, p2, p3⟩ := div_rt p0 hx
      obtain ⟨q1, q2, q3⟩ := div_rt q0 hx
      obtain ⟨r1, r2, r3⟩ := div_rt rf hx
      rw [p2, ok_bind, q2, ok_bind, r2, ok_bind]
      have hx1 : |val p0| + |val q0| + |val rf| ≠ 0 := fun hc => hx ((hXr.zero_iff hw).2 hc)
      have hne : val p0 / val x ≠ 0 ∨ val q0 / val x ≠ 0 ∨ val rf / val x ≠ 0 := by
        by_contra hc
        push Not at hc
        obtain ⟨c1, c2, c3⟩ := hc
        have c1 := (div_eq_zero_iff.1 c1).resolve_right hx
        have c2 := (div_eq_zero_iff.1 c2).resolve_right hx
        have c3 := (div_eq_zero_iff.1 c3).resolve_right hx
        exact hx1 (by rw [c1, c2, c3]; simp)
      have hr1 : k + 1 = n → val rf / val x = 0 := fun h => by rw [hlst h, zero_div]
      refine (qrReflect_ok (x := x) hI.hh hW hn hkn hmk hlm p3 q3 r3 hr1 hne).mono fun o ho => ?_
      obtain ⟨s, t, q', r', x', y', z', hs, g1, g2, g3, g4, -⟩ := ho
      have g4 := g4 hkm
      have hx2 := hI.refl (t := t) (δ := 3 * kh α * (frob A + E)) hkh hex hn hkn hmk he (Eigen.rf_mk hs.ne hs.sq hs.ps) (fun h => by rw [hr1 h, zero_div]) g3 ?_ g1 g2
      · obtain ⟨F', X', V', h5⟩ := hx2
        exact ⟨F', X', V', h5.hh, h5.vv, h5.low, h5.sm.mono (by linarith), h5.Z, h5.rows⟩
      have hc := hs.col
      generalize val p0 = p0 at *
      generalize val q0 = q0 at *
      generalize val rf = r0 at *
      generalize val x = xx at *
      have hcX : p0 + q0 / xx / (p0 / xx + s) * q0 + r0 / xx / (p0 / xx + s) * r0 = s * xx := by
        conv_rhs => rw [← hc]
        field_simp
      have hsx : |s * xx| ≤ 3 * (frob A + E) := by
        have h6 := hs.sq
        have h7 : (s * xx) * (s * xx) = p0 * p0 + q0 * q0 + r0 * r0 := by
          rw [show s * xx * (s * xx) = (s * s) * (xx * xx) by ring, h6]; field_simp
        have h8 : |s * xx| ≤ |p0| + |q0| + |r0| := by
          refine abs_le_of_sq_le_sq ?_ (by positivity)
          rw [sq, h7]
          have t0 := abs_mul_abs_self p0
          have t1 := abs_mul_abs_self q0
          have t2 := abs_mul_abs_self r0
          have t3 := mul_nonneg (abs_nonneg p0) (abs_nonneg q0)
          have t4 := mul_nonneg (abs_nonneg p0) (abs_nonneg r0)
          have t5 := mul_nonneg (abs_nonneg q0) (abs_nonneg r0)
          nlinarith
        linarith
      refine (Eigen.row_diff (α := 3 * kh α * (frob A + E)) (β := 0) (γ := 0) (by linarith) e0 e1 e2 ?_ ?_ ?_).trans (by linarith)
      · intro _
        have := hs.ne
        rw [hcX, show p0 - s * xx * ((p0 / xx + s) / s) - val t = -(val t - -s * xx) by field_simp; ring, abs_neg]
        refine (g4.sub hw).trans ?_
        rw [neg_mul, abs_neg]
        refine (mul_le_mul (pw_kh (show 5 ≤ 24 by omega)) hsx (abs_nonneg _) hk0').trans (le_of_eq (by ring))
      · intro _
        have := hs.ne
        rw [hcX, show q0 - s * xx * (q0 / xx / s) = 0 by field_simp; ring, abs_zero]
      · intro _
        have := hs.ne
        rw [hcX, show r0 - s * xx * (r0 / xx / s) = 0 by field_simp; ring, abs_zero]

theorem clearSub_ok {nn n m : Nat} {h : Buf α} {H : Nat → Nat → α} (hh : FullG h nn nn H) (hn : n < nn) (hmn : m + 2 ≤ n) :
    Post (clearSub nn n m h) fun h' => FullG h' nn nn (fun a b =>
      if a ≤ n ∧ m + 2 ≤ a ∧ (b + 2 = a ∨ (b + 3 = a ∧ m + 2 < a)) then 0 else H a b) := by
  unfold clearSub
  refine (loop_post (fun i (h' : Buf α) => FullG h' nn nn (fun a b =>
      if a < i ∧ m + 2 ≤ a ∧ (b + 2 = a ∨ (b + 3 = a ∧ m + 2 < a)) then 0 else H a b)) (by omega)
      (hh.congr fun a b _ _ => by rw [if_neg (by omega)]) ?_).mono fun h' h1 => h1.congr fun a b _ _ => ?_
  swap
  · by_cases h2 : a ≤ n ∧ m + 2 ≤ a ∧ (b + 2 = a ∨ (b + 3 = a ∧ m + 2 < a))
    · rw [if_pos h2, if_pos (by omega)]
    · rw [if_neg h2, if_neg (by omega)]
  intro i h' h1 h2 hg
  obtain ⟨h3, hr3, hg3⟩ := FullG.wrP hg (i := i) (j := i - 2) (by omega) (by omega) 0
  rw [hr3, ok_bind]
  by_cases h4 : i > m + 2
  · rw [if_pos h4]
    refine (FullG.wrP hg3 (i := i) (j := i - 3) (by omega) (by omega) 0).mono fun h5 hg5 => hg5.congr fun a b _ _ => ?_
    clear hg hg3 hg5 hh hr3
    unfold upd
    beta_reduce
    by_cases h6 : a < i + 1 ∧ m + 2 ≤ a ∧ (b + 2 = a ∨ (b + 3 = a ∧ m + 2 < a))
    · rw [if_pos h6]
      by_cases h7 : a = i
      · by_cases h8 : b + 3 = a
        · rw [if_pos (by omega)]
        · rw [if_neg (by omega), if_pos (by omega)]
      · rw [if_neg (by omega), if_neg (by omega), if_pos (by omega)]
    · rw [if_neg h6, if_neg (by omega), if_neg (by omega), if_neg (by omega)]
  · rw [if_neg h4]
    refine Post.ok (hg3.congr fun a b _ _ => ?_)
    clear hg hg3 hh hr3
    unfold upd
    beta_reduce
    by_cases h6 : a < i + 1 ∧ m + 2 ≤ a ∧ (b + 2 = a ∨ (b + 3 = a ∧ m + 2 < a))
    · rw [if_pos h6]
      by_cases h7 : a = i
      · rw [if_pos (by omega)]
      · rw [if_neg (by omega), if_pos (by omega)]
    · rw [if_neg h6, if_neg (by omega), if_neg (by omega)]

/-- The sweep: the size `frob A + E` grows by the factor `1 + ks` per step. -/
theorem sweep_ok {nn n l m : Nat} {A : Matrix (Fin nn) (Fin nn) ℝ} {e : Nat → ℝ} {ex E δ : ℝ} {X V : Nat → Nat → ℝ} {h v : Buf α}
    {F : Nat → Nat → α} {p q r : α} (hh : FullG h nn nn F) (hv : ∃ W, FullG v nn nn W) (hlow : ∀ a b, a ≤ n → X a b = val (F a b))
    (hkh : kh α ≤ 1) (hn : n < nn) (hlm : l ≤ m) (hmn : m + 2 ≤ n) (he : ¬ e (n + 1) < 0)
    (hs : Sm nn A V (Tt (n + 1) e X ex) E) (hex : |ex| ≤ 6 * (frob A + E))
    (hZ : ∀ a b, a ≤ n → m ≤ b → b + 2 ≤ a → a ≤ b + 3 → X a b = 0) (hf : FirstOk l m X (val p) (val q) (val r) δ) :
    Post (loop m n (h, v) fun k (x : Buf α × Buf α) => (do let (h, v) := x; qrStep nn n l m p q r k h v : LA.R (Buf α × Buf α)))
      fun o => ∃ F' X' V' E', FullG o.1 nn nn F' ∧ (∃ W, FullG o.2 nn nn W) ∧ (∀ a b, a ≤ n → X' a b = val (F' a b)) ∧
        Sm nn A V' (Tt (n + 1) e X' ex) E' ∧ frob A + E' ≤ (1 + ks α nn) ^ nn * (frob A + E + δ) ∧ E ≤ E' ∧
        ∀ a b, n < a → X' a b = X a b := by
  have hks := ks_nonneg (α := α) nn
  have hM : 0 ≤ frob A + E := add_nonneg (frob_nonneg _) hs.nonneg
  have h0 : QI nn n m A e ex E X m h v F X V := by
    refine ⟨hh, hv, hlow, ?_, fun a b h1 h2 h3 h4 _ => hZ a b h1 h2 h3 h4, fun _ _ _ => rfl⟩
    exact hs.congr fun a b _ _ => by unfold Tt tadd; rw [Eigen.swk_start]
  have hδ := hf.nn
  refine (loop_post (fun k (o : Buf α × Buf α) => ∃ F' X' V' E', QI nn n m A e ex E' X k o.1 o.2 F' X' V' ∧ (k = m → X' = X ∧ E' = E) ∧
    frob A + E' ≤ (1 + ks α nn) ^ (k - m) * (frob A + E + δ) ∧ E ≤ E') (by omega)
    ⟨F, X, V, E, h0, fun _ => ⟨rfl, rfl⟩, by rw [Nat.sub_self, pow_zero, one_mul]; linarith, le_rfl⟩ ?_).mono ?_
  · rintro k ⟨h1, v1⟩ h2 h3 ⟨F', X', V', E', hI, hk, hE, hE2⟩
    refine (qrStep_ok (δ := δ) hI hkh (hex.trans (by linarith)) hn h3 h2 hlm hmn he (fun h => by rw [(hk h).1]; exact hf)).mono ?_
    rintro o ⟨F2, X2, V2, h5⟩
    have hM' : 0 ≤ frob A + E' := by linarith
    have hp := mul_nonneg hks hM'
    refine ⟨F2, X2, V2, _, h5, fun h => by omega, ?_, ?_⟩
    · rw [show k + 1 - m = (k - m) + 1 by omega, pow_succ]
      by_cases hkm : k = m
      · rw [if_pos hkm, (hk hkm).2, show k - m = 0 by omega, pow_zero, one_mul]
        nlinarith [mul_nonneg hks hδ]
      · rw [if_neg hkm]
        nlinarith [mul_le_mul_of_nonneg_left hE hks]
    · split_ifs <;> linarith
  · rintro o ⟨F', X', V', E', hI, _, hE, hE2⟩
    refine ⟨F', X', V', E', hI.hh, hI.vv, hI.low, ?_, hE.trans ?_, hE2, hI.rows⟩
    · exact hI.sm.congr fun a b _ _ => by unfold Tt tadd; rw [Eigen.swk_end]
    · exact mul_le_mul_of_nonneg_right (pow_le_pow_right₀ (by linarith) (by omega)) (by linarith)

end Std
end LA
