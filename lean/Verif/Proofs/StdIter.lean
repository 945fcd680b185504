import Verif.Proofs.StdLoop

/-! # The main loop of `SVD::new` in rounded arithmetic: the invariant -/

set_option linter.unusedSectionVars false

namespace LA
open Finset Matrix
namespace Std
open Sfp SVD

variable {α : Type} [Zero α] [One α] [Add α] [Sub α] [Neg α] [Mul α] [FloatOps α] [Sfp α]

/-- The absolute part of the error bound: `2^-915`. -/
noncomputable def tau : ℝ := 1 / 2 ^ 915
theorem tau_nonneg : 0 ≤ tau := by unfold tau; positivity

/-- `κ` covers a rotation and a deflation. -/
structure Kap (α : Type) [Zero α] [One α] [Add α] [Sub α] [Neg α] [Mul α] [FloatOps α] [Sfp α] (κ : ℝ) : Prop where
  rot : 2 * k0 α ≤ κ
  defl : w α ^ 4 / 2 ^ 51 ≤ κ

theorem Kap.nonneg {κ : ℝ} (h : Kap α κ) : 0 ≤ κ := by
  have := h.rot
  have := k0_nonneg (α := α)
  linarith

variable {m n : Nat} {κ : ℝ} {A : Matrix (Fin m) (Fin n) ℝ}

/-- Invariant of the main loop. -/
structure MI (m n : Nat) (κ : ℝ) (A : Matrix (Fin m) (Fin n) ℝ) (r p : Nat) (st : Main α) (s e : Nat → α) (U V : Nat → Nat → α) : Prop where
  view : View m n st s e U V
  nf : NFv m n κ tau A r U V (bid (vv s) (vv e))
  ez : ∀ j, p ≤ j + 1 → val (e j) = 0
  sorted : ∀ i j, p ≤ i → i ≤ j → j < n → val (s j) ≤ val (s i)
  pos : ∀ i, p ≤ i → i < n → 0 ≤ val (s i)

theorem abs_s_le {s e : Nat → ℝ} (hnm : n ≤ m) {k : Nat} (hk : k < n) : |s k| ≤ frob (pk m n (bid s e)) := by
  have := abs_le_frob (pk m n (bid s e)) ⟨k, by omega⟩ ⟨k, hk⟩
  simpa [pk, LU.packed, bid] using this

theorem abs_e_le {s e : Nat → ℝ} (hnm : n ≤ m) {k : Nat} (hk : k + 1 < n) : |e k| ≤ frob (pk m n (bid s e)) := by
  have := abs_le_frob (pk m n (bid s e)) ⟨k, by omega⟩ ⟨k + 1, hk⟩
  simpa [pk, LU.packed, bid] using this

/-- Zeroing a negligible superdiagonal entry. -/
theorem defl_e {r p k : Nat} {st : Main α} {s e : Nat → α} {U V : Nat → Nat → α} (hκ : Kap α κ) (h : MI m n κ A r p st s e U V)
    (hnm : n ≤ m) (hk : k + 1 < p) (hp : p ≤ n) {eb : Buf α} (he : Full eb n (updv e k 0))
    (hb : |val (e k)| ≤ Sfp.val ((tiny : α) + eps * (FloatOps.abs (s k) + FloatOps.abs (s (k + 1))))) :
    MI m n κ A (r + 1) p { st with e := eb } s (updv e k 0) U V := by
  refine ⟨⟨h.view.s, he, h.view.u, h.view.v⟩, ?_, ?_, h.sorted, h.pos⟩
  · have h1 : |vv s k| ≤ frob (pk m n (bid (vv s) (vv e))) := abs_s_le hnm (by omega)
    have h2 : |vv s (k + 1)| ≤ frob (pk m n (bid (vv s) (vv e))) := abs_s_le hnm (by omega)
    have h3 := thr_le (F := frob (pk m n (bid (vv s) (vv e)))) (by rw [Sfp.abs]; exact abs_nonneg _) (by rw [Sfp.abs]; exact abs_nonneg _) (by rw [Sfp.abs]; exact h1)
      (by rw [Sfp.abs]; exact h2) hb
    rw [vv_updv, Sfp.zero]
    refine NF.deflate hκ.nonneg h.nf (i0 := k) (j0 := k + 1) (by omega) (by omega) (by simp [bid]) ?_ ?_
    · intro i j hij
      simp only [bid, updv]
      grind
    · have e1 : bid (vv s) (vv e) k (k + 1) = val (e k) := by simp [bid, vv]
      rw [e1]
      exact h3.trans (mul_le_mul_of_nonneg_right hκ.defl (add_nonneg (frob_nonneg _) tau_nonneg))
  · intro j hj
    rw [updv_ne (by omega), h.ez j hj]

/-- Zeroing a negligible diagonal entry. -/
theorem defl_s {r p k1 ks : Nat} {st : Main α} {s e : Nat → α} {U V : Nat → Nat → α} (hκ : Kap α κ) (h : MI m n κ A r p st s e U V)
    (hnm : n ≤ m) (hk : ks < p) (hp : p ≤ n)
    (hb : |val (s ks)| ≤ Sfp.val ((tiny : α) + eps * (FloatOps.abs (e ks) + if ks ≠ k1 then FloatOps.abs (e (ks - 1)) else 0))) :
    NFv m n κ tau A (r + 1) U V (bid (vv (updv s ks 0)) (vv e)) := by
  have b1 : ∀ i, |vv e i| ≤ frob (pk m n (bid (vv s) (vv e))) := by
    intro i
    by_cases hi : i + 1 < p
    · exact abs_e_le hnm (by omega)
    · rw [show vv e i = 0 from h.ez i (by omega), abs_zero]; exact frob_nonneg _
  have h3 := thr_le (F := frob (pk m n (bid (vv s) (vv e)))) (by rw [Sfp.abs]; exact abs_nonneg _)
    (by
      split
      · rw [Sfp.abs]; exact abs_nonneg _
      · rw [Sfp.zero]) (by rw [Sfp.abs]; exact b1 ks)
    (by
      split
      · rw [Sfp.abs]; exact b1 _
      · rw [Sfp.zero]; exact frob_nonneg _) hb
  rw [vv_updv, Sfp.zero]
  refine NF.deflate hκ.nonneg h.nf (i0 := ks) (j0 := ks) (by omega) (by omega) (by simp [bid]) ?_ ?_
  · intro i j hij
    simp only [bid, updv]
    grind
  · have e1 : bid (vv s) (vv e) ks ks = val (s ks) := by simp [bid, vv]
    rw [e1]
    exact h3.trans (mul_le_mul_of_nonneg_right hκ.defl (add_nonneg (frob_nonneg _) tau_nonneg))

/-- One iteration of the main loop: at most `2 n` transformations, and no failure. -/
theorem step_post {r p : Nat} {st : Main α} {s e : Nat → α} {U V : Nat → Nat → α} (hκ : Kap α κ) (h : MI m n κ A r p st s e U V)
    (hp0 : 0 < p) (hp : p ≤ n) (hnm : n ≤ m) :
    ∃ p' st', step m n (n - 1) p st = .ok (p', st') ∧ p' ≤ n ∧ ∃ s' e' U' V', MI m n κ A (r + 2 * n) p' st' s' e' U' V' := by
  obtain ⟨k1, eb, hrun, hk1, hnz, hcase⟩ := findE_ok h.view.s h.view.e (p - 1) (by omega)
  obtain ⟨e1, hM, hz, hsame⟩ : ∃ e1, MI m n κ A (r + 1) p { st with e := eb } s e1 U V ∧
      (∀ i, i + 1 = k1 → val (e1 i) = 0) ∧ (∀ i, k1 ≤ i → e1 i = e i) := by
    rcases hcase with ⟨rfl, rfl⟩ | ⟨k, rfl, hb1, hb2⟩
    · exact ⟨e, ⟨h.view, h.nf.mono hκ.nonneg tau_nonneg (by omega), h.ez, h.sorted, h.pos⟩, fun i hi => by omega, fun _ _ => rfl⟩
    · exact ⟨_, defl_e hκ h hnm (by omega) hp hb1 hb2, fun i hi => by rw [show i = k by omega, updv_same, Sfp.zero],
        fun i hi => updv_ne (by omega)⟩
  clear hcase
  have hnz1 : ∀ j, k1 ≤ j → j + 1 < p → val (e1 j) ≠ 0 := fun j h1 h2 => by
    rw [hsame j h1]; exact hnz j h1 (by omega)
  unfold step
  rw [hrun, ok_bind]
  dsimp only
  by_cases hk : k1 + 1 = p
  · rw [if_pos hk]
    obtain ⟨st2, hr2, s2, V2, w2, f2, q1, q2⟩ := fixSign_post hM.view hM.nf (q := k1) (by omega) hz
    rw [hr2, ok_bind]
    obtain ⟨st3, hr3, s3, U3, V3, w3, f3, q3, q4⟩ := order_post w2 f2 (q := k1) (by omega) hnm
      (fun i hi => by
        by_cases h5 : p ≤ i + 1
        · exact hM.ez i h5
        · exact hz i (by omega))
      (fun i j h1 h2 h3 => by
        rw [q2 i (by omega), q2 j (by omega)]
        exact hM.sorted i j (by omega) h2 h3)
      (fun i h1 h2 => by
        by_cases hi : i = k1
        · rw [hi, q1]; exact abs_nonneg _
        · rw [q2 i hi]; exact hM.pos i (by omega) h2)
    rw [hr3, ok_bind]
    have hpk : p - 1 = k1 := by omega
    refine ⟨p - 1, st3, rfl, by omega, s3, e1, U3, V3, ⟨w3, NF.mono hκ.nonneg tau_nonneg f3 (by omega), ?_, ?_, ?_⟩⟩
    · intro j hj
      by_cases h5 : p ≤ j + 1
      · exact hM.ez j h5
      · exact hz j (by omega)
    · rw [hpk]; exact q3
    · rw [hpk]; exact q4
  · rw [if_neg hk]
    obtain ⟨o, sb, hrs, hres⟩ := findS_ok (k1 := k1) hM.view.e hM.view.s hp (p - k1) (by omega)
    rw [hrs, ok_bind]
    dsimp only
    rcases hres with ⟨rfl, rfl, hs0⟩ | ⟨ks, rfl, hks1, hks2, hvs, hb⟩
    · obtain ⟨st2, hr2, s2, e2, U2, V2, w2, f2, q1, q2⟩ := kase3_post hκ.rot tau_nonneg hM.view hM.nf (k := k1) (p := p) (by omega) hp hnm
        (fun j h1 h2 => hs0 j h1 (by omega)) hnz1 hz (hM.ez _ (by omega))
      dsimp only
      rw [hr2]
      refine ⟨p, st2, rfl, hp, s2, e2, U2, V2, ⟨w2, NF.mono hκ.nonneg tau_nonneg f2 (by omega), fun j hj => q1 j hj (hM.ez j hj), ?_, ?_⟩⟩
      · intro i j h1 h2 h3
        rw [q2 i h1, q2 j (by omega)]; exact hM.sorted i j h1 h2 h3
      · intro i h1 h2
        rw [q2 i h1]; exact hM.pos i h1 h2
    · dsimp only
      have hvw : View m n { s := sb, e := eb, u := st.u, v := st.v } (updv s ks 0) e1 U V :=
        ⟨hvs, hM.view.e, hM.view.u, hM.view.v⟩
      have hks3 : ks < p := by omega
      have f2 := defl_s hκ hM hnm hks3 hp hb
      by_cases hkp : ks + 1 = p
      · rw [if_pos hkp]
        have hks4 : p - 1 = ks := by omega
        obtain ⟨st2, hr2, s2, e2, V2, w2, g2, q2, q3⟩ := kase1_post hκ.rot tau_nonneg hvw f2 (k := k1) (p := p) (by omega) hp
          (by rw [hks4, updv_same, Sfp.zero]) hnz1 hz
        rw [hr2]
        refine ⟨p, st2, rfl, hp, s2, e2, U, V2, ⟨w2, NF.mono hκ.nonneg tau_nonneg g2 (by omega), fun j hj => q2 j (hM.ez j hj), ?_, ?_⟩⟩
        · intro i j h1 h2 h3
          rw [q3 i h1, q3 j (by omega), updv_ne (by omega), updv_ne (by omega)]; exact hM.sorted i j h1 h2 h3
        · intro i h1 h2
          rw [q3 i h1, updv_ne (by omega)]; exact hM.pos i h1 h2
      · rw [if_neg hkp]
        have hks4 : ks + 1 - 1 = ks := by omega
        obtain ⟨st2, hr2, s2, e2, U2, w2, g2, q2, q3⟩ := kase2_post hκ.rot tau_nonneg hvw f2 (k := ks + 1) (p := p) (by omega) (by omega) hp
          hnm (by rw [hks4, updv_same, Sfp.zero]) (fun j h1 h2 => hnz1 j (by omega) h2) (hM.ez _ (by omega))
        rw [hr2]
        refine ⟨p, st2, rfl, hp, s2, e2, U2, V, ⟨w2, NF.mono hκ.nonneg tau_nonneg g2 (by omega), fun j hj => q2 j (hM.ez j hj), ?_, ?_⟩⟩
        · intro i j h1 h2 h3
          rw [q3 i h1, q3 j (by omega), updv_ne (by omega), updv_ne (by omega)]; exact hM.sorted i j h1 h2 h3
        · intro i h1 h2
          rw [q3 i h1, updv_ne (by omega)]; exact hM.pos i h1 h2

/-- The main loop ends with a diagonal middle factor, or runs out of its budget. -/
theorem iterate_post (hκ : Kap α κ) (hnm : n ≤ m) : ∀ (fuel r p : Nat) {st : Main α} {s e : Nat → α} {U V : Nat → Nat → α},
    MI m n κ A r p st s e U V → p ≤ n →
    iterate m n (n - 1) fuel p st = .error .fuel ∨ ∃ st', iterate m n (n - 1) fuel p st = .ok st' ∧
      ∃ s' e' U' V', MI m n κ A (r + 2 * n * fuel) 0 st' s' e' U' V' := by
  intro fuel
  induction fuel with
  | zero =>
    intro r p st s e U V h hp
    cases p with
    | zero => exact Or.inr ⟨st, rfl, s, e, U, V, h⟩
    | succ p => exact Or.inl rfl
  | succ fuel ih =>
    intro r p st s e U V h hp
    cases p with
    | zero =>
      refine Or.inr ⟨st, rfl, s, e, U, V, h.view, NF.mono hκ.nonneg tau_nonneg h.nf (by omega), h.ez, h.sorted, h.pos⟩
    | succ p =>
      obtain ⟨p', st', hr, hp', s', e', U', V', h'⟩ := step_post hκ h (by omega) hp hnm
      have e1 : iterate m n (n - 1) (fuel + 1) (p + 1) st = iterate m n (n - 1) fuel p' st' := by
        show (SVD.step m n (n - 1) (p + 1) st >>= _) = _
        rw [hr]; rfl
      rw [e1]
      rcases ih _ p' h' hp' with h1 | ⟨st2, h1, s2, e2, U2, V2, h2⟩
      · exact Or.inl h1
      · refine Or.inr ⟨st2, h1, s2, e2, U2, V2, ?_⟩
        have : r + 2 * n + 2 * n * fuel = r + 2 * n * (fuel + 1) := by ring
        rwa [this] at h2

end Std
end LA
