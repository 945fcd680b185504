import Verif.Proofs.RndSolve
import Verif.Proofs.StdHouse
import Verif.Props.Construction

/-! # The inverse of a diagonal matrix in rounded arithmetic

`SVD::direct` inverts the diagonal matrix of singular values with the LU decomposition. -/

set_option linter.unusedSectionVars false

namespace LA
open Finset Matrix
namespace Std
open Sfp
open LU (pivot column scale step)

variable {α : Type} [Zero α] [One α] [Add α] [Sub α] [Neg α] [Mul α] [FloatOps α] [Sfp α]

theorem Rt_zero {k : Nat} {x y : ℝ} (h : Rt (w α) k x y) (hy : y = 0) : x = 0 := (h.zero_iff w_one).2 hy

theorem mul_zero_left {x y : α} (h : val x = 0) : val (x * y) = 0 := Rt_zero (mul_rt x y) (by rw [h, zero_mul])
theorem mul_zero_right {x y : α} (h : val y = 0) : val (x * y) = 0 := Rt_zero (mul_rt x y) (by rw [h, mul_zero])

/-- A sum of zeros is zero. -/
theorem facc_zero {p : Nat → α} {k : Nat} (h : ∀ t, t < k → val (p t) = 0) : val (facc (· + ·) 0 p k) = 0 := by
  induction k with
  | zero => exact Sfp.zero
  | succ k ih =>
    refine Rt_zero (add_rt _ _) ?_
    rw [ih fun t ht => h t (by omega), h k (by omega), add_zero]

/-- Subtracting `k` zeros rounds at most `k` times. -/
theorem facc_sub_zero {z : α} {p : Nat → α} {k : Nat} (h : ∀ t, t < k → val (p t) = 0) :
    Rt (w α) k (val (facc (· - ·) z p k)) (val z) := by
  induction k with
  | zero => exact Rt.refl _
  | succ k ih =>
    have := (sub_rt (facc (· - ·) z p k) (p k)).trans w_one (l := k) (z := val z)
      (by rw [h k (by omega), sub_zero]; exact ih fun t ht => h t (by omega))
    rw [add_comm 1 k] at this
    exact this

/-- The state of the LU decomposition of a diagonal matrix before column `j`. -/
structure Dg (n : Nat) (s : Nat → α) (j : Nat) (G : Nat → Nat → α) : Prop where
  off : ∀ a b, a < n → b < n → a ≠ b → val (G a b) = 0
  old : ∀ a, a < j → a < n → Rt (w α) 1 (val (G a a)) (val (s a))
  new : ∀ a, j ≤ a → a < n → G a a = s a

theorem dg_step {n j : Nat} {s : Nat → α} {d : List α} {piv : List Nat} {pos : Bool} {G : Nat → Nat → α} (hd : Grid d n n G) (h : Dg n s j G)
    (hj : j < n) : Post (step n n j (d, piv, pos)) fun t => t.2 = (piv, pos) ∧ ∃ G', Grid t.1 n n G' ∧ Dg n s (j + 1) G' := by
  unfold step
  dsimp only
  refine (LU.Rnd.column_post hd hj).bind ?_
  rintro d1 ⟨G1, g1, h1, h2⟩
  have hz : ∀ i, i < n → (∀ t, t < min i j → val (G1 t j) = 0 ∨ val (G1 i t) = 0) → Rt (w α) 1 (val (G1 i j)) (val (G i j)) := by
    intro i hi ht
    rw [h2 i hi]
    unfold LU.Rnd.W fdot
    have e : val (facc (· + ·) 0 (fun k => G1 i k * G1 k j) (min i j)) = 0 := by
      refine facc_zero fun t htm => ?_
      rcases ht t htm with h | h
      · exact mul_zero_right h
      · exact mul_zero_left h
    have := sub_rt (G i j) (facc (· + ·) 0 (fun k => G1 i k * G1 k j) (min i j))
    rw [e, sub_zero] at this
    exact this
  have hcol : ∀ i, i < n → Rt (w α) 1 (val (G1 i j)) (val (G i j)) := by
    intro i hi
    refine hz i hi fun t ht => Or.inr ?_
    rw [h1 i t (by omega)]
    exact h.off i t hi (by omega) (by omega)
  have hoff1 : ∀ i, i < n → i ≠ j → val (G1 i j) = 0 := fun i hi hij => Rt_zero (hcol i hi) (h.off i j hi hj hij)
  have hp : pivot n n j d1 = .ok j := by
    unfold pivot
    obtain ⟨p, hp, e⟩ := loop_post (lo := j + 1) (hi := n) (s := j) (f := fun i p => do
      if FloatOps.lt (FloatOps.abs (← idx d1 (p * n + j))) (FloatOps.abs (← idx d1 (i * n + j))) then return i
      else return p) (fun _ p => p = j) (by omega) rfl (by
        rintro i p hi1 hi rfl
        rw [g1.idx hj hj, g1.idx hi hj, ok_bind, ok_bind, if_neg]
        · exact Post.ok rfl
        · rw [Sfp.lt, Sfp.abs, Sfp.abs, hoff1 i hi (by omega), abs_zero]
          exact not_lt.2 (abs_nonneg _))
    rw [hp, e]
  rw [hp, ok_bind]
  simp only [bne_self_eq_false, Bool.false_eq_true, if_false, pure_eq_ok, ok_bind]
  have hsc : Post (scale n n j d1) fun d2 => ∃ G', Grid d2 n n G' ∧ (∀ a b, ¬(b = j ∧ j < a) → G' a b = G1 a b) ∧
      ∀ a, j < a → a < n → val (G' a j) = 0 := by
    unfold scale
    rw [if_pos hj, g1.idx hj hj, ok_bind]
    by_cases h0 : FloatOps.eq (G1 j j) 0 = true
    · simp only [h0, Bool.not_true, Bool.false_eq_true, if_false]
      exact Post.ok ⟨G1, g1, fun _ _ _ => rfl, fun a h1 h2 => hoff1 a h2 (by omega)⟩
    · simp only [h0, Bool.not_false, if_true]
      have hne : val (G1 j j) ≠ 0 := by
        intro h
        rw [Sfp.eq, Sfp.zero] at h0
        exact h0 h
      refine (loop_post (fun i d' => ∃ G', Grid d' n n G' ∧ (∀ a b, ¬(b = j ∧ j < a ∧ a < i) → G' a b = G1 a b) ∧
          ∀ a, j < a → a < i → val (G' a j) = 0) (show j + 1 ≤ n from hj) ⟨G1, g1, fun _ _ _ => rfl, fun a h1 h2 => by omega⟩ ?_).mono ?_
      · rintro i d' hi1 hi ⟨G', hG, k1, k2⟩
        obtain ⟨z, hz, hr⟩ := div_rt (G1 i j) hne
        rw [hG.idx hi hj, hG.idx hj hj, ok_bind, ok_bind, k1 i j (by omega), k1 j j (by omega), hz, ok_bind]
        refine (hG.setIdx hi hj _).mono fun d'' h3 => ⟨_, h3, fun a b hc => ?_, fun a ha hb => ?_⟩
        · rw [upd_ne (by omega), k1 a b (by omega)]
        · by_cases e : a = i
          · subst e
            rw [upd_same]
            exact Rt_zero hr (by rw [hoff1 a hi (by omega), zero_div])
          · rw [upd_ne (by omega)]; exact k2 a ha (by omega)
      · rintro d' ⟨G', hG, k1, k2⟩
        exact ⟨G', hG, fun a b h => k1 a b (by omega), k2⟩
  refine hsc.bind ?_
  rintro d2 ⟨G', g2, k1, k2⟩
  refine Post.ok ⟨rfl, G', g2, fun a b ha hb hab => ?_, fun a ha hn => ?_, fun a ha hn => ?_⟩
  · by_cases e : b = j
    · subst e
      by_cases e' : b < a
      · exact k2 a e' ha
      · rw [k1 a b (by omega)]; exact hoff1 a ha hab
    · rw [k1 a b (by omega), h1 a b e]; exact h.off a b ha hb hab
  · rw [k1 a a (by omega)]
    by_cases e : a = j
    · subst e
      have := hcol a hn
      rw [h.new a le_rfl hn] at this
      exact this
    · rw [h1 a a e]; exact h.old a (by omega) hn
  · rw [k1 a a (by omega), h1 a a (by omega)]; exact h.new a (by omega) hn

/-- The packed factors of a diagonal matrix: diagonal again, each entry rounded at most once. -/
theorem lu_diag {n : Nat} (hn : 0 < n) (s : Nat → α) :
    ∃ G : Nat → Nat → α, LU.new (ofM (Matrix.diagonal fun i : Fin n => s i)) =
        .ok ⟨ofM (Matrix.of fun (i j : Fin n) => G i j), true, List.ofFn fun i : Fin n => i.1⟩ ∧
      Dg n s n G := by
  unfold LU.new
  have hio := LU.iota_fill n
  rw [bind_eq_ok] at hio
  obtain ⟨b, hb1, hb2⟩ := hio
  simp only [ofM_rows, ofM_cols _ hn, ok_bind, hb1, hb2]
  obtain ⟨⟨d, piv, pos⟩, hs, e, G, hG, hD⟩ := loop_post (s := ((ofM (Matrix.diagonal fun i : Fin n => s i)).data, (List.ofFn fun i : Fin n => i.1), true))
    (f := fun j s => step n n j s)
    (fun j t => t.2 = ((List.ofFn fun i : Fin n => i.1), true) ∧ ∃ G, Grid t.1 n n G ∧ Dg n s j G) (Nat.zero_le n)
    ⟨rfl, ext (Matrix.diagonal fun i : Fin n => s i), grid_ofM _, fun a b ha hb hab => by
      rw [ext_eq _ ha hb, diagonal_apply_ne _ (fun h => hab (Fin.ext_iff.1 h))]; exact Sfp.zero, fun a h => by omega, fun a _ ha => by
      rw [ext_eq _ ha ha, diagonal_apply_eq]⟩
    (by
      rintro j ⟨d, piv, pos⟩ - hj ⟨e, G, hG, hD⟩
      refine (dg_step hG hD hj).mono ?_
      rintro t ⟨e', h⟩
      exact ⟨by rw [e', ← e], h⟩)
  rw [hs, ok_bind]
  obtain ⟨rfl, rfl⟩ := Prod.mk.inj e
  refine ⟨G, ?_, hD⟩
  dsimp only at hG ⊢
  rw [hG.ofM (Matrix.of fun (i j : Fin n) => G i j) fun _ _ => rfl, Props.C01_new_ofM hn hn]; rfl

/-- The inverse of a diagonal matrix with a zero on the diagonal is not computed. -/
theorem inverse_diag_none {n : Nat} (hn : 0 < n) (s : Nat → α) (h : ∃ i, i < n ∧ val (s i) = 0) :
    (ofM (Matrix.diagonal fun i : Fin n => s i)).inverse = .ok none := by
  obtain ⟨i, hi, h0⟩ := h
  obtain ⟨G, e, hD⟩ := lu_diag hn s
  unfold Mat.inverse
  simp only [ofM_rows, ofM_cols _ hn, ok_bind, beq_self_eq_true, assert_true, Props.C05_id_square, e]
  rcases LU.Rnd.solve_ok' hn hn G true (Equiv.refl (Fin n)) (1 : Matrix (Fin n) (Fin n) α) (fun x y h => by
    obtain ⟨z, hz, -⟩ := div_rt x (y := y) (fun h' => by
      rw [(Sfp.eq y 0).2 (by rw [h', Sfp.zero])] at h; exact nomatch h)
    exact ⟨z, hz⟩) with ⟨-, h1⟩ | ⟨h1, -⟩
  · exact h1
  · have := h1 ⟨i, hi⟩
    rw [(Sfp.eq _ _).2 (by rw [Sfp.zero]; exact Rt_zero (hD.old i hi hi) h0)] at this
    exact nomatch this

/-- The inverse of a diagonal matrix without zeros on the diagonal: diagonal, and each entry the reciprocal up to `n + 1` roundings. -/
theorem inverse_diag {n : Nat} (hn : 0 < n) (s : Nat → α) (h : ∀ i, i < n → val (s i) ≠ 0) :
    ∃ X : Matrix (Fin n) (Fin n) α, (ofM (Matrix.diagonal fun i : Fin n => s i)).inverse = .ok (some (ofM X)) ∧
      (∀ i j, i ≠ j → val (X i j) = 0) ∧ ∀ i, Rt (w α) (n + 1) (val (X i i)) (val (s i))⁻¹ := by
  obtain ⟨G, e, hD⟩ := lu_diag hn s
  unfold Mat.inverse
  simp only [ofM_rows, ofM_cols _ hn, ok_bind, beq_self_eq_true, assert_true, Props.C05_id_square, e]
  have hne : ∀ i, i < n → val (G i i) ≠ 0 := fun i hi => (hD.old i hi hi).ne w_one (h i hi)
  rcases LU.Rnd.solve_ok' hn hn G true (Equiv.refl (Fin n)) (1 : Matrix (Fin n) (Fin n) α) (fun x y h => by
    obtain ⟨z, hz, -⟩ := div_rt x (y := y) (fun h' => by
      rw [(Sfp.eq y 0).2 (by rw [h', Sfp.zero])] at h; exact nomatch h)
    exact ⟨z, hz⟩) with ⟨⟨i, hi⟩, -⟩ | ⟨-, X, Y, h1, hY, hX⟩
  · rw [Sfp.eq, Sfp.zero] at hi
    exact absurd hi (hne i i.2)
  refine ⟨_, h1, ?_⟩
  have hy : ∀ i j : Fin n, Rt (w α) i (val (Y i j)) (val ((1 : Matrix (Fin n) (Fin n) α) i j)) := by
    intro i j
    rw [hY i j]
    exact facc_sub_zero fun t ht => mul_zero_right (hD.off i t i.2 (by omega) (by omega))
  have hx : ∀ i j : Fin n, Rt (w α) (n + 1) (val (X i j)) (val ((1 : Matrix (Fin n) (Fin n) α) i j) / val (s i)) := by
    intro i j
    obtain ⟨z, hz, hr⟩ := div_rt (facc (· - ·) (Y i j) (fun s => X (n - 1 - s) j * G i (n - 1 - s)) (n - 1 - i)) (hne i i.2)
    have ez := hX i j
    rw [hz] at ez
    cases ez
    have h2 : Rt (w α) (n - 1 - i) (val (facc (· - ·) (Y i j) (fun s => X (n - 1 - s) j * G i (n - 1 - s)) (n - 1 - i))) (val (Y i j)) :=
      facc_sub_zero fun t ht => mul_zero_right (hD.off i (n - 1 - t) i.2 (by omega) (by omega))
    have h3 := hr.trans w_one ((h2.trans w_one (hy i j)).div w_one (hD.old i i.2 i.2))
    exact h3.mono w_one (by omega)
  refine ⟨fun i j hij => ?_, fun i => ?_⟩
  · refine Rt_zero (hx i j) ?_
    rw [one_apply_ne hij, Sfp.zero, zero_div]
  · have := hx i i
    rw [one_apply_eq, Sfp.one, one_div] at this
    exact this

end Std
end LA
