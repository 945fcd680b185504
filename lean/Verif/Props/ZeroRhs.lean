import Verif.Props.CholeskyBlocksSolve

/-!
# C125: the homogeneous system of doubles

A column of zeros on the right-hand side gives a column of zeros: in products, in `LU::solve` and in `Cholesky::solve`.
-/

namespace LA.Props
open LA F64

section
variable {m n p : Nat}

/-- A difference of zeros is a zero. -/
theorem sub_facc_zero {z : F64} {f : Nat → F64} {k : Nat} (hz : isZero z) (h : ∀ t, t < k → isZero (f t)) : isZero (facc (· - ·) z f k) := by
  induction k with
  | zero => exact hz
  | succ k ih => exact zeros_f64.sub _ _ (ih fun t ht => h t (by omega)) (h k (by omega))

/-- C125: products. -/
theorem C125_mul (hm : 0 < m) (hp : 0 < p) (A : Matrix (Fin m) (Fin p) F64) (B : Matrix (Fin p) (Fin n) F64) (hA : ∀ i k, (A i k).isFin) :
    ∃ C : Matrix (Fin m) (Fin n) F64, (ofM A).mul (ofM B) = .ok (ofM C) ∧ ∀ j, (∀ k, isZero (B k j)) → ∀ i, isZero (C i j) := by
  refine ⟨_, C10_mul_general hm hp A B, fun j hj i => ?_⟩
  show isZero (List.foldl _ _ _)
  have : ∀ (l : List (Fin p)) (s : F64), isZero s → isZero (l.foldl (fun s k => s + A i k * B k j) s) := by
    intro l
    induction l with
    | nil => exact fun s h => h
    | cons k l ih => exact fun s h => ih _ (zeros_f64.add _ _ h (zeros_f64.mul_right _ _ (hA i k) (hj k)))
  exact this _ _ zeros_f64.zero

/-- C125: `LU::solve` (hence `Matrix::solve` of a square matrix) with finite `get_l`, `get_u`. -/
theorem C125_lu (hn : 0 < n) (hp : 0 < p) (A : Matrix (Fin n) (Fin n) F64) (B : Matrix (Fin n) (Fin p) F64) :
    ∃ (x : LU F64) (L U : Matrix (Fin n) (Fin n) F64), LU.new (ofM A) = .ok x ∧ x.getL = .ok (ofM L) ∧ x.getU = .ok (ofM U) ∧
      ((∀ i j, (L i j).isFin) → (∀ i j, (U i j).isFin) →
        x.solve (ofM B) = .ok none ∧ (∃ i, isZero (U i i)) ∨
        ∃ X : Matrix (Fin n) (Fin p) F64, x.solve (ofM B) = .ok (some (ofM X)) ∧ ∀ j, (∀ i, isZero (B i j)) → ∀ i, isZero (X i j)) := by
  obtain ⟨G, σ, hx, -⟩ := LU.Rnd.new_ofM hn hn A
  have hL := LU.Rnd.getL_ok G hn hn (decide (Equiv.Perm.sign σ = 1)) (List.ofFn fun i => (σ i).1)
  have hU := LU.Rnd.getU_ok G hn hn (decide (Equiv.Perm.sign σ = 1)) (List.ofFn fun i => (σ i).1)
  have hfin := LU.Rnd.fin_G (α := F64) (m := n) (n := n) (G := G)
  have hd : ∀ (i : Fin n) (h : i.1 < min n n), LU.Rnd.upperA (min n n) n G ⟨i, h⟩ i = G i i := fun i h => by simp [LU.Rnd.upperA]
  revert hL hU hfin hd
  rw [Nat.min_self]
  intro hL hU hfin hd
  refine ⟨_, _, _, hx, hL, hU, fun fL fU => ?_⟩
  have hG : ∀ i c, i < n → c < n → (G i c).isFin := hfin fL fU
  rcases LU.Rnd.solve_ok hn hp G (decide (Equiv.Perm.sign σ = 1)) σ B with ⟨⟨i, hi⟩, h⟩ | ⟨hne, X, Y, h, hY, hX⟩
  · exact Or.inl ⟨h, i, by have := hd i i.2; rw [show (⟨i.1, i.2⟩ : Fin n) = i from rfl] at this; rw [this]; exact F64.eq_zero_iff.1 hi⟩
  · refine Or.inr ⟨_, h, fun j hj i => ?_⟩
    have hy : ∀ k (hk : k < n), isZero (Y k j) := by
      intro k
      induction k using Nat.strong_induction_on with
      | _ k ih =>
        intro hk
        rw [show Y k j = _ from hY ⟨k, hk⟩ j]
        exact sub_facc_zero (hj _) fun t ht => zeros_f64.mul_left _ _ (ih t ht (by omega)) (hG k t hk (by omega))
    have hx : ∀ r k, k + r + 1 = n → isZero (X k j) := by
      intro r
      induction r using Nat.strong_induction_on with
      | _ r ih =>
        intro k hk
        have hkn : k < n := by omega
        refine zeros_f64.div _ _ _ (sub_facc_zero (hy k hkn) fun t ht => ?_) (hG k k hkn hkn) (by rw [hne ⟨k, hkn⟩]; exact Bool.false_ne_true)
          (hX ⟨k, hkn⟩ j)
        exact zeros_f64.mul_left _ _ (ih t (by dsimp only at ht; omega) (n - 1 - t) (by dsimp only at ht; omega)) (hG k _ hkn (by omega))
    exact hx (n - 1 - i) i (by omega)

/-- C125: `Cholesky::solve` with a finite factor. -/
theorem C125_cholesky (hn : 0 < n) (hp : 0 < p) (A : Matrix (Fin n) (Fin n) F64) {L : Matrix (Fin n) (Fin n) F64}
    (hc : Cholesky.new (ofM A) = .ok (some ⟨ofM L⟩)) (hf : ∀ i j, (L i j).isFin) (B : Matrix (Fin n) (Fin p) F64) :
    ∃ X : Matrix (Fin n) (Fin p) F64, Cholesky.solve ⟨ofM L⟩ (ofM B) = .ok (ofM X) ∧ ∀ j, (∀ i, isZero (B i j)) → ∀ i, isZero (X i j) := by
  obtain ⟨o, ho, hp0⟩ := Cholesky.Rnd.new_post hn A
  rw [hc] at ho
  obtain rfl := Except.ok.inj ho
  obtain ⟨G, e, hG⟩ := hp0
  obtain rfl := ofM_inj (congrArg Cholesky.l e)
  have hfG : ∀ a b, a < n → b < n → (G a b).isFin := fun a b ha hb => hf ⟨a, ha⟩ ⟨b, hb⟩
  have hne : ∀ k, k < n → FloatOps.eq (G k k) 0 ≠ true := fun k hk => fin_val_pos_ne (Cholesky.Rnd.diag_pos hG hfG ⟨k, hk⟩)
  obtain ⟨X, Y, s, y, x⟩ := Cholesky.Rnd.solve_ok hn hp G B
  refine ⟨_, s, fun j hj i => ?_⟩
  have hy : ∀ k, k < n → isZero (Y k j) := by
    intro k
    induction k using Nat.strong_induction_on with
    | _ k ih =>
      intro hk
      refine zeros_f64.div _ _ _ (sub_facc_zero ?_ fun t ht => ?_) (hfG k k hk hk) (hne k hk) (y k j hk j.2)
      · rw [ext_eq B hk j.2]; exact hj _
      · exact zeros_f64.mul_left _ _ (ih t ht (by omega)) (hfG k t hk (by omega))
  have hx : ∀ r k, k + r + 1 = n → isZero (X k j) := by
    intro r
    induction r using Nat.strong_induction_on with
    | _ r ih =>
      intro k hk
      have hkn : k < n := by omega
      refine zeros_f64.div _ _ _ (sub_facc_zero (hy k hkn) fun t ht => ?_) (hfG k k hkn hkn) (hne k hkn) (x k j hkn j.2)
      exact zeros_f64.mul_left _ _ (ih (r - 1 - t) (by omega) (k + 1 + t) (by omega)) (hfG _ k (by omega) hkn)
  exact hx (n - 1 - i) i (by omega)

end

section Examples

/-- A column of zeros (of both signs) beside another one. -/
example : (ofM !![dec 1 0, dec 2 0; dec 2 0, 0]).solve (ofM !![0, dec 5 0; -0, dec 2 0]) = .ok (some (ofM !![-0, 1; 0, dec 2 0])) := by
  decide +kernel

/-- An infinite factor spoils it: `∞ * 0` is NaN. -/
example : (ofM !![F64.inf false]).mul (ofM !![(0 : F64)]) = .ok (ofM !![F64.nan]) := by decide +kernel

end Examples

end LA.Props
