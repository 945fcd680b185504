import Verif.Props.RowOrder
import Verif.Proofs.LUSigns
import Verif.Proofs.RndChol2

/-!
# C94: changing signs

Changing the signs of rows, columns and right-hand sides changes the signs of the factors, the determinant, the solution and the inverse
as in exact arithmetic, and nothing else: not a single bit apart from the sign (the signs of zeros aside).
-/

namespace LA.Props
open LA F64
set_option linter.unusedSectionVars false

variable {m n p : Nat}

/-- `y` is `x` if `g = 1` and `-x` if `g = -1`; zeros may have either sign. -/
def Signed (g : ℤˣ) (x y : F64) : Prop := y = (if g = 1 then x else -x) ∨ F64.isZero x ∧ F64.isZero y

theorem signed_iff {g : ℤˣ} {x y : F64} : Signed g x y ↔ F64.SA g x y := by
  unfold Signed F64.SA F64.Agree
  have : F64.isZero (F64.sg g x) ↔ F64.isZero x := F64.isZero_sg
  rw [this, and_comm]
  rfl

/-- `B` is `A` with row `i` multiplied by `s i` and column `j` by `t j`; zeros may have either sign. -/
def SignedBy (s : Fin m → ℤˣ) (t : Fin n → ℤˣ) (A B : Matrix (Fin m) (Fin n) F64) : Prop := ∀ i j, Signed (s i * t j) (A i j) (B i j)

theorem facc_sub {g : ℤˣ} {z z' : F64} {f f' : Nat → F64} {n : Nat} (hz : SA g z z') (h : ∀ k, k < n → SA g (f k) (f' k)) :
    SA g (facc (· - ·) z f n) (facc (· - ·) z' f' n) := by
  induction n with
  | zero => exact hz
  | succ k ih => exact (ih fun i hi => h i (by omega)).sub (h k (by omega))

theorem sq1 (a : ℤˣ) : a * a = 1 := LU.Signs.unit_sq a

theorem rdiv_ok {x y z : F64} (h : RDiv.rdiv x y = .ok z) : z = F64.div x y := (Except.ok.inj h).symm

/-- C94: the two solutions. -/
theorem C94_solve (hn : 0 < n) (hp : 0 < p) {A A' : Matrix (Fin n) (Fin n) F64} {B B' : Matrix (Fin n) (Fin p) F64} {s t : Fin n → ℤˣ}
    {r : Fin p → ℤˣ} (hA : SignedBy s t A A') (hB : SignedBy s r B B') :
    (ofM A).solve (ofM B) = .ok none ∧ (ofM A').solve (ofM B') = .ok none ∨
    ∃ X X' : Matrix (Fin n) (Fin p) F64, (ofM A).solve (ofM B) = .ok (some (ofM X)) ∧ (ofM A').solve (ofM B') = .ok (some (ofM X')) ∧
      SignedBy t r X X' := by
  obtain ⟨G, G', σ, h1, h2, hu, hl⟩ := LU.Signs.new_sim hn hn fun i j => signed_iff.1 (hA i j)
  unfold Mat.solve
  rw [h1, h2, ok_bind, ok_bind]
  have hd : ∀ i : Fin n, (FloatOps.eq (G' i i) 0 : Bool) = FloatOps.eq (G i i) 0 := fun i => (hu i i le_rfl).eq_zero
  rcases LU.Rnd.solve_ok hn hp G (decide (Equiv.Perm.sign σ = 1)) σ B with ⟨a, b⟩ | ⟨a, X, Y, b, hY, hX⟩ <;>
    rcases LU.Rnd.solve_ok hn hp G' (decide (Equiv.Perm.sign σ = 1)) σ B' with ⟨c, d⟩ | ⟨c, X', Y', d, hY', hX'⟩
  · exact Or.inl ⟨b, d⟩
  · obtain ⟨i, hi⟩ := a; rw [← hd, c i] at hi; cases hi
  · obtain ⟨i, hi⟩ := c; rw [hd, a i] at hi; cases hi
  · refine Or.inr ⟨_, _, b, d, fun i j => signed_iff.2 ?_⟩
    have fy : ∀ k (hk : k < n), SA (s (σ ⟨k, hk⟩) * r j) (Y k j) (Y' k j) := by
      intro k
      induction k using Nat.strong_induction_on with
      | _ k ih =>
        intro hk
        have y1 := hY ⟨k, hk⟩ j
        have y2 := hY' ⟨k, hk⟩ j
        dsimp only at y1 y2
        rw [y1, y2]
        refine facc_sub (signed_iff.1 (hB _ j)) fun l hl' => ?_
        have := (ih l hl' (by omega)).mul (hl ⟨k, hk⟩ ⟨l, by omega⟩ ⟨l, by omega⟩ rfl hl')
        rwa [show s (σ ⟨l, by omega⟩) * r j * (s (σ ⟨k, hk⟩) * s (σ ⟨l, by omega⟩)) =
          (s (σ ⟨l, by omega⟩) * s (σ ⟨l, by omega⟩)) * (s (σ ⟨k, hk⟩) * r j) by ac_rfl, sq1, _root_.one_mul] at this
    have fx : ∀ k i (hi : i < n), i + k = n - 1 → SA (t ⟨i, hi⟩ * r j) (X i j) (X' i j) := by
      intro k
      induction k using Nat.strong_induction_on with
      | _ k ih =>
        intro i hi hk
        have x1 := rdiv_ok (hX ⟨i, hi⟩ j)
        have x2 := rdiv_ok (hX' ⟨i, hi⟩ j)
        dsimp only at x1 x2
        rw [x1, x2]
        have hg := hu ⟨i, hi⟩ ⟨i, hi⟩ le_rfl
        have hz : ¬ F64.isZero (G i i) := fun h => by have := a ⟨i, hi⟩; rw [F64.eq_zero_iff.2 h] at this; cases this
        have hacc : SA (s (σ ⟨i, hi⟩) * r j) (facc (· - ·) (Y i j) (fun s => X (n - 1 - s) j * G i (n - 1 - s)) (n - 1 - i))
            (facc (· - ·) (Y' i j) (fun s => X' (n - 1 - s) j * G' i (n - 1 - s)) (n - 1 - i)) := by
          refine facc_sub (fy i hi) fun l hl' => ?_
          have := (ih l (by omega) (n - 1 - l) (by omega) (by omega)).mul (hu ⟨i, hi⟩ ⟨n - 1 - l, by omega⟩ (by dsimp only; omega))
          rwa [show t ⟨n - 1 - l, by omega⟩ * r j * (s (σ ⟨i, hi⟩) * t ⟨n - 1 - l, by omega⟩) =
            (t ⟨n - 1 - l, by omega⟩ * t ⟨n - 1 - l, by omega⟩) * (s (σ ⟨i, hi⟩) * r j) by ac_rfl, sq1, _root_.one_mul] at this
        have := hacc.div hg hz
        rwa [show s (σ ⟨i, hi⟩) * r j * (s (σ ⟨i, hi⟩) * t ⟨i, hi⟩) = (s (σ ⟨i, hi⟩) * s (σ ⟨i, hi⟩)) * (t ⟨i, hi⟩ * r j) by ac_rfl, sq1,
          _root_.one_mul] at this
    exact fx (n - 1 - i) i i.2 (by omega)

/-- The inverse is the solution for the identity. -/
theorem inverse_eq (hn : 0 < n) (A : Matrix (Fin n) (Fin n) F64) : (ofM A).inverse = (ofM A).solve (ofM (1 : Matrix (Fin n) (Fin n) F64)) := by
  unfold Mat.inverse Mat.solve
  rw [ofM_cols A hn, ok_bind, ofM_rows, beq_self_eq_true, assert_true, ok_bind, C05_id_square]
  rfl

/-- C94: the two inverses: rows and columns exchange their roles. -/
theorem C94_inverse (hn : 0 < n) {A A' : Matrix (Fin n) (Fin n) F64} {s t : Fin n → ℤˣ} (hA : SignedBy s t A A') :
    (ofM A).inverse = .ok none ∧ (ofM A').inverse = .ok none ∨
    ∃ X X' : Matrix (Fin n) (Fin n) F64, (ofM A).inverse = .ok (some (ofM X)) ∧ (ofM A').inverse = .ok (some (ofM X')) ∧ SignedBy t s X X' := by
  rw [inverse_eq hn, inverse_eq hn]
  refine C94_solve hn hn hA fun i j => signed_iff.2 ?_
  by_cases h : i = j
  · subst h
    rw [sq1]
    exact SA.refl _
  · rw [Matrix.one_apply_ne h]
    exact SA.zero _ rfl rfl

/-- C94: the two decompositions: the same pivots; row `i` of `U` belongs to row `piv[i]` of the matrix. -/
theorem C94_factors (hm : 0 < m) (hn : 0 < n) {A A' : Matrix (Fin m) (Fin n) F64} {s : Fin m → ℤˣ} {t : Fin n → ℤˣ} (hA : SignedBy s t A A') :
    ∃ (x x' : LU F64) (σ : Equiv.Perm (Fin m)) (L L' : Matrix (Fin m) (Fin (min m n)) F64) (U U' : Matrix (Fin (min m n)) (Fin n) F64),
      LU.new (ofM A) = .ok x ∧ LU.new (ofM A') = .ok x' ∧ x.getPiv = (List.ofFn fun i => (σ i).1) ∧ x'.getPiv = x.getPiv ∧
      x.getL = .ok (ofM L) ∧ x'.getL = .ok (ofM L') ∧ x.getU = .ok (ofM U) ∧ x'.getU = .ok (ofM U') ∧
      SignedBy (fun i => s (σ i)) (fun k => s (σ (Fin.castLE (min_le_left m n) k))) L L' ∧
      SignedBy (fun k => s (σ (Fin.castLE (min_le_left m n) k))) t U U' := by
  obtain ⟨G, G', σ, h1, h2, hu, hl⟩ := LU.Signs.new_sim hm hn fun i j => signed_iff.1 (hA i j)
  refine ⟨_, _, σ, _, _, _, _, h1, h2, rfl, rfl, LU.Rnd.getL_ok G hm hn _ _, LU.Rnd.getL_ok G' hm hn _ _, LU.Rnd.getU_ok G hm hn _ _,
    LU.Rnd.getU_ok G' hm hn _ _, fun i k => signed_iff.2 ?_, fun k j => signed_iff.2 ?_⟩
  · unfold LU.Rnd.lowerA
    simp only [Matrix.of_apply]
    by_cases hk : k.1 < i.1
    · rw [if_pos hk, if_pos hk]
      exact hl i (Fin.castLE (min_le_left m n) k) (Fin.castLE (min_le_right m n) k) rfl hk
    · rw [if_neg hk, if_neg hk]
      by_cases hk' : i.1 = k.1
      · rw [if_pos hk']
        have : i = Fin.castLE (min_le_left m n) k := Fin.ext hk'
        rw [← this, sq1]
        exact SA.refl _
      · rw [if_neg hk']
        exact SA.zero _ rfl rfl
  · unfold LU.Rnd.upperA
    simp only [Matrix.of_apply]
    by_cases hk : k.1 ≤ j.1
    · rw [if_pos hk, if_pos hk]
      exact hu (Fin.castLE (min_le_left m n) k) j hk
    · rw [if_neg hk, if_neg hk]
      exact SA.zero _ rfl rfl

theorem facc_mul {g : ℤˣ} {z z' : F64} {f f' : Nat → F64} {e : Nat → ℤˣ} {n : Nat} (hz : SA g z z') (h : ∀ k, k < n → SA (e k) (f k) (f' k)) :
    SA (g * ∏ k ∈ Finset.range n, e k) (facc (· * ·) z f n) (facc (· * ·) z' f' n) := by
  induction n with
  | zero => rw [Finset.prod_range_zero, _root_.mul_one]; exact hz
  | succ k ih =>
    rw [Finset.prod_range_succ, ← mul_assoc]
    exact (ih fun i hi => h i (by omega)).mul (h k (by omega))

/-- C94: the two determinants. -/
theorem C94_det (hn : 0 < n) {A A' : Matrix (Fin n) (Fin n) F64} {s t : Fin n → ℤˣ} (hA : SignedBy s t A A') :
    ∃ d d', (ofM A).det = .ok d ∧ (ofM A').det = .ok d' ∧ Signed ((∏ i, s i) * ∏ j, t j) d d' := by
  obtain ⟨G, G', σ, h1, h2, hu, -⟩ := LU.Signs.new_sim hn hn fun i j => signed_iff.1 (hA i j)
  unfold Mat.det
  simp only [ofM_cols _ hn, ofM_rows, ok_bind, beq_self_eq_true, assert_true]
  rw [h1, h2, ok_bind, ok_bind, det_packed hn, det_packed hn]
  refine ⟨_, _, rfl, rfl, signed_iff.2 ?_⟩
  have := facc_mul (n := n) (e := fun k => if h : k < n then s (σ ⟨k, h⟩) * t ⟨k, h⟩ else 1) (f := fun k => G k k) (f' := fun k => G' k k)
    (SA.refl (if decide (Equiv.Perm.sign σ = 1) = true then (1 : F64) else -1))
    (fun k hk => by rw [dif_pos hk]; exact hu ⟨k, hk⟩ ⟨k, hk⟩ le_rfl)
  rw [_root_.one_mul, Finset.prod_range] at this
  simp only [Fin.is_lt, dif_pos] at this
  rw [Finset.prod_mul_distrib, Equiv.prod_comp σ s] at this
  exact this

theorem signed_neg (A : Matrix (Fin m) (Fin n) F64) : SignedBy (fun _ => -1) (fun _ => 1) A (-A) := fun i j => Or.inl (by
  rw [_root_.mul_one]; exact (if_neg (by decide : ¬ (-1 : ℤˣ) = 1)).symm)

theorem signed_neg' (A : Matrix (Fin m) (Fin n) F64) : SignedBy (fun _ => 1) (fun _ => -1) A (-A) := fun i j => Or.inl (by
  rw [_root_.one_mul]; exact (if_neg (by decide : ¬ (-1 : ℤˣ) = 1)).symm)

theorem signed_refl (s : ℤˣ) (A : Matrix (Fin m) (Fin n) F64) : SignedBy (fun _ => s) (fun _ => s) A A := fun i j => Or.inl (by
  rw [if_pos (sq1 s)])

/-- C94: negating the matrix, the right-hand side, or both. -/
theorem C94_neg (hn : 0 < n) (hp : 0 < p) (A : Matrix (Fin n) (Fin n) F64) (B : Matrix (Fin n) (Fin p) F64) :
    ((ofM A).solve (ofM B) = .ok none ∧ (do let a ← (ofM A).neg; a.solve (ofM B)) = .ok none ∧
      (do let b ← (ofM B).neg; (ofM A).solve b) = .ok none ∧ (do let a ← (ofM A).neg; let b ← (ofM B).neg; a.solve b) = .ok none) ∨
    ∃ X X1 X2 X3 : Matrix (Fin n) (Fin p) F64, (ofM A).solve (ofM B) = .ok (some (ofM X)) ∧
      (do let a ← (ofM A).neg; a.solve (ofM B)) = .ok (some (ofM X1)) ∧ (do let b ← (ofM B).neg; (ofM A).solve b) = .ok (some (ofM X2)) ∧
      (do let a ← (ofM A).neg; let b ← (ofM B).neg; a.solve b) = .ok (some (ofM X3)) ∧
      ∀ i j, Signed (-1) (X i j) (X1 i j) ∧ Signed (-1) (X i j) (X2 i j) ∧ Signed 1 (X i j) (X3 i j) := by
  have e1 : (do let a ← (ofM A).neg; a.solve (ofM B)) = (ofM (-A)).solve (ofM B) := by rw [C08_neg]; rfl
  have e2 : (do let b ← (ofM B).neg; (ofM A).solve b) = (ofM A).solve (ofM (-B)) := by rw [C08_neg]; rfl
  have e3 : (do let a ← (ofM A).neg; let b ← (ofM B).neg; a.solve b) = (ofM (-A)).solve (ofM (-B)) := by rw [C08_neg, C08_neg]; rfl
  rw [e1, e2, e3]
  have h1 := C94_solve hn hp (signed_neg' A) (signed_refl 1 B)
  have h2 := C94_solve hn hp (signed_refl (-1) A) (signed_neg B)
  have h3 := C94_solve hn hp (signed_neg A) (signed_neg B)
  rcases h1 with ⟨a, b⟩ | ⟨X, X1, a, b, h1⟩
  · rcases h2 with ⟨-, c⟩ | ⟨_, _, c, -⟩
    · rcases h3 with ⟨-, d⟩ | ⟨_, _, d, -⟩
      · exact Or.inl ⟨a, b, c, d⟩
      · rw [a] at d; simp at d
    · rw [a] at c; simp at c
  · rcases h2 with ⟨c, -⟩ | ⟨X', X2, c, d, h2⟩
    · rw [a] at c; simp at c
    · rcases h3 with ⟨e, -⟩ | ⟨X'', X3, e, f, h3⟩
      · rw [a] at e; simp at e
      · have e1 : X' = X := ofM_inj (by rw [a] at c; simpa using c.symm)
        have e2 : X'' = X := ofM_inj (by rw [a] at e; simpa using e.symm)
        subst e1 e2
        exact Or.inr ⟨_, X1, X2, X3, a, b, d, f, fun i j => ⟨h1 i j, h2 i j, h3 i j⟩⟩

/-! ## Cholesky -/

theorem SA_eq {g : ℤˣ} {x y x' y' : F64} (hx : SA g x x') (hy : SA g y y') : (FloatOps.eq x' y' : Bool) = FloatOps.eq x y := by
  have hz : ∀ (s t : Bool) (z : F64), (FloatOps.eq (F64.zero s) z : Bool) = FloatOps.eq (F64.zero t) z := by
    intro s t z
    have h0 : ∀ s, sgn s 0 = 0 := by intro s; cases s <;> rfl
    rcases z with _ | u | ⟨u, a, ha⟩
    · rfl
    · cases s <;> cases t <;> rfl
    · show decide (sgn s 0 = sgn u a) = decide (sgn t 0 = sgn u a)
      rw [h0, h0]
  have hc : ∀ x y : F64, (FloatOps.eq x y : Bool) = FloatOps.eq y x := by
    intro x y
    rcases x with _ | s | ⟨s, a, ha⟩ <;> rcases y with _ | t | ⟨t, b, hb⟩ <;> first | rfl | exact decide_eq_decide.2 eq_comm
  have ha : ∀ {x x' y : F64}, Agree x x' → (FloatOps.eq x y : Bool) = FloatOps.eq x' y := by
    rintro x x' y (rfl | ⟨h1, h2⟩)
    · rfl
    · obtain ⟨s, rfl⟩ := isZero_iff.1 h1
      obtain ⟨t, rfl⟩ := isZero_iff.1 h2
      exact hz s t y
  have hn : ∀ x y : F64, (FloatOps.eq (-x) (-y) : Bool) = FloatOps.eq x y := by
    have hs : ∀ s a, sgn (!s) a = -sgn s a := by intro s a; cases s <;> simp [sgn]
    intro x y
    rcases x with _ | s | ⟨s, a, ha⟩ <;> rcases y with _ | t | ⟨t, b, hb⟩
    · rfl
    · rfl
    · rfl
    · rfl
    · cases s <;> cases t <;> rfl
    · cases s <;> rfl
    · rfl
    · cases t <;> rfl
    · show decide (sgn (!s) a = sgn (!t) b) = decide (sgn s a = sgn t b)
      rw [hs, hs, decide_eq_decide, neg_inj]
  rw [ha hx, hc, ha hy, hc]
  unfold F64.sg
  split
  · rfl
  · exact hn x y

theorem fdot_SA {g : ℤˣ} {x y x' y' : Nat → F64} {n : Nat} (h : ∀ k, k < n → SA g (x k * y k) (x' k * y' k)) :
    SA g (fdot x y n) (fdot x' y' n) := by
  unfold fdot
  induction n with
  | zero => exact SA.zero _ rfl rfl
  | succ k ih => exact (ih fun i hi => h i (by omega)).add (h k (by omega))

theorem SA_one {x y : F64} (h : SA 1 x y) (h0 : ¬ F64.isZero x) : y = x := by
  rcases h with h | ⟨-, h⟩
  · exact h.trans (if_pos rfl)
  · exact absurd (F64.isZero_sg.1 h) h0

theorem not_le_zero {x : F64} (h : (FloatOps.le x 0 : Bool) = false) : ¬ F64.isZero x := by
  intro hx
  obtain ⟨s, rfl⟩ := isZero_iff.1 hx
  cases s <;> revert h <;> decide

theorem SA_le {x y : F64} (h : SA 1 x y) : (FloatOps.le y 0 : Bool) = FloatOps.le x 0 := by
  by_cases h0 : F64.isZero x
  · have h1 := h.isZero.2 h0
    obtain ⟨s, rfl⟩ := isZero_iff.1 h0
    obtain ⟨t, rfl⟩ := isZero_iff.1 h1
    cases s <;> cases t <;> decide
  · rw [SA_one h h0]

/-- The root of a number that is not at most zero is not zero. -/
theorem sqrt_ne {x z : F64} (h : FloatOps.sqrt x = .ok z) (h0 : (FloatOps.le x 0 : Bool) = false) : ¬ F64.isZero z := by
  intro hz
  obtain ⟨s, rfl⟩ := isZero_iff.1 hz
  have hf : Fp.fin (F64.zero s) := by change (F64.zero s).isFin; cases s <;> decide
  obtain ⟨h1, h2, h3, -, h4⟩ := Fp.sqrt x _ h hf
  have hv : Fp.val (F64.zero s) = 0 := by
    change (F64.zero s).toReal = 0
    unfold F64.zero F64.toReal
    cases s <;> simp [sgn]
  rw [hv, zero_sub, _root_.abs_neg, MulZeroClass.mul_zero] at h4
  have h5 : Real.sqrt (Fp.val x) = 0 := abs_nonpos_iff.1 h4
  rw [Real.sqrt_eq_zero h2] at h5
  have := (Fp.le x 0 h1 (Fp.zero (α := F64)).1).2 (by rw [(Fp.zero (α := F64)).2, h5])
  rw [h0] at this
  cases this

open Cholesky.Rnd in
theorem part_sim {A A' L L' : Nat → Nat → F64} {s : Nat → ℤˣ} {j : Nat} (hA : ∀ i k, i < n → k < n → SA (s i * s k) (A i k) (A' i k)) (hj : j ≤ n)
    (h : ∀ i k, i ≤ j → i < n → k < i → RDiv.rdiv (A i k - fdot (fun t => L k t) (fun t => L i t) k) (L k k) = .ok (L i k))
    (h' : ∀ i k, i ≤ j → i < n → k < i → RDiv.rdiv (A' i k - fdot (fun t => L' k t) (fun t => L' i t) k) (L' k k) = .ok (L' i k))
    (d : ∀ i, i < j → FloatOps.sqrt (A i i - fdot (fun t => L i t) (fun t => L i t) i) = .ok (L i i) ∧
      FloatOps.le (A i i - fdot (fun t => L i t) (fun t => L i t) i) 0 = false)
    (d' : ∀ i, i < j → FloatOps.sqrt (A' i i - fdot (fun t => L' i t) (fun t => L' i t) i) = .ok (L' i i)) :
    ∀ i k, i ≤ j → i < n → k ≤ i → k < j → SA (s i * s k) (L i k) (L' i k) := by
  intro i
  induction i using Nat.strong_induction_on with
  | _ i ihi =>
    intro k
    induction k using Nat.strong_induction_on with
    | _ k ihk =>
      intro hi hin hk hkj
      rcases Nat.lt_or_ge k i with hki | hki
      · rw [rdiv_ok (h i k hi hin hki), rdiv_ok (h' i k hi hin hki)]
        have hd := ihi k hki k (by omega) (by omega) le_rfl hkj
        have hw : SA (s i * s k) (A i k - fdot (fun t => L k t) (fun t => L i t) k) (A' i k - fdot (fun t => L' k t) (fun t => L' i t) k) := by
          refine (hA i k (by omega) (by omega)).sub (fdot_SA fun t ht => ?_)
          have := (ihi k hki t (by omega) (by omega) ht.le (by omega)).mul (ihk t ht hi hin (by omega) (by omega))
          rwa [show s k * s t * (s i * s t) = (s t * s t) * (s i * s k) by ac_rfl, sq1, _root_.one_mul] at this
        have := hw.div hd (sqrt_ne (d k hkj).1 (d k hkj).2)
        rwa [sq1, _root_.mul_one] at this
      · obtain rfl : k = i := by omega
        have hw : SA 1 (A k k - fdot (fun t => L k t) (fun t => L k t) k) (A' k k - fdot (fun t => L' k t) (fun t => L' k t) k) := by
          have := hA k k (by omega) (by omega)
          rw [sq1] at this
          refine this.sub (fdot_SA fun t ht => ?_)
          have := (ihk t ht hi hin (by omega) (by omega)).mul (ihk t ht hi hin (by omega) (by omega))
          rwa [sq1] at this
        have e := SA_one hw (not_le_zero (d k hkj).2)
        have e1 := d' k hkj
        rw [e, (d k hkj).1] at e1
        rw [sq1, ← Except.ok.inj e1]
        exact SA.refl _

open Cholesky.Rnd in
theorem stop_sim {A A' L : Nat → Nat → F64} {s : Nat → ℤˣ} (hA : ∀ i k, i < n → k < n → SA (s i * s k) (A i k) (A' i k)) (h : Part n A L n)
    (h' : Stop n A') : False := by
  rcases h' with ⟨i, k, hi, hk, he⟩ | ⟨j, L', hj, hp, hr, hl⟩
  · have := h.symm i k hi hk
    have h2 := hA k i (by omega) hi
    rw [_root_.mul_comm] at h2
    rw [SA_eq h2 (hA i k hi (by omega)), this] at he
    cases he
  · have hs := part_sim hA hj.le (fun i k hi _ hk => h.lo i k (by omega) hk) (L' := L') (fun i k hi _ hk => by
      rcases Nat.lt_or_ge i j with hij | hij
      · exact hp.lo i k hij hk
      · obtain rfl : i = j := by omega
        exact hr k hk) (fun i hi => h.dg i (by omega)) (fun i hi => (hp.dg i hi).1) j
    have hw : SA 1 (A j j - fdot (fun t => L j t) (fun t => L j t) j) (A' j j - fdot (fun t => L' j t) (fun t => L' j t) j) := by
      have := hA j j hj hj
      rw [sq1] at this
      refine this.sub (fdot_SA fun t ht => ?_)
      have := (hs t le_rfl hj ht.le ht).mul (hs t le_rfl hj ht.le ht)
      rwa [sq1] at this
    rw [SA_le hw, (h.dg j hj).2] at hl
    cases hl

open Cholesky.Rnd in
/-- C94: `CholeskyDecomposition::new` on `S A S`. -/
theorem C94_cholesky (hn : 0 < n) {A A' : Matrix (Fin n) (Fin n) F64} {s : Fin n → ℤˣ} (hA : SignedBy s s A A') :
    Cholesky.new (ofM A) = .ok none ∧ Cholesky.new (ofM A') = .ok none ∨
    ∃ L L' : Matrix (Fin n) (Fin n) F64, Cholesky.new (ofM A) = .ok (some ⟨ofM L⟩) ∧ Cholesky.new (ofM A') = .ok (some ⟨ofM L'⟩) ∧
      SignedBy s s L L' := by
  let s' : Nat → ℤˣ := fun i => if h : i < n then s ⟨i, h⟩ else 1
  have hs' : ∀ i : Fin n, s' i = s i := fun i => dif_pos i.2
  have h1 : ∀ i k, i < n → k < n → SA (s' i * s' k) (ext A i k) (ext A' i k) := by
    intro i k hi hk
    rw [ext_eq A hi hk, ext_eq A' hi hk, hs' ⟨i, hi⟩, hs' ⟨k, hk⟩]
    exact signed_iff.1 (hA _ _)
  have h2 : ∀ i k, i < n → k < n → SA (s' i * s' k) (ext A' i k) (ext A i k) := fun i k hi hk => (h1 i k hi hk).symm
  obtain ⟨o, ho, hp⟩ := new_post hn A
  obtain ⟨o', ho', hp'⟩ := new_post hn A'
  rcases o with _ | c <;> rcases o' with _ | c'
  · exact Or.inl ⟨ho, ho'⟩
  · obtain ⟨L', -, hL'⟩ := hp'
    exact (stop_sim h2 hL' hp).elim
  · obtain ⟨L, -, hL⟩ := hp
    exact (stop_sim h1 hL hp').elim
  · obtain ⟨L, rfl, hL⟩ := hp
    obtain ⟨L', rfl, hL'⟩ := hp'
    refine Or.inr ⟨_, _, ho, ho', fun i k => signed_iff.2 ?_⟩
    rw [← hs', ← hs']
    show SA _ (L i k) (L' i k)
    have hi := i.2
    have hk := k.2
    rcases Nat.lt_or_ge i k with hik | hik
    · rw [hL.zero i k hi hik, hL'.zero i k hi hik]
      exact SA.zero _ rfl rfl
    · exact part_sim h1 le_rfl (fun i k _ hi hk => hL.lo i k hi hk) (fun i k _ hi hk => hL'.lo i k hi hk) hL.dg (fun i hi => (hL'.dg i hi).1)
        i k hi.le hi hik hk

open Cholesky.Rnd in
/-- C94: Cholesky decomposition and solution for `S A S`. -/
theorem C94_cholesky_solve (hn : 0 < n) (hp : 0 < p) {A A' : Matrix (Fin n) (Fin n) F64} {B B' : Matrix (Fin n) (Fin p) F64} {s : Fin n → ℤˣ}
    {r : Fin p → ℤˣ} (hA : SignedBy s s A A') (hB : SignedBy s r B B') {c c' : Cholesky F64} (hc : Cholesky.new (ofM A) = .ok (some c))
    (hc' : Cholesky.new (ofM A') = .ok (some c')) :
    ∃ X X' : Matrix (Fin n) (Fin p) F64, c.solve (ofM B) = .ok (ofM X) ∧ c'.solve (ofM B') = .ok (ofM X') ∧ SignedBy s r X X' := by
  obtain ⟨o, ho, hp1⟩ := new_post hn A
  rw [hc] at ho
  obtain rfl := Except.ok.inj ho
  obtain ⟨L, rfl, hL⟩ := hp1
  obtain ⟨o', ho', hp1'⟩ := new_post hn A'
  rw [hc'] at ho'
  obtain rfl := Except.ok.inj ho'
  obtain ⟨L', rfl, hL'⟩ := hp1'
  have hLL : ∀ i k : Fin n, SA (s i * s k) (L i k) (L' i k) := by
    rcases C94_cholesky hn hA with ⟨a, -⟩ | ⟨M, M', a, b, h⟩
    · rw [hc] at a; simp at a
    · have e1 := ofM_inj (congrArg Cholesky.l (Option.some.inj (Except.ok.inj (hc.symm.trans a))))
      have e2 := ofM_inj (congrArg Cholesky.l (Option.some.inj (Except.ok.inj (hc'.symm.trans b))))
      intro i k
      have := signed_iff.1 (h i k)
      rw [← e1, ← e2] at this
      exact this
  have hz : ∀ i, i < n → ¬ F64.isZero (L i i) := fun i hi => sqrt_ne (hL.dg i hi).1 (hL.dg i hi).2
  obtain ⟨X, Y, b, hY, hX⟩ := Cholesky.Rnd.solve_ok hn hp L B
  obtain ⟨X', Y', b', hY', hX'⟩ := Cholesky.Rnd.solve_ok hn hp L' B'
  refine ⟨_, _, b, b', fun i j => signed_iff.2 ?_⟩
  show SA _ (X i j) (X' i j)
  have fy : ∀ k (hk : k < n), SA (s ⟨k, hk⟩ * r j) (Y k j) (Y' k j) := by
    intro k
    induction k using Nat.strong_induction_on with
    | _ k ih =>
      intro hk
      rw [rdiv_ok (hY k j hk j.2), rdiv_ok (hY' k j hk j.2)]
      have hacc : SA (s ⟨k, hk⟩ * r j) (facc (· - ·) (ext B k j) (fun t => Y t j * L k t) k) (facc (· - ·) (ext B' k j) (fun t => Y' t j * L' k t) k) := by
        refine facc_sub ?_ fun l hl => ?_
        · rw [ext_eq B hk j.2, ext_eq B' hk j.2]
          exact signed_iff.1 (hB _ j)
        · have := (ih l hl (by omega)).mul (hLL ⟨k, hk⟩ ⟨l, by omega⟩)
          rwa [show s ⟨l, by omega⟩ * r j * (s ⟨k, hk⟩ * s ⟨l, by omega⟩) = (s ⟨l, by omega⟩ * s ⟨l, by omega⟩) * (s ⟨k, hk⟩ * r j) by ac_rfl, sq1,
            _root_.one_mul] at this
      have := hacc.div (hLL ⟨k, hk⟩ ⟨k, hk⟩) (hz k hk)
      rwa [sq1, _root_.mul_one] at this
  have fx : ∀ k i (hi : i < n), i + k = n - 1 → SA (s ⟨i, hi⟩ * r j) (X i j) (X' i j) := by
    intro k
    induction k using Nat.strong_induction_on with
    | _ k ih =>
      intro i hi hk
      rw [rdiv_ok (hX i j hi j.2), rdiv_ok (hX' i j hi j.2)]
      have hacc : SA (s ⟨i, hi⟩ * r j) (facc (· - ·) (Y i j) (fun s => X (i + 1 + s) j * L (i + 1 + s) i) (n - (i + 1)))
          (facc (· - ·) (Y' i j) (fun s => X' (i + 1 + s) j * L' (i + 1 + s) i) (n - (i + 1))) := by
        refine facc_sub (fy i hi) fun l hl => ?_
        have := (ih (n - 1 - (i + 1 + l)) (by omega) (i + 1 + l) (by omega) (by omega)).mul (hLL ⟨i + 1 + l, by omega⟩ ⟨i, hi⟩)
        rwa [show s ⟨i + 1 + l, by omega⟩ * r j * (s ⟨i + 1 + l, by omega⟩ * s ⟨i, hi⟩) =
          (s ⟨i + 1 + l, by omega⟩ * s ⟨i + 1 + l, by omega⟩) * (s ⟨i, hi⟩ * r j) by ac_rfl, sq1, _root_.one_mul] at this
      have := hacc.div (hLL ⟨i, hi⟩ ⟨i, hi⟩) (hz i hi)
      rwa [sq1, _root_.mul_one] at this
  exact fx (n - 1 - i) i i.2 (by omega)

/-- A rounded solution, and what changing the signs of the second row and the first column does to it. -/
example : ∃ x y : F64, (ofM !![dec 1 0, dec 2 0; dec 3 0, dec 1 0]).solve (ofM !![dec 1 0; dec 1 0]) = .ok (some (ofM !![x; y])) ∧
    (ofM !![-dec 1 0, dec 2 0; dec 3 0, -dec 1 0]).solve (ofM !![dec 1 0; -dec 1 0]) = .ok (some (ofM !![-x; y])) := by
  refine ⟨F64.ofRat 7205759403792793 (2 ^ 55), F64.ofRat 2 5, ?_, ?_⟩ <;> decide +kernel

/-- The sign of a zero is not always changed: `x + y = 1`, `x + 2y = 1` has the solution `(1, +0)`, and with `-1` on the right `(-1, +0)`. -/
example : (ofM !![dec 1 0, dec 1 0; dec 1 0, dec 2 0]).solve (ofM !![dec 1 0; dec 1 0]) = .ok (some (ofM !![dec 1 0; F64.zero false])) ∧
    (ofM !![dec 1 0, dec 1 0; dec 1 0, dec 2 0]).solve (ofM !![-dec 1 0; -dec 1 0]) = .ok (some (ofM !![-dec 1 0; F64.zero false])) := by
  refine ⟨?_, ?_⟩ <;> decide +kernel

/-- A matrix that has a Cholesky factor, and the same with the signs of the second row and column changed. -/
example : SignedBy ![1, -1] ![1, -1] !![dec 4 0, dec 1 0; dec 1 0, dec 3 0] !![dec 4 0, -dec 1 0; -dec 1 0, dec 3 0] ∧
    ∃ l : F64, l.isFin ∧ Cholesky.new (ofM !![dec 4 0, dec 1 0; dec 1 0, dec 3 0]) = .ok (some ⟨ofM !![dec 2 0, dec 0 0; dec 5 (-1), l]⟩) ∧
    Cholesky.new (ofM !![dec 4 0, -dec 1 0; -dec 1 0, dec 3 0]) = .ok (some ⟨ofM !![dec 2 0, dec 0 0; -dec 5 (-1), l]⟩) := by
  refine ⟨fun i j => Or.inl ?_, F64.ofRat 1867093771246541 (2 ^ 50), by decide +kernel, by decide +kernel, by decide +kernel⟩
  fin_cases i <;> fin_cases j <;> decide +kernel

end LA.Props
