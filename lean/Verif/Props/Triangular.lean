import Verif.Proofs.EigDiag2
import Verif.Props.IEEE
import Verif.Props.EigenGen
import Mathlib.LinearAlgebra.Matrix.Block

/-!
# C89: the eigenvalues of an upper triangular matrix are read off its diagonal

The QR iteration is unbounded in general (C49, C67).  On an upper triangular matrix that is not diagonal it is over after `n` steps,
with the diagonal as eigenvalues, bit for bit.
-/

namespace LA.Props
open LA
open Matrix (of)
set_option linter.unusedSectionVars false

variable {n : Nat}

/-- Zero below the diagonal, and not diagonal: some entry above the diagonal is not zero. -/
structure UpperNotDiagonal (A : Matrix (Fin n) (Fin n) ℝ) : Prop where
  low : ∀ i j, j < i → A i j = 0
  up : ∃ i j, i < j ∧ A i j ≠ 0

theorem UpperNotDiagonal.not_symm {A : Matrix (Fin n) (Fin n) ℝ} (h : UpperNotDiagonal A) : ¬ A.IsSymm := by
  obtain ⟨i, j, hij, hne⟩ := h.up
  intro hs
  exact hne (by rw [← hs.apply i j]; exact h.low j i hij)

theorem UpperNotDiagonal.pos {A : Matrix (Fin n) (Fin n) ℝ} (h : UpperNotDiagonal A) : 0 < n := by
  obtain ⟨i, -⟩ := h.up
  exact i.pos

theorem ofFn_zero (n : Nat) : List.replicate n (0 : ℝ) = List.ofFn fun _ : Fin n => (0 : ℝ) := by rw [List.ofFn_const]

/-- C89 over the reals: on an upper triangular matrix that is not diagonal `EigenDecomposition::new` returns after at most `n` steps of the
QR iteration.  The real parts are the diagonal in its order, the imaginary parts are zero, `D` is the diagonal matrix of `A`, `V` is
upper triangular and invertible.  A column of `V` whose eigenvalue does not occur earlier on the diagonal is an exact eigenvector; any
other column is one up to `2⁻⁵²` times the sum of the moduli of the entries of `A`, relative to the entry. -/
theorem C89_real (A : Matrix (Fin n) (Fin n) ℝ) (hA : UpperNotDiagonal A) : ∃ (x : Eigen ℝ) (V : Matrix (Fin n) (Fin n) ℝ),
    (∀ fuel, n ≤ fuel → Eigen.new fuel (ofM A) = .ok x) ∧ x.d = List.ofFn (fun i => A i i) ∧ x.e = List.replicate n 0 ∧ x.v = ofM V ∧
    x.getD = .ok (ofM (Matrix.diagonal fun i => A i i)) ∧ (∀ i j, j < i → V i j = 0) ∧ IsUnit V ∧
    (∀ j, (∀ k, k < j → A k k ≠ A j j) → ∀ i, (A * V) i j = (V * Matrix.diagonal fun i => A i i) i j) ∧
    ∀ i j, |(A * V) i j - (V * Matrix.diagonal fun i => A i i) i j| ≤ 2⁻¹ ^ 52 * (∑ a, ∑ b, |A a b|) * |V i j| := by
  have hn := hA.pos
  obtain ⟨V, h1, h2, h3, h4⟩ := Eigen.new_tri_real hn A hA.low hA.not_symm n le_rfl
  refine ⟨⟨n, List.ofFn fun i => A i i, List.replicate n 0, ofM V⟩, V, fun fuel hf => ?_, rfl, rfl, rfl, ?_, h2, ?_, fun j hj i => ?_, fun i j => ?_⟩
  · have hb := (C65_budget (ofM A)).2.2.2 n fuel hf (by show Eigen.new n (ofM A) ≠ _; rw [h1]; simp)
    exact hb.trans h1
  · have := Eigen.getD_post hn (d := fun i => ext A i i) (e := fun _ => 0) (ofM V) (fun i _ h => absurd h (lt_irrefl _)) (fun i _ h => absurd h (lt_irrefl _))
    simp only [ext_fin] at this
    rw [ofFn_zero, this]
    congr 2
    ext a b
    show Eigen.dTab (fun i => ext A i i) (fun _ => 0) a.1 b.1 = _
    rw [Matrix.diagonal_apply]
    unfold Eigen.dTab
    by_cases hab : a = b
    · subst hab; simp [ext_fin]
    · have : a.1 ≠ b.1 := fun h => hab (Fin.ext h)
      simp [hab, this]
  · rw [Matrix.isUnit_iff_isUnit_det, Matrix.det_of_upperTriangular fun i j hij => h2 i j hij, isUnit_iff_ne_zero]
    exact Finset.prod_ne_zero_iff.2 fun i _ => h3 i
  · have := h4 i j
    rw [if_neg (by rintro ⟨k, hk, e⟩; exact hj k hk e), zero_mul] at this
    rw [Matrix.mul_diagonal]
    exact sub_eq_zero.1 (abs_nonpos_iff.1 this)
  · rw [Matrix.mul_diagonal]
    refine (h4 i j).trans (mul_le_mul_of_nonneg_right ?_ (abs_nonneg _))
    have hs : 0 ≤ ∑ a, ∑ b, |A a b| := Finset.sum_nonneg fun _ _ => Finset.sum_nonneg fun _ _ => abs_nonneg _
    have he : (Eigen.eps : ℝ) = 2⁻¹ ^ 52 := by rw [Eigen.eps_val]; norm_num
    rw [← he]
    split
    · exact le_rfl
    · exact mul_nonneg Eigen.eps_pos.le hs

/-- C89, exact: when the diagonal has no repetition, `A = V·D·V⁻¹`. -/
theorem C89_distinct (A : Matrix (Fin n) (Fin n) ℝ) (hA : UpperNotDiagonal A) (hd : ∀ i j, A i i = A j j → i = j) :
    ∃ (x : Eigen ℝ) (V D : Matrix (Fin n) (Fin n) ℝ), (∀ fuel, n ≤ fuel → Eigen.new fuel (ofM A) = .ok x) ∧ x.v = ofM V ∧ x.getD = .ok (ofM D) ∧
      IsUnit V ∧ A = V * D * V⁻¹ := by
  obtain ⟨x, V, h1, -, -, h2, h3, -, h4, h5, -⟩ := C89_real A hA
  refine ⟨x, V, _, h1, h2, h3, h4, ?_⟩
  have : A * V = V * Matrix.diagonal fun i => A i i := by
    ext i j
    exact h5 j (fun k hk e => hk.ne (hd k j e)) i
  rw [← this, Matrix.mul_assoc, Matrix.mul_nonsing_inv _ ((Matrix.isUnit_iff_isUnit_det _).1 h4), Matrix.mul_one]

/-- A zero, a normal number or an infinity: neither NaN nor smaller than `2^-1022` (a finite double is `k · 2^-1074`). -/
def NotSubnormal : F64 → Prop
  | .nan => False
  | .inf _ => True
  | .fin _ k _ => k = 0 ∨ 2 ^ 52 ≤ k

instance (x : F64) : Decidable (NotSubnormal x) := by
  cases x <;> unfold NotSubnormal <;> infer_instance

instance (x : F64) : Decidable x.isZero := by
  cases x <;> unfold F64.isZero <;> infer_instance

theorem NotSubnormal.abs {x : F64} (h : NotSubnormal x) : F64.isZero x ∨ F64.Normal (FloatOps.abs x) := by
  rcases x with _ | s | ⟨s, k, hk⟩
  · exact h.elim
  · exact Or.inr (Or.inl rfl)
  · rcases h with h | h
    · exact Or.inl h
    · exact Or.inr (Or.inr ⟨k, hk, rfl, h⟩)

theorem zero_abs {x : F64} (h : F64.isZero x) : FloatOps.abs x = (0 : F64) ∧ FloatOps.eq x (0 : F64) = true := by
  obtain ⟨s, rfl⟩ := F64.isZero_iff.1 h
  cases s <;> decide +kernel

theorem eq_zero {x : F64} (h : FloatOps.eq x (0 : F64) = true) : F64.isZero x := by
  rcases x with _ | s | ⟨s, k, hk⟩
  · cases h
  · cases s <;> exact absurd h (by decide +kernel)
  · have h : decide (F64.sgn s k = F64.sgn false 0) = true := h
    show k = 0
    cases s <;> simpa [F64.sgn] using h

/-- C89 over binary64: on an upper triangular matrix of `f64`s with no NaN and no subnormal number on or above the diagonal, and with
something other than zero above it (infinities allowed), `EigenDecomposition::new` returns after at most `n` steps, the imaginary parts
are `+0`, and the real parts are the diagonal, bit for bit (except that `-0` becomes `+0`). -/
theorem C89_f64 (A : Matrix (Fin n) (Fin n) F64) (hlow : ∀ i j, j < i → (A i j).isZero) (hs : ∀ i j, i ≤ j → NotSubnormal (A i j))
    (hup : ∃ i j, i < j ∧ ¬ (A i j).isZero) : ∃ x : Eigen F64, (∀ fuel, n ≤ fuel → Eigen.new fuel (ofM A) = .ok x) ∧
      x.d = List.ofFn (fun i => A i i + 0) ∧ (∀ i, F64.Agree (A i i + 0) (A i i)) ∧ x.e = List.replicate n 0 ∧ Shape n n x.v ∧
      x.getD = .ok (ofM (Matrix.diagonal fun i => A i i + 0)) := by
  obtain ⟨a, b, hab, hne⟩ := hup
  have hn : 0 < n := a.pos
  have hF : Eigen.TriT n (ext A) := by
    refine ⟨fun i j hij hi => ?_, fun i j hij hj => ?_⟩
    · rw [ext_eq A hi (by omega)]
      exact zero_abs (hlow _ _ hij)
    · rw [ext_eq A (by omega) hj]
      rcases (hs ⟨i, by omega⟩ ⟨j, hj⟩ hij).abs with h | h
      · exact Or.inl (zero_abs h).1
      · exact Or.inr h
  have hS : ¬ Eigen.TestsSymm A le_rfl := by
    intro h
    have h1 := h a b a.2 b.2
    obtain ⟨s, e⟩ := F64.isZero_iff.1 (hlow b a hab)
    have h2 : FloatOps.eq (A a b) (F64.zero s) = true := by rw [← e]; exact h1
    refine hne (eq_zero ?_)
    cases s
    · exact h2
    · rcases hx : A a b with _ | s | ⟨s, k, hk⟩ <;> rw [hx] at h2
      · cases h2
      · cases s <;> exact absurd h2 (by decide +kernel)
      · have h2 : decide (F64.sgn s k = F64.sgn true 0) = true := h2
        show decide (F64.sgn s k = F64.sgn false 0) = true
        simpa [F64.sgn] using h2
  have key := Eigen.new_tri (E := fun _ => False) hn A hF hS ⟨a, b, hab.le, b.2, by
    rw [ext_fin]; exact (hs a b hab.le).abs.resolve_left hne⟩ n le_rfl
  obtain ⟨⟨n', d, e, v⟩, h, h1, h2, h3, h4, h5⟩ := key.total
  dsimp only at h1 h2 h3 h4 h5
  subst h2 h3
  rw [h1] at h
  refine ⟨_, fun fuel hf => ?_, rfl, fun i => ?_, rfl, shape_of h4 h5, Eigen.getD_zero hn (by decide +kernel) _ _⟩
  · exact ((C65_budget (ofM A)).2.2.2 n fuel hf (by show Eigen.new n (ofM A) ≠ _; rw [h]; simp)).trans h
  · by_cases h0 : (A i i).isZero
    · obtain ⟨s, e⟩ := F64.isZero_iff.1 h0
      rw [e]
      cases s <;> exact Or.inr (by constructor <;> decide +kernel)
    · exact Or.inl (F64.add_zero' _ false h0)

/-- `[0, x, 0; 0, 0, 0; 0, 0, 0]` with `x` the smallest positive double. -/
def tinyUpper : Matrix (Fin 3) (Fin 3) F64 := !![0, .fin false 1 (by decide +kernel), 0; 0, 0, 0; 0, 0, 0]

/-- C89, the condition on small numbers matters: on the nilpotent upper triangular `tinyUpper` the call runs forever. -/
theorem C89_refuted_subnormal : (∀ i j, (tinyUpper i j).isFin) ∧ (∀ i j, j < i → (tinyUpper i j).isZero) ∧
    RunsForever fun k => Eigen.new k (ofM tinyUpper) := by
  refine ⟨finite_of (by decide +kernel), ?_, Eigen.diverges_of_nanAfter tinyUpper (by norm_num) le_rfl 1 (by decide +kernel)⟩
  intro i j h
  fin_cases i <;> fin_cases j <;> first | exact absurd h (by decide) | rfl

/-! Non-vacuity. -/

example : UpperNotDiagonal !![(1 : ℝ), 5, 7; 0, 2, 9; 0, 0, 3] :=
  ⟨fun i j h => by fin_cases i <;> fin_cases j <;> first | exact absurd h (by decide) | rfl, 0, 1, by decide, by norm_num⟩

example : ∀ i j : Fin 3, (!![(1 : ℝ), 5, 7; 0, 2, 9; 0, 0, 3] : Matrix _ _ ℝ) i i = (!![(1 : ℝ), 5, 7; 0, 2, 9; 0, 0, 3] : Matrix _ _ ℝ) j j → i = j := by
  intro i j h
  fin_cases i <;> fin_cases j <;> first | rfl | (norm_num [Matrix.of_apply] at h)

/-- An upper triangular matrix of doubles with a `-0`, an infinity and a repeated eigenvalue. -/
def upperF64 : Matrix (Fin 3) (Fin 3) F64 := !![dec 1 0, .inf true, dec 7 300; F64.zero true, dec 1 0, dec 9 (-300); 0, 0, F64.zero true]

example : (∀ i j, j < i → (upperF64 i j).isZero) ∧ (∀ i j, i ≤ j → NotSubnormal (upperF64 i j)) ∧ ∃ i j, i < j ∧ ¬ (upperF64 i j).isZero :=
  by
  refine ⟨fun i j => ?_, fun i j => ?_, 0, 1, by decide, by decide +kernel⟩ <;> fin_cases i <;> fin_cases j <;> decide +kernel

/-- The theorem at work: the eigenvalues are the diagonal, with `-0` made `+0`. -/
example : (Eigen.new 3 (ofM upperF64)).toOption.map (fun x => x.d) = some [dec 1 0, dec 1 0, 0] := by decide +kernel

end LA.Props
