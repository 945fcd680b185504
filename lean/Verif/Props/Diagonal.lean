import Verif.Proofs.EigDiag2
import Verif.Props.Triangular

/-!
# C90: the eigendecomposition of a diagonal matrix

Diagonal matrices are symmetric, so the other branch of `EigenDecomposition::new` is taken.  It sorts the diagonal and does no
arithmetic but `x + 0`.
-/

namespace LA.Props
open LA
set_option linter.unusedSectionVars false

variable {n : Nat}

/-- The matrix that sends the `j`-th unit vector to the `σ j`-th. -/
def permMatrix {α : Type} [Zero α] [One α] (σ : Equiv.Perm (Fin n)) : Matrix (Fin n) (Fin n) α := Matrix.of fun i j => if i = σ j then 1 else 0

/-- C90 over the reals: `EigenDecomposition::new` of a diagonal matrix needs no iteration; the eigenvalues are the diagonal sorted in
descending order, `V` is the permutation matrix of the sort, `A = V·D·Vᵀ` exactly. -/
theorem C90_real (hn : 0 < n) (d : Fin n → ℝ) : ∃ (x : Eigen ℝ) (σ : Equiv.Perm (Fin n)),
    (∀ fuel, Eigen.new fuel (ofM (Matrix.diagonal d)) = .ok x) ∧ x.d = List.ofFn (fun i => d (σ i)) ∧ x.e = List.replicate n 0 ∧
    x.v = ofM (permMatrix σ) ∧ x.getD = .ok (ofM (Matrix.diagonal fun i => d (σ i))) ∧ (∀ i j, i < j → d (σ j) ≤ d (σ i)) ∧
    ((∀ i j, i < j → d j ≤ d i) → σ = Equiv.refl _) ∧
    Matrix.diagonal d = permMatrix σ * (Matrix.diagonal fun i => d (σ i)) * (permMatrix σ).transpose := by
  have hF : Eigen.DiagT n (ext (Matrix.diagonal d)) := by
    refine ⟨fun i j hij hi hj => ?_, fun _ _ => trivial⟩
    rw [ext_eq _ hi hj, Matrix.diagonal_apply_ne _ (fun h => hij (Fin.ext_iff.1 h)), Exact.abs_eq, abs_zero]
  have hS : Eigen.TestsSymm (Matrix.diagonal d) le_rfl := by
    intro i j hi hj
    rw [eq_eq]
    simp only [decide_eq_true_eq]
    exact (Matrix.isSymm_diagonal d).apply ⟨j, hj⟩ ⟨i, hi⟩
  obtain ⟨σ, h1, h2, h3⟩ := Eigen.new_diag hn (Matrix.diagonal d) hF hS (by rw [Exact.abs_eq, abs_zero]) 0
  simp only [Matrix.diagonal_apply_eq, add_zero] at h1 h2 h3
  refine ⟨_, σ, fun fuel => ((C65_budget (ofM (Matrix.diagonal d))).2.2.2 0 fuel (Nat.zero_le _) (by show Eigen.new 0 _ ≠ _; rw [h1]; simp)).trans h1, rfl, rfl, rfl,
    Eigen.getD_zero hn (by rw [lt_eq]; simp) _ _, fun i j hij => ?_, fun h => h3 fun i j hij => ?_, ?_⟩
  · have := h2 i j hij
    rw [lt_eq] at this
    simpa using this
  · rw [lt_eq]
    simpa using h i j hij
  · ext i j
    rw [Matrix.mul_apply]
    simp only [Matrix.mul_diagonal, Matrix.transpose_apply]
    rw [Finset.sum_eq_single (σ.symm i)]
    · simp only [permMatrix, Matrix.of_apply, Equiv.apply_symm_apply, if_true, one_mul]
      rw [Matrix.diagonal_apply]
      by_cases h : i = j
      · rw [if_pos h, if_pos h.symm, mul_one]
      · rw [if_neg h, if_neg (Ne.symm h), mul_zero]
    · intro b _ hb
      have : i ≠ σ b := fun h => hb (by rw [h, Equiv.symm_apply_apply])
      simp [permMatrix, this]
    · intro h; exact absurd (Finset.mem_univ _) h

theorem eq_self {x : F64} (h : x ≠ .nan) : FloatOps.eq x x = true := by
  rcases x with _ | s | ⟨s, k, hk⟩
  · exact absurd rfl h
  · cases s <;> decide +kernel
  · show decide (F64.sgn s k = F64.sgn s k) = true
    simp

/-- C90 over binary64: the matrix has zeros (of any sign) off the diagonal and no NaN on it; infinities and subnormal numbers are
allowed.  `EigenDecomposition::new` returns without iterating; the eigenvalues are the diagonal in descending order, bit for bit
(`-0` becomes `+0`); `V` is the permutation matrix of the sort, `D` the diagonal matrix of the sorted values.  If the diagonal was in
order already, as for the identity, `V` is the identity. -/
theorem C90_f64 (hn : 0 < n) (A : Matrix (Fin n) (Fin n) F64) (hoff : ∀ i j, i ≠ j → (A i j).isZero) (hd : ∀ i, A i i ≠ .nan) :
    ∃ (x : Eigen F64) (σ : Equiv.Perm (Fin n)), (∀ fuel, Eigen.new fuel (ofM A) = .ok x) ∧ x.d = List.ofFn (fun i => A (σ i) (σ i) + 0) ∧
      (∀ i, F64.Agree (A i i + 0) (A i i)) ∧ x.e = List.replicate n 0 ∧ x.v = ofM (permMatrix σ) ∧
      x.getD = .ok (ofM (Matrix.diagonal fun i => A (σ i) (σ i) + 0)) ∧
      (∀ i j, i < j → FloatOps.lt (A (σ i) (σ i)) (A (σ j) (σ j)) = false) ∧
      ((∀ i j, i < j → FloatOps.lt (A i i) (A j j) = false) → σ = Equiv.refl _) := by
  have hF : Eigen.DiagT n (ext A) := by
    refine ⟨fun i j hij hi hj => ?_, fun i hi => ?_⟩
    · rw [ext_eq _ hi hj]
      exact (zero_abs (hoff _ _ fun h => hij (Fin.ext_iff.1 h))).1
    · rw [ext_eq _ hi hi]; exact hd _
  have hS : Eigen.TestsSymm A le_rfl := by
    intro i j hi hj
    by_cases h : i = j
    · subst h; exact eq_self (hd _)
    · obtain ⟨s, e1⟩ := F64.isZero_iff.1 (hoff ⟨i, hi⟩ ⟨j, hj⟩ fun h' => h (Fin.ext_iff.1 h'))
      obtain ⟨t, e2⟩ := F64.isZero_iff.1 (hoff ⟨j, hj⟩ ⟨i, hi⟩ fun h' => h (Fin.ext_iff.1 h').symm)
      rw [e1, e2]
      cases s <;> cases t <;> decide +kernel
  have hag : ∀ x : F64, F64.Agree (x + 0) x := fun x => by
    by_cases h0 : x.isZero
    · obtain ⟨s, e⟩ := F64.isZero_iff.1 h0
      rw [e]
      cases s <;> exact Or.inr (by constructor <;> decide +kernel)
    · exact Or.inl (F64.add_zero' _ false h0)
  have hlt : ∀ x y : F64, FloatOps.lt (x + 0) (y + 0) = FloatOps.lt x y := fun x y => by
    have key : ∀ x x' y : F64, F64.Agree x' x → FloatOps.lt x' y = FloatOps.lt x y ∧ FloatOps.lt y x' = FloatOps.lt y x := by
      rintro x x' y (rfl | ⟨h1, h2⟩)
      · exact ⟨rfl, rfl⟩
      · obtain ⟨s, rfl⟩ := F64.isZero_iff.1 h1
        obtain ⟨t, rfl⟩ := F64.isZero_iff.1 h2
        rcases y with _ | u | ⟨u, k, hk⟩
        · exact ⟨rfl, rfl⟩
        · exact ⟨rfl, rfl⟩
        · constructor
          · show decide (F64.sgn s 0 < F64.sgn u k) = decide (F64.sgn t 0 < F64.sgn u k)
            simp [F64.sgn]
          · show decide (F64.sgn u k < F64.sgn s 0) = decide (F64.sgn u k < F64.sgn t 0)
            simp [F64.sgn]
    rw [(key x (x + 0) (y + 0) (hag x)).1, (key y (y + 0) x (hag y)).2]
  obtain ⟨σ, h1, h2, h3⟩ := Eigen.new_diag hn A hF hS (by decide +kernel) 0
  refine ⟨_, σ, fun fuel => ((C65_budget (ofM A)).2.2.2 0 fuel (Nat.zero_le _) (by show Eigen.new 0 _ ≠ _; rw [h1]; simp)).trans h1, rfl, fun i => hag _, rfl, rfl,
    Eigen.getD_zero hn (by decide +kernel) _ _, fun i j hij => ?_, fun h => h3 fun i j hij => ?_⟩
  · rw [← hlt]; exact h2 i j hij
  · rw [hlt]; exact h i j hij

/-! Non-vacuity. -/

/-- Infinities, a subnormal number and negative zeros. -/
def diagF64 : Matrix (Fin 4) (Fin 4) F64 :=
  !![.fin false 1 (by decide +kernel), 0, F64.zero true, 0; 0, .inf true, 0, 0; F64.zero true, 0, F64.zero true, 0; 0, F64.zero true, 0, dec 5 200]

example : (∀ i j, i ≠ j → (diagF64 i j).isZero) ∧ ∀ i, diagF64 i i ≠ .nan := by
  refine ⟨fun i j => ?_, fun i => ?_⟩
  · fin_cases i <;> fin_cases j <;> decide +kernel
  · fin_cases i <;> decide +kernel

/-- The theorem at work. -/
example : (Eigen.new 0 (ofM diagF64)).toOption.map (fun x => (x.d, x.v)) =
    some ([dec 5 200, .fin false 1 (by decide +kernel), 0, .inf true], ofM !![0, 1, 0, 0; 0, 0, 0, 1; 0, 0, 1, 0; 1, 0, 0, 0]) := by decide +kernel

end LA.Props
