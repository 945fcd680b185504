import Verif.Proofs.Cholesky
import Verif.Props.LU
import Mathlib.LinearAlgebra.Matrix.Notation
import Mathlib.Algebra.Order.Star.Real

/-!
# C40, C41: Cholesky factorisation

Exact real arithmetic; a division by zero or the square root of a negative number would be the error `undef`, so every
`= .ok …` below also says that none happens.
-/

namespace LA.Props
open LA Finset

/-- Symmetric and positive definite, spelled out. -/
def SymmPosDef {n : Nat} (A : Matrix (Fin n) (Fin n) ℝ) : Prop :=
  (∀ i j, A i j = A j i) ∧ ∀ x : Fin n → ℝ, x ≠ 0 → 0 < ∑ i, ∑ j, x i * A i j * x j

theorem symmPosDef_iff {n : Nat} (A : Matrix (Fin n) (Fin n) ℝ) : SymmPosDef A ↔ A.PosDef := by
  rw [Matrix.posDef_iff_dotProduct_mulVec]
  refine and_congr ⟨fun h => ?_, fun h i j => ?_⟩ (forall_congr' fun x => ?_)
  · ext i j
    simpa using h j i
  · have := h.apply j i
    simpa using this
  · have : star x ⬝ᵥ A.mulVec x = ∑ i, ∑ j, x i * A i j * x j := by
      simp only [dotProduct, Matrix.mulVec, Finset.mul_sum, star_trivial, mul_assoc]
    rw [this]

/-- A Cholesky factor of `A`: lower triangular, positive diagonal, `L·Lᵀ = A`. -/
structure IsCholesky {n : Nat} (A L : Matrix (Fin n) (Fin n) ℝ) : Prop where
  lower : ∀ i j, i < j → L i j = 0
  pos : ∀ i, 0 < L i i
  eq : L * L.transpose = A

theorem IsCholesky.det_ne {n : Nat} {A L : Matrix (Fin n) (Fin n) ℝ} (h : IsCholesky A L) : L.det ≠ 0 := by
  rw [Matrix.det_of_lowerTriangular L (fun a b hab => h.lower a b hab)]
  exact Finset.prod_ne_zero_iff.mpr fun i _ => (h.pos i).ne'

theorem IsCholesky.posDef {n : Nat} {A L : Matrix (Fin n) (Fin n) ℝ} (h : IsCholesky A L) : A.PosDef := by
  have hu : IsUnit L := (Matrix.isUnit_iff_isUnit_det L).2 (isUnit_iff_ne_zero.mpr h.det_ne)
  have := Matrix.PosDef.mul_conjTranspose_self L (Matrix.vecMul_injective_of_isUnit hu)
  rw [← h.eq]
  simpa using this

/-- The entries of `A` in terms of those of a Cholesky factor. -/
theorem IsCholesky.entry {n : Nat} {A L : Matrix (Fin n) (Fin n) ℝ} (h : IsCholesky A L) (i k : Fin n) :
    A i k = (∑ t ∈ Finset.univ.filter (· < k), L i t * L k t) + L i k * L k k := by
  rw [← h.eq, Matrix.mul_apply]
  have : (∑ t, L i t * L.transpose t k) = ∑ t ∈ Finset.univ.filter (· ≤ k), L i t * L k t := by
    rw [Finset.sum_filter]
    refine Finset.sum_congr rfl fun t _ => ?_
    rw [Matrix.transpose_apply]
    split
    · rfl
    · rw [h.lower k t (by omega), mul_zero]
  rw [this]
  have hs : Finset.univ.filter (· ≤ k) = insert k (Finset.univ.filter (· < k)) := by
    ext t; simp [le_iff_eq_or_lt]
  rw [hs, Finset.sum_insert (by simp)]; ring

theorem IsCholesky.unique {n : Nat} {A L M : Matrix (Fin n) (Fin n) ℝ} (h : IsCholesky A L) (h' : IsCholesky A M) :
    L = M := by
  have key : ∀ c : Nat, ∀ k : Fin n, k.1 = c → ∀ i, L i k = M i k := by
    intro c
    induction c using Nat.strong_induction_on with
    | _ c ih =>
      intro k hk i
      have hs : ∀ i, (∑ t ∈ Finset.univ.filter (· < k), L i t * L k t) =
          ∑ t ∈ Finset.univ.filter (· < k), M i t * M k t := by
        intro i
        refine Finset.sum_congr rfl fun t ht => ?_
        have ht : t < k := by simpa using ht
        rw [ih t.1 (by omega) t rfl, ih t.1 (by omega) t rfl]
      have hd : L k k = M k k := by
        have e1 := h.entry k k
        have e2 := h'.entry k k
        rw [hs k] at e1
        have e3 : L k k * L k k = M k k * M k k := by linarith
        exact (mul_self_inj (h.pos k).le (h'.pos k).le).1 e3
      have e1 := h.entry i k
      have e2 := h'.entry i k
      rw [hs i] at e1
      have e3 : L i k * L k k = M i k * L k k := by rw [hd] at e1 ⊢; linarith
      exact mul_right_cancel₀ (h.pos k).ne' e3
  ext i k
  exact key k.1 k rfl i

/-- C40: `CholeskyDecomposition::new` returns a factor for exactly the symmetric positive definite matrices, and it is the
unique Cholesky factor; it never panics, divides by zero or takes the root of a negative number. -/
theorem C40_cholesky {n : Nat} (hn : 0 < n) (A : Matrix (Fin n) (Fin n) ℝ) :
    (SymmPosDef A → ∃ (c : Cholesky ℝ) (L : Matrix (Fin n) (Fin n) ℝ), Cholesky.new (ofM A) = .ok (some c) ∧
      c.getL = ofM L ∧ (∀ i j, i < j → L i j = 0) ∧ (∀ i, 0 < L i i) ∧ L * L.transpose = A ∧
      ∀ M, IsCholesky A M → M = L) ∧
    (¬ SymmPosDef A → Cholesky.new (ofM A) = .ok none) := by
  obtain ⟨o, ho, hP⟩ := Cholesky.new_post hn A
  rw [symmPosDef_iff, ho]
  match o, hP with
  | none, hP => exact ⟨fun h => absurd h hP, fun _ => rfl⟩
  | some c, hP =>
    obtain ⟨L, hc, h1, h2, h3⟩ := hP
    have hL : IsCholesky A L := ⟨h1, h2, h3⟩
    refine ⟨fun _ => ⟨c, L, rfl, by rw [hc]; rfl, h1, h2, h3, fun M hM => hM.unique hL⟩, fun h => absurd hL.posDef h⟩

/-- C40: `Some` is returned iff the matrix is symmetric positive definite. -/
theorem C40_iff {n : Nat} (hn : 0 < n) (A : Matrix (Fin n) (Fin n) ℝ) :
    (∃ c, Cholesky.new (ofM A) = .ok (some c)) ↔ SymmPosDef A := by
  constructor
  · rintro ⟨c, hc⟩
    by_contra h
    rw [(C40_cholesky hn A).2 h] at hc
    cases hc
  · intro h
    obtain ⟨c, L, h1, -⟩ := (C40_cholesky hn A).1 h
    exact ⟨c, h1⟩

/-- C40: a non-square matrix gives `None`. -/
theorem C40_nonsquare {α : Type} [Zero α] [Add α] [Sub α] [Mul α] [FloatOps α] {m n : Nat} (hm : 0 < m) (h : m ≠ n)
    (A : Matrix (Fin m) (Fin n) α) : Cholesky.new (ofM A) = .ok none := by
  unfold Cholesky.new
  rw [ofM_cols A hm, ok_bind, if_pos (by simpa using h)]; rfl

/-- C40, when the input is built as `M·Mᵀ` with `M` invertible (a user's usual way to get such a matrix). -/
theorem C40_gram {n : Nat} (hn : 0 < n) (M : Matrix (Fin n) (Fin n) ℝ) (hM : M.det ≠ 0) :
    ∃ (c : Cholesky ℝ) (L : Matrix (Fin n) (Fin n) ℝ), Cholesky.new (ofM (M * M.transpose)) = .ok (some c) ∧
      c.getL = ofM L ∧ L * L.transpose = M * M.transpose := by
  have hu : IsUnit M := (Matrix.isUnit_iff_isUnit_det M).2 (isUnit_iff_ne_zero.mpr hM)
  have hp : (M * M.transpose).PosDef := by
    have := Matrix.PosDef.mul_conjTranspose_self M (Matrix.vecMul_injective_of_isUnit hu)
    simpa using this
  obtain ⟨c, L, h1, h2, -, -, h3, -⟩ := (C40_cholesky hn _).1 ((symmPosDef_iff _).2 hp)
  exact ⟨c, L, h1, h2, h3⟩

/-- A concrete symmetric positive definite matrix, and a concrete symmetric one that is not. -/
example : SymmPosDef !![4, 2; 2, (5 : ℝ)] ∧ ¬ SymmPosDef !![1, 2; 2, (1 : ℝ)] := by
  constructor
  · rw [symmPosDef_iff]
    exact (IsCholesky.posDef (L := !![2, 0; 1, 2]) ⟨by
      intro i j h; fin_cases i <;> fin_cases j <;> simp_all, by intro i; fin_cases i <;> simp, by
      ext i j; fin_cases i <;> fin_cases j <;> norm_num [Matrix.mul_apply, Fin.sum_univ_two, Matrix.transpose_apply]⟩)
  · rintro ⟨-, h⟩
    have := h ![1, -1] (by intro e; have := congrFun e 0; simp at this)
    norm_num [Fin.sum_univ_two] at this

/-- C40 on a concrete matrix, through the API. -/
example : ∃ c : Cholesky ℝ, Cholesky.new ⟨2, [4, 2, 2, 5]⟩ = .ok (some c) ∧ c.getL = ⟨2, [2, 0, 1, 2]⟩ := by
  have hL : IsCholesky !![4, 2; 2, (5 : ℝ)] !![2, 0; 1, 2] := ⟨by
      intro i j h; fin_cases i <;> fin_cases j <;> simp_all, by intro i; fin_cases i <;> simp, by
      ext i j; fin_cases i <;> fin_cases j <;> norm_num [Matrix.mul_apply, Fin.sum_univ_two, Matrix.transpose_apply]⟩
  obtain ⟨c, L, h1, h2, -, -, -, h3⟩ := (C40_cholesky (by norm_num) _).1 ((symmPosDef_iff _).2 hL.posDef)
  refine ⟨c, ?_, ?_⟩
  · rw [← h1]; simp [ofM]
  · rw [h2, ← h3 _ hL]; simp [ofM]

/-! ## C41 -/

/-- C41: on a factor `L` with positive diagonal, `solve(b)` returns the `X` with `L·Lᵀ·X = B`. -/
theorem solve_factor {n p : Nat} (hn : 0 < n) (hp : 0 < p) (L : Matrix (Fin n) (Fin n) ℝ) (hlow : ∀ i j, i < j → L i j = 0)
    (hpos : ∀ i, 0 < L i i) (B : Matrix (Fin n) (Fin p) ℝ) :
    ∃ X : Matrix (Fin n) (Fin p) ℝ, (Cholesky.mk (ofM L)).solve (ofM B) = .ok (ofM X) ∧ L * L.transpose * X = B := by
  have hd : ∀ k, k < n → ext L k k ≠ 0 := by
    intro k hk
    rw [ext_eq L hk hk]
    exact (hpos _).ne'
  have hrun : Post ((Cholesky.mk (ofM L)).solve (ofM B)) fun r =>
      ∃ X : Matrix (Fin n) (Fin p) ℝ, r = ofM X ∧ L * L.transpose * X = B := by
    unfold Cholesky.solve
    simp only [ofM_rows, ofM_cols B hn, ok_bind, beq_self_eq_true, assert_true]
    refine (Cholesky.forward_post (grid_ofM L) (grid_ofM B) hd).bind ?_
    rintro x1 ⟨Y, hY, h1⟩
    refine (Cholesky.backward_post (grid_ofM L) hY hd).bind ?_
    rintro x2 ⟨X, hX, h2⟩
    have hofM := hX.ofM (LU.packed n p X) (fun _ _ => rfl)
    rw [hofM, C01_new_ofM hn hp]
    refine Post.ok ⟨_, rfl, ?_⟩
    have e1 : L * LU.packed n p Y = B := by
      ext i j
      have := h1 i j i.2 j.2
      rw [ext_fin] at this
      rw [this, Matrix.mul_apply, Finset.sum_fin_eq_sum_range]
      symm
      refine Finset.sum_subset_zero_on_sdiff (fun t ht => ?_) (fun t ht => ?_) (fun t ht => ?_)
      · have := i.2
        rw [Finset.mem_range] at *; omega
      · rw [Finset.mem_sdiff, Finset.mem_range, Finset.mem_range] at ht
        rw [dif_pos ht.1, hlow i ⟨t, ht.1⟩ (by rw [Fin.lt_def]; dsimp only; omega), zero_mul]
      · have := i.2
        rw [Finset.mem_range] at ht
        rw [dif_pos (by omega), ext_eq L i.2 (show t < n by omega)]; rfl
    have e2 : L.transpose * LU.packed n p X = LU.packed n p Y := by
      ext i j
      have := h2 i j i.2 j.2
      rw [show LU.packed n p Y i j = Y i j from rfl, this, Matrix.mul_apply, Finset.sum_fin_eq_sum_range]
      symm
      refine Finset.sum_subset_zero_on_sdiff (fun t ht => ?_) (fun t ht => ?_) (fun t ht => ?_)
      · rw [Finset.mem_Ico] at ht
        rw [Finset.mem_range]; omega
      · rw [Finset.mem_sdiff, Finset.mem_range, Finset.mem_Ico] at ht
        rw [dif_pos ht.1, Matrix.transpose_apply, hlow ⟨t, ht.1⟩ i (by rw [Fin.lt_def]; dsimp only; omega), zero_mul]
      · rw [Finset.mem_Ico] at ht
        rw [dif_pos ht.2, ext_eq L ht.2 i.2]; rfl
    rw [Matrix.mul_assoc, e2, e1]
  obtain ⟨r, hr, X, rfl, hX⟩ := hrun
  exact ⟨X, hr, hX⟩

/-- C41: `CholeskyDecomposition::new(&a).unwrap().solve(&b)` is the only solution of `A·X = B`. -/
theorem C41_solve {n p : Nat} (hn : 0 < n) (hp : 0 < p) (A : Matrix (Fin n) (Fin n) ℝ) (hA : SymmPosDef A)
    (B : Matrix (Fin n) (Fin p) ℝ) :
    ∃ (c : Cholesky ℝ) (X : Matrix (Fin n) (Fin p) ℝ), Cholesky.new (ofM A) = .ok (some c) ∧ c.solve (ofM B) = .ok (ofM X) ∧
      A * X = B ∧ ∀ Y : Matrix (Fin n) (Fin p) ℝ, A * Y = B → Y = X := by
  obtain ⟨c, L, h1, h2, h3, h4, h5, -⟩ := (C40_cholesky hn A).1 hA
  obtain ⟨X, hX, hAX⟩ := solve_factor hn hp L h3 h4 B
  rw [h5] at hAX
  refine ⟨c, X, h1, ?_, hAX, ?_⟩
  · rw [← hX, ← h2]; rfl
  · intro Y hY
    have hdet : IsUnit A.det := by
      rw [← h5, Matrix.det_mul, Matrix.det_transpose, isUnit_iff_ne_zero]
      have := (IsCholesky.mk h3 h4 h5).det_ne
      exact mul_ne_zero this this
    have := congrArg (A⁻¹ * ·) (hY.trans hAX.symm)
    simpa [← Matrix.mul_assoc, Matrix.nonsing_inv_mul _ hdet] using this

/-- C41: on a right-hand side with another number of rows `solve` panics. -/
theorem C41_mismatch {α : Type} [Sub α] [Mul α] [FloatOps α] {n m p : Nat} (h : n ≠ m)
    (L : Matrix (Fin n) (Fin n) α) (B : Matrix (Fin m) (Fin p) α) :
    (Cholesky.mk (ofM L)).solve (ofM B) = .error .assert := by
  unfold Cholesky.solve
  rw [assert_beq_ne (show (ofM L).rows ≠ (ofM B).rows from h)]; rfl

/-- A concrete solve (any field: no roots are taken). -/
example : (Cholesky.mk (⟨2, [2, 0, 1, 2]⟩ : Mat ℚ)).solve ⟨2, [8, 8]⟩ = .ok ⟨2, [3 / 2, 1]⟩ := by decide +kernel

end LA.Props
