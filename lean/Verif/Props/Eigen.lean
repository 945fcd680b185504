import Verif.Proofs.EigGet
import Verif.Props.SVD
import Mathlib.LinearAlgebra.Matrix.Notation

/-!
# C45-C50, C56: eigenvalue decomposition

All statements quantify over the step budget `fuel` of the unbounded loops.  `EigenDecomposition::new` itself has no
budget: its run on `A` returns `x` iff `Eigen.new fuel (ofM A) = .ok x` for some `fuel`.
-/

set_option linter.unusedSectionVars false

namespace LA.Props
open Finset Matrix

/-- The symmetric tridiagonal matrix with diagonal `d` and off-diagonal entries `e 1, e 2, …` (`e i` at `(i, i - 1)` and
`(i - 1, i)`). -/
def tridiagonal (n : Nat) (d e : Nat → ℝ) : Matrix (Fin n) (Fin n) ℝ := Matrix.of fun i j =>
  if i = j then d i else if i.1 = j.1 + 1 then e i else if j.1 = i.1 + 1 then e j else 0

/-- A matrix without its entries below the first subdiagonal. -/
def hessenberg {n : Nat} (H : Matrix (Fin n) (Fin n) ℝ) : Matrix (Fin n) (Fin n) ℝ := Matrix.of fun i j =>
  if j.1 + 1 < i.1 then 0 else H i j

theorem fullG_data {n : Nat} (A : Matrix (Fin n) (Fin n) ℝ) : FullG ((ofM A).data.map some) n n (ext A) := by
  have h := grid_ofM A
  refine ⟨by rw [List.length_map]; exact h.1, fun i j hi hj => ?_⟩
  rw [List.getElem?_map, h.2 i j hi hj]
  rfl

/-- C45: on the entries of a symmetric matrix `A` the tridiagonalisation phase (`tred2`) succeeds; it leaves an
orthogonal `V` and a symmetric tridiagonal matrix `T` (diagonal in `d`, off-diagonal in `e`) with `A = V·T·Vᵀ`. -/
theorem C45_tridiagonal {n : Nat} (hn : 0 < n) (A : Matrix (Fin n) (Fin n) ℝ) (hA : A.IsSymm) :
    ∃ (st : Eigen.Dev ℝ) (d e : Nat → ℝ) (V : Matrix (Fin n) (Fin n) ℝ),
      Eigen.tred2 n ⟨alloc ℝ n, alloc ℝ n, (ofM A).data.map some⟩ = .ok st ∧
      freeze st.d = .ok (List.ofFn fun i : Fin n => d i) ∧ freeze st.e = .ok (List.ofFn fun i : Fin n => e i) ∧
      freeze st.v = .ok (ofM V).data ∧
      Vᵀ * V = 1 ∧ V * Vᵀ = 1 ∧ A = V * tridiagonal n d e * Vᵀ := by
  obtain ⟨st, hst, δ, ε, V, h1, h2, h3, -, h4, h5⟩ := Eigen.tred2_post
    (st := (⟨alloc ℝ n, alloc ℝ n, (ofM A).data.map some⟩ : Eigen.Dev ℝ)) hn (by simp [alloc]) (by simp [alloc]) (fullG_data A)
  have hsym : SVD.pk n n (Eigen.sym (ext A)) = A := by
    ext a b
    show Eigen.sym (ext A) a b = A a b
    unfold Eigen.sym
    split
    · exact ext_fin A a b
    · rw [ext_fin A b a]; exact hA.apply a b
  rw [hsym] at h5
  refine ⟨st, δ, ε, SVD.pk n n V, hst, Vect.freeze h1 δ (fun _ _ => rfl), Vect.freeze h2 ε (fun _ _ => rfl),
    Grid.freeze h3 _ (fun _ _ => rfl), h4, h4.right, ?_⟩
  rw [h5]
  congr 2
  ext a b
  show Eigen.trid δ ε a b = tridiagonal n δ ε a b
  unfold Eigen.trid tridiagonal
  simp only [of_apply, Fin.ext_iff]

/-- C46: for symmetric `A`, `EigenDecomposition::new(A)` returns (it never panics, never divides by zero and its
iterations terminate: all budgets above some bound give the same result); all imaginary parts are zero, the real parts
are sorted in decreasing order, `V` is orthogonal, and `get_d()` is the diagonal matrix of the eigenvalues. -/
theorem C46_symmetric {n : Nat} (hn : 0 < n) (A : Matrix (Fin n) (Fin n) ℝ) (hA : A.IsSymm) :
    ∃ (bound : Nat) (x : Eigen ℝ) (d : Nat → ℝ) (V : Matrix (Fin n) (Fin n) ℝ),
      (∀ fuel, bound ≤ fuel → Eigen.new fuel (ofM A) = .ok x) ∧
      (∀ fuel, Eigen.new fuel (ofM A) = .ok x ∨ Eigen.new fuel (ofM A) = .error .fuel) ∧
      x = ⟨n, List.ofFn fun i : Fin n => d i, List.replicate n 0, ofM V⟩ ∧
      (∀ i j, i ≤ j → j < n → d j ≤ d i) ∧ Vᵀ * V = 1 ∧ V * Vᵀ = 1 ∧
      x.getD = .ok (ofM (Matrix.diagonal fun i : Fin n => d i)) := by
  obtain ⟨N, x, ⟨V, δ, hx, hG⟩, hf⟩ := Eigen.new_symm hn hA
  refine ⟨N, x, δ, V, fun fuel h => ?_, fun fuel => ?_, hx, fun i j hij hj => ?_, hG.orth, hG.orth.right, ?_⟩
  · rcases hf fuel with h1 | h1
    · exact h1
    · exact absurd h1.1 (by omega)
  · rcases hf fuel with h1 | h1
    · exact Or.inl h1
    · exact Or.inr h1.2
  · rcases Nat.lt_or_eq_of_le hij with h | h
    · exact hG.ord i j h hj
    · rw [h]
  · have e0 : List.replicate n (0 : ℝ) = List.ofFn fun i : Fin n => (fun _ : Nat => (0 : ℝ)) i := by
      rw [List.ofFn_const]
    rw [hx, e0, Eigen.getD_post hn (e := fun _ => 0) _ (fun i _ h => absurd h (lt_irrefl _)) (fun i _ h => absurd h (lt_irrefl _))]
    congr 2
    ext a b
    show Eigen.dTab δ (fun _ => 0) a b = _
    unfold Eigen.dTab
    simp only [diagonal_apply, Fin.ext_iff, lt_irrefl, false_and, if_false]

/-- C56: for symmetric `A`, `EigenDecomposition::new(A)` returns real eigenvalues `d` and an orthogonal `V` such that
`V·diag(d)·Vᵀ` differs from `A` by at most `9·n·2⁻⁵²·‖A‖` in the Frobenius norm. -/
theorem C56_symmetric_reconstruct {n : Nat} (hn : 0 < n) (A : Matrix (Fin n) (Fin n) ℝ) (hA : A.IsSymm) :
    ∃ (bound : Nat) (x : Eigen ℝ) (d : Nat → ℝ) (V : Matrix (Fin n) (Fin n) ℝ),
      (∀ fuel, bound ≤ fuel → Eigen.new fuel (ofM A) = .ok x) ∧
      x.n = n ∧ x.d = List.ofFn (fun i : Fin n => d i) ∧ x.v = ofM V ∧ Vᵀ * V = 1 ∧
      frobenius (A - V * Matrix.diagonal (fun i : Fin n => d i) * Vᵀ) ≤ 9 * n * (1 / 2 ^ 52) * frobenius A := by
  obtain ⟨N, x, ⟨V, δ, hx, hG⟩, hf⟩ := Eigen.new_symm hn hA
  refine ⟨N, x, δ, V, fun fuel h => ?_, by rw [hx], by rw [hx], by rw [hx], hG.orth, ?_⟩
  · rcases hf fuel with h1 | h1
    · exact h1
    · exact absurd h1.1 (by omega)
  · have h := hG.close
    rw [Eigen.eps_val] at h
    refine le_trans h (le_of_eq ?_)
    show (n : ℝ) * (9 * _ * frob A) = 9 * n * (1 / 2 ^ 52) * frob A
    ring

example : (!![2, 1; 1, 3] : Matrix (Fin 2) (Fin 2) ℝ).IsSymm := by
  ext i j; fin_cases i <;> fin_cases j <;> rfl

section
variable {α : Type} [Zero α] [One α] [Add α] [Sub α] [Neg α] [Mul α] [FloatOps α]

/-- C47 for wide matrices: `EigenDecomposition::new(A)` panics (over any element type) when `A` has fewer rows than
columns.  Missing: tall matrices, for which the claim is false (`C47_refuted_tall`). -/
theorem C47_wide_partial {m n : Nat} (hmn : m < n) (hm : 0 < m) (A : Matrix (Fin m) (Fin n) α) (fuel : Nat) :
    Panics (Eigen.new fuel (ofM A)) := Or.inl (Eigen.new_wide hmn hm A fuel)

/-- C47 is false of the code for tall matrices: `EigenDecomposition::new` silently ignores the rows below the leading
square block. -/
theorem C47_refuted_tall {m n : Nat} (hn : 0 < n) (hnm : n < m) (A : Matrix (Fin m) (Fin n) α) (fuel : Nat) :
    Eigen.new fuel (ofM A) = Eigen.new fuel (ofM (Matrix.of fun i j : Fin n => A (Fin.castLE hnm.le i) j)) := by
  refine Eigen.new_congr (n := n) (ofM_cols _ (by omega)) (ofM_cols _ hn) (fun i j hi hj => ?_) fuel
  rw [ofM_get A (by omega) hj, ofM_get _ hi hj]
  rfl

end

/-- C48: the Hessenberg reduction (`orthes`) of any square matrix `A` succeeds, and leaves an orthogonal `V` and a matrix
`H` whose upper Hessenberg part `H₀` satisfies `A = V·H₀·Vᵀ`. -/
theorem C48_hessenberg {n : Nat} (hn : 0 < n) (A : Matrix (Fin n) (Fin n) ℝ) :
    ∃ (h v : Buf ℝ) (H V : Matrix (Fin n) (Fin n) ℝ),
      Eigen.orthes n ((ofM A).data.map some) (alloc ℝ (n * n)) = .ok (h, v) ∧
      freeze h = .ok (ofM H).data ∧ freeze v = .ok (ofM V).data ∧
      Vᵀ * V = 1 ∧ V * Vᵀ = 1 ∧ A = V * hessenberg H * Vᵀ := by
  obtain ⟨r, hr, F, V, h1, h2, h3, h4⟩ := Eigen.orthes_post hn (fullG_data A) (grid_alloc n n)
  refine ⟨r.1, r.2, SVD.pk n n F, SVD.pk n n V, hr, Grid.freeze h1 _ (fun _ _ => rfl), Grid.freeze h2 _ (fun _ _ => rfl),
    h3, h3.right, ?_⟩
  have e1 : SVD.pk n n (ext A) = A := by ext a b; exact ext_fin A a b
  rw [e1] at h4
  exact h4

/-- C50: the complex division computes `(xr + i·xi) / (yr + i·yi)` for every nonzero divisor. -/
theorem C50_cdiv (xr xi yr yi : ℝ) (h : (⟨yr, yi⟩ : ℂ) ≠ 0) :
    Eigen.cdiv xr xi yr yi = .ok (((⟨xr, xi⟩ : ℂ) / ⟨yr, yi⟩).re, ((⟨xr, xi⟩ : ℂ) / ⟨yr, yi⟩).im) := by
  rw [Eigen.cdiv_ok xr xi yr yi (by
    by_contra hc
    rw [not_or, not_not, not_not] at hc
    exact h (Complex.ext hc.1 hc.2))]
  rw [Complex.div_re, Complex.div_im]
  simp only [Complex.normSq_mk]
  congr 2
  · rw [← add_div]; congr 1; ring
  · rw [← sub_div]; congr 1; ring

/-- Division of `1 + 2i` by `3 - 4i`; a wide matrix panics; the last row of a tall one is ignored. -/
example : Eigen.cdiv (1 : ℝ) 2 3 (-4) = .ok (((⟨1, 2⟩ : ℂ) / ⟨3, -4⟩).re, ((⟨1, 2⟩ : ℂ) / ⟨3, -4⟩).im) :=
  C50_cdiv 1 2 3 (-4) (fun h => by have := congrArg Complex.re h; norm_num at this)
example : Panics (Eigen.new 10 (ofM !![1, 2, (3 : ℝ)])) := C47_wide_partial (by norm_num) (by norm_num) _ 10
example : Eigen.new 10 (ofM !![1, 2; 3, 4; 5, (6 : ℝ)]) = Eigen.new 10 (ofM !![1, 2; 3, (4 : ℝ)]) := by
  rw [C47_refuted_tall (by norm_num) (by norm_num)]
  congr 2; ext i j; fin_cases i <;> fin_cases j <;> rfl

end LA.Props
