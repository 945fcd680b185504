import Verif.Proofs.SVDNew

/-!
# C42-C44: singular value decomposition

The step budget `fuel` bounds the iterations of the main loop.  `SVD::new` itself has no budget: its run on `A`
returns `x` iff `SVD.new fuel (ofM A) = .ok x` for some `fuel`.
-/

set_option linter.unusedSectionVars false

namespace LA.Props
open Finset Matrix

/-- Square root of the sum of the squares of all entries. -/
noncomputable def frobenius {m n : Nat} (M : Matrix (Fin m) (Fin n) ℝ) : ℝ := Real.sqrt (∑ i, ∑ j, M i j ^ 2)

/-- The `m × n` matrix with `s 0, s 1, …` on its main diagonal and zeros elsewhere. -/
def rectDiag (m n : Nat) (s : Nat → ℝ) : Matrix (Fin m) (Fin n) ℝ := Matrix.of fun i j => if i.1 = j.1 then s i else 0

/-- C42: `SVD::new` terminates on every non-empty matrix: it returns `⟨U, S, V⟩` after a finite number of iterations
(every budget of at least `N` gives this result, a smaller one gives it or is exhausted), without a panic, a division
by zero, the root of a negative number or a read of an uninitialised cell.  `U` and `V` are orthogonal, `S` has the shape of
`A`, is zero off the diagonal, and its diagonal is non-negative and sorted in decreasing order. -/
theorem C42_svd {m n : Nat} (hm : 0 < m) (hn : 0 < n) (A : Matrix (Fin m) (Fin n) ℝ) :
    ∃ (N : Nat) (U : Matrix (Fin m) (Fin m) ℝ) (V : Matrix (Fin n) (Fin n) ℝ) (s : Nat → ℝ),
      (∀ fuel, N ≤ fuel → SVD.new fuel (ofM A) = .ok ⟨ofM U, ofM (rectDiag m n s), ofM V⟩) ∧
      (∀ fuel, fuel < N → SVD.new fuel (ofM A) = .ok ⟨ofM U, ofM (rectDiag m n s), ofM V⟩ ∨
        SVD.new fuel (ofM A) = .error .fuel) ∧
      Uᵀ * U = 1 ∧ U * Uᵀ = 1 ∧ Vᵀ * V = 1 ∧ V * Vᵀ = 1 ∧
      (∀ i j, i ≤ j → j < min m n → s j ≤ s i) ∧ (∀ i, i < min m n → 0 ≤ s i) := by
  obtain ⟨N, x, ⟨U, V, s, rfl, hG⟩, h⟩ := SVD.new_post hm hn A
  refine ⟨N, U, V, s, fun fuel hf => ?_, fun fuel _ => ?_, hG.u, hG.u.right, hG.v, hG.v.right, hG.sorted, hG.pos⟩
  · rcases h fuel with h | ⟨h, -⟩
    · exact h
    · omega
  · rcases h fuel with h | ⟨-, h⟩
    · exact Or.inl h
    · exact Or.inr h

/-- C43: if `SVD::new(A)` returns, `U·S·Vᵀ` differs from `A` by at most `(min(m,n) - 1)·(2⁻⁹⁶⁶ + 2·2⁻⁵²·‖A‖)` in the
Frobenius norm: the only inexact operations are the deflations, of which there are at most `min(m,n) - 1`. -/
theorem C43_reconstruct {m n : Nat} (hm : 0 < m) (hn : 0 < n) (A : Matrix (Fin m) (Fin n) ℝ) (fuel : Nat) (x : SVD ℝ)
    (hx : SVD.new fuel (ofM A) = .ok x) :
    ∃ (U : Matrix (Fin m) (Fin m) ℝ) (S : Matrix (Fin m) (Fin n) ℝ) (V : Matrix (Fin n) (Fin n) ℝ),
      x = ⟨ofM U, ofM S, ofM V⟩ ∧
      frobenius (U * S * Vᵀ - A) ≤ ((min m n - 1 : Nat) : ℝ) * (1 / 2 ^ 966 + 2 * (1 / 2 ^ 52) * frobenius A) := by
  obtain ⟨U, V, s, rfl, hG⟩ := SVD.new_ok hm hn A hx
  refine ⟨U, _, V, rfl, ?_⟩
  have := hG.close
  unfold SVD.delta at this
  rw [SVD.eps_val, SVD.tiny_val] at this
  exact this

/-- C44: for `m ≤ n`, `rank()` of a decomposition returned by `SVD::new` does not panic and counts the singular values
above `max(m, n)·σ₀·2⁻⁵²`. -/
theorem C44_rank_partial {m n : Nat} (hm : 0 < m) (hmn : m ≤ n) (A : Matrix (Fin m) (Fin n) ℝ) (fuel : Nat) (x : SVD ℝ)
    (hx : SVD.new fuel (ofM A) = .ok x) :
    ∃ s : Nat → ℝ, x.s = ofM (rectDiag m n s) ∧
      x.rank = .ok ((range m).filter fun i => (max m n : Nat) * s 0 * (1 / 2 ^ 52) < s i).card := by
  obtain ⟨U, V, s, rfl, hG⟩ := SVD.new_ok hm (by omega) A hx
  refine ⟨s, rfl, ?_⟩
  unfold SVD.rank
  have h0 : (ofM (Matrix.of fun (i : Fin m) (j : Fin n) => if i.1 = j.1 then s i else 0)).get 0 0 = .ok (s 0) := by
    rw [ofM_get _ hm (by omega)]; simp
  simp only [ofM_rows, h0, ok_bind, SVD.eps_val, Exact.cst_eq, lt_eq]
  refine Post.eq_ok ((loop_post (lo := 0) (hi := m) (fun k r => r = ((range k).filter fun i =>
    (max m n : Nat) * s 0 * (1 / 2 ^ 52) < s i).card) (Nat.zero_le _) (by simp) ?_).mono fun r h => h)
  rintro i r - hi rfl
  rw [ofM_get _ hi (by omega), ok_bind]
  simp only [of_apply, if_true, decide_eq_true_eq]
  rw [Finset.range_add_one, Finset.filter_insert]
  have e : ((((max m n : Nat) : Int) : ℝ) / ((1 : Nat) : ℝ)) = ((max m n : Nat) : ℝ) := by push_cast; ring
  rw [e]
  by_cases h1 : ((max m n : Nat) : ℝ) * s 0 * (1 / 2 ^ 52) < s i
  · rw [if_pos h1, if_pos h1, Finset.card_insert_of_notMem (by simp)]; exact Post.ok rfl
  · rw [if_neg h1, if_neg h1]; exact Post.ok rfl

/-- C44 is false of the code for tall matrices: whenever `SVD::new(A)` returns for a matrix with more rows than
columns, `rank()` of the result panics (it reads the diagonal entry `(n, n)`, which does not exist). -/
theorem C44_refuted_tall {m n : Nat} (hn : 0 < n) (hmn : n < m) (A : Matrix (Fin m) (Fin n) ℝ) (fuel : Nat) (x : SVD ℝ)
    (hx : SVD.new fuel (ofM A) = .ok x) : Panics x.rank := by
  obtain ⟨U, V, s, rfl, hG⟩ := SVD.new_ok (by omega) hn A hx
  unfold SVD.rank
  rw [ofM_get _ (by omega) hn, ok_bind, ofM_rows]
  refine Or.inl (loop_error (fun _ _ => True) (j := n) (Nat.zero_le _) hmn trivial ?_ ?_)
  · intro i r _ hi _
    rw [ofM_get _ (by omega) hi, ok_bind]
    split <;> exact Post.ok trivial
  · intro r _
    rw [C04_get, dif_neg (by omega)]
    rfl

/-- The hypotheses are met: a wide matrix is decomposed, reconstructed within the bound, and its rank is returned ... -/
example : ∃ (fuel : Nat) (x : SVD ℝ) (r : Nat), SVD.new fuel (ofM !![3, 4, 0; 0, 0, (5 : ℝ)]) = .ok x ∧ x.rank = .ok r ∧
    ∃ (U : Matrix (Fin 2) (Fin 2) ℝ) (S : Matrix (Fin 2) (Fin 3) ℝ) (V : Matrix (Fin 3) (Fin 3) ℝ), x = ⟨ofM U, ofM S, ofM V⟩ ∧
      frobenius (U * S * Vᵀ - !![3, 4, 0; 0, 0, (5 : ℝ)]) ≤
        ((min 2 3 - 1 : Nat) : ℝ) * (1 / 2 ^ 966 + 2 * (1 / 2 ^ 52) * frobenius !![3, 4, 0; 0, 0, (5 : ℝ)]) := by
  obtain ⟨N, U, V, s, h, -⟩ := C42_svd (m := 2) (n := 3) (by norm_num) (by norm_num) !![3, 4, 0; 0, 0, (5 : ℝ)]
  obtain ⟨_, _, hr⟩ := C44_rank_partial (by norm_num) (by norm_num) _ N _ (h N le_rfl)
  exact ⟨N, _, _, h N le_rfl, hr, C43_reconstruct (by norm_num) (by norm_num) _ N _ (h N le_rfl)⟩

/-- ... and a tall one is decomposed, but `rank` panics. -/
example : ∃ (fuel : Nat) (x : SVD ℝ), SVD.new fuel (ofM !![3, 0; 4, 0; 0, (5 : ℝ)]) = .ok x ∧ Panics x.rank := by
  obtain ⟨N, U, V, s, h, -⟩ := C42_svd (m := 3) (n := 2) (by norm_num) (by norm_num) !![3, 0; 4, 0; 0, (5 : ℝ)]
  exact ⟨N, _, h N le_rfl, C44_refuted_tall (by norm_num) (by norm_num) _ N _ (h N le_rfl)⟩

end LA.Props
