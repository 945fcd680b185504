import Verif.Proofs.EigNonsym
import Verif.Props.Eigen
import Mathlib.LinearAlgebra.Matrix.RowCol

/-!
# C49, C57, C58: eigenvalue decomposition of arbitrary (nonsymmetric) real matrices

As in `Props/Eigen.lean` the statements quantify over the step budget `fuel`: `EigenDecomposition::new(A)` returns `x` iff
`Eigen.new fuel (ofM A) = .ok x` for some `fuel`, and then the smallest such `fuel` is the number of deflation and QR steps
the run takes.
-/

set_option linter.unusedSectionVars false

namespace LA.Props
open Finset Matrix

/-- The block diagonal matrix of the documentation: `d` on the diagonal, `e i > 0` to the right of the diagonal and
`e i < 0` to the left of it. -/
noncomputable def blockD (n : Nat) (d e : Nat → ℝ) : Matrix (Fin n) (Fin n) ℝ := Matrix.of fun i j =>
  if i = j then d i else if 0 < e i ∧ j.1 = i.1 + 1 then e i else if e i < 0 ∧ i.1 = j.1 + 1 then e i else 0

/-- Every value with positive imaginary part is followed by its conjugate, every one with negative imaginary part is
preceded by its conjugate. -/
def ConjugatePairs (n : Nat) (d e : Nat → ℝ) : Prop :=
  (∀ i, i < n → 0 < e i → i + 1 < n ∧ e (i + 1) = -e i ∧ d (i + 1) = d i) ∧
  (∀ i, i < n → e i < 0 → 1 ≤ i ∧ e (i - 1) = -e i ∧ d (i - 1) = d i)

/-- Euclidean norm of a real vector. -/
noncomputable def vecNorm {n : Nat} (v : Fin n → ℝ) : ℝ := Real.sqrt (∑ i, v i ^ 2)

theorem blockD_eq (n : Nat) (d e : Nat → ℝ) : SVD.pk n n (Eigen.dTab d e) = blockD n d e := by
  ext a b
  show Eigen.dTab d e a b = blockD n d e a b
  unfold Eigen.dTab blockD
  simp only [of_apply, Fin.ext_iff]
  simp only [show (b.1 + 1 = a.1) = (a.1 = b.1 + 1) from propext ⟨Eq.symm, Eq.symm⟩]

theorem pairs_of_blk {n : Nat} {d e : Nat → ℝ} {H : Nat → Nat → ℝ} (hb : Eigen.Blk n 0 d e H) : ConjugatePairs n d e := by
  refine ⟨fun i hi h => ?_, fun i hi h => ?_⟩
  · obtain ⟨h1, h2, h3, _⟩ := hb.pos i (Nat.zero_le _) hi h
    exact ⟨h1, h2, h3⟩
  · obtain ⟨h1, h2, h3⟩ := hb.neg i (Nat.zero_le _) h
    obtain ⟨h4, h5, h6, _⟩ := hb.pos (i - 1) (Nat.zero_le _) (by omega) h3
    rw [show i - 1 + 1 = i by omega] at h5 h6
    exact ⟨h1, by rw [h5]; ring, h6.symm⟩

/-- C49: on every square matrix `EigenDecomposition::new(A)` never panics (no index error, no division by zero, no read of
an unset entry): within any step budget it runs out of steps or returns eigenvalues `d + i·e` in adjacent conjugate pairs,
and `get_d()` then returns the block diagonal matrix with blocks `[λ]` and `[λ, μ; -μ, λ]`. -/
theorem C49_pairs {n : Nat} (hn : 0 < n) (A : Matrix (Fin n) (Fin n) ℝ) (fuel : Nat) :
    Eigen.new fuel (ofM A) = .error .fuel ∨
    ∃ (x : Eigen ℝ) (d e : Nat → ℝ) (V : Matrix (Fin n) (Fin n) ℝ), Eigen.new fuel (ofM A) = .ok x ∧
      x = ⟨n, List.ofFn fun i : Fin n => d i, List.ofFn fun i : Fin n => e i, ofM V⟩ ∧
      ConjugatePairs n d e ∧ x.getD = .ok (ofM (blockD n d e)) := by
  by_cases hA : A.IsSymm
  · obtain ⟨N, x, ⟨V, δ, hx, hG⟩, hf⟩ := Eigen.new_symm hn hA
    rcases hf fuel with h1 | h1
    · right
      have e0 : List.replicate n (0 : ℝ) = List.ofFn fun i : Fin n => (fun _ : Nat => (0 : ℝ)) i := by
        rw [List.ofFn_const]
      refine ⟨x, δ, fun _ => 0, V, h1, by rw [hx, ← e0], ⟨fun i _ h => absurd h (lt_irrefl _), fun i _ h => absurd h (lt_irrefl _)⟩, ?_⟩
      rw [hx, e0, Eigen.getD_post hn (e := fun _ => 0) _ (fun i _ h => absurd h (lt_irrefl _)) (fun i _ h => absurd h (lt_irrefl _)), blockD_eq]
    · exact Or.inl h1.2
  · rcases (Eigen.new_nonsym hn hA fuel).1 with h1 | ⟨x, hx, E, d, e, W, V, H, X, norm, h2, h3, _⟩
    · exact Or.inl h1
    · right
      have hp := pairs_of_blk h3.blk
      refine ⟨x, d, e, SVD.pk n n W, hx, h2, hp, ?_⟩
      rw [h2, Eigen.getD_post hn _ (fun i hi h => (hp.1 i hi h).1) (fun i hi h => (hp.2 i hi h).1), blockD_eq]

/-- The runs on 1-by-1 and 2-by-2 matrices take at most two steps: the right-hand case of `C49_pairs` and the
hypothesis of `C57_eigenvalues` and `C58_eigenvectors` do occur. -/
theorem C49_small_terminates {n : Nat} (hn : 0 < n) (h2 : n ≤ 2) (A : Matrix (Fin n) (Fin n) ℝ) (hA : ¬ A.IsSymm) (fuel : Nat) (hf : n ≤ fuel) :
    ∃ x, Eigen.new fuel (ofM A) = .ok x := by
  obtain ⟨h1, h3⟩ := Eigen.new_nonsym hn hA fuel
  rcases h1 with h1 | ⟨x, hx, _⟩
  · exact absurd h1 (h3 h2 hf)
  · exact ⟨x, hx⟩

/-- C57: when `EigenDecomposition::new(A)` returns on a nonsymmetric matrix, the returned values `d + i·e` are exactly the
eigenvalues, with multiplicity, of a matrix `B` close to `A`: the characteristic polynomial of `B` is `∏ (X - (d + i·e))`,
and each step of the run adds at most a relative error `(4n + 24)·2⁻⁵²` to `B`. -/
theorem C57_eigenvalues {n : Nat} (hn : 0 < n) (A : Matrix (Fin n) (Fin n) ℝ) (hA : ¬ A.IsSymm) (fuel : Nat) (x : Eigen ℝ)
    (hx : Eigen.new fuel (ofM A) = .ok x) :
    ∃ (d e : Nat → ℝ) (B : Matrix (Fin n) (Fin n) ℝ),
      x.d = List.ofFn (fun i : Fin n => d i) ∧ x.e = List.ofFn (fun i : Fin n => e i) ∧
      frobenius (A - B) ≤ ((1 + (4 * n + 24) * (1 / 2 ^ 52)) ^ fuel - 1) * frobenius A ∧
      (B.map fun r => (r : ℂ)).charpoly = ∏ i : Fin n, (Polynomial.X - Polynomial.C (⟨d i, e i⟩ : ℂ)) := by
  rcases (Eigen.new_nonsym hn hA fuel).1 with h1 | ⟨x', hx', E, d, e, W, V, H, X, norm, h2, h3, h4, _⟩
  · rw [h1] at hx; cases hx
  · rw [hx'] at hx
    cases hx
    refine ⟨d, e, SVD.pk n n V * SVD.pk n n (Eigen.Tf e H) * (SVD.pk n n V)ᵀ, by rw [h2], by rw [h2], ?_, ?_⟩
    · refine le_trans h3.err ?_
      rw [Eigen.eps_val] at h4
      rw [sub_mul, one_mul]
      show E ≤ _ * frob A - frob A
      linarith
    · have := Eigen.charpoly_Tf h3.blk n le_rfl (fun h => absurd (h3.blk.neg n (Nat.zero_le _) h).2.1 (lt_irrefl _))
      rw [← this, ← Eigen.charpoly_conj _ h3.orth, ← Matrix.charpoly_map]
      rfl

theorem vecNorm_col {n : Nat} (v : Fin n → ℝ) : frob (Matrix.replicateCol (Fin 1) v) = vecNorm v := by
  unfold frob vecNorm
  simp

theorem vecNorm_nonneg {n : Nat} (v : Fin n → ℝ) : 0 ≤ vecNorm v := Real.sqrt_nonneg _

theorem vecNorm_orth {n : Nat} {V : Matrix (Fin n) (Fin n) ℝ} (hV : Orth V) (v : Fin n → ℝ) : vecNorm (V *ᵥ v) = vecNorm v := by
  rw [← vecNorm_col, Matrix.replicateCol_mulVec, frob_mul_left _ hV, vecNorm_col]

theorem vecNorm_add {n : Nat} (u v : Fin n → ℝ) : vecNorm (u + v) ≤ vecNorm u + vecNorm v := by
  rw [← vecNorm_col, ← vecNorm_col u, ← vecNorm_col v, Matrix.replicateCol_add]
  exact frob_add_le _ _

theorem vecNorm_mulVec {m n : Nat} (M : Matrix (Fin m) (Fin n) ℝ) (v : Fin n → ℝ) : vecNorm (M *ᵥ v) ≤ frob M * vecNorm v := by
  unfold vecNorm
  refine Real.sqrt_le_iff.2 ⟨mul_nonneg (frob_nonneg _) (Real.sqrt_nonneg _), ?_⟩
  rw [mul_pow, frob_sq, Real.sq_sqrt (Finset.sum_nonneg fun _ _ => sq_nonneg _), Finset.sum_mul]
  refine Finset.sum_le_sum fun i _ => ?_
  exact Finset.sum_mul_sq_le_sq_mul_sq Finset.univ (fun j => M i j) v

theorem vecNorm_le {n : Nat} {u v : Fin n → ℝ} {ε : ℝ} (hε : 0 ≤ ε) (h : ∀ i, |u i| ≤ ε * |v i|) : vecNorm u ≤ ε * vecNorm v := by
  unfold vecNorm
  refine Real.sqrt_le_iff.2 ⟨mul_nonneg hε (Real.sqrt_nonneg _), ?_⟩
  rw [mul_pow, Real.sq_sqrt (Finset.sum_nonneg fun _ _ => sq_nonneg _), Finset.mul_sum]
  refine Finset.sum_le_sum fun i _ => ?_
  rw [← sq_abs (u i), ← sq_abs (v i), ← mul_pow]
  exact pow_le_pow_left₀ (abs_nonneg _) (h i) 2

theorem repeated_of {n : Nat} {d e : Nat → ℝ} (hp : ConjugatePairs n d e) {m : Nat} (hm : m + 1 < n) (h : e (m + 1) < 0)
    (hN : ∀ i, i < m → ¬(d i = d m ∧ e i = e m)) : Eigen.NRep (m + 1) d e (d (m + 1)) (e (m + 1)) := by
  intro i hi hpos hc
  obtain ⟨_, h2, h3⟩ := hp.2 (m + 1) hm h
  rw [Nat.add_sub_cancel] at h2 h3
  refine hN i (by omega) ⟨by rw [hc.1, h3], ?_⟩
  have h4 : 0 < e m := by rw [h2]; linarith
  have h5 : e i * e i = e m * e m := by rw [hc.2, h2]; ring
  nlinarith [mul_self_nonneg (e i - e m), mul_pos hpos h4]

/-- Index `j` belongs to a complex pair that occurs, exactly equal, further up. -/
def PairRepeated (d e : Nat → ℝ) (j : Nat) : Prop :=
  e j ≠ 0 ∧ ∃ i, i < (if e j < 0 then j - 1 else j) ∧ d i = d j ∧ |e i| = |e j|

/-- C58: when `EigenDecomposition::new(A)` returns on a nonsymmetric matrix, `V` satisfies `A·V = V·D` (`D = get_d()`) up
to rounding of the deflated entries: column by column, `‖(A·V - V·D)ⱼ‖ ≤ (n·2⁻⁵² + (1 + (4n + 24)·2⁻⁵²)^fuel - 1)·‖A‖·‖Vⱼ‖`,
for all columns except those of a complex pair that occurs, exactly equal, further up in `D`.  No column of a real
eigenvalue is zero, and neither is the second column of a complex pair. -/
theorem C58_eigenvectors {n : Nat} (hn : 0 < n) (A : Matrix (Fin n) (Fin n) ℝ) (hA : ¬ A.IsSymm) (fuel : Nat) (x : Eigen ℝ)
    (hx : Eigen.new fuel (ofM A) = .ok x) :
    ∃ (d e : Nat → ℝ) (V D : Matrix (Fin n) (Fin n) ℝ),
      x.d = List.ofFn (fun i : Fin n => d i) ∧ x.e = List.ofFn (fun i : Fin n => e i) ∧ x.v = ofM V ∧ x.getD = .ok (ofM D) ∧
      (∀ j : Fin n, e j ≤ 0 → ∃ i, V i j ≠ 0) ∧
      ∀ j : Fin n, ¬ PairRepeated d e j →
        vecNorm (fun i => (A * V - V * D) i j) ≤
          (n * (1 / 2 ^ 52) + ((1 + (4 * n + 24) * (1 / 2 ^ 52)) ^ fuel - 1)) * frobenius A * vecNorm (fun i => V i j) := by
  rcases (Eigen.new_nonsym hn hA fuel).1 with h1 | ⟨x', hx', E, d, e, W, V0, H, X, norm, h2, h3, h4, h5, h6⟩
  · rw [h1] at hx; cases hx
  rw [hx'] at hx
  cases hx
  have hp := pairs_of_blk h3.blk
  have hO := h3.orth
  have hMul := h3.mul
  have hErr := h3.err
  set V := SVD.pk n n W with hV
  set Q := SVD.pk n n V0 with hQ
  set T := SVD.pk n n (Eigen.Tf e H) with hT
  set Y := SVD.pk n n (Eigen.trunc X) with hY
  set D := SVD.pk n n (Eigen.dTab d e) with hD
  have hgd : x.getD = .ok (ofM D) := by
    rw [h2, Eigen.getD_post hn _ (fun i hi h => (hp.1 i hi h).1) (fun i hi h => (hp.2 i hi h).1)]
  have hcolV : ∀ j, (fun i => V i j) = Q *ᵥ (fun i => Y i j) := fun j => by
    rw [hMul]; rfl
  have hnV : ∀ j, vecNorm (fun i => V i j) = vecNorm (fun i => Y i j) := fun j => by rw [hcolV, vecNorm_orth hO]
  have hdec : ∀ j, (fun i => (A * V - V * D) i j) = (A - Q * T * Qᵀ) *ᵥ (fun i => V i j) + Q *ᵥ (fun i => (T * Y - Y * D) i j) := fun j => by
    have : A * V - V * D = (A - Q * T * Qᵀ) * V + Q * (T * Y - Y * D) := by
      rw [Matrix.sub_mul, Matrix.mul_sub, hMul, Matrix.mul_assoc (Q * T), ← Matrix.mul_assoc Qᵀ, show Qᵀ * Q = 1 from hO, Matrix.one_mul,
        Matrix.mul_assoc, Matrix.mul_assoc Q T Y]
      abel
    rw [this]; rfl
  refine ⟨d, e, V, D, by rw [h2], by rw [h2], by rw [h2], hgd, fun j hj => ?_, fun j hj => ?_⟩
  · by_contra hc
    push Not at hc
    have h7 : vecNorm (fun i => Y i j) = 0 := by
      rw [← hnV]
      unfold vecNorm
      simp [hc]
    have h8 := h3.vec.diag_ne j.2 hj
    have h9 : |Y j j| ≤ vecNorm (fun i => Y i j) := by
      rw [← Real.sqrt_sq_eq_abs]
      exact Real.sqrt_le_sqrt (Finset.single_le_sum (f := fun i => Y i j ^ 2) (fun _ _ => sq_nonneg _) (Finset.mem_univ j))
    rw [h7] at h9
    exact h8 (abs_eq_zero.1 (le_antisymm h9 (abs_nonneg _)))
  · have hep := Eigen.eps_pos
    have hres : vecNorm (fun i => (T * Y - Y * D) i j) ≤ Eigen.eps * norm * vecNorm (fun i => Y i j) := by
      have hz : ∀ i, (T * Y - Y * D) i j = 0 → |(T * Y - Y * D) i j| ≤ Eigen.eps * norm * |Y i j| := fun i hi => by
        rw [hi, abs_zero]; exact mul_nonneg (mul_pos hep h6).le (abs_nonneg _)
      refine vecNorm_le (mul_pos hep h6).le fun i => ?_
      rcases lt_trichotomy (e j) 0 with hlt | heq | hgt
      · obtain ⟨k1, k2, k3⟩ := hp.2 j j.2 hlt
        obtain ⟨m, hm⟩ : ∃ m, j.1 = m + 1 := ⟨j.1 - 1, by omega⟩
        have hmn : m + 1 < n := by omega
        have hjm : j = ⟨m + 1, hmn⟩ := Fin.ext hm
        refine hz i ?_
        rw [hjm]
        rw [hm] at hlt k2 k3
        rw [Nat.add_sub_cancel] at k2 k3
        refine (h3.vec.col_cplx h3.blk hmn hlt (repeated_of hp hmn hlt fun a ha hc => ?_) i).2
        exact hj ⟨by rw [hm]; exact hlt.ne, a, by rw [hm, if_pos hlt]; omega, by rw [hm, hc.1, k3], by rw [hm, hc.2, k2, abs_neg]⟩
      · exact h3.vec.col_real h3.blk (mul_pos hep h6).le j heq i
      · obtain ⟨k1, k2, k3⟩ := hp.1 j j.2 hgt
        refine hz i ?_
        refine (h3.vec.col_cplx (m := j.1) h3.blk k1 (by rw [k2]; linarith) (repeated_of hp k1 (by rw [k2]; linarith) fun a ha hc => ?_) i).1
        exact hj ⟨hgt.ne', a, by rw [if_neg (by linarith)]; exact ha, hc.1, by rw [hc.2]⟩
    have hE : E ≤ ((1 + (4 * n + 24) * (1 / 2 ^ 52)) ^ fuel - 1) * frobenius A := by
      rw [Eigen.eps_val] at h4
      rw [sub_mul, one_mul]
      show E ≤ _ * frob A - frob A
      linarith
    rw [hdec j]
    refine (vecNorm_add _ _).trans ?_
    rw [vecNorm_orth hO, add_mul, add_mul, add_comm]
    refine add_le_add ?_ ?_
    · refine hres.trans ?_
      rw [hnV]
      refine mul_le_mul_of_nonneg_right ?_ (vecNorm_nonneg _)
      rw [← Eigen.eps_val]
      show Eigen.eps * norm ≤ n * Eigen.eps * frob A
      have := mul_le_mul_of_nonneg_left h5 hep.le
      linarith
    · exact (vecNorm_mulVec _ _).trans (mul_le_mul_of_nonneg_right (hErr.trans hE) (vecNorm_nonneg _))

/-- A matrix with eigenvalues `±i` (a complex pair) on which `new` returns. -/
example : ∃ x, Eigen.new 2 (ofM (!![0, 1; -1, 0] : Matrix (Fin 2) (Fin 2) ℝ)) = .ok x := by
  refine C49_small_terminates (by norm_num) le_rfl _ (fun h => ?_) 2 le_rfl
  have := h.apply 0 1
  norm_num at this

/-- The eigenvalue and eigenvector bounds apply to a rotation, whose eigenvalues are not real. -/
example : ∃ (x : Eigen ℝ) (d e : Nat → ℝ) (B : Matrix (Fin 2) (Fin 2) ℝ), Eigen.new 2 (ofM (!![0, 1; -1, 0] : Matrix (Fin 2) (Fin 2) ℝ)) = .ok x ∧
    x.d = List.ofFn (fun i : Fin 2 => d i) ∧ x.e = List.ofFn (fun i : Fin 2 => e i) ∧
    (B.map fun r => (r : ℂ)).charpoly = ∏ i : Fin 2, (Polynomial.X - Polynomial.C (⟨d i, e i⟩ : ℂ)) := by
  have hA : ¬ (!![0, 1; -1, 0] : Matrix (Fin 2) (Fin 2) ℝ).IsSymm := fun h => by
    have := congrFun (congrFun h 0) 1
    norm_num [Matrix.transpose_apply] at this
  obtain ⟨x, hx⟩ := C49_small_terminates (by norm_num) le_rfl _ hA 2 le_rfl
  obtain ⟨d, e, B, h1, h2, -, h3⟩ := C57_eigenvalues (by norm_num) _ hA 2 x hx
  exact ⟨x, d, e, B, hx, h1, h2, h3⟩

end LA.Props
