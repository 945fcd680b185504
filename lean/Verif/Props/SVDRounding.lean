import Verif.Props.SVD
import Verif.Proofs.StdNew
import Verif.Proofs.Weyl
import Verif.Unbounded
import Mathlib.Analysis.SpecialFunctions.Exp

/-!
# C100, C101: the singular value decomposition in rounded arithmetic

`Sfp α` is the standard model of floating-point arithmetic: every operation returns a number that differs from the exact result by
at most `u` times the exact result.  The theorems hold for every such arithmetic, every matrix and every budget `fuel` of the main loop.
`LA.Fu` (53 significant bits, unbounded exponent range) is such an arithmetic with `u = 2^-53`.
-/

set_option linter.unusedSectionVars false

namespace LA.Props
open Finset Matrix

variable {α : Type} [Zero α] [One α] [Add α] [Sub α] [Neg α] [Mul α] [FloatOps α] [Sfp α]

/-- The real numbers the entries stand for. -/
noncomputable def values {m n : Nat} (A : Matrix (Fin m) (Fin n) α) : Matrix (Fin m) (Fin n) ℝ := Matrix.of fun i j => Sfp.val (A i j)

/-- The relative error of one rotation or reflection of a matrix with at most `N` rows and columns, and of setting a negligible entry to
zero (the code neglects entries below `2^-52` times their neighbours). -/
noncomputable def stepError (u : ℝ) (N : Nat) : ℝ := 3 * ((1 - u)⁻¹ ^ (13 * N + 10) - 1) + (1 - u)⁻¹ ^ 4 / 2 ^ 51

/-- The relative error of the whole decomposition of an `m × n` matrix with at most `fuel` iterations. -/
noncomputable def svdError (u : ℝ) (m n fuel : Nat) : ℝ := (1 + stepError u (max m n)) ^ (2 * min m n * (fuel + 1)) - 1

/-- `P'P = 1`. -/
def Orthogonal {n : Nat} (P : Matrix (Fin n) (Fin n) ℝ) : Prop := Pᵀ * P = 1

theorem kap_stepError (N : Nat) : Std.kap α N = stepError (Sfp.u α) N := rfl

theorem svdError_nonneg (m n fuel : Nat) : 0 ≤ svdError (Sfp.u α) m n fuel := by
  unfold svdError
  rw [← kap_stepError]
  exact sub_nonneg.2 (one_le_pow₀ (by linarith [(Std.kap_ok (α := α) (max m n)).nonneg]))

/-- C100: in rounded arithmetic `SVD::new` neither panics nor divides by zero nor takes the root of a negative number: it returns a
decomposition, or its budget of iterations is exhausted. -/
theorem C100_no_panic {m n : Nat} (hm : 0 < m) (hn : 0 < n) (A : Matrix (Fin m) (Fin n) α) (fuel : Nat) :
    (∃ x, SVD.new fuel (ofM A) = .ok x) ∨ SVD.new fuel (ofM A) = .error .fuel := by
  rcases Std.new_post hm hn A fuel with h | ⟨U, V, s, h, -⟩
  · exact Or.inr h
  · exact Or.inl ⟨_, h⟩

/-- C100, backward stability: what `SVD::new` returns is, up to a relative error `svdError` in the factors, the exact singular value decomposition
of a matrix that differs from `A` by at most `svdError` times the norm of `A` (`2^-915` is the absolute threshold below which the code
neglects entries). -/
theorem C100_backward {m n : Nat} (hm : 0 < m) (hn : 0 < n) (A : Matrix (Fin m) (Fin n) α) {fuel : Nat} {x : SVD α}
    (hx : SVD.new fuel (ofM A) = .ok x) :
    ∃ (U : Matrix (Fin m) (Fin m) α) (V : Matrix (Fin n) (Fin n) α) (s : Nat → α),
      x = ⟨ofM U, ofM (Matrix.of fun (i : Fin m) (j : Fin n) => if i.1 = j.1 then s i else 0), ofM V⟩ ∧
      (∀ i j, i ≤ j → j < min m n → Sfp.val (s j) ≤ Sfp.val (s i)) ∧ (∀ i, i < min m n → 0 ≤ Sfp.val (s i)) ∧
      ∃ P Q, Orthogonal P ∧ Orthogonal Q ∧
        frobenius (values U - P) ≤ svdError (Sfp.u α) m n fuel * Real.sqrt m ∧
        frobenius (values V - Q) ≤ svdError (Sfp.u α) m n fuel * Real.sqrt n ∧
        frobenius (values A - P * rectDiag m n (fun i => Sfp.val (s i)) * Qᵀ) ≤
          svdError (Sfp.u α) m n fuel * (frobenius (values A) + 1 / 2 ^ 915) := by
  rcases Std.new_post hm hn A fuel with h | ⟨U, V, s, h, hG⟩
  · rw [hx] at h; cases h
  rw [hx] at h
  cases h
  obtain ⟨P, Q, hP, hQ, h1, h2, h3⟩ := hG.near
  exact ⟨U, V, s, rfl, hG.sorted, hG.pos, P, Q, hP, hQ, h1, h2, h3⟩

theorem values_diag {m n : Nat} (s : Nat → α) :
    values (Matrix.of fun (i : Fin m) (j : Fin n) => if i.1 = j.1 then s i else 0) = rectDiag m n (fun i => Sfp.val (s i)) := by
  ext i j
  show Sfp.val (if i.1 = j.1 then s i else 0) = if i.1 = j.1 then Sfp.val (s i) else 0
  split
  · rfl
  · exact Sfp.zero

theorem near_orth {m : Nat} {U P : Matrix (Fin m) (Fin m) ℝ} (hP : Orth P) {d : ℝ} (h : frob (U - P) ≤ d) :
    frob (Uᵀ * U - 1) ≤ 2 * d + d ^ 2 := by
  set E := U - P with hE
  have hU : U = P + E := by rw [hE]; abel
  have e : Uᵀ * U - 1 = Pᵀ * E + (Pᵀ * E)ᵀ + Eᵀ * E := by
    rw [hU, transpose_add, transpose_mul, transpose_transpose, Matrix.add_mul, Matrix.mul_add, Matrix.mul_add, hP]
    abel
  rw [e]
  have h1 := frob_add_le (Pᵀ * E + (Pᵀ * E)ᵀ) (Eᵀ * E)
  have h2 := frob_add_le (Pᵀ * E) (Pᵀ * E)ᵀ
  rw [frob_transpose, frob_mul_left _ hP.transpose] at h2
  have h3 := frob_mul_le Eᵀ E
  rw [frob_transpose] at h3
  have h0 := frob_nonneg E
  have h4 : frob E * frob E ≤ d ^ 2 := by rw [sq]; exact mul_le_mul h h h0 (h0.trans h)
  linarith

/-- C100, orthogonality: the computed factors are orthogonal up to rounding. -/
theorem C100_orthogonal {m n : Nat} (hm : 0 < m) (hn : 0 < n) (A : Matrix (Fin m) (Fin n) α) {fuel : Nat} {x : SVD α}
    (hx : SVD.new fuel (ofM A) = .ok x) :
    ∃ (U : Matrix (Fin m) (Fin m) α) (V : Matrix (Fin n) (Fin n) α), x.u = ofM U ∧ x.v = ofM V ∧
      frobenius ((values U)ᵀ * values U - 1) ≤
        2 * (svdError (Sfp.u α) m n fuel * Real.sqrt m) + (svdError (Sfp.u α) m n fuel * Real.sqrt m) ^ 2 ∧
      frobenius ((values V)ᵀ * values V - 1) ≤
        2 * (svdError (Sfp.u α) m n fuel * Real.sqrt n) + (svdError (Sfp.u α) m n fuel * Real.sqrt n) ^ 2 := by
  obtain ⟨U, V, s, rfl, -, -, P, Q, hP, hQ, h1, h2, -⟩ := C100_backward hm hn A hx
  exact ⟨U, V, rfl, rfl, near_orth hP h1, near_orth hQ h2⟩

/-- C100, residual: the exact product of the computed factors is `A` up to rounding. -/
theorem C100_residual {m n : Nat} (hm : 0 < m) (hn : 0 < n) (A : Matrix (Fin m) (Fin n) α) {fuel : Nat} {x : SVD α}
    (hx : SVD.new fuel (ofM A) = .ok x) :
    ∃ (U : Matrix (Fin m) (Fin m) α) (S : Matrix (Fin m) (Fin n) α) (V : Matrix (Fin n) (Fin n) α), x = ⟨ofM U, ofM S, ofM V⟩ ∧
      frobenius (values U * values S * (values V)ᵀ - values A) ≤
        ((1 + svdError (Sfp.u α) m n fuel * Real.sqrt m) * (1 + svdError (Sfp.u α) m n fuel * Real.sqrt n) *
          (1 + svdError (Sfp.u α) m n fuel) - 1) * (frobenius (values A) + 1 / 2 ^ 915) := by
  obtain ⟨U, V, s, rfl, -, -, P, Q, hP, hQ, h1, h2, h3⟩ := C100_backward hm hn A hx
  refine ⟨U, _, V, rfl, ?_⟩
  rw [values_diag]
  have hδ := svdError_nonneg (α := α) m n fuel
  set δ := svdError (Sfp.u α) m n fuel
  set S := rectDiag m n (fun i => Sfp.val (s i))
  set a := δ * Real.sqrt m with ha
  set b := δ * Real.sqrt n with hb
  have ha0 : 0 ≤ a := mul_nonneg hδ (Real.sqrt_nonneg _)
  have hb0 : 0 ≤ b := mul_nonneg hδ (Real.sqrt_nonneg _)
  change frob (values U - P) ≤ a at h1
  change frob (values V - Q) ≤ b at h2
  change frob (values A - P * S * Qᵀ) ≤ δ * (frob (values A) + 1 / 2 ^ 915) at h3
  change frob (values U * S * (values V)ᵀ - values A) ≤ _
  set t : ℝ := frob (values A) + 1 / 2 ^ 915 with ht
  have ht0 : 0 ≤ t := add_nonneg (frob_nonneg _) (by positivity)
  have hAt : frob (values A) ≤ t := le_add_of_nonneg_right (by positivity)
  show _ ≤ ((1 + a) * (1 + b) * (1 + δ) - 1) * t
  have hS : frob S ≤ (1 + δ) * t := by
    have e1 : frob S = frob (P * S * Qᵀ) := by rw [frob_mul_right _ hQ, frob_mul_left _ hP]
    have e2 : P * S * Qᵀ = values A - (values A - P * S * Qᵀ) := by abel
    rw [e1, e2]
    refine (frob_sub_le _ _).trans ?_
    linarith
  set E := values U - P with hE
  set F := values V - Q with hF
  have hU : values U = P + E := by rw [hE]; abel
  have hV : values V = Q + F := by rw [hF]; abel
  have e : values U * S * (values V)ᵀ - values A = E * S * Qᵀ + P * (S * Fᵀ) + E * S * Fᵀ - (values A - P * S * Qᵀ) := by
    rw [hU, hV, transpose_add, Matrix.mul_add, Matrix.add_mul, Matrix.add_mul, Matrix.add_mul, Matrix.mul_assoc P S Fᵀ]
    abel
  rw [e]
  have q1 := frob_sub_le (E * S * Qᵀ + P * (S * Fᵀ) + E * S * Fᵀ) (values A - P * S * Qᵀ)
  have q2 := frob_add_le (E * S * Qᵀ + P * (S * Fᵀ)) (E * S * Fᵀ)
  have q3 := frob_add_le (E * S * Qᵀ) (P * (S * Fᵀ))
  rw [frob_mul_right _ hQ, frob_mul_left _ hP] at q3
  have q4 := frob_mul_le E S
  have q5 := frob_mul_le S Fᵀ
  have q6 := frob_mul_le (E * S) Fᵀ
  rw [frob_transpose] at q5 q6
  have p0 := frob_nonneg S
  have p1 := frob_nonneg E
  have p2 := frob_nonneg F
  have r1 : frob E * frob S ≤ a * ((1 + δ) * t) := mul_le_mul h1 hS p0 ha0
  have r2 : frob S * frob F ≤ ((1 + δ) * t) * b := mul_le_mul hS h2 p2 (mul_nonneg (by linarith) ht0)
  have r3 : frob (E * S) * frob F ≤ (a * ((1 + δ) * t)) * b :=
    mul_le_mul (q4.trans r1) h2 p2 (mul_nonneg ha0 (mul_nonneg (by linarith) ht0))
  have : ((1 + a) * (1 + b) * (1 + δ) - 1) * t = a * ((1 + δ) * t) + ((1 + δ) * t) * b + (a * ((1 + δ) * t)) * b + δ * t := by ring
  rw [this]
  linarith

/-- The `k`-th largest singular value of `A` (the root of the `k`-th largest eigenvalue of `A'A`, Mathlib's definition). -/
noncomputable def singularValue {m n : Nat} (A : Matrix (Fin m) (Fin n) ℝ) (k : Nat) : ℝ := (Matrix.toEuclideanLin A).singularValues k

theorem singular_close {m n : Nat} (A : Matrix (Fin m) (Fin n) ℝ) {P : Matrix (Fin m) (Fin m) ℝ} {Q : Matrix (Fin n) (Fin n) ℝ}
    {s : Nat → ℝ} (hP : Orth P) (hQ : Orth Q) (hs : ∀ i j, i ≤ j → j < min m n → s j ≤ s i) (hs0 : ∀ i, i < min m n → 0 ≤ s i) {k : Nat}
    (hk : k < min m n) : |s k - singularValue A k| ≤ frob (A - P * rectDiag m n s * Qᵀ) := by
  obtain ⟨Q₀, h⟩ := sing_mathlib A
  have := h.close (sing_diag hP hQ hs hs0) (k := k) (by omega)
  rwa [if_pos (by omega)] at this

/-- C101: the diagonal of `S` returned by `SVD::new` in exact arithmetic: the `k`-th value is the `k`-th singular value of `A`, up to the
entries the code neglects. -/
theorem C101_exact {m n : Nat} (hm : 0 < m) (hn : 0 < n) (A : Matrix (Fin m) (Fin n) ℝ) {fuel : Nat} {x : SVD ℝ}
    (hx : SVD.new fuel (ofM A) = .ok x) :
    ∃ s : Nat → ℝ, x.s = ofM (rectDiag m n s) ∧ ∀ k, k < min m n →
      |s k - singularValue A k| ≤ ((min m n - 1 : Nat) : ℝ) * (1 / 2 ^ 966 + 2 * (1 / 2 ^ 52) * frobenius A) := by
  obtain ⟨U, V, s, rfl, hG⟩ := SVD.new_ok hm hn A hx
  refine ⟨s, rfl, fun k hk => ?_⟩
  refine (singular_close A hG.u hG.v hG.sorted hG.pos hk).trans ?_
  have h2 := hG.close
  unfold SVD.delta at h2
  rw [SVD.eps_val, SVD.tiny_val] at h2
  rw [frob_sub_comm] at h2
  exact h2

/-- C101: the computed singular values are those of `A` up to rounding, whatever the condition of `A`. -/
theorem C101_rounded {m n : Nat} (hm : 0 < m) (hn : 0 < n) (A : Matrix (Fin m) (Fin n) α) {fuel : Nat} {x : SVD α}
    (hx : SVD.new fuel (ofM A) = .ok x) :
    ∃ s : Nat → α, x.s = ofM (Matrix.of fun (i : Fin m) (j : Fin n) => if i.1 = j.1 then s i else 0) ∧ ∀ k, k < min m n →
      |Sfp.val (s k) - singularValue (values A) k| ≤ svdError (Sfp.u α) m n fuel * (frobenius (values A) + 1 / 2 ^ 915) := by
  obtain ⟨U, V, s, rfl, h1, h2, P', Q', hP, hQ, -, -, h3⟩ := C100_backward hm hn A hx
  refine ⟨s, rfl, fun k hk => ?_⟩
  exact (singular_close (s := fun i => Sfp.val (s i)) (values A) hP hQ h1 h2 hk).trans h3

theorem singular_rank {m n : Nat} (A : Matrix (Fin m) (Fin n) ℝ) {k : Nat} (h : A.rank ≤ k) : singularValue A k = 0 := by
  refine (LinearMap.singularValues_eq_zero_iff_le_finrank_range (T := Matrix.toEuclideanLin A)).2 ?_
  rw [Matrix.rank_eq_finrank_range_toLin A (EuclideanSpace.basisFun (Fin m) ℝ).toBasis (EuclideanSpace.basisFun (Fin n) ℝ).toBasis] at h
  rwa [Matrix.toEuclideanLin_eq_toLin_orthonormal]

/-- C101: no matrix of rank at most `k` is closer to `A` than the `k`-th computed singular value, up to rounding; in particular the computed
singular values beyond the rank of `A` are zero up to rounding (`B = A`). -/
theorem C101_low_rank {m n : Nat} (hm : 0 < m) (hn : 0 < n) (A : Matrix (Fin m) (Fin n) α) {fuel : Nat} {x : SVD α}
    (hx : SVD.new fuel (ofM A) = .ok x) :
    ∃ s : Nat → α, x.s = ofM (Matrix.of fun (i : Fin m) (j : Fin n) => if i.1 = j.1 then s i else 0) ∧
      ∀ (B : Matrix (Fin m) (Fin n) ℝ) (k : Nat), B.rank ≤ k → k < min m n →
        Sfp.val (s k) ≤ frobenius (values A - B) + svdError (Sfp.u α) m n fuel * (frobenius (values A) + 1 / 2 ^ 915) := by
  obtain ⟨U, V, s, rfl, h1, h2, P, Q, hP, hQ, -, -, h3⟩ := C100_backward hm hn A hx
  refine ⟨s, rfl, fun B k hB hk => ?_⟩
  have h4 := singular_close (s := fun i => Sfp.val (s i)) B hP hQ h1 h2 hk
  rw [singular_rank B hB, sub_zero, abs_of_nonneg (h2 k hk)] at h4
  have h5 := frob_tri B (values A) (P * rectDiag m n (fun i => Sfp.val (s i)) * Qᵀ)
  rw [frob_sub_comm B (values A)] at h5
  exact (h4.trans h5).trans (add_le_add le_rfl h3)

/-- C101: singular vectors. Up to rounding, `A` maps the `j`-th column of `V` to `s j` times the `j`-th column of `U` (to zero, if there is none). -/
theorem C101_vectors {m n : Nat} (hm : 0 < m) (hn : 0 < n) (A : Matrix (Fin m) (Fin n) α) {fuel : Nat} {x : SVD α}
    (hx : SVD.new fuel (ofM A) = .ok x) :
    ∃ (U : Matrix (Fin m) (Fin m) α) (S : Matrix (Fin m) (Fin n) α) (V : Matrix (Fin n) (Fin n) α), x = ⟨ofM U, ofM S, ofM V⟩ ∧
      frobenius (values A * values V - values U * values S) ≤
        ((1 + svdError (Sfp.u α) m n fuel * Real.sqrt m) * (1 + svdError (Sfp.u α) m n fuel) - 1 + svdError (Sfp.u α) m n fuel * Real.sqrt n) *
          (frobenius (values A) + 1 / 2 ^ 915) := by
  obtain ⟨U, V, s, rfl, -, -, P, Q, hP, hQ, h1, h2, h3⟩ := C100_backward hm hn A hx
  refine ⟨U, _, V, rfl, ?_⟩
  rw [values_diag]
  have hδ := svdError_nonneg (α := α) m n fuel
  set δ := svdError (Sfp.u α) m n fuel
  set S := rectDiag m n (fun i => Sfp.val (s i))
  set a := δ * Real.sqrt m with ha
  set b := δ * Real.sqrt n with hb
  have ha0 : 0 ≤ a := mul_nonneg hδ (Real.sqrt_nonneg _)
  have hb0 : 0 ≤ b := mul_nonneg hδ (Real.sqrt_nonneg _)
  change frob (values U - P) ≤ a at h1
  change frob (values V - Q) ≤ b at h2
  change frob (values A - P * S * Qᵀ) ≤ δ * (frob (values A) + 1 / 2 ^ 915) at h3
  set t : ℝ := frob (values A) + 1 / 2 ^ 915 with ht
  have ht0 : 0 ≤ t := add_nonneg (frob_nonneg _) (by positivity)
  have hAt : frob (values A) ≤ t := le_add_of_nonneg_right (by positivity)
  show _ ≤ ((1 + a) * (1 + δ) - 1 + b) * t
  have hS : frob S ≤ (1 + δ) * t := by
    have e1 : frob S = frob (P * S * Qᵀ) := by rw [frob_mul_right _ hQ, frob_mul_left _ hP]
    have e2 : P * S * Qᵀ = values A - (values A - P * S * Qᵀ) := by abel
    rw [e1, e2]
    refine (frob_sub_le _ _).trans ?_
    linarith
  set E := values U - P with hE
  set F := values V - Q with hF
  have e : values A * values V - values U * S = (values A - P * S * Qᵀ) * Q + values A * F - E * S := by
    rw [hE, hF, Matrix.sub_mul, Matrix.mul_sub, Matrix.mul_assoc (P * S), show Qᵀ * Q = 1 from hQ, Matrix.mul_one, Matrix.sub_mul]
    abel
  rw [e]
  have q1 := frob_sub_le ((values A - P * S * Qᵀ) * Q + values A * F) (E * S)
  have q2 := frob_add_le ((values A - P * S * Qᵀ) * Q) (values A * F)
  rw [frob_mul_orth _ hQ] at q2
  have q4 := frob_mul_le E S
  have q5 := frob_mul_le (values A) F
  have r1 : frob E * frob S ≤ a * ((1 + δ) * t) := mul_le_mul h1 hS (frob_nonneg _) ha0
  have r2 : frob (values A) * frob F ≤ t * b := mul_le_mul hAt h2 (frob_nonneg _) ht0
  have : ((1 + a) * (1 + δ) - 1 + b) * t = a * ((1 + δ) * t) + t * b + δ * t := by ring
  rw [this]
  exact le_trans q1 (by linarith)

/-- C101: the norm. The computed singular values have, up to rounding, the Frobenius norm of `A`. -/
theorem C101_norm {m n : Nat} (hm : 0 < m) (hn : 0 < n) (A : Matrix (Fin m) (Fin n) α) {fuel : Nat} {x : SVD α}
    (hx : SVD.new fuel (ofM A) = .ok x) :
    ∃ S : Matrix (Fin m) (Fin n) α, x.s = ofM S ∧
      |frobenius (values S) - frobenius (values A)| ≤ svdError (Sfp.u α) m n fuel * (frobenius (values A) + 1 / 2 ^ 915) := by
  obtain ⟨U, V, s, rfl, h1, h2, P, Q, hP, hQ, -, -, h3⟩ := C100_backward hm hn A hx
  refine ⟨_, rfl, le_trans ?_ h3⟩
  rw [values_diag]
  set S := rectDiag m n (fun i => Sfp.val (s i))
  change |frob S - frob (values A)| ≤ frob (values A - P * S * Qᵀ)
  have e1 : frob S = frob (P * S * Qᵀ) := by rw [frob_mul_right _ hQ, frob_mul_left _ hP]
  rw [e1, abs_le]
  constructor
  · have := frob_add_le (P * S * Qᵀ) (values A - P * S * Qᵀ)
    rw [show P * S * Qᵀ + (values A - P * S * Qᵀ) = values A by abel] at this
    linarith
  · have := frob_sub_le (values A) (values A - P * S * Qᵀ)
    rw [show values A - (values A - P * S * Qᵀ) = P * S * Qᵀ by abel] at this
    linarith

theorem pow_bound {x : ℝ} (hx : 0 ≤ x) {r : Nat} (h : r * x ≤ 1) : (1 + x) ^ r - 1 ≤ 2 * (r * x) := by
  have h1 : (1 + x) ^ r ≤ Real.exp (r * x) := by
    rw [Real.exp_nat_mul]
    exact pow_le_pow_left₀ (by linarith) (by rw [add_comm]; exact Real.add_one_le_exp x) r
  have h0 : 0 ≤ r * x := mul_nonneg (Nat.cast_nonneg _) hx
  have h2 := Real.abs_exp_sub_one_sub_id_le (x := r * x) (by rw [abs_of_nonneg h0]; exact h)
  have h3 := (abs_le.1 h2).2
  have h4 : (r * x) ^ 2 ≤ r * x := by rw [sq]; exact mul_le_of_le_one_left h0 h
  linarith

theorem step_bound {N : Nat} (h : N ≤ 2 ^ 40) : stepError (1 / 2 ^ 53) N ≤ (80 * N + 70) / 2 ^ 53 := by
  unfold stepError
  have e : (1 - 1 / 2 ^ 53 : ℝ)⁻¹ = 1 + 1 / (2 ^ 53 - 1) := by norm_num
  rw [e]
  have hN : (N : ℝ) ≤ 1099511627776 := by exact_mod_cast h
  have h1 := pow_bound (x := 1 / (2 ^ 53 - 1)) (by norm_num) (r := 13 * N + 10) (by push_cast; norm_num; linarith)
  have h2 := pow_bound (x := 1 / (2 ^ 53 - 1)) (by norm_num) (r := 4) (by norm_num)
  push_cast at h1 h2
  norm_num at h1 h2 ⊢
  linarith

/-- C100, `f64` without overflow and underflow: the relative error is at most `min(m, n) · (iterations + 1) · (10 · max(m, n) + 9) · 2^-48`. -/
theorem C100_double {m n fuel : Nat} (hN : max m n ≤ 2 ^ 40)
    (h : ((min m n * (fuel + 1) * (10 * max m n + 9) : Nat) : ℝ) ≤ 2 ^ 47) :
    svdError (Sfp.u Fu) m n fuel ≤ ((min m n * (fuel + 1) * (10 * max m n + 9) : Nat) : ℝ) / 2 ^ 48 := by
  show svdError (1 / 2 ^ 53) m n fuel ≤ _
  unfold svdError
  have h1 := step_bound hN
  have h0 : 0 ≤ stepError (1 / 2 ^ 53) (max m n) := by
    have := (Std.kap_ok (α := Fu) (max m n)).nonneg
    rwa [kap_stepError] at this
  set N := max m n
  set r := 2 * min m n * (fuel + 1) with hr
  set x := stepError (1 / 2 ^ 53) N
  have h2 : (r : ℝ) * x ≤ (r : ℝ) * ((80 * N + 70) / 2 ^ 53) := mul_le_mul_of_nonneg_left h1 (Nat.cast_nonneg _)
  have e : ((min m n * (fuel + 1) * (10 * N + 9) : Nat) : ℝ) = (r : ℝ) * ((10 * N + 9) / 2) := by
    rw [hr]; push_cast; ring
  rw [e] at h ⊢
  have hr0 : (0 : ℝ) ≤ r := Nat.cast_nonneg _
  have h3 : (r : ℝ) * ((80 * N + 70) / 2 ^ 53) ≤ (r : ℝ) * ((10 * N + 9) / 2) / 2 ^ 49 := by
    rw [mul_div_assoc]
    refine mul_le_mul_of_nonneg_left ?_ hr0
    norm_num
    linarith
  have h4 := pow_bound h0 (r := r) (h2.trans (h3.trans ?_))
  · norm_num at h3 h4 ⊢
    linarith
  · norm_num at h ⊢
    linarith

/-- The assumption that nothing underflows is needed: for `f64` and the column `(η, η)` of the smallest subnormal number `η = 2^-1074`,
`SVD::new` returns a `U` with columns `(-1, -1)` and `(-1, 1/2)`, far from orthogonal (the norm `√2·η` is rounded to `η`). -/
theorem C100_refuted_subnormal :
    SVD.new 1 (ofM (Matrix.of fun (_ : Fin 2) (_ : Fin 1) => F64.ofRat 1 (2 ^ 1074))) =
      .ok ⟨ofM !![-1, -1; -1, F64.ofRat 1 2], ofM !![F64.ofRat 1 (2 ^ 1074); 0], ofM !![-1]⟩ := by decide +kernel

/-- A 3 × 2 matrix of the unbounded format. -/
def sampleFu : Matrix (Fin 3) (Fin 2) Fu := !![⟨1⟩, ⟨4⟩; ⟨-2⟩, ⟨7 / 2⟩; ⟨5⟩, ⟨1 / 8⟩]

/-- The run needs more than two iterations, and returns with ten. -/
theorem sample_runs : (∃ x, SVD.new 10 (ofM sampleFu) = .ok x) ∧ SVD.new 2 (ofM sampleFu) = .error .fuel := by
  have h1 : (match SVD.new 10 (ofM sampleFu) with | .ok _ => true | .error _ => false) = true := by decide +kernel
  have h2 : (match SVD.new 2 (ofM sampleFu) with | .error .fuel => true | _ => false) = true := by decide +kernel
  refine ⟨?_, ?_⟩
  · rcases h : SVD.new 10 (ofM sampleFu) with _ | x
    · rw [h] at h1; cases h1
    · exact ⟨x, rfl⟩
  · rcases h : SVD.new 2 (ofM sampleFu) with e | x
    · rw [h] at h2
      cases e <;> first | rfl | cases h2
    · rw [h] at h2; cases h2

/-- The hypotheses are met: the rounded arithmetic decomposes a 3 × 2 matrix, the factors are near orthogonal ones (the numbers of `C100_double`), ... -/
example : ∃ (x : SVD Fu) (U : Matrix (Fin 3) (Fin 3) Fu), SVD.new 10 (ofM sampleFu) = .ok x ∧ x.u = ofM U ∧
    frobenius ((values U)ᵀ * values U - 1) ≤ 1 / 2 ^ 35 := by
  obtain ⟨x, hx⟩ := sample_runs.1
  obtain ⟨U, V, h1, h2, h3, -⟩ := C100_orthogonal (by norm_num) (by norm_num) sampleFu hx
  refine ⟨x, U, hx, h1, h3.trans ?_⟩
  have hd := C100_double (m := 3) (n := 2) (fuel := 10) (by norm_num) (by norm_num)
  have h0 := svdError_nonneg (α := Fu) 3 2 10
  set d := svdError (Sfp.u Fu) 3 2 10
  have hs : Real.sqrt ((3 : Nat) : ℝ) ≤ 2 := by
    rw [Real.sqrt_le_left (by norm_num)]; norm_num
  have hd' : d ≤ 858 / 2 ^ 48 := by norm_num at hd ⊢; exact hd
  have h4 : d * Real.sqrt ((3 : Nat) : ℝ) ≤ 858 / 2 ^ 48 * 2 := mul_le_mul hd' hs (Real.sqrt_nonneg _) (by norm_num)
  have h5 : 0 ≤ d * Real.sqrt ((3 : Nat) : ℝ) := mul_nonneg h0 (Real.sqrt_nonneg _)
  have h6 : (d * Real.sqrt ((3 : Nat) : ℝ)) ^ 2 ≤ (858 / 2 ^ 48 * 2) ^ 2 := pow_le_pow_left₀ h5 h4 2
  norm_num at h4 h6 ⊢
  linarith

/-- ... the residual and the singular values obey the bounds, in exact arithmetic as well (a matrix whose exact decomposition is known). -/
example : ∃ (fuel : Nat) (x : SVD ℝ) (s : Nat → ℝ), SVD.new fuel (ofM !![3, 0; 0, (2 : ℝ)]) = .ok x ∧ x.s = ofM (rectDiag 2 2 s) ∧
    |s 0 - 3| ≤ ((min 2 2 - 1 : Nat) : ℝ) * (1 / 2 ^ 966 + 2 * (1 / 2 ^ 52) * frobenius !![3, 0; 0, (2 : ℝ)]) ∧
    |s 1 - 2| ≤ ((min 2 2 - 1 : Nat) : ℝ) * (1 / 2 ^ 966 + 2 * (1 / 2 ^ 52) * frobenius !![3, 0; 0, (2 : ℝ)]) := by
  obtain ⟨N, U, V, s, h, -⟩ := C42_svd (m := 2) (n := 2) (by norm_num) (by norm_num) !![3, 0; 0, (2 : ℝ)]
  obtain ⟨s, hs, h2⟩ := C101_exact (by norm_num) (by norm_num) _ (h N le_rfl)
  have hA : ∀ k, k < 2 → singularValue !![3, 0; 0, (2 : ℝ)] k = 3 - k := by
    intro k hk
    have h3 := singular_close (m := 2) (n := 2) (k := k) !![3, 0; 0, (2 : ℝ)] orth_one orth_one (s := fun i => 3 - i) (fun i j h _ => by
      have : (i : ℝ) ≤ j := by exact_mod_cast h
      linarith) (fun i h => by
      have : (i : ℝ) ≤ 2 := by exact_mod_cast (by omega : i ≤ 2)
      linarith) (by omega)
    have e : !![3, 0; 0, (2 : ℝ)] - 1 * rectDiag 2 2 (fun i => 3 - (i : ℝ)) * 1ᵀ = 0 := by
      ext i j
      fin_cases i <;> fin_cases j <;> norm_num [rectDiag]
    rw [e, show frob (0 : Matrix (Fin 2) (Fin 2) ℝ) = 0 by simp [frob]] at h3
    linarith [abs_nonpos_iff.1 h3]
  have h0 := h2 0 (by norm_num)
  have h1 := h2 1 (by norm_num)
  rw [hA _ (by norm_num)] at h0 h1
  refine ⟨N, _, s, h N le_rfl, hs, ?_, ?_⟩
  · norm_num at h0 ⊢; exact h0
  · norm_num at h1 ⊢; exact h1

end LA.Props
