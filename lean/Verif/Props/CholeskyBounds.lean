import Verif.Props.Forward
import Verif.Props.QRRounding
import Mathlib.Algebra.Order.Chebyshev

/-!
# C104: Cholesky on doubles, in terms of the matrix alone

C64 bounds the errors of the Cholesky decomposition in terms of the computed factor.  Here the factor is eliminated: the rows of `L` have
norms close to the roots of the diagonal of `A`.  `tiny` covers underflow.
-/

namespace LA.Props
open LA Finset Fp
set_option linter.unusedSectionVars false

section
variable {α : Type} [Zero α] [One α] [Add α] [Sub α] [Neg α] [Mul α] [FloatOps α] [Fp α] {n : Nat}

/-- The entries of a product of rows are at most the product of the norms of the rows. -/
theorem rows_le (L : Matrix (Fin n) (Fin n) ℝ) (i k : Fin n) :
    ∑ t, |L i t| * |L k t| ≤ √(∑ t, L i t ^ 2) * √(∑ t, L k t ^ 2) := by
  have := Real.sum_mul_le_sqrt_mul_sqrt univ (fun t => |L i t|) (fun t => |L k t|)
  simpa [sq_abs] using this

/-- An entry is at most the norm of its row. -/
theorem entry_le (L : Matrix (Fin n) (Fin n) ℝ) (i t : Fin n) : |L i t| ≤ √(∑ t, L i t ^ 2) := by
  rw [← Real.sqrt_sq_eq_abs]
  exact Real.sqrt_le_sqrt (single_le_sum (f := fun t => L i t ^ 2) (fun _ _ => sq_nonneg _) (mem_univ t))

/-- The square of the norm of a row of the factor is the diagonal entry of the matrix, up to rounding. -/
theorem row_sq {A L : Matrix (Fin n) (Fin n) α}
    (h : ∀ i k, |val (A i k) - ∑ t, val (L i t) * val (L k t)| ≤
      γ α (n + 2) * (∑ t, |val (L i t)| * |val (L k t)|) + θ α n + (1 + u α) * η α * |val (L (min i k) (min i k))|) (i : Fin n) :
    (1 - γ α (n + 2) - 2 * η α) * (∑ t, val (L i t) ^ 2) ≤ val (A i i) + θ α n + 2 * η α := by
  have h1 := (abs_le.mp (h i i)).1
  have e1 : ∑ t, val (L i t) * val (L i t) = ∑ t, val (L i t) ^ 2 := sum_congr rfl fun t _ => (sq _).symm
  have e2 : ∑ t, |val (L i t)| * |val (L i t)| = ∑ t, val (L i t) ^ 2 := sum_congr rfl fun t _ => by rw [abs_mul_abs_self, sq]
  rw [e1, e2, min_self] at h1
  have h2 : val (L i i) ^ 2 ≤ ∑ t, val (L i t) ^ 2 := single_le_sum (f := fun t => val (L i t) ^ 2) (fun _ _ => sq_nonneg _) (mem_univ i)
  generalize ∑ t, val (L i t) ^ 2 = s at *
  have h3 : |val (L i i)| ≤ 1 + s := by
    have := sq_abs (val (L i i))
    nlinarith [sq_nonneg (|val (L i i)| - 1), abs_nonneg (val (L i i))]
  have hη := η_nonneg (α := α)
  have hu := u_lt_one (α := α)
  have hu0 := u_nonneg (α := α)
  have hs : 0 ≤ s := le_trans (sq_nonneg _) h2
  have h4 : (1 + u α) * η α * |val (L i i)| ≤ 2 * η α * (1 + s) :=
    mul_le_mul (mul_le_mul_of_nonneg_right (by linarith) hη) h3 (abs_nonneg _) (by linarith)
  linarith

end

/-! ## Doubles -/

/-- Covers all underflow. -/
noncomputable def tiny : ℝ := 1 / 2 ^ 900

theorem tiny_pos : 0 < tiny := by unfold tiny; positivity

theorem tiny_le : tiny ≤ 1 := by
  unfold tiny
  rw [div_le_one (by positivity)]
  exact one_le_pow₀ (by norm_num)

theorem eta_tiny : η F64 = tiny * (1 / 2 ^ 175) := by
  have hη : η F64 = F64.U / 2 := rfl
  rw [hη]
  unfold F64.U tiny
  rw [one_div_mul_one_div, ← pow_add, div_div, ← pow_succ]

theorem gamma_f64 {k : Nat} (h : k ≤ 2 ^ 40) : γ F64 k ≤ k / 2 ^ 52 := by
  have hu : u F64 = 1 / 2 ^ 53 := rfl
  have hk : (k : ℝ) ≤ 1099511627776 := by exact_mod_cast h
  unfold γ
  have := pow_le_linear (x := u F64) (k := k) (by rw [hu]; positivity) (by rw [hu]; norm_num; linarith)
  rw [hu] at this ⊢
  norm_num at this ⊢
  linarith

theorem pow_f64 {k : Nat} (h : k ≤ 2 ^ 40) : (1 + u F64) ^ k ≤ 2 := by
  have := gamma_f64 h
  have hk : (k : ℝ) ≤ 1099511627776 := by exact_mod_cast h
  unfold γ at this
  norm_num at this ⊢
  linarith

theorem theta_f64 {n : Nat} (h : n ≤ 2 ^ 20) : θ F64 n ≤ tiny * (1 / 2 ^ 154) := by
  have hn : (n : ℝ) ≤ 2 ^ 20 := by exact_mod_cast h
  have h1 := pow_f64 (k := n) (by omega)
  have h0 : 0 ≤ (1 + u F64) ^ n := by have := u_nonneg (α := F64); positivity
  unfold θ
  rw [eta_tiny]
  have := tiny_pos
  calc (n : ℝ) * (1 + u F64) ^ n * (tiny * (1 / 2 ^ 175)) ≤ 2 ^ 20 * 2 * (tiny * (1 / 2 ^ 175)) := by
        refine mul_le_mul_of_nonneg_right (mul_le_mul hn h1 h0 (by norm_num)) (by positivity)
    _ = tiny * (1 / 2 ^ 154) := by norm_num; ring

variable {n : Nat}

/-- What C64 says about an accepted matrix. -/
def Accepted (A L : Matrix (Fin n) (Fin n) F64) : Prop :=
  ∀ i k, |(A i k).toReal - ∑ t, (L i t).toReal * (L k t).toReal| ≤
    γ F64 (n + 2) * (∑ t, |(L i t).toReal| * |(L k t).toReal|) + θ F64 n + (1 + u F64) * η F64 * |(L (min i k) (min i k)).toReal|

theorem accepted (hn : 0 < n) {A L : Matrix (Fin n) (Fin n) F64} (hA : ∀ i j, (A i j).isFin) {c : Cholesky F64}
    (hc : Cholesky.new (ofM A) = .ok (some c)) (hL : c.getL = ofM L) (hf : ∀ i j, (L i j).isFin) : Accepted A L := by
  rcases C64_cholesky hn A hA with h | ⟨c', L', h1, h2, -, h3⟩
  · rw [h] at hc; cases hc
  · rw [hc] at h1
    obtain rfl : c = c' := by injection h1 with h1; injection h1
    rw [hL] at h2
    obtain rfl := ofM_inj h2
    exact (h3 hf).2

/-- The squares of the row norms. -/
noncomputable def rowSq (L : Matrix (Fin n) (Fin n) F64) (i : Fin n) : ℝ := ∑ t, (L i t).toReal ^ 2

theorem rowSq_nonneg (L : Matrix (Fin n) (Fin n) F64) (i : Fin n) : 0 ≤ rowSq L i := sum_nonneg fun _ _ => sq_nonneg _

/-- The rows of `L`, and the diagonal of `A`. -/
theorem rowSq_le (hn : n ≤ 2 ^ 20) {A L : Matrix (Fin n) (Fin n) F64} (h : Accepted A L) (i : Fin n) :
    rowSq L i ≤ (1 + 1 / 2 ^ 29) * ((A i i).toReal + tiny / 2) ∧ 0 ≤ (A i i).toReal + tiny / 2 := by
  have h1 := row_sq (α := F64) h i
  have e : ∑ t, val (L i t) ^ 2 = rowSq L i := rfl
  have e' : val (A i i) = (A i i).toReal := rfl
  rw [e, e'] at h1
  have hs := rowSq_nonneg L i
  generalize rowSq L i = s at *
  generalize (A i i).toReal = a at *
  have hθ := theta_f64 hn
  have hγ := gamma_f64 (k := n + 2) (by omega)
  have hn' : (n : ℝ) ≤ 1048576 := by exact_mod_cast hn
  have ht := tiny_pos
  have ht1 := tiny_le
  rw [eta_tiny] at h1
  push_cast at hγ
  have hγ' : γ F64 (n + 2) ≤ 1 / 2 ^ 31 := by norm_num at hγ ⊢; linarith
  have h2 : (1 - 1 / 2 ^ 31 - 1 / 2 ^ 100) * s ≤ (1 - γ F64 (n + 2) - 2 * (tiny * (1 / 2 ^ 175))) * s := by
    refine mul_le_mul_of_nonneg_right ?_ hs
    norm_num at hγ' ⊢
    linarith
  have h3 : (1 - 1 / 2 ^ 31 - 1 / 2 ^ 100) * s ≤ a + tiny / 2 := by
    norm_num at h1 h2 hθ ⊢
    linarith
  have h4 : 0 ≤ a + tiny / 2 := le_trans (mul_nonneg (by norm_num) hs) h3
  refine ⟨?_, h4⟩
  generalize a + tiny / 2 = b at *
  norm_num at h3 ⊢
  linarith

/-- The root of the product of two diagonal entries. -/
noncomputable def scale (A : Matrix (Fin n) (Fin n) F64) (i k : Fin n) : ℝ :=
  √(((A i i).toReal + tiny) * ((A k k).toReal + tiny))

theorem root_le (hn : n ≤ 2 ^ 20) {A L : Matrix (Fin n) (Fin n) F64} (h : Accepted A L) (i k : Fin n) :
    √(rowSq L i) * √(rowSq L k) ≤ (1 + 1 / 2 ^ 29) * scale A i k := by
  have h1 := rowSq_le hn h i
  have h2 := rowSq_le hn h k
  have ht := tiny_pos
  rw [← Real.sqrt_mul (rowSq_nonneg L i)]
  unfold scale
  rw [show (1 + 1 / 2 ^ 29 : ℝ) = √((1 + 1 / 2 ^ 29) ^ 2) from (Real.sqrt_sq (by norm_num)).symm, ← Real.sqrt_mul (by positivity)]
  refine Real.sqrt_le_sqrt ?_
  calc rowSq L i * rowSq L k ≤ ((1 + 1 / 2 ^ 29) * ((A i i).toReal + tiny / 2)) * ((1 + 1 / 2 ^ 29) * ((A k k).toReal + tiny / 2)) :=
        mul_le_mul h1.1 h2.1 (rowSq_nonneg L k) (mul_nonneg (by norm_num) h1.2)
    _ ≤ ((1 + 1 / 2 ^ 29) * ((A i i).toReal + tiny)) * ((1 + 1 / 2 ^ 29) * ((A k k).toReal + tiny)) := by
        refine mul_le_mul ?_ ?_ (mul_nonneg (by norm_num) h2.2) (mul_nonneg (by norm_num) (by linarith [h1.2]))
        · exact mul_le_mul_of_nonneg_left (by linarith) (by norm_num)
        · exact mul_le_mul_of_nonneg_left (by linarith) (by norm_num)
    _ = _ := by ring

theorem scale_ge (hn : n ≤ 2 ^ 20) {A L : Matrix (Fin n) (Fin n) F64} (h : Accepted A L) (i k : Fin n) : tiny / 2 ≤ scale A i k := by
  have h1 := (rowSq_le hn h i).2
  have h2 := (rowSq_le hn h k).2
  have ht := tiny_pos
  unfold scale
  refine Real.le_sqrt_of_sq_le ?_
  rw [sq]
  exact mul_le_mul (by linarith) (by linarith) (by linarith) (by linarith)

/-- `η` times an entry of `L` is negligible. -/
theorem eta_entry (hn : n ≤ 2 ^ 20) {A L : Matrix (Fin n) (Fin n) F64} (h : Accepted A L) (i k j : Fin n) (hj : j = i ∨ j = k) :
    η F64 * |(L j j).toReal| ≤ 1 / 2 ^ 170 * scale A i k := by
  have h1 := entry_le (Matrix.of fun i j => (L i j).toReal) j j
  simp only [Matrix.of_apply] at h1
  have ht := tiny_pos
  have ht1 := tiny_le
  -- the entry is at most twice the scale over the root of the other factor
  have key : ∀ p q : Fin n, √(rowSq L p) * (tiny / 2) ≤ 2 * scale A p q := by
    intro p q
    have a1 := rowSq_le hn h p
    have a2 := rowSq_le hn h q
    have b1 : √(rowSq L p) ≤ √(2 * ((A p p).toReal + tiny)) := Real.sqrt_le_sqrt (a1.1.trans (by
      have : (1 + 1 / 2 ^ 29 : ℝ) * ((A p p).toReal + tiny / 2) ≤ 2 * ((A p p).toReal + tiny / 2) :=
        mul_le_mul_of_nonneg_right (by norm_num) a1.2
      linarith))
    have b2 : tiny / 2 ≤ √((A q q).toReal + tiny) := by
      refine Real.le_sqrt_of_sq_le ?_
      have : (tiny / 2) ^ 2 ≤ tiny / 2 := by rw [sq]; exact mul_le_of_le_one_left (by linarith) (by linarith)
      linarith [a2.2]
    have b3 : √(2 * ((A p p).toReal + tiny)) ≤ 2 * √((A p p).toReal + tiny) := by
      rw [Real.sqrt_mul (by norm_num)]
      refine mul_le_mul_of_nonneg_right ?_ (Real.sqrt_nonneg _)
      rw [Real.sqrt_le_left (by norm_num)]; norm_num
    have b4 : scale A p q = √((A p p).toReal + tiny) * √((A q q).toReal + tiny) := Real.sqrt_mul (by linarith [a1.2]) _
    rw [b4]
    calc √(rowSq L p) * (tiny / 2) ≤ (2 * √((A p p).toReal + tiny)) * √((A q q).toReal + tiny) :=
          mul_le_mul (b1.trans b3) b2 (by linarith) (by positivity)
      _ = _ := by ring
  have hcomm : scale A k i = scale A i k := by unfold scale; rw [mul_comm]
  have h2 : √(rowSq L j) * (tiny / 2) ≤ 2 * scale A i k := by
    rcases hj with rfl | rfl
    · exact key _ k
    · exact hcomm ▸ key _ i
  have h3 : |(L j j).toReal| ≤ √(rowSq L j) := h1
  have hs : 0 ≤ scale A i k := Real.sqrt_nonneg _
  rw [eta_tiny]
  have h4 : |(L j j).toReal| * (tiny / 2) ≤ 2 * scale A i k := (mul_le_mul_of_nonneg_right h3 (by linarith)).trans h2
  norm_num at h4 ⊢
  linarith

/-- C104: `L * L'` is `A` up to `(n+3)` units of rounding, relative to the diagonal of `A`: no condition, no growth. -/
theorem C104_backward (hn : 0 < n) (hn20 : n ≤ 2 ^ 20) {A L : Matrix (Fin n) (Fin n) F64} (hA : ∀ i j, (A i j).isFin) {c : Cholesky F64}
    (hc : Cholesky.new (ofM A) = .ok (some c)) (hL : c.getL = ofM L) (hf : ∀ i j, (L i j).isFin) (i k : Fin n) :
    |(A i k).toReal - ∑ t, (L i t).toReal * (L k t).toReal| ≤
      (n + 3) / 2 ^ 52 * √(((A i i).toReal + tiny) * ((A k k).toReal + tiny)) := by
  have h := accepted hn hA hc hL hf
  have h1 := h i k
  have h2 := rows_le (Matrix.of fun i j => (L i j).toReal) i k
  simp only [Matrix.of_apply] at h2
  have h3 := root_le hn20 h i k
  have h4 := scale_ge hn20 h i k
  have h5 := eta_entry hn20 h i k (min i k) (by rcases min_choice i k with h | h <;> simp [h])
  have h6 := theta_f64 hn20
  have h7 := gamma_f64 (k := n + 2) (by omega)
  have hγ0 := γ_nonneg (α := F64) (n + 2)
  push_cast at h7
  have hn' : (n : ℝ) ≤ 2 ^ 20 := by exact_mod_cast hn20
  have hn0 : (0 : ℝ) ≤ n := by positivity
  have ht := tiny_pos
  change _ ≤ (n + 3) / 2 ^ 52 * scale A i k
  have h8 : ∑ t, |(L i t).toReal| * |(L k t).toReal| ≤ (1 + 1 / 2 ^ 29) * scale A i k := h2.trans h3
  generalize scale A i k = S at *
  have hS : 0 ≤ S := le_trans (by linarith) h4
  have h9 : γ F64 (n + 2) * (∑ t, |(L i t).toReal| * |(L k t).toReal|) ≤ (n + 2) / 2 ^ 52 * ((1 + 1 / 2 ^ 29) * S) :=
    mul_le_mul h7 h8 (sum_nonneg fun _ _ => by positivity) (by positivity)
  have h10 : (1 + u F64) * η F64 * |(L (min i k) (min i k)).toReal| ≤ 2 * (1 / 2 ^ 170 * S) := by
    rw [mul_assoc]
    refine mul_le_mul ?_ h5 (mul_nonneg η_nonneg (abs_nonneg _)) (by norm_num)
    have := u_lt_one (α := F64); linarith
  have h11 : (n : ℝ) * S ≤ 2 ^ 20 * S := mul_le_mul_of_nonneg_right hn' hS
  refine h1.trans ?_
  norm_num at h4 h6 h9 h10 h11 ⊢
  linarith

/-- C104: an accepted matrix is positive semidefinite up to rounding: a quadratic form that is negative beyond that is rejected. -/
theorem C104_semidefinite (hn : 0 < n) (hn20 : n ≤ 2 ^ 20) {A L : Matrix (Fin n) (Fin n) F64} (hA : ∀ i j, (A i j).isFin) {c : Cholesky F64}
    (hc : Cholesky.new (ofM A) = .ok (some c)) (hL : c.getL = ofM L) (hf : ∀ i j, (L i j).isFin) (x : Fin n → ℝ) :
    -((n + 3) / 2 ^ 52 * (∑ i, √((A i i).toReal + tiny) * |x i|) ^ 2) ≤ ∑ i, ∑ k, x i * (A i k).toReal * x k := by
  have h := accepted hn hA hc hL hf
  have h1 := C104_backward hn hn20 hA hc hL hf
  have e1 : ∑ i, ∑ k, x i * (∑ t, (L i t).toReal * (L k t).toReal) * x k = ∑ t, (∑ i, x i * (L i t).toReal) ^ 2 := by
    have : ∀ t, (∑ i, x i * (L i t).toReal) ^ 2 = ∑ i, ∑ k, x i * ((L i t).toReal * (L k t).toReal) * x k := by
      intro t
      rw [sq, sum_mul_sum]
      exact sum_congr rfl fun i _ => sum_congr rfl fun k _ => by ring
    simp only [this]
    symm
    rw [sum_comm]
    refine sum_congr rfl fun i _ => ?_
    rw [sum_comm]
    refine sum_congr rfl fun k _ => ?_
    rw [mul_sum, sum_mul]
  have h2 : 0 ≤ ∑ i, ∑ k, x i * (∑ t, (L i t).toReal * (L k t).toReal) * x k := by
    rw [e1]; exact sum_nonneg fun _ _ => sq_nonneg _
  have h3 : ∀ i k, x i * (∑ t, (L i t).toReal * (L k t).toReal) * x k -
      (n + 3) / 2 ^ 52 * ((√((A i i).toReal + tiny) * |x i|) * (√((A k k).toReal + tiny) * |x k|)) ≤ x i * (A i k).toReal * x k := by
    intro i k
    have a1 := h1 i k
    rw [Real.sqrt_mul (by linarith [(rowSq_le hn20 h i).2, tiny_pos])] at a1
    have a2 := mul_le_mul_of_nonneg_right a1 (mul_nonneg (abs_nonneg (x i)) (abs_nonneg (x k)))
    rw [← abs_mul, ← abs_mul] at a2
    have a3 := (abs_le.mp a2).1
    rw [abs_mul] at a3
    nlinarith
  have h4 := sum_le_sum fun i (_ : i ∈ univ) => sum_le_sum fun k (_ : k ∈ univ) => h3 i k
  simp only [sum_sub_distrib, ← mul_sum] at h4
  rw [sq, sum_mul_sum]
  simp only [← mul_sum] at h4 ⊢
  linarith

/-- C104: so `new` rejects an indefinite matrix, unless the factor overflows. -/
theorem C104_rejects (hn : 0 < n) (hn20 : n ≤ 2 ^ 20) {A : Matrix (Fin n) (Fin n) F64} (hA : ∀ i j, (A i j).isFin) (x : Fin n → ℝ)
    (hx : ∑ i, ∑ k, x i * (A i k).toReal * x k < -((n + 3) / 2 ^ 52 * (∑ i, √((A i i).toReal + tiny) * |x i|) ^ 2)) :
    Cholesky.new (ofM A) = .ok none ∨
    ∃ (c : Cholesky F64) (L : Matrix (Fin n) (Fin n) F64), Cholesky.new (ofM A) = .ok (some c) ∧ c.getL = ofM L ∧ ∃ i j, ¬ (L i j).isFin := by
  rcases C64_cholesky hn A hA with h | ⟨c, L, h1, h2, -, -⟩
  · exact Or.inl h
  · refine Or.inr ⟨c, L, h1, h2, ?_⟩
    by_contra hcon
    have hf : ∀ i j, (L i j).isFin := fun i j => by
      by_contra hij
      exact hcon ⟨i, j, hij⟩
    exact absurd (C104_semidefinite hn hn20 hA h1 h2 hf x) (not_le.mpr hx)

/-- C104: overflow does make `new` accept indefinite matrices: this one is finite and symmetric, its quadratic form takes negative values, and the "factor" contains
an infinity and NaN. -/
theorem C104_refuted_nan :
    Cholesky.new (ofM (!![two (-1000), 0, two 1000; 0, 1, 0; two 1000, 0, 1] : Matrix (Fin 3) (Fin 3) F64)) =
      .ok (some ⟨ofM !![two (-500), 0, 0; 0, 1, 0; .inf false, .nan, .nan]⟩) ∧
    (∀ i j, ((!![two (-1000), 0, two 1000; 0, 1, 0; two 1000, 0, 1] : Matrix (Fin 3) (Fin 3) F64) i j).isFin) ∧
    ∃ x : Fin 3 → ℝ, ∑ i, ∑ k, x i * ((!![two (-1000), 0, two 1000; 0, 1, 0; two 1000, 0, 1] : Matrix (Fin 3) (Fin 3) F64) i k).toReal * x k < 0 := by
  refine ⟨by decide +kernel, fun i j => by fin_cases i <;> fin_cases j <;> decide +kernel, ![1, 0, -1], ?_⟩
  have h1 : (two (-1000)).toReal ≤ 1 := by
    have h : two (-1000) = .fin false (2 ^ 74) (by decide +kernel) := by decide +kernel
    rw [h, f64_fin_toReal, mul_one_div, div_le_one (by positivity), Nat.cast_pow, Nat.cast_ofNat]
    exact pow_le_pow_right₀ (by norm_num) (by norm_num)
  have h2 : (2 : ℝ) ≤ (two 1000).toReal := by
    have h : two 1000 = .fin false (2 ^ 2074) (by decide +kernel) := by decide +kernel
    rw [h, f64_fin_toReal, mul_one_div, le_div_iff₀ (by positivity)]
    push_cast
    rw [← pow_succ']
    exact pow_le_pow_right₀ (by norm_num) (by norm_num)
  have t0 : (0 : F64).toReal = 0 := (Fp.zero (α := F64)).2
  have t1 : (1 : F64).toReal = 1 := (Fp.one (α := F64)).2
  simp [Fin.sum_univ_three, t0, t1]
  linarith

/-- C104: the residual of `solve`, in terms of the matrix and the solution alone (`W` bounds the diagonal): backward stable without any condition on the matrix. -/
theorem C104_solve {p : Nat} (hn : 0 < n) (hp : 0 < p) (hn20 : n ≤ 2 ^ 20) {A L : Matrix (Fin n) (Fin n) F64} (hA : ∀ i j, (A i j).isFin)
    {c : Cholesky F64} (hc : Cholesky.new (ofM A) = .ok (some c)) (hL : c.getL = ofM L) (hf : ∀ i j, (L i j).isFin)
    (W : ℝ) (hW : 1 ≤ W) (hdiag : ∀ i, (A i i).toReal ≤ W) (B : Matrix (Fin n) (Fin p) F64) :
    ∃ X : Matrix (Fin n) (Fin p) F64, c.solve (ofM B) = .ok (ofM X) ∧ ((∀ i j, (X i j).isFin) → ∀ i j,
      |(B i j).toReal - ∑ k, (A i k).toReal * (X k j).toReal| ≤
        (3 * n + 3) / 2 ^ 52 * ∑ k, √(((A i i).toReal + tiny) * ((A k k).toReal + tiny)) * |(X k j).toReal| +
        tiny * W * (1 + ∑ k, |(X k j).toReal|)) := by
  have h := accepted hn hA hc hL hf
  obtain ⟨L', X, h1, h2, h3⟩ := C64_solve hn hp A hA B c hc
  rw [hL] at h1
  obtain rfl := ofM_inj h1
  refine ⟨X, h2, fun hX i j => ?_⟩
  have h4 := h3 hf hX i j
  change |(B i j).toReal - ∑ k, (A i k).toReal * (X k j).toReal| ≤ γ F64 (3 * n + 2) * (∑ k, |(L i k).toReal| * ∑ c, |(L c k).toReal| * |(X c j).toReal|) +
    η F64 * (1 + u F64) ^ (2 * n) * ((n + |(L i i).toReal|) + (∑ k, |(L i k).toReal| * (n + |(L k k).toReal|)) +
      ∑ c, (n + |(L (min i c) (min i c)).toReal|) * |(X c j).toReal|) at h4
  have hn' : (n : ℝ) ≤ 1048576 := by exact_mod_cast hn20
  have hn0 : (0 : ℝ) ≤ n := by positivity
  have hn1 : (1 : ℝ) ≤ n := by exact_mod_cast hn
  have ht := tiny_pos
  have ht1 := tiny_le
  have hγ := gamma_f64 (k := 3 * n + 2) (by omega)
  push_cast at hγ
  have hpow := pow_f64 (k := 2 * n) (by omega)
  have hx0 : 0 ≤ ∑ k, |(X k j).toReal| := sum_nonneg fun _ _ => abs_nonneg _
  -- the entries of the factor
  have hent : ∀ i k, |(L i k).toReal| ≤ 2 * W := by
    intro i k
    have a1 := entry_le (Matrix.of fun i j => (L i j).toReal) i k
    simp only [Matrix.of_apply] at a1
    have a2 := rowSq_le hn20 h i
    refine a1.trans (Real.sqrt_le_iff.mpr ⟨by linarith, ?_⟩)
    refine a2.1.trans ?_
    have a3 : (A i i).toReal + tiny / 2 ≤ 2 * W := by linarith [hdiag i]
    have a4 : (1 + 1 / 2 ^ 29) * ((A i i).toReal + tiny / 2) ≤ 2 * (2 * W) := mul_le_mul (by norm_num) a3 a2.2 (by norm_num)
    nlinarith
  have hprod : ∑ k, |(L i k).toReal| * |(L k k).toReal| ≤ n * (4 * W) := by
    have hrow : ∀ q, √(rowSq L q) ≤ 2 * √W := by
      intro q
      have a2 := rowSq_le hn20 h q
      rw [show 2 * √W = √(4 * W) by rw [Real.sqrt_mul (by norm_num), show (4 : ℝ) = 2 ^ 2 by norm_num, Real.sqrt_sq (by norm_num)]]
      refine Real.sqrt_le_sqrt (a2.1.trans ?_)
      have a3 : (A q q).toReal + tiny / 2 ≤ 2 * W := by linarith [hdiag q]
      have a4 : (1 + 1 / 2 ^ 29) * ((A q q).toReal + tiny / 2) ≤ 2 * (2 * W) := mul_le_mul (by norm_num) a3 a2.2 (by norm_num)
      linarith
    have : ∀ k, |(L i k).toReal| * |(L k k).toReal| ≤ 4 * W := by
      intro k
      have a1 := entry_le (Matrix.of fun i j => (L i j).toReal) i k
      have a2 := entry_le (Matrix.of fun i j => (L i j).toReal) k k
      simp only [Matrix.of_apply] at a1 a2
      have a3 : |(L i k).toReal| ≤ 2 * √W := a1.trans (hrow i)
      have a4 : |(L k k).toReal| ≤ 2 * √W := a2.trans (hrow k)
      calc |(L i k).toReal| * |(L k k).toReal| ≤ (2 * √W) * (2 * √W) := mul_le_mul a3 a4 (abs_nonneg _) (by positivity)
        _ = 4 * (√W * √W) := by ring
        _ = 4 * W := by rw [Real.mul_self_sqrt (by linarith)]
    calc _ ≤ ∑ _k : Fin n, 4 * W := sum_le_sum fun k _ => this k
      _ = _ := by simp
  have hsum : ∑ k, |(L i k).toReal| * (n + |(L k k).toReal|) ≤ n * (n * (2 * W)) + n * (4 * W) := by
    have e : ∀ k, |(L i k).toReal| * (n + |(L k k).toReal|) = n * |(L i k).toReal| + |(L i k).toReal| * |(L k k).toReal| := fun k => by ring
    simp only [e, sum_add_distrib, ← mul_sum]
    refine add_le_add (mul_le_mul_of_nonneg_left ?_ hn0) hprod
    calc _ ≤ ∑ _k : Fin n, 2 * W := sum_le_sum fun k _ => hent i k
      _ = _ := by simp
  have hlast : ∑ c, (n + |(L (min i c) (min i c)).toReal|) * |(X c j).toReal| ≤ (n + 2 * W) * ∑ k, |(X k j).toReal| := by
    rw [mul_sum]
    exact sum_le_sum fun k _ => mul_le_mul_of_nonneg_right (by linarith [hent (min i k) (min i k)]) (abs_nonneg _)
  have hmain : ∑ k, |(L i k).toReal| * ∑ c, |(L c k).toReal| * |(X c j).toReal| ≤ (1 + 1 / 2 ^ 29) * ∑ k, scale A i k * |(X k j).toReal| := by
    have e : ∑ k, |(L i k).toReal| * ∑ c, |(L c k).toReal| * |(X c j).toReal| =
        ∑ c, (∑ k, |(L i k).toReal| * |(L c k).toReal|) * |(X c j).toReal| := by
      simp only [mul_sum, sum_mul]
      rw [sum_comm]
      exact sum_congr rfl fun c _ => sum_congr rfl fun k _ => by ring
    rw [e, mul_sum]
    refine sum_le_sum fun k _ => ?_
    rw [← mul_assoc]
    refine mul_le_mul_of_nonneg_right ?_ (abs_nonneg _)
    have h2 := rows_le (Matrix.of fun i j => (L i j).toReal) i k
    simp only [Matrix.of_apply] at h2
    exact h2.trans (root_le hn20 h i k)
  change _ ≤ (3 * n + 3) / 2 ^ 52 * (∑ k, scale A i k * |(X k j).toReal|) + _
  have hS : 0 ≤ ∑ k, scale A i k * |(X k j).toReal| := sum_nonneg fun _ _ => mul_nonneg (Real.sqrt_nonneg _) (abs_nonneg _)
  generalize ∑ k, scale A i k * |(X k j).toReal| = S at *
  have b1 : γ F64 (3 * n + 2) * (∑ k, |(L i k).toReal| * ∑ c, |(L c k).toReal| * |(X c j).toReal|) ≤ (3 * n + 2) / 2 ^ 52 * ((1 + 1 / 2 ^ 29) * S) :=
    mul_le_mul hγ hmain (sum_nonneg fun _ _ => mul_nonneg (abs_nonneg _) (sum_nonneg fun _ _ => by positivity)) (by positivity)
  have b2 : (3 * n + 2) / 2 ^ 52 * ((1 + 1 / 2 ^ 29) * S) ≤ (3 * n + 3) / 2 ^ 52 * S := by
    have : (n : ℝ) * S ≤ 1048576 * S := mul_le_mul_of_nonneg_right hn' hS
    norm_num
    linarith
  generalize ∑ k, |(X k j).toReal| = x at *
  have b3 : (n + |(L i i).toReal|) + (∑ k, |(L i k).toReal| * (n + |(L k k).toReal|)) +
      ∑ c, (n + |(L (min i c) (min i c)).toReal|) * |(X c j).toReal| ≤ 2 ^ 43 * W * (1 + x) := by
    have c1 := hent i i
    have c2 : n * (n * (2 * W)) ≤ 1048576 * (1048576 * (2 * W)) := by
      have : (n : ℝ) * (2 * W) ≤ 1048576 * (2 * W) := mul_le_mul_of_nonneg_right hn' (by linarith)
      exact mul_le_mul hn' this (by positivity) (by norm_num)
    have c3 : (n : ℝ) * (4 * W) ≤ 1048576 * (4 * W) := mul_le_mul_of_nonneg_right hn' (by linarith)
    have c4 : (n + 2 * W) * x ≤ (1048576 * W + 2 * W) * x := mul_le_mul_of_nonneg_right (by linarith) hx0
    have c5 : 0 ≤ W * x := mul_nonneg (by linarith) hx0
    norm_num
    linarith
  have b4 : η F64 * (1 + u F64) ^ (2 * n) ≤ tiny * (1 / 2 ^ 174) := by
    rw [eta_tiny]
    have : tiny * (1 / 2 ^ 175) * (1 + u F64) ^ (2 * n) ≤ tiny * (1 / 2 ^ 175) * 2 := mul_le_mul_of_nonneg_left hpow (by positivity)
    norm_num at this ⊢
    linarith
  have b5 := mul_le_mul b4 b3 (add_nonneg (add_nonneg (add_nonneg hn0 (abs_nonneg _)) (sum_nonneg fun _ _ => by positivity))
    (sum_nonneg fun _ _ => by positivity)) (by positivity)
  have b6 : tiny * (1 / 2 ^ 174) * (2 ^ 43 * W * (1 + x)) ≤ tiny * W * (1 + x) := by
    have : 0 ≤ tiny * W * (1 + x) := mul_nonneg (mul_nonneg ht.le (by linarith)) (by linarith)
    norm_num
    linarith
  linarith

/-- C104: a symmetric matrix with entries of at most `M` whose smallest eigenvalue is at least `n (n+6) 2^-51` times `M` is accepted, with a finite factor. -/
theorem C104_accepts (hn : 0 < n) (hn20 : n ≤ 2 ^ 20) {A : Matrix (Fin n) (Fin n) F64} (hA : ∀ i j, (A i j).isFin)
    (hsym : ∀ i j, (A i j).toReal = (A j i).toReal) (M : ℝ) (hM1 : tiny ≤ M) (hM2 : M ≤ 2 ^ 1000) (hM : ∀ i j, |(A i j).toReal| ≤ M)
    (hpd : ∀ x : Fin n → ℝ, x ≠ 0 → n * (n + 6) / 2 ^ 51 * M * ∑ i, x i ^ 2 ≤ ∑ i, ∑ k, x i * (A i k).toReal * x k) :
    ∃ (c : Cholesky F64) (L : Matrix (Fin n) (Fin n) F64), Cholesky.new (ofM A) = .ok (some c) ∧ c.getL = ofM L ∧ ∀ i j, (L i j).isFin := by
  have hn' : (n : ℝ) ≤ 1048576 := by exact_mod_cast hn20
  have hn0 : (0 : ℝ) ≤ n := by positivity
  have hn1 : (1 : ℝ) ≤ n := by exact_mod_cast hn
  have ht := tiny_pos
  have hγ := gamma_f64 (k := n + 4) (by omega)
  have hγ0 := γ_nonneg (α := F64) (n + 4)
  push_cast at hγ
  have hθ := theta_f64 hn20
  have hM0 : 0 < M := lt_of_lt_of_le ht hM1
  have hu : u F64 = 1 / 2 ^ 53 := rfl
  have hu1 := u_lt_one (α := F64)
  have hu0 := u_nonneg (α := F64)
  have hroot : η F64 * √(2 * M) ≤ M * (1 / 2 ^ 170) := by
    have e1 : √(2 * M) ≤ M * 2 / tiny := by
      refine Real.sqrt_le_iff.mpr ⟨by positivity, ?_⟩
      have e2 : 1 ≤ M / tiny := by rw [le_div_iff₀ ht]; linarith
      have e3 : (M * 2 / tiny) ^ 2 = 4 * (M / tiny) * (M / tiny) := by ring
      have e4 : M ≤ M / tiny := by rw [le_div_iff₀ ht]; exact mul_le_of_le_one_right hM0.le tiny_le
      rw [e3]
      nlinarith
    rw [eta_tiny]
    calc tiny * (1 / 2 ^ 175) * √(2 * M) ≤ tiny * (1 / 2 ^ 175) * (M * 2 / tiny) := mul_le_mul_of_nonneg_left e1 (by positivity)
      _ = M * (2 / 2 ^ 175) := by field_simp
      _ ≤ _ := mul_le_mul_of_nonneg_left (by norm_num) hM0.le
  have hε : γ F64 (n + 4) * (2 * M) + θ F64 n + η F64 * √(2 * M) < (n + 6) / 2 ^ 51 * M := by
    have a1 : γ F64 (n + 4) * (2 * M) ≤ (n + 4) / 2 ^ 52 * (2 * M) := mul_le_mul_of_nonneg_right hγ (by linarith)
    norm_num at a1 hθ hroot ⊢
    linarith
  have hε0 : 0 ≤ γ F64 (n + 4) * (2 * M) + θ F64 n + η F64 * √(2 * M) :=
    add_nonneg (add_nonneg (mul_nonneg hγ0 (by linarith)) (θ_nonneg n)) (mul_nonneg η_nonneg (Real.sqrt_nonneg _))
  have hΩ : (2 : ℝ) ^ 1000 * 2 ^ 23 ≤ Ω F64 := by
    refine le_trans ?_ f64_top
    rw [← pow_add]
    exact le_mul_of_one_le_right (by positivity) (by norm_num)
  have hpos : (1 : ℝ) ≤ 2 ^ 1000 := one_le_pow₀ (by norm_num)
  refine C64_accepts hn A hA hsym (2 * M) _ (by linarith) rfl (fun i j => ?_) (fun x hx => ?_) ?_ ?_
  · have a1 : (n + 6 : ℝ) / 2 ^ 51 * M ≤ 1 * M := mul_le_mul_of_nonneg_right (by norm_num; linarith) hM0.le
    have a2 := hM i j
    change |(A i j).toReal| + _ ≤ _
    linarith
  · refine lt_of_lt_of_le ?_ (hpd x hx)
    have hx2 : 0 < ∑ i, x i ^ 2 := by
      refine lt_of_le_of_ne (sum_nonneg fun _ _ => sq_nonneg _) fun h0 => hx ?_
      funext i
      have := (sum_eq_zero_iff_of_nonneg fun i _ => sq_nonneg (x i)).mp h0.symm i (mem_univ i)
      exact pow_eq_zero_iff (two_ne_zero) |>.mp this
    have hcs : (∑ i, |x i|) ^ 2 ≤ n * ∑ i, x i ^ 2 := by
      have := sq_sum_le_card_mul_sum_sq (s := univ) (f := fun i => |x i|)
      simpa [sq_abs] using this
    calc _ ≤ (γ F64 (n + 4) * (2 * M) + θ F64 n + η F64 * √(2 * M)) * (n * ∑ i, x i ^ 2) := mul_le_mul_of_nonneg_left hcs hε0
      _ < (n + 6) / 2 ^ 51 * M * (n * ∑ i, x i ^ 2) := mul_lt_mul_of_pos_right hε (by positivity)
      _ = _ := by ring
  · have a1 := pow_f64 (k := n + 1) (by omega)
    refine le_trans ?_ hΩ
    have a2 : 2 * (1 + u F64) ^ (n + 1) * (2 * M) ≤ 2 * 2 * (2 * 2 ^ 1000) := by
      refine mul_le_mul (by linarith) (by linarith) (by linarith) (by norm_num)
    have a3 : tiny * (1 / 2 ^ 154) ≤ 1 := by
      have := tiny_le
      norm_num
      linarith
    generalize (2 : ℝ) ^ 1000 = P at *
    norm_num
    linarith
  · refine le_trans ?_ hΩ
    have a1 : √(2 * M) ≤ 2 * 2 ^ 1000 := by
      refine Real.sqrt_le_iff.mpr ⟨by positivity, ?_⟩
      generalize (2 : ℝ) ^ 1000 = P at *
      nlinarith
    have a2 : (1 + u F64) * √(2 * M) ≤ 2 * (2 * 2 ^ 1000) := mul_le_mul (by linarith) a1 (Real.sqrt_nonneg _) (by norm_num)
    have a3 : η F64 ≤ 1 := by
      rw [eta_tiny]
      have := tiny_le
      norm_num
      linarith
    generalize (2 : ℝ) ^ 1000 = P at *
    rw [show (2 : ℝ) ^ 23 = 8388608 by norm_num]
    linarith

/-! ## Examples -/

theorem two_val : (two 0).toReal = 1 ∧ (two 1).toReal = 2 ∧ (two 2).toReal = 4 := by
  have h0 : two 0 = .fin false (2 ^ 1074) (by decide +kernel) := by decide +kernel
  have h1 : two 1 = .fin false (2 ^ 1075) (by decide +kernel) := by decide +kernel
  have h2 : two 2 = .fin false (2 ^ 1076) (by decide +kernel) := by decide +kernel
  refine ⟨?_, ?_, ?_⟩
  · rw [h0, f64_fin_toReal]; push_cast; rw [mul_one_div, div_self (by positivity)]
  · rw [h1, f64_fin_toReal]; push_cast; rw [mul_one_div, div_eq_iff (by positivity), ← pow_succ']
  · rw [h2, f64_fin_toReal]; push_cast
    rw [mul_one_div, div_eq_iff (by positivity), show (4 : ℝ) = 2 ^ 2 by norm_num, ← pow_add]

/-- `C104_backward`, `C104_semidefinite` and `C104_solve` apply to this matrix; so does `C104_accepts`, with `M = 4`. -/
example : (∀ i j, ((!![two 2, two 1; two 1, two 1] : Matrix (Fin 2) (Fin 2) F64) i j).isFin) ∧
    Cholesky.new (ofM (!![two 2, two 1; two 1, two 1] : Matrix (Fin 2) (Fin 2) F64)) = .ok (some ⟨ofM !![two 1, 0; two 0, two 0]⟩) ∧
    (∀ i j, ((!![two 1, 0; two 0, two 0] : Matrix (Fin 2) (Fin 2) F64) i j).isFin) ∧
    (∀ x : Fin 2 → ℝ, x ≠ 0 → (2 : ℕ) * ((2 : ℕ) + 6) / 2 ^ 51 * (4 : ℝ) * ∑ i, x i ^ 2 ≤
      ∑ i, ∑ k, x i * ((!![two 2, two 1; two 1, two 1] : Matrix (Fin 2) (Fin 2) F64) i k).toReal * x k) := by
  refine ⟨fun i j => by fin_cases i <;> fin_cases j <;> decide +kernel, by decide +kernel,
    fun i j => by fin_cases i <;> fin_cases j <;> decide +kernel, fun x _ => ?_⟩
  simp only [Fin.sum_univ_two, Matrix.of_apply, Matrix.cons_val', Matrix.cons_val_zero, Matrix.cons_val_one, Matrix.cons_val_fin_one,
    two_val.2.1, two_val.2.2]
  norm_num
  nlinarith [sq_nonneg (2 * x 0 + x 1), sq_nonneg (x 0), sq_nonneg (x 1), sq_nonneg (x 0 + x 1)]

/-- The hypothesis of `C104_rejects` holds for `[1, 2; 2, 1]` with `x = (1, -1)`, and the matrix is rejected. -/
example : ∑ i, ∑ k, (![1, -1] : Fin 2 → ℝ) i * ((!![two 0, two 1; two 1, two 0] : Matrix (Fin 2) (Fin 2) F64) i k).toReal * (![1, -1] : Fin 2 → ℝ) k <
      -(((2 : ℕ) + 3) / 2 ^ 52 *
        (∑ i, √(((!![two 0, two 1; two 1, two 0] : Matrix (Fin 2) (Fin 2) F64) i i).toReal + tiny) * |(![1, -1] : Fin 2 → ℝ) i|) ^ 2) ∧
    Cholesky.new (ofM (!![two 0, two 1; two 1, two 0] : Matrix (Fin 2) (Fin 2) F64)) = .ok none := by
  refine ⟨?_, by decide +kernel⟩
  have h : √(1 + tiny) ≤ 2 := by
    rw [Real.sqrt_le_left (by norm_num)]
    linarith [tiny_le]
  have h0 := Real.sqrt_nonneg (1 + tiny)
  simp only [Fin.sum_univ_two, Matrix.of_apply, Matrix.cons_val', Matrix.cons_val_zero, Matrix.cons_val_one, Matrix.cons_val_fin_one,
    two_val.1, two_val.2.1]
  generalize √(1 + tiny) = r at *
  norm_num
  nlinarith

end LA.Props
