import Verif.Model.Power
import Verif.Props.Norm
import Verif.Props.NaN
import Mathlib.Analysis.SpecificLimits.Normed

/-! # C78, C79: the power method (commented out of the crate) -/

namespace LA.Props
open LA
set_option linter.unusedSectionVars false

/-- What the code takes for the largest absolute element of a vector: the larger of the first two. -/
noncomputable def headMax {n : Nat} (hn : 0 < n) (v : Fin n → ℝ) : ℝ := max |v ⟨0, hn⟩| |v ⟨1 % n, Nat.mod_lt _ hn⟩|

/-- Euclidean norm. -/
noncomputable def l2n {n : Nat} (v : Fin n → ℝ) : ℝ := ‖(WithLp.toLp 2 v : EuclideanSpace ℝ (Fin n))‖

/-- One iteration without the test: multiply, then scale. -/
noncomputable def powerStep {n : Nat} (hn : 0 < n) (A : Matrix (Fin n) (Fin n) ℝ) (v : Fin n → ℝ) : Fin n → ℝ :=
  (1 / headMax hn (A.mulVec v)) • A.mulVec v

section
variable {n : Nat} (hn : 0 < n)

theorem headMax_nonneg (v : Fin n → ℝ) : 0 ≤ headMax hn v := le_max_of_le_left (abs_nonneg _)

theorem headMax_smul (c : ℝ) (v : Fin n → ℝ) : headMax hn (c • v) = |c| * headMax hn v := by
  unfold headMax
  simp only [Pi.smul_apply, smul_eq_mul, abs_mul]
  rw [mul_max_of_nonneg _ _ (abs_nonneg c)]

theorem maxElem_ok (v : Fin n → ℝ) : (ofM (colVec v)).maxElem = .ok (headMax hn v) := by
  have h0 : ∀ k (hk : k < n), idx (ofM (colVec v)).data k = .ok (v ⟨k, hk⟩) := by
    intro k hk
    have := idx_ofM (colVec v) hk (show 0 < 1 by omega)
    simpa [colVec] using this
  unfold Mat.maxElem
  rw [h0 0 hn, ok_bind, ofM_rows]
  by_cases h1 : n = 1
  · subst h1
    rw [loop_self]
    simp [headMax, Exact.abs_eq]
  · have hl := loop_post (lo := 1) (hi := n) (s := |v ⟨0, hn⟩|)
      (f := fun _ (cur : ℝ) => do
        let x := FloatOps.abs (← idx (ofM (colVec v)).data 1)
        if FloatOps.lt cur x then return x else return cur)
      (fun k s => (k = 1 ∧ s = |v ⟨0, hn⟩|) ∨ s = headMax hn v) (by omega) (Or.inl ⟨rfl, rfl⟩) (by
        intro k s hk1 hk hs
        rw [h0 1 (by omega), ok_bind]
        have hm : headMax hn v = max |v ⟨0, hn⟩| |v ⟨1, by omega⟩| := by
          unfold headMax; congr 3; ext; simp [Nat.mod_eq_of_lt (show 1 < n by omega)]
        simp only [Exact.abs_eq]
        rcases hs with ⟨rfl, rfl⟩ | rfl
        · by_cases hlt : |v ⟨0, hn⟩| < |v ⟨1, by omega⟩|
          · rw [if_pos ((Exact.lt_iff _ _).2 hlt)]
            exact Post.ok (Or.inr (by rw [hm, max_eq_right hlt.le]))
          · rw [if_neg (fun h => hlt ((Exact.lt_iff _ _).1 h))]
            exact Post.ok (Or.inr (by rw [hm, max_eq_left (not_lt.1 hlt)]))
        · rw [if_neg (fun h => absurd ((Exact.lt_iff _ _).1 h) (by rw [hm]; exact not_lt.2 (le_max_right _ _)))]
          exact Post.ok (Or.inr rfl))
    obtain ⟨s, hs, h⟩ := hl
    rcases h with ⟨h, _⟩ | rfl
    · omega
    · exact hs

theorem powerLoop_succ (A : Matrix (Fin n) (Fin n) ℝ) (eps : ℝ) (fuel : Nat) (v : Fin n → ℝ) :
    (ofM A).powerLoop eps (fuel + 1) (ofM (colVec v)) =
      if headMax hn (A.mulVec v) = 0 then .error .undef
      else if l2n (powerStep hn A v - v) ≤ eps then .ok (ofM (colVec (powerStep hn A v)))
      else (ofM A).powerLoop eps fuel (ofM (colVec (powerStep hn A v))) := by
  have hmul : A * colVec v = colVec (A.mulVec v) := by ext i j; rfl
  rw [Mat.powerLoop, C10_mul hn hn, ok_bind, hmul, maxElem_ok hn, ok_bind]
  by_cases h : headMax hn (A.mulVec v) = 0
  · rw [if_pos h, h, Exact.rdiv_zero]; rfl
  · have hs : (1 / headMax hn (A.mulVec v)) • colVec (A.mulVec v) = colVec (powerStep hn A v) := by ext i j; rfl
    have hd : colVec (powerStep hn A v) - colVec v = colVec (powerStep hn A v - v) := by ext i j; rfl
    rw [if_neg h, Exact.rdiv_ok _ _ h, ok_bind, (C09_mutating_agree (ofM (colVec (A.mulVec v))) (ofM A) _).2.2.2.2.1, C08_scale, ok_bind, hs,
      C08_sub hn, ok_bind, hd, (C26_norm2 hn _).2.2, ok_bind]
    change (if FloatOps.le (l2n (powerStep hn A v - v)) eps = true then _ else _) = _
    by_cases h2 : l2n (powerStep hn A v - v) ≤ eps
    · rw [if_pos h2, if_pos ((Exact.le_iff _ _).2 h2)]; rfl
    · rw [if_neg h2, if_neg (fun h => h2 ((Exact.le_iff _ _).1 h))]

theorem powerMethod_eq (A : Matrix (Fin n) (Fin n) ℝ) (q : Fin n → ℝ) (eps : ℝ) (fuel : Nat) :
    (ofM A).powerMethod fuel (ofM (colVec q)) eps =
      if headMax hn q = 0 then .error .undef
      else (ofM A).powerLoop eps fuel (ofM (colVec ((1 / headMax hn q) • q))) := by
  unfold Mat.powerMethod
  rw [ofM_cols A hn, colVec_cols hn]
  simp only [ok_bind, ofM_rows, beq_self_eq_true, assert_true, maxElem_ok hn]
  by_cases h : headMax hn q = 0
  · rw [if_pos h, h, Exact.rdiv_zero]; rfl
  · rw [if_neg h, Exact.rdiv_ok _ _ h, ok_bind, C08_scale, ok_bind]; rfl


theorem l2n_sq (v : Fin n → ℝ) : l2n v ^ 2 = ∑ i, v i ^ 2 := by
  unfold l2n; rw [EuclideanSpace.norm_sq_eq]; simp

theorem l2n_nonneg (v : Fin n → ℝ) : 0 ≤ l2n v := norm_nonneg _

theorem l2n_smul (c : ℝ) (v : Fin n → ℝ) : l2n (c • v) = |c| * l2n v := by
  unfold l2n; rw [WithLp.toLp_smul, norm_smul]; rfl

theorem abs_le_l2n (v : Fin n → ℝ) (i : Fin n) : |v i| ≤ l2n v := by
  refine abs_le_of_sq_le_sq ?_ (l2n_nonneg v)
  rw [l2n_sq]
  exact Finset.single_le_sum (f := fun i => v i ^ 2) (fun _ _ => sq_nonneg _) (Finset.mem_univ i)

theorem headMax_le_l2n (v : Fin n → ℝ) : headMax hn v ≤ l2n v := max_le (abs_le_l2n v _) (abs_le_l2n v _)

theorem l2n_mulVec (A : Matrix (Fin n) (Fin n) ℝ) (v : Fin n → ℝ) :
    l2n (A.mulVec v) ≤ Real.sqrt (∑ i, ∑ j, A i j ^ 2) * l2n v := by
  refine abs_le_of_sq_le_sq' ?_ (mul_nonneg (Real.sqrt_nonneg _) (l2n_nonneg v)) |>.2
  have h0 : (0 : ℝ) ≤ ∑ i, ∑ j, A i j ^ 2 := Finset.sum_nonneg fun _ _ => Finset.sum_nonneg fun _ _ => sq_nonneg _
  rw [mul_pow, Real.sq_sqrt h0, l2n_sq, l2n_sq, Finset.sum_mul]
  refine Finset.sum_le_sum fun i _ => ?_
  exact Finset.sum_mul_sq_le_sq_mul_sq Finset.univ (A i) v

theorem headMax_step (A : Matrix (Fin n) (Fin n) ℝ) (v : Fin n → ℝ) (h : headMax hn (A.mulVec v) ≠ 0) :
    headMax hn (powerStep hn A v) = 1 := by
  unfold powerStep
  rw [headMax_smul, abs_of_nonneg (div_nonneg zero_le_one (headMax_nonneg hn _))]
  exact one_div_mul_cancel h

/-- C78: a returned vector is an eigenvector up to `‖A‖_F · eps`, for a positive eigenvalue, and its first two elements have maximum 1. -/
theorem C78_result (A : Matrix (Fin n) (Fin n) ℝ) (q : Fin n → ℝ) (eps : ℝ) (fuel : Nat) (x : Mat ℝ)
    (h : (ofM A).powerMethod fuel (ofM (colVec q)) eps = .ok x) :
    ∃ (y : Fin n → ℝ) (μ : ℝ), x = ofM (colVec y) ∧ 0 < μ ∧ max |y ⟨0, hn⟩| |y ⟨1 % n, Nat.mod_lt _ hn⟩| = 1 ∧
      l2n (A.mulVec y - μ • y) ≤ Real.sqrt (∑ i, ∑ j, A i j ^ 2) * eps := by
  rw [powerMethod_eq hn] at h
  split at h
  · cases h
  generalize (1 / headMax hn q) • q = v at h
  induction fuel generalizing v with
  | zero => cases h
  | succ fuel ih =>
    rw [powerLoop_succ hn] at h
    split at h
    · cases h
    next h0 =>
    split at h
    · next h1 =>
      cases h
      refine ⟨_, headMax hn (A.mulVec v), rfl, lt_of_le_of_ne (headMax_nonneg hn _) (Ne.symm h0), headMax_step hn A v h0, ?_⟩
      have e : headMax hn (A.mulVec v) • powerStep hn A v = A.mulVec v := by
        unfold powerStep; rw [smul_smul, mul_one_div_cancel h0, one_smul]
      rw [e, ← Matrix.mulVec_sub]
      exact (l2n_mulVec A _).trans (mul_le_mul_of_nonneg_left h1 (Real.sqrt_nonneg _))
    · exact ih _ h

/-- The `k`-th iterate: `A^k q` scaled by the larger of its first two elements. -/
theorem powerStep_iter (A : Matrix (Fin n) (Fin n) ℝ) (q : Fin n → ℝ) (k : Nat) (h : headMax hn ((A ^ k).mulVec q) ≠ 0)
    (h' : headMax hn ((A ^ (k + 1)).mulVec q) ≠ 0) :
    headMax hn (A.mulVec ((1 / headMax hn ((A ^ k).mulVec q)) • (A ^ k).mulVec q)) ≠ 0 ∧
    powerStep hn A ((1 / headMax hn ((A ^ k).mulVec q)) • (A ^ k).mulVec q) =
      (1 / headMax hn ((A ^ (k + 1)).mulVec q)) • (A ^ (k + 1)).mulVec q := by
  have e : A.mulVec ((1 / headMax hn ((A ^ k).mulVec q)) • (A ^ k).mulVec q) =
      (1 / headMax hn ((A ^ k).mulVec q)) • (A ^ (k + 1)).mulVec q := by
    rw [Matrix.mulVec_smul, Matrix.mulVec_mulVec, ← pow_succ']
  have hp : headMax hn (A.mulVec ((1 / headMax hn ((A ^ k).mulVec q)) • (A ^ k).mulVec q)) =
      1 / headMax hn ((A ^ k).mulVec q) * headMax hn ((A ^ (k + 1)).mulVec q) := by
    rw [e, headMax_smul, abs_of_nonneg (div_nonneg zero_le_one (headMax_nonneg hn _))]
  refine ⟨by rw [hp]; exact mul_ne_zero (one_div_ne_zero h) h', ?_⟩
  unfold powerStep
  rw [hp, e, smul_smul]
  congr 1
  field_simp

theorem headMax_continuous : Continuous (headMax hn) := by
  unfold headMax
  exact ((continuous_apply _).abs).max ((continuous_apply _).abs)

theorem l2n_continuous : Continuous (l2n (n := n)) := by
  unfold l2n
  exact (PiLp.continuous_toLp 2 _).norm

open Filter Topology in
/-- C79: if the start vector is a sum of eigenvectors, one of them for a positive eigenvalue `l` larger in absolute value than the others and
with a nonzero element among its first two, the call returns — unless one of the vectors `A^k q` has only zeros there (then the code divides by zero). -/
theorem C79_converges_partial {ι : Type} (s : Finset ι) (A : Matrix (Fin n) (Fin n) ℝ) (w : Fin n → ℝ) (u : ι → Fin n → ℝ) (l : ℝ) (c : ι → ℝ)
    (hw : A.mulVec w = l • w) (hu : ∀ i ∈ s, A.mulVec (u i) = c i • u i) (hl : 0 < l) (hc : ∀ i ∈ s, |c i| < l)
    (hw0 : max |w ⟨0, hn⟩| |w ⟨1 % n, Nat.mod_lt _ hn⟩| ≠ 0)
    (hk : ∀ k : Nat, let z := (A ^ k).mulVec (w + ∑ i ∈ s, u i); max |z ⟨0, hn⟩| |z ⟨1 % n, Nat.mod_lt _ hn⟩| ≠ 0)
    (eps : ℝ) (heps : 0 < eps) :
    ∃ (F : Nat) (y : Fin n → ℝ), ∀ fuel, F ≤ fuel →
      (ofM A).powerMethod fuel (ofM (colVec (w + ∑ i ∈ s, u i))) eps = .ok (ofM (colVec y)) := by
  set q := w + ∑ i ∈ s, u i with hq
  have hk' : ∀ k, headMax hn ((A ^ k).mulVec q) ≠ 0 := hk
  have pw : ∀ (x : Fin n → ℝ) (r : ℝ), A.mulVec x = r • x → ∀ k : Nat, (A ^ k).mulVec x = r ^ k • x := by
    intro x r hx k
    induction k with
    | zero => simp
    | succ k ih => rw [pow_succ', ← Matrix.mulVec_mulVec, ih, Matrix.mulVec_smul, hx, smul_smul, pow_succ]
  set v : Nat → Fin n → ℝ := fun k => (1 / headMax hn ((A ^ k).mulVec q)) • (A ^ k).mulVec q with hv
  -- the scaled powers
  set z : Nat → Fin n → ℝ := fun k => w + ∑ i ∈ s, (c i / l) ^ k • u i with hz
  have hAz : ∀ k, (A ^ k).mulVec q = l ^ k • z k := by
    intro k
    rw [hq, hz, Matrix.mulVec_add, Matrix.mulVec_sum, pw w l hw, smul_add, Finset.smul_sum]
    congr 1
    refine Finset.sum_congr rfl fun i hi => ?_
    rw [pw (u i) (c i) (hu i hi), smul_smul, div_pow, mul_div_cancel₀ _ (pow_ne_zero _ hl.ne')]
  have hvz : ∀ k, v k = (1 / headMax hn (z k)) • z k := by
    intro k
    rw [hv]; dsimp only
    rw [hAz, headMax_smul, abs_of_pos (pow_pos hl k), smul_smul]
    congr 1
    have := (pow_pos hl k).ne'
    by_cases h0 : headMax hn (z k) = 0
    · rw [h0]; simp
    · field_simp
  have hzlim : Tendsto z atTop (𝓝 w) := by
    have : Tendsto z atTop (𝓝 (w + ∑ i ∈ s, (0 : ℝ) • u i)) := by
      refine tendsto_const_nhds.add (tendsto_finsetSum _ fun i hi => ?_)
      refine Tendsto.smul_const (tendsto_pow_atTop_nhds_zero_of_abs_lt_one ?_) _
      rw [abs_div, abs_of_pos hl, div_lt_one hl]; exact hc i hi
    simpa using this
  have hvlim : Tendsto v atTop (𝓝 ((1 / headMax hn w) • w)) := by
    have h1 : Tendsto (fun k => headMax hn (z k)) atTop (𝓝 (headMax hn w)) := (headMax_continuous hn).continuousAt.tendsto.comp hzlim
    have h2 := (tendsto_const_nhds (x := (1 : ℝ))).div h1 hw0
    exact (h2.smul hzlim).congr fun k => (hvz k).symm
  have hdlim : Tendsto (fun k => l2n (v (k + 1) - v k)) atTop (𝓝 0) := by
    have h1 := (hvlim.comp (tendsto_add_atTop_nat 1)).sub hvlim
    have h2 := (l2n_continuous (n := n)).continuousAt.tendsto.comp h1
    have h0 : l2n ((1 / headMax hn w) • w - (1 / headMax hn w) • w) = 0 := by simp [l2n]
    rw [h0] at h2
    exact h2
  obtain ⟨K, hK⟩ := (hdlim.eventually (ge_mem_nhds heps)).exists
  have hK' : l2n (v (K + 1) - v K) ≤ eps := hK
  -- the loop reaches iterate `K` or stops before
  have key : ∀ d j, j + d = K → ∃ y : Fin n → ℝ, ∀ f, d + 1 ≤ f → (ofM A).powerLoop eps f (ofM (colVec (v j))) = .ok (ofM (colVec y)) := by
    intro d
    induction d with
    | zero =>
      intro j hj
      have : j = K := by omega
      subst this
      obtain ⟨hne, hst⟩ := powerStep_iter hn A q j (hk' j) (hk' (j + 1))
      refine ⟨v (j + 1), fun f hf => ?_⟩
      obtain ⟨f, rfl⟩ : ∃ f', f = f' + 1 := ⟨f - 1, by omega⟩
      rw [powerLoop_succ hn, if_neg hne]
      rw [show powerStep hn A (v j) = v (j + 1) from hst, if_pos hK']
    | succ d ih =>
      intro j hj
      obtain ⟨hne, hst⟩ := powerStep_iter hn A q j (hk' j) (hk' (j + 1))
      obtain ⟨y, hy⟩ := ih (j + 1) (by omega)
      by_cases ht : l2n (v (j + 1) - v j) ≤ eps
      · refine ⟨v (j + 1), fun f hf => ?_⟩
        obtain ⟨f, rfl⟩ : ∃ f', f = f' + 1 := ⟨f - 1, by omega⟩
        rw [powerLoop_succ hn, if_neg hne]
        rw [show powerStep hn A (v j) = v (j + 1) from hst, if_pos ht]
      · refine ⟨y, fun f hf => ?_⟩
        obtain ⟨f, rfl⟩ : ∃ f', f = f' + 1 := ⟨f - 1, by omega⟩
        rw [powerLoop_succ hn, if_neg hne]
        rw [show powerStep hn A (v j) = v (j + 1) from hst, if_neg ht]
        exact hy f (by omega)
  obtain ⟨y, hy⟩ := key K 0 (by omega)
  refine ⟨K + 1, y, fun f hf => ?_⟩
  have h0 := hk' 0
  rw [pow_zero, Matrix.one_mulVec] at h0
  rw [powerMethod_eq hn, if_neg h0]
  have hv0 : v 0 = (1 / headMax hn q) • q := by rw [hv]; simp
  rw [← hv0]
  exact hy f hf

/-- C79, refuted part 1: for a negative eigenvalue the iteration never stops, even when started at the eigenvector. -/
theorem C79_refuted_negative (A : Matrix (Fin n) (Fin n) ℝ) (q : Fin n → ℝ) (l eps : ℝ) (hq : A.mulVec q = l • q) (hl : l < 0)
    (h0 : max |q ⟨0, hn⟩| |q ⟨1 % n, Nat.mod_lt _ hn⟩| ≠ 0) (heps : eps < 2) (fuel : Nat) :
    (ofM A).powerMethod fuel (ofM (colVec q)) eps = .error .fuel := by
  have h0' : headMax hn q ≠ 0 := h0
  have hp : 0 < headMax hn q := lt_of_le_of_ne (headMax_nonneg hn q) (Ne.symm h0')
  rw [powerMethod_eq hn, if_neg h0']
  have key : ∀ fuel v, A.mulVec v = l • v → headMax hn v = 1 → (ofM A).powerLoop eps fuel (ofM (colVec v)) = .error .fuel := by
    intro fuel
    induction fuel with
    | zero => intro v _ _; rfl
    | succ fuel ih =>
      intro v hv h1
      have hm : headMax hn (A.mulVec v) = -l := by rw [hv, headMax_smul, h1, abs_of_neg hl, mul_one]
      have hst : powerStep hn A v = -v := by
        unfold powerStep
        rw [hm, hv, smul_smul, one_div, inv_neg, neg_mul, inv_mul_cancel₀ hl.ne, neg_smul, one_smul]
      rw [powerLoop_succ hn, if_neg (by rw [hm]; linarith), hst, if_neg, ih]
      · rw [Matrix.mulVec_neg, hv, smul_neg]
      · have := headMax_smul hn (-1) v
        simpa [h1] using this
      · have e : -v - v = (-2 : ℝ) • v := by ext i; simp; ring
        rw [e, l2n_smul, show |(-2 : ℝ)| = 2 by norm_num]
        have := headMax_le_l2n hn v
        linarith
  refine key fuel _ ?_ ?_
  · rw [Matrix.mulVec_smul, hq, smul_comm]
  · rw [headMax_smul, abs_of_pos (one_div_pos.2 hp), one_div_mul_cancel h0']

end

/-- C79, refuted part 2: the largest element is looked for among the first two only.  For `diag(1, 1, 2)` and the start vector `(1, 1, 1)`
(dominant eigenvalue 2, eigenvector `e₃`) the iterates are `(1, 1, 2^k)`: they grow without bound and the iteration never stops. -/
theorem C79_refuted_head (eps : ℝ) (heps : eps < 1) (fuel : Nat) :
    (ofM (Matrix.diagonal ![(1 : ℝ), 1, 2])).powerMethod fuel (ofM (colVec ![1, 1, 1])) eps = .error .fuel := by
  have hn : 0 < 3 := by omega
  have hm : ∀ a : ℝ, headMax hn ![1, 1, a] = 1 := by intro a; simp [headMax]
  rw [powerMethod_eq hn, hm, if_neg one_ne_zero, div_one, one_smul]
  have key : ∀ fuel (a : ℝ), 1 ≤ a → (ofM (Matrix.diagonal ![(1 : ℝ), 1, 2])).powerLoop eps fuel (ofM (colVec ![1, 1, a])) = .error .fuel := by
    intro fuel
    induction fuel with
    | zero => intro a _; rfl
    | succ fuel ih =>
      intro a ha
      have e : (Matrix.diagonal ![(1 : ℝ), 1, 2]).mulVec ![1, 1, a] = ![1, 1, 2 * a] := by
        ext i; rw [Matrix.mulVec_diagonal]; fin_cases i <;> simp
      have hst : powerStep hn (Matrix.diagonal ![(1 : ℝ), 1, 2]) ![1, 1, a] = ![1, 1, 2 * a] := by
        unfold powerStep; rw [e, hm, div_one, one_smul]
      rw [powerLoop_succ hn, e, hm, if_neg one_ne_zero, hst, if_neg, ih _ (by linarith)]
      have h := abs_le_l2n (![1, 1, 2 * a] - ![1, 1, a] : Fin 3 → ℝ) 2
      have h2 : (![1, 1, 2 * a] - ![1, 1, a] : Fin 3 → ℝ) 2 = a := by simp; ring
      rw [h2, abs_of_nonneg (by linarith)] at h
      linarith
  exact key fuel 1 le_rfl

/-- C78: matrices that are not square, start vectors of the wrong length, and start matrices with more than one column are rejected. -/
theorem C78_shapes {m n p r : Nat} (hm : 0 < m) (hp : 0 < p) (A : Matrix (Fin m) (Fin n) ℝ) (Q : Matrix (Fin p) (Fin r) ℝ)
    (h : ¬(n = m ∧ n = p ∧ r = 1)) (eps : ℝ) (fuel : Nat) : (ofM A).powerMethod fuel (ofM Q) eps = .error .assert := by
  unfold Mat.powerMethod
  rw [ofM_cols A hm, ofM_cols Q hp]
  simp only [ok_bind, ofM_rows]
  by_cases h1 : n = m
  · by_cases h2 : n = p
    · have h3 : r ≠ 1 := fun h3 => h ⟨h1, h2, h3⟩
      simp [assert, h1, ← h2, h3]
    · simp [assert, ← h1, h2]
  · simp [assert, h1]

/-! ## Any element arithmetic -/

section
variable {α : Type} [Zero α] [One α] [Add α] [Sub α] [Neg α] [Mul α] [FloatOps α] {n : Nat} (hn : 0 < n)

theorem idx_colVec (v : Fin n → α) {k : Nat} (hk : k < n) : idx (ofM (colVec v)).data k = .ok (v ⟨k, hk⟩) := by
  have := idx_ofM (colVec v) hk (show 0 < 1 by omega)
  simpa [colVec] using this

theorem colVec_surj (M : Matrix (Fin n) (Fin 1) α) : M = colVec fun i => M i 0 := by
  ext i j; rw [Subsingleton.elim j 0]; rfl

include hn in
theorem maxElem_total (v : Fin n → α) : ∃ x, (ofM (colVec v)).maxElem = .ok x := by
  unfold Mat.maxElem
  rw [idx_colVec v hn, ok_bind, ofM_rows]
  obtain ⟨s, hs, -⟩ := loop_post (lo := 1) (hi := n) (s := FloatOps.abs (v ⟨0, hn⟩))
    (f := fun _ (cur : α) => do
      let x := FloatOps.abs (← idx (ofM (colVec v)).data 1)
      if FloatOps.lt cur x then return x else return cur)
    (fun _ _ => True) (by omega) trivial (by
      intro k s hk1 hk _
      rw [idx_colVec v (show 1 < n by omega), ok_bind]
      dsimp only
      split
      · exact Post.ok trivial
      · exact Post.ok trivial)
  exact ⟨s, hs⟩

include hn in
/-- One iteration: the test and the next vector. -/
theorem powerLoop_total [Total α] (A : Matrix (Fin n) (Fin n) α) (eps : α) (v : Fin n → α) :
    ∃ (w y : Fin n → α) (f d : α), (ofM A).mul (ofM (colVec v)) = .ok (ofM (colVec w)) ∧ (∀ i, y i = f * w i) ∧
      (ofM (colVec fun i => y i - v i)).length = .ok d ∧
      ∀ fuel, (ofM A).powerLoop eps (fuel + 1) (ofM (colVec v)) =
        if FloatOps.le d eps then .ok (ofM (colVec y)) else (ofM A).powerLoop eps fuel (ofM (colVec y)) := by
  have h1 := C10_mul_general hn hn A (colVec v)
  rw [colVec_surj (Matrix.of _)] at h1
  generalize (fun i => (Matrix.of fun i j => (List.finRange n).foldl (fun s k => s + A i k * colVec v k j) 0) i (0 : Fin 1)) = w at h1
  obtain ⟨x, hx⟩ := maxElem_total hn w
  obtain ⟨f, hf⟩ := Total.rdiv (1 : α) x
  have hs : f • colVec w = colVec fun i => f * w i := by ext i j; rfl
  have hd : (colVec fun i => f * w i) - colVec v = colVec fun i => f * w i - v i := by ext i j; rfl
  obtain ⟨d, hd2⟩ : ∃ d, (ofM (colVec fun i => f * w i - v i)).length = .ok d := by
    unfold Mat.length Mat.vectorEuclideanNorm
    rw [colVec_cols hn]
    simp only [ok_bind, beq_self_eq_true, assert_true]
    obtain ⟨s, hs, -⟩ := loop_post (lo := 0) (hi := n) (s := (0 : α))
      (f := fun i s => do
        return s + (← idx (ofM (colVec fun i => f * w i - v i)).data i) * (← idx (ofM (colVec fun i => f * w i - v i)).data i))
      (fun _ _ => True) (by omega) trivial (by
        intro k s _ hk _
        rw [idx_colVec _ hk, ok_bind, ok_bind]
        exact Post.ok trivial)
    rw [ofM_length, Nat.mul_one, hs, ok_bind]
    exact Total.sqrt _
  refine ⟨w, fun i => f * w i, f, d, h1, fun _ => rfl, hd2, fun fuel => ?_⟩
  rw [Mat.powerLoop, h1, ok_bind, hx, ok_bind, hf, ok_bind, (C09_mutating_agree (ofM (colVec w)) (ofM A) f).2.2.2.2.1, C08_scale, ok_bind, hs,
    C08_sub hn, ok_bind, hd, hd2, ok_bind]
  rfl

include hn in
theorem powerMethod_start [Total α] (A : Matrix (Fin n) (Fin n) α) (q : Fin n → α) (eps : α) :
    ∃ f, ∀ fuel, (ofM A).powerMethod fuel (ofM (colVec q)) eps = (ofM A).powerLoop eps fuel (ofM (colVec fun i => f * q i)) := by
  obtain ⟨x, hx⟩ := maxElem_total hn q
  obtain ⟨f, hf⟩ := Total.rdiv (1 : α) x
  refine ⟨f, fun fuel => ?_⟩
  unfold Mat.powerMethod
  rw [ofM_cols A hn, colVec_cols hn]
  simp only [ok_bind, ofM_rows, beq_self_eq_true, assert_true, hx, hf, C08_scale]
  rfl

include hn in
/-- C78: with total element operations the call does not panic; a result is a column vector, and does not depend on the budget. -/
theorem C78_total [Total α] (A : Matrix (Fin n) (Fin n) α) (q : Fin n → α) (eps : α) :
    (∀ fuel, (ofM A).powerMethod fuel (ofM (colVec q)) eps = .error .fuel) ∨
    ∃ (F : Nat) (y : Fin n → α), (∀ fuel, F ≤ fuel → (ofM A).powerMethod fuel (ofM (colVec q)) eps = .ok (ofM (colVec y))) ∧
      ∀ fuel, fuel < F → (ofM A).powerMethod fuel (ofM (colVec q)) eps = .error .fuel := by
  obtain ⟨f, hf⟩ := powerMethod_start hn A q eps
  simp only [hf]
  by_cases h : ∃ F, (ofM A).powerLoop eps F (ofM (colVec fun i => f * q i)) ≠ .error .fuel
  · right
    have key : ∀ F (v : Fin n → α), (ofM A).powerLoop eps F (ofM (colVec v)) ≠ .error .fuel →
        ∃ (F : Nat) (y : Fin n → α), (∀ fuel, F ≤ fuel → (ofM A).powerLoop eps fuel (ofM (colVec v)) = .ok (ofM (colVec y))) ∧
          ∀ fuel, fuel < F → (ofM A).powerLoop eps fuel (ofM (colVec v)) = .error .fuel := by
      intro F
      induction F with
      | zero => intro v h; exact absurd rfl h
      | succ F ih =>
        intro v h
        obtain ⟨w, y, g, d, -, -, -, h2⟩ := powerLoop_total hn A eps v
        by_cases hd : FloatOps.le d eps = true
        · refine ⟨1, y, fun fuel hfu => ?_, fun fuel hfu => ?_⟩
          · obtain ⟨k, rfl⟩ : ∃ k, fuel = k + 1 := ⟨fuel - 1, by omega⟩
            rw [h2, if_pos hd]
          · have : fuel = 0 := by omega
            subst this; rfl
        · rw [h2, if_neg hd] at h
          obtain ⟨F', y', h3, h4⟩ := ih y h
          refine ⟨F' + 1, y', fun fuel hfu => ?_, fun fuel hfu => ?_⟩
          · obtain ⟨k, rfl⟩ : ∃ k, fuel = k + 1 := ⟨fuel - 1, by omega⟩
            rw [h2, if_neg hd]; exact h3 k (by omega)
          · cases fuel with
            | zero => rfl
            | succ k => rw [h2, if_neg hd]; exact h4 k (by omega)
    obtain ⟨F, hF⟩ := h
    exact key F _ hF
  · left
    intro fuel
    by_contra h2
    exact h ⟨fuel, h2⟩

end

section
variable {α : Type} [Zero α] [One α] [Add α] [Sub α] [Neg α] [Mul α] [FloatOps α] [Fp α] [NaNs α] {n : Nat} (hn : 0 < n)

include hn in
/-- C79: a NaN in the start vector: the iteration never stops. -/
theorem C79_nan [Total α] (A : Matrix (Fin n) (Fin n) α) (q : Fin n → α) (eps : α) (hq : ∃ i, NaNs.nan (q i)) (fuel : Nat) :
    (ofM A).powerMethod fuel (ofM (colVec q)) eps = .error .fuel := by
  obtain ⟨f, hf⟩ := powerMethod_start hn A q eps
  rw [hf]
  obtain ⟨i, hi⟩ := hq
  have key : ∀ fuel (v : Fin n → α), (∃ i, NaNs.nan (v i)) → (ofM A).powerLoop eps fuel (ofM (colVec v)) = .error .fuel := by
    intro fuel
    induction fuel with
    | zero => intro v _; rfl
    | succ fuel ih =>
      rintro v ⟨i, hi⟩
      obtain ⟨w, y, g, d, h1, h2, h3, h4⟩ := powerLoop_total hn A eps v
      obtain ⟨C, hC, hCn⟩ := C75_mul hn hn A (colVec v)
      have e : C = colVec w := ofM_inj (by rw [hC] at h1; exact Except.ok.inj h1)
      have hw : NaNs.nan (w i) := by
        have := hCn i 0 ⟨i, Or.inr hi⟩
        rwa [e] at this
      have hy : NaNs.nan (y i) := by rw [h2]; exact NaNs.mul_r _ _ hw
      obtain ⟨t, ht, htn⟩ := (C75_norms hn (fun i => y i - v i) ⟨i, NaNs.sub_l _ _ hy⟩ (fun (i : Fin n) (_ : Fin n) => y i) ⟨i, i, hy⟩).2.2.2.1
      rw [h3] at ht
      cases ht
      rw [h4, NaNs.le_l _ _ htn]
      exact ih y ⟨i, hy⟩
  exact key fuel _ ⟨i, NaNs.mul_r _ _ hi⟩

end

/-! ## The hypotheses are met -/

/-- `diag(2, 1)` from `(1, 1)`. -/
example (eps : ℝ) (heps : 0 < eps) : ∃ (F : Nat) (y : Fin 2 → ℝ), ∀ fuel, F ≤ fuel →
    (ofM (Matrix.diagonal ![(2 : ℝ), 1])).powerMethod fuel (ofM (colVec (![1, 0] + ∑ i ∈ ({0} : Finset Nat), ![0, 1]))) eps = .ok (ofM (colVec y)) := by
  refine C79_converges_partial (n := 2) (by omega) {0} (Matrix.diagonal ![(2 : ℝ), 1]) ![1, 0] (fun _ => ![0, 1]) 2 (fun _ => 1) ?_ ?_ (by norm_num)
    (by norm_num) (by simp) ?_ eps heps
  · ext i; rw [Matrix.mulVec_diagonal]; fin_cases i <;> simp
  · intro i _; ext i; rw [Matrix.mulVec_diagonal]; fin_cases i <;> simp
  · intro k
    simp [Matrix.diagonal_pow, Matrix.mulVec_diagonal]
    exact (lt_max_of_lt_right one_pos).ne'

/-- `diag(-2, 1)` from `(1, 0)`. -/
example (fuel : Nat) : (ofM (Matrix.diagonal ![(-2 : ℝ), 1])).powerMethod fuel (ofM (colVec ![1, 0])) (1 / 1000000) = .error .fuel := by
  refine C79_refuted_negative (n := 2) (by omega) _ ![1, 0] (-2) _ ?_ (by norm_num) (by simp) (by norm_num) fuel
  ext i; rw [Matrix.mulVec_diagonal]; fin_cases i <;> simp

/-- IEEE doubles. -/
example (A : Matrix (Fin 2) (Fin 2) F64) (eps : F64) (fuel : Nat) :
    (ofM A).powerMethod fuel (ofM (colVec ![1, F64.nan])) eps = .error .fuel :=
  C79_nan (by omega) A _ eps ⟨1, rfl⟩ fuel

end LA.Props
