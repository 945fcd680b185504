import Verif.Props.SVDRounding

/-!
# C107: what `rank()` returns, in terms of the true singular values

`rank()` counts the computed singular values above `max(m, n) · 2^-52` times the largest one.  The theorems compare this with the singular
values of the matrix itself; `singularValue A k` is Mathlib's `k`-th singular value (in decreasing order).
-/

set_option linter.unusedSectionVars false

namespace LA.Props
open Finset Matrix

/-- The relative threshold of `rank()`. -/
noncomputable def rankTol (m n : Nat) : ℝ := ((max m n : Nat) : ℝ) / 2 ^ 52

theorem card_initial {P : Nat → Prop} [DecidablePred P] {m k : Nat} (hP : ∀ i j, i ≤ j → j < m → P j → P i) (hk : k < m) :
    P k ↔ k < ((range m).filter P).card := by
  constructor
  · intro h
    have h1 : range (k + 1) ⊆ (range m).filter P := by
      intro i hi
      rw [mem_range] at hi
      rw [mem_filter, mem_range]
      exact ⟨by omega, hP i k (by omega) hk h⟩
    have := card_le_card h1
    rw [card_range] at this
    omega
  · intro h
    by_contra hc
    have h1 : (range m).filter P ⊆ range k := by
      intro i hi
      rw [mem_filter, mem_range] at hi
      rw [mem_range]
      by_contra h2
      exact hc (hP k i (by omega) hi.1 hi.2)
    have := card_le_card h1
    rw [card_range] at this
    omega

section
variable {α : Type} [Zero α] [One α] [Add α] [Sub α] [Neg α] [Mul α] [FloatOps α] [Sfp α]

/-- The number `rank()` returns: `k` is less than it exactly if the `k`-th computed singular value is above the computed threshold, which is
`rankTol` times the largest one up to four roundings. -/
theorem rank_count {m n : Nat} (hm : 0 < m) (hmn : m ≤ n) (U : Matrix (Fin m) (Fin m) α) (V : Matrix (Fin n) (Fin n) α) (s : Nat → α)
    (hs : ∀ i j, i ≤ j → j < m → Sfp.val (s j) ≤ Sfp.val (s i)) :
    ∃ (r : Nat) (t : ℝ), SVD.rank ⟨ofM U, ofM (Matrix.of fun (i : Fin m) (j : Fin n) => if i.1 = j.1 then s i else 0), ofM V⟩ = .ok r ∧ r ≤ m ∧
      Rt (Sfp.w α) 4 t (rankTol m n * Sfp.val (s 0)) ∧ ∀ k, k < m → (t < Sfp.val (s k) ↔ k < r) := by
  classical
  set tol : α := FloatOps.cst ((max m n : Nat) : Int) 1 * s 0 * SVD.eps with htol
  refine ⟨((range m).filter fun i => Sfp.val tol < Sfp.val (s i)).card, Sfp.val tol, ?_, ?_, ?_, ?_⟩
  · unfold SVD.rank
    have h0 : (ofM (Matrix.of fun (i : Fin m) (j : Fin n) => if i.1 = j.1 then s i else 0)).get 0 0 = .ok (s 0) := by
      rw [ofM_get _ hm (by omega)]; simp
    simp only [ofM_rows, h0, ok_bind]
    refine Post.eq_ok ((loop_post (lo := 0) (hi := m) (fun k r => r = ((range k).filter fun i =>
      Sfp.val tol < Sfp.val (s i)).card) (Nat.zero_le _) (by simp) ?_).mono fun r h => h)
    rintro i r - hi rfl
    rw [ofM_get _ hi (by omega), ok_bind]
    simp only [of_apply, if_true]
    rw [Finset.range_add_one, Finset.filter_insert]
    by_cases h1 : Sfp.val tol < Sfp.val (s i)
    · rw [if_pos ((Sfp.lt _ _).2 h1), if_pos h1, Finset.card_insert_of_notMem (by simp)]; exact Post.ok rfl
    · rw [if_neg (fun h => h1 ((Sfp.lt _ _).1 h)), if_neg h1]; exact Post.ok rfl
  · exact (card_filter_le _ _).trans (by rw [card_range])
  · have h1 := Std.mul_rt' (Std.mul_rt' (Std.cst_rt (α := α) ((max m n : Nat) : Int) 1) (Rt.refl (Sfp.val (s 0)))) (Std.cst_rt (α := α) 1 (2 ^ 52))
    have e : (((max m n : Nat) : Int) : ℝ) / ((1 : Nat) : ℝ) * Sfp.val (s 0) * (((1 : Int) : ℝ) / ((2 ^ 52 : Nat) : ℝ)) = rankTol m n * Sfp.val (s 0) := by
      unfold rankTol
      push_cast
      ring
    rw [e] at h1
    exact h1
  · intro k hk
    exact card_initial (P := fun i => Sfp.val tol < Sfp.val (s i)) (fun i j hij hj h => h.trans_le (hs i j hij hj)) hk

/-- The comparison with any numbers `σ` the computed singular values are close to. -/
theorem rank_core {m n : Nat} (hm : 0 < m) (hmn : m ≤ n) (U : Matrix (Fin m) (Fin m) α) (V : Matrix (Fin n) (Fin n) α) (s : Nat → α)
    (h1 : ∀ i j, i ≤ j → j < m → Sfp.val (s j) ≤ Sfp.val (s i)) (h2 : ∀ i, i < m → 0 ≤ Sfp.val (s i)) (σ : Nat → ℝ) (β : ℝ)
    (hσ : ∀ i, i < m → |Sfp.val (s i) - σ i| ≤ β) :
    ∃ r, SVD.rank ⟨ofM U, ofM (Matrix.of fun (i : Fin m) (j : Fin n) => if i.1 = j.1 then s i else 0), ofM V⟩ = .ok r ∧ r ≤ m ∧
      ∀ k, k < m → ((1 - Sfp.u α)⁻¹ ^ 4 * rankTol m n * (σ 0 + β) + β < σ k → k < r) ∧
        ((1 - Sfp.u α)⁻¹ ^ 4 * (σ k + β) ≤ rankTol m n * (σ 0 - β) → r ≤ k) := by
  obtain ⟨r, t, hr, hrm, ⟨ρ, ⟨hρ1, hρ2⟩, ht⟩, hc⟩ := rank_count hm hmn U V s h1
  refine ⟨r, hr, hrm, ?_⟩
  intro k hk
  have ek := abs_le.1 (hσ k hk)
  have e0 := abs_le.1 (hσ 0 hm)
  have hT : 0 ≤ rankTol m n := by unfold rankTol; positivity
  set g := (1 - Sfp.u α)⁻¹ ^ 4
  have hg : g = Sfp.w α ^ 4 := rfl
  have hg0 : 0 < g := by rw [hg]; exact pw_pos Std.w_one 4
  have hs0 := h2 0 hm
  rw [← hg] at hρ1 hρ2
  have hρ0 : 0 < ρ := by
    by_contra h
    have := mul_nonpos_of_nonpos_of_nonneg (not_lt.1 h) hg0.le
    linarith
  constructor
  · intro h
    rw [← hc k hk, ht]
    have b1 : rankTol m n * Sfp.val (s 0) ≤ rankTol m n * (σ 0 + β) := mul_le_mul_of_nonneg_left (by linarith) hT
    have b2 := mul_le_mul hρ2 b1 (mul_nonneg hT hs0) hg0.le
    have b3 : g * (rankTol m n * (σ 0 + β)) = g * rankTol m n * (σ 0 + β) := by ring
    linarith
  · intro h
    by_contra hlt
    have h4 := (hc k hk).2 (not_le.1 hlt)
    rw [ht] at h4
    have b1 : rankTol m n * (σ 0 - β) ≤ rankTol m n * Sfp.val (s 0) := mul_le_mul_of_nonneg_left (by linarith) hT
    have b2 := mul_lt_mul_of_pos_left h4 hg0
    have b3 : rankTol m n * Sfp.val (s 0) ≤ g * (ρ * (rankTol m n * Sfp.val (s 0))) := by
      have := le_mul_of_one_le_left (mul_nonneg hT hs0) hρ1
      linarith
    have b4 : g * Sfp.val (s k) ≤ g * (σ k + β) := mul_le_mul_of_nonneg_left (by linarith) hg0.le
    linarith

/-- C107, exact arithmetic: with `β` the error bound of C101, `rank()` counts every singular value above `rankTol · (σ₀ + β) + β` and none
with `σ + β ≤ rankTol · (σ₀ - β)`. -/
theorem C107_rank_exact {m n : Nat} (hm : 0 < m) (hmn : m ≤ n) (A : Matrix (Fin m) (Fin n) ℝ) {fuel : Nat} {x : SVD ℝ}
    (hx : SVD.new fuel (ofM A) = .ok x) :
    ∃ r, x.rank = .ok r ∧ r ≤ m ∧
      let β := ((m - 1 : Nat) : ℝ) * (1 / 2 ^ 966 + 2 * (1 / 2 ^ 52) * frobenius A)
      let σ := singularValue A
      ∀ k, k < m → (rankTol m n * (σ 0 + β) + β < σ k → k < r) ∧ (σ k + β ≤ rankTol m n * (σ 0 - β) → r ≤ k) := by
  obtain ⟨s', hs', hc⟩ := C101_exact hm (by omega) A hx
  obtain ⟨U, V, s, rfl, hG⟩ := SVD.new_ok hm (by omega) A hx
  have emn : min m n = m := min_eq_left hmn
  have h1 := hG.sorted
  have h2 := hG.pos
  rw [emn] at h1 h2 hc
  have hss : ∀ i, i < m → s' i = s i := by
    intro i hi
    have e := congrArg (fun a => a.get i i) hs'
    change (ofM _).get i i = (ofM _).get i i at e
    rw [ofM_get _ hi (by omega), ofM_get _ hi (by omega)] at e
    have e2 := Except.ok.inj e
    simpa [rectDiag] using e2.symm
  obtain ⟨r, h3, h4, h5⟩ := rank_core (α := ℝ) hm hmn U V s h1 h2 (singularValue A) _ (fun i hi => by
    have := hc i hi
    rw [hss i hi] at this
    exact this)
  refine ⟨r, h3, h4, ?_⟩
  intro β σ k hk
  have h6 := h5 k hk
  rw [show (1 - Sfp.u ℝ)⁻¹ ^ 4 = (1 : ℝ) by show (1 - (0 : ℝ))⁻¹ ^ 4 = 1; norm_num, one_mul, one_mul] at h6
  exact h6

/-- C107, rounded arithmetic: with `β` the error bound of C101, `rank()` counts every singular value above
`(1-u)^-4 · rankTol · (σ₀ + β) + β` and none with `(1-u)^-4 · (σ + β) ≤ rankTol · (σ₀ - β)`. -/
theorem C107_rank_rounded {m n : Nat} (hm : 0 < m) (hmn : m ≤ n) (A : Matrix (Fin m) (Fin n) α) {fuel : Nat} {x : SVD α}
    (hx : SVD.new fuel (ofM A) = .ok x) :
    ∃ r, x.rank = .ok r ∧ r ≤ m ∧
      let β := svdError (Sfp.u α) m n fuel * (frobenius (values A) + 1 / 2 ^ 915)
      let g := (1 - Sfp.u α)⁻¹ ^ 4
      let σ := singularValue (values A)
      ∀ k, k < m → (g * rankTol m n * (σ 0 + β) + β < σ k → k < r) ∧ (g * (σ k + β) ≤ rankTol m n * (σ 0 - β) → r ≤ k) := by
  obtain ⟨U, V, s, rfl, h1, h2, P, Q, hP, hQ, -, -, h3⟩ := C100_backward hm (by omega) A hx
  have emn : min m n = m := min_eq_left hmn
  have h1' := h1
  have h2' := h2
  rw [emn] at h1 h2
  exact rank_core hm hmn U V s h1 h2 _ _ fun i hi =>
    (singular_close (s := fun i => Sfp.val (s i)) (values A) hP hQ h1' h2' (by omega)).trans h3

/-- C107, distance to lower rank: no matrix of rank less than `rank()` is closer to `A` than the threshold, up to rounding. -/
theorem C107_distance {m n : Nat} (hm : 0 < m) (hmn : m ≤ n) (A : Matrix (Fin m) (Fin n) α) {fuel : Nat} {x : SVD α}
    (hx : SVD.new fuel (ofM A) = .ok x) :
    ∃ r, x.rank = .ok r ∧ ∀ B : Matrix (Fin m) (Fin n) ℝ, B.rank < r →
      rankTol m n * (singularValue (values A) 0 - svdError (Sfp.u α) m n fuel * (frobenius (values A) + 1 / 2 ^ 915)) <
        (1 - Sfp.u α)⁻¹ ^ 4 * (frobenius (values A - B) + svdError (Sfp.u α) m n fuel * (frobenius (values A) + 1 / 2 ^ 915)) := by
  obtain ⟨U, V, s, rfl, h1, h2, P, Q, hP, hQ, -, -, h3⟩ := C100_backward hm (by omega) A hx
  have emn : min m n = m := min_eq_left hmn
  have h1' := h1
  have h2' := h2
  rw [emn] at h1 h2
  obtain ⟨r, t, hr, hrm, ⟨ρ, ⟨hρ1, hρ2⟩, ht⟩, hc⟩ := rank_count hm hmn U V s h1
  refine ⟨r, hr, fun B hB => ?_⟩
  have h4 := (hc B.rank (by omega)).2 hB
  have h5 := singular_close (s := fun i => Sfp.val (s i)) B hP hQ h1' h2' (k := B.rank) (by omega)
  rw [singular_rank B le_rfl, sub_zero, abs_of_nonneg (h2 B.rank (by omega))] at h5
  have h6 := frob_tri B (values A) (P * rectDiag m n (fun i => Sfp.val (s i)) * Qᵀ)
  rw [frob_sub_comm B (values A)] at h6
  have h7 := (h5.trans h6).trans (add_le_add le_rfl h3)
  have e0 := abs_le.1 ((singular_close (s := fun i => Sfp.val (s i)) (values A) hP hQ h1' h2' (k := 0) (by omega)).trans h3)
  set β := svdError (Sfp.u α) m n fuel * (frobenius (values A) + 1 / 2 ^ 915)
  have hT : 0 ≤ rankTol m n := by unfold rankTol; positivity
  have hg : (1 - Sfp.u α)⁻¹ ^ 4 = Sfp.w α ^ 4 := rfl
  rw [hg]
  have hg0 : 0 < Sfp.w α ^ 4 := pw_pos Std.w_one 4
  have hs0 := h2 0 hm
  rw [ht] at h4
  have b1 : rankTol m n * (singularValue (values A) 0 - β) ≤ rankTol m n * Sfp.val (s 0) := mul_le_mul_of_nonneg_left (by linarith) hT
  have b2 := mul_lt_mul_of_pos_left h4 hg0
  have b3 : rankTol m n * Sfp.val (s 0) ≤ Sfp.w α ^ 4 * (ρ * (rankTol m n * Sfp.val (s 0))) := by
    have := le_mul_of_one_le_left (mul_nonneg hT hs0) hρ1
    linarith
  have b4 := mul_le_mul_of_nonneg_left h7 hg0.le
  change Sfp.w α ^ 4 * _ ≤ Sfp.w α ^ 4 * (frobenius _ + β) at b4
  linarith

/-- C107, tall matrices: `rank()` panics, in rounded arithmetic as well. -/
theorem C107_tall {m n : Nat} (hn : 0 < n) (hmn : n < m) (A : Matrix (Fin m) (Fin n) α) {fuel : Nat} {x : SVD α}
    (hx : SVD.new fuel (ofM A) = .ok x) : Panics x.rank := by
  obtain ⟨U, V, s, rfl, -⟩ := C100_backward (by omega) hn A hx
  unfold SVD.rank
  rw [ofM_get _ (by omega) hn, ok_bind, ofM_rows]
  refine Or.inl (loop_error (fun _ _ => True) (j := n) (Nat.zero_le _) hmn trivial ?_ ?_)
  · intro i r _ hi _
    rw [ofM_get _ (by omega) hi, ok_bind]
    split <;> exact Post.ok trivial
  · intro r _
    rw [C04_get, dif_neg (by omega)]
    rfl

end

/-- Both conditions occur: of the singular values `3` and `2^-60` the first is counted and the second is not. -/
example : ∃ (fuel : Nat) (x : SVD ℝ), SVD.new fuel (ofM !![3, 0, 0; 0, (1 / 2 ^ 60 : ℝ), 0]) = .ok x ∧ x.rank = .ok 1 := by
  set A : Matrix (Fin 2) (Fin 3) ℝ := !![3, 0, 0; 0, (1 / 2 ^ 60 : ℝ), 0] with hA
  obtain ⟨N, U, V, s, h, -⟩ := C42_svd (m := 2) (n := 3) (by norm_num) (by norm_num) A
  obtain ⟨r, hr, -, hk⟩ := C107_rank_exact (by norm_num) (by norm_num) A (h N le_rfl)
  refine ⟨N, _, h N le_rfl, ?_⟩
  have hs : ∀ k, k < 2 → singularValue A k = if k = 0 then 3 else 1 / 2 ^ 60 := by
    intro k hk
    have h3 := singular_close (m := 2) (n := 3) (k := k) A orth_one orth_one (s := fun i => if i = 0 then 3 else 1 / 2 ^ 60) (fun i j h _ => by
      split_ifs <;> first | omega | norm_num) (fun i h => by
      split_ifs <;> norm_num) (by omega)
    have e : A - (1 : Matrix (Fin 2) (Fin 2) ℝ) * rectDiag 2 3 (fun i => if i = 0 then 3 else 1 / 2 ^ 60) * (1 : Matrix (Fin 3) (Fin 3) ℝ)ᵀ = 0 := by
      rw [Matrix.transpose_one, Matrix.one_mul, Matrix.mul_one, hA]
      ext i j
      fin_cases i <;> fin_cases j <;> norm_num [rectDiag]
    rw [e, show frob (0 : Matrix (Fin 2) (Fin 3) ℝ) = 0 by simp [frob]] at h3
    linarith [abs_nonpos_iff.1 h3]
  have hF : frobenius A ≤ 31 / 10 := by
    unfold frobenius
    rw [Real.sqrt_le_left (by norm_num), hA]
    norm_num [Fin.sum_univ_succ]
  have hF0 : 0 ≤ frobenius A := Real.sqrt_nonneg _
  have hT : rankTol 2 3 = 3 / 2 ^ 52 := by unfold rankTol; norm_num
  have a0 := (hk 0 (by norm_num)).1
  have a1 := (hk 1 (by norm_num)).2
  rw [hs 0 (by norm_num), if_pos rfl, hT] at a0
  rw [hs 0 (by norm_num), hs 1 (by norm_num), if_pos rfl, if_neg one_ne_zero, hT] at a1
  have hb : ((2 - 1 : Nat) : ℝ) * (1 / 2 ^ 966 + 2 * (1 / 2 ^ 52) * frobenius A) ≤ 1 / 2 ^ 966 + 62 / 10 / 2 ^ 52 := by
    norm_num at hF ⊢
    linarith
  have hb0 : 0 ≤ ((2 - 1 : Nat) : ℝ) * (1 / 2 ^ 966 + 2 * (1 / 2 ^ 52) * frobenius A) := by positivity
  set β := ((2 - 1 : Nat) : ℝ) * (1 / 2 ^ 966 + 2 * (1 / 2 ^ 52) * frobenius A)
  clear_value β
  have hq : (1 / 2 ^ 966 : ℝ) ≤ 1 / 2 ^ 60 := by
    refine one_div_le_one_div_of_le (by positivity) (pow_le_pow_right₀ (by norm_num) (by norm_num))
  have r1 : 0 < r := a0 (by norm_num at hb hq ⊢; linarith)
  have r2 : r ≤ 1 := a1 (by norm_num at hb hq ⊢; linarith)
  rw [hr, show r = 1 by omega]

/-- A wide matrix of the unbounded format. -/
def wideFu : Matrix (Fin 2) (Fin 3) Fu := !![⟨3⟩, ⟨0⟩, ⟨0⟩; ⟨0⟩, ⟨2⟩, ⟨0⟩]

theorem wideFu_runs : ∃ x, SVD.new 10 (ofM wideFu) = .ok x := by
  have h1 : (match SVD.new 10 (ofM wideFu) with | .ok _ => true | .error _ => false) = true := by decide +kernel
  rcases h : SVD.new 10 (ofM wideFu) with _ | x
  · rw [h] at h1; cases h1
  · exact ⟨x, rfl⟩

/-- ... and in rounded arithmetic both singular values of a well conditioned matrix are counted. -/
example : ∃ x : SVD Fu, SVD.new 10 (ofM wideFu) = .ok x ∧ x.rank = .ok 2 := by
  obtain ⟨x, hx⟩ := wideFu_runs
  obtain ⟨r, hr, hr2, hk⟩ := C107_rank_rounded (by norm_num) (by norm_num) wideFu hx
  have eA : values wideFu = !![3, 0, 0; 0, 2, 0] := by
    ext i j
    fin_cases i <;> fin_cases j <;> simp [values, wideFu, Sfp.val]
  rw [eA] at hk
  have hs : ∀ k, k < 2 → singularValue !![(3 : ℝ), 0, 0; 0, 2, 0] k = 3 - k := by
    intro k hk
    have h3 := singular_close (m := 2) (n := 3) (k := k) !![(3 : ℝ), 0, 0; 0, 2, 0] orth_one orth_one (s := fun i => 3 - i) (fun i j h _ => by
      have : (i : ℝ) ≤ j := by exact_mod_cast h
      linarith) (fun i h => by
      have : (i : ℝ) ≤ 2 := by exact_mod_cast (by omega : i ≤ 2)
      linarith) (by omega)
    have e : !![(3 : ℝ), 0, 0; 0, 2, 0] - (1 : Matrix (Fin 2) (Fin 2) ℝ) * rectDiag 2 3 (fun i => 3 - (i : ℝ)) * (1 : Matrix (Fin 3) (Fin 3) ℝ)ᵀ = 0 := by
      rw [Matrix.transpose_one, Matrix.one_mul, Matrix.mul_one]
      ext i j
      fin_cases i <;> fin_cases j <;> norm_num [rectDiag]
    rw [e, show frob (0 : Matrix (Fin 2) (Fin 3) ℝ) = 0 by simp [frob]] at h3
    linarith [abs_nonpos_iff.1 h3]
  have hF : frobenius !![(3 : ℝ), 0, 0; 0, 2, 0] ≤ 4 := by
    unfold frobenius
    rw [Real.sqrt_le_left (by norm_num)]
    norm_num [Fin.sum_univ_succ]
  have hF0 : 0 ≤ frobenius !![(3 : ℝ), 0, 0; 0, 2, 0] := Real.sqrt_nonneg _
  have hd := C100_double (m := 2) (n := 3) (fuel := 10) (by norm_num) (by norm_num)
  have h0 := svdError_nonneg (α := Fu) 2 3 10
  have hd' : svdError (Sfp.u Fu) 2 3 10 ≤ 1 / 100 := hd.trans (by norm_num)
  have a1 := (hk 1 (by norm_num)).1
  rw [hs 0 (by norm_num), hs 1 (by norm_num), show rankTol 2 3 = 3 / 2 ^ 52 by unfold rankTol; norm_num,
    show (1 - Sfp.u Fu)⁻¹ ^ 4 = (1 - 1 / 2 ^ 53 : ℝ)⁻¹ ^ 4 from rfl] at a1
  have hb : svdError (Sfp.u Fu) 2 3 10 * (frobenius !![(3 : ℝ), 0, 0; 0, 2, 0] + 1 / 2 ^ 915) ≤ 1 / 100 * (4 + 1) :=
    mul_le_mul hd' (add_le_add hF (div_le_self zero_le_one (one_le_pow₀ (by norm_num)))) (by positivity) (by norm_num)
  have hb0 : 0 ≤ svdError (Sfp.u Fu) 2 3 10 * (frobenius !![(3 : ℝ), 0, 0; 0, 2, 0] + 1 / 2 ^ 915) := by positivity
  set β := svdError (Sfp.u Fu) 2 3 10 * (frobenius !![(3 : ℝ), 0, 0; 0, 2, 0] + 1 / 2 ^ 915)
  clear_value β
  have r1 : 1 < r := a1 (by
    push_cast
    norm_num at hb ⊢
    linarith)
  exact ⟨x, hx, by rw [hr, show r = 2 by omega]⟩

end LA.Props
