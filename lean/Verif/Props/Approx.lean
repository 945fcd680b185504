import Verif.Props.NaN
import Verif.Props.IEEE

/-! # C76: approximate equality on `f64`

C24 describes `approx_eq` and `is_symmetric` in exact arithmetic; here they act on `F64`, with NaN and infinities. -/

namespace LA.Props
open LA Finset
set_option linter.unusedSectionVars false

section
variable {α : Type} [Sub α] [FloatOps α] {m n : Nat}

/-- `approx_eq` tests all pairs of entries. -/
theorem approxEq_gen [Zero α] (hm : 0 < m) (A B : Matrix (Fin m) (Fin n) α) :
    (ofM A).approxEq (ofM B) = .ok (decide (∀ i j, approxEqElem (A i j) (B i j) = true)) := by
  unfold Mat.approxEq
  simp only [ofM_rows, ofM_cols A hm, ofM_cols B hm, ok_bind, bne_self_eq_false, Bool.false_eq_true, if_false]
  have := loopF_all (lo := 0) (hi := (ofM A).data.length) (f := fun i _ => do
    if !(approxEqElem (← idx (ofM A).data i) (← idx (ofM B).data i)) then return Flow.ret false
    else return Flow.next ()) (fun i => approxEqElem (lin A i) (lin B i) = true) (by
      intro i _ hi
      rw [ofM_length] at hi
      rw [idx_lin A hi, idx_lin B hi, ok_bind, ok_bind]
      cases approxEqElem (lin A i) (lin B i) <;> simp)
  have e : (∀ i, 0 ≤ i → i < (ofM A).data.length → approxEqElem (lin A i) (lin B i) = true) ↔
      ∀ i j, approxEqElem (A i j) (B i j) = true := by
    constructor
    · intro h i j
      have := h (i.1 * n + j.1) (Nat.zero_le _) (by rw [ofM_length]; exact rm_lt i.2 j.2)
      rwa [lin_rm, lin_rm] at this
    · intro h i _ hi
      rw [ofM_length] at hi
      obtain ⟨r, c, hr, hc, rfl⟩ := rm_surj hi
      have := h ⟨r, hr⟩ ⟨c, hc⟩
      rw [← lin_rm A, ← lin_rm B] at this
      exact this
  rw [e] at this
  by_cases h : ∀ i j, approxEqElem (A i j) (B i j) = true
  · rw [this.1 h, decide_eq_true h]; rfl
  · rw [this.2 h, decide_eq_false h]; rfl

/-- `is_symmetric` tests each entry below the diagonal against its mirror image. -/
theorem isSymmetric_gen [Zero α] (hn : 0 < n) (A : Matrix (Fin n) (Fin n) α) :
    (ofM A).isSymmetric = .ok (decide (∀ i j, j < i → approxEqElem (A i j) (A j i) = true)) := by
  unfold Mat.isSymmetric
  simp only [ofM_rows, ofM_cols A hn, ok_bind, bne_self_eq_false, Bool.false_eq_true, if_false]
  have inner : ∀ row (hr : row < n), _ := fun row hr =>
    loopF_all (lo := 0) (hi := row) (f := fun col _ => do
      if !(approxEqElem (← (ofM A).get row col) (← (ofM A).getRef col row)) then return Flow.ret false
      else return Flow.next ()) (fun col => ∀ hc : col < n, approxEqElem (A ⟨row, hr⟩ ⟨col, hc⟩) (A ⟨col, hc⟩ ⟨row, hr⟩) = true) (by
      intro col _ hc
      have hc' : col < n := by omega
      simp only [ofM_get A hr hc', ofM_getRef A hc' hr, ok_bind, pure_eq_ok, hc', forall_true_left]
      constructor
      · intro h; simp [h]
      · intro h; simp [h])
  have outer := fun (f : Nat → Unit → R (Flow Unit Bool)) (hf : ∀ row u, f row u = (do
        let o ← loopF 0 row () fun col _ => do
          if !(approxEqElem (← (ofM A).get row col) (← (ofM A).getRef col row)) then return Flow.ret false
          else return Flow.next ()
        match o with
        | .ret r => return Flow.ret r
        | .next _ => return Flow.next ())) => loopF_all (lo := 1) (hi := n) (f := f)
      (fun row => ∀ hr : row < n, ∀ col, 0 ≤ col → col < row → ∀ hc : col < n,
        approxEqElem (A ⟨row, hr⟩ ⟨col, hc⟩) (A ⟨col, hc⟩ ⟨row, hr⟩) = true) (by
        intro row h1 h2
        refine ⟨fun h => ?_, fun h => ?_⟩
        · rw [hf, (inner row h2).1 (h h2)]; rfl
        · rw [hf, (inner row h2).2 (fun h' => h fun _ => h')]; rfl)
  have hall : (∀ row, 1 ≤ row → row < n → ∀ hr : row < n, ∀ col, 0 ≤ col → col < row → ∀ hc : col < n,
        approxEqElem (A ⟨row, hr⟩ ⟨col, hc⟩) (A ⟨col, hc⟩ ⟨row, hr⟩) = true) ↔
        ∀ i j, j < i → approxEqElem (A i j) (A j i) = true := by
    constructor
    · intro h i j hij
      have : j.1 < i.1 := hij
      exact h i.1 (by omega) i.2 i.2 j.1 (Nat.zero_le _) hij j.2
    · intro h row _ _ hr col _ hc _; exact h _ _ hc
  simp only [hall] at outer
  by_cases h : ∀ i j, j < i → approxEqElem (A i j) (A j i) = true
  · rw [(outer _ ?_).1 h, decide_eq_true h]
    · rfl
    · exact fun _ _ => rfl
  · rw [(outer _ ?_).2 h, decide_eq_false h]
    · rfl
    · exact fun _ _ => rfl

end

variable {m n : Nat}

theorem tol_eq : (FloatOps.cst 1 1000000 : F64) = F64.mk false (2 ^ 1074) 1000000 := by
  show F64.mk (decide ((1 : Int) < 0)) ((1 : Int).natAbs * 2 ^ 1074) 1000000 = _
  rw [Int.natAbs_one, Nat.one_mul]
  rfl

/-- The rounded tolerance `1e-6`. -/
theorem tol_err : F64.isFin (FloatOps.cst 1 1000000) ∧ |(FloatOps.cst 1 1000000 : F64).toReal - 1 / 1000000| ≤ 1 / 2 ^ 53 * (1 / 1000000) + F64.U / 2 := by
  have hf : F64.isFin (FloatOps.cst 1 1000000) := by decide +kernel
  refine ⟨hf, ?_⟩
  rw [tol_eq] at hf ⊢
  have h := (F64.mk_err (y := 1 / 1000000) (by norm_num) hf (by
    rw [if_neg (by simp), F64.cast_two_pow]
    have := F64.U_pos
    generalize F64.U = x at *
    push_cast
    field_simp)).1
  rwa [abs_of_nonneg (by norm_num : (0 : ℝ) ≤ 1 / 1000000)] at h

theorem sub_self_f64 {x : F64} (h : x.isFin) : x - x = F64.zero false := by
  obtain ⟨s, k, hk, rfl⟩ := F64.isFin_iff h
  show F64.add (.fin s k hk) (.fin (!s) k hk) = _
  rw [show F64.add (.fin s k hk) (.fin (!s) k hk) = _ from F64.add_fin_eq hk hk, if_pos (by cases s <;> simp [F64.sgn])]
  cases s <;> rfl

theorem lt_isFin {x : F64} (h : FloatOps.lt (FloatOps.abs x) (FloatOps.cst 1 1000000 : F64) = true) : x.isFin := by
  obtain ⟨s, k, hk, e⟩ := F64.isFin_iff tol_err.1
  rw [e, F64.lt_def] at h
  cases x with
  | nan => cases h
  | inf s => exact absurd h (by simp [FloatOps.abs, F64.abs, F64.cmp, F64.sgn])
  | fin => trivial

theorem sub_comm_f64 (x y : F64) : FloatOps.abs (x - y) = FloatOps.abs (y - x) := by
  cases x with
  | nan => cases y <;> rfl
  | inf s => cases y with
    | nan => rfl
    | inf t => cases s <;> cases t <;> rfl
    | fin t k h => rfl
  | fin s k h => cases y with
    | nan => rfl
    | inf t => rfl
    | fin t l h' =>
      show FloatOps.abs (F64.add (.fin s k h) (.fin (!t) l h')) = FloatOps.abs (F64.add (.fin t l h') (.fin (!s) k h))
      rw [show F64.add (.fin s k h) (.fin (!t) l h') = _ from F64.add_fin_eq h h',
        show F64.add (.fin t l h') (.fin (!s) k h) = _ from F64.add_fin_eq h' h]
      have e : F64.sgn t l + F64.sgn (!s) k = -(F64.sgn s k + F64.sgn (!t) l) := by
        cases s <;> cases t <;> simp [F64.sgn]
      rw [e, Int.natAbs_neg]
      by_cases h0 : F64.sgn s k + F64.sgn (!t) l = 0
      · rw [if_pos h0, if_pos (by rw [h0]; rfl)]; rfl
      · rw [if_neg h0, if_neg (by omega)]
        unfold F64.mk
        split_ifs <;> rfl

/-- C76: the test on two numbers: both must be finite, and the real difference decides, up to one part in `2^50`. -/
theorem approx_f64 (x y : F64) :
    (approxEqElem x y = true → x.isFin ∧ y.isFin ∧ |x.toReal - y.toReal| < (1 + 1 / 2 ^ 50) / 1000000) ∧
    (x.isFin → y.isFin → |x.toReal - y.toReal| ≤ (1 - 1 / 2 ^ 50) / 1000000 → approxEqElem x y = true) := by
  obtain ⟨tf, te⟩ := tol_err
  have hU : F64.U ≤ 1 / 2 ^ 100 := by
    unfold F64.U
    exact one_div_le_one_div_of_le (by positivity) (pow_le_pow_right₀ (by norm_num) (by norm_num))
  have te := abs_le.mp te
  unfold approxEqElem
  constructor
  · intro h
    have hf := lt_isFin h
    obtain ⟨hx, hy, -, he⟩ := Fp.sub x y hf
    refine ⟨hx, hy, ?_⟩
    rw [Fp.lt _ _ ((Fp.abs _).1.mpr hf) tf, (Fp.abs _).2 hf] at h
    change |(x - y).toReal| < _ at h
    change |(x - y).toReal - (x.toReal - y.toReal)| ≤ 1 / 2 ^ 53 * |(x - y).toReal| at he
    have h1 := abs_sub_abs_le_abs_sub (x.toReal - y.toReal) (x - y).toReal
    rw [abs_sub_comm] at he
    change _ < (FloatOps.cst 1 1000000 : F64).toReal at h
    generalize F64.U = U' at *
    generalize (FloatOps.cst 1 1000000 : F64).toReal = c at *
    generalize |x.toReal - y.toReal| = d at *
    generalize |(x - y).toReal| = e at *
    norm_num at *
    linarith
  · intro hx hy h
    have hf : (x - y).isFin := by
      refine Fp.sub_fin x y hx hy ?_
      change (1 + 1 / 2 ^ 53) * |x.toReal - y.toReal| ≤ F64.top * F64.U
      have : 1 ≤ F64.top * F64.U := by
        unfold F64.top F64.U
        rw [mul_one_div, le_div_iff₀ (by positivity), one_mul]
        have h1 : (2 : ℝ) ^ 1074 ≤ 2 ^ 2045 := pow_le_pow_right₀ (by norm_num) (by norm_num)
        have h2 : (2 : ℝ) ^ 2098 = 2 ^ 2045 * 2 ^ 53 := by rw [← pow_add]
        rw [h2]
        have hz : (0 : ℝ) ≤ 2 ^ 2045 := by positivity
        generalize (2 : ℝ) ^ 2045 = z at *
        generalize (2 : ℝ) ^ 1074 = w at *
        clear te hU h2
        norm_num
        linarith
      refine le_trans ?_ this
      generalize |x.toReal - y.toReal| = d at *
      clear te hU this
      norm_num at *
      linarith
    obtain ⟨-, -, he, -⟩ := Fp.sub x y hf
    rw [Fp.lt _ _ ((Fp.abs _).1.mpr hf) tf, (Fp.abs _).2 hf]
    change |(x - y).toReal| < (FloatOps.cst 1 1000000 : F64).toReal
    change |(x - y).toReal - (x.toReal - y.toReal)| ≤ 1 / 2 ^ 53 * |x.toReal - y.toReal| at he
    have h1 := abs_sub_abs_le_abs_sub (x - y).toReal (x.toReal - y.toReal)
    generalize F64.U = U' at *
    generalize (FloatOps.cst 1 1000000 : F64).toReal = c at *
    generalize |x.toReal - y.toReal| = d at *
    generalize |(x - y).toReal| = e at *
    norm_num at *
    linarith

/-- C76: on `f64`, a matrix is approximately equal to itself exactly if it has no NaN and no infinity. -/
theorem C76_refl (hm : 0 < m) (A : Matrix (Fin m) (Fin n) F64) :
    ∃ b, (ofM A).approxEq (ofM A) = .ok b ∧ (b = true ↔ ∀ i j, (A i j).isFin) := by
  refine ⟨_, approxEq_gen hm A A, ?_⟩
  rw [decide_eq_true_iff]
  refine forall_congr' fun i => forall_congr' fun j => ⟨fun h => ((approx_f64 _ _).1 h).1, fun h => (approx_f64 _ _).2 h h ?_⟩
  rw [sub_self, abs_zero]; norm_num

/-- Different shapes are never approximately equal. -/
theorem approxEq_shape {α : Type} [Sub α] [FloatOps α] {m n m' n' : Nat} (hm : 0 < m) (hm' : 0 < m') (A : Matrix (Fin m) (Fin n) α)
    (B : Matrix (Fin m') (Fin n') α) (h : ¬(m = m' ∧ n = n')) : (ofM A).approxEq (ofM B) = .ok false := by
  unfold Mat.approxEq
  simp only [ofM_rows, ofM_cols A hm, ofM_cols B hm', ok_bind]
  by_cases h1 : m = m'
  · have h2 : n ≠ n' := fun e => h ⟨h1, e⟩
    simp [h1, h2]
  · simp [h1]

/-- C76: the order of the operands does not matter, whatever the shapes and entries; different shapes are never approximately equal. -/
theorem C76_symm {m' n' : Nat} (hm : 0 < m) (hm' : 0 < m') (A : Matrix (Fin m) (Fin n) F64) (B : Matrix (Fin m') (Fin n') F64) :
    (ofM A).approxEq (ofM B) = (ofM B).approxEq (ofM A) ∧ (¬(m = m' ∧ n = n') → (ofM A).approxEq (ofM B) = .ok false) := by
  refine ⟨?_, approxEq_shape hm hm' A B⟩
  by_cases h : m = m' ∧ n = n'
  · obtain ⟨rfl, rfl⟩ := h
    rw [approxEq_gen hm, approxEq_gen hm]
    congr 1
    rw [decide_eq_decide]
    refine forall_congr' fun i => forall_congr' fun j => ?_
    unfold approxEqElem
    rw [sub_comm_f64]
  · rw [approxEq_shape hm hm' A B h, approxEq_shape hm' hm B A (fun e => h ⟨e.1.symm, e.2.symm⟩)]

/-- C76: `approx_eq` is true only if all entries are finite and differ by less than `1e-6` (up to one part in `2^50`); and it is true if
they do. -/
theorem C76_approxEq (hm : 0 < m) (A B : Matrix (Fin m) (Fin n) F64) :
    ((ofM A).approxEq (ofM B) = .ok true → ∀ i j, (A i j).isFin ∧ (B i j).isFin ∧ |(A i j).toReal - (B i j).toReal| < (1 + 1 / 2 ^ 50) / 1000000) ∧
    ((∀ i j, (A i j).isFin ∧ (B i j).isFin ∧ |(A i j).toReal - (B i j).toReal| ≤ (1 - 1 / 2 ^ 50) / 1000000) →
      (ofM A).approxEq (ofM B) = .ok true) := by
  rw [approxEq_gen hm]
  constructor
  · intro h i j
    rw [Except.ok.injEq, decide_eq_true_iff] at h
    exact (approx_f64 _ _).1 (h i j)
  · intro h
    rw [Except.ok.injEq, decide_eq_true_iff]
    exact fun i j => (approx_f64 _ _).2 (h i j).1 (h i j).2.1 (h i j).2.2

/-- C76: so for `is_symmetric`, off the diagonal; the diagonal is not looked at, so it may hold NaNs. -/
theorem C76_isSymmetric (hn : 0 < n) (A : Matrix (Fin n) (Fin n) F64) :
    ((ofM A).isSymmetric = .ok true → ∀ i j, i ≠ j → (A i j).isFin ∧ (A j i).isFin ∧ |(A i j).toReal - (A j i).toReal| < (1 + 1 / 2 ^ 50) / 1000000) ∧
    ((∀ i j, i ≠ j → (A i j).isFin ∧ (A j i).isFin ∧ |(A i j).toReal - (A j i).toReal| ≤ (1 - 1 / 2 ^ 50) / 1000000) →
      (ofM A).isSymmetric = .ok true) := by
  rw [isSymmetric_gen hn]
  constructor
  · intro h i j hij
    rw [Except.ok.injEq, decide_eq_true_iff] at h
    rcases lt_or_gt_of_ne hij with c | c
    · obtain ⟨h1, h2, h3⟩ := (approx_f64 _ _).1 (h j i c)
      exact ⟨h2, h1, by rwa [abs_sub_comm]⟩
    · exact (approx_f64 _ _).1 (h i j c)
  · intro h
    rw [Except.ok.injEq, decide_eq_true_iff]
    exact fun i j c => (approx_f64 _ _).2 (h i j c.ne').1 (h i j c.ne').2.1 (h i j c.ne').2.2

/-! ## The hypotheses can be met -/

example : (ofM !![F64.inf false]).approxEq (ofM !![F64.inf false]) = .ok false := by
  decide +kernel
example : (ofM !![(1 : F64), 0; 0, .nan]).isSymmetric = .ok true := by decide +kernel
example : (ofM !![(1 : F64)]).approxEq (ofM !![dec 10000009 (-7)]) = .ok true ∧ (ofM !![(1 : F64)]).approxEq (ofM !![dec 1000001 (-6)]) = .ok true ∧
    (ofM !![(1 : F64)]).approxEq (ofM !![dec 10000011 (-7)]) = .ok false := by
  refine ⟨?_, ?_, ?_⟩ <;> decide +kernel

end LA.Props
