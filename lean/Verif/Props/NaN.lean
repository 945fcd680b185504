import Verif.Props.Accuracy
import Verif.Proofs.F64Laws

/-! # C75: NaN is not lost

`nan x`: `x` is a NaN.  `NaNs` states IEEE 754: arithmetic on a NaN gives a NaN, comparisons with it are false. -/

namespace LA.Props
open LA Finset Fp
set_option linter.unusedSectionVars false

open _root_.LA.NaNs (nan)
variable {α : Type} [Zero α] [One α] [Add α] [Sub α] [Neg α] [Mul α] [FloatOps α] [Fp α] [NaNs α] {m n p : Nat}

theorem facc_nan_z {op : α → α → α} (hop : ∀ x y, nan x → nan (op x y)) {z : α} (hz : nan z) (x : Nat → α) (k : Nat) : nan (facc op z x k) := by
  induction k with
  | zero => exact hz
  | succ k ih => exact hop _ _ ih

theorem facc_nan_x {op : α → α → α} (hl : ∀ x y, nan x → nan (op x y)) (hr : ∀ x y, nan y → nan (op x y)) {z : α} {x : Nat → α} {i k : Nat}
    (hi : i < k) (hx : nan (x i)) : nan (facc op z x k) := by
  induction k with
  | zero => omega
  | succ k ih =>
    by_cases e : i = k
    · subst e; exact hr _ _ hx
    · exact hl _ _ (ih (by omega))

theorem fdot_nan_l {x y : Nat → α} {i k : Nat} (hi : i < k) (hx : nan (x i)) : nan (fdot x y k) :=
  facc_nan_x NaNs.add_l NaNs.add_r hi (NaNs.mul_l _ _ hx)

theorem fdot_nan_r {x y : Nat → α} {i k : Nat} (hi : i < k) (hy : nan (y i)) : nan (fdot x y k) :=
  facc_nan_x NaNs.add_l NaNs.add_r hi (NaNs.mul_r _ _ hy)

/-- C75: entrywise operations keep the NaNs of both operands. -/
theorem C75_elementwise (hm : 0 < m) (A B : Matrix (Fin m) (Fin n) α) (k : α) :
    ∃ S D P M : Matrix (Fin m) (Fin n) α, (ofM A).add (ofM B) = .ok (ofM S) ∧ (ofM A).sub (ofM B) = .ok (ofM D) ∧
      (ofM A).elemMul (ofM B) = .ok (ofM P) ∧ (ofM A).scale k = .ok (ofM M) ∧ ∀ i j,
        (nan (A i j) ∨ nan (B i j) → nan (S i j) ∧ nan (D i j) ∧ nan (P i j)) ∧ (nan k ∨ nan (A i j) → nan (M i j)) :=
  ⟨_, _, _, _, C08_add hm A B, C08_sub hm A B, C08_elemMul hm A B, C08_scale A k, fun i j =>
    ⟨fun h => h.elim (fun h => ⟨NaNs.add_l _ _ h, NaNs.sub_l _ _ h, NaNs.mul_l _ _ h⟩) fun h => ⟨NaNs.add_r _ _ h, NaNs.sub_r _ _ h, NaNs.mul_r _ _ h⟩,
      fun h => h.elim (fun h => NaNs.mul_l _ _ h) fun h => NaNs.mul_r _ _ h⟩⟩

/-- C75: a NaN in row `i` of `a` or in column `j` of `b` makes entry `(i, j)` of the product a NaN. -/
theorem C75_mul (hm : 0 < m) (hp : 0 < p) (A : Matrix (Fin m) (Fin p) α) (B : Matrix (Fin p) (Fin n) α) :
    ∃ C : Matrix (Fin m) (Fin n) α, (ofM A).mul (ofM B) = .ok (ofM C) ∧
      ∀ i j, (∃ k, nan (A i k) ∨ nan (B k j)) → nan (C i j) := by
  refine ⟨_, C10_mul_general hm hp A B, fun i j ⟨k, h⟩ => ?_⟩
  have e : (List.finRange p).foldl (fun s k => s + A i k * B k j) 0 = fdot (fun k => ext A i k) (fun k => ext B k j) p := by
    unfold fdot
    rw [← foldl_facc]
    simp
  rw [Matrix.of_apply, e]
  rcases h with h | h
  · exact fdot_nan_l k.2 (by rwa [ext_fin])
  · exact fdot_nan_r k.2 (by rwa [ext_fin])

/-- C75: a NaN on the diagonal makes the trace a NaN. -/
theorem C75_trace (hm : 0 < m) (A : Matrix (Fin m) (Fin n) α) (i : Fin (min m n)) (h : nan (A ⟨i.1, by omega⟩ ⟨i.1, by omega⟩)) :
    ∃ t, (ofM A).trace = .ok t ∧ nan t := by
  refine ⟨_, trace_facc hm A, facc_nan_x NaNs.add_l NaNs.add_r i.2 ?_⟩
  rwa [ext_eq A (by omega) (by omega)]

/-- C75: a NaN entry makes the 1-norm, the Euclidean norms and the Frobenius norm NaN. -/
theorem C75_norms (hn : 0 < n) (v : Fin n → α) (hv : ∃ i, nan (v i)) (A : Matrix (Fin m) (Fin n) α) (hA : ∃ i j, nan (A i j)) :
    (∃ t, (ofM (colVec v)).vector1Norm = .ok t ∧ nan t) ∧ (∃ t, (ofM (colVec v)).vectorEuclideanNorm = .ok t ∧ nan t) ∧
    (∃ t, (ofM (colVec v)).vector2Norm = .ok t ∧ nan t) ∧ (∃ t, (ofM (colVec v)).length = .ok t ∧ nan t) ∧
    ∃ t, (ofM A).frobeniusNorm = .ok t ∧ nan t := by
  have frob : ∀ {m n : Nat} (A : Matrix (Fin m) (Fin n) α), (∃ i j, nan (A i j)) → ∃ t, (ofM A).frobeniusNorm = .ok t ∧ nan t := by
    rintro m n A ⟨i, j, h⟩
    obtain ⟨t, ht⟩ := Fp.sqrt_total (fdot (lin A) (lin A) (m * n))
    refine ⟨t, by unfold Mat.frobeniusNorm; rw [frob_facc, ok_bind, ht], NaNs.sqrt _ _ ?_ ht⟩
    exact fdot_nan_l (rm_lt i.2 j.2) (by rwa [lin_rm])
  obtain ⟨i, hi⟩ := hv
  have h2 : ∃ t, (ofM (colVec v)).vectorEuclideanNorm = .ok t ∧ nan t := by
    obtain ⟨t, h1, h2⟩ := frob (colVec v) ⟨i, 0, hi⟩
    refine ⟨t, ?_, h2⟩
    unfold Mat.vectorEuclideanNorm
    rw [colVec_cols hn]
    exact h1
  refine ⟨⟨_, norm1_facc hn v, facc_nan_x NaNs.add_l NaNs.add_r i.2 (NaNs.abs _ ?_)⟩, h2, h2, h2, frob A hA⟩
  have := lin_rm (colVec v) i 0
  rw [show i.1 * 1 + (0 : Fin 1).1 = i.1 by simp] at this
  rw [this]; exact hi

/-- C75: the maximum norm is a NaN if the first entry is; NaNs in other entries are passed over. -/
theorem C75_normInf (hn : 0 < n) (v : Fin n → α) :
    (nan (v ⟨0, hn⟩) → ∃ t, (ofM (colVec v)).vectorInfNorm = .ok t ∧ nan t) ∧
    (¬ nan (FloatOps.abs (v ⟨0, hn⟩)) → ∃ t, (ofM (colVec v)).vectorInfNorm = .ok t ∧ ¬ nan t) := by
  unfold Mat.vectorInfNorm
  rw [colVec_cols hn]
  have hidx : ∀ k (hk : k < n), idx (ofM (colVec v)).data k = .ok (v ⟨k, hk⟩) := by
    intro k hk
    have := idx_ofM (colVec v) hk Nat.one_pos
    simpa [colVec] using this
  simp only [ok_bind, beq_self_eq_true, assert_true, hidx 0 hn, ofM_length, Nat.mul_one]
  constructor
  · intro h
    refine loop_post (fun k x => nan x) hn (NaNs.abs _ h) ?_
    intro k x _ hk hx
    simp only [hidx k hk, ok_bind]
    rw [if_neg (by rw [NaNs.lt_l _ _ hx]; simp)]
    exact Post.ok hx
  · intro h
    refine loop_post (fun k x => ¬ nan x) hn h ?_
    intro k x _ hk hx
    simp only [hidx k hk, ok_bind]
    by_cases hc : FloatOps.lt x (FloatOps.abs (v ⟨k, hk⟩)) = true
    · rw [if_pos hc]
      refine Post.ok fun hn => ?_
      rw [NaNs.lt_r _ _ hn] at hc; cases hc
    · rw [if_neg hc]
      exact Post.ok hx

/-- C75: `approx_eq` is false as soon as one of two matching entries is a NaN. -/
theorem C75_approxEq (hm : 0 < m) (A B : Matrix (Fin m) (Fin n) α) (h : ∃ i j, nan (A i j) ∨ nan (B i j)) :
    (ofM A).approxEq (ofM B) = .ok false := by
  unfold Mat.approxEq
  simp only [ofM_rows, ofM_cols A hm, ofM_cols B hm, ok_bind, bne_self_eq_false, Bool.false_eq_true, if_false]
  have := loopF_all (lo := 0) (hi := (ofM A).data.length) (f := fun i _ => do
    if !(approxEqElem (← idx (ofM A).data i) (← idx (ofM B).data i)) then return Flow.ret false
    else return Flow.next ()) (fun i => approxEqElem (lin A i) (lin B i) = true) (by
      intro i _ hi
      rw [ofM_length] at hi
      rw [idx_lin A hi, idx_lin B hi, ok_bind, ok_bind]
      cases approxEqElem (lin A i) (lin B i) <;> simp)
  rw [this.2]
  · rfl
  · intro hall
    obtain ⟨i, j, h⟩ := h
    have hf := hall (i.1 * n + j.1) (Nat.zero_le _) (by rw [ofM_length]; exact rm_lt i.2 j.2)
    rw [lin_rm, lin_rm] at hf
    unfold approxEqElem at hf
    rw [NaNs.lt_l _ _ (NaNs.abs _ (h.elim (NaNs.sub_l _ _) (NaNs.sub_r _ _)))] at hf
    cases hf

/-- A NaN in the matrix reaches the diagonal of the packed factors. -/
theorem lu_diag_nan {A : Matrix (Fin n) (Fin n) α} {G : Nat → Nat → α} {σ : Equiv.Perm (Fin n)}
    (h : ∀ c, c < n → LU.Rnd.Col n (ext A) G σ c) (hA : ∃ i j, nan (A i j)) : ∃ i : Fin n, nan (G i i) := by
  obtain ⟨r, c, hr⟩ := hA
  obtain ⟨i, rfl⟩ := σ.surjective r
  have hW : nan (LU.Rnd.W (ext A (σ i) c) G i c) := NaNs.sub_l _ _ (by rwa [ext_fin])
  rcases Nat.lt_trichotomy i.1 c.1 with hic | hic | hic
  · refine ⟨c, ?_⟩
    have h1 := (h c c.2).up i hic.le
    rw [(h c c.2).up c le_rfl]
    refine NaNs.sub_r _ _ (fdot_nan_r (i := i.1) (by simpa using hic) ?_)
    rw [h1]; exact hW
  · refine ⟨i, ?_⟩
    have h1 := (h c c.2).up i hic.le
    rw [← hic] at h1 hW
    rw [h1]; exact hW
  · refine ⟨i, ?_⟩
    have h1 := (h c c.2).lo i hic
    have h2 : nan (G i c) := by
      unfold LU.Rnd.Quot at h1
      split at h1
      · rw [h1]; exact hW
      · exact NaNs.div_l _ _ _ hW h1
    rw [(h i i.2).up i le_rfl]
    exact NaNs.sub_r _ _ (fdot_nan_l (i := c.1) (by simpa using hic) h2)

/-- C75: the determinant of a matrix with a NaN is a NaN. -/
theorem C75_det (hn : 0 < n) (A : Matrix (Fin n) (Fin n) α) (hA : ∃ i j, nan (A i j)) : ∃ d, (ofM A).det = .ok d ∧ nan d := by
  obtain ⟨G, σ, h1, h2⟩ := LU.Rnd.new_ofM hn hn A
  refine ⟨_, det_facc hn h1, ?_⟩
  obtain ⟨i, hi⟩ := lu_diag_nan h2 hA
  exact facc_nan_x NaNs.mul_l NaNs.mul_r i.2 hi

/-- C75: a NaN in the matrix puts a NaN into every column of the solution, a NaN in a column of the right-hand side one into that
column, unless `solve` returns `None`. -/
theorem C75_solve (hn : 0 < n) (hp : 0 < p) (A : Matrix (Fin n) (Fin n) α) (B : Matrix (Fin n) (Fin p) α) :
    (ofM A).solve (ofM B) = .ok none ∨ ∃ X : Matrix (Fin n) (Fin p) α, (ofM A).solve (ofM B) = .ok (some (ofM X)) ∧
      ∀ j, ((∃ r c, nan (A r c)) ∨ ∃ r, nan (B r j)) → ∃ i, nan (X i j) := by
  obtain ⟨G, σ, h1, h2⟩ := LU.Rnd.new_ofM hn hn A
  rcases LU.Rnd.solve_ok hn hp G (decide (Equiv.Perm.sign σ = 1)) σ B with ⟨-, h4⟩ | ⟨-, X, Y, h4, h5, h6⟩
  · left
    unfold Mat.solve
    rw [h1, ok_bind, h4]
  · right
    refine ⟨Matrix.of fun i j => X i j, by unfold Mat.solve; rw [h1, ok_bind, h4], fun j h => ?_⟩
    rcases h with h | ⟨r, h⟩
    · obtain ⟨i, hi⟩ := lu_diag_nan h2 h
      exact ⟨i, NaNs.div_r _ _ _ hi (h6 i j)⟩
    · obtain ⟨i, rfl⟩ := σ.surjective r
      have hY : nan (Y i j) := by rw [h5 i j]; exact facc_nan_z NaNs.sub_l h _ _
      exact ⟨i, NaNs.div_l _ _ _ (facc_nan_z NaNs.sub_l hY _ _) (h6 i j)⟩

/-- C75: so for the inverse. -/
theorem C75_inverse (hn : 0 < n) (A : Matrix (Fin n) (Fin n) α) (hA : ∃ i j, nan (A i j)) :
    (ofM A).inverse = .ok none ∨ ∃ X : Matrix (Fin n) (Fin n) α, (ofM A).inverse = .ok (some (ofM X)) ∧ ∀ j, ∃ i, nan (X i j) := by
  have hinv : (ofM A).inverse = (ofM A).solve (ofM (1 : Matrix (Fin n) (Fin n) α)) := by
    unfold Mat.inverse Mat.solve
    simp only [ofM_cols A hn, ofM_rows, ok_bind, beq_self_eq_true, assert_true, C05_id_square]
  rw [hinv]
  rcases C75_solve hn hn A 1 with h | ⟨X, h1, h2⟩
  · exact Or.inl h
  · exact Or.inr ⟨X, h1, fun j => h2 j (Or.inl hA)⟩

/-- C75: Cholesky: a NaN off the diagonal gives `None`; one on the diagonal `None` or a factor with a NaN on the diagonal, whose
`solve` returns NaNs in every column. -/
theorem C75_cholesky (hn : 0 < n) (hp : 0 < p) (A : Matrix (Fin n) (Fin n) α) (B : Matrix (Fin n) (Fin p) α) (r s : Fin n) (hA : nan (A r s)) :
    Cholesky.new (ofM A) = .ok none ∨
    (r = s ∧ ∃ (c : Cholesky α) (L : Matrix (Fin n) (Fin n) α) (X : Matrix (Fin n) (Fin p) α), Cholesky.new (ofM A) = .ok (some c) ∧
      c.getL = ofM L ∧ nan (L r r) ∧ c.solve (ofM B) = .ok (ofM X) ∧ ∀ j, ∃ i, nan (X i j)) := by
  obtain ⟨o, ho, hP⟩ := Cholesky.Rnd.new_post hn A
  match o, hP with
  | none, hP => exact Or.inl ho
  | some c, ⟨L, hc, hP⟩ =>
    right
    have hrs : r = s := by
      by_contra h
      rcases Nat.lt_or_gt_of_ne (fun e => h (Fin.ext e)) with h | h
      · have := hP.symm s r s.2 h
        rw [ext_fin, ext_fin, NaNs.eq_l _ _ hA] at this
        cases this
      · have := hP.symm r s r.2 h
        rw [ext_fin, ext_fin, NaNs.eq_r _ _ hA] at this
        cases this
    subst hrs
    have hL : nan (L r r) := NaNs.sqrt _ _ (NaNs.sub_l _ _ (by rwa [ext_fin])) (hP.dg r r.2).1
    obtain ⟨X, Y, h4, h5, h6⟩ := Cholesky.Rnd.solve_ok hn hp L B
    refine ⟨rfl, c, _, _, ho, by rw [hc]; rfl, hL, by rw [hc]; exact h4, fun j => ⟨r, ?_⟩⟩
    exact NaNs.div_r _ _ _ hL (h6 r j r.2 j.2)

/-- C75: the test for positive pivots does not reject NaN: a matrix with equal mirror entries and a NaN in the top left corner is
accepted, with a factor that has NaN everywhere on and below the diagonal. -/
theorem C75_cholesky_accepts (hn : 0 < n) (A : Matrix (Fin n) (Fin n) α) (hsym : ∀ i j, j < i → FloatOps.eq (A j i) (A i j) = true)
    (h0 : nan (A ⟨0, hn⟩ ⟨0, hn⟩)) :
    ∃ (c : Cholesky α) (L : Matrix (Fin n) (Fin n) α), Cholesky.new (ofM A) = .ok (some c) ∧ c.getL = ofM L ∧ ∀ i j, j ≤ i → nan (L i j) := by
  -- the rows computed so far are NaN
  have key : ∀ (L : Nat → Nat → α) (j : Nat), j ≤ n → Cholesky.Rnd.Part n (ext A) L j → ∀ i k, i < j → k ≤ i → nan (L i k) := by
    intro L j hj hP i
    induction i using Nat.strong_induction_on with
    | _ i ih =>
      have hrow : ∀ k, i < j → k < i → nan (L i k) := fun k hi hk =>
        NaNs.div_r _ _ _ (ih k hk k (by omega) le_rfl) (hP.lo i k hi hk)
      intro k hi hk
      rcases Nat.lt_or_ge k i with h | h
      · exact hrow k hi h
      · have : k = i := by omega
        subst this
        refine NaNs.sqrt _ _ ?_ (hP.dg k hi).1
        rcases Nat.eq_zero_or_pos k with e | e
        · subst e
          exact NaNs.sub_l _ _ (by rw [ext_eq A hn hn]; exact h0)
        · exact NaNs.sub_r _ _ (fdot_nan_l (i := 0) e (hrow 0 hi e))
  obtain ⟨o, ho, hP⟩ := Cholesky.Rnd.new_post hn A
  match o, hP with
  | none, hP =>
    exfalso
    rcases hP with ⟨i, k, hi, hk, h⟩ | ⟨j, L, hj, hP, hlo, hle⟩
    · have := hsym ⟨i, hi⟩ ⟨k, hk.trans hi⟩ hk
      rw [ext_eq A (hk.trans hi) hi, ext_eq A hi (hk.trans hi), this] at h
      cases h
    · have hn' : nan (ext A j j - fdot (fun t => L j t) (fun t => L j t) j) := by
        rcases Nat.eq_zero_or_pos j with e | e
        · subst e
          exact NaNs.sub_l _ _ (by rw [ext_eq A hn hn]; exact h0)
        · exact NaNs.sub_r _ _ (fdot_nan_l (i := 0) e (NaNs.div_r _ _ _ (key L j hj.le hP 0 0 e le_rfl) (hlo 0 e)))
      rw [NaNs.le_l _ _ hn'] at hle
      cases hle
  | some c, ⟨L, hc, hP⟩ =>
    exact ⟨c, _, ho, by rw [hc]; rfl, fun i j hij => key L n le_rfl hP i j i.2 hij⟩

/-- C75: `hypot` returns a NaN if an argument is one, except `hypot(NaN, 0) = 0`. -/
theorem C75_hypot (a b : α) :
    (nan b ∨ (nan a ∧ FloatOps.eq b 0 = false) → ∃ z, hypot a b = .ok z ∧ nan z) ∧
    (nan a → FloatOps.eq b 0 = true → hypot a b = .ok 0) := by
  constructor
  · intro h
    have hlt : FloatOps.lt (FloatOps.abs b) (FloatOps.abs a) = false := by
      rcases h with h | ⟨h, -⟩
      · exact NaNs.lt_l _ _ (NaNs.abs _ h)
      · exact NaNs.lt_r _ _ (NaNs.abs _ h)
    have heq : FloatOps.eq b 0 = false := by
      rcases h with h | ⟨-, h⟩
      · exact NaNs.eq_l _ _ h
      · exact h
    unfold hypot
    rw [if_neg (by rw [hlt]; simp), if_pos (by rw [heq]; rfl)]
    obtain ⟨r, hr⟩ := Fp.div_total a b
    obtain ⟨s, hs⟩ := Fp.sqrt_total (1 + r * r)
    rw [hr, ok_bind, hs, ok_bind]
    refine ⟨_, rfl, ?_⟩
    have hrn : nan r := by
      rcases h with h | ⟨h, -⟩
      · exact NaNs.div_r _ _ _ h hr
      · exact NaNs.div_l _ _ _ h hr
    exact NaNs.mul_r _ _ (NaNs.sqrt _ _ (NaNs.add_r _ _ (NaNs.mul_l _ _ hrn)) hs)
  · intro h heq
    unfold hypot
    rw [if_neg (by rw [NaNs.lt_r _ _ (NaNs.abs _ h)]; simp), if_neg (by rw [heq]; simp)]
    rfl

/-! ## The hypotheses can be met -/

example : (ofM !![(1 : F64), 1; 1, .nan]).det = .ok .nan := by
  obtain ⟨d, h, e⟩ := C75_det (by norm_num) !![(1 : F64), 1; 1, .nan] ⟨1, 1, rfl⟩
  rw [h]; exact congrArg _ e
example : (ofM !![(1 : F64), 0; 0, .nan]).solve (ofM !![(1 : F64); 1]) = .ok (some (ofM !![(.nan : F64); .nan])) := by decide +kernel
example : (ofM !![(0 : F64), 0; 0, .nan]).solve (ofM !![(1 : F64); 1]) = .ok none := by decide +kernel
example : Cholesky.new (ofM !![(F64.nan), 1; 1, 1]) = .ok (some ⟨ofM !![.nan, 0; .nan, .nan]⟩) := by decide +kernel
example : (ofM (colVec ![(1 : F64), .nan])).vectorInfNorm = .ok 1 ∧ (ofM (colVec ![F64.nan, 1])).vectorInfNorm = .ok .nan := by
  constructor <;> decide +kernel
example : hypot F64.nan 0 = .ok 0 ∧ hypot F64.nan 1 = .ok .nan ∧ hypot 0 F64.nan = .ok .nan := by
  refine ⟨?_, ?_, ?_⟩ <;> decide +kernel

end LA.Props
