import Verif.Proofs.Mt
import Verif.Props.Elementwise
import Mathlib.LinearAlgebra.Matrix.Notation

/-!
# C12, C13, C15-C21: transposes, concatenation, blocks, permutations, selections
-/

namespace LA.Props
open LA
variable {α : Type}

/-! ## C12 -/

/-- C12: `t()` is the mathematical transpose. -/
theorem C12_transpose {m n : Nat} (hm : 0 < m) (A : Matrix (Fin m) (Fin n) α) :
    (ofM A).t = .ok (ofM A.transpose) := t_ofM hm A

/-- C12: transposing twice gives back the matrix, for every well-formed matrix value. -/
theorem C12_involutive (a : Mat α) (h : WF a) : (a.t >>= fun b => b.t) = .ok a := by
  obtain ⟨m, n, hm, hn, A, rfl⟩ := h.exists_ofM'
  rw [t_ofM hm, ok_bind, t_ofM hn]; rfl

/-- C11/C12: `(a * b)' = b' * a'` over a commutative ring. -/
theorem C11_transpose_mul [CommRing α] {m n p : Nat} (hm : 0 < m) (hn : 0 < n) (hp : 0 < p)
    (A : Matrix (Fin m) (Fin n) α) (B : Matrix (Fin n) (Fin p) α) :
    ((ofM A).mul (ofM B) >>= fun ab => ab.t) =
      (do let bt ← (ofM B).t; let at' ← (ofM A).t; bt.mul at') := by
  simp [C10_mul hm hn, t_ofM hm, t_ofM hn, C10_mul hp hn, Matrix.transpose_mul]

example : (⟨2, [1, 2, 3, 4, 5, 6]⟩ : Mat Nat).t = .ok ⟨3, [1, 4, 2, 5, 3, 6]⟩ := by decide
example : WF (⟨2, [1, 2, 3, 4, 5, 6]⟩ : Mat Nat) := ⟨by decide, 3, by decide, rfl⟩

/-! ## C13 -/

/-- C13: on every well-formed matrix the in-place transposition terminates (in at most `rows*cols` steps per cycle),
does not panic, and leaves exactly `t()`. -/
theorem C13_mt (a : Mat α) (h : WF a) (fuel : Nat) (hf : a.data.length ≤ fuel + 1) : a.mt fuel = a.t := by
  obtain ⟨m, n, hm, hn, A, rfl⟩ := h.exists_ofM'
  rw [t_ofM hm, mt_ofM hm hn A fuel (by simpa using hf)]

/-- C13: the same in terms of the mathematical matrix. -/
theorem C13_mt_transpose {m n : Nat} (hm : 0 < m) (hn : 0 < n) (A : Matrix (Fin m) (Fin n) α) (fuel : Nat)
    (hf : m * n ≤ fuel + 1) : (ofM A).mt fuel = .ok (ofM A.transpose) := mt_ofM hm hn A fuel hf

example : (⟨2, [1, 2, 3, 4, 5, 6]⟩ : Mat Nat).mt 5 = .ok ⟨3, [1, 4, 2, 5, 3, 6]⟩ := by decide

/-! ## C15 -/

/-- C15: `cr` (and the `|` operator) is `[a b]`: row `i` is row `i` of `a` followed by row `i` of `b`. -/
theorem C15_cr {m n p : Nat} (A : Matrix (Fin m) (Fin n) α) (B : Matrix (Fin m) (Fin p) α) :
    (ofM A).cr (ofM B) = .ok (ofM (Matrix.of fun i => Fin.append (A i) (B i))) ∧
    (ofM A).bitor (ofM B) = .ok (ofM (Matrix.of fun i => Fin.append (A i) (B i))) :=
  ⟨cr_ofM A B, cr_ofM A B⟩

/-- C15: `cr` panics when the row counts differ. -/
theorem C15_cr_panics (a b : Mat α) (h : a.rows ≠ b.rows) :
    a.cr b = .error .assert ∧ a.bitor b = .error .assert := by
  have : a.cr b = .error .assert := by unfold Mat.cr; rw [assert_beq_ne h]; rfl
  exact ⟨this, this⟩

/-- C15: `cb` is `[a; b]`: the rows of `a` followed by the rows of `b`. -/
theorem C15_cb {m n p : Nat} (hm : 0 < m) (hp : 0 < p) (A : Matrix (Fin m) (Fin n) α) (B : Matrix (Fin p) (Fin n) α) :
    (ofM A).cb (ofM B) = .ok (ofM (Matrix.of (Fin.append A B))) := cb_ofM hm hp A B

/-- C15: `cb` panics when the column counts differ. -/
theorem C15_cb_panics {m n m' n' : Nat} (hm : 0 < m) (hm' : 0 < m') (A : Matrix (Fin m) (Fin n) α)
    (B : Matrix (Fin m') (Fin n') α) (h : n ≠ n') : (ofM A).cb (ofM B) = .error .assert := by
  unfold Mat.cb
  rw [ofM_cols A hm, ofM_cols B hm', ok_bind, ok_bind, assert_beq_ne h]; rfl

example : (⟨2, [1, 2, 3, 4]⟩ : Mat Nat).cr ⟨2, [5, 6]⟩ = .ok ⟨2, [1, 2, 5, 3, 4, 6]⟩ := by decide
example : (⟨2, [1, 2, 3, 4]⟩ : Mat Nat).cb ⟨1, [5, 6]⟩ = .ok ⟨3, [1, 2, 3, 4, 5, 6]⟩ := by decide

/-! ## C16 -/

/-- C16: `minor(i, j)` skips row `i` and column `j` and keeps the order of the others (`succAbove` is the increasing
enumeration of the other indices). -/
theorem C16_minor {m n : Nat} (hm : 0 < m) (hn : 0 < n) (A : Matrix (Fin (m + 1)) (Fin (n + 1)) α)
    (i : Fin (m + 1)) (j : Fin (n + 1)) :
    (ofM A).minor i j = .ok (ofM (A.submatrix i.succAbove j.succAbove)) := minor_ofM hm hn A i j

/-- C16: `minor` panics in all other cases: index out of range, one row, or one column. -/
theorem C16_minor_panics {m n : Nat} (hm : 0 < m) (A : Matrix (Fin m) (Fin n) α) (i j : Nat)
    (h : ¬(i < m ∧ j < n ∧ 1 < m ∧ 1 < n)) : (ofM A).minor i j = .error .assert := by
  unfold Mat.minor
  by_cases hi : i < m
  · rw [assert_lt (show i < (ofM A).rows from hi), ok_bind, ofM_cols A hm, ok_bind, assert_not]
    · rfl
    · by_contra hc
      simp only [Bool.not_eq_false, Bool.and_eq_true, decide_eq_true_eq, ofM_rows, gt_iff_lt] at hc
      exact h ⟨hi, hc.1.1, hc.1.2, hc.2⟩
  · rw [assert_not_lt (show ¬ i < (ofM A).rows from hi)]; rfl

example : (⟨3, [1, 2, 3, 4, 5, 6, 7, 8, 9]⟩ : Mat Nat).minor 1 1 = .ok ⟨2, [1, 3, 7, 9]⟩ := by decide

/-! ## C17, C18 -/

/-- C17: a block that lies inside the matrix and is smaller than it in both directions is returned exactly. -/
theorem C17_subMatrix {m n : Nat} (A : Matrix (Fin m) (Fin n) α) {sr sc er ec : Nat}
    (h1 : sr < er) (h2 : sc < ec) (h3 : er ≤ m) (h4 : ec ≤ n) (h5 : er - sr < m) (h6 : ec - sc < n) :
    (ofM A).subMatrix sr sc er ec = .ok (ofM (Matrix.of fun (i : Fin (er - sr)) (j : Fin (ec - sc)) =>
      A ⟨sr + i.1, by omega⟩ ⟨sc + j.1, by omega⟩)) :=
  subMatrix_ofM A h1 h2 h5 h6 _ fun i j =>
    ofM_getElem?' A (show sr + i.1 < m by omega) (show sc + j.1 < n by omega)

example : (⟨3, [1, 2, 3, 4, 5, 6, 7, 8, 9]⟩ : Mat Nat).subMatrix 1 1 3 3 = .ok ⟨2, [5, 6, 8, 9]⟩ := by decide

/-- C18 is false: a block reaching past the last column is accepted, and its entries come from the next row. -/
theorem C18_refuted_out_of_range_accepted : ∀ A : Matrix (Fin 3) (Fin 3) α,
    (ofM A).subMatrix 0 2 1 4 = .ok (ofM !![A 0 2, A 1 0]) := by
  intro A
  refine subMatrix_ofM A (by decide) (by decide) (by decide) (by decide) _ ?_
  intro i j
  fin_cases i
  fin_cases j
  · exact ofM_getElem? A 0 2
  · exact ofM_getElem? A 1 0

/-- C18 is false: the whole matrix (and every full-height or full-width block) is an in-range block but is rejected. -/
theorem C18_refuted_full_block_rejected {m n : Nat} (hm : 0 < m) (A : Matrix (Fin m) (Fin n) α) (sr sc er ec : Nat)
    (h1 : sr < er) (h2 : sc < ec) (h : m ≤ er - sr ∨ n ≤ ec - sc) :
    (ofM A).subMatrix sr sc er ec = .error .assert := by
  unfold Mat.subMatrix
  rw [assert_lt h1, assert_lt h2, ok_bind, ok_bind]
  by_cases h3 : er - sr < m
  · rw [assert_lt (show er - sr < (ofM A).rows from h3), ok_bind, ofM_cols A hm, ok_bind, assert_not]
    · rfl
    · have : ¬ ec - sc < n := by omega
      simp [this]
  · rw [assert_not_lt (show ¬ er - sr < (ofM A).rows from h3)]; rfl

/-- C18, what does hold (exact acceptance condition): `sub_matrix` succeeds iff the block is non-empty, strictly smaller
than the matrix in both directions, and its last element has a storage position inside the matrix; in all other cases
it panics (by assertion or by index), never returning anything else. -/
theorem C18_accepts_iff_partial {m n : Nat} (hm : 0 < m) (A : Matrix (Fin m) (Fin n) α) (sr sc er ec : Nat) :
    ((∃ b, (ofM A).subMatrix sr sc er ec = .ok b) ↔
      sr < er ∧ sc < ec ∧ er - sr < m ∧ ec - sc < n ∧ (er - 1) * n + (ec - 1) < m * n) ∧
    ((¬ ∃ b, (ofM A).subMatrix sr sc er ec = .ok b) → Panics ((ofM A).subMatrix sr sc er ec)) := by
  by_cases h : sr < er ∧ sc < ec ∧ er - sr < m ∧ ec - sc < n
  swap
  · have herr : (ofM A).subMatrix sr sc er ec = .error .assert := by
      unfold Mat.subMatrix
      by_cases h1 : sr < er
      swap
      · rw [assert_not_lt h1]; rfl
      by_cases h2 : sc < ec
      swap
      · rw [assert_lt h1, assert_not_lt h2]; rfl
      exact C18_refuted_full_block_rejected hm A sr sc er ec h1 h2 (by omega)
    rw [herr]
    refine ⟨⟨?_, fun h' => absurd ⟨h'.1, h'.2.1, h'.2.2.1, h'.2.2.2.1⟩ h⟩, fun _ => Or.inl rfl⟩
    rintro ⟨b, hb⟩; exact nomatch hb
  obtain ⟨h1, h2, h3, h4⟩ := h
  by_cases h5 : (er - 1) * n + (ec - 1) < m * n
  · have hin : ∀ (i : Fin (er - sr)) (j : Fin (ec - sc)), (sr + i.1) * n + (sc + j.1) < (ofM A).data.length := by
      intro i j
      rw [ofM_length]
      have : (sr + i.1) * n ≤ (er - 1) * n := Nat.mul_le_mul_right n (by omega)
      omega
    have := subMatrix_ofM A h1 h2 h3 h4 (Matrix.of fun i j => (ofM A).data[(sr + i.1) * n + (sc + j.1)]'(hin i j))
      fun i j => List.getElem?_eq_getElem _
    exact ⟨⟨fun _ => ⟨h1, h2, h3, h4, h5⟩, fun _ => ⟨_, this⟩⟩, fun h => absurd ⟨_, this⟩ h⟩
  · have herr : (ofM A).subMatrix sr sc er ec = .error .oob := by
      unfold Mat.subMatrix
      simp only [assert_lt h1, assert_lt h2, ok_bind, assert_lt (show er - sr < (ofM A).rows from h3),
        ofM_cols A hm, decide_eq_true h4, bne_iff_ne.mpr h1.ne, bne_iff_ne.mpr h2.ne, Bool.and_self, assert_true]
      generalize hr : loop 0 (er - sr) _ _ = r
      cases r with
      | error e =>
        rw [error_bind]
        refine congrArg _ (loop_errIn (E := (· = .oob)) ?_ e hr)
        rintro k ⟨d, src, di⟩ - -
        refine ErrIn.bind (loop_errIn fun q d _ _ => ErrIn.bind (errIn_idx _ _) fun _ _ => errIn_wr _ _ _)
          fun _ _ => errIn_ok _
      | ok s =>
        refine absurd ?_ h5
        obtain ⟨⟨d, src, di⟩, s', hsrc, hstep⟩ :=
          loop_state_ok (fun k (s : Buf α × Nat × Nat) => s.2.1 = (sr + k) * n + sc) hr (by simp) (by
            rintro k ⟨d, src, di⟩ s' hk hstep
            simp only at hk
            subst hk
            rw [bind_eq_ok] at hstep
            obtain ⟨d', -, hstep⟩ := hstep
            cases hstep
            dsimp only
            ring) (er - sr - 1) (by omega) (by omega)
        simp only at hsrc
        subst hsrc
        rw [bind_eq_ok] at hstep
        obtain ⟨d', hd', -⟩ := hstep
        obtain ⟨a, b, hab⟩ := loop_ok_step hd' (i := ec - sc - 1) (by omega) (by omega)
        rw [bind_eq_ok] at hab
        obtain ⟨x, hx, -⟩ := hab
        have := idx_ok_lt hx
        rw [ofM_length, show sr + (er - sr - 1) = er - 1 by omega] at this
        dsimp only at this
        omega
    rw [herr]
    refine ⟨⟨?_, fun h => absurd h.2.2.2.2 h5⟩, fun _ => Or.inr (Or.inl rfl)⟩
    rintro ⟨b, hb⟩; exact nomatch hb

example : (⟨3, [1, 2, 3, 4, 5, 6, 7, 8, 9]⟩ : Mat Nat).subMatrix 2 2 3 4 = .error .oob := by decide

/-! ## C19 -/

/-- C19: `get_column(j)` is the `j`-th column. -/
theorem C19_getColumn {m n : Nat} (hm : 0 < m) (A : Matrix (Fin m) (Fin n) α) (j : Fin n) :
    (ofM A).getColumn j = .ok (ofM (colVec fun i => A i j)) := getColumn_ofM hm A j

/-- C19: `get_column` panics out of range. -/
theorem C19_getColumn_panics {m n : Nat} (hm : 0 < m) (A : Matrix (Fin m) (Fin n) α) (j : Nat) (h : ¬ j < n) :
    (ofM A).getColumn j = .error .assert := by
  unfold Mat.getColumn
  rw [ofM_cols A hm, ok_bind, assert_not_lt h]; rfl

example : (⟨2, [1, 2, 3, 4, 5, 6]⟩ : Mat Nat).getColumn 1 = .ok ⟨2, [2, 5]⟩ := by decide

/-! ## C20 -/

/-- C20: row `k` of `permute_rows(p)` is row `p[k]` of the receiver. -/
theorem C20_permuteRows {m n : Nat} (hm : 0 < m) (A : Matrix (Fin m) (Fin n) α) (p : List Nat)
    (h : ∀ k (hk : k < p.length), p[k] < m) :
    (ofM A).permuteRows p = .ok (ofM (Matrix.of fun (k : Fin p.length) j => A ⟨p[k.1], h k k.2⟩ j)) :=
  permuteRows_ofM hm A p h

/-- C20: column `k` of `permute_columns(p)` is column `p[k]` of the receiver. -/
theorem C20_permuteColumns {m n : Nat} (A : Matrix (Fin m) (Fin n) α) (p : List Nat)
    (h : ∀ k (hk : k < p.length), p[k] < n) :
    (ofM A).permuteColumns p = .ok (ofM (Matrix.of fun i (k : Fin p.length) => A i ⟨p[k.1], h k k.2⟩)) :=
  permuteColumns_ofM A p h

/-- C20: an index out of range panics. -/
theorem C20_permuteRows_panics {m n : Nat} (hm : 0 < m) (A : Matrix (Fin m) (Fin n) α) (p : List Nat)
    (h : ∃ x ∈ p, m ≤ x) : (ofM A).permuteRows p = .error .assert := permuteRows_bad hm A p h

/-- C20: an index out of range panics. -/
theorem C20_permuteColumns_panics {m n : Nat} (hm : 0 < m) (A : Matrix (Fin m) (Fin n) α) (p : List Nat)
    (h : ∃ x ∈ p, n ≤ x) : (ofM A).permuteColumns p = .error .assert := permuteColumns_bad hm A p h

/-- C20: permuting by a permutation and then by its inverse restores the matrix (rows). -/
theorem C20_rows_inverse {m n : Nat} (hm : 0 < m) (A : Matrix (Fin m) (Fin n) α) (σ : Equiv.Perm (Fin m)) :
    ((ofM A).permuteRows (List.ofFn fun i => (σ i).1) >>= fun b => b.permuteRows (List.ofFn fun i => (σ.symm i).1))
      = .ok (ofM A) := by
  rw [permuteRows_perm hm, ok_bind, permuteRows_perm hm]
  congr 2
  funext i j
  simp [Matrix.submatrix]

/-- C20: permuting by a permutation and then by its inverse restores the matrix (columns). -/
theorem C20_columns_inverse {m n : Nat} (A : Matrix (Fin m) (Fin n) α) (σ : Equiv.Perm (Fin n)) :
    ((ofM A).permuteColumns (List.ofFn fun i => (σ i).1) >>= fun b =>
      b.permuteColumns (List.ofFn fun i => (σ.symm i).1)) = .ok (ofM A) := by
  rw [permuteColumns_perm, ok_bind, permuteColumns_perm]
  congr 2
  funext i j
  simp [Matrix.submatrix]

example : (⟨3, [1, 2, 3, 4, 5, 6]⟩ : Mat Nat).permuteRows [2, 0, 0] = .ok ⟨3, [5, 6, 1, 2, 1, 2]⟩ := by decide
example : (⟨3, [1, 2, 3, 4, 5, 6]⟩ : Mat Nat).permuteRows [2, 3] = .error .assert := by decide
example : (⟨2, [1, 2, 3, 4, 5, 6]⟩ : Mat Nat).permuteColumns [2, 0] = .ok ⟨2, [3, 1, 6, 4]⟩ := by decide

/-! ## C21 -/

/-- C21: `filter_rows(f)` keeps the rows whose index `f` accepts, in order. -/
theorem C21_filterRows {m n : Nat} (hm : 0 < m) (A : Matrix (Fin m) (Fin n) α) (f : Mat α → Nat → Bool) :
    (ofM A).filterRows f = .ok (ofM (Matrix.of
      fun (k : Fin ((List.finRange m).filter fun i : Fin m => f (ofM A) i.1).length) j =>
        A ((List.finRange m).filter fun i : Fin m => f (ofM A) i.1)[k.1] j)) := filterRows_ofM hm A f

/-- C21: `filter_columns(f)` keeps the columns whose index `f` accepts, in order. -/
theorem C21_filterColumns {m n : Nat} (hm : 0 < m) (A : Matrix (Fin m) (Fin n) α) (f : Mat α → Nat → Bool) :
    (ofM A).filterColumns f = .ok (ofM (Matrix.of
      fun i (k : Fin ((List.finRange n).filter fun i : Fin n => f (ofM A) i.1).length) =>
        A i ((List.finRange n).filter fun i : Fin n => f (ofM A) i.1)[k.1])) := filterColumns_ofM hm A f

/-- C21: `select_rows(s)` keeps the rows whose flag is set, in order. -/
theorem C21_selectRows {m n : Nat} (hm : 0 < m) (A : Matrix (Fin m) (Fin n) α) (s : Fin m → Bool) :
    (ofM A).selectRows (List.ofFn s) =
      .ok (ofM (Matrix.of fun (k : Fin ((List.finRange m).filter s).length) j => A ((List.finRange m).filter s)[k.1] j)) :=
  selectRows_ofM hm A s

/-- C21: `select_columns(s)` keeps the columns whose flag is set, in order. -/
theorem C21_selectColumns {m n : Nat} (hm : 0 < m) (A : Matrix (Fin m) (Fin n) α) (s : Fin n → Bool) :
    (ofM A).selectColumns (List.ofFn s) =
      .ok (ofM (Matrix.of fun i (k : Fin ((List.finRange n).filter s).length) => A i ((List.finRange n).filter s)[k.1])) :=
  selectColumns_ofM hm A s

/-- C21: a selector of the wrong length panics. -/
theorem C21_select_panics {m n : Nat} (hm : 0 < m) (A : Matrix (Fin m) (Fin n) α) (s : List Bool) :
    (s.length ≠ m → (ofM A).selectRows s = .error .assert) ∧
    (s.length ≠ n → (ofM A).selectColumns s = .error .assert) := by
  refine ⟨fun h => ?_, fun h => ?_⟩
  · unfold Mat.selectRows; rw [assert_beq_ne (show (ofM A).rows ≠ s.length from Ne.symm h)]; rfl
  · unfold Mat.selectColumns; rw [ofM_cols A hm, ok_bind, assert_beq_ne (Ne.symm h)]; rfl

example : (⟨3, [1, 2, 3, 4, 5, 6]⟩ : Mat Nat).selectRows [true, false, true] = .ok ⟨2, [1, 2, 5, 6]⟩ := by decide
example : (⟨2, [1, 2, 3, 4, 5, 6]⟩ : Mat Nat).filterColumns (fun _ j => j != 1) = .ok ⟨2, [1, 3, 4, 6]⟩ := by decide

end LA.Props
