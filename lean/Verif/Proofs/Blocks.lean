import Verif.Proofs.Elementwise
import Mathlib.Data.Fin.Tuple.Basic

/-! # Helper lemmas: sequential fills (transpose, concatenation, blocks, selections) -/

namespace LA
variable {α β : Type}

/-- The first `k` cells of the buffer hold the first `k` elements of `l`. -/
def Filled (d : Buf α) (l : List α) (k : Nat) : Prop :=
  d.length = l.length ∧ ∀ p, p < k → d[p]? = some (l[p]?)

theorem filled_alloc (l : List α) {N : Nat} (h : N = l.length) : Filled (alloc α N) l 0 := ⟨by simp [h], by simp⟩

theorem Filled.wr {d : Buf α} {l : List α} {k : Nat} {x : α} (h : Filled d l k) (hx : l[k]? = some x) :
    Post (LA.wr d k x) (fun d' => Filled d' l (k + 1)) := by
  have hk : k < l.length := by
    by_contra hc
    rw [List.getElem?_eq_none (by omega)] at hx
    exact nomatch hx
  rw [wr_lt (by rw [h.1]; exact hk)]
  refine Post.ok ⟨by simpa using h.1, ?_⟩
  intro p hp
  by_cases e : p = k
  · subst e; rw [List.getElem?_set_self (by rw [h.1]; exact hk), hx]
  · rw [List.getElem?_set_ne (Ne.symm e)]; exact h.2 p (by omega)

theorem Filled.freeze {d : Buf α} {l : List α} {k : Nat} (h : Filled d l k) (hk : l.length ≤ k) :
    LA.freeze d = .ok l := freeze_eq h.1 fun p hp => h.2 p (by omega)

/-! ## Transpose -/

theorem t_loop {m n : Nat} (A : Matrix (Fin m) (Fin n) α) :
    Post (loop 0 (m * n) (alloc α (m * n), 0) fun i (d, src) => do
        let d ← wr d i (← idx (ofM A).data src)
        let src := src + (← (ofM A).cols)
        let src := if src ≥ m * n then src - m * n + 1 else src
        return (d, src))
      (fun s => Filled s.1 (ofM A.transpose).data (m * n)) := by
  refine Post.mono (loop_post (fun k (s : Buf α × Nat) => Filled s.1 (ofM A.transpose).data k ∧
    s.2 = (k % m) * n + k / m) (Nat.zero_le _) ⟨filled_alloc _ (by simp [Nat.mul_comm]), by simp⟩ ?_) ?_
  · rintro k ⟨d, src⟩ - hk ⟨hd, hs⟩
    simp only at hd hs
    obtain ⟨j, i, hj, hi, rfl⟩ := rm_surj (show k < n * m by rwa [Nat.mul_comm])
    rw [rm_mod hi, rm_div hi] at hs
    subst hs
    dsimp only
    rw [idx_ofM A hi hj, ofM_cols A (by omega : 0 < m)]
    simp only [ok_bind]
    refine (hd.wr (ofM_getElem?' A.transpose hj hi)).bind fun d' hd' => Post.ok ⟨hd', ?_⟩
    dsimp only
    by_cases hlast : i + 1 = m
    · have e : i * n + j + n = m * n + j := by rw [← hlast]; ring
      rw [if_pos (by omega), e, show j * m + i + 1 = (j + 1) * m + 0 by rw [Nat.add_mul]; omega,
        rm_mod (by omega), rm_div (by omega)]
      omega
    · have h1 : i * n + j + n = (i + 1) * n + j := by ring
      have h2 := rm_lt (show i + 1 < m by omega) hj
      rw [if_neg (by omega), show j * m + i + 1 = j * m + (i + 1) by omega, rm_mod (by omega), rm_div (by omega), h1]
  · exact fun s hs => hs.1

theorem t_ofM {m n : Nat} (hm : 0 < m) (A : Matrix (Fin m) (Fin n) α) : (ofM A).t = .ok (ofM A.transpose) := by
  unfold Mat.t
  simp only [ofM_length]
  obtain ⟨⟨d, src⟩, hd, hf⟩ := t_loop A
  rw [hd]
  simp only [ok_bind, ofM_cols A hm]
  rw [hf.freeze (by simp [Nat.mul_comm])]
  rfl

/-! ## Concatenation -/

theorem append_getElem?_left {m n p : Nat} (A : Matrix (Fin m) (Fin n) α) (B : Matrix (Fin m) (Fin p) α) {i j : Nat}
    (hi : i < m) (hj : j < n) :
    (ofM (Matrix.of fun i => Fin.append (A i) (B i))).data[i * (n + p) + j]? = some (A ⟨i, hi⟩ ⟨j, hj⟩) := by
  rw [ofM_getElem?' _ hi (show j < n + p by omega)]
  simp only [Matrix.of_apply]
  exact congrArg some (Fin.append_left (A ⟨i, hi⟩) (B ⟨i, hi⟩) ⟨j, hj⟩)

theorem append_getElem?_right {m n p : Nat} (A : Matrix (Fin m) (Fin n) α) (B : Matrix (Fin m) (Fin p) α) {i j : Nat}
    (hi : i < m) (hj : j < p) :
    (ofM (Matrix.of fun i => Fin.append (A i) (B i))).data[i * (n + p) + n + j]? = some (B ⟨i, hi⟩ ⟨j, hj⟩) := by
  rw [Nat.add_assoc, ofM_getElem?' _ hi (show n + j < n + p by omega)]
  simp only [Matrix.of_apply]
  exact congrArg some (Fin.append_right (A ⟨i, hi⟩) (B ⟨i, hi⟩) ⟨j, hj⟩)

theorem cr_ofM {m n p : Nat} (A : Matrix (Fin m) (Fin n) α) (B : Matrix (Fin m) (Fin p) α) :
    (ofM A).cr (ofM B) = .ok (ofM (Matrix.of fun i => Fin.append (A i) (B i))) := by
  unfold Mat.cr
  simp only [ofM_rows, beq_self_eq_true, assert_true, ok_bind, ofM_length]
  set C : Matrix (Fin m) (Fin (n + p)) α := Matrix.of fun i => Fin.append (A i) (B i) with hC
  refine Post.eq_ok (Post.bind (P := fun s => Filled s.1 (ofM C).data (m * (n + p)))
    (Post.mono (loop_post (fun k (s : Buf α × Nat × Nat × Nat) => Filled s.1 (ofM C).data (k * (n + p)) ∧
      s.2 = (k * n, k * p, k * (n + p))) (Nat.zero_le m)
      ⟨by simpa using filled_alloc _ (by simp [Nat.mul_add]), by simp⟩ ?_) fun s h => h.1) ?_)
  · rintro k ⟨d, s1, s2, di⟩ - hk ⟨hd, hs⟩
    simp only [Prod.mk.injEq] at hd hs
    obtain ⟨rfl, rfl, rfl⟩ := hs
    dsimp only
    rw [ofM_cols A (by omega : 0 < m), ofM_cols B (by omega : 0 < m)]
    simp only [ok_bind]
    refine Post.bind (loop_post (fun q (s : Buf α × Nat × Nat) => Filled s.1 (ofM C).data (k * (n + p) + q) ∧
      s.2 = (k * n + q, k * (n + p) + q)) (Nat.zero_le n) ⟨hd, rfl⟩ ?_) ?_
    · rintro q ⟨d, s1, di⟩ - hq ⟨hd, hs⟩
      simp only [Prod.mk.injEq] at hd hs
      obtain ⟨rfl, rfl⟩ := hs
      dsimp only
      rw [idx_ofM A hk hq, ok_bind]
      exact (hd.wr (append_getElem?_left A B hk hq)).bind fun d' hd' => Post.ok ⟨hd', rfl⟩
    · rintro ⟨d, s1, di⟩ ⟨hd, hs⟩
      simp only [Prod.mk.injEq] at hd hs
      obtain ⟨rfl, rfl⟩ := hs
      dsimp only
      refine Post.bind (loop_post (fun q (s : Buf α × Nat × Nat) => Filled s.1 (ofM C).data (k * (n + p) + n + q) ∧
        s.2 = (k * p + q, k * (n + p) + n + q)) (Nat.zero_le p) ⟨hd, rfl⟩ ?_) ?_
      · rintro q ⟨d, s2, di⟩ - hq ⟨hd, hs⟩
        simp only [Prod.mk.injEq] at hd hs
        obtain ⟨rfl, rfl⟩ := hs
        dsimp only
        rw [idx_ofM B hk hq, ok_bind]
        exact (hd.wr (append_getElem?_right A B hk hq)).bind fun d' hd' => Post.ok ⟨hd', rfl⟩
      · rintro ⟨d, s2, di⟩ ⟨hd, hs⟩
        simp only [Prod.mk.injEq] at hd hs
        obtain ⟨rfl, rfl⟩ := hs
        refine Post.ok ⟨?_, ?_⟩
        · dsimp only; rw [Nat.add_mul]; rwa [Nat.one_mul, ← Nat.add_assoc]
        · dsimp only; simp only [Prod.mk.injEq]; refine ⟨by ring, by ring, by ring⟩
  · rintro ⟨d, s⟩ hd
    dsimp only at hd ⊢
    rw [hd.freeze (by simp)]
    exact Post.ok rfl

theorem append_rows_data {m n p : Nat} (A : Matrix (Fin m) (Fin n) α) (B : Matrix (Fin p) (Fin n) α) :
    (ofM (Matrix.of (Fin.append A B))).data = (ofM A).data ++ (ofM B).data := by
  symm
  refine ofM_data_eq _ (by simp [Nat.add_mul]) ?_
  intro i j
  refine Fin.addCases (fun i => ?_) (fun i => ?_) i
  · rw [List.getElem?_append_left (by simpa using rm_lt i.2 j.2)]
    simp only [Fin.val_castAdd, Matrix.of_apply]
    exact (ofM_getElem? A i j).trans (congrArg some (congrFun (Fin.append_left A B i) j).symm)
  · rw [List.getElem?_append_right (by simp [Nat.add_mul]; omega)]
    simp only [Fin.val_natAdd, Matrix.of_apply, ofM_length]
    rw [show (m + i.1) * n + j.1 - m * n = i.1 * n + j.1 by rw [Nat.add_mul]; omega]
    exact (ofM_getElem? B i j).trans (congrArg some (congrFun (Fin.append_right A B i) j).symm)

theorem cb_ofM {m n p : Nat} (hm : 0 < m) (hp : 0 < p) (A : Matrix (Fin m) (Fin n) α) (B : Matrix (Fin p) (Fin n) α) :
    (ofM A).cb (ofM B) = .ok (ofM (Matrix.of (Fin.append A B))) := by
  unfold Mat.cb
  simp only [ofM_cols A hm, ofM_cols B hp, ok_bind, beq_self_eq_true, assert_true]
  set C : Matrix (Fin (m + p)) (Fin n) α := Matrix.of (Fin.append A B) with hC
  have hdata := append_rows_data A B
  rw [← hC] at hdata
  refine Post.eq_ok (Post.bind (loop_post (fun k (d : Buf α) => Filled d (ofM C).data k) (Nat.zero_le _)
    (filled_alloc _ (by simp [Nat.add_mul])) ?_) ?_)
  · rintro k d - hk hd
    rw [idx_lt hk, ok_bind]
    refine hd.wr ?_
    rw [hdata, List.getElem?_append_left hk, List.getElem?_eq_getElem hk]
  · intro d hd
    refine Post.bind (loop_post (fun k (d : Buf α) => Filled d (ofM C).data ((ofM A).data.length + k)) (Nat.zero_le _)
      hd ?_) ?_
    · rintro k d - hk hd
      rw [idx_lt hk, ok_bind]
      refine hd.wr ?_
      rw [hdata, List.getElem?_append_right (by omega), Nat.add_sub_cancel_left, List.getElem?_eq_getElem hk]
    · intro d hd
      rw [hd.freeze (by simp [Nat.add_mul])]
      exact Post.ok rfl

/-! ## Minor -/

/-- Number of indices below `k` other than `c`. -/
def cnt (c k : Nat) : Nat := if k ≤ c then k else k - 1

theorem cnt_zero (c : Nat) : cnt c 0 = 0 := by simp [cnt]
theorem cnt_succ_ne {c k : Nat} (h : k ≠ c) : cnt c (k + 1) = cnt c k + 1 := by unfold cnt; split <;> split <;> omega
theorem cnt_succ_eq (c : Nat) : cnt c (c + 1) = cnt c c := by simp [cnt]
theorem cnt_full {c n : Nat} (h : c < n + 1) : cnt c (n + 1) = n := by unfold cnt; split <;> omega
theorem cnt_lt {c k n : Nat} (hk : k < n + 1) (hc : c < n + 1) (h : k ≠ c) : cnt c k < n := by
  unfold cnt; split <;> omega
theorem succAbove_cnt {n : Nat} (c : Fin (n + 1)) {k : Nat} (hk : k < n + 1) (h : k ≠ c.1) :
    c.succAbove ⟨cnt c k, cnt_lt hk c.2 h⟩ = ⟨k, hk⟩ := by
  apply Fin.ext
  simp only [Fin.succAbove, Fin.lt_def, Fin.val_castSucc, cnt]
  split <;> split <;> simp <;> omega

theorem minor_ofM {m n : Nat} (hm : 0 < m) (hn : 0 < n) (A : Matrix (Fin (m + 1)) (Fin (n + 1)) α)
    (r : Fin (m + 1)) (c : Fin (n + 1)) :
    (ofM A).minor r c = .ok (ofM (A.submatrix r.succAbove c.succAbove)) := by
  unfold Mat.minor
  have hr := r.2
  have hc := c.2
  simp only [ofM_cols A (Nat.succ_pos m), ok_bind, assert_lt (show r.1 < (ofM A).rows from hr),
    decide_eq_true hc, decide_eq_true (show (ofM A).rows > 1 by rw [ofM_rows]; omega),
    decide_eq_true (show n + 1 > 1 by omega), Bool.and_self, assert_true]
  simp only [ofM_rows]
  set C := A.submatrix r.succAbove c.succAbove with hC
  refine Post.eq_ok (Post.bind (P := fun s => Filled s.1 (ofM C).data (m * n))
    (Post.mono (loop_post (fun k (s : Buf α × Nat × Nat) => Filled s.1 (ofM C).data (cnt r k * n) ∧
      s.2 = (k * (n + 1), cnt r k * n)) (Nat.zero_le _)
      ⟨by simpa [cnt_zero] using filled_alloc _ (by simp [Nat.mul_comm]), by simp [cnt_zero]⟩ ?_)
      fun s h => by simpa [cnt_full hr] using h.1) ?_)
  · rintro k ⟨d, srcRow, di⟩ - hk ⟨hd, hs⟩
    simp only [Prod.mk.injEq] at hd hs
    obtain ⟨rfl, rfl⟩ := hs
    dsimp only
    by_cases hkr : k = r.1
    · rw [if_neg (by simpa using hkr)]
      simp only [pure_eq_ok, ok_bind]
      refine Post.ok ?_
      rw [show cnt r (k + 1) = cnt r k by rw [hkr]; exact cnt_succ_eq _]
      exact ⟨hd, by simp only [Prod.mk.injEq, and_true]; ring⟩
    · rw [if_pos (by simpa using hkr)]
      refine Post.bind (loop_post (fun q (s : Buf α × Nat) => Filled s.1 (ofM C).data (cnt r k * n + cnt c q) ∧
        s.2 = cnt r k * n + cnt c q) (Nat.zero_le _) ⟨hd, rfl⟩ ?_) ?_
      · rintro q ⟨d, di⟩ - hq ⟨hd, hs⟩
        simp only at hd hs
        subst hs
        dsimp only
        by_cases hqc : q = c.1
        · rw [if_neg (by simpa using hqc)]
          refine Post.ok ?_
          rw [show cnt c (q + 1) = cnt c q by rw [hqc]; exact cnt_succ_eq _]
          exact ⟨hd, rfl⟩
        · rw [if_pos (by simpa using hqc), idx_ofM A hk hq, ok_bind]
          refine (hd.wr ?_).bind fun d' hd' => Post.ok ?_
          · rw [ofM_getElem?' C (cnt_lt hk hr hkr) (cnt_lt hq hc hqc)]
            simp only [hC, Matrix.submatrix_apply, succAbove_cnt r hk hkr, succAbove_cnt c hq hqc]
          · rw [cnt_succ_ne hqc]; exact ⟨hd', rfl⟩
      · rintro ⟨d, di⟩ ⟨hd, hs⟩
        simp only [cnt_full hc] at hd hs
        refine Post.ok ?_
        rw [cnt_succ_ne hkr]
        simp only [hs]
        rw [show (cnt r k + 1) * n = cnt r k * n + n by ring, show (k + 1) * (n + 1) = k * (n + 1) + (n + 1) by ring]
        exact ⟨hd, rfl⟩
  · rintro ⟨d, s⟩ hd
    dsimp only at hd ⊢
    rw [hd.freeze (by simp)]
    exact Post.ok rfl

/-! ## Block extraction -/

/-- What `sub_matrix` returns in general: entry `(i, j)` is the stored element number
`(startRow + i) * cols + startCol + j`. -/
theorem subMatrix_ofM {m n : Nat} (A : Matrix (Fin m) (Fin n) α) {sr sc er ec : Nat}
    (h1 : sr < er) (h2 : sc < ec) (h3 : er - sr < m) (h4 : ec - sc < n)
    (C : Matrix (Fin (er - sr)) (Fin (ec - sc)) α)
    (hC : ∀ i j, (ofM A).data[(sr + i.1) * n + (sc + j.1)]? = some (C i j)) :
    (ofM A).subMatrix sr sc er ec = .ok (ofM C) := by
  unfold Mat.subMatrix
  simp only [assert_lt h1, assert_lt h2, ok_bind, assert_lt (show er - sr < (ofM A).rows from h3),
    ofM_cols A (by omega : 0 < m)]
  simp only [decide_eq_true h4, bne_iff_ne.mpr h1.ne, bne_iff_ne.mpr h2.ne, Bool.and_self, assert_true, ok_bind]
  refine Post.eq_ok (Post.bind (P := fun s => Filled s.1 (ofM C).data ((er - sr) * (ec - sc)))
    (Post.mono (loop_post (fun k (s : Buf α × Nat × Nat) => Filled s.1 (ofM C).data (k * (ec - sc)) ∧
      s.2 = ((sr + k) * n + sc, k * (ec - sc))) (Nat.zero_le _)
      ⟨by simpa using filled_alloc _ (by simp), by simp⟩ ?_) fun s h => h.1) ?_)
  · rintro k ⟨d, src, di⟩ - hk ⟨hd, hs⟩
    simp only [Prod.mk.injEq] at hd hs
    obtain ⟨rfl, rfl⟩ := hs
    dsimp only
    refine Post.bind (loop_post (fun q (d : Buf α) => Filled d (ofM C).data (k * (ec - sc) + q)) (Nat.zero_le _) hd ?_) ?_
    · rintro q d - hq hd
      have := hC ⟨k, hk⟩ ⟨q, hq⟩
      rw [← Nat.add_assoc] at this
      rw [idx_eq this, ok_bind]
      exact hd.wr (ofM_getElem?' C hk hq)
    · intro d hd
      refine Post.ok ⟨?_, ?_⟩
      · dsimp only; rw [Nat.add_mul, Nat.one_mul]; exact hd
      · dsimp only; simp only [Prod.mk.injEq]; exact ⟨by ring, by ring⟩
  · rintro ⟨d, s⟩ hd
    dsimp only at hd ⊢
    rw [hd.freeze (by simp)]
    exact Post.ok rfl

theorem getColumn_ofM {m n : Nat} (hm : 0 < m) (A : Matrix (Fin m) (Fin n) α) (j : Fin n) :
    (ofM A).getColumn j = .ok (ofM (colVec fun i => A i j)) := by
  unfold Mat.getColumn
  simp only [ofM_cols A hm, ok_bind, assert_lt j.2, ofM_rows]
  set C := colVec fun i => A i j with hC
  refine Post.eq_ok (Post.bind (P := fun s => Filled s.1 (ofM C).data m)
    (Post.mono (loop_post (fun k (s : Buf α × Nat) => Filled s.1 (ofM C).data k ∧ s.2 = k * n + j) (Nat.zero_le _)
      ⟨filled_alloc _ (by simp), by simp⟩ ?_) fun s h => h.1) ?_)
  · rintro k ⟨d, src⟩ - hk ⟨hd, hs⟩
    simp only at hd hs
    subst hs
    dsimp only
    rw [idx_ofM A hk j.2, ok_bind]
    refine (hd.wr ?_).bind fun d' hd' => Post.ok ⟨hd', by dsimp only; ring⟩
    have := ofM_getElem?' C hk Nat.one_pos
    simpa [hC, colVec] using this
  · rintro ⟨d, s⟩ hd
    dsimp only at hd ⊢
    rw [hd.freeze (by simp)]
    exact Post.ok rfl

/-! ## Permutations and selections -/

theorem permuteRows_ofM {m n : Nat} (hm : 0 < m) (A : Matrix (Fin m) (Fin n) α) (rows : List Nat)
    (h : ∀ k (hk : k < rows.length), rows[k] < m) :
    (ofM A).permuteRows rows =
      .ok (ofM (Matrix.of fun (k : Fin rows.length) j => A ⟨rows[k.1], h k k.2⟩ j)) := by
  unfold Mat.permuteRows
  simp only [ofM_cols A hm, ok_bind]
  set C := Matrix.of fun (k : Fin rows.length) j => A ⟨rows[k.1], h k k.2⟩ j with hC
  refine Post.eq_ok (Post.bind (P := fun s => Filled s.1 (ofM C).data (rows.length * n))
    (Post.mono (loop_post (fun k (s : Buf α × Nat) => Filled s.1 (ofM C).data (k * n) ∧ s.2 = k * n) (Nat.zero_le _)
      ⟨by simpa using filled_alloc _ (by simp), by simp⟩ ?_) fun s h => h.1) ?_)
  · rintro k ⟨d, di⟩ - hk ⟨hd, hs⟩
    simp only at hd hs
    subst hs
    dsimp only
    simp only [idx_lt hk, ok_bind, assert_lt (show rows[k] < (ofM A).rows from h k hk)]
    rw [Nat.add_mul, Nat.one_mul]
    refine loop_post (s := (d, k * n)) (fun q (s : Buf α × Nat) => Filled s.1 (ofM C).data (k * n + q) ∧
      s.2 = k * n + q) (Nat.zero_le _) ⟨hd, rfl⟩ ?_
    rintro q ⟨d, di⟩ - hq ⟨hd, hs⟩
    simp only at hd hs
    subst hs
    dsimp only
    rw [idx_ofM A (h k hk) hq, ok_bind]
    exact (hd.wr (ofM_getElem?' C hk hq)).bind fun d' hd' => Post.ok ⟨hd', rfl⟩
  · rintro ⟨d, s⟩ hd
    dsimp only at hd ⊢
    rw [hd.freeze (by simp)]
    exact Post.ok rfl

theorem permuteColumns_ofM {m n : Nat} (A : Matrix (Fin m) (Fin n) α) (cols : List Nat)
    (h : ∀ k (hk : k < cols.length), cols[k] < n) :
    (ofM A).permuteColumns cols =
      .ok (ofM (Matrix.of fun i (k : Fin cols.length) => A i ⟨cols[k.1], h k k.2⟩)) := by
  unfold Mat.permuteColumns
  set C := Matrix.of fun i (k : Fin cols.length) => A i ⟨cols[k.1], h k k.2⟩ with hC
  simp only [ofM_rows]
  refine Post.eq_ok (Post.bind (P := fun s => Filled s.1 (ofM C).data (m * cols.length))
    (Post.mono (loop_post (fun k (s : Buf α × Nat × Nat) => Filled s.1 (ofM C).data (k * cols.length) ∧
      s.2 = (k * cols.length, k * n)) (Nat.zero_le _)
      ⟨by simpa using filled_alloc _ (by simp), by simp⟩ ?_) fun s h => h.1) ?_)
  · rintro k ⟨d, di, rowIdx⟩ - hk ⟨hd, hs⟩
    simp only [Prod.mk.injEq] at hd hs
    obtain ⟨rfl, rfl⟩ := hs
    dsimp only
    simp only [ofM_cols A (by omega : 0 < m), ok_bind]
    refine Post.bind (loop_post (fun q (s : Buf α × Nat) => Filled s.1 (ofM C).data (k * cols.length + q) ∧
      s.2 = k * cols.length + q) (Nat.zero_le _) ⟨hd, rfl⟩ ?_) ?_
    · rintro q ⟨d, di⟩ - hq ⟨hd, hs⟩
      simp only at hd hs
      subst hs
      dsimp only
      simp only [idx_lt hq, ok_bind, assert_lt (h q hq), idx_ofM A hk (h q hq)]
      exact (hd.wr (ofM_getElem?' C hk hq)).bind fun d' hd' => Post.ok ⟨hd', rfl⟩
    · rintro ⟨d, di⟩ ⟨hd, hs⟩
      simp only at hd hs
      subst hs
      refine Post.ok ⟨?_, ?_⟩
      · dsimp only; rw [Nat.add_mul, Nat.one_mul]; exact hd
      · dsimp only; simp only [Prod.mk.injEq]; exact ⟨by ring, by ring⟩
  · rintro ⟨d, s⟩ hd
    dsimp only at hd ⊢
    rw [hd.freeze (by simp)]
    exact Post.ok rfl

theorem collect_ok (n : Nat) (keep : Nat → Bool) (f : Nat → R Bool) (h : ∀ i, i < n → f i = .ok (keep i)) :
    Mat.collect n f = .ok ((List.range n).filter keep) := by
  refine Post.eq_ok (loop_post (fun k v => v = (List.range k).filter keep) (Nat.zero_le n) (by simp) ?_)
  rintro k v - hk rfl
  rw [h k hk, ok_bind, List.range_succ, List.filter_append]
  by_cases hb : keep k
  · rw [if_pos hb]; exact Post.ok (by simp [hb])
  · rw [if_neg hb]; exact Post.ok (by simp [hb])

theorem permuteRows_bad {m n : Nat} (hm : 0 < m) (A : Matrix (Fin m) (Fin n) α) (rows : List Nat)
    (h : ∃ x ∈ rows, m ≤ x) : (ofM A).permuteRows rows = .error .assert := by
  have hex : ∃ k, ∃ hk : k < rows.length, m ≤ rows[k] := by
    obtain ⟨x, hx, hmx⟩ := h
    obtain ⟨k, hk, rfl⟩ := List.getElem_of_mem hx
    exact ⟨k, hk, hmx⟩
  classical
  obtain ⟨hk, hbad⟩ := Nat.find_spec hex
  have hgood : ∀ k (hk : k < rows.length), k < Nat.find hex → rows[k] < m := by
    intro k hk hlt
    have := Nat.find_min hex hlt
    by_contra hc
    exact this ⟨hk, by omega⟩
  unfold Mat.permuteRows
  simp only [ofM_cols A hm, ok_bind]
  rw [loop_error (e := .assert) (j := Nat.find hex)
    (fun k (s : Buf α × Nat) => s.1.length = rows.length * n ∧ s.2 = k * n) (Nat.zero_le _) hk (by simp) ?_ ?_]
  · rfl
  · rintro k ⟨d, di⟩ - hkf ⟨hd, hs⟩
    simp only at hd hs
    subst hs
    have hk' : k < rows.length := by omega
    dsimp only
    simp only [idx_lt hk', ok_bind, assert_lt (show rows[k] < (ofM A).rows from hgood k hk' hkf)]
    rw [Nat.add_mul, Nat.one_mul]
    refine loop_post (s := (d, k * n)) (fun q (s : Buf α × Nat) => s.1.length = rows.length * n ∧
      s.2 = k * n + q) (Nat.zero_le _) ⟨hd, rfl⟩ ?_
    rintro q ⟨d, di⟩ - hq ⟨hd, hs⟩
    simp only at hd hs
    subst hs
    dsimp only
    rw [idx_ofM A (hgood k hk' hkf) hq, ok_bind, wr_lt (by rw [hd]; exact rm_lt hk' hq), ok_bind]
    exact Post.ok ⟨by simpa using hd, rfl⟩
  · rintro ⟨d, di⟩ -
    dsimp only
    simp only [idx_lt hk, ok_bind]
    rw [assert_not_lt (show ¬ rows[Nat.find hex] < (ofM A).rows by rw [ofM_rows]; omega)]
    rfl

theorem permuteColumns_bad {m n : Nat} (hm : 0 < m) (A : Matrix (Fin m) (Fin n) α) (cols : List Nat)
    (h : ∃ x ∈ cols, n ≤ x) : (ofM A).permuteColumns cols = .error .assert := by
  have hex : ∃ k, ∃ hk : k < cols.length, n ≤ cols[k] := by
    obtain ⟨x, hx, hmx⟩ := h
    obtain ⟨k, hk, rfl⟩ := List.getElem_of_mem hx
    exact ⟨k, hk, hmx⟩
  classical
  obtain ⟨hk, hbad⟩ := Nat.find_spec hex
  have hgood : ∀ k (hk : k < cols.length), k < Nat.find hex → cols[k] < n := by
    intro k hk hlt
    have := Nat.find_min hex hlt
    by_contra hc
    exact this ⟨hk, by omega⟩
  unfold Mat.permuteColumns
  simp only [ofM_rows]
  rw [loop_error (e := .assert) (j := 0) (fun k (s : Buf α × Nat × Nat) => s = (alloc α (m * cols.length), 0, 0))
    (Nat.zero_le _) hm rfl (fun _ _ h1 h2 => by omega) ?_]
  · rfl
  · rintro ⟨d, di, ri⟩ hs
    simp only [Prod.mk.injEq] at hs
    obtain ⟨rfl, rfl, rfl⟩ := hs
    dsimp only
    simp only [ofM_cols A hm, ok_bind]
    rw [loop_error (e := .assert) (j := Nat.find hex)
      (fun k (s : Buf α × Nat) => s.1.length = m * cols.length ∧ s.2 = k) (Nat.zero_le _) hk (by simp) ?_ ?_]
    · rfl
    · rintro q ⟨d, di⟩ - hq ⟨hd, hs⟩
      simp only at hd hs
      subst hs
      have hq' : di < cols.length := by omega
      dsimp only
      simp only [idx_lt hq', ok_bind, assert_lt (hgood di hq' hq), idx_ofM A hm (hgood di hq' hq)]
      have hz := idx_ofM A hm (hgood di hq' hq)
      rw [Nat.zero_mul] at hz
      rw [hz, ok_bind, wr_lt (by rw [hd]; have := rm_lt hm hq'; omega), ok_bind]
      exact Post.ok ⟨by simpa using hd, rfl⟩
    · rintro ⟨d, di⟩ -
      dsimp only
      simp only [idx_lt hk, ok_bind]
      rw [assert_not_lt (by omega)]
      rfl

theorem ofM_congr_rows {m m' n : Nat} (e : m = m') (A : Matrix (Fin m) (Fin n) α) (B : Matrix (Fin m') (Fin n) α)
    (h : ∀ i j, A i j = B (Fin.cast e i) j) : ofM A = ofM B := by
  subst e
  congr 1
  funext i j
  exact h i j

theorem ofM_congr_cols {m n n' : Nat} (e : n = n') (A : Matrix (Fin m) (Fin n) α) (B : Matrix (Fin m) (Fin n') α)
    (h : ∀ i j, A i j = B i (Fin.cast e j)) : ofM A = ofM B := by
  subst e
  congr 1
  funext i j
  exact h i j

theorem permuteRows_fin {m n r : Nat} (hm : 0 < m) (A : Matrix (Fin m) (Fin n) α) (f : Fin r → Fin m) :
    (ofM A).permuteRows (List.ofFn fun i => (f i).1) = .ok (ofM (A.submatrix f _root_.id)) := by
  rw [permuteRows_ofM hm A _ (by intro k hk; simp)]
  congr 1
  refine ofM_congr_rows (by simp) _ _ ?_
  intro i j
  simp [Matrix.submatrix]
  rfl

theorem permuteColumns_fin {m n r : Nat} (A : Matrix (Fin m) (Fin n) α) (f : Fin r → Fin n) :
    (ofM A).permuteColumns (List.ofFn fun i => (f i).1) = .ok (ofM (A.submatrix _root_.id f)) := by
  rw [permuteColumns_ofM A _ (by intro k hk; simp)]
  congr 1
  refine ofM_congr_cols (by simp) _ _ ?_
  intro i j
  simp [Matrix.submatrix]
  rfl

theorem permuteRows_perm {m n : Nat} (hm : 0 < m) (A : Matrix (Fin m) (Fin n) α) (σ : Equiv.Perm (Fin m)) :
    (ofM A).permuteRows (List.ofFn fun i => (σ i).1) = .ok (ofM (A.submatrix σ _root_.id)) := permuteRows_fin hm A σ

theorem permuteColumns_perm {m n : Nat} (A : Matrix (Fin m) (Fin n) α) (σ : Equiv.Perm (Fin n)) :
    (ofM A).permuteColumns (List.ofFn fun i => (σ i).1) = .ok (ofM (A.submatrix _root_.id σ)) := permuteColumns_fin A σ

theorem collect_fin' {m : Nat} (s : Fin m → Bool) (g : Nat → R Bool) (hg : ∀ i : Fin m, g i = .ok (s i)) :
    Mat.collect m g
      = .ok (List.ofFn fun k : Fin ((List.finRange m).filter s).length => (((List.finRange m).filter s)[k.1]).1) := by
  rw [collect_ok m (fun i => if h : i < m then s ⟨i, h⟩ else false) _
    (fun i hi => by rw [hg ⟨i, hi⟩]; simp [hi])]
  congr 1
  have h1 : List.range m = (List.finRange m).map Fin.val := by simp
  rw [h1, List.filter_map]
  have h2 : ((fun i => if h : i < m then s ⟨i, h⟩ else false) ∘ Fin.val) = s := by
    funext i; simp
  rw [h2]
  apply List.ext_getElem
  · simp
  · intro i hi1 hi2; simp

theorem collect_fin {m : Nat} (s : Fin m → Bool) :
    Mat.collect m (fun i => idx (List.ofFn s) i)
      = .ok (List.ofFn fun k : Fin ((List.finRange m).filter s).length => (((List.finRange m).filter s)[k.1]).1) :=
  collect_fin' s _ fun i => by rw [idx_lt (by simp)]; simp

theorem filterRows_ofM {m n : Nat} (hm : 0 < m) (A : Matrix (Fin m) (Fin n) α) (f : Mat α → Nat → Bool) :
    (ofM A).filterRows f = .ok (ofM (Matrix.of
      fun (k : Fin ((List.finRange m).filter fun i : Fin m => f (ofM A) i.1).length) j =>
        A ((List.finRange m).filter fun i : Fin m => f (ofM A) i.1)[k.1] j)) := by
  unfold Mat.filterRows
  simp only [ofM_rows]
  rw [collect_fin' (fun i : Fin m => f (ofM A) i) _ (fun _ => rfl), ok_bind]
  exact permuteRows_fin hm A fun k : Fin ((List.finRange m).filter fun i : Fin m => f (ofM A) i.1).length =>
    ((List.finRange m).filter fun i : Fin m => f (ofM A) i.1)[k.1]

theorem filterColumns_ofM {m n : Nat} (hm : 0 < m) (A : Matrix (Fin m) (Fin n) α) (f : Mat α → Nat → Bool) :
    (ofM A).filterColumns f = .ok (ofM (Matrix.of
      fun i (k : Fin ((List.finRange n).filter fun i : Fin n => f (ofM A) i.1).length) =>
        A i ((List.finRange n).filter fun i : Fin n => f (ofM A) i.1)[k.1])) := by
  unfold Mat.filterColumns
  simp only [ofM_cols A hm, ok_bind]
  rw [collect_fin' (fun i : Fin n => f (ofM A) i) _ (fun _ => rfl), ok_bind]
  exact permuteColumns_fin A fun k : Fin ((List.finRange n).filter fun i : Fin n => f (ofM A) i.1).length =>
    ((List.finRange n).filter fun i : Fin n => f (ofM A) i.1)[k.1]

theorem selectRows_ofM {m n : Nat} (hm : 0 < m) (A : Matrix (Fin m) (Fin n) α) (s : Fin m → Bool) :
    (ofM A).selectRows (List.ofFn s) =
      .ok (ofM (Matrix.of fun (k : Fin ((List.finRange m).filter s).length) j => A ((List.finRange m).filter s)[k.1] j)) := by
  unfold Mat.selectRows
  simp only [ofM_rows, List.length_ofFn, beq_self_eq_true, assert_true, ok_bind]
  rw [collect_fin, ok_bind, permuteRows_fin hm A fun k : Fin ((List.finRange m).filter s).length => ((List.finRange m).filter s)[k.1]]
  rfl

theorem selectColumns_ofM {m n : Nat} (hm : 0 < m) (A : Matrix (Fin m) (Fin n) α) (s : Fin n → Bool) :
    (ofM A).selectColumns (List.ofFn s) =
      .ok (ofM (Matrix.of fun i (k : Fin ((List.finRange n).filter s).length) => A i ((List.finRange n).filter s)[k.1])) := by
  unfold Mat.selectColumns
  simp only [ofM_cols A hm, List.length_ofFn, beq_self_eq_true, assert_true, ok_bind]
  rw [collect_fin, ok_bind, permuteColumns_fin A fun k : Fin ((List.finRange n).filter s).length => ((List.finRange n).filter s)[k.1]]
  rfl

end LA
