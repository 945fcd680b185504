import Verif.Proofs.Construct
import Mathlib.Data.Matrix.Diagonal
import Mathlib.LinearAlgebra.Matrix.Notation

/-!
# C01, C03, C04, C05, C54: construction and element access
-/

namespace LA.Props
open LA
variable {α : Type}

/-! ## C01 -/

/-- C01: `Matrix::new(r, c, data)` succeeds exactly when `r, c > 0` and `r * c = data.len()`; the result has `r` rows,
`c` columns, stores `data`, and its `(i, j)` entry is `data[i * c + j]`. -/
theorem C01_new_spec (r c : Nat) (data : List α) (hr : 0 < r) (hc : 0 < c) (h : r * c = data.length) :
    ∃ a, Mat.new r c data = .ok a ∧ a.rows = r ∧ a.cols = .ok c ∧ a.data = data ∧
      ∀ i j (hi : i < r) (hj : j < c), a.get i j = .ok (data[i * c + j]'(h ▸ rm_lt hi hj)) := by
  refine ⟨⟨r, data⟩, ?_, rfl, ?_, rfl, ?_⟩
  · simp [Mat.new, h, hr, hc]
  · simp [Mat.cols, ← h, udiv_ok (show r ≠ 0 by omega), Nat.mul_div_cancel_left _ hr]
  · intro i j hi hj
    have hlt : i * c + j < data.length := h ▸ rm_lt hi hj
    simp [Mat.get, Mat.cols, ← h, udiv_ok (show r ≠ 0 by omega), Nat.mul_div_cancel_left _ hr, hi, hj, idx_lt hlt]

/-- C01: in every other case it panics (a failed assertion). -/
theorem C01_new_panics (r c : Nat) (data : List α) (h : ¬(0 < r ∧ 0 < c ∧ r * c = data.length)) :
    Mat.new r c data = .error .assert := by
  unfold Mat.new
  by_cases h1 : r * c = data.length
  · have : ¬(0 < r ∧ 0 < c) := fun h2 => h ⟨h2.1, h2.2, h1⟩
    simp only [h1, beq_self_eq_true, assert_true, ok_bind]
    rw [assert_not (by simpa using this)]; rfl
  · rw [assert_not (by simpa using h1)]; rfl

/-- C01: `Matrix::new(r, c, d)` stores the mathematical matrix whose rows are consecutive chunks of `d`. -/
theorem C01_new_ofM {m n : Nat} (hm : 0 < m) (hn : 0 < n) (A : Matrix (Fin m) (Fin n) α) :
    Mat.new m n (ofM A).data = .ok (ofM A) := by
  simp [Mat.new, hm, hn]; rfl

/-- C01: `Matrix::vector(d)` succeeds exactly on non-empty `d`, giving the column vector `d`. -/
theorem C01_vector (d : List α) :
    Mat.vector d = if _ : d = [] then .error .assert else .ok (ofM (colVec fun i : Fin d.length => d[i])) := by
  split
  · next h => subst h; rfl
  · next h =>
    have hpos : 0 < d.length := List.length_pos_iff.mpr h
    simp only [Mat.vector, gt_iff_lt, hpos, decide_true, assert_true, ok_bind, pure_eq_ok, Except.ok.injEq]
    apply mk_eq_ofM _ (by simp)
    intro i j
    simp [colVec]

/-- C01: `Matrix::row_vector(d)` succeeds exactly on non-empty `d`, giving the row vector `d`. -/
theorem C01_rowVector (d : List α) :
    Mat.rowVector d = if _ : d = [] then .error .assert
      else .ok (ofM (fun (_ : Fin 1) (j : Fin d.length) => d[j])) := by
  split
  · next h => subst h; rfl
  · next h =>
    have hpos : 0 < d.length := List.length_pos_iff.mpr h
    simp only [Mat.rowVector, gt_iff_lt, hpos, decide_true, assert_true, ok_bind, pure_eq_ok, Except.ok.injEq]
    apply mk_eq_ofM _ (by simp)
    intro i j
    simp

/-- C01: the matrices that `new` can return are exactly the well-formed ones, and these are exactly the stored forms of
mathematical matrices (so the theorems below about `ofM A` cover every constructible matrix). -/
theorem C01_constructible_iff (a : Mat α) :
    (∃ r c d, Mat.new r c d = .ok a) ↔
      ∃ (m n : Nat) (_ : 0 < m) (_ : 0 < n) (A : Matrix (Fin m) (Fin n) α), a = ofM A := by
  constructor
  · rintro ⟨r, c, d, h⟩
    by_cases h' : 0 < r ∧ 0 < c ∧ r * c = d.length
    · obtain ⟨hr, hc, hl⟩ := h'
      obtain ⟨b, hb, hbr, _, hbd, _⟩ := C01_new_spec r c d hr hc hl
      rw [h] at hb; cases hb
      obtain ⟨n, hn, A, hA⟩ := WF.exists_ofM (a := a) ⟨by omega, c, hc, by rw [hbd, hbr, hl]⟩
      exact ⟨a.rows, n, by omega, hn, A, hA⟩
    · rw [C01_new_panics r c d h'] at h; cases h
  · rintro ⟨m, n, hm, hn, A, rfl⟩
    exact ⟨m, n, _, C01_new_ofM hm hn A⟩

example : Mat.new 2 3 [1, 2, 3, 4, 5, 6] = .ok ⟨2, [1, 2, 3, 4, 5, 6]⟩ := by decide
example : Mat.new 1 2 [1, 2, 3] = .error .assert := by decide
example : ofM (!![1, 2, 3; 4, 5, 6] : Matrix (Fin 2) (Fin 3) Nat) = ⟨2, [1, 2, 3, 4, 5, 6]⟩ := by decide

/-! ## C03 -/

/-- C03: a literal whose rows are the `k > 0` rows of a `k × c` table (`c > 0`) builds exactly that matrix. -/
theorem C03_macro_rectangular {k c : Nat} (hk : 0 < k) (hc : 0 < c) (A : Matrix (Fin k) (Fin c) α) :
    mMacro (List.ofFn fun i => List.ofFn fun j => A i j) = .ok (ofM A) := by
  have hlen : (List.ofFn fun i => List.ofFn fun j => A i j).flatten.length = k * c := ofM_length A
  unfold mMacro
  dsimp only
  rw [hlen, List.length_ofFn, udiv_ok (by omega), Nat.mul_div_cancel_left _ hk]
  exact C01_new_ofM hk hc A

/-- C03: what the macro accepts in general: at least one row, at least one item, and a total number of items that is a
multiple of the number of rows.  In particular a literal with a different total panics. -/
theorem C03_macro_accepts_iff (rows : List (List α)) :
    (∃ a, mMacro rows = .ok a) ↔ rows ≠ [] ∧ rows.flatten ≠ [] ∧ rows.length ∣ rows.flatten.length := by
  unfold mMacro
  dsimp only
  by_cases h0 : rows = []
  · subst h0; simp [udiv]
  have hpos : 0 < rows.length := List.length_pos_iff.mpr h0
  rw [udiv_ok (by omega)]
  simp only [ok_bind, h0, ne_eq, not_false_eq_true, true_and]
  constructor
  · rintro ⟨a, ha⟩
    by_contra hcon
    rw [C01_new_panics] at ha
    · cases ha
    · rintro ⟨_, h2, h3⟩
      refine hcon ⟨?_, _, h3.symm⟩
      intro h4; rw [h4] at h2; simp at h2
  · rintro ⟨h1, h2⟩
    obtain ⟨a, ha, -⟩ := C01_new_spec rows.length (rows.flatten.length / rows.length) rows.flatten hpos
      (Nat.div_pos (Nat.le_of_dvd (List.length_pos_iff.mpr h1) h2) hpos) (Nat.mul_div_cancel' h2)
    exact ⟨a, ha⟩

/-- C03 is false as stated for ragged literals: `m!(1, 2, 3; 4)` is accepted and silently re-cut into
`[1, 2; 3, 4]`, so an entry written in row 0 ends up in row 1. -/
theorem C03_ragged_literal_accepted :
    ∃ rows : List (List Nat), (∃ r ∈ rows, ∃ s ∈ rows, r.length ≠ s.length) ∧
      mMacro rows = .ok (ofM (!![1, 2; 3, 4] : Matrix (Fin 2) (Fin 2) Nat)) :=
  ⟨[[1, 2, 3], [4]], by decide, by decide⟩

example : mMacro [[1, 2], [3, 4]] = .ok (⟨2, [1, 2, 3, 4]⟩ : Mat Nat) := by decide
example : mMacro [[1, 2], [3]] = (.error .assert : R (Mat Nat)) := by decide

/-! ## C04 -/

/-- C04: `get` returns the mathematical entry in range and panics out of range. -/
theorem C04_get {m n : Nat} (A : Matrix (Fin m) (Fin n) α) (i j : Nat) :
    (ofM A).get i j = if h : i < m ∧ j < n then .ok (A ⟨i, h.1⟩ ⟨j, h.2⟩) else .error .assert := by
  split
  · next h => exact ofM_get A h.1 h.2
  · next h =>
    unfold Mat.get
    by_cases hi : i < m
    · have hj : ¬ j < n := fun hj => h ⟨hi, hj⟩
      rw [ofM_cols A (by omega)]
      simp [hi, hj]
    · simp [hi]

/-- C04: `get_ref`, reading through `get_mref`, and `a[(i, j)]` behave exactly like `get`. -/
theorem C04_get_forms (a : Mat α) (i j : Nat) :
    a.getRef i j = a.get i j ∧ a.getMrefRead i j = a.get i j ∧ a.index (i, j) = a.get i j :=
  ⟨rfl, rfl, rfl⟩

/-- C04: `set(i, j, v)` replaces exactly the `(i, j)` entry, and panics out of range. -/
theorem C04_set {m n : Nat} (A : Matrix (Fin m) (Fin n) α) (i j : Nat) (v : α) :
    (ofM A).set i j v = if i < m ∧ j < n then
      .ok (ofM (Matrix.of fun (i' : Fin m) (j' : Fin n) => if i'.1 = i ∧ j'.1 = j then v else A i' j'))
      else .error .assert := by
  split
  · next h =>
    obtain ⟨hi, hj⟩ := h
    simp only [Mat.set, ofM_rows, hi, decide_true, assert_true, ok_bind, ofM_cols A (by omega : 0 < m), hj]
    rw [setIdx_lt (by simpa using rm_lt hi hj)]
    simp only [ok_bind, pure_eq_ok, Except.ok.injEq]
    rw [← mk_ofM (Matrix.of _)]
    congr 1
    refine ofM_data_eq _ (by simp) ?_
    intro i' j'
    by_cases e : i'.1 = i ∧ j'.1 = j
    · obtain ⟨rfl, rfl⟩ := e
      simp [rm_lt hi hj]
    · rw [List.getElem?_set_ne (rm_ne hj j'.2 (fun e' => e ⟨e'.1.symm, e'.2.symm⟩)), ofM_getElem?]
      simp [e]
  · next h =>
    unfold Mat.set
    by_cases hi : i < m
    · have hj : ¬ j < n := fun hj => h ⟨hi, hj⟩
      rw [ofM_cols A (by omega)]
      simp [hi, hj]
    · simp [hi]

/-- C04: writing through `get_mref` is `set`. -/
theorem C04_getMrefWrite (a : Mat α) (i j : Nat) (v : α) : a.getMrefWrite i j v = a.set i j v := rfl

/-- C04: the get/set laws, on any well-formed matrix: the written entry is read back, every other entry and the
shape are unchanged. -/
theorem C04_get_set (a : Mat α) (ha : WF a) (i j : Nat) (v : α) (a' : Mat α) (h : a.set i j v = .ok a') :
    a'.get i j = .ok v ∧ (∀ i' j', ¬(i' = i ∧ j' = j) → a'.get i' j' = a.get i' j') ∧
      a'.rows = a.rows ∧ a'.cols = a.cols := by
  obtain ⟨n, hn, A, hA⟩ := ha.exists_ofM
  have hr : 0 < a.rows := ha.1
  generalize hm : a.rows = m at A hA hr
  subst hA
  rw [C04_set] at h
  split at h
  · next hij =>
    cases h
    refine ⟨by rw [ofM_get _ hij.1 hij.2]; simp, ?_, rfl, by rw [ofM_cols _ hr, ofM_cols _ hr]⟩
    intro i' j' hne
    rw [C04_get, C04_get]
    split
    · simp [hne]
    · rfl
  · cases h

example : (⟨2, [1, 2, 3, 4]⟩ : Mat Nat).set 1 0 9 = .ok ⟨2, [1, 2, 9, 4]⟩ ∧ WF (⟨2, [1, 2, 3, 4]⟩ : Mat Nat) :=
  ⟨by decide, by decide, 2, by decide, by decide⟩

/-! ## C05 -/

/-- C05: `id(m, n)` has ones exactly on the main diagonal. -/
theorem C05_id [Zero α] [One α] (m n : Nat) :
    Mat.id (α := α) m n = .ok (ofM (Matrix.of fun (i : Fin m) (j : Fin n) => if i.1 = j.1 then (1 : α) else 0)) := by
  unfold Mat.id
  rw [zeroFill_ok, ok_bind]
  obtain ⟨d, hd, hg⟩ := diag_loop (α := α) (m := m) (n := n) (k := min m n) le_rfl (f := fun _ => .ok 1) (fun _ => 1)
    fun _ _ => rfl
  simp only [ok_bind] at hd
  rw [hd, ok_bind, hg.freeze (Matrix.of fun (i : Fin m) (j : Fin n) => if i.1 = j.1 then (1 : α) else 0)]
  · rfl
  · intro i j
    have := i.2; have := j.2
    simp only [Matrix.of_apply]
    congr 1
    grind

/-- C05: `id(n, n)` is the identity matrix. -/
theorem C05_id_square [Zero α] [One α] (n : Nat) :
    Mat.id (α := α) n n = .ok (ofM (1 : Matrix (Fin n) (Fin n) α)) := by
  rw [C05_id]
  congr 2
  funext i j
  simp [Matrix.one_apply, Fin.ext_iff]

/-- C05: `zero(m, n)` is the zero matrix. -/
theorem C05_zero [Zero α] (m n : Nat) : Mat.zero (α := α) m n = .ok (ofM (0 : Matrix (Fin m) (Fin n) α)) := by
  unfold Mat.zero
  rw [zeroFill_ok, ok_bind, (grid_const m n (some (0 : α))).freeze (0 : Matrix (Fin m) (Fin n) α) (by simp)]
  rfl

/-- C05: `diag(d)` for non-empty `d` is the square diagonal matrix of `d`; `diag` of an empty vector panics. -/
theorem C05_diag [Zero α] (d : List α) :
    Mat.diag d = if d = [] then .error .assert else .ok (ofM (Matrix.diagonal fun i : Fin d.length => d[i])) := by
  unfold Mat.diag
  simp only
  rw [zeroFill_ok, ok_bind]
  by_cases h0 : d = []
  · subst h0; rfl
  have hpos : 0 < d.length := List.length_pos_iff.mpr h0
  obtain ⟨b, hb, hg⟩ := diag_loop (α := α) (m := d.length) (n := d.length) (k := d.length) (by simp)
    (f := fun i => idx d i) (fun i => d.getD i 0) fun i hi => by
      rw [idx_lt hi]; simp [hi]
  rw [hb, ok_bind, hg.freeze (Matrix.diagonal fun i : Fin d.length => d[i])]
  · rw [ok_bind, C01_new_ofM hpos hpos, if_neg h0]
  · intro i j
    simp only [Matrix.diagonal_apply, Fin.ext_iff]
    by_cases e : i.1 = j.1 <;> simp [e]

/-- C05: `block_diag(m, n, d)` puts `d` on the main diagonal of an `m × n` zero matrix, provided
`d.len() = min(m, n)`. -/
theorem C05_blockDiag [Zero α] {m n : Nat} (hm : 0 < m) (hn : 0 < n) (d : List α) (h : d.length = min m n) :
    Mat.blockDiag m n d = .ok (ofM (Matrix.of fun (i : Fin m) (j : Fin n) =>
      if hij : i.1 = j.1 then d[i.1]'(by omega) else 0)) := by
  unfold Mat.blockDiag
  simp only [h, beq_self_eq_true, assert_true, ok_bind]
  rw [zeroFill_ok, ok_bind]
  obtain ⟨b, hb, hg⟩ := diag_loop (α := α) (m := m) (n := n) (k := min m n) le_rfl
    (f := fun i => idx d i) (fun i => d.getD i 0) fun i hi => by
      rw [idx_lt (by omega)]; simp [show i < d.length by omega]
  rw [hb, ok_bind, hg.freeze (Matrix.of fun (i : Fin m) (j : Fin n) =>
      if hij : i.1 = j.1 then d[i.1]'(by omega) else 0)]
  · rw [ok_bind, C01_new_ofM hm hn]
  · intro i j
    simp only [Matrix.of_apply]
    by_cases e : i.1 = j.1
    · have : i.1 < d.length := by omega
      have : i.1 < min m n := by omega
      have h3 := this
      simp only [e, true_and, dite_true] at *
      simp [*]
    · simp [e]

/-- C05: `block_diag` panics when the number of diagonal values is wrong, or when a dimension is 0. -/
theorem C05_blockDiag_panics [Zero α] (m n : Nat) (d : List α)
    (h : d.length ≠ min m n ∨ m = 0 ∨ n = 0) : Mat.blockDiag m n d = .error .assert := by
  unfold Mat.blockDiag
  by_cases h1 : d.length = min m n
  · have h2 : m = 0 ∨ n = 0 := h.resolve_left (by simpa using h1)
    have h3 : min m n = 0 := by omega
    have h4 : m * n = 0 := by rcases h2 with h | h <;> simp [h]
    have h5 : Mat.new m n ([] : List α) = .error .assert := C01_new_panics _ _ _ (by omega)
    simp [h1, h3, h4, zeroFill_ok, freeze, h5]
  · simp only
    rw [assert_not (by simpa using h1)]; rfl

/-- C05: `zero_vector(n)` and `one_vector(n)` are the constant column vectors. -/
theorem C05_zeroVector [Zero α] (n : Nat) : Mat.zeroVector (α := α) n = .ok (ofM (colVec fun _ : Fin n => (0 : α))) := by
  unfold Mat.zeroVector
  rw [zeroFill_ok, ok_bind]
  have := (grid_const n 1 (some (0 : α))).freeze (colVec fun _ : Fin n => (0 : α)) (by simp [colVec])
  rw [Nat.mul_one] at this
  rw [this]; rfl

/-- C05, see `C05_zeroVector`. -/
theorem C05_oneVector [One α] (n : Nat) : Mat.oneVector (α := α) n = .ok (ofM (colVec fun _ : Fin n => (1 : α))) := by
  unfold Mat.oneVector
  rw [fill_const, ok_bind]
  have := (grid_const n 1 (some (1 : α))).freeze (colVec fun _ : Fin n => (1 : α)) (by simp [colVec])
  rw [Nat.mul_one] at this
  rw [this]; rfl

example : Mat.id (α := Nat) 3 2 = .ok ⟨3, [1, 0, 0, 1, 0, 0]⟩ := by decide
example : Mat.blockDiag 2 3 [1, 2] = .ok (⟨2, [1, 0, 0, 0, 2, 0]⟩ : Mat Nat) := by decide

/-! ## C54 -/

/-- C54: `random(r, c)` is the `r × c` matrix of consecutive draws in row-major order, for every generator. -/
theorem C54_random (draw : Nat → α) (m n : Nat) :
    Mat.random draw m n = .ok (ofM (Matrix.of fun (i : Fin m) (j : Fin n) => draw (i * n + j))) := by
  unfold Mat.random
  dsimp only
  have := fill_ok (α := α) (n := m * n) (f := fun i => .ok (draw i)) draw fun _ _ => rfl
  simp only [ok_bind] at this
  rw [this, ok_bind, freeze_ofM (Matrix.of fun (i : Fin m) (j : Fin n) => draw (i * n + j)) (by simp)]
  · rfl
  · intro i j
    rw [List.getElem?_map, List.getElem?_range (rm_lt i.2 j.2)]; rfl

example : Mat.random (fun k => 10 * k) 2 2 = .ok (⟨2, [0, 10, 20, 30]⟩ : Mat Nat) := by decide

end LA.Props
