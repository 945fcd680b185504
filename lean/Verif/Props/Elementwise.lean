import Verif.Proofs.Elementwise
import Verif.Props.Construction
import Mathlib.Data.BitVec

/-!
# C06-C11: map, reduce, elementwise arithmetic, mutating forms, product, algebraic laws
-/

namespace LA.Props
open LA
variable {α β γ : Type}

/-! ## C06 -/

/-- C06: `map(f)` applies `f` to every entry and keeps the shape. -/
theorem C06_map {m n : Nat} (A : Matrix (Fin m) (Fin n) α) (f : α → β) :
    (ofM A).map f = .ok (ofM (A.map f)) := by
  rw [map_eq]
  exact fill_mat_ofM A _ (A.map f) fun _ _ => rfl

/-- C06: `mmap(f)` leaves the receiver equal to `map(f)`, for every matrix value whatsoever. -/
theorem C06_mmap (a : Mat α) (f : α → α) : a.mmap f = a.map f :=
  inplace_eq_fill a.rows a.data (fun _ x => .ok (f x))

/-- C06: functor laws. -/
theorem C06_map_id (a : Mat α) : a.map (fun x => x) = .ok a := by simp [map_ok']

/-- C06: functor laws. -/
theorem C06_map_map (a : Mat α) (g : α → β) (f : β → γ) :
    (a.map g >>= fun b => b.map f) = a.map (fun x => f (g x)) := by
  simp [map_ok', List.map_map, Function.comp_def]

example : (⟨2, [1, 2, 3, 4]⟩ : Mat Nat).map (· + 1) = .ok ⟨2, [2, 3, 4, 5]⟩ := by decide

/-! ## C07 -/

/-- C07: `reduce(init, f)` folds each column from top to bottom, starting from the corresponding element of `init`. -/
theorem C07_reduce {m n : Nat} (hm : 0 < m) (hn : 0 < n) (A : Matrix (Fin m) (Fin n) α) (init : List β)
    (h : init.length = n) (f : β → α → β) :
    (ofM A).reduce init f = .ok (ofM (Matrix.of fun (_ : Fin 1) (j : Fin n) =>
      (List.ofFn fun i => A i j).foldl f (init[j.1]'(by omega)))) := by
  unfold Mat.reduce
  rw [ofM_cols A hm]
  simp only [ok_bind, h, beq_self_eq_true, assert_true, ofM_length]
  obtain ⟨⟨d, k⟩, hd, hl, hg⟩ := reduce_loop hn A init h f
  rw [hd]
  simp only [ok_bind, pure_eq_ok, Except.ok.injEq]
  refine mk_eq_ofM _ (by simpa using hl) ?_
  intro i j
  have : i.1 = 0 := by omega
  simpa [this] using hg j

/-- C07: `reduce` panics when `init.len()` is not the number of columns. -/
theorem C07_reduce_panics {m n : Nat} (hm : 0 < m) (A : Matrix (Fin m) (Fin n) α) (init : List β)
    (h : init.length ≠ n) (f : β → α → β) : (ofM A).reduce init f = .error .assert := by
  unfold Mat.reduce
  rw [ofM_cols A hm]
  simp only [ok_bind, assert_beq_ne h, error_bind]

example : (⟨2, [1, 2, 3, 4]⟩ : Mat Nat).reduce [10, 20] (· - ·) = .ok ⟨1, [6, 14]⟩ := by decide

/-! ## C08 -/

/-- C08: `a + b` is entrywise. -/
theorem C08_add [Add α] {m n : Nat} (hm : 0 < m) (A B : Matrix (Fin m) (Fin n) α) :
    (ofM A).add (ofM B) = .ok (ofM (A + B)) := by
  rw [add_eq, assertSameShape_ofM A B hm, ok_bind]
  exact fill_mat_ofM A _ (A + B) fun i j => by rw [idx_ofM B i.2 j.2]; rfl

/-- C08: `a - b` is entrywise. -/
theorem C08_sub [Sub α] {m n : Nat} (hm : 0 < m) (A B : Matrix (Fin m) (Fin n) α) :
    (ofM A).sub (ofM B) = .ok (ofM (A - B)) := by
  rw [sub_eq, assertSameShape_ofM A B hm, ok_bind]
  exact fill_mat_ofM A _ (A - B) fun i j => by rw [idx_ofM B i.2 j.2]; rfl

/-- C08: `elem_mul` is the entrywise (Hadamard) product. -/
theorem C08_elemMul [Mul α] {m n : Nat} (hm : 0 < m) (A B : Matrix (Fin m) (Fin n) α) :
    (ofM A).elemMul (ofM B) = .ok (ofM (Matrix.of fun i j => A i j * B i j)) := by
  rw [elemMul_eq, assertSameShape_ofM A B hm, ok_bind]
  exact fill_mat_ofM A _ (Matrix.of fun i j => A i j * B i j) fun i j => by rw [idx_ofM B i.2 j.2]; rfl

/-- C08: `elem_div` succeeds exactly when every entrywise division does, and then returns the entrywise quotients. -/
theorem C08_elemDiv [RDiv α] {m n : Nat} (hm : 0 < m) (A B : Matrix (Fin m) (Fin n) α) (c : Mat α) :
    (ofM A).elemDiv (ofM B) = .ok c ↔
      ∃ C : Matrix (Fin m) (Fin n) α, c = ofM C ∧ ∀ i j, RDiv.rdiv (A i j) (B i j) = .ok (C i j) := by
  have key : ∀ C : Matrix (Fin m) (Fin n) α, (∀ i j, RDiv.rdiv (A i j) (B i j) = .ok (C i j)) →
      (ofM A).elemDiv (ofM B) = .ok (ofM C) := by
    intro C hC
    rw [elemDiv_eq, assertSameShape_ofM A B hm, ok_bind]
    exact fill_mat_ofM A _ C fun i j => by rw [idx_ofM B i.2 j.2]; exact hC i j
  constructor
  · intro h
    rw [elemDiv_eq, assertSameShape_ofM A B hm, ok_bind, bind_eq_ok] at h
    obtain ⟨l, hl, h⟩ := h
    cases h
    obtain ⟨h1, h2⟩ := (mapIdxR_ok_iff le_rfl).1 hl
    rw [ofM_length] at h1
    have h3 : ∀ (i : Fin m) (j : Fin n), i.1 * n + j.1 < l.length := fun i j => h1 ▸ rm_lt i.2 j.2
    refine ⟨Matrix.of fun i j => l[i.1 * n + j.1]'(h3 i j), ?_, ?_⟩
    · exact mk_eq_ofM _ h1 fun i j => List.getElem?_eq_getElem (h3 i j)
    · intro i j
      have hlt : i.1 * n + j.1 < (ofM A).data.length := by simpa using rm_lt i.2 j.2
      obtain ⟨y, hy, hly⟩ := h2 (i.1 * n + j.1) hlt hlt
      rw [idx_ofM B i.2 j.2, ok_bind] at hy
      have h4 := ofM_getElem? A i j
      rw [List.getElem?_eq_getElem hlt] at h4
      rw [Option.some.inj h4] at hy
      rw [List.getElem?_eq_getElem (h3 i j)] at hly
      simpa [Option.some.inj hly] using hy
  · rintro ⟨C, rfl, hC⟩
    exact key C hC

/-- C08: negation is entrywise. -/
theorem C08_neg [Neg α] {m n : Nat} (A : Matrix (Fin m) (Fin n) α) : (ofM A).neg = .ok (ofM (-A)) := C06_map A _

/-- C08: `scale(k)` multiplies every entry by `k` from the left. -/
theorem C08_scale [Mul α] {m n : Nat} (A : Matrix (Fin m) (Fin n) α) (k : α) : (ofM A).scale k = .ok (ofM (k • A)) :=
  C06_map A _

/-- C08: all four binary operations panic on different shapes. -/
theorem C08_shape_mismatch [Add α] [Sub α] [Mul α] [RDiv α] {m n m' n' : Nat} (hm : 0 < m) (hm' : 0 < m')
    (A : Matrix (Fin m) (Fin n) α) (B : Matrix (Fin m') (Fin n') α) (h : ¬(m = m' ∧ n = n')) :
    (ofM A).add (ofM B) = .error .assert ∧ (ofM A).sub (ofM B) = .error .assert ∧
    (ofM A).elemMul (ofM B) = .error .assert ∧ (ofM A).elemDiv (ofM B) = .error .assert := by
  refine ⟨?_, ?_, ?_, ?_⟩
  · rw [add_eq, assertSameShape_ne A B hm hm' h]; rfl
  · rw [sub_eq, assertSameShape_ne A B hm hm' h]; rfl
  · rw [elemMul_eq, assertSameShape_ne A B hm hm' h]; rfl
  · rw [elemDiv_eq, assertSameShape_ne A B hm hm' h]; rfl

/-- Rust integer division: truncating, panicking on a zero divisor (used to illustrate `elem_div`). -/
instance : RDiv Int := ⟨fun a b => if b = 0 then .error .arith else .ok (Int.tdiv a b)⟩

example : (⟨2, [3, 4, 5, 6]⟩ : Mat Int).elemDiv ⟨2, [1, 2, 3, 4]⟩ = .ok ⟨2, [3, 2, 1, 1]⟩ := by decide
example : (⟨1, [3, 4]⟩ : Mat Int).elemDiv ⟨1, [1, 0]⟩ = .error .arith := by decide
example : (⟨2, [1, 2, 3, 4]⟩ : Mat Int).add ⟨2, [3, 4, 5, 6]⟩ = .ok ⟨2, [4, 6, 8, 10]⟩ := by decide
example : (⟨2, [1, 2, 3, 4]⟩ : Mat Int).add ⟨1, [3, 4, 5, 6]⟩ = .error .assert := by decide

/-! ## C09 -/

/-- C09: every mutating operation gives exactly the result (value or panic) of its pure counterpart, on every pair of
matrix values, well-formed or not, and for arbitrary element operations. -/
theorem C09_mutating_agree [Zero α] [Add α] [Sub α] [Mul α] [Neg α] [RDiv α] (a b : Mat α) (k : α) :
    a.madd b = a.add b ∧ a.msub b = a.sub b ∧ a.melemMul b = a.elemMul b ∧ a.melemDiv b = a.elemDiv b ∧
    a.mscale k = a.scale k ∧ a.mneg = a.neg ∧ a.mmul b = a.mul b := by
  refine ⟨?_, ?_, ?_, ?_, ?_, ?_, rfl⟩
  · have := inplace_eq_fill a.rows a.data (fun i x => do return x + (← idx b.data i))
    simp only [bind_assoc, pure_eq_ok, ok_bind] at this
    simp only [Mat.madd, Mat.add, pure_eq_ok, this]
  · have := inplace_eq_fill a.rows a.data (fun i x => do return x - (← idx b.data i))
    simp only [bind_assoc, pure_eq_ok, ok_bind] at this
    simp only [Mat.msub, Mat.sub, pure_eq_ok, this]
  · have := inplace_eq_fill a.rows a.data (fun i x => do return x * (← idx b.data i))
    simp only [bind_assoc, pure_eq_ok, ok_bind] at this
    simp only [Mat.melemMul, Mat.elemMul, pure_eq_ok, this]
  · have := inplace_eq_fill a.rows a.data (fun i x => do RDiv.rdiv x (← idx b.data i))
    simp only [bind_assoc, pure_eq_ok] at this
    simp only [Mat.melemDiv, Mat.elemDiv, pure_eq_ok, this]
  · exact inplace_eq_fill a.rows a.data (fun _ x => .ok (k * x))
  · exact inplace_eq_fill a.rows a.data (fun _ x => .ok (-x))

example : (⟨2, [3, 4, 5, 6]⟩ : Mat Int).melemDiv ⟨2, [1, 2, 3, 4]⟩ = .ok ⟨2, [3, 2, 1, 1]⟩ := by decide

/-! ## C10 -/

/-- C10: for any element operations, entry `(i, j)` of `a * b` is the left-to-right sum
`0 + a[i,0]*b[0,j] + a[i,1]*b[1,j] + …`. -/
theorem C10_mul_general [Zero α] [Add α] [Mul α] {m p n : Nat} (hm : 0 < m) (hp : 0 < p)
    (A : Matrix (Fin m) (Fin p) α) (B : Matrix (Fin p) (Fin n) α) :
    (ofM A).mul (ofM B) = .ok (ofM (Matrix.of fun i j =>
      (List.finRange p).foldl (fun s k => s + A i k * B k j) 0)) := by
  unfold Mat.mul
  rw [ofM_cols A hm, ofM_cols B hp]
  simp only [ok_bind, ofM_rows, beq_self_eq_true, assert_true]
  obtain ⟨d, hd, hf⟩ := fill2_ok (f := fun i j => loop 0 p (0 : α) fun k res => do
      return res + (← (ofM A).getRef i k) * (← (ofM B).getRef k j))
    (Matrix.of fun i j => (List.finRange p).foldl (fun s k => s + A i k * B k j) 0)
    (fun i j => mul_entry_loop A B i j)
  rw [hd, ok_bind, hf]; rfl

/-- C10: over a semiring `a * b` is the mathematical matrix product. -/
theorem C10_mul [NonUnitalNonAssocSemiring α] {m p n : Nat} (hm : 0 < m) (hp : 0 < p)
    (A : Matrix (Fin m) (Fin p) α) (B : Matrix (Fin p) (Fin n) α) :
    (ofM A).mul (ofM B) = .ok (ofM (A * B)) := by
  rw [C10_mul_general hm hp]
  congr 2
  funext i j
  exact foldl_finRange_sum _

/-- C10: `a * b` panics when the inner dimensions differ. -/
theorem C10_mul_panics [Zero α] [Add α] [Mul α] {m p q n : Nat} (hm : 0 < m) (h : p ≠ q)
    (A : Matrix (Fin m) (Fin p) α) (B : Matrix (Fin q) (Fin n) α) :
    (ofM A).mul (ofM B) = .error .assert := by
  unfold Mat.mul
  rw [ofM_cols A hm]
  simp only [ok_bind, ofM_rows, assert_beq_ne h, error_bind]

example : (⟨2, [1, 2, 3, 4]⟩ : Mat Int).mul ⟨2, [3, 4, 5, 6]⟩ = .ok ⟨2, [13, 16, 29, 36]⟩ := by decide
example : (⟨2, [1, 2, 3, 4]⟩ : Mat Int).mul ⟨3, [1, 2, 3, 4, 5, 6]⟩ = .error .assert := by decide

/-! ## C11 -/

section Laws
variable [CommRing α] {m n p q : Nat}

/-- C11: addition is commutative. -/
theorem C11_add_comm (hm : 0 < m) (A B : Matrix (Fin m) (Fin n) α) :
    (ofM A).add (ofM B) = (ofM B).add (ofM A) := by rw [C08_add hm, C08_add hm, add_comm]

/-- C11: addition is associative. -/
theorem C11_add_assoc (hm : 0 < m) (A B C : Matrix (Fin m) (Fin n) α) :
    ((ofM A).add (ofM B) >>= fun ab => ab.add (ofM C)) = ((ofM B).add (ofM C) >>= fun bc => (ofM A).add bc) := by
  simp [C08_add hm, add_assoc]

/-- C11: `zero(m, n)` is neutral for addition, and `a - a` is `zero(m, n)`. -/
theorem C11_zero (hm : 0 < m) (A : Matrix (Fin m) (Fin n) α) :
    (Mat.zero m n >>= fun z => (ofM A).add z) = .ok (ofM A) ∧ (ofM A).sub (ofM A) = Mat.zero m n := by
  simp [C05_zero, C08_add hm, C08_sub hm]

/-- C11: multiplication is associative. -/
theorem C11_mul_assoc (hm : 0 < m) (hn : 0 < n) (hp : 0 < p) (A : Matrix (Fin m) (Fin n) α)
    (B : Matrix (Fin n) (Fin p) α) (C : Matrix (Fin p) (Fin q) α) :
    ((ofM A).mul (ofM B) >>= fun ab => ab.mul (ofM C)) = ((ofM B).mul (ofM C) >>= fun bc => (ofM A).mul bc) := by
  simp [C10_mul hm hn, C10_mul hm hp, C10_mul hn hp, Matrix.mul_assoc]

/-- C11: `id` is a left and right unit. -/
theorem C11_id (hm : 0 < m) (hn : 0 < n) (A : Matrix (Fin m) (Fin n) α) :
    (Mat.id m m >>= fun e => e.mul (ofM A)) = .ok (ofM A) ∧
    (Mat.id n n >>= fun e => (ofM A).mul e) = .ok (ofM A) := by
  simp [C05_id_square, C10_mul hm hm, C10_mul hm hn]

/-- C11: multiplication distributes over addition on both sides. -/
theorem C11_distrib (hm : 0 < m) (hn : 0 < n) (A A' : Matrix (Fin m) (Fin n) α) (B B' : Matrix (Fin n) (Fin p) α) :
    ((ofM B).add (ofM B') >>= fun s => (ofM A).mul s) =
      (do let x ← (ofM A).mul (ofM B); let y ← (ofM A).mul (ofM B'); x.add y) ∧
    ((ofM A).add (ofM A') >>= fun s => s.mul (ofM B)) =
      (do let x ← (ofM A).mul (ofM B); let y ← (ofM A').mul (ofM B); x.add y) := by
  simp [C10_mul hm hn, C08_add hm, C08_add hn, Matrix.mul_add, Matrix.add_mul]

/-- C11: scaling distributes over sums and slides through products; `-a` is scaling by `-1`. -/
theorem C11_scale (hm : 0 < m) (hn : 0 < n) (k : α) (A A' : Matrix (Fin m) (Fin n) α) (B : Matrix (Fin n) (Fin p) α) :
    ((ofM A).add (ofM A') >>= fun s => s.scale k) =
      (do let x ← (ofM A).scale k; let y ← (ofM A').scale k; x.add y) ∧
    ((ofM A).mul (ofM B) >>= fun s => s.scale k) = ((ofM A).scale k >>= fun x => x.mul (ofM B)) ∧
    (ofM A).neg = (ofM A).scale (-1) := by
  simp [C10_mul hm hn, C08_add hm, C08_scale, C08_neg]

/-- C11: `a - b` is `a + (-b)`. -/
theorem C11_sub_eq_add_neg (hm : 0 < m) (A B : Matrix (Fin m) (Fin n) α) :
    (ofM A).sub (ofM B) = ((ofM B).neg >>= fun b => (ofM A).add b) := by
  simp [C08_sub hm, C08_neg, C08_add hm, sub_eq_add_neg]

end Laws

/-- C11: the by-value operator forms give the results of the by-reference ones. -/
theorem C11_operator_forms [Zero α] [Add α] [Sub α] [Mul α] [Neg α] (a b : Mat α) :
    a.addOwned b = a.add b ∧ a.subOwned b = a.sub b ∧ a.mulOwned b = a.mul b ∧ a.negOwned = a.neg :=
  ⟨rfl, rfl, rfl, rfl⟩

/-- The laws apply to wrapping machine integers: `BitVec 32` is a commutative ring. -/
example (A : Matrix (Fin 2) (Fin 2) (BitVec 32)) :
    ((ofM A).mul (ofM A) >>= fun ab => ab.mul (ofM A)) = ((ofM A).mul (ofM A) >>= fun bc => (ofM A).mul bc) :=
  C11_mul_assoc (by decide) (by decide) (by decide) A A A

end LA.Props
