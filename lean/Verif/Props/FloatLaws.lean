import Verif.Proofs.F64Alg
import Verif.Props.Elementwise
import Verif.Props.Blocks
import Verif.Props.Construction

/-!
# C85, C88: laws that survive rounding

C85 is about `F64` (all values, NaN and infinities included; `=` is identity of the stored values, all NaNs identified); C88 holds for
arbitrary element operations.
-/

namespace LA.Props
open LA F64
set_option linter.unusedSectionVars false
variable {α : Type}

theorem ok_ext {m n : Nat} {A B : Matrix (Fin m) (Fin n) α} (h : ∀ i j, A i j = B i j) : (.ok (ofM A) : R (Mat α)) = .ok (ofM B) := by
  rw [show A = B by ext i j; exact h i j]

/-! ## C85 -/

section
variable {m n p : Nat}

/-- C85: sums and entrywise products do not depend on the order of the operands. -/
theorem C85_comm (hm : 0 < m) (A B : Matrix (Fin m) (Fin n) F64) :
    (ofM A).add (ofM B) = (ofM B).add (ofM A) ∧ (ofM A).elemMul (ofM B) = (ofM B).elemMul (ofM A) := by
  rw [C08_add hm, C08_add hm, C08_elemMul hm, C08_elemMul hm]
  refine ⟨ok_ext fun i j => ?_, ok_ext fun i j => ?_⟩
  · exact F64.add_comm _ _
  · exact F64.mul_comm _ _

/-- C85: the transpose of a product is the product of the transposes in reverse order. -/
theorem C85_transpose_mul (hm : 0 < m) (hn : 0 < n) (hp : 0 < p) (A : Matrix (Fin m) (Fin n) F64) (B : Matrix (Fin n) (Fin p) F64) :
    ((ofM A).mul (ofM B) >>= fun ab => ab.t) = (do let bt ← (ofM B).t; let at' ← (ofM A).t; bt.mul at') := by
  rw [C10_mul_general hm hn, ok_bind, C12_transpose hm, C12_transpose hn, ok_bind, C12_transpose hm, ok_bind, C10_mul_general hp hn]
  refine ok_ext fun i j => ?_
  simp only [Matrix.transpose_apply, Matrix.of_apply]
  congr 1
  funext s k
  rw [F64.mul_comm]

theorem sq_abs (x : F64) : x * x = FloatOps.abs (x * x) := by
  show mul x x = F64.abs (mul x x)
  have hs : ∀ s : Bool, (s != s) = false := by decide
  rcases x with _ | s | ⟨s, a, ha⟩
  · rfl
  · unfold mul; dsimp only; rw [hs]; rfl
  · unfold mul; dsimp only; rw [hs]
    unfold mk; split <;> rfl

theorem nonneg_dot (l : List (Fin n)) (f : Fin n → F64) (s : F64) (hs : FloatOps.lt s 0 = false) :
    FloatOps.lt (l.foldl (fun s k => s + f k * f k) s) 0 = false := by
  induction l generalizing s with
  | nil => exact hs
  | cons k l ih => exact ih _ (by dsimp only; rw [sq_abs]; exact Signs.add_abs _ _ hs)

/-- C85: `a' * a` and `a * a'` are equal to their transposes, and no entry of the diagonal is negative (it may be NaN). -/
theorem C85_gram (hm : 0 < m) (hn : 0 < n) (A : Matrix (Fin m) (Fin n) F64) :
    (∃ G : Matrix (Fin n) (Fin n) F64, (do let at' ← (ofM A).t; at'.mul (ofM A)) = .ok (ofM G) ∧ (ofM G).t = .ok (ofM G) ∧
      ∀ j, FloatOps.lt (G j j) 0 = false) ∧
    (∃ G : Matrix (Fin m) (Fin m) F64, (do let at' ← (ofM A).t; (ofM A).mul at') = .ok (ofM G) ∧ (ofM G).t = .ok (ofM G) ∧
      ∀ i, FloatOps.lt (G i i) 0 = false) := by
  have h0 : FloatOps.lt (0 : F64) 0 = false := by decide +kernel
  rw [C12_transpose hm, ok_bind, ok_bind, C10_mul_general hn hm, C10_mul_general hm hn]
  refine ⟨⟨_, rfl, ?_, fun j => nonneg_dot _ (fun k => A k j) _ h0⟩, ⟨_, rfl, ?_, fun j => nonneg_dot _ (fun k => A j k) _ h0⟩⟩
  all_goals
    rw [C12_transpose (by assumption)]
    refine ok_ext fun i j => ?_
    simp only [Matrix.transpose_apply, Matrix.of_apply]
    congr 1
    funext s k
    rw [F64.mul_comm]

/-- C85: negation is an involution, `a - b` is `a + (-b)`, scaling by 1 changes nothing, scaling by -1 negates. -/
theorem C85_neg (hm : 0 < m) (A B : Matrix (Fin m) (Fin n) F64) :
    ((ofM A).neg >>= fun x => x.neg) = .ok (ofM A) ∧ (ofM A).sub (ofM B) = ((ofM B).neg >>= fun x => (ofM A).add x) ∧
    (ofM A).scale 1 = .ok (ofM A) ∧ (ofM A).scale (-1) = (ofM A).neg := by
  rw [C08_neg, ok_bind, C08_neg, C08_neg, ok_bind, C08_add hm, C08_sub hm, C08_scale, C08_scale]
  refine ⟨ok_ext fun i j => ?_, ok_ext fun i j => ?_, ok_ext fun i j => ?_,
    ok_ext fun i j => ?_⟩
  · exact F64.neg_neg _
  · rfl
  · exact F64.one_mul _
  · exact F64.neg_one_mul _

theorem agree_dot {l : List (Fin n)} {f g : Fin n → F64} (h : ∀ k, Agree (f k) (-(g k))) {s t : F64} (hs : Agree s (-t)) :
    Agree (l.foldl (fun s k => s + f k) s) (-(l.foldl (fun s k => s + g k) t)) := by
  induction l generalizing s t with
  | nil => exact hs
  | cons k l ih => exact ih ((hs.add (h k)).trans (F64.neg_add _ _))

/-- C85: up to the sign of zeros, `b - a` is `-(a - b)`, and a negated factor negates the product. -/
theorem C85_signs (hm : 0 < m) (hn : 0 < n) (A A' : Matrix (Fin m) (Fin n) F64) (B : Matrix (Fin n) (Fin p) F64) :
    (∃ X Y : Matrix (Fin m) (Fin n) F64, (ofM A').sub (ofM A) = .ok (ofM X) ∧ ((ofM A).sub (ofM A') >>= fun x => x.neg) = .ok (ofM Y) ∧ ∀ i j, Agree (X i j) (Y i j)) ∧
    (∃ X X' Y : Matrix (Fin m) (Fin p) F64, ((ofM A).neg >>= fun x => x.mul (ofM B)) = .ok (ofM X) ∧ ((ofM B).neg >>= fun x => (ofM A).mul x) = .ok (ofM X') ∧
      ((ofM A).mul (ofM B) >>= fun x => x.neg) = .ok (ofM Y) ∧ ∀ i j, Agree (X i j) (Y i j) ∧ Agree (X' i j) (Y i j)) := by
  rw [C08_sub hm, C08_sub hm, ok_bind, C08_neg, C08_neg, C08_neg, ok_bind, ok_bind, C10_mul_general hm hn, C10_mul_general hm hn,
    C10_mul_general hm hn, ok_bind, C08_neg]
  have h0 : Agree 0 (-0) := Or.inr ⟨rfl, rfl⟩
  refine ⟨⟨_, _, rfl, rfl, fun i j => ?_⟩, ⟨_, _, _, rfl, rfl, rfl, fun i j => ⟨?_, ?_⟩⟩⟩
  · have := F64.neg_add (A i j) (-(A' i j))
    rw [F64.neg_neg, F64.add_comm (-(A i j))] at this
    exact this
  · exact agree_dot (fun k => by rw [Matrix.neg_apply, F64.neg_mul]; exact Agree.refl _) h0
  · exact agree_dot (fun k => by rw [Matrix.neg_apply, F64.mul_neg]; exact Agree.refl _) h0

theorem zero_add_add_zero (x : F64) (s : Bool) : 0 + x + zero s = 0 + x := by
  show zero false + x + zero s = zero false + x
  by_cases h : isZero x
  · obtain ⟨t, rfl⟩ := isZero_iff.1 h
    rw [zero_add_zero, zero_add_zero]; rfl
  · have : zero false + x = x := by rw [F64.add_comm, add_zero' x false h]
    rw [this, add_zero' x s h]

theorem fold_zeros (l : List (Fin n)) (f : Fin n → F64) (x : F64) (h : ∀ k ∈ l, isZero (f k)) :
    l.foldl (fun s k => s + f k) (0 + x) = 0 + x := by
  induction l with
  | nil => rfl
  | cons k l ih =>
    obtain ⟨s, hs⟩ := isZero_iff.1 (h k (by simp))
    rw [List.foldl_cons, hs, zero_add_add_zero]
    exact ih fun k hk => h k (by simp [hk])

theorem nan_add (x : F64) : F64.nan + x = .nan := rfl
theorem add_nan (x : F64) : x + F64.nan = .nan := by rw [F64.add_comm]; rfl

theorem fold_nan (l : List (Fin n)) (f : Fin n → F64) : l.foldl (fun s k => s + f k) F64.nan = .nan := by
  induction l with
  | nil => rfl
  | cons k l ih => exact ih

theorem fold_unit (f : Fin n → F64) (j : Fin n) (h : ∀ k, k ≠ j → isZero (f k)) :
    (List.finRange n).foldl (fun s k => s + f k) 0 = 0 + f j := by
  obtain ⟨l1, l2, hl⟩ := List.append_of_mem (List.mem_finRange j)
  have hnd := List.nodup_finRange n
  rw [hl] at hnd ⊢
  rw [List.nodup_append] at hnd
  have h1 : ∀ k ∈ l1, k ≠ j := fun k hk e => hnd.2.2 k hk j (by simp) e
  have h2 : ∀ k ∈ l2, k ≠ j := fun k hk e => by
    have := hnd.2.1
    rw [List.nodup_cons] at this
    exact this.1 (e ▸ hk)
  rw [List.foldl_append, List.foldl_cons]
  have e0 : (0 : F64) = 0 + 0 := by decide +kernel
  have := fold_zeros l1 f 0 fun k hk => h k (h1 k hk)
  rw [← e0] at this
  rw [this]
  exact fold_zeros l2 f (f j) fun k hk => h k (h2 k hk)

theorem fold_has_nan (f : Fin n → F64) (j : Fin n) (h : f j = .nan) : (List.finRange n).foldl (fun s k => s + f k) 0 = .nan := by
  obtain ⟨l1, l2, hl⟩ := List.append_of_mem (List.mem_finRange j)
  rw [hl, List.foldl_append, List.foldl_cons, h, add_nan]
  exact fold_nan _ _

/-- C85: multiplication by the identity: a finite matrix is unchanged except that every `-0` becomes `+0` (`0 + x`); an infinity or NaN
makes every other entry of its row (for `a * id`) or column (for `id * a`) NaN. -/
theorem C85_id (hm : 0 < m) (hn : 0 < n) (A : Matrix (Fin m) (Fin n) F64) :
    (Mat.id n n >>= fun e => (ofM A).mul e) = .ok (ofM (Matrix.of fun i j => if ∀ k, k ≠ j → isFin (A i k) then 0 + A i j else .nan)) ∧
    (Mat.id m m >>= fun e => e.mul (ofM A)) = .ok (ofM (Matrix.of fun i j => if ∀ k, k ≠ i → isFin (A k j) then 0 + A i j else .nan)) := by
  rw [C05_id_square, C05_id_square, ok_bind, ok_bind, C10_mul_general hm hn, C10_mul_general hm hm]
  refine ⟨ok_ext fun i j => ?_, ok_ext fun i j => ?_⟩ <;> simp only [Matrix.of_apply]
  · split
    · next h =>
      rw [fold_unit (fun k => A i k * (1 : Matrix (Fin n) (Fin n) F64) k j) j, Matrix.one_apply_eq, F64.mul_one]
      intro k hk
      rw [Matrix.one_apply_ne hk]
      exact mul_zero' _ _ (h k hk)
    · next h =>
      push Not at h
      obtain ⟨k, hk, h⟩ := h
      refine fold_has_nan (fun k => A i k * (1 : Matrix (Fin n) (Fin n) F64) k j) k ?_
      rw [Matrix.one_apply_ne hk]
      exact mul_zero_nan _ _ h
  · split
    · next h =>
      rw [fold_unit (fun k => (1 : Matrix (Fin m) (Fin m) F64) i k * A k j) i, Matrix.one_apply_eq, F64.one_mul]
      intro k hk
      rw [Matrix.one_apply_ne (Ne.symm hk), F64.mul_comm]
      exact mul_zero' _ _ (h k hk)
    · next h =>
      push Not at h
      obtain ⟨k, hk, h⟩ := h
      refine fold_has_nan (fun k => (1 : Matrix (Fin m) (Fin m) F64) i k * A k j) k ?_
      rw [Matrix.one_apply_ne (Ne.symm hk), F64.mul_comm]
      exact mul_zero_nan _ _ h

theorem sub_self' (x : F64) : x - x = if isFin x then 0 else .nan := by
  show add x (F64.neg x) = _
  rcases x with _ | s | ⟨s, a, ha⟩
  · rfl
  · cases s <;> rfl
  · rw [if_pos (show isFin (.fin s a ha) from trivial)]
    unfold F64.add F64.neg
    dsimp only
    have : sgn s a + sgn (!s) a = 0 := by cases s <;> simp [sgn]
    rw [if_pos this]
    cases s <;> rfl

/-- C85: `a + zero` agrees with `a`; an entry of `a - a` is `+0` if the entry of `a` is finite, NaN otherwise. -/
theorem C85_zero (hm : 0 < m) (A : Matrix (Fin m) (Fin n) F64) :
    (∃ X : Matrix (Fin m) (Fin n) F64, (Mat.zero m n >>= fun z => (ofM A).add z) = .ok (ofM X) ∧ ∀ i j, Agree (X i j) (A i j)) ∧
    (ofM A).sub (ofM A) = .ok (ofM (Matrix.of fun i j => if isFin (A i j) then 0 else .nan)) := by
  rw [C05_zero, ok_bind, C08_add hm, C08_sub hm]
  refine ⟨⟨_, rfl, fun i j => ?_⟩, ok_ext fun i j => ?_⟩
  · show Agree (A i j + zero false) (A i j)
    by_cases h : isZero (A i j)
    · obtain ⟨s, hs⟩ := isZero_iff.1 h
      rw [hs, zero_add_zero]
      exact Or.inr ⟨rfl, rfl⟩
    · rw [add_zero' _ _ h]; exact Agree.refl _
  · exact sub_self' _

end

/-- The laws on `f64` values: 0.1, -0, infinity. -/
def tenth : F64 := F64.ofRat 1 10

/-- `(0.1 -0) * id` is `(0.1 +0)`; `(inf 0.1) * id` is `(inf NaN)`. -/
example : (Mat.id 2 2 >>= fun e => (⟨1, [tenth, F64.zero true]⟩ : Mat F64).mul e) = .ok ⟨1, [tenth, 0]⟩ ∧
    (Mat.id 2 2 >>= fun e => (⟨1, [.inf false, tenth]⟩ : Mat F64).mul e) = .ok ⟨1, [.inf false, .nan]⟩ := by decide +kernel

/-- Associativity is not among the laws: `(0.1 + 0.2) + 0.3 ≠ 0.1 + (0.2 + 0.3)`. -/
example : ((⟨1, [tenth]⟩ : Mat F64).add ⟨1, [F64.ofRat 2 10]⟩ >>= fun x => x.add ⟨1, [F64.ofRat 3 10]⟩) ≠
    ((⟨1, [F64.ofRat 2 10]⟩ : Mat F64).add ⟨1, [F64.ofRat 3 10]⟩ >>= fun x => (⟨1, [tenth]⟩ : Mat F64).add x) := by decide +kernel

/-! ## C88 -/

section
variable {m n p q : Nat} [Zero α] [Add α] [Mul α]

/-- C88: column `j` of `a * b` is `a` times column `j` of `b`. -/
theorem C88_column (hm : 0 < m) (hn : 0 < n) (A : Matrix (Fin m) (Fin n) α) (B : Matrix (Fin n) (Fin p) α) (j : Nat) :
    ((ofM A).mul (ofM B) >>= fun x => x.getColumn j) = ((ofM B).getColumn j >>= fun x => (ofM A).mul x) := by
  rw [C10_mul_general hm hn, ok_bind]
  by_cases hj : j < p
  · have h1 := C19_getColumn hn B ⟨j, hj⟩
    dsimp only at h1
    rw [h1, ok_bind, C10_mul_general hm hn]
    exact C19_getColumn hm _ ⟨j, hj⟩
  · rw [C19_getColumn_panics hm _ j hj, C19_getColumn_panics hn _ j hj]; rfl

/-- C88: selecting rows of a product is multiplying the selected rows. -/
theorem C88_permuteRows (hm : 0 < m) (hn : 0 < n) (A : Matrix (Fin m) (Fin n) α) (B : Matrix (Fin n) (Fin p) α) (is : List Nat) (hi : is ≠ []) :
    ((ofM A).mul (ofM B) >>= fun x => x.permuteRows is) = ((ofM A).permuteRows is >>= fun x => x.mul (ofM B)) := by
  rw [C10_mul_general hm hn, ok_bind]
  by_cases h : ∃ x ∈ is, m ≤ x
  · rw [C20_permuteRows_panics hm _ is h, C20_permuteRows_panics hm _ is h]; rfl
  · have h' : ∀ k (hk : k < is.length), is[k] < m := fun k hk => by
      by_contra hc
      exact h ⟨is[k], List.getElem_mem hk, by omega⟩
    rw [C20_permuteRows hm _ is h', C20_permuteRows hm _ is h', ok_bind, C10_mul_general (List.length_pos_iff.2 hi) hn]
    rfl

/-- C88: selecting columns of a product is multiplying by the selected columns. -/
theorem C88_permuteColumns (hm : 0 < m) (hn : 0 < n) (A : Matrix (Fin m) (Fin n) α) (B : Matrix (Fin n) (Fin p) α) (js : List Nat) :
    ((ofM A).mul (ofM B) >>= fun x => x.permuteColumns js) = ((ofM B).permuteColumns js >>= fun x => (ofM A).mul x) := by
  rw [C10_mul_general hm hn, ok_bind]
  by_cases h : ∃ x ∈ js, p ≤ x
  · rw [C20_permuteColumns_panics hm _ js h, C20_permuteColumns_panics hn _ js h]; rfl
  · have h' : ∀ k (hk : k < js.length), js[k] < p := fun k hk => by
      by_contra hc
      exact h ⟨js[k], List.getElem_mem hk, by omega⟩
    rw [C20_permuteColumns _ js h', C20_permuteColumns _ js h', ok_bind, C10_mul_general hm hn]
    rfl

/-- C88: products of concatenated matrices are concatenated products. -/
theorem C88_blocks (hm : 0 < m) (hn : 0 < n) (hq : 0 < q) (A : Matrix (Fin m) (Fin n) α) (A' : Matrix (Fin q) (Fin n) α)
    (B : Matrix (Fin n) (Fin p) α) (B' : Matrix (Fin n) (Fin q) α) :
    ((ofM A).cb (ofM A') >>= fun x => x.mul (ofM B)) =
      (do let x ← (ofM A).mul (ofM B); let y ← (ofM A').mul (ofM B); x.cb y) ∧
    ((ofM B).cr (ofM B') >>= fun x => (ofM A).mul x) =
      (do let x ← (ofM A).mul (ofM B); let y ← (ofM A).mul (ofM B'); x.cr y) := by
  constructor
  · rw [C15_cb hm hq, ok_bind, C10_mul_general (by omega) hn, C10_mul_general hm hn, C10_mul_general hq hn, ok_bind, ok_bind, C15_cb hm hq]
    refine ok_ext fun i j => ?_
    refine Fin.addCases (fun i => ?_) (fun i => ?_) i
    · simp only [Matrix.of_apply]
      rw [show Fin.append A A' (Fin.castAdd q i) = A i from Fin.append_left A A' i]
      erw [Fin.append_left]
      rfl
    · simp only [Matrix.of_apply]
      rw [show Fin.append A A' (Fin.natAdd m i) = A' i from Fin.append_right A A' i]
      erw [Fin.append_right]
      rfl
  · rw [(C15_cr B B').1, ok_bind, C10_mul_general hm hn, C10_mul_general hm hn, C10_mul_general hm hn, ok_bind, ok_bind, (C15_cr _ _).1]
    refine ok_ext fun i j => ?_
    refine Fin.addCases (fun j => ?_) (fun j => ?_) j
    · simp only [Matrix.of_apply, Fin.append_left]
    · simp only [Matrix.of_apply, Fin.append_right]

/-- C88: an entry of a product depends only on its row of the left and its column of the right factor. -/
theorem C88_local (hm : 0 < m) (hn : 0 < n) (A A' : Matrix (Fin m) (Fin n) α) (B B' : Matrix (Fin n) (Fin p) α) (i : Fin m) (j : Fin p)
    (hA : ∀ k, A i k = A' i k) (hB : ∀ k, B k j = B' k j) :
    ((ofM A).mul (ofM B) >>= fun x => x.get i j) = ((ofM A').mul (ofM B') >>= fun x => x.get i j) := by
  rw [C10_mul_general hm hn, C10_mul_general hm hn, ok_bind, ok_bind, C04_get, C04_get]
  simp only [Matrix.of_apply, hA, hB]

end

/-- Two rows selected out of three. -/
example : ((⟨3, [1, 2, 3, 4, 5, 6]⟩ : Mat Int).mul ⟨2, [1, 1, 1, 0]⟩ >>= fun x => x.permuteRows [2, 0]) = .ok ⟨2, [11, 5, 3, 1]⟩ := by decide

end LA.Props
