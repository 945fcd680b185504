import Verif.Model.Integers
import Verif.Props.Unwind

/-!
# C84: matrices of integers
-/

namespace LA.Props
open LA Act
set_option linter.unusedSectionVars false
variable {σ α β : Type}

/-- `wrap` is the value in range that is congruent modulo `2^bits`. -/
theorem wrap_spec (t : IntTy) (z : Int) : t.InRange (t.wrap z) ∧ t.wrap z ≡ z [ZMOD 2 ^ (t.bits + 1)] := by
  have hp : (0 : Int) < 2 ^ t.bits := by positivity
  have he : (2 : Int) ^ (t.bits + 1) = 2 * 2 ^ t.bits := by ring
  unfold IntTy.InRange IntTy.wrap
  split
  · have h1 := Int.emod_nonneg (z + 2 ^ t.bits) (b := 2 ^ (t.bits + 1)) (by positivity)
    have h2 := Int.emod_lt_of_pos (z + 2 ^ t.bits) (b := 2 ^ (t.bits + 1)) (by positivity)
    refine ⟨⟨by linarith, by linarith⟩, ?_⟩
    have : (z + 2 ^ t.bits) % 2 ^ (t.bits + 1) ≡ z + 2 ^ t.bits [ZMOD 2 ^ (t.bits + 1)] := Int.mod_modEq _ _
    have h := this.sub (Int.ModEq.refl (2 ^ t.bits))
    simpa using h
  · exact ⟨⟨Int.emod_nonneg _ (by positivity), Int.emod_lt_of_pos _ (by positivity)⟩, Int.mod_modEq _ _⟩

/-- Values in range that are congruent are equal. -/
theorem inRange_unique (t : IntTy) {x y : Int} (hx : t.InRange x) (hy : t.InRange y) (h : x ≡ y [ZMOD 2 ^ (t.bits + 1)]) : x = y := by
  have he : (2 : Int) ^ (t.bits + 1) = 2 * 2 ^ t.bits := by ring
  have hd := h.dvd
  have : |y - x| < 2 ^ (t.bits + 1) := by
    unfold IntTy.InRange at hx hy
    rw [abs_lt]
    split at hx
    · rw [if_pos (by assumption)] at hy; constructor <;> linarith [hx.1, hx.2, hy.1, hy.2]
    · rw [if_neg (by assumption)] at hy; constructor <;> linarith [hx.1, hx.2, hy.1, hy.2]
  have := Int.eq_zero_of_abs_lt_dvd hd this
  linarith

theorem wrap_eq (t : IntTy) {x y : Int} (h : x ≡ y [ZMOD 2 ^ (t.bits + 1)]) : t.wrap x = t.wrap y :=
  inRange_unique t (wrap_spec t x).1 (wrap_spec t y).1 (((wrap_spec t x).2.trans h).trans (wrap_spec t y).2.symm)

theorem wrap_of_inRange (t : IntTy) {x : Int} (h : t.InRange x) : t.wrap x = x :=
  inRange_unique t (wrap_spec t x).1 h (wrap_spec t x).2

open Classical in
/-- The value if a condition holds, the overflow panic otherwise. -/
noncomputable def checked (c : Prop) (x : β) : R β := if c then .ok x else .error .arith

theorem checked_pos {c : Prop} {x : β} (h : c) : checked c x = .ok x := by unfold checked; rw [if_pos h]
theorem checked_neg {c : Prop} {x : β} (h : ¬ c) : checked c x = .error .arith := by unfold checked; rw [if_neg h]

/-- A sequence of operations with checks: all results, or the panic of the first that does not fit. -/
theorem mapM_checked {γ : Type} (l : List γ) (ok : γ → Prop) [DecidablePred ok] (g : γ → Int) :
    (l.mapM (fun x => lift (if ok x then .ok (g x) else .error .arith)) : Act σ (List Int)) =
      lift (if ∀ x ∈ l, ok x then .ok (l.map g) else .error .arith) := by
  induction l with
  | nil => rfl
  | cons x l ih =>
    rw [List.mapM_cons]
    by_cases h : ok x
    · rw [if_pos h, lift_ok_bind, ih]
      by_cases h2 : ∀ x ∈ l, ok x
      · rw [if_pos h2, if_pos (by simpa using ⟨h, h2⟩)]; rfl
      · rw [if_neg h2, if_neg (by simpa using fun _ => by simpa using h2)]; rfl
    · rw [if_neg h, if_neg (by simp [h])]; rfl

theorem mapM_checked' {γ : Type} (l : List γ) (ok : γ → Prop) (g : γ → Int) :
    (l.mapM (fun x => lift (checked (ok x) (g x))) : Act σ (List Int)) = lift (checked (∀ x ∈ l, ok x) (l.map g)) := by
  unfold checked
  classical
  refine Eq.trans ?_ ((mapM_checked (σ := σ) l ok g).trans ?_) <;> congr

theorem mapM_pure {γ : Type} (l : List γ) (g : γ → β) : (l.mapM (fun x => pure (g x)) : Act σ (List β)) = pure (l.map g) := by
  induction l with
  | nil => rfl
  | cons x l ih => rw [List.mapM_cons, pure_bind, ih]; rfl

theorem ofM_map {m n : Nat} (A : Matrix (Fin m) (Fin n) α) (g : α → β) : (ofM A).data.map g = (ofM (fun i j => g (A i j))).data := by
  unfold ofM
  simp [List.map_flatten, List.map_ofFn, Function.comp_def]

theorem ofM_mem {m n : Nat} (A : Matrix (Fin m) (Fin n) α) (P : α → Prop) : (∀ x ∈ (ofM A).data, P x) ↔ ∀ i j, P (A i j) := by
  unfold ofM
  constructor
  · intro h i j
    refine h _ ?_
    simp only [List.mem_flatten, List.mem_ofFn]
    exact ⟨_, ⟨i, rfl⟩, by simp⟩
  · rintro h x hx
    simp only [List.mem_flatten, List.mem_ofFn] at hx
    obtain ⟨l, ⟨i, rfl⟩, hx⟩ := hx
    simp only [List.mem_ofFn] at hx
    obtain ⟨j, rfl⟩ := hx
    exact h i j

theorem ofM_zip {m n : Nat} (A B : Matrix (Fin m) (Fin n) α) : (ofM A).data.zip (ofM B).data = (ofM (Matrix.of fun i j => (A i j, B i j))).data :=
  (List.zip_of_prod (ofM_map (Matrix.of fun i j => (A i j, B i j)) Prod.fst) (ofM_map (Matrix.of fun i j => (A i j, B i j)) Prod.snd)).symm

theorem checked_unary {m n : Nat} (A : Matrix (Fin m) (Fin n) α) (ok : α → Prop) [DecidablePred ok] (g : α → Int) :
    (do return ⟨m, ← (ofM A).data.mapM fun x => lift (if ok x then .ok (g x) else .error .arith)⟩ : Act σ (Mat Int)) =
      lift (checked (∀ i j, ok (A i j)) (ofM (Matrix.of fun i j => g (A i j)))) := by
  rw [mapM_checked]
  have h := ofM_mem A ok
  by_cases h2 : ∀ i j, ok (A i j)
  · rw [checked_pos h2, if_pos (h.2 h2), ofM_map]; rfl
  · rw [checked_neg h2, if_neg (fun h3 => h2 (h.1 h3))]; rfl

theorem wrapped_unary {m n : Nat} (A : Matrix (Fin m) (Fin n) α) (g : α → Int) :
    (do return ⟨m, ← (ofM A).data.mapM fun x => pure (g x)⟩ : Act σ (Mat Int)) = pure (ofM (Matrix.of fun i j => g (A i j))) := by
  rw [mapM_pure, ofM_map]; rfl

theorem checked_binary {m n : Nat} (A B : Matrix (Fin m) (Fin n) α) (ok : α → α → Prop) [∀ x y, Decidable (ok x y)] (g : α → α → Int) :
    (do return ⟨m, ← ((ofM A).data.zip (ofM B).data).mapM fun p => lift (if ok p.1 p.2 then .ok (g p.1 p.2) else .error .arith)⟩ : Act σ (Mat Int)) =
      lift (checked (∀ i j, ok (A i j) (B i j)) (ofM (Matrix.of fun i j => g (A i j) (B i j)))) := by
  rw [ofM_zip]
  exact checked_unary (Matrix.of fun i j => (A i j, B i j)) (fun p => ok p.1 p.2) (fun p => g p.1 p.2)

theorem wrapped_binary {m n : Nat} (A B : Matrix (Fin m) (Fin n) α) (g : α → α → Int) :
    (do return ⟨m, ← ((ofM A).data.zip (ofM B).data).mapM fun p => pure (g p.1 p.2)⟩ : Act σ (Mat Int)) =
      pure (ofM (Matrix.of fun i j => g (A i j) (B i j))) := by
  rw [ofM_zip]
  exact wrapped_unary (Matrix.of fun i j => (A i j, B i j)) (fun p => g p.1 p.2)

/-- C84: debug builds: `+`, `-`, `elem_mul`, negation and `scale` of integer matrices give the exact result if all its entries fit in the
type, and panic otherwise. -/
theorem C84_debug {m n : Nat} (t : IntTy) (hm : 0 < m) (A B : Matrix (Fin m) (Fin n) Int) (k : Int) :
    letI : ElemOps σ Int := t.ops .debug
    (ofM A).addA (ofM B) = (lift (checked (∀ i j, t.InRange (A i j + B i j)) (ofM (A + B))) : Act σ (Mat Int)) ∧
    (ofM A).subA (ofM B) = (lift (checked (∀ i j, t.InRange (A i j - B i j)) (ofM (A - B))) : Act σ (Mat Int)) ∧
    (ofM A).elemMulA (ofM B) =
      (lift (checked (∀ i j, t.InRange (A i j * B i j)) (ofM (Matrix.of fun i j => A i j * B i j))) : Act σ (Mat Int)) ∧
    (ofM A).negA = (lift (checked (∀ i j, t.InRange (-A i j)) (ofM (-A))) : Act σ (Mat Int)) ∧
    (ofM A).scaleA k = (lift (checked (∀ i j, t.InRange (k * A i j)) (ofM (k • A))) : Act σ (Mat Int)) := by
  letI : ElemOps σ Int := t.ops .debug
  obtain ⟨h1, h2, h3, -⟩ := C83_binary (σ := σ) hm A B
  obtain ⟨h4, h5⟩ := C83_entrywise (σ := σ) (ofM A) k
  exact ⟨h1.trans (checked_binary A B (fun x y => t.InRange (x + y)) fun x y => x + y),
    h2.trans (checked_binary A B (fun x y => t.InRange (x - y)) fun x y => x - y),
    h3.trans (checked_binary A B (fun x y => t.InRange (x * y)) fun x y => x * y),
    h4.trans (checked_unary A (fun x => t.InRange (-x)) fun x => -x),
    h5.trans (checked_unary A (fun x => t.InRange (k * x)) fun x => k * x)⟩

/-- C84: release builds: the results wrap entry by entry. -/
theorem C84_release {m n : Nat} (t : IntTy) (hm : 0 < m) (A B : Matrix (Fin m) (Fin n) Int) (k : Int) :
    letI : ElemOps σ Int := t.ops .release
    (ofM A).addA (ofM B) = (pure (ofM (Matrix.of fun i j => t.wrap (A i j + B i j))) : Act σ (Mat Int)) ∧
    (ofM A).subA (ofM B) = (pure (ofM (Matrix.of fun i j => t.wrap (A i j - B i j))) : Act σ (Mat Int)) ∧
    (ofM A).elemMulA (ofM B) = (pure (ofM (Matrix.of fun i j => t.wrap (A i j * B i j))) : Act σ (Mat Int)) ∧
    (ofM A).negA = (pure (ofM (Matrix.of fun i j => t.wrap (-A i j))) : Act σ (Mat Int)) ∧
    (ofM A).scaleA k = (pure (ofM (Matrix.of fun i j => t.wrap (k * A i j))) : Act σ (Mat Int)) := by
  letI : ElemOps σ Int := t.ops .release
  obtain ⟨h1, h2, h3, -⟩ := C83_binary (σ := σ) hm A B
  obtain ⟨h4, h5⟩ := C83_entrywise (σ := σ) (ofM A) k
  exact ⟨h1.trans (wrapped_binary A B fun x y => t.wrap (x + y)), h2.trans (wrapped_binary A B fun x y => t.wrap (x - y)),
    h3.trans (wrapped_binary A B fun x y => t.wrap (x * y)), h4.trans (wrapped_unary A fun x => t.wrap (-x)),
    h5.trans (wrapped_unary A fun x => t.wrap (k * x))⟩

/-- C84: `elem_div`, in both builds: the quotients truncated towards zero if no divisor is zero and no quotient overflows (`MIN / -1`);
otherwise it panics. -/
theorem C84_div {m n : Nat} (t : IntTy) (mode : Mode) (hm : 0 < m) (A B : Matrix (Fin m) (Fin n) Int) :
    letI : ElemOps σ Int := t.ops mode
    (ofM A).elemDivA (ofM B) = (lift (checked (∀ i j, B i j ≠ 0 ∧ t.InRange ((A i j).tdiv (B i j))) (ofM (Matrix.of fun i j => (A i j).tdiv (B i j)))) : Act σ (Mat Int)) := by
  letI : ElemOps σ Int := t.ops mode
  obtain ⟨-, -, -, h⟩ := C83_binary (σ := σ) hm A B
  refine h.trans (Eq.trans ?_ (checked_binary A B (fun x y => y ≠ 0 ∧ t.InRange (x.tdiv y)) fun x y => x.tdiv y))
  congr 2
  funext p
  show IntTy.quotient t p.1 p.2 = _
  unfold IntTy.quotient
  by_cases h0 : p.2 = 0
  · simp [h0]
  · simp [h0]

/-- The sum of the first products of row `i` and column `j`. -/
def partialSum {m n q : Nat} (A : Matrix (Fin m) (Fin n) Int) (B : Matrix (Fin n) (Fin q) Int) (i : Fin m) (j : Fin q) (k : Fin n) : Int :=
  ∑ l ∈ Finset.Iic k, A i l * B l j

theorem result_debug (t : IntTy) (z : Int) : (t.result .debug z : Act σ Int) = lift (if t.InRange z then .ok z else .error .arith) := rfl

theorem dot_debug (t : IntTy) (n : Nat) (f : Fin n → Int) :
    ((List.finRange n).foldlM (fun res k => do let x ← t.result .debug (f k); t.result .debug (res + x)) 0 : Act σ Int) =
      lift (checked (∀ k, t.InRange (f k) ∧ t.InRange (∑ l ∈ Finset.Iic k, f l)) (∑ k, f k)) := by
  induction n with
  | zero => rw [checked_pos (fun k => k.elim0)]; rfl
  | succ n ih =>
    have hlast : ∑ l ∈ Finset.Iic (Fin.last n), f l = ∑ k, f k := by
      congr 1; ext l; simp [Fin.le_last]
    have hcast : ∀ k : Fin n, ∑ l ∈ Finset.Iic k.castSucc, f l = ∑ l ∈ Finset.Iic k, f l.castSucc := by
      intro k
      rw [← Fin.map_castSuccEmb_Iic, Finset.sum_map]; rfl
    rw [List.finRange_succ_last, List.foldlM_append, List.foldlM_map, ih]
    by_cases h1 : ∀ k : Fin n, t.InRange (f k.castSucc) ∧ t.InRange (∑ l ∈ Finset.Iic k, f l.castSucc)
    swap
    · rw [checked_neg h1, checked_neg]
      · rfl
      · exact fun h => h1 fun k => by rw [← hcast]; exact h k.castSucc
    rw [checked_pos h1, lift_ok_bind, List.foldlM_cons]
    simp only [result_debug]
    by_cases h2 : t.InRange (f (Fin.last n))
    swap
    · rw [if_neg h2, checked_neg]
      · rfl
      · exact fun h => h2 (h (Fin.last n)).1
    rw [if_pos h2, lift_ok_bind, ← Fin.sum_univ_castSucc]
    by_cases h3 : t.InRange (∑ k, f k)
    swap
    · rw [if_neg h3, checked_neg]
      · rfl
      · exact fun h => h3 (by rw [← hlast]; exact (h (Fin.last n)).2)
    rw [if_pos h3, checked_pos]
    · rfl
    · intro k
      refine Fin.lastCases ⟨h2, by rw [hlast]; exact h3⟩ (fun k => ⟨(h1 k).1, by rw [hcast]; exact (h1 k).2⟩) k

theorem dot_release (t : IntTy) (n : Nat) (f : Fin n → Int) :
    ((List.finRange n).foldlM (fun res k => do let x ← t.result .release (f k); t.result .release (res + x)) 0 : Act σ Int) =
      pure (t.wrap (∑ k, f k)) := by
  induction n with
  | zero =>
    have : t.wrap 0 = 0 := wrap_of_inRange t (by unfold IntTy.InRange; split <;> exact ⟨by simp, by positivity⟩)
    simp [this]
  | succ n ih =>
    rw [List.finRange_succ_last, List.foldlM_append, List.foldlM_map, ih, pure_bind, List.foldlM_cons]
    unfold IntTy.result
    rw [pure_bind, pure_bind, List.foldlM_nil, Fin.sum_univ_castSucc]
    congr 1
    exact wrap_eq t ((wrap_spec t _).2.add (wrap_spec t _).2)

theorem product_map {m q : Nat} (g : Fin m → Fin q → α) : (List.finRange m ×ˢ List.finRange q).map (fun p => g p.1 p.2) = (ofM (Matrix.of g)).data := by
  unfold ofM
  simp [SProd.sprod, List.product, List.map_flatMap, List.flatMap_def, List.ofFn_eq_map, Function.comp_def]

/-- C84: the product, debug builds: the exact product if every product of entries and every partial sum (from the left) fits in the type;
otherwise it panics. -/
theorem C84_mul_debug {m n q : Nat} (t : IntTy) (hm : 0 < m) (hn : 0 < n) (A : Matrix (Fin m) (Fin n) Int) (B : Matrix (Fin n) (Fin q) Int) :
    letI : ElemOps σ Int := t.ops .debug
    (ofM A).mulA (ofM B) = (lift (checked (∀ i j k, t.InRange (A i k * B k j) ∧ t.InRange (partialSum A B i j k)) (ofM (A * B))) : Act σ (Mat Int)) := by
  letI : ElemOps σ Int := t.ops .debug
  refine ((C83_mul (σ := σ) hm hn A B).1 rfl).trans ?_
  have h1 : ∀ ij : Fin m × Fin q, ((List.finRange n).foldlM (fun res k => do
      let x ← ElemOps.mul (A ij.1 k) (B (Fin.cast rfl k) ij.2)
      ElemOps.add res x) (ElemOps.zero σ) : Act σ Int) =
      lift (checked (∀ k, t.InRange (A ij.1 k * B k ij.2) ∧ t.InRange (partialSum A B ij.1 ij.2 k)) ((A * B) ij.1 ij.2)) := by
    intro ij
    exact dot_debug t n fun k => A ij.1 k * B k ij.2
  simp only [h1]
  have h2 := mapM_checked' (σ := σ) (List.finRange m ×ˢ List.finRange q)
    (fun ij => ∀ k, t.InRange (A ij.1 k * B k ij.2) ∧ t.InRange (partialSum A B ij.1 ij.2 k)) (fun ij => (A * B) ij.1 ij.2)
  rw [h2, product_map fun i j => (A * B) i j]
  by_cases h3 : ∀ i j k, t.InRange (A i k * B k j) ∧ t.InRange (partialSum A B i j k)
  · rw [checked_pos h3, checked_pos fun (ij : Fin m × Fin q) _ => h3 ij.1 ij.2]; rfl
  · rw [checked_neg h3, checked_neg fun h => h3 fun i j k => h (i, j) (by simp) k]; rfl

/-- C84: the product, release builds: the exact product, wrapped; intermediate overflow does not matter. -/
theorem C84_mul_release {m n q : Nat} (t : IntTy) (hm : 0 < m) (hn : 0 < n) (A : Matrix (Fin m) (Fin n) Int) (B : Matrix (Fin n) (Fin q) Int) :
    letI : ElemOps σ Int := t.ops .release
    (ofM A).mulA (ofM B) = (pure (ofM (Matrix.of fun i j => t.wrap ((A * B) i j))) : Act σ (Mat Int)) := by
  letI : ElemOps σ Int := t.ops .release
  refine ((C83_mul (σ := σ) hm hn A B).1 rfl).trans ?_
  have h1 : ∀ ij : Fin m × Fin q, ((List.finRange n).foldlM (fun res k => do
      let x ← ElemOps.mul (A ij.1 k) (B (Fin.cast rfl k) ij.2)
      ElemOps.add res x) (ElemOps.zero σ) : Act σ Int) = pure (t.wrap ((A * B) ij.1 ij.2)) := by
    intro ij
    exact dot_release t n fun k => A ij.1 k * B k ij.2
  simp only [h1]
  rw [mapM_pure, product_map fun i j => t.wrap ((A * B) i j)]
  rfl

/-- `i8`: `[[100, 1]] + [[27, 2]]` fits; `[[100, 1]] + [[28, 2]]` panics in debug builds and wraps in release builds. -/
example :
    (letI : ElemOps Unit Int := (⟨true, 7⟩ : IntTy).ops .debug
     (Mat.addA (⟨1, [100, 1]⟩ : Mat Int) ⟨1, [27, 2]⟩ () = (.ok ⟨1, [127, 3]⟩, ())) ∧
     (Mat.addA (⟨1, [100, 1]⟩ : Mat Int) ⟨1, [28, 2]⟩ () = (.error .arith, ()))) ∧
    (letI : ElemOps Unit Int := (⟨true, 7⟩ : IntTy).ops .release
     Mat.addA (⟨1, [100, 1]⟩ : Mat Int) ⟨1, [28, 2]⟩ () = (.ok ⟨1, [-128, 3]⟩, ())) := by
  decide +kernel

/-- `i8`: `[[100, 100, -100]] * [[1], [1], [1]]` is 100, but the partial sum 200 does not fit: a panic in debug builds, 100 in release
builds.  Adding in another order would not panic: the condition of `C84_mul_debug` is about the partial sums from the left. -/
example :
    (letI : ElemOps Unit Int := (⟨true, 7⟩ : IntTy).ops .debug
     (Mat.mulA (⟨1, [100, 100, -100]⟩ : Mat Int) ⟨3, [1, 1, 1]⟩ () = (.error .arith, ())) ∧
     (Mat.mulA (⟨1, [100, -100, 100]⟩ : Mat Int) ⟨3, [1, 1, 1]⟩ () = (.ok ⟨1, [100]⟩, ()))) ∧
    (letI : ElemOps Unit Int := (⟨true, 7⟩ : IntTy).ops .release
     Mat.mulA (⟨1, [100, 100, -100]⟩ : Mat Int) ⟨3, [1, 1, 1]⟩ () = (.ok ⟨1, [100]⟩, ())) := by
  decide +kernel

/-- `i8`: `[[-7, 7]] / [[2, 0]]` panics, `[[-128]] / [[-1]]` panics, in a release build; `[[-7]] / [[2]]` is `[[-3]]`. -/
example :
    letI : ElemOps Unit Int := (⟨true, 7⟩ : IntTy).ops .release
    (Mat.elemDivA (⟨1, [-7, 7]⟩ : Mat Int) ⟨1, [2, 0]⟩ () = (.error .arith, ())) ∧
    (Mat.elemDivA (⟨1, [-128]⟩ : Mat Int) ⟨1, [-1]⟩ () = (.error .arith, ())) ∧
    (Mat.elemDivA (⟨1, [-7]⟩ : Mat Int) ⟨1, [2]⟩ () = (.ok ⟨1, [-3]⟩, ())) := by
  decide +kernel

end LA.Props
