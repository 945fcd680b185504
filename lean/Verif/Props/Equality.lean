import Verif.Model.Equality
import Verif.Props.FloatLaws
import Verif.Props.Approx
import Verif.Props.Effects

/-!
# C87: `==` on matrices
-/

namespace LA.Props
open LA F64
set_option linter.unusedSectionVars false
variable {α : Type}

theorem vecEq_iff {eq : α → α → Bool} {xs ys : List α} : vecEq eq xs ys = true ↔ List.Forall₂ (fun x y => eq x y = true) xs ys := by
  induction xs generalizing ys with
  | nil => cases ys <;> simp [vecEq]
  | cons x xs ih => cases ys <;> simp [vecEq, ih]

/-- C87: two matrices are equal if and only if they have the same shape and their entries are equal. -/
theorem C87_iff {m n p q : Nat} (hm : 0 < m) (eq : α → α → Bool) (A : Matrix (Fin m) (Fin n) α) (B : Matrix (Fin p) (Fin q) α) :
    (ofM A).eqWith eq (ofM B) = true ↔ ∃ (h : m = p) (h' : n = q), ∀ i j, eq (A i j) (B (Fin.cast h i) (Fin.cast h' j)) = true := by
  unfold Mat.eqWith
  rw [Bool.and_eq_true, beq_iff_eq, ofM_rows, ofM_rows, vecEq_iff, List.forall₂_iff_get]
  constructor
  · rintro ⟨rfl, h1, h2⟩
    have hnq : n = q := Nat.eq_of_mul_eq_mul_left hm (by rwa [ofM_length, ofM_length] at h1)
    subst hnq
    refine ⟨rfl, rfl, fun i j => ?_⟩
    have hk : i.val * n + j.val < m * n := rm_lt i.2 j.2
    have := h2 (i.val * n + j.val) (by rwa [ofM_length]) (by rwa [ofM_length])
    have e1 : ∀ M : Matrix (Fin m) (Fin n) α, (ofM M).data[i.val * n + j.val]'(by rwa [ofM_length]) = M i j := by
      intro M
      have := idx_ofM M i.2 j.2
      rw [idx_lt (by rwa [ofM_length])] at this
      exact Except.ok.inj this
    simp only [List.get_eq_getElem, e1] at this
    exact this
  · rintro ⟨rfl, rfl, h⟩
    refine ⟨rfl, by rw [ofM_length, ofM_length], fun k h1 h2 => ?_⟩
    rw [ofM_length] at h1
    obtain ⟨i, j, hi, hj, rfl⟩ := rm_surj h1
    have e1 : ∀ M : Matrix (Fin m) (Fin n) α, (ofM M).data[i * n + j]'(by rw [ofM_length]; exact h1) = M ⟨i, hi⟩ ⟨j, hj⟩ := by
      intro M
      have := idx_ofM M hi hj
      rw [idx_lt (by rw [ofM_length]; exact h1)] at this
      exact Except.ok.inj this
    simp only [List.get_eq_getElem, e1]
    exact h ⟨i, hi⟩ ⟨j, hj⟩

/-- C87: for element types whose `==` is identity (integers, `bool`, `char`), two matrices are equal if and only if they are the same value. -/
theorem C87_exact (eq : α → α → Bool) (h : ∀ x y, eq x y = true ↔ x = y) (a b : Mat α) : a.eqWith eq b = true ↔ a = b := by
  unfold Mat.eqWith
  rw [Bool.and_eq_true, beq_iff_eq, vecEq_iff]
  simp only [h, List.forall₂_eq_eq_eq]
  obtain ⟨r, d⟩ := a
  obtain ⟨r', d'⟩ := b
  simp

/-- `==` on `f64`: equal up to the sign of zero, and not NaN. -/
theorem eq_iff_agree (x y : F64) : FloatOps.eq x y = true ↔ Agree x y ∧ x ≠ .nan := by
  have hs : ∀ s t : Bool, sgn s 1 = sgn t 1 ↔ s = t := by decide
  show F64.cmp (fun a b => decide (a = b)) x y = true ↔ _
  rcases x with _ | s | ⟨s, a, ha⟩ <;> rcases y with _ | t | ⟨t, b, hb⟩
  · simp [F64.cmp]
  · simp [F64.cmp]
  · simp [F64.cmp]
  · simp [F64.cmp, Agree, isZero]
  · simp [F64.cmp, Agree, isZero, hs]
  · cases s <;> simp [F64.cmp, Agree, isZero, sgn]
  · simp [F64.cmp, Agree, isZero]
  · cases t <;> simp [F64.cmp, Agree, isZero, sgn]
  · unfold F64.cmp
    dsimp only
    rw [decide_eq_true_iff]
    constructor
    · intro h
      refine ⟨?_, by simp⟩
      by_cases ha0 : a = 0
      · right
        refine ⟨ha0, ?_⟩
        subst ha0
        show b = 0
        cases s <;> cases t <;> simp [sgn] at h <;> omega
      · left
        have hst : s = t ∧ a = b := by cases s <;> cases t <;> simp [sgn] at h ⊢ <;> omega
        obtain ⟨rfl, rfl⟩ := hst
        rfl
    · rintro ⟨h | ⟨h1, h2⟩, -⟩
      · cases h; rfl
      · have h1 : a = 0 := h1
        have h2 : b = 0 := h2
        rw [h1, h2, sgn_zero, sgn_zero]

theorem ofM_cols_inj {m n q : Nat} (hm : 0 < m) {A : Matrix (Fin m) (Fin n) α} {B : Matrix (Fin m) (Fin q) α} (h : ofM A = ofM B) : n = q := by
  have := congrArg Mat.cols h
  rw [ofM_cols A hm, ofM_cols B hm] at this
  exact Except.ok.inj this

section
variable {m n p : Nat}

theorem eq_ofM (hm : 0 < m) (A B : Matrix (Fin m) (Fin n) F64) :
    (ofM A).eq (ofM B) = true ↔ ∀ i j, Agree (A i j) (B i j) ∧ A i j ≠ .nan := by
  unfold Mat.eq
  rw [C87_iff hm]
  constructor
  · rintro ⟨_, _, h⟩ i j
    exact (eq_iff_agree _ _).1 (h i j)
  · intro h
    exact ⟨rfl, rfl, fun i j => (eq_iff_agree _ _).2 (h i j)⟩

/-- C87: a matrix of `f64` is equal to itself (and to its clone) if and only if it has no NaN. -/
theorem C87_refl (hm : 0 < m) (A : Matrix (Fin m) (Fin n) F64) : (ofM A).eq (ofM A) = true ↔ ∀ i j, A i j ≠ .nan := by
  rw [eq_ofM hm]
  exact ⟨fun h i j => (h i j).2, fun h i j => ⟨Agree.refl _, h i j⟩⟩

theorem feq_symm {x y : F64} (h : FloatOps.eq x y = true) : FloatOps.eq y x = true := by
  rw [eq_iff_agree] at h ⊢
  refine ⟨h.1.symm, fun e => h.2 ?_⟩
  rcases h.1 with h1 | ⟨-, h1⟩
  · rw [h1, e]
  · rw [e] at h1; exact h1.elim

/-- C87: equality of matrices of `f64`, of any shapes, is symmetric and transitive. -/
theorem C87_equivalence (a b c : Mat F64) :
    a.eq b = b.eq a ∧ (a.eq b = true → b.eq c = true → a.eq c = true) := by
  have symm : ∀ a b : Mat F64, a.eq b = true → b.eq a = true := by
    intro a b h
    unfold Mat.eq Mat.eqWith at h ⊢
    rw [Bool.and_eq_true, beq_iff_eq, vecEq_iff] at h ⊢
    exact ⟨h.1.symm, h.2.flip.imp fun x y h => feq_symm h⟩
  refine ⟨Bool.eq_iff_iff.2 ⟨symm a b, symm b a⟩, fun h1 h2 => ?_⟩
  unfold Mat.eq Mat.eqWith at h1 h2 ⊢
  rw [Bool.and_eq_true, beq_iff_eq, vecEq_iff] at h1 h2 ⊢
  refine ⟨h1.1.trans h2.1, ?_⟩
  obtain ⟨-, h1⟩ := h1
  obtain ⟨-, h2⟩ := h2
  generalize a.data = x at *
  generalize b.data = y at *
  generalize c.data = z at *
  induction h1 generalizing z with
  | nil => exact h2
  | cons hxy _ ih =>
    cases h2 with
    | cons hyz h2 =>
      refine List.Forall₂.cons ?_ (ih _ h2)
      rw [eq_iff_agree] at hxy hyz ⊢
      exact ⟨hxy.1.trans hyz.1, hxy.2⟩

theorem agree_fold {l : List (Fin n)} {f g : Fin n → F64} (h : ∀ k, Agree (f k) (g k)) {s t : F64} (hs : Agree s t) :
    Agree (l.foldl (fun s k => s + f k) s) (l.foldl (fun s k => s + g k) t) := by
  induction l generalizing s t with
  | nil => exact hs
  | cons k l ih => exact ih (hs.add (h k))

/-- C87: equal operands give equal results: for `+`, `-`, `elem_mul`, `scale`, negation and `*` of `f64` matrices, a result without NaN is
equal to the result for equal operands. -/
theorem C87_congr (hm : 0 < m) (hn : 0 < n) (A A' B B' : Matrix (Fin m) (Fin n) F64) (C C' : Matrix (Fin n) (Fin p) F64) (k k' : F64)
    (hA : (ofM A).eq (ofM A') = true) (hB : (ofM B).eq (ofM B') = true) (hC : (ofM C).eq (ofM C') = true) (hk : FloatOps.eq k k' = true) :
    (∀ {q : Nat} (X Y : Matrix (Fin m) (Fin q) F64),
      ((ofM A).add (ofM B) = .ok (ofM X) ∧ (ofM A').add (ofM B') = .ok (ofM Y) ∨
        (ofM A).sub (ofM B) = .ok (ofM X) ∧ (ofM A').sub (ofM B') = .ok (ofM Y) ∨
        (ofM A).elemMul (ofM B) = .ok (ofM X) ∧ (ofM A').elemMul (ofM B') = .ok (ofM Y) ∨
        (ofM A).scale k = .ok (ofM X) ∧ (ofM A').scale k' = .ok (ofM Y) ∨
        (ofM A).neg = .ok (ofM X) ∧ (ofM A').neg = .ok (ofM Y) ∨
        (ofM A).mul (ofM C) = .ok (ofM X) ∧ (ofM A').mul (ofM C') = .ok (ofM Y)) →
      (∀ i j, X i j ≠ .nan) → (ofM X).eq (ofM Y) = true) := by
  intro q X Y h hX
  rw [eq_ofM hm] at hA hB ⊢
  rw [eq_ofM hn] at hC
  rw [eq_iff_agree] at hk
  refine fun i j => ⟨?_, hX i j⟩
  rw [C08_add hm, C08_add hm, C08_sub hm, C08_sub hm, C08_elemMul hm, C08_elemMul hm, C08_scale, C08_scale, C08_neg, C08_neg,
    C10_mul_general hm hn, C10_mul_general hm hn] at h
  rcases h with ⟨h1, h2⟩ | ⟨h1, h2⟩ | ⟨h1, h2⟩ | ⟨h1, h2⟩ | ⟨h1, h2⟩ | ⟨h1, h2⟩ <;>
    have h1 := Except.ok.inj h1 <;> have h2 := Except.ok.inj h2 <;> obtain rfl := ofM_cols_inj hm h1 <;> have h1 := ofM_inj h1 <;>
    have h2 := ofM_inj h2 <;> subst h1 <;> subst h2
  · exact (hA i j).1.add (hB i j).1
  · exact (hA i j).1.sub (hB i j).1
  · exact (hA i j).1.mul (hB i j).1
  · exact hk.1.mul (hA i j).1
  · exact (hA i j).1.neg
  · exact agree_fold (fun k => (hA i k).1.mul (hC k j).1) (Agree.refl _)

/-- C87: equal finite matrices are approximately equal. -/
theorem C87_approxEq (hm : 0 < m) (A B : Matrix (Fin m) (Fin n) F64) (h : (ofM A).eq (ofM B) = true) (hA : ∀ i j, isFin (A i j)) :
    (ofM A).approxEq (ofM B) = .ok true := by
  rw [eq_ofM hm] at h
  refine (C76_approxEq hm A B).2 fun i j => ⟨hA i j, ?_⟩
  rcases (h i j).1 with h1 | ⟨h1, h2⟩
  · rw [← h1, sub_self, abs_zero]
    exact ⟨hA i j, by norm_num⟩
  · obtain ⟨s, h1⟩ := isZero_iff.1 h1
    obtain ⟨t, h2⟩ := isZero_iff.1 h2
    rw [h1, h2, zero_toReal, zero_toReal, sub_self, abs_zero]
    exact ⟨trivial, by norm_num⟩

/-- C87: `elem_div` is not among these operations: equal divisors (`0` and `-0`) give different quotients. -/
theorem C87_division :
    (⟨1, [0]⟩ : Mat F64).eq ⟨1, [-0]⟩ = true ∧ (⟨1, [1]⟩ : Mat F64).elemDiv ⟨1, [0]⟩ = .ok ⟨1, [.inf false]⟩ ∧
    (⟨1, [1]⟩ : Mat F64).elemDiv ⟨1, [-0]⟩ = .ok ⟨1, [.inf true]⟩ ∧ (⟨1, [.inf false]⟩ : Mat F64).eq ⟨1, [.inf true]⟩ = false := by
  decide +kernel

end

/-- Equal matrices of different bits, equal to themselves or not, of different shapes. -/
example : (⟨2, [1, 0]⟩ : Mat F64).eq ⟨2, [1, -0]⟩ = true ∧ (⟨2, [1, .nan]⟩ : Mat F64).eq ⟨2, [1, .nan]⟩ = false ∧
    (⟨2, [1, 0]⟩ : Mat F64).eq ⟨1, [1, 0]⟩ = false := by decide +kernel

end LA.Props
