import Verif.Proofs.F64Alg
import Mathlib.Algebra.Group.Int.Units

/-! # Operations of `F64` on numbers that are equal up to sign -/

namespace LA.F64
set_option linter.unusedSectionVars false

theorem div_fin (s t : Bool) (a b : Nat) (ha : rep a = true) (hb : rep b = true) : div (.fin s a ha) (.fin t b hb) =
    if b = 0 then (if a = 0 then .nan else .inf (s != t)) else mk (s != t) (a * 2 ^ 1074) b := rfl

theorem neg_fin (s : Bool) (a : Nat) (ha : rep a = true) : -(F64.fin s a ha) = .fin (!s) a ha := rfl
theorem neg_inf (s : Bool) : -(F64.inf s) = .inf (!s) := rfl
theorem neg_nan : -F64.nan = F64.nan := rfl
theorem neg_zero (s : Bool) : -zero s = zero (!s) := rfl
theorem div_nan (x : F64) : div x .nan = .nan := by rcases x with _ | s | ⟨s, a, ha⟩ <;> rfl
theorem nan_div (x : F64) : div .nan x = .nan := rfl
theorem inf_inf (s t : Bool) : div (.inf s) (.inf t) = .nan := rfl
theorem inf_fin (s t : Bool) (b : Nat) (hb : rep b = true) : div (.inf s) (.fin t b hb) = .inf (s != t) := rfl
theorem fin_inf (s t : Bool) (a : Nat) (ha : rep a = true) : div (.fin s a ha) (.inf t) = zero (s != t) := rfl

theorem div_neg_left (x y : F64) : div (-x) y = -div x y := by
  have hb : ∀ s t : Bool, ((!s) != t) = !(s != t) := by decide
  rcases x with _ | s | ⟨s, a, ha⟩ <;> rcases y with _ | t | ⟨t, b, hb'⟩
  · rw [neg_nan, nan_div, neg_nan]
  · rw [neg_nan, nan_div, neg_nan]
  · rw [neg_nan, nan_div, neg_nan]
  · rw [div_nan, div_nan, neg_nan]
  · rw [neg_inf, inf_inf, inf_inf, neg_nan]
  · rw [neg_inf, inf_fin, inf_fin, neg_inf, hb]
  · rw [div_nan, div_nan, neg_nan]
  · rw [neg_fin, fin_inf, fin_inf, neg_zero, hb]
  · rw [neg_fin, div_fin, div_fin, hb]
    by_cases h : b = 0
    · rw [if_pos h, if_pos h]
      by_cases h' : a = 0
      · rw [if_pos h', if_pos h', neg_nan]
      · rw [if_neg h', if_neg h', neg_inf]
    · rw [if_neg h, if_neg h, mk_neg]

theorem div_neg_right (x y : F64) : div x (-y) = -div x y := by
  have hb : ∀ s t : Bool, (s != (!t)) = !(s != t) := by decide
  rcases x with _ | s | ⟨s, a, ha⟩ <;> rcases y with _ | t | ⟨t, b, hb'⟩
  · rw [neg_nan, nan_div, neg_nan]
  · rw [nan_div, nan_div, neg_nan]
  · rw [nan_div, nan_div, neg_nan]
  · rw [neg_nan, div_nan, neg_nan]
  · rw [neg_inf, inf_inf, inf_inf, neg_nan]
  · rw [neg_fin, inf_fin, inf_fin, neg_inf, hb]
  · rw [neg_nan, div_nan, neg_nan]
  · rw [neg_inf, fin_inf, fin_inf, neg_zero, hb]
  · rw [neg_fin, div_fin, div_fin, hb]
    by_cases h : b = 0
    · rw [if_pos h, if_pos h]
      by_cases h' : a = 0
      · rw [if_pos h', if_pos h', neg_nan]
      · rw [if_neg h', if_neg h', neg_inf]
    · rw [if_neg h, if_neg h, mk_neg]

theorem Agree.nonzero {y y' : F64} (h : Agree y y') (hy : ¬ isZero y) : y = y' := h.elim id fun h => absurd h.1 hy

theorem zero_div {y : F64} (s : Bool) (hy : ¬ isZero y) : isZero (div (zero s) y) ∨ div (zero s) y = .nan := by
  rcases y with _ | t | ⟨t, b, hb⟩
  · exact Or.inr rfl
  · exact Or.inl rfl
  · left
    have hb0 : b ≠ 0 := hy
    unfold div zero
    dsimp only
    rw [if_neg hb0, Nat.zero_mul, mk_zero _ (Nat.pos_of_ne_zero hb0)]
    rfl

theorem zero_div_nan {y : F64} {s : Bool} (t : Bool) (h : div (zero s) y = .nan) (hy : ¬ isZero y) : div (zero t) y = .nan := by
  rcases y with _ | u | ⟨u, b, hb⟩
  · rfl
  · cases h
  · have hb0 : b ≠ 0 := hy
    unfold div zero at h
    dsimp only at h
    rw [if_neg hb0, Nat.zero_mul, mk_zero _ (Nat.pos_of_ne_zero hb0)] at h
    cases h

theorem Agree.div {x y x' y' : F64} (h : Agree x x') (h' : Agree y y') (hy : ¬ isZero y) : Agree (div x y) (div x' y') := by
  obtain rfl := h'.nonzero hy
  rcases h with rfl | ⟨h1, h2⟩
  · exact Or.inl rfl
  · obtain ⟨s, rfl⟩ := isZero_iff.1 h1
    obtain ⟨t, rfl⟩ := isZero_iff.1 h2
    rcases zero_div s hy with a | a
    · rcases zero_div t hy with b | b
      · exact Or.inr ⟨a, b⟩
      · rw [zero_div_nan s b hy] at a; cases a
    · rw [a, zero_div_nan t a hy]; exact Or.inl rfl

/-- `x` or `-x`. -/
def sg (g : ℤˣ) (x : F64) : F64 := if g = 1 then x else -x

/-- `y` is `x` (`g = 1`) or `-x` (`g = -1`), up to the sign of zero. -/
def SA (g : ℤˣ) (x y : F64) : Prop := Agree y (sg g x)

theorem SA.refl (x : F64) : SA 1 x x := by unfold SA sg; rw [if_pos rfl]; exact Agree.refl x

theorem SA.zero (g : ℤˣ) {x y : F64} (hx : isZero x) (hy : isZero y) : SA g x y := by
  refine Or.inr ⟨hy, ?_⟩
  obtain ⟨s, rfl⟩ := isZero_iff.1 hx
  unfold sg; split <;> rfl

theorem SA.neg {g : ℤˣ} {x y : F64} (h : SA g x y) : SA g (-x) (-y) := by
  unfold SA sg at *
  split
  · rename_i hg; rw [if_pos hg] at h; exact h.neg
  · rename_i hg; rw [if_neg hg] at h; exact h.neg

theorem SA.add {g : ℤˣ} {x y x' y' : F64} (h : SA g x x') (h' : SA g y y') : SA g (x + y) (x' + y') := by
  unfold SA sg at *
  split
  · rename_i hg; rw [if_pos hg] at h h'; exact h.add h'
  · rename_i hg; rw [if_neg hg] at h h'; exact (h.add h').trans (neg_add x y)

theorem SA.sub {g : ℤˣ} {x y x' y' : F64} (h : SA g x x') (h' : SA g y y') : SA g (x - y) (x' - y') := h.add h'.neg

theorem sg_mul (g h : ℤˣ) (x y : F64) : sg g x * sg h y = sg (g * h) (x * y) := by
  rcases Int.units_eq_one_or g with rfl | rfl <;> rcases Int.units_eq_one_or h with rfl | rfl <;>
    simp [sg, neg_mul, mul_neg, neg_neg]

theorem SA.mul {g h : ℤˣ} {x y x' y' : F64} (hx : SA g x x') (hy : SA h y y') : SA (g * h) (x * y) (x' * y') := by
  unfold SA at *
  rw [← sg_mul]
  exact Agree.mul hx hy

theorem sg_div (g h : ℤˣ) (x y : F64) : F64.div (sg g x) (sg h y) = sg (g * h) (F64.div x y) := by
  rcases Int.units_eq_one_or g with rfl | rfl <;> rcases Int.units_eq_one_or h with rfl | rfl <;>
    simp [sg, div_neg_left, div_neg_right, neg_neg]

theorem isZero_neg {x : F64} : isZero (-x) ↔ isZero x := by
  show isZero (F64.neg x) ↔ _
  rcases x with _ | s | ⟨s, a, ha⟩ <;> exact Iff.rfl

theorem isZero_sg {g : ℤˣ} {x : F64} : isZero (sg g x) ↔ isZero x := by
  unfold sg; split
  · exact Iff.rfl
  · exact isZero_neg

theorem SA.isZero {g : ℤˣ} {x y : F64} (h : SA g x y) : F64.isZero y ↔ F64.isZero x := by
  rcases h with h | ⟨h1, h2⟩
  · rw [h, isZero_sg]
  · exact ⟨fun _ => isZero_sg.1 h2, fun _ => h1⟩

theorem SA.div {g h : ℤˣ} {x y x' y' : F64} (hx : SA g x x') (hy : SA h y y') (h0 : ¬ F64.isZero y) : SA (g * h) (F64.div x y) (F64.div x' y') := by
  have h1 : ¬ F64.isZero y' := fun h => h0 (hy.isZero.1 h)
  unfold SA at *
  rw [← sg_div]
  exact Agree.div hx hy h1

theorem abs_neg (x : F64) : F64.abs (-x) = F64.abs x := by
  show F64.abs (F64.neg x) = _
  rcases x with _ | s | ⟨s, a, ha⟩ <;> rfl

theorem SA.abs {g : ℤˣ} {x y : F64} (h : SA g x y) : F64.abs y = F64.abs x := by
  have hs : F64.abs (sg g x) = F64.abs x := by
    unfold sg; split
    · rfl
    · exact abs_neg x
  rcases h with h | ⟨h1, h2⟩
  · rw [h, hs]
  · rw [← hs]
    obtain ⟨s, rfl⟩ := isZero_iff.1 h1
    obtain ⟨t, h3⟩ := isZero_iff.1 h2
    rw [h3]; rfl

theorem eq_zero_iff {x : F64} : FloatOps.eq x 0 = true ↔ F64.isZero x := by
  rcases x with _ | s | ⟨s, a, ha⟩
  · exact ⟨fun h => Bool.noConfusion h, fun h => False.elim h⟩
  · show decide (sgn s 1 = 0) = true ↔ False
    cases s <;> simp [sgn]
  · show decide (sgn s a = sgn false 0) = true ↔ a = 0
    cases s <;> simp [sgn]

theorem SA.eq_zero {g : ℤˣ} {x y : F64} (h : SA g x y) : (FloatOps.eq y 0 : Bool) = FloatOps.eq x 0 := by
  rw [Bool.eq_iff_iff, eq_zero_iff, eq_zero_iff, h.isZero]

theorem SA.lt {g h : ℤˣ} {x y x' y' : F64} (hx : SA g x x') (hy : SA h y y') :
    (FloatOps.lt (FloatOps.abs x') (FloatOps.abs y') : Bool) = FloatOps.lt (FloatOps.abs x) (FloatOps.abs y) := by
  show FloatOps.lt (F64.abs x') (F64.abs y') = FloatOps.lt (F64.abs x) (F64.abs y)
  rw [hx.abs, hy.abs]


theorem SA.symm {g : ℤˣ} {x y : F64} (h : SA g x y) : SA g y x := by
  unfold SA at *
  rcases Int.units_eq_one_or g with rfl | rfl
  · exact Agree.symm h
  · have := Agree.neg (Agree.symm h)
    unfold sg at *
    rw [if_neg (by decide)] at *
    rwa [neg_neg] at this

end LA.F64
