import Verif.IEEEFp
import Verif.Proofs.F64Laws

/-!
# Exact laws of the binary64 operations
-/

namespace LA.F64

/-- Rounding a representable number changes nothing. -/
theorem rnd_exact {k b : Nat} (hb : 0 < b) (hk : rep k = true) : rnd (k * b) b = k := by
  have h := rnd_near (a := k * b) hb hk
  have hb' : (b : ℝ) ≠ 0 := by positivity
  have e : ((k * b : Nat) : ℝ) / b = k := by push_cast; field_simp
  rw [e, sub_self, abs_zero] at h
  have := abs_eq_zero.1 (le_antisymm h (abs_nonneg _))
  exact_mod_cast sub_eq_zero.1 this

theorem rep_lt {k : Nat} (h : rep k = true) : k < 2 ^ 2098 := by
  unfold rep at h
  rw [Bool.and_eq_true, decide_eq_true_iff, decide_eq_true_iff] at h
  exact h.2

theorem fin_congr {s : Bool} {j k : Nat} {hj : rep j = true} {hk : rep k = true} (h : j = k) : F64.fin s j hj = .fin s k hk := by
  subst h; rfl

theorem mk_exact {s : Bool} {k b : Nat} (hb : 0 < b) (hk : rep k = true) : mk s (k * b) b = .fin s k hk := by
  unfold mk
  rw [dif_pos (by rw [rnd_exact hb hk]; exact rep_lt hk)]
  exact fin_congr (rnd_exact hb hk)

theorem mk_neg (s : Bool) (a b : Nat) : -(mk s a b) = mk (!s) a b := by
  unfold mk; split <;> rfl

theorem mk_zero (s : Bool) {b : Nat} (hb : 0 < b) : mk s 0 b = zero s := by
  have := mk_exact (s := s) hb (show rep 0 = true by decide +kernel)
  rw [Nat.zero_mul] at this
  exact this

theorem add_comm (x y : F64) : x + y = y + x := by
  show add x y = add y x
  rcases x with _ | s | ⟨s, a, ha⟩ <;> rcases y with _ | t | ⟨t, b, hb⟩ <;> try rfl
  · unfold add
    dsimp only
    by_cases h : s = t
    · subst h; rfl
    · rw [if_neg h, if_neg (fun e => h e.symm)]
  · unfold add
    dsimp only
    rw [Int.add_comm, Bool.and_comm]

theorem mul_comm (x y : F64) : x * y = y * x := by
  show mul x y = mul y x
  have hx : ∀ s t : Bool, (s != t) = (t != s) := by decide
  rcases x with _ | s | ⟨s, a, ha⟩ <;> rcases y with _ | t | ⟨t, b, hb⟩ <;> try rfl
  · unfold mul; dsimp only; rw [hx]
  · unfold mul; dsimp only; rw [hx]
  · unfold mul; dsimp only; rw [hx]
  · unfold mul; dsimp only; rw [hx, Nat.mul_comm]

theorem neg_neg (x : F64) : - -x = x := by
  show neg (neg x) = x
  rcases x with _ | s | ⟨s, a, ha⟩ <;> simp [neg]

theorem neg_mul (x y : F64) : -x * y = -(x * y) := by
  have hx : ∀ s t : Bool, ((!s) != t) = !(s != t) := by decide
  show mul (neg x) y = neg (mul x y)
  rcases x with _ | s | ⟨s, a, ha⟩ <;> rcases y with _ | t | ⟨t, b, hb⟩ <;> try rfl
  · simp only [mul, neg, hx]
  · simp only [mul, neg, hx]; split <;> rfl
  · simp only [mul, neg, hx]; split <;> rfl
  · simp only [mul, neg, hx]
    exact (mk_neg _ _ _).symm

theorem mul_neg (x y : F64) : x * -y = -(x * y) := by rw [mul_comm, neg_mul, mul_comm]

theorem mul_one (x : F64) : x * 1 = x := by
  show mul x (.fin false (2 ^ 1074) _) = x
  have hs : ∀ s : Bool, (s != false) = s := by decide
  have h1 : (2 : Nat) ^ 1074 ≠ 0 := by positivity
  rcases x with _ | s | ⟨s, a, ha⟩
  · rfl
  · simp only [mul, hs, if_neg h1]
  · simp only [mul, hs]
    exact mk_exact (Nat.pos_of_ne_zero h1) ha

theorem one_mul (x : F64) : 1 * x = x := by rw [mul_comm, mul_one]
theorem neg_one_mul (x : F64) : -1 * x = -x := by rw [neg_mul, one_mul]

/-- One of the two zeros. -/
def isZero : F64 → Prop
  | .fin _ k _ => k = 0
  | _ => False

theorem isZero_iff {x : F64} : isZero x ↔ ∃ s, x = zero s := by
  rcases x with _ | s | ⟨s, a, ha⟩
  · exact ⟨False.elim, fun ⟨s, h⟩ => by cases h⟩
  · exact ⟨False.elim, fun ⟨s, h⟩ => by cases h⟩
  · constructor
    · intro h; exact ⟨s, fin_congr h⟩
    · rintro ⟨t, h⟩; cases h; rfl

/-- Equal up to the sign of a zero. -/
def Agree (x y : F64) : Prop := x = y ∨ (isZero x ∧ isZero y)

theorem Agree.refl (x : F64) : Agree x x := Or.inl rfl
theorem Agree.symm {x y : F64} (h : Agree x y) : Agree y x := h.elim (fun h => Or.inl h.symm) fun h => Or.inr h.symm
theorem Agree.trans {x y z : F64} (h : Agree x y) (h' : Agree y z) : Agree x z := by
  rcases h with rfl | ⟨h1, h2⟩
  · exact h'
  · rcases h' with rfl | ⟨h3, h4⟩
    · exact Or.inr ⟨h1, h2⟩
    · exact Or.inr ⟨h1, h4⟩

theorem Agree.neg {x y : F64} (h : Agree x y) : Agree (-x) (-y) := by
  rcases h with rfl | ⟨h1, h2⟩
  · exact Or.inl rfl
  · obtain ⟨s, rfl⟩ := isZero_iff.1 h1
    obtain ⟨t, rfl⟩ := isZero_iff.1 h2
    exact Or.inr ⟨rfl, rfl⟩

theorem sgn_zero (s : Bool) : sgn s 0 = 0 := by cases s <;> rfl

/-- Rounding the sum of a number and zero gives the number, except that the sum of zeros may lose its sign. -/
theorem add_zero' (x : F64) (s : Bool) (h : ¬ isZero x) : x + zero s = x := by
  show add x (zero s) = x
  rcases x with _ | t | ⟨t, a, ha⟩
  · rfl
  · rfl
  · have ha0 : a ≠ 0 := h
    unfold add zero
    dsimp only
    rw [sgn_zero, Int.add_zero]
    have h0 : sgn t a ≠ 0 := by cases t <;> simp [sgn, ha0]
    rw [if_neg h0]
    have h1 : decide (sgn t a < 0) = t := by
      cases t
      · simp [sgn]
      · simp [sgn]; omega
    have h2 : (sgn t a).natAbs = a := by cases t <;> simp [sgn]
    rw [h1, h2]
    have := mk_exact (s := t) (b := 1) one_pos ha
    rwa [Nat.mul_one] at this

theorem zero_add_zero (s t : Bool) : zero s + zero t = zero (s && t) := by
  show add (zero s) (zero t) = _
  unfold add zero
  dsimp only
  rw [sgn_zero, sgn_zero, if_pos (by norm_num)]

theorem Agree.add_left {x y : F64} (z : F64) (h : Agree x y) : Agree (z + x) (z + y) := by
  rcases h with rfl | ⟨h1, h2⟩
  · exact Or.inl rfl
  · obtain ⟨s, rfl⟩ := isZero_iff.1 h1
    obtain ⟨t, rfl⟩ := isZero_iff.1 h2
    by_cases hz : isZero z
    · obtain ⟨r, rfl⟩ := isZero_iff.1 hz
      rw [zero_add_zero, zero_add_zero]
      exact Or.inr ⟨rfl, rfl⟩
    · rw [add_zero' z s hz, add_zero' z t hz]; exact Or.inl rfl

theorem Agree.add {x y x' y' : F64} (h : Agree x x') (h' : Agree y y') : Agree (x + y) (x' + y') := by
  refine (Agree.add_left x h').trans ?_
  rw [add_comm x, add_comm x']
  exact Agree.add_left y' h

theorem Agree.sub {x y x' y' : F64} (h : Agree x x') (h' : Agree y y') : Agree (x - y) (x' - y') := h.add h'.neg

theorem mul_zero' (x : F64) (s : Bool) (h : isFin x) : isZero (x * zero s) := by
  rcases x with _ | t | ⟨t, a, ha⟩
  · exact h.elim
  · exact h.elim
  · show isZero (mul _ _)
    unfold mul zero
    dsimp only
    rw [Nat.mul_zero, mk_zero _ (by positivity)]
    rfl

theorem mul_zero_nan (x : F64) (s : Bool) (h : ¬ isFin x) : x * zero s = .nan := by
  rcases x with _ | t | ⟨t, a, ha⟩
  · rfl
  · rfl
  · exact (h trivial).elim

theorem Agree.mul_left {x y : F64} (z : F64) (h : Agree x y) : Agree (z * x) (z * y) := by
  rcases h with rfl | ⟨h1, h2⟩
  · exact Or.inl rfl
  · obtain ⟨s, rfl⟩ := isZero_iff.1 h1
    obtain ⟨t, rfl⟩ := isZero_iff.1 h2
    by_cases hz : isFin z
    · exact Or.inr ⟨mul_zero' z s hz, mul_zero' z t hz⟩
    · rw [mul_zero_nan z s hz, mul_zero_nan z t hz]; exact Or.inl rfl

theorem Agree.mul {x y x' y' : F64} (h : Agree x x') (h' : Agree y y') : Agree (x * y) (x' * y') := by
  refine (Agree.mul_left x h').trans ?_
  rw [mul_comm x, mul_comm x']
  exact Agree.mul_left y' h

/-- Negating both terms negates the sum, up to the sign of zero. -/
theorem neg_add (x y : F64) : Agree (-x + -y) (-(x + y)) := by
  show Agree (add (neg x) (neg y)) (neg (add x y))
  have hb : ∀ s t : Bool, (!s) = (!t) ↔ s = t := by decide
  rcases x with _ | s | ⟨s, a, ha⟩ <;> rcases y with _ | t | ⟨t, b, hb'⟩ <;> try exact Or.inl rfl
  · unfold add neg
    dsimp only
    by_cases h : s = t
    · subst h; simp; exact Or.inl rfl
    · rw [if_neg h, if_neg (fun e => h ((hb _ _).1 e))]; exact Or.inl rfl
  · have hn : ∀ (s : Bool) (k : Nat), sgn (!s) k = -sgn s k := by intro s k; cases s <;> simp [sgn]
    unfold add neg
    dsimp only
    rw [hn, hn, ← Int.neg_add]
    by_cases h : sgn s a + sgn t b = 0
    · rw [if_pos h, if_pos (by rw [h]; rfl)]
      exact Or.inr ⟨rfl, rfl⟩
    · rw [if_neg h, if_neg (fun e => h (Int.neg_eq_zero.1 e))]
      left
      show _ = -(mk _ _ _)
      rw [mk_neg, Int.natAbs_neg]
      congr 1
      rw [← decide_not]
      congr 1
      apply propext; constructor <;> intro h' <;> omega

end LA.F64
