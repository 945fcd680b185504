import Verif.IEEEFp
import Verif.Proofs.NaNEigen

/-! # binary64 satisfies the laws used for arbitrary arithmetic -/

namespace LA
namespace F64

instance : Total F64 := ⟨fun _ _ => ⟨_, rfl⟩, fun _ => ⟨_, rfl⟩⟩

theorem lt_def (x y : F64) : FloatOps.lt x y = cmp (fun a b => decide (a < b)) x y := rfl
theorem le_def (x y : F64) : FloatOps.le x y = cmp (fun a b => decide (a ≤ b)) x y := rfl
theorem eq_def (x y : F64) : FloatOps.eq x y = cmp (fun a b => decide (a = b)) x y := rfl

theorem cmp_nan_r (f : Int → Int → Bool) (x : F64) : cmp f x .nan = false := by cases x <;> rfl

instance : NaNs F64 where
  nan x := x = .nan
  add_l x y h := by subst h; rfl
  add_r x y h := by subst h; cases x <;> rfl
  sub_l x y h := by subst h; rfl
  sub_r x y h := by subst h; cases x <;> rfl
  mul_l x y h := by subst h; rfl
  mul_r x y h := by subst h; cases x <;> rfl
  neg x h := by subst h; rfl
  abs x h := by subst h; rfl
  div_l x y z h e := by subst h; cases e; rfl
  div_r x y z h e := by subst h; cases e; cases x <;> rfl
  sqrt x z h e := by subst h; cases e; rfl
  max x y h h' := by subst h; subst h'; rfl
  lt_l x y h := by subst h; rfl
  lt_r x y h := by subst h; exact cmp_nan_r _ x
  le_l x y h := by subst h; rfl
  le_r x y h := by subst h; exact cmp_nan_r _ x
  eq_l x y h := by subst h; rfl
  eq_r x y h := by subst h; exact cmp_nan_r _ x

theorem mk_false_lt (a b : Nat) : FloatOps.lt (mk false a b) 0 = false := by
  unfold mk
  split
  · change decide (sgn false (rnd a b) < sgn false 0) = false
    simp [sgn]
  · rfl

theorem lt_zero_fin {s : Bool} {a : Nat} {h : rep a = true} : FloatOps.lt (.fin s a h : F64) 0 = decide (sgn s a < 0) := rfl

theorem sgn_false_nonneg (a : Nat) : 0 ≤ sgn false a := by simp [sgn]

theorem rnd_pos {a : Nat} (h : 0 < a) : 0 < rnd a 1 := by
  have := (rnd_err1 (a := a)).1
  rw [abs_le] at this
  have h1 : (1 : ℝ) ≤ a := by exact_mod_cast h
  have h2 : (0 : ℝ) < rnd a 1 := by linarith [this.1]
  exact_mod_cast h2

instance : Signs F64 where
  zero := rfl
  sqrt x z e := by
    cases e
    rcases x with _ | s | ⟨s, a, h⟩
    · rfl
    · cases s <;> rfl
    · change FloatOps.lt (sqrt (.fin s a h)) 0 = false
      rw [sqrt_eq]
      split
      · next ha => subst ha; cases s <;> rfl
      · split
        · rfl
        · exact mk_false_lt _ _
  neg x h := by
    rcases x with _ | s | ⟨s, a, hr⟩
    · rfl
    · cases s
      · rfl
      · exact absurd h (by decide)
    · rw [lt_zero_fin] at h
      change decide (sgn false 0 < sgn (!s) a) = false
      cases s <;> simp_all [sgn]
  add_abs s x h := by
    rcases s with _ | s | ⟨s, a, hr⟩
    · rfl
    · cases s
      · rcases x with _ | t | ⟨t, b, hb⟩ <;> rfl
      · exact absurd h (by decide)
    · rcases x with _ | t | ⟨t, b, hb⟩
      · rfl
      · rfl
      · rw [lt_zero_fin] at h
        change FloatOps.lt ((.fin s a hr : F64) + .fin false b hb) 0 = false
        rw [add_fin_eq]
        have h1 : 0 ≤ sgn s a := by simpa using h
        have h2 := sgn_false_nonneg b
        split
        · cases s <;> rfl
        · rw [show decide (sgn s a + sgn false b < 0) = false from decide_eq_false (by omega)]
          exact mk_false_lt _ _
  add_abs_eq s x h e := by
    rcases s with _ | s | ⟨s, a, hr⟩
    · exact absurd e (by simp only [show (F64.nan + FloatOps.abs x : F64) = .nan from rfl]; decide)
    · cases s
      · rcases x with _ | t | ⟨t, b, hb⟩ <;> exact absurd e Bool.false_ne_true
      · exact absurd h (by decide)
    · rcases x with _ | t | ⟨t, b, hb⟩
      · exact absurd e Bool.false_ne_true
      · exact absurd e Bool.false_ne_true
      · rw [lt_zero_fin] at h
        have h1 : 0 ≤ sgn s a := by simpa using h
        have h2 := sgn_false_nonneg b
        change FloatOps.eq ((.fin s a hr : F64) + .fin false b hb) 0 = true at e
        rw [add_fin_eq] at e
        split at e
        · next h0 =>
          have ha : sgn s a = 0 := by omega
          have hb0 : b = 0 := by
            have : sgn false b = 0 := by omega
            simpa [sgn] using this
          subst hb0
          refine ⟨?_, ?_⟩
          · change decide (sgn s a = 0) = true
            simp [ha]
          · change decide (sgn t 0 = 0) = true
            simp [sgn]
        · next h0 =>
          exfalso
          have hp : 0 < (sgn s a + sgn false b).natAbs := by omega
          have := rnd_pos hp
          unfold mk at e
          split at e
          · change decide (sgn _ (rnd _ 1) = 0) = true at e
            rw [decide_eq_true_iff] at e
            generalize rnd _ 1 = r at e this
            generalize decide (sgn s a + sgn false b < 0) = c at e
            cases c <;> simp only [sgn] at e <;> simp at e <;> omega
          · rcases hd : decide (sgn s a + sgn false b < 0) <;> rw [hd] at e <;> exact absurd e Bool.false_ne_true

/-- `f64::max` returns the other argument when one is NaN. -/
theorem max_nan (x : F64) : FloatOps.max F64.nan x = x ∧ FloatOps.max x F64.nan = x := by
  refine ⟨rfl, ?_⟩
  show max x .nan = x
  unfold max
  rcases x with _ | s | ⟨s, k, h⟩
  · rfl
  · cases s <;> rfl
  · rw [if_neg (by simp)]; rfl

/-- `f64::max` returns one of its arguments, and none of them is larger. -/
theorem max_spec (x y : F64) : (FloatOps.max x y = x ∨ FloatOps.max x y = y) ∧ FloatOps.lt (FloatOps.max x y) x = false ∧
    FloatOps.lt (FloatOps.max x y) y = false := by
  have hirr : ∀ z : F64, FloatOps.lt z z = false := by
    intro z
    rcases z with _ | s | ⟨s, k, h⟩
    · rfl
    · cases s <;> rfl
    · show decide (sgn s k < sgn s k) = false
      simp
  have hasym : ∀ x y : F64, FloatOps.lt x y = true → FloatOps.lt y x = false := by
    intro x y h
    rcases x with _ | s | ⟨s, a, ha⟩ <;> rcases y with _ | t | ⟨t, b, hb⟩ <;> try rfl
    · cases s <;> cases t <;> first | rfl | cases h
    · cases s <;> first | rfl | cases h
    · cases t <;> first | rfl | cases h
    · have h : decide (sgn s a < sgn t b) = true := h
      show decide (sgn t b < sgn s a) = false
      simp only [decide_eq_true_eq, decide_eq_false_iff_not] at h ⊢
      omega
  have hE : FloatOps.max x y = if x = .nan then y else if FloatOps.lt x y then y else x := rfl
  rw [hE]
  split
  · next h => subst h; exact ⟨Or.inr rfl, by cases y <;> rfl, hirr y⟩
  · split
    · next h1 h2 => exact ⟨Or.inr rfl, hasym x y h2, hirr y⟩
    · next h1 h2 => exact ⟨Or.inl rfl, hirr x, by simpa using h2⟩

end F64
end LA
