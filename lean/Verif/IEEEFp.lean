import Verif.IEEE

/-!
# `F64` is correctly rounded

`F64.rnd` gives the representable number nearest to its argument (`rnd_near`), so the operations of `F64` are those of IEEE 754, and
`F64` is an instance of `Fp`.
-/

namespace LA.F64

theorem rnd_mul_le {a b : Nat} (hb : 0 < b) :
    2 * (rnd a b * b) ≤ 2 * a + b * 2 ^ ulp a b ∧ 2 * a ≤ 2 * (rnd a b * b) + b * 2 ^ ulp a b := by
  have hD : 0 < b * 2 ^ ulp a b := by positivity
  have h1 := Nat.div_add_mod a (b * 2 ^ ulp a b)
  have h2 := Nat.mod_lt a hD
  have e : rnd a b * b = (b * 2 ^ ulp a b) * (if b * 2 ^ ulp a b < 2 * (a % (b * 2 ^ ulp a b)) then a / (b * 2 ^ ulp a b) + 1
    else if 2 * (a % (b * 2 ^ ulp a b)) = b * 2 ^ ulp a b then a / (b * 2 ^ ulp a b) + a / (b * 2 ^ ulp a b) % 2
    else a / (b * 2 ^ ulp a b)) := by unfold rnd; ring
  rw [e]
  generalize b * 2 ^ ulp a b = D at *
  generalize a / D = t at *
  generalize a % D = r at *
  have e1 : D * (t + 1) = D * t + D := by ring
  split_ifs with c1 c2
  · rw [e1]; omega
  · rcases Nat.mod_two_eq_zero_or_one t with h | h
    · rw [h, add_zero]; omega
    · rw [h, e1]; omega
  · omega

/-- In real numbers. -/
theorem rnd_abs {a b : Nat} (hb : 0 < b) : |(rnd a b : ℝ) - a / b| ≤ 2 ^ ulp a b / 2 := by
  obtain ⟨h1, h2⟩ := rnd_mul_le (a := a) hb
  have h1 : 2 * ((rnd a b : ℝ) * b) ≤ 2 * a + b * 2 ^ ulp a b := by exact_mod_cast h1
  have h2 : 2 * (a : ℝ) ≤ 2 * (rnd a b * b) + b * 2 ^ ulp a b := by exact_mod_cast h2
  have hb : (0 : ℝ) < b := by exact_mod_cast hb
  have e : (rnd a b : ℝ) - a / b = (rnd a b * b - a) / b := by field_simp
  rw [e, abs_div, abs_of_pos hb, div_le_iff₀ hb, abs_le]
  constructor <;> linarith

theorem ulp_cases {a b : Nat} (hb : 0 < b) :
    ulp a b = 0 ∨ ((2 : ℝ) ^ ulp a b / 2 ≤ 1 / 2 ^ 53 * ((a : ℝ) / b) ∧ (2 : ℝ) ^ ulp a b / 2 ≤ 1 / 2 ^ 53 * (rnd a b : ℝ)) := by
  rcases Nat.eq_zero_or_pos (ulp a b) with h | h
  · exact Or.inl h
  right
  have hq := quot_ge h
  have hb' : (0 : ℝ) < b := by exact_mod_cast hb
  constructor
  · have : 2 ^ 52 * (b * 2 ^ ulp a b) ≤ a := (Nat.le_div_iff_mul_le (by positivity)).mp hq
    have : (2 : ℝ) ^ 52 * (b * 2 ^ ulp a b) ≤ a := by exact_mod_cast this
    have : (2 : ℝ) ^ 52 * 2 ^ ulp a b ≤ a / b := by rw [le_div_iff₀ hb']; linarith
    linarith
  · obtain ⟨t, e, h1, _⟩ := rnd_form a b
    have : 2 ^ 52 * 2 ^ ulp a b ≤ rnd a b := by rw [e]; exact Nat.mul_le_mul_right _ (hq.trans h1)
    have : (2 : ℝ) ^ 52 * 2 ^ ulp a b ≤ rnd a b := by exact_mod_cast this
    linarith

/-- One rounding. -/
theorem rnd_err {a b : Nat} (hb : 0 < b) : |(rnd a b : ℝ) - a / b| ≤ 1 / 2 ^ 53 * ((a : ℝ) / b) + 1 / 2 ∧
    |(rnd a b : ℝ) - a / b| ≤ 1 / 2 ^ 53 * (rnd a b : ℝ) + 1 / 2 := by
  have h := rnd_abs (a := a) hb
  rcases ulp_cases (a := a) hb with h0 | ⟨h1, h2⟩
  · rw [h0, pow_zero] at h
    have : (0 : ℝ) ≤ 1 / 2 ^ 53 * ((a : ℝ) / b) := by positivity
    have : (0 : ℝ) ≤ 1 / 2 ^ 53 * (rnd a b : ℝ) := by positivity
    constructor <;> linarith
  · constructor <;> linarith

theorem rnd_one {a : Nat} (h : ulp a 1 = 0) : rnd a 1 = a := by
  unfold rnd; rw [h]; simp [Nat.mod_one]

/-- Integers (in units) do not underflow. -/
theorem rnd_err1 {a : Nat} : |(rnd a 1 : ℝ) - a| ≤ 1 / 2 ^ 53 * (a : ℝ) ∧ |(rnd a 1 : ℝ) - a| ≤ 1 / 2 ^ 53 * (rnd a 1 : ℝ) := by
  have h := rnd_abs (a := a) (b := 1) one_pos
  have e : (a : ℝ) / ((1 : Nat) : ℝ) = a := by simp
  rw [e] at h
  rcases ulp_cases (a := a) (b := 1) one_pos with h0 | ⟨h1, h2⟩
  · rw [rnd_one h0, sub_self, abs_zero]; constructor <;> positivity
  · rw [e] at h1
    exact ⟨h.trans h1, h.trans h2⟩

/-! ## Nearest representable number -/

/-- A representable number above `2^(s+52)` units is a multiple of `2^s`. -/
theorem rep_dvd {k s : Nat} (hk : rep k = true) (h : 2 ^ (s + 52) ≤ k) : 2 ^ s ∣ k := by
  unfold rep at hk
  rw [Bool.and_eq_true, decide_eq_true_iff, decide_eq_true_iff] at hk
  have hl : s + 52 ≤ k.log2 := (Nat.le_log2 (by have := Nat.pos_of_ne_zero (pow_ne_zero (s + 52) (two_ne_zero)); omega)).mpr h
  exact (pow_dvd_pow 2 (by omega)).trans (Nat.dvd_of_mod_eq_zero hk.1)

/-- No binary64 number is closer to `a/b` than `rnd a b`. -/
theorem rnd_near {a b k : Nat} (hb : 0 < b) (hk : rep k = true) : |(rnd a b : ℝ) - a / b| ≤ |(k : ℝ) - a / b| := by
  have hb' : (0 : ℝ) < b := by exact_mod_cast hb
  set s := ulp a b with hs
  have hD : 0 < b * 2 ^ s := by positivity
  have h1 := Nat.div_add_mod a (b * 2 ^ s)
  have h2 := Nat.mod_lt a hD
  -- `k` is on the grid, or below it
  have key : k * b ≤ (a / (b * 2 ^ s)) * (b * 2 ^ s) ∨ (a / (b * 2 ^ s) + 1) * (b * 2 ^ s) ≤ k * b := by
    rcases Nat.eq_zero_or_pos s with h0 | h0
    · rw [h0, pow_zero, mul_one]
      rcases Nat.lt_or_ge (a / b) k with h | h
      · exact Or.inr (Nat.mul_le_mul_right _ h)
      · exact Or.inl (Nat.mul_le_mul_right _ h)
    · have hq : 2 ^ 52 ≤ a / (b * 2 ^ s) := quot_ge h0
      rcases Nat.lt_or_ge k (2 ^ (s + 52)) with h | h
      · left
        have : k ≤ (a / (b * 2 ^ s)) * 2 ^ s := by
          refine h.le.trans ?_
          rw [pow_add, mul_comm]
          exact Nat.mul_le_mul_right _ hq
        calc k * b ≤ (a / (b * 2 ^ s)) * 2 ^ s * b := Nat.mul_le_mul_right _ this
          _ = _ := by ring
      · obtain ⟨c, rfl⟩ := rep_dvd hk h
        rcases Nat.lt_or_ge (a / (b * 2 ^ s)) c with h' | h'
        · right
          calc _ ≤ c * (b * 2 ^ s) := Nat.mul_le_mul_right _ h'
            _ = _ := by ring
        · left
          calc 2 ^ s * c * b = c * (b * 2 ^ s) := by ring
            _ ≤ _ := Nat.mul_le_mul_right _ h'
  -- and so is farther
  have e : ∀ x : Nat, |(x : ℝ) - a / b| = |(x * b : ℝ) - a| / b := by
    intro x
    rw [← abs_of_pos hb', ← abs_div, abs_of_pos hb']
    congr 1; field_simp
  rw [e, e, div_le_div_iff_of_pos_right hb']
  have f : ∀ x : Nat, |(x * b : ℝ) - a| = (((x * b : Nat) : Int) - (a : Int)).natAbs := by
    intro x
    rw [← Int.cast_natCast (R := ℝ) (Int.natAbs _), Int.natCast_natAbs]
    push_cast; rfl
  rw [f, f, Nat.cast_le]
  have g : rnd a b * b = (b * 2 ^ s) * (if b * 2 ^ s < 2 * (a % (b * 2 ^ s)) then a / (b * 2 ^ s) + 1
    else if 2 * (a % (b * 2 ^ s)) = b * 2 ^ s then a / (b * 2 ^ s) + a / (b * 2 ^ s) % 2
    else a / (b * 2 ^ s)) := by unfold rnd; rw [← hs]; ring
  rw [g]
  generalize b * 2 ^ s = D at *
  generalize k * b = K at *
  generalize a / D = t at *
  generalize a % D = r at *
  have e1 : D * (t + 1) = D * t + D := by ring
  have e2 : (t + 1) * D = D * t + D := by ring
  rw [mul_comm t D, e2] at key
  split_ifs with c1 c2
  · rw [e1]; omega
  · rcases Nat.mod_two_eq_zero_or_one t with h | h
    · rw [h, add_zero]; omega
    · rw [h, e1]; omega
  · omega

/-! ## Square roots -/

theorem isqrt_spec (N : Nat) : ∀ i s, s * s ≤ N → N < (s + 2 ^ i) * (s + 2 ^ i) →
    isqrt N i s * isqrt N i s ≤ N ∧ N < (isqrt N i s + 1) * (isqrt N i s + 1)
  | 0, s, h1, h2 => by
    unfold isqrt
    exact ⟨h1, by simpa using h2⟩
  | i + 1, s, h1, h2 => by
    unfold isqrt
    split_ifs with c
    · refine isqrt_spec N i _ c ?_
      rw [pow_succ] at h2
      rw [add_assoc, ← mul_two]; exact h2
    · exact isqrt_spec N i s h1 (not_le.mp c)

theorem root_spec (N : Nat) : root N * root N ≤ N ∧ N < (root N + 1) * (root N + 1) := by
  unfold root
  refine isqrt_spec N _ 0 (by simp) ?_
  rw [zero_add, ← pow_add]
  refine (Nat.lt_log2_self (n := N)).trans_le (Nat.pow_le_pow_right (by norm_num) ?_)
  omega

/-- What `sqrt` rounds. -/
def rootArg (N : Nat) : Nat := 2 * root N + (if root N * root N = N then 0 else 1)

theorem sqrt_err {N : Nat} (hN : 2 ^ 106 ≤ N) :
    |(rnd (rootArg N) 2 : ℝ) - Real.sqrt N| ≤ 1 / 2 ^ 53 * Real.sqrt N ∧
    |(rnd (rootArg N) 2 : ℝ) - Real.sqrt N| ≤ 1 / 2 ^ 53 * (rnd (rootArg N) 2 : ℝ) := by
  obtain ⟨h1, h2⟩ := root_spec N
  set S := root N with hS
  have hS53 : 2 ^ 53 ≤ S := by
    by_contra h
    have h : S + 1 ≤ 2 ^ 53 := by omega
    have := Nat.mul_le_mul h h
    omega
  have hu : ulp (rootArg N) 2 = S.log2 - 52 := by
    have : rootArg N / 2 = S := by unfold rootArg; rw [← hS]; split_ifs <;> omega
    unfold ulp; rw [this]
  have hl : 53 ≤ S.log2 := (Nat.le_log2 (by omega)).mpr hS53
  have hpos : 0 < ulp (rootArg N) 2 := by omega
  obtain ⟨t, et, _⟩ := rnd_form (rootArg N) 2
  obtain ⟨m1, m2⟩ := rnd_mul_le (a := rootArg N) (b := 2) (by norm_num)
  have e2 : (2 : ℝ) ^ ulp (rootArg N) 2 / 2 ≤ 1 / 2 ^ 53 * (S : ℝ) := by
    rw [hu]
    have := Nat.log2_self_le (n := S) (by omega)
    have h3 : (2 : ℝ) ^ S.log2 ≤ S := by exact_mod_cast this
    have h4 : (2 : ℝ) ^ S.log2 = 2 ^ 52 * 2 ^ (S.log2 - 52) := by rw [← pow_add]; congr 1; omega
    rw [h4] at h3
    linarith
  have e3 : (2 : ℝ) ^ ulp (rootArg N) 2 / 2 ≤ 1 / 2 ^ 53 * (rnd (rootArg N) 2 : ℝ) := by
    rcases ulp_cases (a := rootArg N) (b := 2) (by norm_num) with h | h
    · omega
    · exact h.2
  -- parity
  obtain ⟨w, hw⟩ : ∃ w, 2 ^ ulp (rootArg N) 2 = 2 * w := ⟨2 ^ (ulp (rootArg N) 2 - 1), by
    rw [← pow_succ']; congr 1; omega⟩
  have hwR : (2 : ℝ) ^ ulp (rootArg N) 2 = 2 * w := by exact_mod_cast hw
  rw [hwR] at e2 e3
  rw [hw] at m1 m2 et
  have hs1 : (S : ℝ) ≤ Real.sqrt N := by
    apply Real.le_sqrt_of_sq_le
    rw [sq]; exact_mod_cast h1
  have hs2 : Real.sqrt N ≤ S + 1 := by
    rw [Real.sqrt_le_left (by positivity), sq]; exact_mod_cast h2.le
  have main : |(rnd (rootArg N) 2 : ℝ) - Real.sqrt N| ≤ w := by
    generalize rnd (rootArg N) 2 = r at *
    unfold rootArg at m1 m2
    rw [← hS] at m1 m2
    split_ifs at m1 m2 with c
    · have : Real.sqrt N = S := by
        rw [← c]; push_cast; exact Real.sqrt_mul_self (by positivity)
      rw [this, abs_le]
      have a1 : r ≤ S + w := by omega
      have a2 : S ≤ r + w := by omega
      have a1 : (r : ℝ) ≤ S + w := by exact_mod_cast a1
      have a2 : (S : ℝ) ≤ r + w := by exact_mod_cast a2
      constructor <;> linarith
    · have a1 : r ≤ S + w := by omega
      have a2 : S + 1 ≤ r + w := by omega
      have a1 : (r : ℝ) ≤ S + w := by exact_mod_cast a1
      have a2 : (S : ℝ) + 1 ≤ r + w := by exact_mod_cast a2
      rw [abs_le]
      constructor <;> linarith
  constructor <;> linarith

/-! ## The instance of `Fp` -/

/-- The smallest positive number. -/
noncomputable def U : ℝ := 1 / 2 ^ 1074

theorem U_pos : 0 < U := by unfold U; positivity

theorem cast_two_pow : ((2 ^ 1074 : Nat) : ℝ) = 1 / U := by
  unfold U; rw [one_div_one_div]; push_cast; rfl

attribute [irreducible] U

/-- The real number. -/
noncomputable def toReal : F64 → ℝ
  | .fin s k _ => (sgn s k : ℝ) * U
  | _ => 0

/-- Neither infinite nor NaN. -/
def isFin : F64 → Prop
  | .fin _ _ _ => True
  | _ => False

instance (x : F64) : Decidable (isFin x) := match x with
  | .fin _ _ _ => .isTrue trivial
  | .nan => .isFalse id
  | .inf _ => .isFalse id

theorem isFin_iff {x : F64} (h : isFin x) : ∃ s k hk, x = .fin s k hk := by
  cases x with
  | nan => exact h.elim
  | inf => exact h.elim
  | fin s k hk => exact ⟨s, k, hk, rfl⟩

theorem sgn_abs (s : Bool) (k : Nat) : |((sgn s k : Int) : ℝ)| = k := by
  unfold sgn; cases s <;> simp

theorem mk_toReal {s : Bool} {a b : Nat} (h : isFin (mk s a b)) : (mk s a b).toReal = (sgn s (rnd a b) : ℝ) * U := by
  unfold mk at h ⊢
  split_ifs at h ⊢ with c
  · rfl
  · exact h.elim

theorem sgn_sub (s : Bool) (r : Nat) (x : ℝ) : |((sgn s r : Int) : ℝ) - (if s then -x else x)| = |(r : ℝ) - x| := by
  unfold sgn
  cases s
  · simp
  · simp only [if_true]
    rw [← abs_neg]; congr 1; push_cast; ring

/-- One rounding with underflow. -/
theorem mk_err {s : Bool} {a b : Nat} {y : ℝ} (hb : 0 < b) (h : isFin (mk s a b))
    (hy : y = (if s then -((a : ℝ) / b) else (a : ℝ) / b) * U) :
    |(mk s a b).toReal - y| ≤ 1 / 2 ^ 53 * |y| + U / 2 ∧
    |(mk s a b).toReal - y| ≤ 1 / 2 ^ 53 * |(mk s a b).toReal| + U / 2 := by
  have hU := U_pos
  rw [mk_toReal h, hy, ← sub_mul, abs_mul, abs_of_pos hU, sgn_sub, abs_mul, abs_mul, abs_of_pos hU, sgn_abs]
  have e : |(if s then -((a : ℝ) / b) else (a : ℝ) / b)| = (a : ℝ) / b := by
    have : (0 : ℝ) ≤ (a : ℝ) / b := by positivity
    split_ifs
    · rw [abs_neg, abs_of_nonneg this]
    · exact abs_of_nonneg this
  rw [e]
  obtain ⟨h1, h2⟩ := rnd_err (a := a) hb
  have h1 := mul_le_mul_of_nonneg_right h1 hU.le
  have h2 := mul_le_mul_of_nonneg_right h2 hU.le
  constructor <;> linarith

/-- The largest finite number, in units. -/
noncomputable def top : ℝ := 2 ^ 2098 - 2 ^ 2045

theorem lt_of_top {r : Nat} (h : (r : ℝ) ≤ top) : r < 2 ^ 2098 := by
  unfold top at h
  have : (0 : ℝ) < 2 ^ 2045 := by positivity
  have : (r : ℝ) < 2 ^ 2098 := by
    generalize (2 : ℝ) ^ 2098 = p at *
    generalize (2 : ℝ) ^ 2045 = q at *
    linarith
  exact_mod_cast this

attribute [irreducible] top

theorem mk_isFin {s : Bool} {a b : Nat} (h : (rnd a b : ℝ) ≤ top) : isFin (mk s a b) := by
  unfold mk
  rw [dif_pos (lt_of_top h)]
  trivial

theorem mk_isFin' {s : Bool} {a b : Nat} (hb : 0 < b) (h : (1 + 1 / 2 ^ 53) * ((a : ℝ) / b * U) + U / 2 ≤ top * U) :
    isFin (mk s a b) := by
  apply mk_isFin
  have hU := U_pos
  have h1 := (abs_le.mp (rnd_err (a := a) hb).1).2
  have h2 : (1 + 1 / 2 ^ 53) * ((a : ℝ) / b) + 1 / 2 ≤ top := by
    refine le_of_mul_le_mul_right ?_ hU
    linarith
  linarith

theorem add_fin_eq {s t : Bool} {a b : Nat} (ha : rep a = true) (hb : rep b = true) :
    ((.fin s a ha : F64) + .fin t b hb) = if sgn s a + sgn t b = 0 then zero (s && t)
    else mk (decide (sgn s a + sgn t b < 0)) (sgn s a + sgn t b).natAbs 1 := rfl

theorem zero_toReal (s : Bool) : (zero s).toReal = 0 := by
  unfold zero toReal sgn; cases s <;> simp

theorem add_isFin {x y : F64} (h : isFin (x + y)) : isFin x ∧ isFin y := by
  cases x with
  | nan => exact h.elim
  | inf s =>
    cases y with
    | nan => exact h.elim
    | inf t =>
      have h : isFin (if s = t then F64.inf s else .nan) := h
      split_ifs at h <;> exact h.elim
    | fin => exact h.elim
  | fin => cases y with
    | nan => exact h.elim
    | inf => exact h.elim
    | fin => exact ⟨trivial, trivial⟩

theorem signed_abs (z : Int) (r : Nat) : |((sgn (decide (z < 0)) r : Int) : ℝ) - z| = |(r : ℝ) - (z.natAbs : ℝ)| := by
  have := sgn_sub (decide (z < 0)) r (z.natAbs : ℝ)
  rw [← this]
  congr 2
  have e : ((z.natAbs : Nat) : ℝ) = ((|z| : Int) : ℝ) := by
    rw [← Int.natCast_natAbs, Int.cast_natCast]
  rw [e]
  by_cases c : z < 0
  · simp [c, abs_of_neg c]
  · simp [c, abs_of_nonneg (not_lt.mp c)]

theorem natAbs_real (z : Int) : ((z.natAbs : Nat) : ℝ) = |(z : ℝ)| := by
  rw [← Int.cast_abs, ← Int.natCast_natAbs, Int.cast_natCast]

theorem add_err {x y : F64} (h : isFin (x + y)) :
    |(x + y).toReal - (x.toReal + y.toReal)| ≤ 1 / 2 ^ 53 * |x.toReal + y.toReal| ∧
    |(x + y).toReal - (x.toReal + y.toReal)| ≤ 1 / 2 ^ 53 * |(x + y).toReal| := by
  obtain ⟨hx, hy⟩ := add_isFin h
  obtain ⟨s, a, ha, rfl⟩ := isFin_iff hx
  obtain ⟨t, b, hb, rfl⟩ := isFin_iff hy
  rw [add_fin_eq] at h ⊢
  have e : toReal (.fin s a ha) + toReal (.fin t b hb) = ((sgn s a + sgn t b : Int) : ℝ) * U := by
    unfold toReal; push_cast; ring
  rw [e]
  generalize sgn s a + sgn t b = z at *
  have hU := U_pos
  split_ifs at h ⊢ with c
  · rw [zero_toReal, c]; simp
  · rw [mk_toReal h, ← sub_mul, abs_mul, abs_of_pos hU, signed_abs, abs_mul, abs_mul, abs_of_pos hU, sgn_abs]
    obtain ⟨h1, h2⟩ := rnd_err1 (a := z.natAbs)
    have h1 := mul_le_mul_of_nonneg_right h1 hU.le
    have h2 := mul_le_mul_of_nonneg_right h2 hU.le
    rw [natAbs_real] at h1 h2 ⊢
    constructor <;> linarith

theorem add_is {x y : F64} (hx : isFin x) (hy : isFin y)
    (h : (1 + 1 / 2 ^ 53) * |x.toReal + y.toReal| ≤ top * U) : isFin (x + y) := by
  obtain ⟨s, a, ha, rfl⟩ := isFin_iff hx
  obtain ⟨t, b, hb, rfl⟩ := isFin_iff hy
  rw [add_fin_eq]
  have e : toReal (.fin s a ha) + toReal (.fin t b hb) = ((sgn s a + sgn t b : Int) : ℝ) * U := by
    unfold toReal; push_cast; ring
  rw [e] at h
  generalize sgn s a + sgn t b = z at *
  have hU := U_pos
  split_ifs with c
  · trivial
  · apply mk_isFin
    have h1 := (abs_le.mp (rnd_err1 (a := z.natAbs)).1).2
    rw [abs_mul, abs_of_pos hU, ← natAbs_real] at h
    have : (1 + 1 / 2 ^ 53) * ((z.natAbs : Nat) : ℝ) ≤ top := by
      refine le_of_mul_le_mul_right ?_ hU
      linarith
    linarith

theorem neg_toReal (x : F64) : (-x).toReal = -x.toReal := by
  change (neg x).toReal = _
  cases x with
  | nan => simp [neg, toReal]
  | inf => simp [neg, toReal]
  | fin s k h => cases s <;> simp [neg, toReal, sgn]

theorem neg_isFin {x : F64} : isFin (-x) ↔ isFin x := by
  change isFin (neg x) ↔ _
  cases x <;> exact Iff.rfl

theorem sub_def (x y : F64) : x - y = x + -y := rfl

theorem mul_isFin {x y : F64} (h : isFin (x * y)) : isFin x ∧ isFin y := by
  cases x with
  | nan => exact h.elim
  | inf s =>
    cases y with
    | nan => exact h.elim
    | inf t => exact h.elim
    | fin t b hb =>
      have h : isFin (if b = 0 then F64.nan else .inf (s != t)) := h
      split_ifs at h <;> exact h.elim
  | fin s a ha => cases y with
    | nan => exact h.elim
    | inf t =>
      have h : isFin (if a = 0 then F64.nan else .inf (s != t)) := h
      split_ifs at h <;> exact h.elim
    | fin => exact ⟨trivial, trivial⟩

theorem xor_sign (s t : Bool) (A : ℝ) (B : ℝ) :
    (if (s != t) then -(A * B) else A * B) = (if s then -A else A) * (if t then -B else B) := by
  cases s <;> cases t <;> simp

theorem sgn_real (s : Bool) (k : Nat) : ((sgn s k : Int) : ℝ) = if s then -(k : ℝ) else k := by
  unfold sgn; cases s <;> simp

theorem mul_val {s t : Bool} {a b : Nat} : (sgn s a : ℝ) * U * ((sgn t b : ℝ) * U) =
    (if (s != t) then -(((a * b : Nat) : ℝ) / ((2 ^ 1074 : Nat) : ℝ)) else ((a * b : Nat) : ℝ) / ((2 ^ 1074 : Nat) : ℝ)) * U := by
  have hU := U_pos.ne'
  have e : ((a * b : Nat) : ℝ) / ((2 ^ 1074 : Nat) : ℝ) = a * (b * U) := by
    rw [cast_two_pow]; push_cast; field_simp
  rw [e, xor_sign, sgn_real, sgn_real]
  cases t <;> simp <;> ring

theorem mul_err {x y : F64} (h : isFin (x * y)) :
    |(x * y).toReal - x.toReal * y.toReal| ≤ 1 / 2 ^ 53 * |x.toReal * y.toReal| + U / 2 ∧
    |(x * y).toReal - x.toReal * y.toReal| ≤ 1 / 2 ^ 53 * |(x * y).toReal| + U / 2 := by
  obtain ⟨hx, hy⟩ := mul_isFin h
  obtain ⟨s, a, ha, rfl⟩ := isFin_iff hx
  obtain ⟨t, b, hb, rfl⟩ := isFin_iff hy
  exact mk_err (s := s != t) (a := a * b) (b := 2 ^ 1074) (by positivity) h mul_val

theorem mul_self_nonneg' {x : F64} (h : isFin (x * x)) : 0 ≤ (x * x).toReal := by
  obtain ⟨s, a, ha, rfl⟩ := isFin_iff (mul_isFin h).1
  change isFin (mk (s != s) (a * a) (2 ^ 1074)) at h
  change 0 ≤ toReal (mk (s != s) (a * a) (2 ^ 1074))
  rw [show (s != s) = false by simp] at h ⊢
  rw [mk_toReal h]
  have : (0 : ℝ) ≤ (sgn false (rnd (a * a) (2 ^ 1074)) : ℝ) := by simp [sgn]
  exact mul_nonneg this U_pos.le

theorem mul_is {x y : F64} (hx : isFin x) (hy : isFin y)
    (h : (1 + 1 / 2 ^ 53) * |x.toReal * y.toReal| + U / 2 ≤ top * U) : isFin (x * y) := by
  obtain ⟨s, a, ha, rfl⟩ := isFin_iff hx
  obtain ⟨t, b, hb, rfl⟩ := isFin_iff hy
  change isFin (mk (s != t) (a * b) (2 ^ 1074))
  apply mk_isFin' (by positivity)
  have e : |toReal (.fin s a ha) * toReal (.fin t b hb)| = ((a * b : Nat) : ℝ) / ((2 ^ 1074 : Nat) : ℝ) * U := by
    change |(sgn s a : ℝ) * U * ((sgn t b : ℝ) * U)| = _
    rw [mul_val, abs_mul, abs_of_pos U_pos]
    congr 1
    have : (0 : ℝ) ≤ ((a * b : Nat) : ℝ) / ((2 ^ 1074 : Nat) : ℝ) := by positivity
    split_ifs
    · rw [abs_neg, abs_of_nonneg this]
    · rw [abs_of_nonneg this]
  rw [← e]; exact h

theorem div_val {s t : Bool} {a b : Nat} (hb : b ≠ 0) : (sgn s a : ℝ) * U / ((sgn t b : ℝ) * U) =
    (if (s != t) then -(((a * 2 ^ 1074 : Nat) : ℝ) / (b : ℝ)) else ((a * 2 ^ 1074 : Nat) : ℝ) / (b : ℝ)) * U := by
  have hU := U_pos.ne'
  have hb : (b : ℝ) ≠ 0 := by exact_mod_cast hb
  have e : ((a * 2 ^ 1074 : Nat) : ℝ) / (b : ℝ) = a * (1 / U / b) := by
    rw [← cast_two_pow]; push_cast; field_simp
  rw [e, xor_sign, sgn_real, sgn_real]
  cases s <;> cases t <;> simp <;> field_simp

theorem div_isFin {x y : F64} (h : isFin (div x y)) : isFin x ∧ (isFin y → y.toReal ≠ 0) := by
  cases x with
  | nan => exact h.elim
  | inf s => cases y <;> exact h.elim
  | fin s a ha =>
    refine ⟨trivial, fun hy => ?_⟩
    obtain ⟨t, b, hb, rfl⟩ := isFin_iff hy
    have h : isFin (if b = 0 then (if a = 0 then .nan else .inf (s != t)) else mk (s != t) (a * 2 ^ 1074) b) := h
    split_ifs at h with c1 c2
    · exact h.elim
    · exact h.elim
    · change (sgn t b : ℝ) * U ≠ 0
      have : (sgn t b : ℝ) ≠ 0 := by
        rw [← abs_pos, sgn_abs]; exact_mod_cast Nat.pos_of_ne_zero c1
      exact mul_ne_zero this U_pos.ne'

theorem toReal_ne {t : Bool} {b : Nat} {hb : rep b = true} (h : toReal (.fin t b hb) ≠ 0) : b ≠ 0 := by
  rintro rfl
  apply h
  change (sgn t 0 : ℝ) * U = 0
  unfold sgn; cases t <;> simp

theorem div_err {x y : F64} (h : isFin (div x y)) (hy : isFin y) :
    |(div x y).toReal - x.toReal / y.toReal| ≤ 1 / 2 ^ 53 * |x.toReal / y.toReal| + U / 2 ∧
    |(div x y).toReal - x.toReal / y.toReal| ≤ 1 / 2 ^ 53 * |(div x y).toReal| + U / 2 := by
  obtain ⟨hx, h0⟩ := div_isFin h
  have h0 := h0 hy
  obtain ⟨s, a, ha, rfl⟩ := isFin_iff hx
  obtain ⟨t, b, hb, rfl⟩ := isFin_iff hy
  have hb0 := toReal_ne h0
  have e : div (.fin s a ha) (.fin t b hb) = mk (s != t) (a * 2 ^ 1074) b := by
    change (if b = 0 then _ else _) = _
    rw [if_neg hb0]
  rw [e] at h ⊢
  exact mk_err (Nat.pos_of_ne_zero hb0) h (div_val hb0)

theorem div_is {x y : F64} (hx : isFin x) (hy : isFin y) (h0 : y.toReal ≠ 0)
    (h : (1 + 1 / 2 ^ 53) * |x.toReal / y.toReal| + U / 2 ≤ top * U) : isFin (div x y) := by
  obtain ⟨s, a, ha, rfl⟩ := isFin_iff hx
  obtain ⟨t, b, hb, rfl⟩ := isFin_iff hy
  have hb0 := toReal_ne h0
  have e : div (.fin s a ha) (.fin t b hb) = mk (s != t) (a * 2 ^ 1074) b := by
    change (if b = 0 then _ else _) = _
    rw [if_neg hb0]
  rw [e]
  apply mk_isFin' (Nat.pos_of_ne_zero hb0)
  have e : |toReal (.fin s a ha) / toReal (.fin t b hb)| = ((a * 2 ^ 1074 : Nat) : ℝ) / (b : ℝ) * U := by
    change |(sgn s a : ℝ) * U / ((sgn t b : ℝ) * U)| = _
    rw [div_val hb0, abs_mul, abs_of_pos U_pos]
    congr 1
    have : (0 : ℝ) ≤ ((a * 2 ^ 1074 : Nat) : ℝ) / (b : ℝ) := div_nonneg (Nat.cast_nonneg _) (Nat.cast_nonneg _)
    split_ifs
    · rw [abs_neg, abs_of_nonneg this]
    · rw [abs_of_nonneg this]
  rw [← e]; exact h

theorem sqrt_eq {s : Bool} {a : Nat} {h : rep a = true} : sqrt (.fin s a h) =
    if a = 0 then .fin s a h else if s then .nan else mk false (rootArg (a * 2 ^ 1074)) 2 := rfl

theorem real_sqrt (a : Nat) : Real.sqrt (a * U) = Real.sqrt ((a * 2 ^ 1074 : Nat) : ℝ) * U := by
  have hU := U_pos
  have e : ((a * 2 ^ 1074 : Nat) : ℝ) = a * U / (U * U) := by
    push_cast [cast_two_pow]
    have := cast_two_pow
    push_cast at this
    rw [this]; field_simp
  rw [e, Real.sqrt_div' _ (by positivity), Real.sqrt_mul_self hU.le]
  field_simp

theorem big_N {a : Nat} (h : a ≠ 0) : 2 ^ 106 ≤ a * 2 ^ 1074 := by
  calc 2 ^ 106 ≤ 2 ^ 1074 := Nat.pow_le_pow_right (by norm_num) (by norm_num)
    _ ≤ _ := Nat.le_mul_of_pos_left _ (Nat.pos_of_ne_zero h)

theorem sqrt_all {x : F64} (h : isFin (sqrt x)) : isFin x ∧ 0 ≤ x.toReal ∧ 0 ≤ (sqrt x).toReal ∧
    |(sqrt x).toReal - Real.sqrt x.toReal| ≤ 1 / 2 ^ 53 * Real.sqrt x.toReal ∧
    |(sqrt x).toReal - Real.sqrt x.toReal| ≤ 1 / 2 ^ 53 * (sqrt x).toReal := by
  have hU := U_pos
  cases x with
  | nan => exact h.elim
  | inf s =>
    have h : isFin (if s then .nan else .inf false) := h
    split_ifs at h <;> exact h.elim
  | fin s a ha =>
    refine ⟨trivial, ?_⟩
    rw [sqrt_eq] at h ⊢
    split_ifs at h ⊢ with c1 c2
    · have : toReal (.fin s a ha) = 0 := by
        by_contra h0; exact toReal_ne h0 c1
      rw [this]; simp
    · exact h.elim
    · have e : toReal (.fin s a ha) = a * U := by
        change (sgn s a : ℝ) * U = _
        rw [sgn_real, if_neg c2]
      rw [e, mk_toReal h, real_sqrt, sgn_real, if_neg (by simp), ← sub_mul, abs_mul, abs_of_pos hU]
      obtain ⟨h1, h2⟩ := sqrt_err (big_N c1)
      have h1 := mul_le_mul_of_nonneg_right h1 hU.le
      have h2 := mul_le_mul_of_nonneg_right h2 hU.le
      refine ⟨by positivity, by positivity, ?_, ?_⟩ <;> linarith

theorem sqrt_is {x : F64} (hx : isFin x) (h0 : 0 ≤ x.toReal)
    (h : (1 + 1 / 2 ^ 53) * Real.sqrt x.toReal ≤ top * U) : isFin (sqrt x) := by
  have hU := U_pos
  obtain ⟨s, a, ha, rfl⟩ := isFin_iff hx
  rw [sqrt_eq]
  split_ifs with c1 c2
  · trivial
  · exfalso
    change 0 ≤ (sgn s a : ℝ) * U at h0
    rw [sgn_real, if_pos c2] at h0
    have : (0 : ℝ) < a := by exact_mod_cast Nat.pos_of_ne_zero c1
    nlinarith
  · have e : toReal (.fin s a ha) = a * U := by
      change (sgn s a : ℝ) * U = _
      rw [sgn_real, if_neg c2]
    apply mk_isFin
    rw [e, real_sqrt] at h
    have h1 := (abs_le.mp (sqrt_err (big_N c1)).1).2
    have : (1 + 1 / 2 ^ 53) * Real.sqrt ((a * 2 ^ 1074 : Nat) : ℝ) ≤ top := by
      refine le_of_mul_le_mul_right ?_ hU
      linarith
    linarith

theorem cmp_fin {f : Int → Int → Bool} {P : ℝ → ℝ → Prop}
    (h : ∀ a b : Int, f a b = true ↔ P (a * U) (b * U)) (x y : F64) (hx : isFin x) (hy : isFin y) :
    cmp f x y = true ↔ P x.toReal y.toReal := by
  obtain ⟨s, a, ha, rfl⟩ := isFin_iff hx
  obtain ⟨t, b, hb, rfl⟩ := isFin_iff hy
  exact h _ _

theorem abs_isFin {x : F64} : isFin (abs x) ↔ isFin x := by cases x <;> exact Iff.rfl

theorem abs_toReal (x : F64) : (abs x).toReal = |x.toReal| := by
  cases x with
  | nan => simp [abs, toReal]
  | inf => simp [abs, toReal]
  | fin s k h =>
    change (sgn false k : ℝ) * U = |(sgn s k : ℝ) * U|
    rw [abs_mul, abs_of_pos U_pos, sgn_abs]; simp [sgn]

theorem one_toReal : (1 : F64).toReal = 1 := by
  change (((sgn false (2 ^ 1074) : Int)) : ℝ) * U = 1
  rw [sgn_real, if_neg (by simp), cast_two_pow]
  exact one_div_mul_cancel U_pos.ne'

noncomputable instance : Fp F64 where
  val := toReal
  fin := isFin
  u := 1 / 2 ^ 53
  η := U / 2
  Ω := top * U
  u_nonneg := by positivity
  u_lt_one := by norm_num
  η_nonneg := by have := U_pos; positivity
  zero := ⟨trivial, zero_toReal false⟩
  one := ⟨trivial, one_toReal⟩
  neg x hx := ⟨neg_isFin.mpr hx, neg_toReal x⟩
  neg_fin x hx := neg_isFin.mp hx
  abs x := ⟨abs_isFin, fun _ => abs_toReal x⟩
  add x y h := ⟨(add_isFin h).1, (add_isFin h).2, add_err h⟩
  sub x y h := by
    rw [sub_def] at h ⊢
    have := add_err h
    rw [neg_toReal] at this
    exact ⟨(add_isFin h).1, neg_isFin.mp (add_isFin h).2, this⟩
  mul x y h := ⟨(mul_isFin h).1, (mul_isFin h).2, mul_err h⟩
  div_total _ _ := ⟨_, rfl⟩
  div x y z hz hf := by
    have hz : div x y = z := by simpa [RDiv.rdiv] using hz
    subst hz
    exact ⟨(div_isFin hf).1, fun hy => ⟨(div_isFin hf).2 hy, div_err hf hy⟩⟩
  sqrt_total _ := ⟨_, rfl⟩
  sqrt x z hz hf := by
    have hz : sqrt x = z := by simpa [FloatOps.sqrt] using hz
    subst hz
    exact sqrt_all hf
  lt x y := cmp_fin (fun a b => by
    rw [decide_eq_true_iff, mul_lt_mul_iff_left₀ U_pos]; exact Int.cast_lt.symm) x y
  le x y := cmp_fin (fun a b => by
    rw [decide_eq_true_iff, mul_le_mul_iff_left₀ U_pos]; exact Int.cast_le.symm) x y
  eq x y := cmp_fin (P := fun a b => a = b) (fun a b => by
    rw [decide_eq_true_iff, mul_left_inj' U_pos.ne']; exact Int.cast_inj.symm) x y
  mul_self x h := mul_self_nonneg' h
  add_fin x y hx hy h := add_is hx hy h
  sub_fin x y hx hy h := by
    rw [sub_def]
    refine add_is hx (neg_isFin.mpr hy) ?_
    rw [neg_toReal]; exact h
  mul_fin x y hx hy h := mul_is hx hy h
  div_fin x y z hz hx hy h0 h := by
    have hz : div x y = z := by simpa [RDiv.rdiv] using hz
    subst hz
    exact div_is hx hy h0 h
  sqrt_fin x z hz hx h0 h := by
    have hz : sqrt x = z := by simpa [FloatOps.sqrt] using hz
    subst hz
    exact sqrt_is hx h0 h

end LA.F64
