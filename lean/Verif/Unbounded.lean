import Verif.Standard
import Verif.IEEEFp

/-!
# `f64` with an unbounded exponent range

Numbers with 53 significant bits, every operation rounded to nearest (ties to even), but with no overflow and no underflow: an instance of
the standard model with `u = 2^-53` whose runs can be evaluated by the kernel.  A number is stored as a rational; what the operations
return has 53 significant bits.
-/

namespace LA

/-- A number of the unbounded format. -/
structure Fu where
  /-- the number -/
  q : ℚ
deriving DecidableEq

namespace Fu

/-- `q · 2^s`. -/
def sh (q : ℚ) : Int → ℚ
  | .ofNat n => q * ((2 ^ n : Nat) : ℚ)
  | .negSucc n => q / ((2 ^ (n + 1) : Nat) : ℚ)

/-- An exponent `e` with `2^e ≤ q < 2^(e+1)`, for `q > 0`. -/
def lg (q : ℚ) : Int :=
  let l : Int := (q.num.natAbs.log2 : Int) - (q.den.log2 : Int)
  if 1 ≤ sh q (-l) then l else l - 1

/-- The integer nearest to `x`, ties to even. -/
def near (x : ℚ) : Int :=
  if x - ⌊x⌋ < 1 / 2 then ⌊x⌋ else if 1 / 2 < x - ⌊x⌋ then ⌊x⌋ + 1 else ⌊x⌋ + ⌊x⌋ % 2

/-- `q` rounded to 53 significant bits. -/
def rnd (q : ℚ) : ℚ := if q = 0 then 0 else sh (near (sh q (52 - lg |q|))) (lg |q| - 52)

/-- The square root of `q > 0` rounded to 53 significant bits: `k` is the integer part of the scaled root. -/
def rt (q : ℚ) : ℚ :=
  let s : Int := (105 - lg q) / 2
  let y := sh q (2 * s)
  let k := F64.root ⌊y⌋.toNat
  sh (if (2 * (k : ℚ) + 1) * (2 * (k : ℚ) + 1) < 4 * y then (k : ℚ) + 1 else (k : ℚ)) (-s)

instance : Zero Fu := ⟨⟨0⟩⟩
instance : One Fu := ⟨⟨1⟩⟩
instance : Add Fu := ⟨fun x y => ⟨rnd (x.q + y.q)⟩⟩
instance : Sub Fu := ⟨fun x y => ⟨rnd (x.q - y.q)⟩⟩
instance : Mul Fu := ⟨fun x y => ⟨rnd (x.q * y.q)⟩⟩
instance : Neg Fu := ⟨fun x => ⟨-x.q⟩⟩

instance : FloatOps Fu where
  rdiv x y := if y.q = 0 then .error .undef else .ok ⟨rnd (x.q / y.q)⟩
  sqrt x := if x.q < 0 then .error .undef else .ok ⟨if x.q = 0 then 0 else rt x.q⟩
  abs x := ⟨|x.q|⟩
  lt x y := decide (x.q < y.q)
  le x y := decide (x.q ≤ y.q)
  eq x y := decide (x.q = y.q)
  max x y := ⟨max x.q y.q⟩
  powf x _ := .ok x
  cst p q := ⟨rnd (p / q)⟩

theorem sh_eq (q : ℚ) (s : Int) : sh q s = q * (2 : ℚ) ^ s := by
  cases s with
  | ofNat n => simp [sh]
  | negSucc n => rw [sh, zpow_negSucc]; push_cast; rw [div_eq_mul_inv]

theorem lg_le {q : ℚ} (hq : 0 < q) : (2 : ℚ) ^ lg q ≤ q := by
  unfold lg
  dsimp only
  set l : Int := (q.num.natAbs.log2 : Int) - (q.den.log2 : Int) with hl
  have h2 : (0 : ℚ) < 2 := by norm_num
  split
  · rename_i h
    rw [sh_eq, zpow_neg] at h
    have := zpow_pos h2 l
    rwa [← div_eq_mul_inv, one_le_div this] at h
  · have hn : 0 < q.num := Rat.num_pos.mpr hq
    have h1 : 2 ^ q.num.natAbs.log2 ≤ q.num.natAbs := Nat.log2_self_le (by omega)
    have h3 : q.den < 2 ^ (q.den.log2 + 1) := Nat.lt_log2_self
    have h1' : (2 : ℚ) ^ q.num.natAbs.log2 ≤ (q.num.natAbs : ℚ) := by exact_mod_cast h1
    have h3' : (q.den : ℚ) ≤ 2 ^ (q.den.log2 + 1) := by exact_mod_cast h3.le
    have hd : (0 : ℚ) < q.den := by exact_mod_cast q.den_pos
    have e1 : q = (q.num.natAbs : ℚ) / q.den := by
      conv_lhs => rw [← Rat.num_div_den q]
      congr 1
      have : ((q.num.natAbs : Int) : ℚ) = (q.num : ℚ) := by rw [Int.natAbs_of_nonneg hn.le]
      exact this.symm.trans (Int.cast_natCast _)
    have e2 : (2 : ℚ) ^ (l - 1) = 2 ^ q.num.natAbs.log2 / 2 ^ (q.den.log2 + 1) := by
      rw [hl, show (q.num.natAbs.log2 : Int) - (q.den.log2 : Int) - 1 = (q.num.natAbs.log2 : Int) - ((q.den.log2 + 1 : Nat) : Int) by push_cast; ring,
        zpow_sub₀ h2.ne', zpow_natCast, zpow_natCast]
    rw [e2]
    nth_rewrite 3 [e1]
    exact div_le_div₀ (Nat.cast_nonneg _) h1' hd h3'

theorem near_err (x : ℚ) : |(near x : ℚ) - x| ≤ 1 / 2 := by
  have h1 := Int.floor_le x
  have h2 := Int.lt_floor_add_one x
  unfold near
  rw [abs_le]
  split_ifs with h3 h4
  · constructor <;> linarith
  · push_cast; constructor <;> linarith
  · have h5 : x - ⌊x⌋ = 1 / 2 := le_antisymm (not_lt.1 h4) (not_lt.1 h3)
    rcases Int.emod_two_eq_zero_or_one ⌊x⌋ with h | h
    · rw [h]; push_cast; constructor <;> linarith
    · rw [h]; push_cast; constructor <;> linarith

theorem rnd_err (q : ℚ) : |rnd q - q| ≤ 1 / 2 ^ 53 * |q| := by
  unfold rnd
  by_cases h : q = 0
  · rw [if_pos h, h]; simp
  rw [if_neg h]
  have hq : 0 < |q| := abs_pos.2 h
  have h1 := lg_le hq
  set e := lg |q|
  rw [sh_eq, sh_eq]
  have h2 := near_err (q * (2 : ℚ) ^ (52 - e))
  have hp : (0 : ℚ) < 2 ^ (e - 52) := zpow_pos (by norm_num) _
  have e1 : (2 : ℚ) ^ (52 - e) * 2 ^ (e - 52) = 1 := by
    rw [← zpow_add₀ (by norm_num)]; simp
  have e2 : (near (q * (2 : ℚ) ^ (52 - e)) : ℚ) * 2 ^ (e - 52) - q =
      ((near (q * (2 : ℚ) ^ (52 - e)) : ℚ) - q * (2 : ℚ) ^ (52 - e)) * 2 ^ (e - 52) := by
    rw [sub_mul, mul_assoc, e1, mul_one]
  rw [e2, abs_mul, abs_of_pos hp]
  have h3 := mul_le_mul_of_nonneg_right h2 hp.le
  have e3 : (2 : ℚ) ^ (e - 52) = 2 ^ e / 2 ^ 52 := by
    rw [zpow_sub₀ (by norm_num)]; norm_cast
  rw [e3] at h3 ⊢
  refine h3.trans ?_
  have : (1 : ℚ) / 2 * (2 ^ e / 2 ^ 52) = 1 / 2 ^ 53 * 2 ^ e := by ring
  rw [this]
  exact mul_le_mul_of_nonneg_left h1 (by positivity)

theorem rnd_err' (q : ℚ) : |((rnd q : ℚ) : ℝ) - (q : ℝ)| ≤ 1 / 2 ^ 53 * |(q : ℝ)| := by
  have h : ((|rnd q - q| : ℚ) : ℝ) ≤ ((1 / 2 ^ 53 * |q| : ℚ) : ℝ) := Rat.cast_le.2 (rnd_err q)
  push_cast at h
  exact h

theorem rt_err {q : ℚ} (hq : 0 < q) : |((rt q : ℚ) : ℝ) - Real.sqrt q| ≤ 1 / 2 ^ 53 * Real.sqrt q := by
  unfold rt
  dsimp only
  set s : Int := (105 - lg q) / 2 with hs
  set y := sh q (2 * s) with hy
  have hy1 : (2 : ℚ) ^ 104 ≤ y := by
    rw [hy, sh_eq]
    have h1 := lg_le hq
    have h2 : (104 : Int) ≤ lg q + 2 * s := by omega
    have h3 : (2 : ℚ) ^ (104 : Int) ≤ 2 ^ (lg q + 2 * s) := zpow_le_zpow_right₀ (by norm_num) h2
    rw [zpow_add₀ (by norm_num)] at h3
    have h4 : (0 : ℚ) < 2 ^ (2 * s) := zpow_pos (by norm_num) _
    have h5 := mul_le_mul_of_nonneg_right h1 h4.le
    have e : (2 : ℚ) ^ (104 : Int) = 2 ^ 104 := by norm_cast
    rw [e] at h3
    exact h3.trans h5
  set N := ⌊y⌋.toNat with hN
  have hfl : 0 ≤ ⌊y⌋ := Int.floor_nonneg.2 (by linarith [show (0 : ℚ) < 2 ^ 104 by positivity])
  have hNy : (N : ℚ) ≤ y := by
    have := Int.floor_le y
    have e : ((N : Int) : ℚ) = (⌊y⌋ : ℚ) := by rw [hN, Int.toNat_of_nonneg hfl]
    have e' : (N : ℚ) = (⌊y⌋ : ℚ) := by rw [← e]; norm_cast
    linarith
  have hyN : y < (N : ℚ) + 1 := by
    have := Int.lt_floor_add_one y
    have e : ((N : Int) : ℚ) = (⌊y⌋ : ℚ) := by rw [hN, Int.toNat_of_nonneg hfl]
    have e' : (N : ℚ) = (⌊y⌋ : ℚ) := by rw [← e]; norm_cast
    linarith
  obtain ⟨r1, r2⟩ := F64.root_spec N
  set k := F64.root N
  have hyr : (0 : ℝ) ≤ (y : ℝ) := by
    have : (0 : ℚ) ≤ y := le_trans (Nat.cast_nonneg N) hNy
    exact_mod_cast this
  have hsq := Real.sq_sqrt hyr
  have hs0 := Real.sqrt_nonneg (y : ℝ)
  set t := Real.sqrt (y : ℝ) with ht
  have hkt : (k : ℝ) ≤ t := by
    refine Real.le_sqrt_of_sq_le ?_
    have a : (k : ℚ) * k ≤ N := by exact_mod_cast r1
    have b : (k : ℚ) * k ≤ y := a.trans hNy
    rw [sq]; exact_mod_cast b
  have htk : t ≤ (k : ℝ) + 1 := by
    refine Real.sqrt_le_iff.2 ⟨by positivity, ?_⟩
    have a : (N : ℚ) + 1 ≤ ((k : ℚ) + 1) * ((k : ℚ) + 1) := by exact_mod_cast r2
    have b : y ≤ ((k : ℚ) + 1) * ((k : ℚ) + 1) := hyN.le.trans a
    rw [sq]; exact_mod_cast b
  have ht52 : (2 : ℝ) ^ 52 ≤ t := by
    refine Real.le_sqrt_of_sq_le ?_
    have b : ((2 : ℚ) ^ 52) ^ 2 ≤ y := by
      refine le_trans (le_of_eq ?_) hy1
      norm_num
    exact_mod_cast b
  set r : ℚ := if (2 * (k : ℚ) + 1) * (2 * (k : ℚ) + 1) < 4 * y then (k : ℚ) + 1 else (k : ℚ) with hr
  have herr : |(r : ℝ) - t| ≤ 1 / 2 := by
    by_cases h : (2 * (k : ℚ) + 1) * (2 * (k : ℚ) + 1) < 4 * y
    · have h' : (2 * (k : ℝ) + 1) * (2 * (k : ℝ) + 1) < 4 * (y : ℝ) := by exact_mod_cast h
      have h2 : 2 * (k : ℝ) + 1 < 2 * t := by
        refine lt_of_pow_lt_pow_left₀ 2 (by positivity) ?_
        nlinarith
      rw [hr, if_pos h]; push_cast
      rw [abs_le]; constructor <;> linarith
    · have h' : 4 * (y : ℝ) ≤ (2 * (k : ℝ) + 1) * (2 * (k : ℝ) + 1) := by
        have := not_lt.1 h
        exact_mod_cast this
      have h2 : 2 * t ≤ 2 * (k : ℝ) + 1 := by
        refine le_of_sq_le_sq ?_ (by positivity)
        nlinarith
      rw [hr, if_neg h]; push_cast
      rw [abs_le]; constructor <;> linarith
  have hp : (0 : ℝ) < 2 ^ (-s) := zpow_pos (by norm_num) _
  have eq : Real.sqrt q = t * 2 ^ (-s) := by
    have e1 : (y : ℝ) = (q : ℝ) * (2 ^ s) ^ 2 := by
      rw [hy, sh_eq]; push_cast
      congr 1
      rw [← zpow_natCast, ← zpow_mul]; congr 1; push_cast; ring
    have e2 : t = Real.sqrt q * 2 ^ s := by
      rw [ht, e1, Real.sqrt_mul (by exact_mod_cast hq.le), Real.sqrt_sq (zpow_pos (by norm_num) _).le]
    rw [e2, mul_assoc, ← zpow_add₀ (by norm_num)]; simp
  rw [sh_eq, eq]
  push_cast
  rw [← sub_mul, abs_mul, abs_of_pos hp]
  have h6 := mul_le_mul_of_nonneg_right herr hp.le
  refine h6.trans ?_
  rw [← mul_assoc]
  refine mul_le_mul_of_nonneg_right ?_ hp.le
  have : (1 : ℝ) / 2 ^ 53 * 2 ^ 52 = 1 / 2 := by norm_num
  nlinarith

/-- The unbounded format is an instance of the standard model with `u = 2^-53`. -/
noncomputable instance : Sfp Fu where
  val x := (x.q : ℝ)
  u := 1 / 2 ^ 53
  u_nonneg := by positivity
  u_lt_one := by norm_num
  zero := by show ((0 : ℚ) : ℝ) = 0; simp
  one := by show ((1 : ℚ) : ℝ) = 1; simp
  neg x := by show ((-x.q : ℚ) : ℝ) = _; push_cast; rfl
  abs x := by show ((|x.q| : ℚ) : ℝ) = _; push_cast; rfl
  max x y := by show ((max x.q y.q : ℚ) : ℝ) = _; push_cast; rfl
  add x y := by
    have := rnd_err' (x.q + y.q)
    push_cast at this
    exact this
  sub x y := by
    have := rnd_err' (x.q - y.q)
    push_cast at this
    exact this
  mul x y := by
    have := rnd_err' (x.q * y.q)
    push_cast at this
    exact this
  div x y h := by
    have h0 : y.q ≠ 0 := by exact_mod_cast h
    refine ⟨⟨rnd (x.q / y.q)⟩, if_neg h0, ?_⟩
    have := rnd_err' (x.q / y.q)
    push_cast at this
    exact this
  sqrt x h := by
    have h0 : 0 ≤ x.q := by exact_mod_cast h
    refine ⟨⟨if x.q = 0 then 0 else rt x.q⟩, if_neg (not_lt.2 h0), ?_⟩
    by_cases e : x.q = 0
    · rw [if_pos e, e]; simp
    · rw [if_neg e]; exact rt_err (lt_of_le_of_ne h0 (Ne.symm e))
  lt x y := by show decide (x.q < y.q) = true ↔ _; rw [decide_eq_true_iff]; norm_cast
  le x y := by show decide (x.q ≤ y.q) = true ↔ _; rw [decide_eq_true_iff]; norm_cast
  eq x y := by show decide (x.q = y.q) = true ↔ _; rw [decide_eq_true_iff]; norm_cast
  cst p q := by
    have := rnd_err' ((p : ℚ) / (q : ℚ))
    push_cast at this
    exact this

end Fu
end LA
