import Verif.Proofs.LUSigns
import Verif.Unbounded

/-! # Multiplication by powers of two commutes with rounding (no overflow, no underflow) -/

namespace LA
namespace Fu

theorem lg_lt {q : ℚ} (hq : 0 < q) : q < (2 : ℚ) ^ (lg q + 1) := by
  unfold lg
  dsimp only
  set l : Int := (q.num.natAbs.log2 : Int) - (q.den.log2 : Int) with hl
  have h2 : (0 : ℚ) < 2 := by norm_num
  split
  · have h1 : q.num.natAbs < 2 ^ (q.num.natAbs.log2 + 1) := Nat.lt_log2_self
    have h3 : 2 ^ q.den.log2 ≤ q.den := Nat.log2_self_le q.den_pos.ne'
    have h1' : (q.num.natAbs : ℚ) < (2 : ℚ) ^ (q.num.natAbs.log2 + 1) := by exact_mod_cast h1
    have h3' : (2 : ℚ) ^ q.den.log2 ≤ q.den := by exact_mod_cast h3
    have hd : (0 : ℚ) < q.den := by exact_mod_cast q.den_pos
    have hn : 0 < q.num := Rat.num_pos.mpr hq
    have e1 : q = (q.num.natAbs : ℚ) / q.den := by
      conv_lhs => rw [← Rat.num_div_den q]
      congr 1
      have : ((q.num.natAbs : Int) : ℚ) = (q.num : ℚ) := by rw [Int.natAbs_of_nonneg hn.le]
      exact this.symm.trans (Int.cast_natCast _)
    have e2 : (2 : ℚ) ^ (l + 1) = 2 ^ (q.num.natAbs.log2 + 1) / 2 ^ q.den.log2 := by
      rw [hl, show (q.num.natAbs.log2 : Int) - (q.den.log2 : Int) + 1 = ((q.num.natAbs.log2 + 1 : Nat) : Int) - (q.den.log2 : Int) by push_cast; ring,
        zpow_sub₀ h2.ne', zpow_natCast, zpow_natCast]
    rw [e2]
    nth_rewrite 1 [e1]
    exact div_lt_div₀ h1' h3' (by positivity) (by positivity)
  · rename_i h
    rw [sh_eq, zpow_neg, not_le, ← div_eq_mul_inv, div_lt_one (zpow_pos h2 l)] at h
    rwa [sub_add_cancel]

theorem lg_scale {q : ℚ} (hq : 0 < q) (k : ℤ) : lg (q * 2 ^ k) = lg q + k := by
  have hp : (0 : ℚ) < 2 ^ k := zpow_pos (by norm_num) k
  have h1 := lg_le (mul_pos hq hp)
  have h2 := lg_lt (mul_pos hq hp)
  have h3 := mul_le_mul_of_nonneg_right (lg_le hq) hp.le
  have h4 := mul_lt_mul_of_pos_right (lg_lt hq) hp
  rw [← zpow_add₀ (by norm_num)] at h3 h4
  have a := (zpow_lt_zpow_iff_right₀ (by norm_num : (1 : ℚ) < 2)).1 (h3.trans_lt h2)
  have b := (zpow_lt_zpow_iff_right₀ (by norm_num : (1 : ℚ) < 2)).1 (h1.trans_lt h4)
  omega

theorem rnd_scale (q : ℚ) (k : ℤ) : rnd (q * 2 ^ k) = rnd q * 2 ^ k := by
  have hp : (0 : ℚ) < 2 ^ k := zpow_pos (by norm_num) k
  by_cases h : q = 0
  · subst h; simp [rnd]
  unfold rnd
  rw [if_neg h, if_neg (mul_ne_zero h hp.ne'), abs_mul, abs_of_pos hp, lg_scale (abs_pos.2 h)]
  simp only [sh_eq]
  rw [mul_assoc q, ← zpow_add₀ (by norm_num), show k + (52 - (lg |q| + k)) = 52 - lg |q| by ring, mul_assoc, ← zpow_add₀ (by norm_num)]
  congr 2
  ring

theorem rt_scale {q : ℚ} (hq : 0 < q) (k : ℤ) : rt (q * 2 ^ (2 * k)) = rt q * 2 ^ k := by
  unfold rt
  dsimp only
  rw [lg_scale hq]
  have e : (105 - (lg q + 2 * k)) / 2 = (105 - lg q) / 2 - k := by omega
  rw [e]
  have e2 : sh (q * 2 ^ (2 * k)) (2 * ((105 - lg q) / 2 - k)) = sh q (2 * ((105 - lg q) / 2)) := by
    rw [sh_eq, sh_eq, mul_assoc, ← zpow_add₀ (by norm_num)]
    congr 2
    ring
  rw [e2]
  simp only [sh_eq]
  rw [mul_assoc, ← zpow_add₀ (by norm_num)]
  congr 2
  ring

/-- `y` is `2^k · x`. -/
def Sc (k : ℤ) (x y : Fu) : Prop := y.q = x.q * 2 ^ k

theorem two_pos (k : ℤ) : (0 : ℚ) < 2 ^ k := zpow_pos (by norm_num) k

namespace Sc
variable {k l : ℤ} {x x' y y' : Fu}

theorem zero (k : ℤ) : Sc k 0 0 := by show (0 : ℚ) = 0 * _; simp

theorem of_zero (h : x.q = 0) (hx : Sc k x x') (l : ℤ) : Sc l x x' := by
  unfold Sc at *
  rw [hx, h]; simp

theorem refl (x : Fu) : Sc 0 x x := by unfold Sc; simp

theorem eq (h : Sc 0 x y) : y = x := by
  unfold Sc at h
  rw [zpow_zero, mul_one] at h
  cases x; cases y; simp_all

theorem neg (h : Sc k x x') : Sc k (-x) (-x') := by
  show -x'.q = -x.q * _
  rw [h]; ring

theorem add (h : Sc k x x') (g : Sc k y y') : Sc k (x + y) (x' + y') := by
  show rnd (x'.q + y'.q) = rnd (x.q + y.q) * _
  rw [h, g, ← add_mul, rnd_scale]

theorem sub (h : Sc k x x') (g : Sc k y y') : Sc k (x - y) (x' - y') := by
  show rnd (x'.q - y'.q) = rnd (x.q - y.q) * _
  rw [h, g, ← sub_mul, rnd_scale]

theorem mul (h : Sc k x x') (g : Sc l y y') : Sc (k + l) (x * y) (x' * y') := by
  show rnd (x'.q * y'.q) = rnd (x.q * y.q) * _
  rw [h, g, ← rnd_scale, zpow_add₀ (by norm_num)]
  congr 1
  ring

theorem cast (h : Sc k x x') (e : k = l) : Sc l x x' := e ▸ h

theorem zero_iff (h : Sc k x x') : x'.q = 0 ↔ x.q = 0 := by
  rw [h, mul_eq_zero]
  exact ⟨fun h => h.resolve_right (two_pos k).ne', Or.inl⟩

theorem abs (h : Sc k x x') : Sc k (FloatOps.abs x) (FloatOps.abs x') := by
  show |x'.q| = |x.q| * _
  rw [h, abs_mul, abs_of_pos (two_pos k)]

theorem lt (h : Sc k x x') (g : Sc k y y') : (FloatOps.lt x' y' : Bool) = FloatOps.lt x y := by
  show decide (x'.q < y'.q) = decide (x.q < y.q)
  rw [h, g, decide_eq_decide]
  exact mul_lt_mul_iff_of_pos_right (two_pos k)

theorem le (h : Sc k x x') (g : Sc k y y') : (FloatOps.le x' y' : Bool) = FloatOps.le x y := by
  show decide (x'.q ≤ y'.q) = decide (x.q ≤ y.q)
  rw [h, g, decide_eq_decide]
  exact mul_le_mul_iff_of_pos_right (two_pos k)

theorem feq (h : Sc k x x') (g : Sc k y y') : (FloatOps.eq x' y' : Bool) = FloatOps.eq x y := by
  show decide (x'.q = y'.q) = decide (x.q = y.q)
  rw [h, g, decide_eq_decide]
  exact mul_left_inj' (two_pos k).ne'

theorem div (h : Sc k x x') (g : Sc l y y') :
    (RDiv.rdiv x y = .error .undef ∧ RDiv.rdiv x' y' = .error .undef) ∨
      ∃ z z', RDiv.rdiv x y = .ok z ∧ RDiv.rdiv x' y' = .ok z' ∧ Sc (k - l) z z' := by
  show ((if y.q = 0 then .error .undef else .ok ⟨rnd (x.q / y.q)⟩ : R Fu) = _ ∧ (if y'.q = 0 then .error .undef else .ok ⟨rnd (x'.q / y'.q)⟩ : R Fu) = _) ∨
    ∃ z z', (if y.q = 0 then .error .undef else .ok ⟨rnd (x.q / y.q)⟩ : R Fu) = _ ∧ (if y'.q = 0 then .error .undef else .ok ⟨rnd (x'.q / y'.q)⟩ : R Fu) = _ ∧ _
  by_cases h0 : y.q = 0
  · exact Or.inl ⟨if_pos h0, if_pos (g.zero_iff.2 h0)⟩
  · refine Or.inr ⟨_, _, if_neg h0, if_neg (fun h => h0 (g.zero_iff.1 h)), ?_⟩
    show rnd (x'.q / y'.q) = rnd (x.q / y.q) * _
    rw [h, g, ← rnd_scale, zpow_sub₀ (by norm_num)]
    congr 1
    field_simp

theorem sqrt (h : Sc (2 * k) x x') :
    (FloatOps.sqrt x = .error .undef ∧ FloatOps.sqrt x' = .error .undef) ∨
      ∃ z z', FloatOps.sqrt x = .ok z ∧ FloatOps.sqrt x' = .ok z' ∧ Sc k z z' := by
  show ((if x.q < 0 then .error .undef else .ok ⟨if x.q = 0 then 0 else rt x.q⟩ : R Fu) = _ ∧
      (if x'.q < 0 then .error .undef else .ok ⟨if x'.q = 0 then 0 else rt x'.q⟩ : R Fu) = _) ∨
    ∃ z z', (if x.q < 0 then .error .undef else .ok ⟨if x.q = 0 then 0 else rt x.q⟩ : R Fu) = _ ∧
      (if x'.q < 0 then .error .undef else .ok ⟨if x'.q = 0 then 0 else rt x'.q⟩ : R Fu) = _ ∧ _
  have hs : x'.q < 0 ↔ x.q < 0 := by
    rw [h]
    exact ⟨fun q => by
      by_contra hc
      exact absurd q (not_lt.2 (mul_nonneg (not_lt.1 hc) (two_pos _).le)), fun q => mul_neg_of_neg_of_pos q (two_pos _)⟩
  by_cases h0 : x.q < 0
  · exact Or.inl ⟨if_pos h0, if_pos (hs.2 h0)⟩
  · refine Or.inr ⟨_, _, if_neg h0, if_neg (fun q => h0 (hs.1 q)), ?_⟩
    show (if x'.q = 0 then 0 else rt x'.q) = (if x.q = 0 then 0 else rt x.q) * _
    by_cases h1 : x.q = 0
    · rw [if_pos h1, if_pos (h.zero_iff.2 h1), zero_mul]
    · rw [if_neg h1, if_neg (fun q => h1 (h.zero_iff.1 q)), h]
      exact rt_scale (lt_of_le_of_ne (not_lt.1 h0) (Ne.symm h1)) k

end Sc
end Fu
end LA
