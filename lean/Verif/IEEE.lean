import Verif.Rounding

/-!
# IEEE 754 binary64

Rust's `f64` as a computable type: one NaN, two infinities, and the finite numbers `±k·2^-1074`.  Every operation is the correctly
rounded one (to nearest, ties to even), so runs of the model on `f64` matrices can be evaluated by the kernel.  `F64` is an instance of
`Fp`, with `u = 2^-53` and `η = 2^-1075`.
-/

namespace LA

/-- `k·2^-1074` is a binary64 number: at most 53 significant bits, below `2^1024`. -/
def rep (k : Nat) : Bool := decide (k % 2 ^ (k.log2 - 52) = 0) && decide (k < 2 ^ 2098)

/-- The values of Rust's `f64` (all NaNs identified). -/
inductive F64 where
  /-- not a number -/
  | nan
  /-- an infinity; `true` is the negative one -/
  | inf (neg : Bool)
  /-- `±k·2^-1074`; `true` is the negative sign -/
  | fin (neg : Bool) (k : Nat) (h : rep k = true)
deriving DecidableEq

namespace F64

/-- The exponent of the last place of the binary64 numbers near `a/b` (in units of `2^-1074`). -/
def ulp (a b : Nat) : Nat := (a / b).log2 - 52

/-- `a/b` rounded to a multiple of its last place, to nearest, ties to even. -/
def rnd (a b : Nat) : Nat :=
  (if b * 2 ^ ulp a b < 2 * (a % (b * 2 ^ ulp a b)) then a / (b * 2 ^ ulp a b) + 1
    else if 2 * (a % (b * 2 ^ ulp a b)) = b * 2 ^ ulp a b then a / (b * 2 ^ ulp a b) + a / (b * 2 ^ ulp a b) % 2
    else a / (b * 2 ^ ulp a b)) * 2 ^ ulp a b

theorem rnd_form (a b : Nat) : ∃ t, rnd a b = t * 2 ^ ulp a b ∧ a / (b * 2 ^ ulp a b) ≤ t ∧ t ≤ a / (b * 2 ^ ulp a b) + 1 := by
  unfold rnd
  refine ⟨_, rfl, ?_, ?_⟩ <;> split_ifs <;> omega

theorem quot_lt (a b : Nat) : a / (b * 2 ^ ulp a b) < 2 ^ 53 := by
  rw [← Nat.div_div_eq_div_mul, Nat.div_lt_iff_lt_mul (by positivity), ← pow_add]
  have := Nat.lt_log2_self (n := a / b)
  refine this.trans_le (Nat.pow_le_pow_right (by norm_num) ?_)
  unfold ulp; omega

theorem quot_ge {a b : Nat} (h : 0 < ulp a b) : 2 ^ 52 ≤ a / (b * 2 ^ ulp a b) := by
  rw [← Nat.div_div_eq_div_mul, Nat.le_div_iff_mul_le (by positivity), ← pow_add]
  have h0 : a / b ≠ 0 := by
    intro e; unfold ulp at h; rw [e] at h; simp at h
  have := Nat.log2_self_le h0
  refine le_trans (Nat.pow_le_pow_right (by norm_num) ?_) this
  unfold ulp at h ⊢; omega

theorem rep_of {t s : Nat} (ht : t ≤ 2 ^ 53) : (t * 2 ^ s) % 2 ^ ((t * 2 ^ s).log2 - 52) = 0 := by
  rcases Nat.eq_zero_or_pos t with h | h
  · simp [h]
  rcases ht.eq_or_lt with e | e
  · rw [e, ← pow_add, Nat.log2_two_pow]
    exact Nat.mod_eq_zero_of_dvd (pow_dvd_pow _ (by omega))
  · have : (t * 2 ^ s).log2 < 53 + s := by
      rw [Nat.log2_lt (by positivity), pow_add]
      exact Nat.mul_lt_mul_of_pos_right e (by positivity)
    exact Nat.mod_eq_zero_of_dvd ((pow_dvd_pow 2 (by omega)).trans (Dvd.intro_left _ rfl))

theorem rep_rnd {a b : Nat} (h : rnd a b < 2 ^ 2098) : rep (rnd a b) = true := by
  unfold rep
  rw [Bool.and_eq_true, decide_eq_true_iff, decide_eq_true_iff]
  refine ⟨?_, h⟩
  obtain ⟨t, e, _, h2⟩ := rnd_form a b
  rw [e]
  exact rep_of (by have := quot_lt a b; omega)

/-- The binary64 value nearest to `±a/b` units: infinite when the rounded number is too large. -/
def mk (neg : Bool) (a b : Nat) : F64 :=
  if h : rnd a b < 2 ^ 2098 then .fin neg (rnd a b) (rep_rnd h) else .inf neg

/-- The integer `±k`. -/
def sgn (neg : Bool) (k : Nat) : Int := if neg then -(k : Int) else k

/-- Zero with a sign. -/
def zero (neg : Bool) : F64 := .fin neg 0 (by decide +kernel)

/-- Negation (flips the sign of zero too). -/
def neg : F64 → F64
  | .nan => .nan
  | .inf s => .inf (!s)
  | .fin s k h => .fin (!s) k h

/-- Addition: an exact zero sum is `+0` unless both terms are `-0`. -/
def add : F64 → F64 → F64
  | .nan, _ => .nan
  | _, .nan => .nan
  | .inf s, .inf t => if s = t then .inf s else .nan
  | .inf s, .fin _ _ _ => .inf s
  | .fin _ _ _, .inf t => .inf t
  | .fin s a _, .fin t b _ =>
    if sgn s a + sgn t b = 0 then zero (s && t)
    else mk (decide (sgn s a + sgn t b < 0)) (sgn s a + sgn t b).natAbs 1

/-- Multiplication. -/
def mul : F64 → F64 → F64
  | .nan, _ => .nan
  | _, .nan => .nan
  | .inf s, .inf t => .inf (s != t)
  | .inf s, .fin t b _ => if b = 0 then .nan else .inf (s != t)
  | .fin s a _, .inf t => if a = 0 then .nan else .inf (s != t)
  | .fin s a _, .fin t b _ => mk (s != t) (a * b) (2 ^ 1074)

/-- Division. -/
def div : F64 → F64 → F64
  | .nan, _ => .nan
  | _, .nan => .nan
  | .inf _, .inf _ => .nan
  | .inf s, .fin t _ _ => .inf (s != t)
  | .fin s _ _, .inf t => zero (s != t)
  | .fin s a _, .fin t b _ =>
    if b = 0 then (if a = 0 then .nan else .inf (s != t)) else mk (s != t) (a * 2 ^ 1074) b

/-- The bits `i-1, …, 0` of the integer square root, the higher ones being those of `s`. -/
def isqrt (N : Nat) : Nat → Nat → Nat
  | 0, s => s
  | i + 1, s => if (s + 2 ^ i) * (s + 2 ^ i) ≤ N then isqrt N i (s + 2 ^ i) else isqrt N i s

/-- The integer square root. -/
def root (N : Nat) : Nat := isqrt N (N.log2 / 2 + 1) 0

/-- Square root: an irrational root lies strictly between two integers (in units), and rounds as their midpoint does. -/
def sqrt : F64 → F64
  | .nan => .nan
  | .inf s => if s then .nan else .inf false
  | .fin s a h =>
    if a = 0 then .fin s a h
    else if s then .nan
    else mk false (2 * root (a * 2 ^ 1074) + (if root (a * 2 ^ 1074) * root (a * 2 ^ 1074) = a * 2 ^ 1074 then 0 else 1)) 2

/-- Comparisons: false on NaN. -/
def cmp (f : Int → Int → Bool) : F64 → F64 → Bool
  | .nan, _ => false
  | _, .nan => false
  | .inf s, .inf t => f (sgn s 1) (sgn t 1)
  | .inf s, .fin _ _ _ => f (sgn s 1) 0
  | .fin _ _ _, .inf t => f 0 (sgn t 1)
  | .fin s a _, .fin t b _ => f (sgn s a) (sgn t b)

/-- `f64::abs` -/
def abs : F64 → F64
  | .nan => .nan
  | .inf _ => .inf false
  | .fin _ k h => .fin false k h

/-- `f64::max`: the other argument when one is NaN. -/
def max (x y : F64) : F64 :=
  if x = .nan then y else if cmp (fun a b => decide (a < b)) x y then y else x

/-- The number `p/q`. -/
def ofRat (p : Int) (q : Nat) : F64 := mk (decide (p < 0)) (p.natAbs * 2 ^ 1074) q

instance : Zero F64 := ⟨zero false⟩
instance : One F64 := ⟨.fin false (2 ^ 1074) (by decide +kernel)⟩
instance : Add F64 := ⟨add⟩
instance : Neg F64 := ⟨neg⟩
instance : Sub F64 := ⟨fun x y => add x (neg y)⟩
instance : Mul F64 := ⟨mul⟩

instance : FloatOps F64 where
  rdiv x y := .ok (div x y)
  sqrt x := .ok (sqrt x)
  abs := abs
  lt := cmp fun a b => decide (a < b)
  le := cmp fun a b => decide (a ≤ b)
  eq := cmp fun a b => decide (a = b)
  max := max
  powf _ _ := .error .undef
  cst := ofRat

attribute [irreducible] rep rnd mk root

end F64
end LA
