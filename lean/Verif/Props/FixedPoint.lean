import Verif.Proofs.F64Alg
import Verif.Props.Elementwise
import Verif.Props.Accuracy

/-!
# C86: arithmetic on small multiples of a power of two is exact
-/

namespace LA.Props
open LA F64
set_option linter.unusedSectionVars false

/-- `x` is the number `z·2^e`. -/
def Fixed (e : Int) (x : F64) (z : Int) : Prop := isFin x ∧ x.toReal = z * (2 : ℝ) ^ e

theorem U_zpow : U = (2 : ℝ) ^ (-1074 : Int) := by
  unfold U
  rw [zpow_neg, one_div]; norm_cast

/-- In units of `2^-1074`. -/
theorem fixed_iff {e : Int} (he : -1074 ≤ e) {s : Bool} {k : Nat} {h : rep k = true} {z : Int} :
    Fixed e (.fin s k h) z ↔ sgn s k = z * 2 ^ (e + 1074).toNat := by
  have hU := U_pos
  have h2 : (2 : ℝ) ^ e = ((2 ^ (e + 1074).toNat : Int) : ℝ) * U := by
    rw [U_zpow]
    push_cast
    rw [← zpow_natCast, Int.toNat_of_nonneg (by omega), ← zpow_add₀ (by norm_num)]
    congr 1; omega
  unfold Fixed
  show True ∧ ((sgn s k : Int) : ℝ) * U = _ ↔ _
  rw [h2, ← mul_assoc, mul_left_inj' hU.ne', true_and]
  norm_cast

theorem rep_fixed {z : Int} {t : Nat} (hz : |z| ≤ 2 ^ 53) (ht : t ≤ 2044) : rep (z.natAbs * 2 ^ t) = true := by
  have h1 : z.natAbs ≤ 2 ^ 53 := by zify; exact hz
  unfold rep
  rw [Bool.and_eq_true, decide_eq_true_iff, decide_eq_true_iff]
  refine ⟨rep_of h1, ?_⟩
  calc z.natAbs * 2 ^ t ≤ 2 ^ 53 * 2 ^ 2044 := Nat.mul_le_mul h1 (Nat.pow_le_pow_right (by norm_num) ht)
    _ = 2 ^ 2097 := by rw [← pow_add]
    _ < 2 ^ 2098 := Nat.pow_lt_pow_right (by norm_num) (by norm_num)

theorem fixed_add {e : Int} (he : -1074 ≤ e) (he' : e ≤ 970) {x y : F64} {z w : Int} (hx : Fixed e x z) (hy : Fixed e y w)
    (h : |z + w| ≤ 2 ^ 53) : Fixed e (x + y) (z + w) := by
  obtain ⟨s, a, ha, rfl⟩ := isFin_iff hx.1
  obtain ⟨t, b, hb, rfl⟩ := isFin_iff hy.1
  rw [fixed_iff he] at hx hy
  have hsum : sgn s a + sgn t b = (z + w) * 2 ^ (e + 1074).toNat := by rw [hx, hy]; ring
  rw [add_fin_eq]
  split
  · next h0 =>
    rw [h0] at hsum
    refine (fixed_iff he).2 ?_
    rw [← hsum, sgn_zero]
  · have hn : (sgn s a + sgn t b).natAbs = (z + w).natAbs * 2 ^ (e + 1074).toNat := by
      rw [hsum, Int.natAbs_mul, Int.natAbs_pow]; rfl
    have hr := rep_fixed (t := (e + 1074).toNat) h (by omega)
    have := mk_exact (s := decide (sgn s a + sgn t b < 0)) (b := 1) one_pos hr
    rw [Nat.mul_one] at this
    rw [hn, this, fixed_iff he, ← hn, ← hsum]
    generalize sgn s a + sgn t b = v
    unfold sgn
    split_ifs with hv <;> simp at hv <;> omega

theorem fixed_neg {e : Int} {x : F64} {z : Int} (hx : Fixed e x z) : Fixed e (-x) (-z) := by
  refine ⟨neg_isFin.2 hx.1, ?_⟩
  rw [neg_toReal, hx.2]; push_cast; ring

theorem fixed_sub {e : Int} (he : -1074 ≤ e) (he' : e ≤ 970) {x y : F64} {z w : Int} (hx : Fixed e x z) (hy : Fixed e y w)
    (h : |z - w| ≤ 2 ^ 53) : Fixed e (x - y) (z - w) := by
  rw [sub_def, sub_eq_add_neg]
  exact fixed_add he he' hx (fixed_neg hy) (by rwa [← sub_eq_add_neg])

theorem fixed_abs {e : Int} {x : F64} {z : Int} (hx : Fixed e x z) : Fixed e (F64.abs x) |z| := by
  refine ⟨abs_isFin.2 hx.1, ?_⟩
  rw [abs_toReal, hx.2, abs_mul, abs_of_pos (show (0 : ℝ) < 2 ^ e by positivity)]; push_cast; rfl

theorem sgn_mul_nat (s : Bool) (k P : Nat) : sgn s (k * P) = sgn s k * (P : Int) := by
  cases s <;> simp [sgn]

theorem fixed_mul {e f : Int} (he : -1074 ≤ e) (hf : -1074 ≤ f) (hef : -1074 ≤ e + f) (hef' : e + f ≤ 970) {x y : F64} {z w : Int}
    (hx : Fixed e x z) (hy : Fixed f y w) (h : |z * w| ≤ 2 ^ 53) : Fixed (e + f) (x * y) (z * w) := by
  obtain ⟨s, a, ha, rfl⟩ := isFin_iff hx.1
  obtain ⟨t, b, hb, rfl⟩ := isFin_iff hy.1
  rw [fixed_iff he] at hx
  rw [fixed_iff hf] at hy
  have ha' : a = z.natAbs * 2 ^ (e + 1074).toNat := by
    have := congrArg Int.natAbs hx
    rw [Int.natAbs_mul, Int.natAbs_pow] at this
    cases s <;> simpa [sgn] using this
  have hb' : b = w.natAbs * 2 ^ (f + 1074).toNat := by
    have := congrArg Int.natAbs hy
    rw [Int.natAbs_mul, Int.natAbs_pow] at this
    cases t <;> simpa [sgn] using this
  have hp : a * b = (z * w).natAbs * 2 ^ (e + f + 1074).toNat * 2 ^ 1074 := by
    rw [ha', hb', Int.natAbs_mul, mul_assoc _ (2 ^ _) (2 ^ 1074), ← pow_add, mul_mul_mul_comm, ← pow_add]
    congr 2; omega
  show Fixed _ (mul _ _) _
  unfold mul
  dsimp only
  rw [hp, mk_exact (by positivity) (rep_fixed (t := (e + f + 1074).toNat) h (by omega)), fixed_iff hef]
  have h1 : sgn (s != t) (a * b) = sgn s a * sgn t b := by cases s <;> cases t <;> simp [sgn]
  rw [hx, hy, hp] at h1
  rw [sgn_mul_nat, Nat.cast_pow, Nat.cast_ofNat] at h1
  have h4 : z * 2 ^ (e + 1074).toNat * (w * 2 ^ (f + 1074).toNat) = z * w * 2 ^ (e + f + 1074).toNat * 2 ^ 1074 := by
    rw [mul_assoc (z * w), ← pow_add, mul_mul_mul_comm, ← pow_add]
    congr 2; omega
  rw [h4] at h1
  exact mul_right_cancel₀ (by positivity) h1

/-- Sums of fixed-point numbers. -/
theorem fixed_fold {n : Nat} {e : Int} (he : -1074 ≤ e) (he' : e ≤ 970) (f : Fin n → F64) (c : Fin n → Int) (h : ∀ k, Fixed e (f k) (c k))
    (hs : ∑ k, |c k| ≤ 2 ^ 53) : Fixed e ((List.finRange n).foldl (fun s k => s + f k) 0) (∑ k, c k) := by
  induction n with
  | zero => refine ⟨trivial, ?_⟩; simp [show (0 : F64).toReal = 0 from zero_toReal false]
  | succ n ih =>
    rw [Fin.sum_univ_castSucc] at hs
    rw [List.finRange_succ_last, List.foldl_append, List.foldl_map, List.foldl_cons, List.foldl_nil, Fin.sum_univ_castSucc]
    refine fixed_add he he' (ih _ _ (fun k => h k.castSucc) (by linarith [abs_nonneg (c (Fin.last n))])) (h _) ?_
    calc |(∑ k : Fin n, c k.castSucc) + c (Fin.last n)| ≤ |∑ k : Fin n, c k.castSucc| + |c (Fin.last n)| := abs_add_le _ _
      _ ≤ (∑ k : Fin n, |c k.castSucc|) + |c (Fin.last n)| := by linarith [Finset.abs_sum_le_sum_abs (fun k : Fin n => c k.castSucc) Finset.univ]
      _ ≤ 2 ^ 53 := hs

section
variable {m n p : Nat}

/-- C86: the product is exact if no sum of absolute values of products exceeds `2^53` units. -/
theorem C86_mul (hm : 0 < m) (hn : 0 < n) {e f : Int} (he : -1074 ≤ e) (hf : -1074 ≤ f) (hef : -1074 ≤ e + f) (hef' : e + f ≤ 970)
    (A : Matrix (Fin m) (Fin n) F64) (B : Matrix (Fin n) (Fin p) F64) (Z : Matrix (Fin m) (Fin n) Int) (W : Matrix (Fin n) (Fin p) Int)
    (hA : ∀ i k, Fixed e (A i k) (Z i k)) (hB : ∀ k j, Fixed f (B k j) (W k j)) (h : ∀ i j, ∑ k, |Z i k| * |W k j| ≤ 2 ^ 53) :
    ∃ C : Matrix (Fin m) (Fin p) F64, (ofM A).mul (ofM B) = .ok (ofM C) ∧ ∀ i j, Fixed (e + f) (C i j) ((Z * W) i j) := by
  refine ⟨_, C10_mul_general hm hn A B, fun i j => ?_⟩
  rw [Matrix.of_apply, Matrix.mul_apply]
  have habs : ∀ k, |Z i k * W k j| ≤ 2 ^ 53 := fun k => by
    rw [abs_mul]
    exact le_trans (Finset.single_le_sum (f := fun k => |Z i k| * |W k j|) (fun k _ => by positivity) (Finset.mem_univ k)) (h i j)
  refine fixed_fold hef hef' _ _ (fun k => fixed_mul he hf hef hef' (hA i k) (hB k j) (habs k)) ?_
  simpa only [abs_mul] using h i j

/-- C86: sums and differences are exact if they do not exceed `2^53` units, entrywise products and `scale` likewise, negation always. -/
theorem C86_elementwise (hm : 0 < m) {e : Int} (he : -1074 ≤ e) (he' : e ≤ 970) (A B : Matrix (Fin m) (Fin n) F64)
    (Z W : Matrix (Fin m) (Fin n) Int) (hA : ∀ i j, Fixed e (A i j) (Z i j)) (hB : ∀ i j, Fixed e (B i j) (W i j)) :
    ((∀ i j, |Z i j + W i j| ≤ 2 ^ 53) → ∃ C : Matrix (Fin m) (Fin n) F64, (ofM A).add (ofM B) = .ok (ofM C) ∧ ∀ i j, Fixed e (C i j) ((Z + W) i j)) ∧
    ((∀ i j, |Z i j - W i j| ≤ 2 ^ 53) → ∃ C : Matrix (Fin m) (Fin n) F64, (ofM A).sub (ofM B) = .ok (ofM C) ∧ ∀ i j, Fixed e (C i j) ((Z - W) i j)) ∧
    (∃ C : Matrix (Fin m) (Fin n) F64, (ofM A).neg = .ok (ofM C) ∧ ∀ i j, Fixed e (C i j) ((-Z) i j)) := by
  refine ⟨fun h => ⟨_, C08_add hm A B, fun i j => fixed_add he he' (hA i j) (hB i j) (h i j)⟩,
    fun h => ⟨_, C08_sub hm A B, fun i j => fixed_sub he he' (hA i j) (hB i j) (h i j)⟩, ⟨_, C08_neg A, fun i j => fixed_neg (hA i j)⟩⟩

/-- C86: entrywise products and `scale`. -/
theorem C86_products (hm : 0 < m) {e f : Int} (he : -1074 ≤ e) (hf : -1074 ≤ f) (hef : -1074 ≤ e + f) (hef' : e + f ≤ 970)
    (A B : Matrix (Fin m) (Fin n) F64) (Z W : Matrix (Fin m) (Fin n) Int) (k : F64) (z : Int)
    (hA : ∀ i j, Fixed e (A i j) (Z i j)) (hB : ∀ i j, Fixed f (B i j) (W i j)) (hk : Fixed f k z) :
    ((∀ i j, |Z i j * W i j| ≤ 2 ^ 53) →
      ∃ C : Matrix (Fin m) (Fin n) F64, (ofM A).elemMul (ofM B) = .ok (ofM C) ∧ ∀ i j, Fixed (e + f) (C i j) (Z i j * W i j)) ∧
    ((∀ i j, |z * Z i j| ≤ 2 ^ 53) →
      ∃ C : Matrix (Fin m) (Fin n) F64, (ofM A).scale k = .ok (ofM C) ∧ ∀ i j, Fixed (e + f) (C i j) (z * Z i j)) := by
  refine ⟨fun h => ⟨_, C08_elemMul hm A B, fun i j => fixed_mul he hf hef hef' (hA i j) (hB i j) (h i j)⟩,
    fun h => ⟨_, C08_scale A k, fun i j => ?_⟩⟩
  have := fixed_mul hf he (by omega) (by omega) hk (hA i j) (h i j)
  rwa [add_comm f e] at this

open Finset in
theorem fixed_facc {e : Int} (he : -1074 ≤ e) (he' : e ≤ 970) (f : Nat → F64) (c : Nat → Int) (n : Nat) (h : ∀ k, k < n → Fixed e (f k) (c k))
    (hs : ∑ k ∈ range n, |c k| ≤ 2 ^ 53) : Fixed e (facc (· + ·) 0 f n) (∑ k ∈ range n, c k) := by
  induction n with
  | zero => refine ⟨trivial, ?_⟩; simp [facc, show (0 : F64).toReal = 0 from zero_toReal false]
  | succ n ih =>
    rw [sum_range_succ] at hs ⊢
    refine fixed_add he he' (ih (fun k hk => h k (by omega)) (by linarith [abs_nonneg (c n)])) (h n (by omega)) ?_
    linarith [abs_add_le (∑ k ∈ range n, c k) (c n), abs_sum_le_sum_abs c (range n)]

open Finset in
/-- C86: the trace is exact if the absolute values on the diagonal do not exceed `2^53` units together. -/
theorem C86_trace (hm : 0 < m) {e : Int} (he : -1074 ≤ e) (he' : e ≤ 970) (A : Matrix (Fin m) (Fin n) F64) (Z : Matrix (Fin m) (Fin n) Int)
    (hA : ∀ i j, Fixed e (A i j) (Z i j)) (h : ∑ i : Fin (min m n), |Z ⟨i.1, by omega⟩ ⟨i.1, by omega⟩| ≤ 2 ^ 53) :
    ∃ t, (ofM A).trace = .ok t ∧ Fixed e t (∑ i : Fin (min m n), Z ⟨i.1, by omega⟩ ⟨i.1, by omega⟩) := by
  refine ⟨_, trace_facc hm A, ?_⟩
  let c : Nat → Int := fun i => if hi : i < min m n then Z ⟨i, by omega⟩ ⟨i, by omega⟩ else 0
  have e1 : ∀ g : Int → Int, ∑ i ∈ range (min m n), g (c i) = ∑ i : Fin (min m n), g (Z ⟨i.1, by omega⟩ ⟨i.1, by omega⟩) := by
    intro g
    rw [sum_range]
    refine sum_congr rfl fun i _ => ?_
    simp only [c, i.2, dite_true]
  have := fixed_facc he he' (fun i => ext A i i) c (min m n) (fun k hk => by
    rw [ext_eq A (by omega) (by omega)]
    simp only [c, hk, dite_true]
    exact hA _ _) (by rw [e1 fun x => |x|]; exact h)
  rw [e1 fun x => x] at this
  exact this

open Finset in
/-- C86: so is the 1-norm of a vector. -/
theorem C86_norm1 (hn : 0 < n) {e : Int} (he : -1074 ≤ e) (he' : e ≤ 970) (v : Fin n → F64) (z : Fin n → Int)
    (hv : ∀ i, Fixed e (v i) (z i)) (h : ∑ i, |z i| ≤ 2 ^ 53) :
    ∃ t, (ofM (colVec v)).vector1Norm = .ok t ∧ Fixed e t (∑ i, |z i|) := by
  refine ⟨_, norm1_facc hn v, ?_⟩
  let c : Nat → Int := fun i => if hi : i < n then |z ⟨i, hi⟩| else 0
  have hlin : ∀ i : Fin n, lin (colVec v) i = v i := fun i => by
    have := lin_rm (colVec v) i 0
    simpa [colVec] using this
  have e1 : ∑ i ∈ range n, c i = ∑ i, |z i| := by
    rw [sum_range]
    exact sum_congr rfl fun i _ => by simp only [c, i.2, dite_true]
  have e2 : ∑ i ∈ range n, |c i| = ∑ i, |z i| := by
    rw [← e1]
    refine sum_congr rfl fun i _ => abs_of_nonneg ?_
    simp only [c]; split
    · exact abs_nonneg _
    · exact le_refl _
  have := fixed_facc he he' (fun k => FloatOps.abs (lin (colVec v) k)) c n (fun k hk => by
    rw [hlin ⟨k, hk⟩]
    simp only [c, hk, dite_true]
    exact fixed_abs (hv _)) (by rw [e2]; exact h)
  rwa [e1] at this

/-- C86: matrices of integers (unit `2^0`): the product of matrices whose entries are integers is the integer product, exactly, if
`n·a·b ≤ 2^53` for bounds `a`, `b` on the entries. -/
theorem C86_integers (hm : 0 < m) (hn : 0 < n) (A : Matrix (Fin m) (Fin n) F64) (B : Matrix (Fin n) (Fin p) F64)
    (Z : Matrix (Fin m) (Fin n) Int) (W : Matrix (Fin n) (Fin p) Int) (a b : Int)
    (hA : ∀ i k, isFin (A i k) ∧ (A i k).toReal = Z i k ∧ |Z i k| ≤ a) (hB : ∀ k j, isFin (B k j) ∧ (B k j).toReal = W k j ∧ |W k j| ≤ b)
    (h : n * (a * b) ≤ 2 ^ 53) :
    ∃ C : Matrix (Fin m) (Fin p) F64, (ofM A).mul (ofM B) = .ok (ofM C) ∧ ∀ i j, isFin (C i j) ∧ (C i j).toReal = (Z * W) i j := by
  obtain ⟨C, h1, h2⟩ := C86_mul (e := 0) (f := 0) hm hn (by omega) (by omega) (by omega) (by omega) A B Z W
    (fun i k => ⟨(hA i k).1, by rw [(hA i k).2.1]; simp⟩) (fun k j => ⟨(hB k j).1, by rw [(hB k j).2.1]; simp⟩) (fun i j => by
      refine le_trans (Finset.sum_le_card_nsmul _ _ (a * b) fun k _ => ?_) (by simpa using h)
      exact mul_le_mul (hA i k).2.2 (hB k j).2.2 (abs_nonneg _) (le_trans (abs_nonneg _) (hA i k).2.2))
  exact ⟨C, h1, fun i j => ⟨(h2 i j).1, by rw [(h2 i j).2]; simp⟩⟩

end

/-- Every number of at most `2^53` units is an `f64`, so the hypotheses above are met by all such matrices of integers. -/
theorem fixed_exists {e : Int} (he : -1074 ≤ e) (he' : e ≤ 970) (z : Int) (hz : |z| ≤ 2 ^ 53) : ∃ x : F64, Fixed e x z := by
  refine ⟨.fin (decide (z < 0)) _ (rep_fixed (t := (e + 1074).toNat) hz (by omega)), (fixed_iff he).2 ?_⟩
  rw [sgn_mul_nat, Nat.cast_pow, Nat.cast_ofNat]
  congr 1
  unfold sgn
  split_ifs with hv <;> simp at hv <;> omega

/-- Prices in quarters times quantities: `(0.25, -1.5)·(3, 7) = -9.75 = -39·2^-2`. -/
example : (⟨1, [F64.ofRat 1 4, F64.ofRat (-3) 2]⟩ : Mat F64).mul ⟨2, [F64.ofRat 3 1, F64.ofRat 7 1]⟩ = .ok ⟨1, [F64.ofRat (-39) 4]⟩ ∧
    Fixed (-2) (F64.ofRat 1 4) 1 ∧ Fixed (-2) (F64.ofRat (-3) 2) (-6) ∧ Fixed 0 (F64.ofRat 7 1) 7 ∧ Fixed (-2) (F64.ofRat (-39) 4) (-39) := by
  have h : ∀ {e z : Int} (x : F64), -1074 ≤ e → (match x with | .fin s k _ => decide (sgn s k = z * 2 ^ (e + 1074).toNat) | _ => false) = true → Fixed e x z := by
    intro e z x he hx
    cases x with
    | fin s k hk => exact (fixed_iff he).2 (of_decide_eq_true hx)
    | inf s => cases hx
    | nan => cases hx
  refine ⟨by decide +kernel, h _ (by decide) ?_, h _ (by decide) ?_, h _ (by decide) ?_, h _ (by decide) ?_⟩ <;> decide +kernel

/-- The bound is sharp: `2^53 + 1` is not an `f64`. -/
example : (⟨1, [F64.ofRat (2 ^ 53) 1]⟩ : Mat F64).add ⟨1, [1]⟩ = .ok ⟨1, [F64.ofRat (2 ^ 53) 1]⟩ := by decide +kernel

end LA.Props
