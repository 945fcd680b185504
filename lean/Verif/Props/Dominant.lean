import Verif.Props.LU
import Mathlib.Algebra.BigOperators.Field

/-!
# C109: growth of the entries in the LU decomposition, and diagonally dominant matrices

Exact arithmetic over any linearly ordered field `K`.
-/

set_option linter.unusedSectionVars false

namespace LA.Props
open LA Finset

section
variable {K : Type} [Field K] [LinearOrder K] [IsStrictOrderedRing K] [FloatOps K] [Exact K]

/-- C109, growth: an entry in row `k` of `get_u()` is at most `2^k` times the largest entry of the matrix. -/
theorem C109_growth {m n : Nat} (hm : 0 < m) (hn : 0 < n) (A : Matrix (Fin m) (Fin n) K) (M : K) (hA : ∀ i j, |A i j| ≤ M) :
    ∃ (x : LU K) (U : Matrix (Fin (min m n)) (Fin n) K), LU.new (ofM A) = .ok x ∧ x.getU = .ok (ofM U) ∧ ∀ k c, |U k c| ≤ 2 ^ k.1 * M := by
  obtain ⟨G, σ, hx, h1, h2⟩ := LU.new_ofM hm hn A
  refine ⟨_, _, hx, LU.getU_ok G hm hn _ _, fun k c => ?_⟩
  have hM : 0 ≤ M := (abs_nonneg _).trans (hA ⟨0, hm⟩ ⟨0, hn⟩)
  simp only [LU.upper, Matrix.of_apply]
  by_cases hkc : k.1 ≤ c.1
  swap
  · rw [if_neg hkc, abs_zero]; positivity
  rw [if_pos hkc]
  obtain ⟨k, hk⟩ := k
  obtain ⟨c, hc⟩ := c
  dsimp only at hkc ⊢
  have key : ∀ k, k < m → k < n → k ≤ c → |G k c| ≤ 2 ^ k * M := by
    intro k
    induction k using Nat.strong_induction_on with
    | _ k ih =>
      intro hkm hkn hkc
      have h3 := h1 ⟨k, hkm⟩ ⟨c, hc⟩
      dsimp only at h3
      unfold LU.prod at h3
      rw [min_eq_left hkc, if_pos hkc] at h3
      have h4 : G k c = A (σ ⟨k, hkm⟩) ⟨c, hc⟩ - ∑ t ∈ range k, G k t * G t c := by rw [h3]; ring
      have h5 : |∑ t ∈ range k, G k t * G t c| ≤ ∑ t ∈ range k, 2 ^ t * M := by
        refine (abs_sum_le_sum_abs _ _).trans (sum_le_sum fun t ht => ?_)
        rw [mem_range] at ht
        rw [abs_mul]
        have a1 := h2 k t hkm ht (by omega)
        have a2 := ih t ht (by omega) (by omega) (by omega)
        calc |G k t| * |G t c| ≤ 1 * |G t c| := mul_le_mul_of_nonneg_right a1 (abs_nonneg _)
          _ ≤ 2 ^ t * M := by rw [one_mul]; exact a2
      rw [← sum_mul] at h5
      have h6 : (∑ t ∈ range k, (2 : K) ^ t) = 2 ^ k - 1 := by
        have := geom_sum_mul (2 : K) k
        rw [show (2 : K) - 1 = 1 by norm_num, mul_one] at this
        exact this
      rw [h6] at h5
      rw [h4]
      refine (abs_sub _ _).trans ?_
      have := hA (σ ⟨k, hkm⟩) ⟨c, hc⟩
      linarith
  exact key k (by omega) (by omega) hkc

/-- The factorisation of a square matrix, with square factors. -/
theorem lu_square {n : Nat} (hn : 0 < n) (A : Matrix (Fin n) (Fin n) K) :
    ∃ (x : LU K) (σ : Equiv.Perm (Fin n)) (L U : Matrix (Fin n) (Fin n) K), LU.new (ofM A) = .ok x ∧ x.getL = .ok (ofM L) ∧ x.getU = .ok (ofM U) ∧
      x.getPiv = List.ofFn (fun i => (σ i).1) ∧ (∀ i j, A (σ i) j = ∑ k, L i k * U k j) ∧ (∀ i j, i < j → L i j = 0) ∧ (∀ i, L i i = 1) ∧
      (∀ i j, |L i j| ≤ 1) ∧ ∀ i j, j < i → U i j = 0 := by
  obtain ⟨G, σ, hx, h1, h2⟩ := LU.new_ofM hn hn A
  have eL := LU.getL_ok G hn hn (decide (Equiv.Perm.sign σ = 1)) (List.ofFn fun i => (σ i).1)
  have eU := LU.getU_ok G hn hn (decide (Equiv.Perm.sign σ = 1)) (List.ofFn fun i => (σ i).1)
  rw [Nat.min_self] at eL eU
  refine ⟨_, σ, _, _, hx, eL, eU, rfl, ?_, ?_, ?_, ?_, ?_⟩
  · intro i c
    rw [h1 i c, ← LU.lower_mul_upper G (Nat.min_self n).symm i c, Matrix.mul_apply]
  · intro i j h
    simp only [LU.lower, Matrix.of_apply]
    rw [if_neg (by omega), if_neg (by omega)]
  · intro i
    simp [LU.lower]
  · intro i j
    simp only [LU.lower, Matrix.of_apply]
    split
    · exact h2 i j i.2 (by omega) (by omega)
    · split <;> simp
  · intro i j h
    simp only [LU.upper, Matrix.of_apply]
    rw [if_neg (by omega)]

/-- C109, the factors are found: if `A = L₀·U₀` with `L₀` unit lower triangular, all its other entries below one in absolute value, and `U₀` upper
triangular without zeros on the diagonal, then `LUDecomposition::new` makes no exchanges and returns these factors. -/
theorem C109_factors {n : Nat} (hn : 0 < n) (L₀ U₀ : Matrix (Fin n) (Fin n) K) (l1 : ∀ i j, i < j → L₀ i j = 0) (l2 : ∀ i, L₀ i i = 1)
    (l3 : ∀ i j, j < i → |L₀ i j| < 1) (u1 : ∀ i j, j < i → U₀ i j = 0) (u2 : ∀ i, U₀ i i ≠ 0) :
    ∃ x : LU K, LU.new (ofM (L₀ * U₀)) = .ok x ∧ x.getL = .ok (ofM L₀) ∧ x.getU = .ok (ofM U₀) ∧ x.getPiv = List.ofFn (fun i : Fin n => i.1) := by
  obtain ⟨x, σ, L, U, hx, eL, eU, hp, h1, a1, a2, a3, b1⟩ := lu_square hn (L₀ * U₀)
  have key : ∀ c, c ≤ n → ∀ k : Fin n, k.1 < c → σ k = k ∧ (∀ i, L i k = L₀ (σ i) k) ∧ ∀ j, U k j = U₀ k j := by
    intro c
    induction c with
    | zero => exact fun _ k hk => absurd hk (by omega)
    | succ c ih =>
      intro hc k hk
      rcases Nat.lt_or_eq_of_le (Nat.lt_succ_iff.1 hk) with h | h
      · exact ih (by omega) k h
      have ih' := ih (by omega)
      -- the terms from `c` on
      have e : ∀ i j, ∑ t ∈ univ.filter (fun t : Fin n => k ≤ t), L i t * U t j = ∑ t ∈ univ.filter (fun t : Fin n => k ≤ t), L₀ (σ i) t * U₀ t j := by
        intro i j
        have h2 := h1 i j
        rw [Matrix.mul_apply, ← sum_filter_add_sum_filter_not univ (fun t : Fin n => k ≤ t),
          ← sum_filter_add_sum_filter_not univ (fun t : Fin n => k ≤ t) (fun t => L i t * U t j)] at h2
        have h3 : ∑ t ∈ univ.filter (fun t : Fin n => ¬ k ≤ t), L₀ (σ i) t * U₀ t j = ∑ t ∈ univ.filter (fun t : Fin n => ¬ k ≤ t), L i t * U t j := by
          refine sum_congr rfl fun t ht => ?_
          rw [mem_filter] at ht
          obtain ⟨-, q1, q2⟩ := ih' t (by omega)
          rw [q1, q2]
        rw [h3] at h2
        exact (add_right_cancel h2).symm
      have hk0 : k ∈ univ.filter (fun t : Fin n => k ≤ t) := by simp
      have e1 : ∀ i, L i k * U k k = L₀ (σ i) k * U₀ k k := by
        intro i
        have := e i k
        rw [sum_eq_single_of_mem k hk0 (fun t ht hne => by
          rw [mem_filter] at ht
          rw [b1 t k (lt_of_le_of_ne ht.2 (Ne.symm hne)), mul_zero]), sum_eq_single_of_mem k hk0 (fun t ht hne => by
          rw [mem_filter] at ht
          rw [u1 t k (lt_of_le_of_ne ht.2 (Ne.symm hne)), mul_zero])] at this
        exact this
      have hσ : σ k = k := by
        have f1 := e1 k
        have f2 := e1 (σ.symm k)
        rw [a2, one_mul] at f1
        rw [Equiv.apply_symm_apply, l2, one_mul] at f2
        have f3 : |U₀ k k| ≤ |L₀ (σ k) k| * |U₀ k k| := by
          rw [← abs_mul, ← f1, ← f2, abs_mul]
          calc _ ≤ 1 * |U k k| := mul_le_mul_of_nonneg_right (a3 _ _) (abs_nonneg _)
            _ = _ := one_mul _
        have f4 : 0 < |U₀ k k| := abs_pos.2 (u2 k)
        have f5 : 1 ≤ |L₀ (σ k) k| := by
          by_contra hlt
          have := mul_lt_mul_of_pos_right (not_le.1 hlt) f4
          linarith
        rcases lt_trichotomy (σ k) k with g | g | g
        · rw [l1 _ _ g, abs_zero] at f5; exact absurd f5 (by norm_num)
        · exact g
        · exact absurd f5 (not_le.2 (l3 _ _ g))
      have hU : U k k = U₀ k k := by
        have f1 := e1 k
        rwa [a2, one_mul, hσ, l2, one_mul] at f1
      refine ⟨hσ, fun i => ?_, fun j => ?_⟩
      · have f1 := e1 i
        rw [hU] at f1
        exact mul_right_cancel₀ (u2 k) f1
      · have := e k j
        rw [hσ, sum_eq_single_of_mem k hk0 (fun t ht hne => by
          rw [mem_filter] at ht
          rw [a1 k t (lt_of_le_of_ne ht.2 (Ne.symm hne)), zero_mul]), sum_eq_single_of_mem k hk0 (fun t ht hne => by
          rw [mem_filter] at ht
          rw [l1 k t (lt_of_le_of_ne ht.2 (Ne.symm hne)), zero_mul]), a2, l2, one_mul, one_mul] at this
        exact this
  have k0 := key n le_rfl
  have eσ : ∀ k, σ k = k := fun k => (k0 k k.2).1
  have eL' : L = L₀ := by
    ext i j
    rw [(k0 j j.2).2.1 i, eσ]
  have eU' : U = U₀ := by
    ext i j
    exact (k0 i i.2).2.2 j
  refine ⟨x, hx, by rw [eL, eL'], by rw [eU, eU'], by rw [hp]; simp only [eσ]⟩

/-- A matrix with growth: `1` on the diagonal and in the last column, `-θ` below the diagonal. -/
def growing (n : Nat) (θ : K) : Matrix (Fin n) (Fin n) K :=
  Matrix.of fun i j => if i = j ∨ j.1 + 1 = n then 1 else if j < i then -θ else 0

/-- C109: the bound on the growth cannot be improved: for every `θ < 1` and every size there is a matrix with entries of absolute value at most one for which
the last entry of `get_u()` is `(1+θ)^(n-1)`. -/
theorem C109_growth_sharp {n : Nat} (hn : 0 < n) (θ : K) (h0 : 0 ≤ θ) (h1 : θ < 1) :
    (∀ i j, |growing n θ i j| ≤ 1) ∧ ∃ (x : LU K) (U : Matrix (Fin n) (Fin n) K), LU.new (ofM (growing n θ)) = .ok x ∧ x.getU = .ok (ofM U) ∧
      U ⟨n - 1, by omega⟩ ⟨n - 1, by omega⟩ = (1 + θ) ^ (n - 1) := by
  constructor
  · intro i j
    simp only [growing, Matrix.of_apply]
    split
    · simp
    · split
      · rw [abs_neg, abs_of_nonneg h0]; exact h1.le
      · simp
  · let L : Matrix (Fin n) (Fin n) K := Matrix.of fun i j => if i = j then 1 else if j < i then -θ else 0
    let U : Matrix (Fin n) (Fin n) K := Matrix.of fun i j => if j.1 + 1 = n then (1 + θ) ^ i.1 else if i = j then 1 else 0
    obtain ⟨x, hx, -, hU, -⟩ := C109_factors hn L U (fun i j h => by simp [L, h.ne, h.le]) (fun i => by simp [L])
      (fun i j h => by
        simp only [L, Matrix.of_apply]
        rw [if_neg h.ne', if_pos h, abs_neg, abs_of_nonneg h0]; exact h1)
      (fun i j h => by
        simp only [U, Matrix.of_apply]
        rw [if_neg (by omega), if_neg h.ne'])
      (fun i => by
        simp only [U, Matrix.of_apply]
        split
        · exact pow_ne_zero _ (by linarith)
        · simp)
    have e : L * U = growing n θ := by
      ext i j
      rw [Matrix.mul_apply]
      by_cases hj : j.1 + 1 = n
      · simp only [growing, L, U, Matrix.of_apply, if_pos hj, if_pos (Or.inr hj : i = j ∨ j.1 + 1 = n)]
        have h2 : ∀ t : Fin n, (if i = t then (1 : K) else if t < i then -θ else 0) * (1 + θ) ^ t.1 =
            (if i = t then (1 + θ) ^ t.1 else 0) + (fun t : Nat => if t < i.1 then -θ * (1 + θ) ^ t else 0) t.1 := by
          intro t
          by_cases h3 : i = t
          · subst h3; simp
          · rw [if_neg h3, if_neg h3]
            by_cases h4 : t < i
            · simp [h4]
            · simp [h4]
        rw [sum_congr rfl fun t _ => h2 t, sum_add_distrib, sum_ite_eq univ i (fun t : Fin n => (1 + θ) ^ t.1), if_pos (mem_univ _),
          Fin.sum_univ_eq_sum_range (fun t : Nat => if t < i.1 then -θ * (1 + θ) ^ t else 0), ← sum_filter,
          show (range n).filter (fun t => t < i.1) = range i.1 by ext t; simp; omega, ← mul_sum]
        have h5 := geom_sum_mul (1 + θ) i.1
        rw [show 1 + θ - 1 = θ by ring] at h5
        linear_combination -h5
      · simp only [growing, L, U, Matrix.of_apply, if_neg hj]
        simp [hj]
    rw [e] at hx
    refine ⟨x, U, hx, hU, ?_⟩
    simp only [U, Matrix.of_apply]
    rw [if_pos (by omega)]

/-- Every diagonal entry exceeds the sum of the absolute values of the others in its column. -/
def ColumnDominant {n : Nat} (A : Matrix (Fin n) (Fin n) K) : Prop := ∀ j, ∑ i ∈ univ.erase j, |A i j| < |A j j|

/-- Every diagonal entry exceeds the sum of the absolute values of the others in its row. -/
def RowDominant {n : Nat} (A : Matrix (Fin n) (Fin n) K) : Prop := ∀ i, ∑ j ∈ univ.erase i, |A i j| < |A i i|

/-- Elimination without exchanges. -/
def schur (A : Nat → Nat → K) : Nat → Nat → Nat → K
  | 0, i, j => A i j
  | k + 1, i, j => schur A k i j - schur A k i k / schur A k k k * schur A k k j

theorem schur_eq (A : Nat → Nat → K) (k i j : Nat) :
    schur A k i j = A i j - ∑ t ∈ range k, schur A t i t / schur A t t t * schur A t t j := by
  induction k with
  | zero => simp [schur]
  | succ k ih =>
    rw [sum_range_succ, schur]
    linear_combination ih

/-- The part of the matrix that is left after `k` steps is dominant, its column sums have not grown, and the diagonal entries keep their signs. -/
structure Dom (A : Nat → Nat → K) (n k : Nat) : Prop where
  dom : ∀ j, k ≤ j → j < n → ∑ i ∈ (Ico k n).erase j, |schur A k i j| < |schur A k j j|
  col : ∀ j, k ≤ j → j < n → ∑ i ∈ Ico k n, |schur A k i j| ≤ ∑ i ∈ range n, |A i j|
  sgn : ∀ j, k ≤ j → j < n → 0 < schur A k j j * A j j

theorem Dom.ne {A : Nat → Nat → K} {n k : Nat} (h : Dom A n k) {j : Nat} (h1 : k ≤ j) (h2 : j < n) : schur A k j j ≠ 0 := fun h0 => by
  have := h.sgn j h1 h2
  rw [h0, zero_mul] at this
  exact lt_irrefl _ this

theorem Dom.mult {A : Nat → Nat → K} {n k : Nat} (h : Dom A n k) (hk : k < n) :
    ∑ i ∈ Ico (k + 1) n, |schur A k i k / schur A k k k| < 1 := by
  have h1 := h.dom k le_rfl hk
  have e : (Ico k n).erase k = Ico (k + 1) n := by ext i; simp only [mem_erase, mem_Ico]; omega
  rw [e] at h1
  have h2 : 0 < |schur A k k k| := abs_pos.2 (h.ne le_rfl hk)
  rw [sum_congr rfl fun i _ => abs_div _ _, ← sum_div, div_lt_one h2]
  exact h1

theorem Dom.step {A : Nat → Nat → K} {n k : Nat} (h : Dom A n k) (hk : k < n) : Dom A n (k + 1) := by
  have hm := h.mult hk
  have main : ∀ j, k + 1 ≤ j → j < n → ∀ s : Finset Nat, s ⊆ Ico (k + 1) n →
      ∑ i ∈ s, |schur A (k + 1) i j| ≤ ∑ i ∈ s, |schur A k i j| + (∑ i ∈ s, |schur A k i k / schur A k k k|) * |schur A k k j| := by
    intro j h1 h2 s hs
    rw [sum_mul, ← sum_add_distrib]
    refine sum_le_sum fun i _ => ?_
    rw [schur, ← abs_mul]
    exact abs_sub _ _
  have hIco : Ico k n = insert k (Ico (k + 1) n) := by ext i; simp; omega
  have hkn : k ∉ Ico (k + 1) n := by simp
  refine ⟨fun j h1 h2 => ?_, fun j h1 h2 => ?_, fun j h1 h2 => ?_⟩
  · have a1 := main j h1 h2 ((Ico (k + 1) n).erase j) (erase_subset _ _)
    have hj : j ∈ Ico (k + 1) n := by simp; omega
    have a2 := h.dom j (by omega) h2
    have e : (Ico k n).erase j = insert k ((Ico (k + 1) n).erase j) := by ext i; simp; omega
    rw [e, sum_insert (by simp)] at a2
    have a3 := add_sum_erase (Ico (k + 1) n) (fun i => |schur A k i k / schur A k k k|) hj
    have a4 : |schur A k j j| ≤ |schur A (k + 1) j j| + |schur A k j k / schur A k k k| * |schur A k k j| := by
      have := abs_add_le (schur A (k + 1) j j) (schur A k j k / schur A k k k * schur A k k j)
      rw [abs_mul] at this
      rw [schur] at this ⊢
      rwa [sub_add_cancel] at this
    set μ := ∑ i ∈ (Ico (k + 1) n).erase j, |schur A k i k / schur A k k k|
    have a5 : (μ + |schur A k j k / schur A k k k|) * |schur A k k j| ≤ 1 * |schur A k k j| :=
      mul_le_mul_of_nonneg_right (by linarith) (abs_nonneg _)
    linarith
  · have a1 := main j h1 h2 (Ico (k + 1) n) subset_rfl
    have a2 := h.col j (by omega) h2
    rw [hIco, sum_insert hkn] at a2
    have a5 := mul_le_mul_of_nonneg_right hm.le (abs_nonneg (schur A k k j))
    linarith
  · have a1 := h.sgn j (by omega) h2
    have a2 := h.dom j (by omega) h2
    have a3 : |schur A k k j| ≤ ∑ i ∈ (Ico k n).erase j, |schur A k i j| :=
      single_le_sum (f := fun i => |schur A k i j|) (fun _ _ => abs_nonneg _) (by simp; omega)
    have a4 : |schur A k j k / schur A k k k| ≤ 1 :=
      (single_le_sum (f := fun i => |schur A k i k / schur A k k k|) (fun _ _ => abs_nonneg _) (by simp; omega : j ∈ Ico (k + 1) n)).trans hm.le
    have a5 : |schur A k j k / schur A k k k * schur A k k j| < |schur A k j j| := by
      rw [abs_mul]
      have := mul_le_mul_of_nonneg_right a4 (abs_nonneg (schur A k k j))
      linarith
    rw [schur]
    set d := schur A k j k / schur A k k k * schur A k k j
    set s := schur A k j j
    rcases pos_and_pos_or_neg_and_neg_of_mul_pos a1 with ⟨b1, b2⟩ | ⟨b1, b2⟩
    · rw [abs_of_pos b1] at a5
      exact mul_pos (by linarith [(abs_lt.1 a5).2]) b2
    · rw [abs_of_neg b1] at a5
      exact mul_pos_of_neg_of_neg (by linarith [(abs_lt.1 a5).1]) b2

theorem dom_zero {n : Nat} {A : Matrix (Fin n) (Fin n) K} (h : ColumnDominant A) : Dom (ext A) n 0 := by
  have e : ∀ j, j < n → ∑ i ∈ range n, |ext A i j| = ∑ i : Fin n, |ext A i j| := fun j _ => (Fin.sum_univ_eq_sum_range (fun i => |ext A i j|) n).symm
  refine ⟨fun j _ h2 => ?_, fun j _ _ => ?_, fun j _ h2 => ?_⟩
  · have h1 := h ⟨j, h2⟩
    have a1 := add_sum_erase (range n) (fun i => |ext A i j|) (mem_range.2 h2)
    have a2 := add_sum_erase univ (fun i : Fin n => |A i ⟨j, h2⟩|) (mem_univ ⟨j, h2⟩)
    have a3 := e j h2
    have a4 : ∀ i : Fin n, |ext A i j| = |A i ⟨j, h2⟩| := fun i => by rw [ext_eq A i.2 h2]
    simp only [a4] at a3
    have a5 : |ext A j j| = |A ⟨j, h2⟩ ⟨j, h2⟩| := a4 ⟨j, h2⟩
    simp only [schur]
    rw [← range_eq_Ico]
    linarith
  · simp only [schur]
    rw [← range_eq_Ico]
  · have h1 := h ⟨j, h2⟩
    have h3 : A ⟨j, h2⟩ ⟨j, h2⟩ ≠ 0 := abs_pos.1 (lt_of_le_of_lt (sum_nonneg fun _ _ => abs_nonneg _) h1)
    simp only [schur]
    rw [ext_eq A h2 h2]
    exact mul_self_pos.2 h3

theorem dom_all {n : Nat} {A : Matrix (Fin n) (Fin n) K} (h : ColumnDominant A) : ∀ k, k ≤ n → Dom (ext A) n k := by
  intro k
  induction k with
  | zero => exact fun _ => dom_zero h
  | succ k ih => exact fun hk => (ih (by omega)).step (by omega)

/-- C109, diagonal dominance by columns: the rows are not exchanged, the factors have the bounds of a well-behaved elimination (the multipliers of a
column sum up to less than one, an entry of `U` is at most the sum of its column in `A`), and the pivots have the signs of the diagonal entries. -/
theorem C109_dominant {n : Nat} (hn : 0 < n) (A : Matrix (Fin n) (Fin n) K) (hA : ColumnDominant A) :
    ∃ (x : LU K) (L U : Matrix (Fin n) (Fin n) K), LU.new (ofM A) = .ok x ∧ x.getL = .ok (ofM L) ∧ x.getU = .ok (ofM U) ∧
      x.getPiv = List.ofFn (fun i : Fin n => i.1) ∧ L * U = A ∧ (∀ j, ∑ i ∈ univ.filter (fun i => j < i), |L i j| < 1) ∧
      (∀ k j, |U k j| ≤ ∑ i, |A i j|) ∧ ∀ k, 0 < U k k * A k k := by
  have hd := dom_all hA
  set S := schur (ext A)
  let G : Nat → Nat → K := fun i j => if j < i then S j i j / S j j j else S i i j
  have e : LU.lower n n G * LU.upper n n G = A := by
    ext i j
    rw [LU.lower_mul_upper G (Nat.min_self n).symm]
    unfold LU.prod
    have e1 : ∑ t ∈ range (min i.1 j.1), G i t * G t j = ∑ t ∈ range (min i.1 j.1), S t i t / S t t t * S t t j := by
      refine sum_congr rfl fun t ht => ?_
      rw [mem_range] at ht
      simp only [G]
      rw [if_pos (by omega), if_neg (by omega)]
    have e2 := schur_eq (ext A) (min i.1 j.1) i j
    rw [ext_fin] at e2
    rw [e1]
    split
    · rename_i hij
      rw [min_eq_left hij] at e2 ⊢
      simp only [G]
      rw [if_neg (by omega)]
      linear_combination e2
    · rename_i hij
      rw [min_eq_right (by omega)] at e2 ⊢
      simp only [G]
      rw [if_pos (by omega), if_neg (by omega), div_mul_cancel₀ _ ((hd j (by omega)).ne le_rfl j.2)]
      linear_combination e2
  have hL : ∀ j : Fin n, ∑ i ∈ univ.filter (fun i => j < i), |LU.lower n n G i j| < 1 := by
    intro j
    refine lt_of_le_of_lt (le_of_eq ?_) ((hd j (by omega)).mult j.2)
    rw [sum_filter, show Ico (j.1 + 1) n = (range n).filter (fun i => j.1 < i) by ext i; simp; omega, sum_filter,
      ← Fin.sum_univ_eq_sum_range (fun i => if j.1 < i then |S j i j / S j j j| else 0)]
    refine sum_congr rfl fun i _ => ?_
    by_cases h : j < i
    · have h' : j.1 < i.1 := h
      rw [if_pos h, if_pos h']
      simp only [LU.lower, Matrix.of_apply, G]
      rw [if_pos h', if_pos h']
    · have h' : ¬ j.1 < i.1 := h
      rw [if_neg h, if_neg h']
  have hL' : ∀ i j : Fin n, j < i → |LU.lower n n G i j| < 1 := fun i j h =>
    lt_of_le_of_lt (single_le_sum (f := fun i => |LU.lower n n G i j|) (fun _ _ => abs_nonneg _) (by simp [h])) (hL j)
  have hU : ∀ k, LU.upper n n G k k = S k k k := by
    intro k
    simp only [LU.upper, Matrix.of_apply, G]
    rw [if_pos le_rfl, if_neg (lt_irrefl _)]
  obtain ⟨x, hx, xL, xU, xp⟩ := C109_factors hn (LU.lower n n G) (LU.upper n n G) (fun i j h => by
      simp only [LU.lower, Matrix.of_apply]
      rw [if_neg (by omega), if_neg (by omega)]) (fun i => by simp [LU.lower]) hL' (fun i j h => by
      simp only [LU.upper, Matrix.of_apply]
      rw [if_neg (by omega)]) (fun i => by
      rw [hU]
      exact (hd i (by omega)).ne le_rfl i.2)
  rw [e] at hx
  refine ⟨x, _, _, hx, xL, xU, xp, e, hL, fun k j => ?_, fun k => ?_⟩
  · simp only [LU.upper, Matrix.of_apply, G]
    split
    · rename_i hkj
      rw [if_neg (by omega)]
      have h1 : |S k k j| ≤ ∑ i ∈ Ico k.1 n, |S k i j| := single_le_sum (f := fun i => |S k i j|) (fun _ _ => abs_nonneg _) (by simp)
      have h2 := (hd k (by omega)).col j hkj j.2
      rw [← Fin.sum_univ_eq_sum_range (fun i => |ext A i j|)] at h2
      refine (h1.trans h2).trans (le_of_eq (sum_congr rfl fun i _ => ?_))
      rw [ext_fin]
    · rw [abs_zero]
      exact sum_nonneg fun _ _ => abs_nonneg _
  · rw [hU]
    have := (hd k (by omega)).sgn k le_rfl k.2
    rwa [ext_fin] at this

theorem dominant_det {n : Nat} (hn : 0 < n) {A : Matrix (Fin n) (Fin n) K} (hA : ColumnDominant A) : 0 < A.det * ∏ i, A i i := by
  obtain ⟨x, L, U, hx, xL, xU, xp, e, -, -, h⟩ := C109_dominant hn A hA
  obtain ⟨y, σ, L', U', hy, yL, yU, yp, e', a1, a2, a3, b1⟩ := lu_square hn A
  rw [hx] at hy
  cases hy
  rw [xL] at yL
  rw [xU] at yU
  cases ofM_inj (Except.ok.inj yL)
  cases ofM_inj (Except.ok.inj yU)
  rw [← e, Matrix.det_mul, Matrix.det_of_isLowerTriangular (M := L) (fun i j h => a1 i j h), Matrix.det_of_isUpperTriangular (M := U) (fun i j h => b1 i j h),
    e, prod_congr rfl fun i _ => a2 i, prod_const_one, one_mul, ← prod_mul_distrib]
  exact prod_pos fun i _ => h i

/-- C109: systems that are dominant by columns or by rows are always solved, and their determinant has the sign of the product of the diagonal. -/
theorem C109_solve {n p : Nat} (hn : 0 < n) (hp : 0 < p) (A : Matrix (Fin n) (Fin n) K) (hA : ColumnDominant A ∨ RowDominant A)
    (B : Matrix (Fin n) (Fin p) K) :
    (∃ X : Matrix (Fin n) (Fin p) K, (ofM A).solve (ofM B) = .ok (some (ofM X)) ∧ A * X = B) ∧ ∃ d, (ofM A).det = .ok d ∧ 0 < d * ∏ i, A i i := by
  have h : 0 < A.det * ∏ i, A i i := by
    rcases hA with h | h
    · exact dominant_det hn h
    · have := dominant_det hn (A := A.transpose) h
      rwa [Matrix.det_transpose] at this
  have h0 : A.det ≠ 0 := fun h1 => by rw [h1, zero_mul] at h; exact lt_irrefl _ h
  obtain ⟨X, h1, h2, -⟩ := C32_solve hn hp A B h0
  exact ⟨⟨X, h1, h2⟩, A.det, C30_det hn A, h⟩

/-- C109: if every diagonal entry exceeds the sum of the others in its row by at least `g`, the solution is at most the right-hand side divided by `g`. -/
theorem C109_solution_bound {n p : Nat} (hn : 0 < n) (hp : 0 < p) (A : Matrix (Fin n) (Fin n) K) (g : K) (hg : 0 < g)
    (hA : ∀ i, ∑ j ∈ univ.erase i, |A i j| + g ≤ |A i i|) (B : Matrix (Fin n) (Fin p) K) (b : K) (hB : ∀ i j, |B i j| ≤ b) :
    ∃ X : Matrix (Fin n) (Fin p) K, (ofM A).solve (ofM B) = .ok (some (ofM X)) ∧ ∀ i j, |X i j| ≤ b / g := by
  obtain ⟨⟨X, h1, h2⟩, -⟩ := C109_solve hn hp A (Or.inr fun i => by linarith [hA i]) B
  refine ⟨X, h1, fun i j => ?_⟩
  haveI : Nonempty (Fin n) := ⟨⟨0, hn⟩⟩
  obtain ⟨k, -, hk⟩ := exists_max_image (univ : Finset (Fin n)) (fun i => |X i j|) univ_nonempty
  refine (hk i (mem_univ _)).trans ?_
  rw [le_div_iff₀ hg]
  have h3 : A k k * X k j = B k j - ∑ t ∈ univ.erase k, A k t * X t j := by
    rw [← h2, Matrix.mul_apply, ← add_sum_erase univ _ (mem_univ k)]
    ring
  have h4 : |A k k| * |X k j| ≤ b + (∑ t ∈ univ.erase k, |A k t|) * |X k j| := by
    rw [← abs_mul, h3]
    refine (abs_sub _ _).trans (add_le_add (hB k j) ?_)
    refine (abs_sum_le_sum_abs _ _).trans ?_
    rw [sum_mul]
    refine sum_le_sum fun t _ => ?_
    rw [abs_mul]
    exact mul_le_mul_of_nonneg_left (hk t (mem_univ _)) (abs_nonneg _)
  have h5 := mul_le_mul_of_nonneg_right (hA k) (abs_nonneg (X k j))
  linarith

end

/-- The hypotheses are met: a matrix that is dominant by columns and by rows, with diagonal entries of both signs. -/
example : ColumnDominant (!![4, 1, -1; 2, -5, 1; 1, 3, 3] : Matrix (Fin 3) (Fin 3) ℚ) ∧ RowDominant (!![4, 1, -1; 2, -5, 1; 1, 1, 3] : Matrix (Fin 3) (Fin 3) ℚ) := by
  constructor
  · intro j
    fin_cases j <;> decide +kernel
  · intro j
    fin_cases j <;> decide +kernel

/-- Its decomposition. -/
example : ∃ x : LU ℚ, LU.new (ofM (!![4, 1, -1; 2, -5, 1; 1, 3, 3] : Matrix (Fin 3) (Fin 3) ℚ)) = .ok x ∧ x.getPiv = [0, 1, 2] := by
  obtain ⟨x, -, -, h, -, -, h2, -⟩ := C109_dominant (K := ℚ) (by norm_num) !![4, 1, -1; 2, -5, 1; 1, 3, 3] (by
    intro j
    fin_cases j <;> decide +kernel)
  exact ⟨x, h, h2⟩

end LA.Props
