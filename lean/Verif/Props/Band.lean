import Verif.Proofs.BandGrowth
import Verif.Proofs.LU
import Verif.Proofs.RndLU2
import Verif.Proofs.SVDDiag
import Verif.Props.Echelon
import Mathlib.Tactic.FinCases

/-!
# C115: band matrices

`LU::new` on a matrix whose entries vanish below the `b`-th subdiagonal and above the `q`-th superdiagonal, in exact arithmetic and on doubles.
-/

set_option linter.unusedSectionVars false

namespace LA.Props
open LA Finset

/-- The entries more than `b` places below and more than `q` places above the diagonal are zeros (`Z`). -/
def Banded {α : Type} (Z : α → Prop) {m n : Nat} (b q : Nat) (A : Matrix (Fin m) (Fin n) α) : Prop :=
  ∀ (i : Fin m) (c : Fin n), (c.1 + b < i.1 ∨ i.1 + q < c.1) → Z (A i c)

/-- The shape of the factors of a band matrix, `σ` the order of the rows. -/
structure BandFactors {α : Type} (Z : α → Prop) {m n r : Nat} (b q : Nat) (σ : Equiv.Perm (Fin m)) (L : Matrix (Fin m) (Fin r) α)
    (U : Matrix (Fin r) (Fin n) α) : Prop where
  /-- no row moves up more than `b` places -/
  rows : ∀ i : Fin m, i.1 < n → (σ i).1 ≤ i.1 + b
  /-- the multipliers of a row start where the row starts -/
  low : ∀ (i : Fin m) (k : Fin r), k.1 < i.1 → k.1 + b < (σ i).1 → Z (L i k)
  /-- a column of `L` has at most `b` entries below the diagonal -/
  few : ∀ (k : Fin r) (N : Finset (Fin m)), (∀ i ∈ N, k.1 < i.1 ∧ ¬ Z (L i k)) → N.card ≤ b
  /-- `U` has at most `b + q` superdiagonals -/
  up : ∀ (k : Fin r) (c : Fin n), k.1 + b + q < c.1 → Z (U k c)
  /-- and only `q` if no rows were exchanged -/
  same : σ = 1 → ∀ (k : Fin r) (c : Fin n), k.1 + q < c.1 → Z (U k c)

theorem band_factors {α : Type} [Zero α] [One α] [Add α] [Sub α] [Neg α] [Mul α] [FloatOps α] {Z : α → Prop} {m n b q : Nat}
    {G : Nat → Nat → α} {τ : Nat → Nat} (h : LU.Band.Pattern Z m n b q n G τ) (σ : Equiv.Perm (Fin m)) (hσ : ∀ i : Fin m, τ i = (σ i).1)
    {L : Matrix (Fin m) (Fin (min m n)) α} {U : Matrix (Fin (min m n)) (Fin n) α}
    (hL : ∀ i k, k.1 < i.1 → L i k = G i k) (hU : ∀ k c, k.1 ≤ c.1 → U k c = G k c) : BandFactors Z b q σ L U where
  rows i hi := by rw [← hσ]; exact h.past i i.2 hi
  low i k hki hk := by
    rw [hL i k hki]
    exact h.low i k i.2 (by omega) (by omega) hki.le (by rw [hσ]; exact hk)
  few k N hN := LU.Band.count σ hσ h (k := k.1) (by omega) N fun i hi => ⟨(hN i hi).1, by
    have := (hN i hi).2
    rwa [hL i k (hN i hi).1] at this⟩
  up k c hc := by
    rw [hU k c (by omega)]
    refine h.up k c (by omega) c.2 c.2 (by omega) fun t ht => ?_
    have := h.past t (by omega) (by omega)
    omega
  same hs k c hc := by
    rw [hU k c (by omega)]
    refine h.up k c (by omega) c.2 c.2 (by omega) fun t ht => ?_
    have := hσ ⟨t, by omega⟩
    rw [hs] at this
    have e : τ t = t := this
    omega

/-! ## Exact arithmetic -/

section
variable {K : Type} [Field K] [LinearOrder K] [IsStrictOrderedRing K] [FloatOps K] [Exact K]

theorem zeros_exact : Zeros K (fun x => x = 0) fun _ => True where
  zero := rfl
  add x y hx hy := by rw [hx, hy, add_zero]
  sub x y hx hy := by rw [hx, hy, sub_zero]
  mul_left x y hx _ := by rw [hx, zero_mul]
  mul_right x y _ hy := by rw [hy, mul_zero]
  div_ok x p h := ⟨_, Exact.rdiv_ok x p fun e => h ((Exact.eq_iff _ _).2 e)⟩
  div x p y hx _ h hy := by
    rw [Exact.rdiv_ok x p fun e => h ((Exact.eq_iff _ _).2 e), hx, zero_div] at hy
    exact (Except.ok.inj hy).symm
  lt x y hx := by
    rw [Bool.eq_false_iff, ne_eq, Exact.lt_iff, Exact.abs_eq, Exact.abs_eq, hx, abs_zero, not_lt]
    exact abs_nonneg _

/-- The factorisation and its zeros together. -/
theorem band_exact {m n b q : Nat} (hm : 0 < m) (hn : 0 < n) (A : Matrix (Fin m) (Fin n) K) (hA : Banded (fun x => x = 0) b q A) :
    ∃ (G : Nat → Nat → K) (σ : Equiv.Perm (Fin m)) (τ : Nat → Nat),
      LU.new (ofM A) = .ok ⟨ofM (LU.packed m n G), decide (Equiv.Perm.sign σ = 1), List.ofFn fun i => (σ i).1⟩ ∧
      (∀ (i : Fin m) (c : Fin n), A (σ i) c = LU.prod G i c) ∧ (∀ i k, i < m → k < i → k < n → |G i k| ≤ 1) ∧
      (∀ i : Fin m, τ i = (σ i).1) ∧ LU.Band.Pattern (fun x : K => x = 0) m n b q n G τ := by
  obtain ⟨G, σ, hx, h1, h2⟩ := LU.new_ofM hm hn A
  obtain ⟨G', τ, pos, hy, h3, -⟩ := LU.Band.new_ofM (zeros_exact (K := K)) hm hn A hA
  rw [hx] at hy
  have hy := Except.ok.inj hy
  have e1 := ofM_inj (congrArg LU.lu hy)
  have e2 := List.ofFn_injective (congrArg LU.piv hy)
  have e1' : ∀ (i : Fin m) (c : Fin n), G i c = G' i c := fun i c => congrFun (congrFun e1 i) c
  have hP := h3 fun _ _ => trivial
  refine ⟨G, σ, τ, hx, h1, h2, fun i => (congrFun e2 i).symm, ⟨fun i c hi hc hc' a b => ?_, fun i c hi hc hc' a b => ?_, hP.past, hP.ahead⟩⟩
  · rw [e1' ⟨i, hi⟩ ⟨c, hc⟩]; exact hP.low i c hi hc hc' a b
  · rw [e1' ⟨i, hi⟩ ⟨c, hc⟩]; exact hP.up i c hi hc hc' a b

/-- C115, exact arithmetic: the factors of a band matrix are band matrices. -/
theorem C115_exact {m n b q : Nat} (hm : 0 < m) (hn : 0 < n) (A : Matrix (Fin m) (Fin n) K) (hA : Banded (fun x => x = 0) b q A) :
    ∃ (x : LU K) (σ : Equiv.Perm (Fin m)) (L : Matrix (Fin m) (Fin (min m n)) K) (U : Matrix (Fin (min m n)) (Fin n) K),
      LU.new (ofM A) = .ok x ∧ x.getPiv = (List.ofFn fun i => (σ i).1) ∧ x.getL = .ok (ofM L) ∧ x.getU = .ok (ofM U) ∧
      (∀ i c, A (σ i) c = (L * U) i c) ∧ BandFactors (fun x => x = 0) b q σ L U := by
  obtain ⟨G, σ, τ, hx, h1, -, hσ, hP⟩ := band_exact hm hn A hA
  refine ⟨_, σ, _, _, hx, rfl, LU.getL_ok G hm hn _ _, LU.getU_ok G hm hn _ _, fun i c => ?_, band_factors hP σ hσ (fun i k h => ?_) fun k c h => ?_⟩
  · rw [LU.lower_mul_upper G rfl, h1]
  · simp only [LU.lower, Matrix.of_apply]; rw [if_pos h]
  · simp only [LU.upper, Matrix.of_apply]; rw [if_pos h]

/-- C115, growth: for an upper Hessenberg matrix an entry in row `k` of `get_u()` is at most `k + 1` times the largest entry of the matrix. -/
theorem C115_hessenberg {m n : Nat} (hm : 0 < m) (hn : 0 < n) (A : Matrix (Fin m) (Fin n) K) (M : K) (hA : ∀ i j, |A i j| ≤ M)
    (hH : ∀ i j, j.1 + 1 < i.1 → A i j = 0) :
    ∃ (x : LU K) (U : Matrix (Fin (min m n)) (Fin n) K), LU.new (ofM A) = .ok x ∧ x.getU = .ok (ofM U) ∧ ∀ k c, |U k c| ≤ (k.1 + 1) * M := by
  obtain ⟨G, σ, τ, hx, h1, h2, hσ, hP⟩ := band_exact (b := 1) (q := n) hm hn A fun i c h => hH i c (by omega)
  refine ⟨_, _, hx, LU.getU_ok G hm hn _ _, fun k c => ?_⟩
  have hM : 0 ≤ M := (abs_nonneg _).trans (hA ⟨0, hm⟩ ⟨0, hn⟩)
  simp only [LU.upper, Matrix.of_apply]
  by_cases hkc : k.1 ≤ c.1
  swap
  · rw [if_neg hkc, abs_zero]; positivity
  rw [if_pos hkc]
  have hU : ∀ k (hkm : k < m) (_ : k < n) (_ : k ≤ c.1), G k c = A (σ ⟨k, hkm⟩) c - ∑ t ∈ range k, G k t * G t c := fun k hkm hkn hkc => by
    have h3 := h1 ⟨k, hkm⟩ c
    unfold LU.prod at h3
    dsimp only at h3
    rw [min_eq_left hkc, if_pos hkc] at h3
    rw [h3]; ring
  have key : ∀ k, k < m → k < n → k ≤ c.1 → ∀ i : Fin m, k ≤ i.1 → |A (σ i) c - ∑ t ∈ range k, G i t * G t c| ≤ (k + 1) * M := by
    intro k
    induction k with
    | zero =>
      intro _ _ _ i _
      rw [sum_range_zero, sub_zero, Nat.cast_zero, zero_add, one_mul]
      exact hA _ _
    | succ k ih =>
      intro hkm hkn hkc i hi
      have ih := ih (by omega) (by omega) (by omega)
      have hl : |G i k| ≤ 1 := h2 i k i.2 (by omega) (by omega)
      have hz : ∀ t, t < k → k < τ i → G i t = 0 := fun t ht h => hP.low i t i.2 (by omega) (by omega) (by omega) (by omega)
      have hUk := hU k (by omega) (by omega) (by omega)
      push_cast
      by_cases c1 : k + 1 < τ i
      · rw [sum_eq_zero fun t ht => by
          rw [mem_range] at ht
          rw [hP.low i t i.2 (by omega) (by omega) (by omega) (by omega), zero_mul], sub_zero]
        refine (hA _ _).trans ?_
        have : 0 ≤ (k : K) * M := by positivity
        nlinarith
      by_cases c2 : τ i = k + 1
      · rw [sum_range_succ, sum_eq_zero fun t ht => by
          rw [mem_range] at ht
          rw [hz t ht (by omega), zero_mul], zero_add]
        have h4 := ih ⟨k, by omega⟩ le_rfl
        rw [← hUk] at h4
        have h5 : |G i k * G k c| ≤ (k + 1) * M := by
          rw [abs_mul]
          exact (mul_le_of_le_one_left (abs_nonneg _) hl).trans h4
        calc |A (σ i) c - G i k * G k c| ≤ |A (σ i) c| + |G i k * G k c| := abs_sub _ _
          _ ≤ M + (k + 1) * M := add_le_add (hA _ _) h5
          _ = _ := by ring
      · have hf := LU.Band.fresh σ (k := k) (fun t ht => by
          rw [← hσ]; exact hP.past t t.2 (by omega)) (i := i) (by omega) (by rw [← hσ]; omega) (by omega)
        have e : G k c = A (σ ⟨k, by omega⟩) c := by
          rw [hUk, sum_eq_zero fun t ht => ?_, sub_zero]
          rw [mem_range] at ht
          have h6 := hσ ⟨k, by omega⟩
          dsimp only at h6
          rw [hP.low k t (by omega) (by omega) (by omega) (by omega) (by rw [h6, hf]; omega), zero_mul]
        rw [sum_range_succ, ← sub_sub]
        have h5 : |G i k * G k c| ≤ M := by
          rw [abs_mul, e]
          exact (mul_le_of_le_one_left (abs_nonneg _) hl).trans (hA _ _)
        calc |A (σ i) c - ∑ t ∈ range k, G i t * G t c - G i k * G k c|
            ≤ |A (σ i) c - ∑ t ∈ range k, G i t * G t c| + |G i k * G k c| := abs_sub _ _
          _ ≤ (k + 1) * M + M := add_le_add (ih i (by omega)) h5
          _ = _ := by ring
  rw [hU k (by omega) (by omega) hkc]
  exact key k (by omega) (by omega) hkc ⟨k, by omega⟩ le_rfl

/-- C115, growth: for a tridiagonal matrix the diagonal of `get_u()` is at most twice and every other entry at most as large as the largest entry. -/
theorem C115_tridiagonal {m n : Nat} (hm : 0 < m) (hn : 0 < n) (A : Matrix (Fin m) (Fin n) K) (M : K) (hA : ∀ i j, |A i j| ≤ M)
    (hT : ∀ i j, (j.1 + 1 < i.1 ∨ i.1 + 1 < j.1) → A i j = 0) :
    ∃ (x : LU K) (U : Matrix (Fin (min m n)) (Fin n) K), LU.new (ofM A) = .ok x ∧ x.getU = .ok (ofM U) ∧
      (∀ k c, |U k c| ≤ 2 * M) ∧ ∀ k c, k.1 ≠ c.1 → |U k c| ≤ M := by
  obtain ⟨G, σ, τ, hx, h1, h2, hσ, hP⟩ := band_exact (b := 1) (q := 1) hm hn A hT
  have hM : 0 ≤ M := (abs_nonneg _).trans (hA ⟨0, hm⟩ ⟨0, hn⟩)
  have key : ∀ c, c < n → ∀ k, k < m → k ≤ c → (k < c → |G k c| ≤ M) ∧ |G k c| ≤ 2 * M := by
    intro c hc k
    induction k using Nat.strong_induction_on with
    | _ k ih =>
      intro hkm hkc
      have h3 := h1 ⟨k, hkm⟩ ⟨c, hc⟩
      unfold LU.prod at h3
      dsimp only at h3
      rw [min_eq_left hkc, if_pos hkc] at h3
      have h6 := hσ ⟨k, hkm⟩
      dsimp only at h6
      have h4 : G k c = ext A (τ k) c - ∑ t ∈ range k, G k t * G t c := by
        rw [h6, ext_eq A (σ _).2 hc, h3]; ring
      have h5 : |G k c| ≤ |ext A (τ k) c| + ∑ t ∈ range k, |G k t| * |G t c| := by
        rw [h4]
        refine (abs_sub _ _).trans (add_le_add le_rfl ((abs_sum_le_sum_abs _ _).trans (sum_le_sum fun t _ => ?_)))
        rw [abs_mul]
      have hs := LU.Band.tri_step (a := ext A) (g := G) (τ := τ) (k := k) (c := c) (M := M) (B2 := M) (B1 := M) (l := 1) hkc
        (fun i => by
          by_cases hi : i < m
          · rw [ext_eq A hi hc]; exact hA _ _
          · unfold ext; rw [dif_neg (fun h => hi h.1), abs_zero]; exact hM)
        (fun i hic => by
          by_cases hi : i < m
          · rw [ext_eq A hi hc]; exact hT _ _ (Or.inr hic)
          · unfold ext; rw [dif_neg (fun h => hi h.1)])
        (fun t ht => hP.past t (by omega) (by omega))
        (fun t t' ht ht' e => by
          have e1 := hσ ⟨t, by omega⟩
          have e2 := hσ ⟨t', by omega⟩
          dsimp only at e1 e2
          have := σ.injective (Fin.ext (by rw [← e1, ← e2, e] : (σ ⟨t, by omega⟩).1 = (σ ⟨t', by omega⟩).1))
          exact congrArg Fin.val this)
        (fun t ht h => hP.low k t hkm (by omega) (by omega) (by omega) h)
        (fun t ht h => hP.up t c (by omega) hc hc (by omega) h)
        (fun t ht => h2 k t hkm ht (by omega))
        (fun t ht => (ih t ht (by omega) (by omega)).1 (by omega))
        (fun t ht _ => (ih t ht (by omega) (by omega)).1 (by omega)) le_rfl le_rfl le_rfl
      refine ⟨fun h => h5.trans ((hs.2.1 h).trans (by rw [one_mul])), h5.trans (hs.2.2.trans (le_of_eq (by ring)))⟩
  refine ⟨_, _, hx, LU.getU_ok G hm hn _ _, fun k c => ?_, fun k c hkc => ?_⟩
  · simp only [LU.upper, Matrix.of_apply]
    split
    · next h => exact (key c c.2 k (by omega) h).2
    · rw [abs_zero]; positivity
  · simp only [LU.upper, Matrix.of_apply]
    split
    · next h => exact (key c c.2 k (by omega) h).1 (by omega)
    · rw [abs_zero]; exact hM
end

/-! ## Doubles -/

theorem zeros_f64 : Zeros F64 F64.isZero F64.isFin where
  zero := rfl
  add x y hx hy := by
    obtain ⟨s, rfl⟩ := F64.isZero_iff.1 hx
    obtain ⟨t, rfl⟩ := F64.isZero_iff.1 hy
    cases s <;> cases t <;> rfl
  sub x y hx hy := (agree_zero (sub_zero_agree x hy)).2 hx
  mul_left x y hx hy := zero_mul_fin hx hy
  mul_right x y hx hy := by rw [F64.mul_comm]; exact zero_mul_fin hy hx
  div_ok x p _ := ⟨_, rfl⟩
  div x p y hx hp h hy := by
    rw [← Except.ok.inj hy]
    exact SVD.Dg.zero_div_fin hx hp fun e => h (F64.eq_zero_iff.2 e)
  lt x y hx := by
    obtain ⟨s, rfl⟩ := F64.isZero_iff.1 hx
    rcases y with _ | t | ⟨t, a, ha⟩
    · rfl
    · rfl
    · show decide (F64.sgn false a < F64.sgn false 0) = false
      simp [F64.sgn]

/-- C115, doubles: as long as no entry of the factors overflows, the same zeros (of either sign). -/
theorem C115_f64 {m n b q : Nat} (hm : 0 < m) (hn : 0 < n) (A : Matrix (Fin m) (Fin n) F64) (hA : Banded F64.isZero b q A) :
    ∃ (x : LU F64) (σ : Equiv.Perm (Fin m)) (L : Matrix (Fin m) (Fin (min m n)) F64) (U : Matrix (Fin (min m n)) (Fin n) F64),
      LU.new (ofM A) = .ok x ∧ x.getPiv = (List.ofFn fun i => (σ i).1) ∧ x.getL = .ok (ofM L) ∧ x.getU = .ok (ofM U) ∧
      ((∀ i k, (L i k).isFin) → (∀ k c, (U k c).isFin) → BandFactors F64.isZero b q σ L U) := by
  obtain ⟨G, σ, hx, -⟩ := LU.Rnd.new_ofM hm hn A
  obtain ⟨G', τ, pos, hy, h3, -⟩ := LU.Band.new_ofM zeros_f64 hm hn A hA
  have hσ : ∀ i : Fin m, τ i = (σ i).1 := by
    rw [hx] at hy
    have e2 := List.ofFn_injective (congrArg LU.piv (Except.ok.inj hy))
    exact fun i => (congrFun e2 i).symm
  refine ⟨_, σ, _, _, hy, ?_, LU.Rnd.getL_ok G' hm hn _ _, LU.Rnd.getU_ok G' hm hn _ _, fun hL hU => ?_⟩
  · show (List.ofFn fun i : Fin m => τ i) = _
    congr 1; funext i; exact hσ i
  · refine band_factors (h3 fun i c => ?_) σ hσ (fun i k h => ?_) fun k c h => ?_
    · by_cases h : c.1 < i.1
      · have := hL i ⟨c, by omega⟩
        simp only [LU.Rnd.lowerA, Matrix.of_apply] at this
        rwa [if_pos h] at this
      · have := hU ⟨i, by omega⟩ c
        simp only [LU.Rnd.upperA, Matrix.of_apply] at this
        rwa [if_pos (by omega)] at this
    · simp only [LU.Rnd.lowerA, Matrix.of_apply]; rw [if_pos h]
    · simp only [LU.Rnd.upperA, Matrix.of_apply]; rw [if_pos h]

/-! ## Examples -/

/-- A tridiagonal matrix for which the diagonal of `U` is twice the largest entry. -/
example : Banded (fun x => x = 0) 1 1 (!![1, 1, 0; -1, 1, 1; 0, 1, 1] : Matrix (Fin 3) (Fin 3) ℚ) ∧
    (LU.new (ofM (!![1, 1, 0; -1, 1, 1; 0, 1, 1] : Matrix (Fin 3) (Fin 3) ℚ)) >>= fun x => x.getU) =
      .ok (ofM (!![1, 1, 0; 0, 2, 1; 0, 0, 1/2] : Matrix (Fin 3) (Fin 3) ℚ)) := by
  constructor
  · intro i c h
    fin_cases i <;> fin_cases c <;> simp_all
  · decide +kernel

/-- A tridiagonal matrix whose `U` has two superdiagonals, the rows being exchanged. -/
example : (LU.new (ofM (!![1, 1, 0; 2, 1, 1; 0, 1, 1] : Matrix (Fin 3) (Fin 3) ℚ)) >>= fun x => x.getU) =
      .ok (ofM (!![2, 1, 1; 0, 1, 1; 0, 0, -1] : Matrix (Fin 3) (Fin 3) ℚ)) := by
  decide +kernel

/-- A Hessenberg matrix for which the growth is exactly `k + 1`. -/
example : (LU.new (ofM (!![1, 0, 1; -1, 1, 1; 0, -1, 1] : Matrix (Fin 3) (Fin 3) ℚ)) >>= fun x => x.getU) =
      .ok (ofM (!![1, 0, 1; 0, 1, 2; 0, 0, 3] : Matrix (Fin 3) (Fin 3) ℚ)) := by
  decide +kernel

/-- Doubles: a tridiagonal matrix, one of its zeros negative, and its factors. -/
example : Banded F64.isZero 1 1 (!![1, 1, 0; 1, 0, 1; F64.zero true, 1, 1] : Matrix (Fin 3) (Fin 3) F64) := by
  intro i c h
  have h0 : F64.isZero (0 : F64) := zeros_f64.zero
  have h1 : F64.isZero (F64.zero true) := F64.isZero_iff.2 ⟨true, by rfl⟩
  fin_cases i <;> fin_cases c <;> first | (exfalso; revert h; decide) | (simpa using h0) | simpa using h1

end LA.Props
