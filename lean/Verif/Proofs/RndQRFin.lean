import Verif.Proofs.RndQR2
import Verif.Proofs.Overflow
import Mathlib.LinearAlgebra.FiniteDimensional.Lemmas

/-! # QR decomposition in rounded arithmetic: nothing overflows or underflows

`RndQR2` bounds the errors of a factorisation whose results are finite and in range.  Here that is derived from the matrix: its columns are not
too large, and its smallest singular value is not too small. -/

set_option linter.unusedSectionVars false

namespace LA
open Finset
namespace QR
namespace Rnd
open Fp RQ

variable {α : Type} [Zero α] [One α] [Add α] [Sub α] [Neg α] [Mul α] [FloatOps α] [Fp α]

/-- The computed sum of products does not overflow. -/
theorem dotFrom_fin {m k : Nat} {v x : Nat → α} (hv : ∀ r, k ≤ r → r < m → fin (v r) ∧ fin (x r))
    (h : (1 + u α) ^ (m + 1) * (l2 (hvec m k v) * l2 (vec m x)) + θ α m ≤ Ω α) : fin (dotFrom m k v x) := by
  unfold dotFrom
  refine fdot_fin _ _ _ (fun i hi => hv _ (by omega) (by omega)) (le_trans ?_ h)
  rw [sum_from (fun t => |val (v t) * val (x t)|)]
  have e2 : ∀ i : Fin m, (if k ≤ i.1 then |val (v i) * val (x i)| else 0) = |hvec m k v i * vec m x i| := by
    intro i; unfold hvec vec; split <;> simp
  simp only [e2]
  have hs := sum_abs_le (hvec m k v) (vec m x)
  have hs0 : 0 ≤ ∑ i, |hvec m k v i * vec m x i| := sum_nonneg fun _ _ => abs_nonneg _
  exact add_le_add (mul_le_mul (pow_le_pow_right₀ one_u (by omega)) hs hs0 (by have := one_le_pow (α := α) (m + 1); linarith))
    (θ_mono (by omega))

/-- All numbers between `1/P` and `P` can be squared, and a rounding of such a square exceeds `m` underflows. -/
structure Room (α : Type) [Zero α] [One α] [Add α] [Sub α] [Neg α] [Mul α] [FloatOps α] [Fp α] (m : Nat) (P : ℝ) : Prop where
  one : 1 ≤ P
  top : 100 * P ^ 2 ≤ Ω α
  low : 2 * (m * η α) * P ^ 2 ≤ u α
  eps : γ α (m + 4) ≤ 1 / 64

theorem Room.basic {m : Nat} {P : ℝ} (h : Room α m P) (hm : 0 < m) :
    u α ≤ 1 / 256 ∧ P ≤ P ^ 2 ∧ θ α m * P ^ 2 ≤ 1 / 256 ∧ θ α m * P ≤ 1 / 256 ∧ θ α m ≤ 1 / 256 ∧ η α * P ≤ 1 / 256 ∧ η α ≤ 1 / 256 ∧
      (1 + u α) ^ (m + 1) ≤ 65 / 64 := by
  have h4 := four_u (α := α) m
  have h1 := h.one
  have h2 := h.low
  have h3 := h.eps
  have hη := η_nonneg (α := α)
  have hu := u_nonneg (α := α)
  have hP2 : P ≤ P ^ 2 := by rw [sq]; exact le_mul_of_one_le_left (by linarith) h1
  have hp : (1 + u α) ^ (m + 1) ≤ 65 / 64 := by
    have := γ_mono (α := α) (show m + 1 ≤ m + 4 by omega)
    unfold γ at this h3
    linarith
  have hpm : (1 + u α) ^ m ≤ 2 := (pow_le_pow_right₀ one_u (show m ≤ m + 1 by omega)).trans (hp.trans (by norm_num))
  have hm1 : (1 : ℝ) ≤ m := by exact_mod_cast hm
  have hmη : η α ≤ m * η α := le_mul_of_one_le_left hη hm1
  have hθ0 := θ_nonneg (α := α) m
  have hθ : θ α m ≤ 2 * (m * η α) := by
    unfold θ
    calc (m : ℝ) * (1 + u α) ^ m * η α = (1 + u α) ^ m * (m * η α) := by ring
      _ ≤ _ := mul_le_mul_of_nonneg_right hpm (by positivity)
  have a1 : θ α m * P ^ 2 ≤ 1 / 256 := (mul_le_mul_of_nonneg_right hθ (sq_nonneg _)).trans (h2.trans (by linarith))
  have a2 : θ α m * P ≤ θ α m * P ^ 2 := mul_le_mul_of_nonneg_left hP2 hθ0
  have a3 : θ α m ≤ θ α m * P := le_mul_of_one_le_right hθ0 h1
  have a4 : η α * P ≤ η α * P ^ 2 := mul_le_mul_of_nonneg_left hP2 hη
  have a5 : η α * P ^ 2 ≤ 2 * (m * η α) * P ^ 2 := mul_le_mul_of_nonneg_right (by linarith) (sq_nonneg _)
  have a6 : η α ≤ η α * P := le_mul_of_one_le_right hη h1
  exact ⟨by linarith, hP2, a1, by linarith, by linarith, by linarith, by linarith, hp⟩

/-- A computed reflection of a column does not overflow. -/
theorem app_fwd {m k : Nat} (hm : 0 < m) {P : ℝ} (hP : Room α m P) {v x : Nat → α} {b : α} (hv : ∀ r, k ≤ r → r < m → fin (v r))
    (hx : ∀ r, r < m → fin (x r)) (hb : fin b) (hS : 1 ≤ 2 * P * l2 (hvec m k v)) (hS2 : l2 (hvec m k v) ≤ 7 * P)
    (hX : l2 (vec m x) ≤ P) (hb' : |val b + l2 (hvec m k v) ^ 2 / 2| ≤ 2 * γ α (m + 4) * l2 (hvec m k v) ^ 2) :
    ∀ r, r < m → fin (app m k v b x r) := by
  obtain ⟨b1, b2, b3, b4, b5, b6, b7, b8⟩ := hP.basic hm
  have hP1 := hP.one
  have hP0 : 0 < P := by linarith
  have htop := hP.top
  have hε := hP.eps
  have hu := u_nonneg (α := α)
  have hη := η_nonneg (α := α)
  have hθ := θ_nonneg (α := α) m
  have hS0 : 0 < l2 (hvec m k v) := by
    rcases (l2_nonneg (hvec m k v)).eq_or_lt with h | h
    · rw [← h] at hS; norm_num at hS
    · exact h
  have hX0 := l2_nonneg (vec m x)
  have hvS : ∀ r, k ≤ r → r < m → |val (v r)| ≤ l2 (hvec m k v) := by
    intro r h1 h2
    have := abs_le_l2 (hvec m k v) ⟨r, h2⟩
    unfold hvec at this ⊢
    dsimp only at this
    rwa [if_pos h1] at this
  have hxX : ∀ r, r < m → |val (x r)| ≤ P := fun r h2 => (abs_le_l2 (vec m x) ⟨r, h2⟩).trans hX
  have hDf : fin (dotFrom m k v x) := by
    refine dotFrom_fin (fun r h1 h2 => ⟨hv r h1 h2, hx r h2⟩) ?_
    have : l2 (hvec m k v) * l2 (vec m x) ≤ 7 * P * P := mul_le_mul hS2 hX hX0 (by positivity)
    have h2 : (1 + u α) ^ (m + 1) * (l2 (hvec m k v) * l2 (vec m x)) ≤ 65 / 64 * (7 * P * P) :=
      mul_le_mul b8 this (by positivity) (by norm_num)
    have h3 : 65 / 64 * (7 * P * P) = 455 / 64 * P ^ 2 := by ring
    linarith
  obtain ⟨-, hD⟩ := dotFrom_err hDf
  obtain ⟨D, hDd⟩ : ∃ D, D = dotFrom m k v x := ⟨_, rfl⟩
  rw [← hDd] at hDf hD
  set S := l2 (hvec m k v) with hSd
  set X := l2 (vec m x) with hXd
  have hSS : 0 < S ^ 2 := by positivity
  have hSX : 0 ≤ S * X := by positivity
  have hDa : |val D| ≤ 65 / 64 * (S * X) + θ α m := by
    have d1 := dot_le (hvec m k v) (vec m x)
    have d2 := sum_abs_le (hvec m k v) (vec m x)
    rw [← hSd, ← hXd] at d1 d2
    have d3 : γ α (m + 1) ≤ 1 / 64 := (γ_mono (by omega)).trans hε
    have d4 : γ α (m + 1) * (∑ i, |hvec m k v i * vec m x i|) ≤ 1 / 64 * (S * X) :=
      mul_le_mul d3 d2 (sum_nonneg fun _ _ => abs_nonneg _) (by norm_num)
    calc |val D| = |(val D - ∑ i, hvec m k v i * vec m x i) + ∑ i, hvec m k v i * vec m x i| := by rw [sub_add_cancel]
      _ ≤ |val D - ∑ i, hvec m k v i * vec m x i| + |∑ i, hvec m k v i * vec m x i| := abs_add_le _ _
      _ ≤ _ := by linarith
  have hbl : 15 / 32 * S ^ 2 ≤ |val b| := by
    have h := (abs_le.mp hb').2
    have h2 : γ α (m + 4) * S ^ 2 ≤ 1 / 64 * S ^ 2 := mul_le_mul_of_nonneg_right hε hSS.le
    rw [abs_of_neg (by linarith)]
    linarith
  have hbp : 0 < |val b| := lt_of_lt_of_le (by positivity) hbl
  have hb0 : val b ≠ 0 := abs_pos.mp hbp
  -- the quotient
  have hq1 : S * |val D / val b| ≤ 3 * P - 1 / 2 := by
    rw [abs_div, ← mul_div_assoc, div_le_iff₀ hbp]
    have e1 : S * |val D| ≤ S * (65 / 64 * (S * X) + θ α m) := mul_le_mul_of_nonneg_left hDa hS0.le
    have e2 : S * (65 / 64 * (S * X) + θ α m) ≤ S ^ 2 * (65 / 64 * P + 2 * (θ α m * P)) := by
      have f1 : S ^ 2 * X ≤ S ^ 2 * P := mul_le_mul_of_nonneg_left hX hSS.le
      have f2 : S * θ α m * 1 ≤ S * θ α m * (2 * P * S) := mul_le_mul_of_nonneg_left hS (by positivity)
      linarith
    have e3 : S ^ 2 * (65 / 64 * P + 2 * (θ α m * P)) ≤ S ^ 2 * (15 / 32 * (3 * P - 1 / 2)) :=
      mul_le_mul_of_nonneg_left (by linarith) hSS.le
    have e4 : (15 / 32 * S ^ 2) * (3 * P - 1 / 2) ≤ |val b| * (3 * P - 1 / 2) := mul_le_mul_of_nonneg_right hbl (by linarith)
    linarith
  have hq2 : |val D / val b| ≤ 6 * P ^ 2 := by
    have e1 : 1 * |val D / val b| ≤ 2 * P * S * |val D / val b| := mul_le_mul_of_nonneg_right hS (abs_nonneg _)
    have e2 : 2 * P * (S * |val D / val b|) ≤ 2 * P * (3 * P - 1 / 2) := mul_le_mul_of_nonneg_left hq1 (by linarith)
    linarith
  have hf : fin (dv D b) := by
    refine Fp.div_fin _ _ _ (dv_ok D b) hDf hb hb0 ?_
    have : u α * |val D / val b| ≤ 1 / 256 * |val D / val b| := mul_le_mul_of_nonneg_right b1 (abs_nonneg _)
    linarith
  obtain ⟨-, hdiv⟩ := Fp.div _ _ _ (dv_ok D b) hf
  obtain ⟨-, hfe, -⟩ := hdiv hb
  have hfa : S * |val (dv D b)| ≤ 3 * P - 1 / 4 := by
    have e1 : |val (dv D b)| ≤ (1 + 1 / 256) * |val D / val b| + η α := by
      have : u α * |val D / val b| ≤ 1 / 256 * |val D / val b| := mul_le_mul_of_nonneg_right b1 (abs_nonneg _)
      have := abs_sub_abs_le_abs_sub (val (dv D b)) (val D / val b)
      linarith
    have e2 := mul_le_mul_of_nonneg_left e1 hS0.le
    have e3 : S * η α ≤ 7 * P * η α := mul_le_mul_of_nonneg_right hS2 hη
    have e4 : S * |val D / val b| ≤ 65 / 30 * P + 2 / 15 := by
      rw [abs_div, ← mul_div_assoc, div_le_iff₀ hbp]
      have e1 : S * |val D| ≤ S * (65 / 64 * (S * X) + θ α m) := mul_le_mul_of_nonneg_left hDa hS0.le
      have e2 : S * (65 / 64 * (S * X) + θ α m) ≤ S ^ 2 * (65 / 64 * P + 2 * (θ α m * P)) := by
        have f1 : S ^ 2 * X ≤ S ^ 2 * P := mul_le_mul_of_nonneg_left hX hSS.le
        have f2 : S * θ α m * 1 ≤ S * θ α m * (2 * P * S) := mul_le_mul_of_nonneg_left hS (by positivity)
        linarith
      have e3 : S ^ 2 * (65 / 64 * P + 2 * (θ α m * P)) ≤ S ^ 2 * (15 / 32 * (65 / 30 * P + 2 / 15)) :=
        mul_le_mul_of_nonneg_left (by linarith) hSS.le
      have e4 : (15 / 32 * S ^ 2) * (65 / 30 * P + 2 / 15) ≤ |val b| * (65 / 30 * P + 2 / 15) := mul_le_mul_of_nonneg_right hbl (by linarith)
      linarith
    linarith
  intro r hr
  unfold app
  split
  · rename_i hkr
    rw [← hDd]
    have g1 : |val (dv D b) * val (v r)| ≤ 3 * P - 1 / 4 := by
      rw [abs_mul]
      have := mul_le_mul_of_nonneg_left (hvS r hkr hr) (abs_nonneg (val (dv D b)))
      linarith
    have g2 : u α * |val (dv D b) * val (v r)| ≤ 1 / 256 * |val (dv D b) * val (v r)| := mul_le_mul_of_nonneg_right b1 (abs_nonneg _)
    have g3 : fin (dv D b * v r) := Fp.mul_fin _ _ hf (hv r hkr hr) (by linarith)
    have g4 := (Fp.mul _ _ g3).2.2.1
    have g5 := abs_sub_abs_le_abs_sub (val (dv D b * v r)) (val (dv D b) * val (v r))
    have g6 := abs_add_le (val (x r)) (val (dv D b * v r))
    have g7 := hxX r hr
    have g8 : u α * |val (x r) + val (dv D b * v r)| ≤ 1 / 256 * |val (x r) + val (dv D b * v r)| := mul_le_mul_of_nonneg_right b1 (abs_nonneg _)
    exact Fp.add_fin _ _ (hx r hr) g3 (by linarith)
  · exact hx r hr

/-- A step looks only at its own column and those to the right. -/
theorem Step.own {m n k : Nat} {G G' : Nat → Nat → α} {a : α} (hs : Step m n k G G' a) : Step m (k + 1) k G G' a :=
  ⟨hs.sqrt, hs.left, hs.zero, hs.diag, hs.low, fun _ _ _ _ _ _ => by omega⟩

/-- One step does not overflow, and its diagonal entry is in range. -/
theorem step_fwd {m n k : Nat} {G G' : Nat → Nat → α} {a : α} (hs : Step m n k G G' a) (hk : k < m) (hn : k < n) {P : ℝ} (hP : Room α m P)
    (hG : ∀ r j, r < m → j < n → fin (G r j)) (hX : ∀ j, k ≤ j → j < n → l2 (vec m fun r => G r j) ≤ P)
    (hT : 2 ≤ P * l2 (hvec m k fun r => G r k)) :
    (∀ r j, r < m → j < n → fin (G' r j)) ∧ fin a ∧ val a ≠ 0 ∧ m * η α ≤ u α * val a ^ 2 ∧ 4 * val a ^ 2 ≤ Ω α ∧
      l2 (hvec m k fun r => G r k) ≤ 2 * |val a| ∧ |val a| ≤ 2 * P := by
  have hm : 0 < m := by omega
  obtain ⟨b1, b2, b3, b4, b5, b6, b7, b8⟩ := hP.basic hm
  have hP1 := hP.one
  have hP0 : 0 < P := by linarith
  have htop := hP.top
  have hε := hP.eps
  have hu := u_nonneg (α := α)
  have hη := η_nonneg (α := α)
  have hθ := θ_nonneg (α := α) m
  set T := l2 (hvec m k fun r => G r k) with hTd
  have hTX : T ≤ l2 (vec m fun r => G r k) := by
    rw [hTd, ← l2_abs (vec m fun r => G r k)]
    refine l2_mono fun i => ?_
    unfold hvec vec
    split
    · exact le_rfl
    · rw [abs_zero]; exact abs_nonneg _
  have hXk := hX k le_rfl hn
  have hTP : T ≤ P := hTX.trans hXk
  have hT0 : 0 < T := by
    rcases (l2_nonneg (hvec m k fun r => G r k)).eq_or_lt with h | h
    · rw [hTd, ← h] at hT; norm_num at hT
    · exact h
  have hTT : 0 < T ^ 2 := by positivity
  -- the sum of squares
  obtain ⟨N, hNd⟩ : ∃ N, N = dotFrom m k (fun r => G r k) (fun r => G r k) := ⟨_, rfl⟩
  have hNf : fin N := by
    rw [hNd]
    refine dotFrom_fin (fun r h1 h2 => ⟨hG r k h2 hn, hG r k h2 hn⟩) ?_
    rw [← hTd]
    have h1 : T * l2 (vec m fun r => G r k) ≤ P * P := mul_le_mul hTP hXk (l2_nonneg _) hP0.le
    have h2 : (1 + u α) ^ (m + 1) * (T * l2 (vec m fun r => G r k)) ≤ 65 / 64 * (P * P) :=
      mul_le_mul b8 h1 (mul_nonneg hT0.le (l2_nonneg _)) (by norm_num)
    rw [← sq] at h2
    linarith
  have hNe : |val N - T ^ 2| ≤ 1 / 50 * T ^ 2 := by
    have h := hNf
    rw [hNd] at h
    have := (dotFrom_err h).2
    rw [← hNd] at this
    have e1 : ∑ i, hvec m k (fun r => G r k) i * vec m (fun r => G r k) i = T ^ 2 := by
      rw [hTd, l2_sq]
      refine sum_congr rfl fun i _ => ?_
      unfold hvec vec
      split <;> ring
    have e2 : ∑ i, |hvec m k (fun r => G r k) i * vec m (fun r => G r k) i| = T ^ 2 := by
      rw [← e1]
      refine sum_congr rfl fun i _ => abs_of_nonneg ?_
      unfold hvec vec
      split
      · exact mul_self_nonneg _
      · simp
    rw [e1, e2] at this
    have h1 : γ α (m + 1) * T ^ 2 ≤ 1 / 64 * T ^ 2 := mul_le_mul_of_nonneg_right ((γ_mono (by omega)).trans hε) hTT.le
    have h2 : 4 ≤ P ^ 2 * T ^ 2 := by
      have := mul_le_mul hT hT (by norm_num) (by positivity)
      calc (4 : ℝ) = 2 * 2 := by norm_num
        _ ≤ _ := this
        _ = _ := by ring
    have h3 : θ α m * 4 ≤ θ α m * (P ^ 2 * T ^ 2) := mul_le_mul_of_nonneg_left h2 hθ
    have h4 : θ α m * P ^ 2 * T ^ 2 ≤ 1 / 256 * T ^ 2 := mul_le_mul_of_nonneg_right b3 hTT.le
    linarith
  have hN1 := (abs_le.mp hNe).1
  have hN2 := (abs_le.mp hNe).2
  have hN0 : 0 ≤ val N := by linarith
  have hr1 : 9 / 10 * T ≤ √(val N) := Real.le_sqrt_of_sq_le (by rw [mul_pow]; linarith)
  have hr2 : √(val N) ≤ 11 / 10 * T := Real.sqrt_le_iff.mpr ⟨by positivity, by rw [mul_pow]; linarith⟩
  obtain ⟨z, hz, haz⟩ := hs.sqrt
  rw [← hNd] at hz
  have hzf : fin z := by
    refine Fp.sqrt_fin _ _ hz hNf hN0 ?_
    have : u α * √(val N) ≤ 1 / 256 * √(val N) := mul_le_mul_of_nonneg_right b1 (Real.sqrt_nonneg _)
    linarith
  obtain ⟨-, -, hz0, hz1, -⟩ := Fp.sqrt _ _ hz hzf
  have hz2 : |val z - √(val N)| ≤ 1 / 256 * √(val N) := hz1.trans (mul_le_mul_of_nonneg_right b1 (Real.sqrt_nonneg _))
  have hz3 := (abs_le.mp hz2).1
  have hz4 := (abs_le.mp hz2).2
  have haf : fin a ∧ |val a| = val z := by
    rw [haz]
    split
    · rw [(Fp.neg z hzf).2, abs_neg, abs_of_nonneg hz0]
      exact ⟨(Fp.neg z hzf).1, rfl⟩
    · rw [abs_of_nonneg hz0]
      exact ⟨hzf, rfl⟩
  obtain ⟨ha, haz'⟩ := haf
  have ha1 : 2 / 3 * T ≤ |val a| := by rw [haz']; linarith
  have ha2 : |val a| ≤ 4 / 3 * P := by rw [haz']; linarith
  have ha0 : val a ≠ 0 := abs_pos.mp (lt_of_lt_of_le (by positivity) ha1)
  have haP : 1 ≤ P ^ 2 * val a ^ 2 := by
    have h1 : 1 ≤ P * |val a| := by
      have := mul_le_mul_of_nonneg_left ha1 hP0.le
      linarith
    have := mul_le_mul h1 h1 (by norm_num) (by positivity)
    rw [← sq_abs (val a)]
    calc (1 : ℝ) = 1 * 1 := by norm_num
      _ ≤ _ := this
      _ = _ := by ring
  have hlow : m * η α ≤ u α * val a ^ 2 := by
    have h0 : 0 ≤ m * η α := by positivity
    have h1 : m * η α * 1 ≤ m * η α * (P ^ 2 * val a ^ 2) := mul_le_mul_of_nonneg_left haP h0
    have h2 : 2 * (m * η α) * P ^ 2 * val a ^ 2 ≤ u α * val a ^ 2 := mul_le_mul_of_nonneg_right hP.low (sq_nonneg _)
    have h3 : 0 ≤ m * η α * (P ^ 2 * val a ^ 2) := by positivity
    linarith
  have hhigh : 4 * val a ^ 2 ≤ Ω α := by
    rw [← sq_abs (val a)]
    have := pow_le_pow_left₀ (abs_nonneg _) ha2 2
    rw [mul_pow] at this
    have := sq_nonneg P
    linarith
  -- the own column
  have he : FloatOps.eq a 0 = false := by
    have := (Fp.eq a 0 ha Fp.zero.1)
    rw [Fp.zero.2] at this
    rw [← Bool.not_eq_true, this]; exact ha0
  have hown : ∀ r j, r < m → j < k + 1 → fin (G' r j) := by
    intro r j hr hj
    rcases (show j < k ∨ j = k by omega) with h | rfl
    · rw [hs.left r j h]; exact hG r j hr (by omega)
    · by_cases e : r = j
      · subst e
        rw [hs.diag he]
        refine Fp.sub_fin _ _ (hG r r hr hn) ha ?_
        have h1 := abs_sub (val (G r r)) (val a)
        have h2 : |val (G r r)| ≤ P := (abs_le_l2 (vec m fun i => G i r) ⟨r, hr⟩).trans hXk
        have h3 : u α * |val (G r r) - val a| ≤ 1 / 256 * |val (G r r) - val a| := mul_le_mul_of_nonneg_right b1 (abs_nonneg _)
        linarith
      · rw [hs.low r e]; exact hG r j hr hn
  obtain ⟨-, F⟩ := step_facts hs.own hk (by omega) hown ha ha0 hlow hhigh hε
  refine ⟨fun r j hr hj => ?_, ha, ha0, hlow, hhigh, by linarith, by linarith⟩
  by_cases hjk : j < k + 1
  · exact hown r j hr hjk
  · rw [hs.app he r j hr (by omega) hj]
    refine app_fwd hm hP (fun r _ h => hown r k h (by omega)) (fun r h => hG r j h hj) F.fin_b ?_ ?_ (hX j (by omega) hj) F.b r hr
    · have h1 := F.ge
      have h2 : P * (2 / 3 * T) ≤ P * (102 / 100 * l2 (hvec m k fun r => G' r k)) := mul_le_mul_of_nonneg_left (ha1.trans h1) hP0.le
      linarith
    · have := F.le
      linarith

/-! ## The diagonal entries are bounded below by the smallest singular value -/

theorem l2_sum_le {ι : Type} {m : Nat} (s : Finset ι) (f : ι → Fin m → ℝ) : l2 (∑ k ∈ s, f k) ≤ ∑ k ∈ s, l2 (f k) := by
  classical
  induction s using Finset.induction_on with
  | empty => simp [l2_zero]
  | insert a s ha ih =>
    rw [sum_insert ha, sum_insert ha]
    exact (l2_add _ _).trans (by linarith)

/-- A combination of columns is bounded by the norms of the columns. -/
theorem l2_comb {m n : Nat} (E : Fin n → Fin m → ℝ) (y : Fin n → ℝ) : l2 (∑ j, y j • E j) ≤ l2 (fun j => l2 (E j)) * l2 y := by
  refine (l2_sum_le _ _).trans ?_
  simp only [l2_smul]
  have := dot_le (fun j => |y j|) (fun j => l2 (E j))
  rw [l2_abs] at this
  rw [mul_comm]
  exact (le_abs_self _).trans this

/-- If the first `k` columns of `W` are zero from row `k` on, the rest of column `k` is as large as the smallest singular value. -/
theorem tail_lower {m n k : Nat} (hk : k < n) (hkm : k < m) {Q : Matrix (Fin m) (Fin m) ℝ} (hQ : Q.transpose * Q = 1)
    {A W : Fin n → Fin m → ℝ} {σ e : ℝ} (he : 0 ≤ e) (hσ : ∀ y : Fin n → ℝ, σ * l2 y ≤ l2 (∑ j, y j • A j))
    (hE : ∀ y : Fin n → ℝ, l2 (∑ j, y j • (Q.mulVec (A j) - W j)) ≤ e * l2 y)
    (hW : ∀ j : Fin n, j.1 < k → ∀ i : Fin m, k ≤ i.1 → W j i = 0) :
    σ - e ≤ l2 (fun i : Fin m => if k ≤ i.1 then W ⟨k, hk⟩ i else 0) := by
  -- a combination of the first columns whose first rows vanish
  let f : (Fin (k + 1) → ℝ) →ₗ[ℝ] (Fin k → ℝ) :=
    Matrix.toLin' (Matrix.of fun (i : Fin k) (j : Fin (k + 1)) => W ⟨j, by omega⟩ ⟨i, by omega⟩)
  have hker : LinearMap.ker f ≠ ⊥ := LinearMap.ker_ne_bot_of_finrank_lt (by simp)
  obtain ⟨y, hy, hy0⟩ := (Submodule.ne_bot_iff _).mp hker
  let x : Fin n → ℝ := fun j => if h : j.1 < k + 1 then y ⟨j, h⟩ else 0
  have hxin : ∀ (j : Fin n) (h : j.1 < k + 1), x j = y ⟨j, h⟩ := fun j h => dif_pos h
  have hxout : ∀ (j : Fin n), ¬ j.1 < k + 1 → x j = 0 := fun j h => dif_neg h
  have hx0 : 0 < l2 x := by
    rcases (l2_nonneg x).eq_or_lt with h | h
    · exfalso
      apply hy0
      funext j
      have := abs_le_l2 x ⟨j, by omega⟩
      rw [← h] at this
      have h2 := abs_nonpos_iff.mp this
      rw [hxin _ j.2] at h2
      exact h2
    · exact h
  have hsum : ∀ i : Fin m, (∑ j, x j • W j) i = x ⟨k, hk⟩ * (if k ≤ i.1 then W ⟨k, hk⟩ i else 0) := by
    intro i
    rw [Finset.sum_apply]
    simp only [Pi.smul_apply, smul_eq_mul]
    by_cases hi : k ≤ i.1
    · rw [if_pos hi, Finset.sum_eq_single ⟨k, hk⟩]
      · intro j _ hj
        by_cases hjk : j.1 < k
        · rw [hW j hjk i hi, mul_zero]
        · have : ¬ j.1 < k + 1 := by
            intro h
            exact hj (Fin.ext (show j.1 = k by omega))
          rw [hxout j this, zero_mul]
      · simp
    · rw [if_neg hi, mul_zero]
      have h := congrFun (LinearMap.mem_ker.mp hy) ⟨i.1, by omega⟩
      simp only [f, Matrix.toLin'_apply, Matrix.mulVec, dotProduct, Matrix.of_apply, Pi.zero_apply] at h
      rw [← h]
      symm
      have h2 : ∑ j : Fin n, x j * W j i = ∑ j : Fin n, if h : j.1 < k + 1 then y ⟨j, h⟩ * W j i else 0 := by
        refine sum_congr rfl fun j _ => ?_
        by_cases h : j.1 < k + 1
        · rw [dif_pos h, hxin j h]
        · rw [dif_neg h, hxout j h, zero_mul]
      rw [h2]
      have h3 := Fin.sum_univ_eq_sum_range (fun j => if h : j < k + 1 then y ⟨j, h⟩ * W ⟨j, by omega⟩ i else 0) (k + 1)
      have h4 := Fin.sum_univ_eq_sum_range (fun j => if h : j < k + 1 then y ⟨j, h⟩ * W ⟨j, by omega⟩ i else 0) n
      have h5 : ∑ j : Fin (k + 1), W ⟨j, by omega⟩ ⟨i.1, by omega⟩ * y j =
          ∑ j : Fin (k + 1), if h : j.1 < k + 1 then y ⟨j, h⟩ * W ⟨j, by omega⟩ i else 0 := by
        refine sum_congr rfl fun j _ => ?_
        rw [dif_pos j.2]; ring
      rw [h5, h3, h4]
      refine sum_subset (fun t ht => ?_) fun t _ ht => ?_
      · rw [mem_range] at ht ⊢; omega
      · rw [mem_range] at ht
        exact dif_neg ht
  have hWx : l2 (∑ j, x j • W j) = |x ⟨k, hk⟩| * l2 (fun i : Fin m => if k ≤ i.1 then W ⟨k, hk⟩ i else 0) := by
    rw [← l2_smul]
    congr 1
    funext i
    rw [hsum i]; rfl
  have h1 := hσ x
  have h2 := hE x
  have h3 : ∑ j, x j • (Q.mulVec (A j) - W j) = Q.mulVec (∑ j, x j • A j) - ∑ j, x j • W j := by
    rw [Matrix.mulVec_sum, ← sum_sub_distrib]
    refine sum_congr rfl fun j _ => ?_
    rw [Matrix.mulVec_smul, smul_sub]
  rw [h3] at h2
  have h4 := l2_le_add (Q.mulVec (∑ j, x j • A j)) (∑ j, x j • W j)
  rw [l2_orth hQ, hWx] at h4
  have h5 : |x ⟨k, hk⟩| * l2 (fun i : Fin m => if k ≤ i.1 then W ⟨k, hk⟩ i else 0) ≤
      l2 x * l2 (fun i : Fin m => if k ≤ i.1 then W ⟨k, hk⟩ i else 0) := mul_le_mul_of_nonneg_right (abs_le_l2 x _) (l2_nonneg _)
  refine le_of_mul_le_mul_right ?_ hx0
  linarith

/-! ## All steps -/

/-- The underflow error of one step. -/
noncomputable def Top (α : Type) [Zero α] [One α] [Add α] [Sub α] [Neg α] [Mul α] [FloatOps α] [Fp α] (m : Nat) (P : ℝ) : ℝ :=
  10 * (θ α m * P + η α * (2 * P) + η α * √m)

theorem Tau_le {m : Nat} {P a : ℝ} (h1 : 1 ≤ P * |a|) (h2 : |a| ≤ 2 * P) : Tau α m a ≤ Top α m P := by
  unfold Tau Top
  have hη := η_nonneg (α := α)
  have hθ := θ_nonneg (α := α) m
  have ha : 0 < |a| := by
    rcases (abs_nonneg a).eq_or_lt with h | h
    · rw [← h] at h1; norm_num at h1
    · exact h
  have e1 : θ α m / |a| ≤ θ α m * P := by
    rw [div_le_iff₀ ha, mul_assoc]
    exact le_mul_of_one_le_right hθ h1
  have e2 := mul_le_mul_of_nonneg_left h2 hη
  linarith

/-- What is known after `k` steps. -/
structure Good (m n : Nat) (P : ℝ) (Gs : Nat → Nat → Nat → α) (d : Nat → α) (k : Nat) : Prop where
  step : Step m n k (Gs k) (Gs (k + 1)) (d k)
  fin_G : ∀ r j, r < m → j < n → fin (Gs (k + 1) r j)
  fin_d : fin (d k)
  ne : val (d k) ≠ 0
  low : m * η α ≤ u α * val (d k) ^ 2
  high : 4 * val (d k) ^ 2 ≤ Ω α
  ge : 1 ≤ P * |val (d k)|
  le : |val (d k)| ≤ 2 * P

/-- The error of the first `k` steps. -/
theorem good_chain {m n : Nat} {P : ℝ} {Gs : Nat → Nat → Nat → α} {d : Nat → α} {k : Nat} (hkn : k ≤ n) (hnm : n ≤ m)
    (hε : γ α (m + 4) ≤ 1 / 64) (hP : 0 ≤ P) (h : ∀ t, t < k → Good m n P Gs d t) {j : Nat} (hj : j < n) :
    l2 ((RQ.houses (fun t => hvec m t fun r => Gs (t + 1) r t) k).transpose.mulVec (wcol m (Gs 0) d 0 j) - wcol m (Gs k) d k j) ≤
      ((1 + 16 * γ α (m + 4)) ^ n - 1) * l2 (wcol m (Gs 0) d 0 j) + (1 + 16 * γ α (m + 4)) ^ n * (n * Top α m P) := by
  have hc0 : 0 ≤ 16 * γ α (m + 4) := by have := γ_nonneg (α := α) (m + 4); linarith
  have hch := RQ.chain (u := fun t => hvec m t fun r => Gs (t + 1) r t) (w := fun t => wcol m (Gs t) d t j)
    (τ := fun t => Tau α m (val (d t))) (r := k) hc0 (fun t _ => Tau_nonneg m _) (fun t ht =>
      step_err (h t ht).step (by omega) (by omega) (h t ht).fin_G (h t ht).fin_d
        (Or.inr ⟨(h t ht).ne, (h t ht).low, (h t ht).high⟩) hε hj) le_rfl
  refine hch.trans ?_
  have hp : (1 + 16 * γ α (m + 4)) ^ k ≤ (1 + 16 * γ α (m + 4)) ^ n := pow_le_pow_right₀ (by linarith) hkn
  have hT0 : 0 ≤ Top α m P := by
    unfold Top
    have := θ_nonneg (α := α) m
    have := η_nonneg (α := α)
    positivity
  have hsum : ∑ t ∈ range k, Tau α m (val (d t)) ≤ n * Top α m P := by
    calc ∑ t ∈ range k, Tau α m (val (d t)) ≤ ∑ t ∈ range k, Top α m P :=
          sum_le_sum fun t ht => Tau_le (h t (mem_range.mp ht)).ge (h t (mem_range.mp ht)).le
      _ = k * Top α m P := by rw [sum_const, card_range, nsmul_eq_mul]
      _ ≤ _ := mul_le_mul_of_nonneg_right (by exact_mod_cast hkn) hT0
  have hs0 : 0 ≤ ∑ t ∈ range k, Tau α m (val (d t)) := sum_nonneg fun t _ => Tau_nonneg m _
  have h1k : 0 ≤ (1 + 16 * γ α (m + 4)) ^ n := by positivity
  exact add_le_add (mul_le_mul_of_nonneg_right (by linarith) (l2_nonneg _)) (mul_le_mul hp hsum hs0 h1k)

/-- All steps of the factorisation of a matrix whose columns are not too large and whose smallest singular value is not too small. -/
theorem all_good {m n : Nat} {P : ℝ} (hP : Room α m P) (hnm : n ≤ m) {Gs : Nat → Nat → Nat → α} {d : Nat → α}
    (hs : ∀ k, k < n → Step m n k (Gs k) (Gs (k + 1)) (d k)) (h0 : ∀ r j, r < m → j < n → fin (Gs 0 r j)) {δ ρ σ : ℝ}
    (hδ : (1 + 16 * γ α (m + 4)) ^ n - 1 ≤ δ) (hρ : (1 + 16 * γ α (m + 4)) ^ n * (n * Top α m P) ≤ ρ)
    (hC : ∀ j : Fin n, (1 + δ) * l2 (vec m fun r => Gs 0 r j) + ρ ≤ P)
    (hσ : ∀ y : Fin n → ℝ, σ * l2 y ≤ l2 (∑ j : Fin n, y j • vec m fun r => Gs 0 r j))
    (hlow : 2 ≤ P * (σ - l2 (fun j : Fin n => δ * l2 (vec m fun r => Gs 0 r j) + ρ))) {k : Nat} (hk : k < n) :
    Good m n P Gs d k ∧ σ - l2 (fun j : Fin n => δ * l2 (vec m fun r => Gs 0 r j) + ρ) ≤ 2 * |val (d k)| := by
  have hP0 : 0 < P := by have := hP.one; linarith
  have hw0 : ∀ j, wcol m (Gs 0) d 0 j = vec m fun r => Gs 0 r j := by
    intro j
    funext i
    simp only [wcol, vec]
    rw [if_neg (by omega)]
  induction k using Nat.strong_induction_on with
  | _ k ih =>
    have hgood : ∀ t, t < k → Good m n P Gs d t := fun t ht => (ih t ht (by omega)).1
    have hfin : ∀ r j, r < m → j < n → fin (Gs k r j) := by
      rcases Nat.eq_zero_or_pos k with h | h
      · subst h; exact h0
      · have := (hgood (k - 1) (by omega)).fin_G
        rwa [show k - 1 + 1 = k by omega] at this
    have hch : ∀ j : Fin n, l2 ((RQ.houses (fun t => hvec m t fun r => Gs (t + 1) r t) k).transpose.mulVec (vec m fun r => Gs 0 r j) -
        wcol m (Gs k) d k j) ≤ δ * l2 (vec m fun r => Gs 0 r j) + ρ := by
      intro j
      have := good_chain hk.le hnm hP.eps hP0.le hgood j.2
      rw [hw0] at this
      exact this.trans (add_le_add (mul_le_mul_of_nonneg_right hδ (l2_nonneg _)) hρ)
    have ho := RQ.houses_orth (fun t => hvec m t fun r => Gs (t + 1) r t) k
    generalize RQ.houses (fun t => hvec m t fun r => Gs (t + 1) r t) k = Q at *
    have hQ : Q.transpose.transpose * Q.transpose = 1 := by rw [Matrix.transpose_transpose]; exact ho.2
    have hX : ∀ j, k ≤ j → j < n → l2 (vec m fun r => Gs k r j) ≤ P := by
      intro j h1 h2
      have e : wcol m (Gs k) d k j = vec m fun r => Gs k r j := by
        funext i
        simp only [wcol, vec]
        rw [if_neg (by omega)]
      have := hch ⟨j, h2⟩
      dsimp only at this
      rw [e, l2_sub_comm] at this
      have h3 := l2_le_add (vec m fun r => Gs k r j) (Q.transpose.mulVec (vec m fun r => Gs 0 r j))
      rw [l2_orth hQ] at h3
      have := hC ⟨j, h2⟩
      dsimp only at this
      linarith
    have htail := tail_lower hk (show k < m by omega) hQ (A := fun j : Fin n => vec m fun r => Gs 0 r j)
      (W := fun j : Fin n => wcol m (Gs k) d k j) (σ := σ) (e := l2 (fun j : Fin n => δ * l2 (vec m fun r => Gs 0 r j) + ρ)) (l2_nonneg _) hσ
      (fun y => (l2_comb _ y).trans (mul_le_mul_of_nonneg_right (l2_mono fun j => by
        rw [abs_of_nonneg (l2_nonneg _)]; exact hch j) (l2_nonneg _)))
      (by
        intro j hj i hi
        simp only [wcol]
        rw [if_pos hj, if_neg (by omega), if_neg (by omega)])
    have e : (fun i : Fin m => if k ≤ i.1 then wcol m (Gs k) d k (⟨k, hk⟩ : Fin n) i else 0) = hvec m k fun r => Gs k r k := by
      funext i
      simp only [wcol, hvec]
      rw [if_neg (lt_irrefl k)]
    dsimp only at htail
    rw [e] at htail
    have hT : 2 ≤ P * l2 (hvec m k fun r => Gs k r k) := hlow.trans (mul_le_mul_of_nonneg_left htail hP0.le)
    obtain ⟨g1, g2, g3, g4, g5, g6, g7⟩ := step_fwd (hs k hk) (by omega) hk hP hfin hX hT
    refine ⟨⟨hs k hk, g1, g2, g3, g4, g5, ?_, g7⟩, htail.trans g6⟩
    have := mul_le_mul_of_nonneg_left g6 hP0.le
    linarith

/-- All steps of `get_q`. -/
theorem all_back {m n : Nat} (hm : 0 < m) {P : ℝ} (hP : Room α m P) (hnm : n ≤ m) {Gs : Nat → Nat → Nat → α} {d : Nat → α}
    (hg : ∀ k, k < n → Good m n P Gs d k) {Zs : Nat → Nat → Nat → α}
    (hZ : ∀ i j, Zs n i j = if i = j ∧ i < n then 1 else 0)
    (hb : ∀ k, k < n → Back m k (fun r => Gs (k + 1) r k) (d k * Gs (k + 1) k k) (Zs (k + 1)) (Zs k))
    (hroom : (1 + 16 * γ α (m + 4)) ^ n * (1 + n * Top α m P) ≤ P) :
    ∀ r c, r < m → c < m → fin (Zs 0 r c) := by
  have hε := hP.eps
  have hP0 : 0 < P := by have := hP.one; linarith
  have hc0 : 0 ≤ 16 * γ α (m + 4) := by have := γ_nonneg (α := α) (m + 4); linarith
  set q := 1 + 16 * γ α (m + 4) with hq
  have hq1 : 1 ≤ q := by linarith
  have hT0 : 0 ≤ Top α m P := by
    unfold Top
    have := θ_nonneg (α := α) m
    have := η_nonneg (α := α)
    positivity
  have hz0 := Fp.zero (α := α)
  have key : ∀ s k, k + s = n → (∀ r c, r < m → c < m → fin (Zs k r c)) ∧ (∀ c, c < k → ∀ r, Zs k r c = Zs n r c) ∧
      ∀ c, c < m → l2 (vec m fun r => Zs k r c) ≤ q ^ s * (1 + s * Top α m P) := by
    intro s
    induction s with
    | zero =>
      intro k hk
      rw [Nat.add_zero] at hk
      subst hk
      refine ⟨fun r c _ _ => ?_, fun _ _ _ => rfl, fun c hc => ?_⟩
      · rw [hZ]
        split
        · exact Fp.one.1
        · exact hz0.1
      · simp only [pow_zero, Nat.cast_zero, zero_mul, add_zero, mul_one]
        unfold l2
        refine Real.sqrt_le_one.mpr ?_
        rw [Finset.sum_eq_single ⟨c, hc⟩]
        · simp only [vec, hZ]
          split
          · rw [Fp.one.2]; norm_num
          · rw [hz0.2]; norm_num
        · intro i _ hi
          simp only [vec, hZ]
          rw [if_neg (fun h => hi (Fin.ext h.1)), hz0.2]; norm_num
        · simp
    | succ s ih =>
      intro k hk
      obtain ⟨i1, i2, i3⟩ := ih (k + 1) (by omega)
      have hkn : k < n := by omega
      have g := hg k hkn
      have hbk := hb k hkn
      obtain ⟨-, F⟩ := step_facts g.step (by omega) hkn g.fin_G g.fin_d g.ne g.low g.high hε
      have hsn : q ^ s * (1 + s * Top α m P) ≤ q ^ n * (1 + n * Top α m P) := by
        refine mul_le_mul (pow_le_pow_right₀ hq1 (by omega)) ?_ (by positivity) (by positivity)
        have : (s : ℝ) ≤ n := by exact_mod_cast (show s ≤ n by omega)
        have := mul_le_mul_of_nonneg_right this hT0
        linarith
      have hfin : ∀ r c, r < m → c < m → fin (Zs k r c) := by
        intro r c hr hc
        by_cases hck : c < k
        · rw [hbk.left r c hck]; exact i1 r c hr hc
        · rw [hbk.app F.diag r c hr (by omega) hc]
          refine app_fwd hm hP (fun r _ h => g.fin_G r k h hkn) (fun r h => i1 r c h hc) F.fin_b ?_ ?_ ((i3 c hc).trans (hsn.trans hroom)) F.b r hr
          · have h1 := F.ge
            have h2 := g.ge
            have h3 := mul_le_mul_of_nonneg_left h1 hP0.le
            have h4 := mul_nonneg hP0.le (l2_nonneg (hvec m k fun r => Gs (k + 1) r k))
            linarith
          · have := F.le
            have := g.le
            linarith
      refine ⟨hfin, fun c hc r => ?_, fun c hc => ?_⟩
      · rw [hbk.left r c hc, i2 c (by omega)]
      · have he := back_err g.step (by omega) hkn g.fin_G g.fin_d (Or.inr ⟨g.ne, g.low, g.high⟩) hε hbk hfin hc (fun hck r h1 h2 => by
          rw [i2 c (by omega), hZ, if_neg (by omega), hz0.2])
        rw [l2_sub_comm] at he
        have h1 := l2_le_add (vec m fun r => Zs k r c) ((house (hvec m k fun r => Gs (k + 1) r k)).mulVec (vec m fun r => Zs (k + 1) r c))
        rw [l2_orth (house_orth _)] at h1
        have h2 := Tau_le (α := α) (m := m) g.ge g.le
        have h3 := mul_le_mul_of_nonneg_left (i3 c hc) (show 0 ≤ q by linarith)
        have h4 : 1 ≤ q ^ (s + 1) := one_le_pow₀ hq1
        have h5 : Top α m P ≤ q ^ (s + 1) * Top α m P := le_mul_of_one_le_left hT0 h4
        push_cast
        calc l2 (vec m fun r => Zs k r c) ≤ q * l2 (vec m fun r => Zs (k + 1) r c) + Tau α m (val (d k)) := by rw [hq]; linarith
          _ ≤ q * (q ^ s * (1 + s * Top α m P)) + q ^ (s + 1) * Top α m P := by linarith
          _ = _ := by ring
  exact (key n 0 (by omega)).1

end Rnd
end QR
end LA
