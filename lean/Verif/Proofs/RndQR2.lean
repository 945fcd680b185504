import Verif.Proofs.RndQR

/-! # QR decomposition in rounded arithmetic: errors -/

set_option linter.unusedSectionVars false

namespace LA
open Finset
namespace QR
namespace Rnd
open Fp RQ

variable {α : Type} [Zero α] [One α] [Add α] [Sub α] [Neg α] [Mul α] [FloatOps α] [Fp α]

/-- The numbers in a column. -/
noncomputable def vec (m : Nat) (x : Nat → α) : Fin m → ℝ := fun i => val (x i)

/-- The reflection vector: the numbers in a column, from row `k` on. -/
noncomputable def hvec (m k : Nat) (v : Nat → α) : Fin m → ℝ := fun i => if k ≤ i.1 then val (v i) else 0

theorem sum_from {m k : Nat} (f : Nat → ℝ) : ∑ t ∈ range (m - k), f (k + t) = ∑ i : Fin m, if k ≤ i.1 then f i else 0 := by
  rw [← Finset.sum_Ico_eq_sum_range, Finset.sum_fin_eq_sum_range]
  refine Finset.sum_subset_zero_on_sdiff (fun t ht => ?_) (fun t ht => ?_) (fun t ht => ?_)
  · rw [Finset.mem_Ico] at ht
    rw [Finset.mem_range]; omega
  · rw [Finset.mem_sdiff, Finset.mem_range, Finset.mem_Ico] at ht
    rw [dif_pos ht.1]
    exact if_neg (by dsimp only; omega)
  · rw [Finset.mem_Ico] at ht
    rw [dif_pos ht.2]
    exact (if_pos ht.1).symm

theorem dotFrom_err {m k : Nat} {v x : Nat → α} (h : fin (dotFrom m k v x)) :
    (∀ r, k ≤ r → r < m → fin (v r) ∧ fin (x r)) ∧
    |val (dotFrom m k v x) - ∑ i, hvec m k v i * vec m x i| ≤ γ α (m + 1) * (∑ i, |hvec m k v i * vec m x i|) + θ α m := by
  obtain ⟨h1, h2⟩ := fdot_err _ _ _ h
  refine ⟨fun r hr hm => ?_, ?_⟩
  · have := h1 (r - k) (by omega)
    rwa [show k + (r - k) = r by omega] at this
  · rw [sum_from (fun t => val (v t) * val (x t)), sum_from (fun t => |val (v t) * val (x t)|)] at h2
    have e1 : ∀ i : Fin m, hvec m k v i * vec m x i = if k ≤ i.1 then val (v i) * val (x i) else 0 := by
      intro i; unfold hvec vec; split <;> simp
    have e2 : ∀ i : Fin m, |hvec m k v i * vec m x i| = if k ≤ i.1 then |val (v i) * val (x i)| else 0 := by
      intro i; rw [e1]; split <;> simp
    simp only [e1, e2] at h2 ⊢
    simp only [← e1, ← e2] at h2 ⊢
    refine h2.trans (add_le_add (mul_le_mul_of_nonneg_right (γ_mono (by omega)) ?_) (θ_mono (by omega)))
    exact sum_nonneg fun i _ => abs_nonneg _

theorem app_fin {m k : Nat} (hk : k < m) {v x : Nat → α} {b : α} (hy : ∀ r, r < m → fin (app m k v b x r)) :
    (∀ r, r < m → fin (x r)) ∧ fin (dv (dotFrom m k v x) b) := by
  refine ⟨fun r hr => ?_, ?_⟩
  · have := hy r hr
    unfold app at this
    split at this
    · exact (Fp.add _ _ this).1
    · exact this
  · have := hy k hk
    unfold app at this
    rw [if_pos le_rfl] at this
    exact (Fp.mul _ _ (Fp.add _ _ this).2.1).1

theorem four_u (m : Nat) : 4 * u α ≤ γ α (m + 4) := by
  have h1 : γ α 4 ≤ γ α (m + 4) := γ_mono (by omega)
  have hu := u_nonneg (α := α)
  have h2 : 4 * u α ≤ γ α 4 := by
    unfold γ
    have := one_add_mul_le_pow (a := u α) (by linarith) 4
    push_cast at this
    linarith
  linarith

/-- A computed reflection of a column. -/
theorem app_rnd {m k : Nat} (hk : k < m) {v x : Nat → α} {b : α} (hy : ∀ r, r < m → fin (app m k v b x r)) (hb : fin b)
    (hS : 0 < l2 (hvec m k v)) (hb' : |val b + l2 (hvec m k v) ^ 2 / 2| ≤ 2 * γ α (m + 4) * l2 (hvec m k v) ^ 2)
    (hε : γ α (m + 4) ≤ 1 / 64) :
    l2 (vec m (app m k v b x) - (house (hvec m k v)).mulVec (vec m x)) ≤ 16 * γ α (m + 4) * l2 (vec m x) +
      3 * (θ α m / l2 (hvec m k v) + η α * l2 (hvec m k v) + η α * √m) := by
  obtain ⟨hx, hf⟩ := app_fin hk hy
  obtain ⟨hD, hdiv⟩ := Fp.div _ _ _ (dv_ok (dotFrom m k v x) b) hf
  obtain ⟨-, hq, -⟩ := hdiv hb
  obtain ⟨hv, hdot⟩ := dotFrom_err hD
  have hu := u_nonneg (α := α)
  have hη := η_nonneg (α := α)
  refine apply_err (D := val (dotFrom m k v x)) (b := val b) (f := val (dv (dotFrom m k v x) b)) (g := γ α (m + 1)) (μ := u α) hS
    ?_ hb' hq ?_ (γ_nonneg _) (γ_mono (by omega)) hu (four_u m) hε (θ_nonneg m) hη
  · refine hdot.trans (add_le_add (mul_le_mul_of_nonneg_left (sum_abs_le _ _) (γ_nonneg _)) le_rfl)
  · intro i
    unfold vec hvec
    by_cases hki : k ≤ i.1
    · have hyi := hy i.1 i.2
      unfold app at hyi ⊢
      rw [if_pos hki] at hyi ⊢
      rw [if_pos hki]
      obtain ⟨-, h1, h2, -⟩ := Fp.add _ _ hyi
      obtain ⟨-, -, h3, -⟩ := Fp.mul _ _ h1
      generalize val (dv (dotFrom m k v x) b) * val (v i.1) = e at *
      generalize val (dv (dotFrom m k v x) b * v i.1) = p at *
      generalize val (x i.1 + dv (dotFrom m k v x) b * v i.1) = y at *
      generalize val (x i.1) = w at *
      have a1 : |y - (w + e)| ≤ |y - (w + p)| + |p - e| := by
        calc |y - (w + e)| = |(y - (w + p)) + (p - e)| := by ring_nf
          _ ≤ _ := abs_add_le _ _
      have a2 : |w + p| ≤ |w| + |e| + |p - e| := by
        calc |w + p| = |w + e + (p - e)| := by ring_nf
          _ ≤ _ := abs_add_three _ _ _
      have a3 : u α * |w + p| ≤ u α * (|w| + |e| + |p - e|) := mul_le_mul_of_nonneg_left a2 hu
      have a4 : u α * |p - e| ≤ 1 * |p - e| := mul_le_mul_of_nonneg_right u_lt_one.le (abs_nonneg _)
      linarith
    · unfold app
      rw [if_neg hki, if_neg hki, mul_zero, add_zero, sub_self, abs_zero]
      positivity

/-- The underflow part of the error of one reflection, for a diagonal entry `a`. -/
noncomputable def Tau (α : Type) [Zero α] [One α] [Add α] [Sub α] [Neg α] [Mul α] [FloatOps α] [Fp α] (m : Nat) (a : ℝ) : ℝ :=
  10 * (θ α m / |a| + η α * |a| + η α * √m)

theorem Tau_nonneg (m : Nat) (a : ℝ) : 0 ≤ Tau α m a := by
  unfold Tau
  have := θ_nonneg (α := α) m
  have := η_nonneg (α := α)
  positivity

/-- The computed norm. -/
theorem norm_scal {a N Nh g g2 p θ ε : ℝ} (hN : 0 ≤ N) (h1 : |Nh - N| ≤ g * N + θ) (h2 : |a ^ 2 - Nh| ≤ g2 * a ^ 2) (h3 : θ ≤ p * a ^ 2)
    (h4 : g2 + g + g2 * g + p ≤ ε) (hg : 0 ≤ g) (hg2 : 0 ≤ g2) (hp : 0 ≤ p) (hε : ε ≤ 1 / 64) : |a ^ 2 - N| ≤ 102 / 100 * ε * a ^ 2 := by
  have e1 : |a ^ 2 - N| ≤ |a ^ 2 - Nh| + |Nh - N| := abs_sub_le _ _ _
  have e2 : N ≤ a ^ 2 + |a ^ 2 - N| := by have := neg_abs_le (a ^ 2 - N); linarith
  have e3 : g * N ≤ g * (a ^ 2 + |a ^ 2 - N|) := mul_le_mul_of_nonneg_left e2 hg
  have hgg : 0 ≤ g2 * g := mul_nonneg hg2 hg
  have e4 : g * |a ^ 2 - N| ≤ 1 / 64 * |a ^ 2 - N| := mul_le_mul_of_nonneg_right (by linarith) (abs_nonneg _)
  have e5 : (g2 + p + g) * a ^ 2 ≤ ε * a ^ 2 := mul_le_mul_of_nonneg_right (by linarith) (sq_nonneg _)
  have e6 : 0 ≤ ε * a ^ 2 := mul_nonneg (by linarith) (sq_nonneg _)
  linarith

theorem γ_parts (m : Nat) : γ α 2 + γ α (m + 1) + γ α 2 * γ α (m + 1) + u α * (1 + u α) ^ m ≤ γ α (m + 4) := by
  have hu := u_nonneg (α := α)
  have h : u α * (1 + u α) ^ m ≤ u α * (1 + u α) ^ (m + 3) :=
    mul_le_mul_of_nonneg_left (pow_le_pow_right₀ one_u (by omega)) hu
  have e : γ α (m + 4) = γ α 2 + γ α (m + 1) + γ α 2 * γ α (m + 1) + u α * (1 + u α) ^ (m + 3) := by
    unfold γ; ring
  linarith

/-- What the range conditions say about step `k`: the reflection vector is zero, or the diagonal entry of `R` neither underflows nor
overflows when it is squared. -/
def InRange (m k : Nat) (v : Nat → α) (a : α) : Prop :=
  (∀ r, k ≤ r → r < m → val (v r) = 0) ∨ (val a ≠ 0 ∧ m * η α ≤ u α * val a ^ 2 ∧ 4 * val a ^ 2 ≤ Ω α)

theorem step_fin {m n k : Nat} {G G' : Nat → Nat → α} {a : α} (hs : Step m n k G G' a) (hk : k < m)
    (hf : ∀ r j, r < m → j < n → fin (G' r j)) : ∀ r j, r < m → j < n → fin (G r j) := by
  intro r j hr hj
  have hG' := hf r j hr hj
  rcases lt_trichotomy j k with h | h | h
  · rwa [hs.left r j h] at hG'
  · subst h
    by_cases e : r = j
    · subst e
      rcases h0 : FloatOps.eq a 0 with _ | _
      · rw [hs.diag h0] at hG'
        exact (Fp.sub _ _ hG').1
      · rwa [hs.zero h0] at hG'
    · rwa [hs.low r e] at hG'
  · rcases h0 : FloatOps.eq a 0 with _ | _
    · refine (app_fin (v := fun r => G' r k) (b := a * G' k k) (x := fun r => G r j) hk fun r hr => ?_).1 r hr
      rw [← hs.app h0 r j hr h hj]
      exact hf r j hr hj
    · rwa [hs.zero h0] at hG'

/-- What one step does, in numbers. -/
structure Facts (m k : Nat) (G G' : Nat → Nat → α) (a : α) : Prop where
  fin_b : fin (a * G' k k)
  pos : 0 < l2 (hvec m k fun r => G' r k)
  b : |val (a * G' k k) + l2 (hvec m k fun r => G' r k) ^ 2 / 2| ≤ 2 * γ α (m + 4) * l2 (hvec m k fun r => G' r k) ^ 2
  tau : 3 * (θ α m / l2 (hvec m k fun r => G' r k) + η α * l2 (hvec m k fun r => G' r k) + η α * √m) ≤ Tau α m (val a)
  diag : FloatOps.eq (G' k k) 0 = false
  le : l2 (hvec m k fun r => G' r k) ≤ 305 / 100 * |val a|
  ge : |val a| ≤ 102 / 100 * l2 (hvec m k fun r => G' r k)
  own : l2 ((house (hvec m k fun r => G' r k)).mulVec (vec m fun r => G r k) -
    fun i : Fin m => if i.1 < k then val (G i k) else if i.1 = k then val a else 0) ≤ 8 * γ α (m + 4) * l2 (vec m fun r => G r k)

theorem sqrt_sq_err {Nh z : ℝ} {μ : ℝ} (hN : 0 ≤ Nh) (hz : 0 ≤ z) (h : |z - √Nh| ≤ μ * z) : |z ^ 2 - Nh| ≤ (μ + μ * (1 + μ)) * z ^ 2 := by
  have hs := Real.sqrt_nonneg Nh
  have e : z ^ 2 - Nh = (z - √Nh) * (z + √Nh) := by
    have := Real.sq_sqrt hN
    linear_combination this
  have h2 : z + √Nh ≤ 2 * z + μ * z := by have := neg_abs_le (z - √Nh); linarith
  rw [e, abs_mul, abs_of_nonneg (add_nonneg hz hs)]
  calc |z - √Nh| * (z + √Nh) ≤ μ * z * (2 * z + μ * z) := mul_le_mul h h2 (by linarith) ((abs_nonneg _).trans h)
    _ = _ := by ring

theorem facts_scal {S A uk N ε μ η Ω : ℝ} (hS : 0 ≤ S) (hA : A ≠ 0) (o2 : A ^ 2 ≤ 102 / 100 * S ^ 2)
    (o3 : |S ^ 2 + 2 * (A * uk)| ≤ 21 / 10 * ε * S ^ 2) (o4 : S ^ 2 ≤ 9 * N) (hnorm : |A ^ 2 - N| ≤ 102 / 100 * ε * A ^ 2) (huk : |uk| ≤ S)
    (h4u : 4 * μ ≤ ε) (hμ : 0 ≤ μ) (hε0 : 0 ≤ ε) (hε : ε ≤ 1 / 64) (hη1 : η ≤ μ * A ^ 2) (h2 : 4 * A ^ 2 ≤ Ω) :
    0 < S ∧ S ≤ 305 / 100 * |A| ∧ |A| ≤ 102 / 100 * S ∧ (1 + μ) * |A * uk| + η ≤ Ω ∧ uk ≠ 0 ∧
      ∀ b, |b - A * uk| ≤ μ * |A * uk| + η → |b + S ^ 2 / 2| ≤ 2 * ε * S ^ 2 := by
  have hu256 : μ ≤ 1 / 256 := by linarith
  have ha2 : 0 < A ^ 2 := by positivity
  have hA0 : 0 < |A| := abs_pos.mpr hA
  have hS2 : 0 < S ^ 2 := by linarith
  have hSpos : 0 < S := by
    rcases hS.eq_or_lt with h | h
    · rw [← h] at hS2; norm_num at hS2
    · exact h
  have hNA : N ≤ 102 / 100 * A ^ 2 := by
    have e1 := neg_abs_le (A ^ 2 - N)
    have e2 : ε * A ^ 2 ≤ 1 / 64 * A ^ 2 := mul_le_mul_of_nonneg_right hε ha2.le
    linarith
  have hSA : S ≤ 305 / 100 * |A| := by
    refine (abs_le_of_sq_le_sq' ?_ (by positivity)).2
    rw [mul_pow, sq_abs]; linarith
  have hAS : |A| ≤ 102 / 100 * S := by
    refine (abs_le_of_sq_le_sq' ?_ (by positivity)).2
    rw [mul_pow, sq_abs]; linarith
  have hAuk : |A * uk| ≤ 305 / 100 * A ^ 2 := by
    rw [abs_mul, ← sq_abs A]
    calc |A| * |uk| ≤ |A| * (305 / 100 * |A|) := mul_le_mul_of_nonneg_left (huk.trans hSA) hA0.le
      _ = _ := by ring
  have huA : μ * A ^ 2 ≤ 1 / 256 * A ^ 2 := mul_le_mul_of_nonneg_right hu256 ha2.le
  have hεS : 0 ≤ ε * S ^ 2 := by positivity
  refine ⟨hSpos, hSA, hAS, ?_, ?_, ?_⟩
  · have : μ * |A * uk| ≤ 1 / 256 * |A * uk| := mul_le_mul_of_nonneg_right hu256 (abs_nonneg _)
    linarith
  · rintro rfl
    rw [mul_zero, mul_zero, add_zero, abs_of_pos hS2] at o3
    have : ε * S ^ 2 ≤ 1 / 64 * S ^ 2 := mul_le_mul_of_nonneg_right hε hS2.le
    linarith
  · intro b hb
    have e1 : |b + S ^ 2 / 2| ≤ |b - A * uk| + |S ^ 2 + 2 * (A * uk)| / 2 := by
      calc |b + S ^ 2 / 2| = |(b - A * uk) + (S ^ 2 + 2 * (A * uk)) / 2| := by ring_nf
        _ ≤ |b - A * uk| + |(S ^ 2 + 2 * (A * uk)) / 2| := abs_add_le _ _
        _ = _ := by rw [abs_div, abs_two]
    have e2 : |A * uk| ≤ 102 / 100 * S ^ 2 := by
      rw [abs_mul]
      calc |A| * |uk| ≤ 102 / 100 * S * S := mul_le_mul hAS huk (abs_nonneg _) (by positivity)
        _ = _ := by ring
    have e3 : μ * |A * uk| ≤ ε / 4 * (102 / 100 * S ^ 2) := mul_le_mul (by linarith) e2 (abs_nonneg _) (by linarith)
    have e4 : μ * A ^ 2 ≤ ε / 4 * (102 / 100 * S ^ 2) := mul_le_mul (by linarith) o2 ha2.le (by linarith)
    linarith

theorem step_facts {m n k : Nat} {G G' : Nat → Nat → α} {a : α} (hs : Step m n k G G' a) (hk : k < m) (hn : k < n)
    (hf : ∀ r j, r < m → j < n → fin (G' r j)) (ha : fin a) (h0 : val a ≠ 0) (h1 : m * η α ≤ u α * val a ^ 2) (h2 : 4 * val a ^ 2 ≤ Ω α)
    (hε : γ α (m + 4) ≤ 1 / 64) : FloatOps.eq a 0 = false ∧ Facts m k G G' a := by
  have hz0 := Fp.zero (α := α)
  have he : FloatOps.eq a 0 = false := by
    have := (Fp.eq a 0 ha hz0.1)
    rw [hz0.2] at this
    rw [← Bool.not_eq_true, this]; exact h0
  refine ⟨he, ?_⟩
  have hG := step_fin hs hk hf
  have hu := u_nonneg (α := α)
  have hη := η_nonneg (α := α)
  have h4u := four_u (α := α) m
  have hu256 : u α ≤ 1 / 256 := by linarith
  obtain ⟨z, hz, haz⟩ := hs.sqrt
  have hzf : fin z := by
    rw [haz] at ha
    split at ha
    · exact Fp.neg_fin _ ha
    · exact ha
  obtain ⟨hNf, hN0, hzn, -, hzr⟩ := Fp.sqrt _ _ hz hzf
  have hlt := Fp.lt 0 (G k k) hz0.1 (hG k k hk hn)
  rw [hz0.2] at hlt
  have haz2 : val a ^ 2 = val z ^ 2 ∧ val a * val (G k k) ≤ 0 := by
    rw [haz]
    by_cases h : FloatOps.lt 0 (G k k) = true
    · rw [if_pos h, (Fp.neg z hzf).2]
      have := hlt.mp h
      refine ⟨by ring, ?_⟩
      have := mul_nonneg hzn this.le
      linarith
    · rw [if_neg h]
      have := not_lt.mp fun h' => h (hlt.mpr h')
      exact ⟨rfl, mul_nonpos_of_nonneg_of_nonpos hzn this⟩
  obtain ⟨hsq, hsign⟩ := haz2
  have hsq2 := sqrt_sq_err hN0 hzn hzr
  rw [← hsq, ← γ_two (α := α)] at hsq2
  obtain ⟨-, hdot⟩ := dotFrom_err hNf
  -- the sum of squares
  have hN : ∑ i, hvec m k (fun r => G r k) i * vec m (fun r => G r k) i = ∑ i : Fin m, if (⟨k, hk⟩ : Fin m) ≤ i then vec m (fun r => G r k) i ^ 2 else 0 := by
    refine sum_congr rfl fun i _ => ?_
    simp only [hvec, vec, Fin.le_def]
    split <;> ring
  have hNabs : ∑ i, |hvec m k (fun r => G r k) i * vec m (fun r => G r k) i| = ∑ i : Fin m, if (⟨k, hk⟩ : Fin m) ≤ i then vec m (fun r => G r k) i ^ 2 else 0 := by
    rw [← hN]
    refine sum_congr rfl fun i _ => abs_of_nonneg ?_
    simp only [hvec, vec]
    split
    · exact mul_self_nonneg _
    · simp
  rw [hN, hNabs] at hdot
  have hNn : 0 ≤ ∑ i : Fin m, if (⟨k, hk⟩ : Fin m) ≤ i then vec m (fun r => G r k) i ^ 2 else 0 :=
    sum_nonneg fun i _ => by split <;> positivity
  have hθ : θ α m ≤ u α * (1 + u α) ^ m * val a ^ 2 := by
    unfold θ
    have hp := one_le_pow (α := α) m
    calc (m : ℝ) * (1 + u α) ^ m * η α = (1 + u α) ^ m * (m * η α) := by ring
      _ ≤ (1 + u α) ^ m * (u α * val a ^ 2) := mul_le_mul_of_nonneg_left h1 (by linarith)
      _ = _ := by ring
  have hp0 : 0 ≤ u α * (1 + u α) ^ m := by have := one_le_pow (α := α) m; positivity
  have hnorm := norm_scal hNn hdot hsq2 hθ (γ_parts m) (γ_nonneg _) (γ_nonneg _) hp0 hε
  have hdiag := hs.diag he
  have hfk := hf k k hk hn
  rw [hdiag] at hfk
  obtain ⟨-, -, -, hsub⟩ := Fp.sub _ _ hfk
  rw [← hdiag] at hsub
  obtain ⟨o1, o2, o3, o4⟩ := own_col (k := ⟨k, hk⟩) (u := hvec m k fun r => G' r k) (w := vec m fun r => G r k)
    (t := fun i : Fin m => if i.1 < k then val (G i k) else if i.1 = k then val a else 0) (a := val a) (ε := γ α (m + 4)) (μ := u α)
    (e := 102 / 100 * γ α (m + 4))
    (by intro i hi; unfold hvec; rw [if_neg (by have := Fin.lt_def.mp hi; dsimp only at this; omega)])
    (by
      intro i hi
      have := Fin.lt_def.mp hi
      dsimp only at this
      unfold hvec vec
      rw [if_pos (by omega)]
      dsimp only
      rw [hs.low _ (by omega)])
    (by intro i; simp only [vec, Fin.lt_def, Fin.ext_iff])
    (by unfold vec; exact hsign) h0 hnorm
    (by unfold hvec vec; dsimp only; rw [if_pos le_rfl]; exact hsub) hu h4u le_rfl hε
  have hukk : hvec m k (fun r => G' r k) ⟨k, hk⟩ = val (G' k k) := by unfold hvec; dsimp only; rw [if_pos le_rfl]
  rw [hukk] at o3
  have huk := abs_le_l2 (hvec m k fun r => G' r k) ⟨k, hk⟩
  rw [hukk] at huk
  have hm1 : (1 : ℝ) ≤ m := by exact_mod_cast (show 1 ≤ m by omega)
  have hη1 : η α ≤ u α * val a ^ 2 := (le_mul_of_one_le_left hη hm1).trans h1
  obtain ⟨s1, s2, s3, s4, s5, s6⟩ := facts_scal (l2_nonneg (hvec m k fun r => G' r k)) h0 o2 o3 o4 hnorm huk h4u hu (γ_nonneg _) hε hη1 h2
  have hb : fin (a * G' k k) := Fp.mul_fin _ _ ha (hf k k hk hn) s4
  refine ⟨hb, s1, s6 _ (Fp.mul _ _ hb).2.2.1, ?_, ?_, s2, s3, o1⟩
  · unfold Tau
    have hA0 : 0 < |val a| := abs_pos.mpr h0
    have t1 : θ α m / l2 (hvec m k fun r => G' r k) ≤ 102 / 100 * (θ α m / |val a|) := by
      rw [← mul_div_assoc, div_le_div_iff₀ s1 hA0]
      have := mul_le_mul_of_nonneg_left s3 (θ_nonneg (α := α) m)
      linarith
    have t2 : η α * l2 (hvec m k fun r => G' r k) ≤ η α * (305 / 100 * |val a|) := mul_le_mul_of_nonneg_left s2 hη
    have t3 : 0 ≤ η α * √m := by positivity
    have t4 : 0 ≤ θ α m / |val a| := div_nonneg (θ_nonneg m) hA0.le
    have t5 : 0 ≤ η α * |val a| := by positivity
    linarith
  · have := Fp.eq (G' k k) 0 (hf k k hk hn) hz0.1
    rw [hz0.2] at this
    rw [← Bool.not_eq_true, this]; exact s5

/-- A step whose reflection vector is zero does nothing. -/
theorem step_zero {m n k : Nat} {G G' : Nat → Nat → α} {a : α} (hs : Step m n k G G' a) (hk : k < m) (hn : k < n)
    (hf : ∀ r j, r < m → j < n → fin (G' r j)) (ha : fin a) (h : ∀ r, k ≤ r → r < m → val (G' r k) = 0) :
    FloatOps.eq a 0 = true ∧ val a = 0 ∧ FloatOps.eq (G' k k) 0 = true ∧ hvec m k (fun r => G' r k) = 0 := by
  have hz0 := Fp.zero (α := α)
  have hG := step_fin hs hk hf
  have e1 := Fp.eq a 0 ha hz0.1
  have e2 := Fp.eq (G' k k) 0 (hf k k hk hn) hz0.1
  rw [hz0.2] at e1 e2
  have h3 : FloatOps.eq a 0 = true := by
    by_contra hne
    have he : FloatOps.eq a 0 = false := by simpa using hne
    have hdiag := hs.diag he
    have hfk := hf k k hk hn
    rw [hdiag] at hfk
    obtain ⟨-, -, -, hsub⟩ := Fp.sub _ _ hfk
    rw [← hdiag, h k le_rfl hk, abs_zero, mul_zero, zero_sub, abs_neg, abs_nonpos_iff] at hsub
    obtain ⟨z, hz, haz⟩ := hs.sqrt
    have hzf : fin z := by
      rw [haz] at ha
      split at ha
      · exact Fp.neg_fin _ ha
      · exact ha
    obtain ⟨-, -, hzn, -, -⟩ := Fp.sqrt _ _ hz hzf
    have hlt := Fp.lt 0 (G k k) hz0.1 (hG k k hk hn)
    rw [hz0.2] at hlt
    apply hne
    rw [e1]
    by_cases h : FloatOps.lt 0 (G k k) = true
    · rw [if_pos h] at haz
      have h1 := hlt.mp h
      rw [haz, (Fp.neg z hzf).2] at hsub ⊢
      linarith
    · rw [if_neg h] at haz
      have h1 := not_lt.mp fun h' => h (hlt.mpr h')
      rw [haz] at hsub ⊢
      linarith
  refine ⟨h3, e1.mp h3, e2.mpr (h k le_rfl hk), ?_⟩
  funext i
  unfold hvec
  split
  · exact h _ ‹_› i.2
  · rfl

/-- Column `j` of what is stored after `k` steps, with the finished columns completed by the diagonal. -/
noncomputable def wcol (m : Nat) (G : Nat → Nat → α) (d : Nat → α) (k j : Nat) : Fin m → ℝ := fun i =>
  if j < k then (if i.1 < j then val (G i j) else if i.1 = j then val (d j) else 0) else val (G i j)

theorem house_low {m : Nat} {v w : Fin m → ℝ} (h : ∀ i, v i = 0 ∨ w i = 0) : (house v).mulVec w = w := by
  funext i
  rw [house_mulVec]
  have : v ⬝ᵥ w = 0 := sum_eq_zero fun i _ => by rcases h i with h | h <;> rw [h] <;> simp
  rw [this]; simp

theorem step_err {m n k : Nat} {G G' : Nat → Nat → α} {d : Nat → α} (hs : Step m n k G G' (d k)) (hk : k < m) (hn : k < n)
    (hf : ∀ r j, r < m → j < n → fin (G' r j)) (ha : fin (d k)) (hr : InRange m k (fun r => G' r k) (d k))
    (hε : γ α (m + 4) ≤ 1 / 64) {j : Nat} (hj : j < n) :
    l2 ((house (hvec m k fun r => G' r k)).mulVec (wcol m G d k j) - wcol m G' d (k + 1) j) ≤
      16 * γ α (m + 4) * l2 (wcol m G d k j) + Tau α m (val (d k)) := by
  have hε0 := γ_nonneg (α := α) (m + 4)
  have hτ := Tau_nonneg (α := α) m (val (d k))
  have hnn : 0 ≤ 16 * γ α (m + 4) * l2 (wcol m G d k j) + Tau α m (val (d k)) := by
    have := l2_nonneg (wcol m G d k j)
    positivity
  rcases hr with h | ⟨h0, h1, h2⟩
  · obtain ⟨z1, z2, -, z4⟩ := step_zero hs hk hn hf ha h
    rw [z4, house_zero, Matrix.one_mulVec]
    have : wcol m G d k j - wcol m G' d (k + 1) j = 0 := by
      funext i
      simp only [wcol, Pi.sub_apply, Pi.zero_apply, hs.zero z1]
      rcases lt_trichotomy j k with hjk | hjk | hjk
      · rw [if_pos hjk, if_pos (show j < k + 1 by omega), sub_self]
      · subst hjk
        rw [if_neg (lt_irrefl _), if_pos (by omega), z2]
        by_cases hi : i.1 < j
        · rw [if_pos hi, sub_self]
        · rw [if_neg hi, ← hs.zero z1, h _ (by omega) i.2]; simp
      · rw [if_neg (by omega), if_neg (by omega), sub_self]
    rw [this, l2_zero]
    exact hnn
  · obtain ⟨he, F⟩ := step_facts hs hk hn hf ha h0 h1 h2 hε
    rcases lt_trichotomy j k with hjk | hjk | hjk
    · have e1 : wcol m G' d (k + 1) j = wcol m G d k j := by
        funext i
        simp only [wcol]
        rw [if_pos hjk, if_pos (by omega), hs.left _ _ hjk]
      rw [e1, house_low, sub_self, l2_zero]
      · exact hnn
      · intro i
        simp only [wcol, hvec]
        by_cases hi : k ≤ i.1
        · right
          rw [if_pos hjk, if_neg (by omega), if_neg (by omega)]
        · left; rw [if_neg hi]
    · subst hjk
      have e1 : wcol m G d j j = vec m fun r => G r j := by
        funext i
        simp only [wcol, vec]; rw [if_neg (lt_irrefl _)]
      have e2 : wcol m G' d (j + 1) j = fun i : Fin m => if i.1 < j then val (G i j) else if i.1 = j then val (d j) else 0 := by
        funext i
        simp only [wcol]
        rw [if_pos (by omega)]
        by_cases hi : i.1 < j
        · rw [if_pos hi, if_pos hi, hs.low _ (by omega)]
        · rw [if_neg hi, if_neg hi]
      rw [e1, e2]
      have := F.own
      have hl := mul_nonneg hε0 (l2_nonneg (vec m fun r => G r j))
      linarith
    · have e1 : wcol m G d k j = vec m fun r => G r j := by
        funext i
        simp only [wcol, vec]; rw [if_neg (by omega)]
      have e2 : wcol m G' d (k + 1) j = vec m (app m k (fun r => G' r k) (d k * G' k k) (fun r => G r j)) := by
        funext i
        simp only [wcol, vec]; rw [if_neg (by omega), hs.app he _ _ i.2 hjk hj]
      rw [e1, e2, l2_sub_comm]
      refine (app_rnd hk (fun r hr => ?_) F.fin_b F.pos F.b hε).trans (add_le_add le_rfl F.tau)
      rw [← hs.app he r j hr hjk hj]
      exact hf r j hr hj

theorem back_fin {m k : Nat} {v : Nat → α} {b : α} {Z Z' : Nat → Nat → α} (hs : Back m k v b Z Z') (hk : k < m)
    (hf : ∀ r c, r < m → c < m → fin (Z' r c)) : ∀ r c, r < m → c < m → fin (Z r c) := by
  intro r c hr hc
  have hZ := hf r c hr hc
  by_cases hck : c < k
  · rwa [hs.left r c hck] at hZ
  · rcases h0 : FloatOps.eq (v k) 0 with _ | _
    · refine (app_fin (v := v) (b := b) (x := fun r => Z r c) hk fun r hr => ?_).1 r hr
      rw [← hs.app h0 r c hr (by omega) hc]
      exact hf r c hr hc
    · rwa [hs.skip h0] at hZ

theorem back_err {m n k : Nat} {G G' : Nat → Nat → α} {d : Nat → α} (hs : Step m n k G G' (d k)) (hk : k < m) (hn : k < n)
    (hf : ∀ r j, r < m → j < n → fin (G' r j)) (ha : fin (d k)) (hr : InRange m k (fun r => G' r k) (d k))
    (hε : γ α (m + 4) ≤ 1 / 64) {Z Z' : Nat → Nat → α} (hb : Back m k (fun r => G' r k) (d k * G' k k) Z Z')
    (hZ : ∀ r c, r < m → c < m → fin (Z' r c)) {c : Nat} (hc : c < m) (hlow : c < k → ∀ r, k ≤ r → r < m → val (Z r c) = 0) :
    l2 ((house (hvec m k fun r => G' r k)).mulVec (vec m fun r => Z r c) - vec m fun r => Z' r c) ≤
      16 * γ α (m + 4) * l2 (vec m fun r => Z r c) + Tau α m (val (d k)) := by
  have hε0 := γ_nonneg (α := α) (m + 4)
  have hτ := Tau_nonneg (α := α) m (val (d k))
  have hnn : 0 ≤ 16 * γ α (m + 4) * l2 (vec m fun r => Z r c) + Tau α m (val (d k)) := by
    have := l2_nonneg (vec m fun r => Z r c)
    positivity
  rcases hr with h | ⟨h0, h1, h2⟩
  · obtain ⟨z1, z2, z3, z4⟩ := step_zero hs hk hn hf ha h
    rw [z4, house_zero, Matrix.one_mulVec]
    have : (vec m fun r => Z r c) - (vec m fun r => Z' r c) = 0 := by
      funext i
      simp only [vec, Pi.sub_apply, Pi.zero_apply, hb.skip z3, sub_self]
    rw [this, l2_zero]
    exact hnn
  · obtain ⟨he, F⟩ := step_facts hs hk hn hf ha h0 h1 h2 hε
    by_cases hck : c < k
    · have e1 : (vec m fun r => Z' r c) = vec m fun r => Z r c := by
        funext i
        simp only [vec]
        rw [hb.left _ _ hck]
      rw [e1, house_low, sub_self, l2_zero]
      · exact hnn
      · intro i
        simp only [vec, hvec]
        by_cases hi : k ≤ i.1
        · right; exact hlow hck _ hi i.2
        · left; rw [if_neg hi]
    · have e2 : (vec m fun r => Z' r c) = vec m (app m k (fun r => G' r k) (d k * G' k k) (fun r => Z r c)) := by
        funext i
        simp only [vec]; rw [hb.app F.diag _ _ i.2 (by omega) hc]
      rw [e2, l2_sub_comm]
      refine (app_rnd hk (fun r hr => ?_) F.fin_b F.pos F.b hε).trans (add_le_add le_rfl F.tau)
      rw [← hb.app F.diag r c hr (by omega) hc]
      exact hZ r c hr hc

end Rnd
end QR
end LA
