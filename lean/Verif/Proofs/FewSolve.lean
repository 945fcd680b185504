import Verif.Props.TriBounds

/-! # `solve` on doubles when the columns of `L` are small: no overflow -/

set_option linter.unusedSectionVars false

namespace LA.Props
open LA Finset Fp

variable {n p : Nat}

/-- Forward substitution when the columns of `L` are small. -/
theorem few_forward (hn6 : n ≤ 1000000) {G : Nat → Nat → F64} (hfin : ∀ i c, i < n → c < n → (G i c).isFin)
    (hlcol : ∀ c, c < n → ∑ i ∈ Ico (c + 1) n, |(G i c).toReal| ≤ 1 + 1 / 2 ^ 52) {Y b : Nat → F64} {β P : ℝ} (hβ0 : 0 ≤ β) (hβ : β ≤ P) (hP : 2 ^ 51 ≤ P) (hΩ : P * 2 ^ 250 ≤ Ω F64)
    (h : ∀ i, i < n → Y i = facc (· - ·) (b i) (fun t => Y t * G i t) i) (hb : ∀ i, i < n → (b i).isFin ∧ |(b i).toReal| ≤ β) :
    ∀ i, i < n → (Y i).isFin ∧ |(Y i).toReal| ≤ 2 * n * (β + tiny) := by
  have hu : u F64 = 1 / 2 ^ 53 := rfl
  have hη0 := η_nonneg (α := F64)
  have ht := tiny_pos
  have hnr : (n : ℝ) ≤ 1000000 := by exact_mod_cast hn6
  have hq : (1 + u F64) ^ n * ((1 + u F64) ^ n * (1 + 1 / 2 ^ 52)) ^ n ≤ 2 := by
    have e1 : (1 + 1 / 2 ^ 52 : ℝ) ≤ (1 + u F64) ^ 2 := by rw [hu]; norm_num
    have e2 : (1 + u F64) ^ n * ((1 + u F64) ^ n * (1 + 1 / 2 ^ 52)) ^ n ≤ (1 + u F64) ^ n * ((1 + u F64) ^ n * (1 + u F64) ^ 2) ^ n := by
      have h0 : (0 : ℝ) ≤ (1 + u F64) ^ n := by rw [hu]; positivity
      exact mul_le_mul_of_nonneg_left (pow_le_pow_left₀ (mul_nonneg h0 (by norm_num)) (mul_le_mul_of_nonneg_left e1 h0) n) h0
    have e3 : (1 + u F64) ^ n * ((1 + u F64) ^ n * (1 + u F64) ^ 2) ^ n = (1 + u F64) ^ (n + (n + 2) * n) := by
      rw [← pow_add, ← pow_mul, ← pow_add]
    rw [e3] at e2
    refine e2.trans (pow_f64 ?_)
    have : (n + 2) * n ≤ 1000002 * 1000000 := Nat.mul_le_mul (by omega) hn6
    omega
  have hnη : n * η F64 ≤ tiny := by
    rw [eta_tiny]
    have := mul_le_mul_of_nonneg_right hnr (show 0 ≤ tiny * (1 / 2 ^ 175) from mul_nonneg ht.le (by norm_num))
    norm_num at this ⊢
    linarith
  have hnη0 : 0 ≤ n * η F64 := by positivity
  have hb0 : 0 ≤ n * (β + n * η F64) := mul_nonneg (Nat.cast_nonneg n) (add_nonneg hβ0 hnη0)
  have hbt0 : 0 ≤ β + tiny := add_nonneg hβ0 ht.le
  have hy : (1 + u F64) ^ n * (((1 + u F64) ^ n * (1 + 1 / 2 ^ 52)) ^ n * (n * (β + n * η F64))) ≤ 2 * n * (β + tiny) := by
    rw [← mul_assoc]
    calc _ ≤ 2 * (n * (β + n * η F64)) := mul_le_mul_of_nonneg_right hq hb0
      _ ≤ 2 * (n * (β + tiny)) := mul_le_mul_of_nonneg_left (mul_le_mul_of_nonneg_left (by linarith) (by positivity)) (by norm_num)
      _ = _ := by ring
  have hy2 : 2 * n * (β + tiny) ≤ Ω F64 := by
    have hP0 : 0 ≤ P := le_trans (by norm_num) hP
    refine le_trans ?_ hΩ
    calc 2 * n * (β + tiny) ≤ 2 * 1000000 * (2 * P) :=
          mul_le_mul (by linarith) (by have := tiny_le; norm_num at hP; linarith) hbt0 (by norm_num)
      _ = P * (4 * 1000000) := by ring
      _ ≤ _ := mul_le_mul_of_nonneg_left (by norm_num) hP0
  intro i hi
  obtain ⟨a, b⟩ := LU.Rnd.forward_few (α := F64) (n := n) (G := G) (Y := Y) (b := b) (l := 1 + 1 / 2 ^ 52) (β := β) (by norm_num) hβ0 h hb
    (fun i t hi ht => hfin i t hi (by omega)) hlcol (hy.trans hy2) i hi
  exact ⟨a, b.trans hy⟩

set_option maxHeartbeats 1000000 in
/-- `solve` answers and does not overflow if the columns of `L` and the inverse of `U` are not too large. -/
theorem few_core (hn : 0 < n) (hp : 0 < p) (hn6 : n ≤ 1000000) {A : Matrix (Fin n) (Fin n) F64} {M K : ℝ} {G : Nat → Nat → F64}
    {σ : Equiv.Perm (Fin n)} {V : Matrix (Fin n) (Fin n) ℝ}
    (hnew : LU.new (ofM A) = .ok ⟨ofM (Matrix.of fun (i : Fin n) (j : Fin n) => G i j), decide (Equiv.Perm.sign σ = 1), List.ofFn fun i => (σ i).1⟩)
    (hfin : ∀ i c, i < n → c < n → (G i c).isFin) (hlcol : ∀ c, c < n → ∑ i ∈ Ico (c + 1) n, |(G i c).toReal| ≤ 1 + 1 / 2 ^ 52)
    (hUM : ∀ i c : Fin n, |LU.upper n n (fun i c => (G i c).toReal) i c| ≤ 3 * M)
    (hV : V * LU.upper n n (fun i c => (G i c).toReal) = 1) (hVt : ∀ c r : Fin n, r < c → V c r = 0) (hW : ∀ c, ∑ r, |V c r| ≤ 4 * n * K)
    (hM1 : tiny ≤ M) (hM2 : M ≤ 2 ^ 800) (hK0 : 0 ≤ K) (hcond : n ^ 3 * (K * M) ≤ 2 ^ 46)
    {B : Matrix (Fin n) (Fin p) F64} {β : ℝ} (hB : ∀ i j, (B i j).isFin ∧ |(B i j).toReal| ≤ β)
    {P : ℝ} (h1000 : 2 ^ 51 ≤ P) (hΩ : P * 2 ^ 250 ≤ Ω F64) (hβ : β ≤ P) (hKβ : K * β ≤ P) :
    ∃ X : Matrix (Fin n) (Fin p) F64, (ofM A).solve (ofM B) = .ok (some (ofM X)) ∧ ∀ i j, (X i j).isFin := by
  have ht := tiny_pos
  have hM0 : 0 < M := lt_of_lt_of_le ht hM1
  have hn1 : (1 : ℝ) ≤ n := by exact_mod_cast hn
  have hKM0 : 0 ≤ K * M := mul_nonneg hK0 hM0.le
  have hk2 : (n : ℝ) ^ 2 * (K * M) ≤ 2 ^ 46 := (mul_le_mul_of_nonneg_right (pow_le_pow_right₀ hn1 (by norm_num)) hKM0).trans hcond
  have hk1 : (n : ℝ) * (K * M) ≤ 2 ^ 46 := (mul_le_mul_of_nonneg_right (by nlinarith) hKM0).trans hk2
  have hk0 : K * M ≤ 2 ^ 46 := (le_mul_of_one_le_left hKM0 hn1).trans hk1
  have hu : u F64 = 1 / 2 ^ 53 := rfl
  have hη0 := η_nonneg (α := F64)
  have hnr : (n : ℝ) ≤ 1000000 := by exact_mod_cast hn6
  have hβ0 : 0 ≤ β := (abs_nonneg _).trans (hB ⟨0, hn⟩ ⟨0, hp⟩).2
  have hKt : K * tiny ≤ 2 ^ 46 := (mul_le_mul_of_nonneg_left hM1 hK0).trans hk0
  have hKt0 : 0 ≤ K * tiny := by positivity
  have hηt := eta_tiny
  have hθ := theta_f64 (n := n) (by omega)
  have hθ0 := θ_nonneg (α := F64) n
  have hγ := gamma_f64 (k := n) (by omega)
  have hγ0 := γ_nonneg (α := F64) n
  have hq : (1 + u F64) ^ n ≤ 2 := pow_f64 (by omega)
  have hq0 : 1 ≤ (1 + u F64) ^ n := one_le_pow (α := F64) n
  have hP0 : 0 ≤ P := le_trans (by norm_num) h1000
  have hUz : ∀ r c : Fin n, c < r → LU.upper n n (fun i c => (G i c).toReal) r c = 0 := fun r c hrc => by
    have : c.1 < r.1 := hrc
    simp only [LU.upper, Matrix.of_apply]; rw [if_neg (by omega)]
  have hdiag : ∀ c : Fin n, (G c c).toReal ≠ 0 := fun c h0 => by
    have := congrFun (congrFun hV c) c
    rw [Matrix.mul_apply, Matrix.one_apply_eq, sum_eq_zero] at this
    · exact zero_ne_one this
    · intro b _
      rcases lt_trichotomy b c with hb | hb | hb
      · rw [hVt c b hb, zero_mul]
      · subst hb
        have : LU.upper n n (fun i c => (G i c).toReal) b b = (G b b).toReal := by simp [LU.upper]
        rw [this, h0, mul_zero]
      · rw [hUz b c hb, mul_zero]
  rcases LU.Rnd.solve_ok hn hp G (decide (Equiv.Perm.sign σ = 1)) σ B with ⟨⟨i, hi⟩, -⟩ | ⟨-, X, Y, h4, h5, h6⟩
  · exfalso
    have := (Fp.eq _ _ (hfin i i i.2 i.2) Fp.zero.1).1 hi
    rw [Fp.zero.2] at this
    exact hdiag i this
  refine ⟨Matrix.of fun i j => X i j, ?_, fun i j => ?_⟩
  · unfold Mat.solve
    rw [hnew, ok_bind, h4]
  have hnη : n * η F64 ≤ tiny := by
    rw [hηt]
    have := mul_le_mul_of_nonneg_right hnr (show 0 ≤ tiny * (1 / 2 ^ 175) from mul_nonneg ht.le (by norm_num))
    norm_num at this ⊢
    linarith
  have hnη0 : 0 ≤ n * η F64 := by positivity
  -- forward substitution
  have hY := few_forward hn6 hfin hlcol (Y := fun i => Y i j) (b := fun i => if h : i < n then B (σ ⟨i, h⟩) j else 0) hβ0 hβ h1000 hΩ
    (fun i hi => by rw [dif_pos hi]; exact h5 ⟨i, hi⟩ j) (fun i hi => by rw [dif_pos hi]; exact hB _ _)
  have hY2 : ∀ i : Fin n, Fp.fin (Y i j) ∧ |val (Y i j)| ≤ 2 * n * (β + tiny) := fun i => hY i i.2
  have hbt : β + tiny ≤ 2 * P := by have := tiny_le; norm_num at h1000; linarith
  have hy3 : 2 * n * (β + tiny) ≤ P * 2 ^ 22 := by
    calc 2 * n * (β + tiny) ≤ 2 * 1000000 * (2 * P) := mul_le_mul (by linarith) hbt (by positivity) (by norm_num)
      _ = P * (4 * 1000000) := by ring
      _ ≤ _ := mul_le_mul_of_nonneg_left (by norm_num) hP0
  -- back substitution
  have he : θ F64 n + (1 + u F64) ^ n * η F64 * (3 * M) ≤ tiny * (1 + M) := by
    have a1 : (1 + u F64) ^ n * η F64 * (3 * M) ≤ 2 * (tiny * (1 / 2 ^ 175)) * (3 * M) := by
      rw [← hηt]
      exact mul_le_mul_of_nonneg_right (mul_le_mul_of_nonneg_right hq hη0) (by positivity)
    have a2 : 2 * (tiny * (1 / 2 ^ 175)) * (3 * M) ≤ tiny * M := by
      have : 0 ≤ tiny * M := by positivity
      norm_num
      linarith
    norm_num at hθ
    linarith
  have hKe : K * (tiny * (1 + M)) ≤ 2 ^ 47 := by
    have : K * (tiny * (1 + M)) = K * tiny + tiny * (K * M) := by ring
    have h1 : tiny * (K * M) ≤ K * M := mul_le_of_le_one_left hKM0 tiny_le
    rw [this]
    norm_num at hKt hk0 ⊢
    linarith
  have hKy : K * (β + tiny) ≤ P + 2 ^ 46 := by
    rw [mul_add]; linarith
  have hKy0 : 0 ≤ K * (β + tiny) := by positivity
  have hKe0 : 0 ≤ K * (tiny * (1 + M)) := by positivity
  have htM : tiny * (1 + M) ≤ 2 := by
    have a1 : tiny * M ≤ 1 := by
      unfold tiny
      rw [one_div, inv_mul_le_iff₀ (by positivity), mul_one]
      exact hM2.trans (pow_le_pow_right₀ (by norm_num) (by norm_num))
    have := tiny_le
    linarith
  obtain ⟨D, hD⟩ : ∃ D, D = 2 * n * (β + tiny) + tiny * (1 + M) := ⟨_, rfl⟩
  have hD0 : 0 ≤ D := by rw [hD]; positivity
  have hDP : D ≤ P * 2 ^ 23 := by
    rw [hD]
    norm_num at h1000 hy3 ⊢
    linarith
  have hKD : K * D ≤ P * 2 ^ 23 := by
    have e : K * D = 2 * n * (K * (β + tiny)) + K * (tiny * (1 + M)) := by rw [hD]; ring
    have a1 : 2 * n * (K * (β + tiny)) ≤ 2 * 1000000 * (P + 2 ^ 46) := mul_le_mul (by linarith) hKy hKy0 (by norm_num)
    rw [e]
    norm_num at a1 hKe h1000 ⊢
    linarith
  have hKD0 : 0 ≤ K * D := mul_nonneg hK0 hD0
  obtain ⟨S, hSd⟩ : ∃ S, S = 8 * (n * n) * (K * D) := ⟨_, rfl⟩
  have hS0 : 0 ≤ S := by rw [hSd]; positivity
  have hSP : S ≤ P * 2 ^ 66 := by
    rw [hSd]
    calc 8 * (n * n) * (K * D) ≤ 8 * (1000000 * 1000000) * (P * 2 ^ 23) :=
          mul_le_mul (mul_le_mul_of_nonneg_left (mul_le_mul hnr hnr (by positivity) (by norm_num)) (by norm_num)) hKD hKD0 (by norm_num)
      _ = P * (8 * (1000000 * 1000000) * 2 ^ 23) := by ring
      _ ≤ _ := mul_le_mul_of_nonneg_left (by norm_num) hP0
  have hS : 2 * n * (4 * n * K) * (2 * n * (β + tiny) + (θ F64 n + (1 + u F64) ^ n * η F64 * (3 * M))) ≤ S := by
    calc _ ≤ 2 * n * (4 * n * K) * D := mul_le_mul_of_nonneg_left (by rw [hD]; linarith) (by positivity)
      _ = S := by rw [hSd]; ring
  have hMS : 3 * M * S ≤ P * 2 ^ 74 := by
    calc 3 * M * S = 24 * (n ^ 2 * (K * M)) * D := by rw [hSd]; ring
      _ ≤ 24 * 2 ^ 46 * (P * 2 ^ 23) := mul_le_mul (mul_le_mul_of_nonneg_left hk2 (by norm_num)) hDP hD0 (by norm_num)
      _ = P * (24 * 2 ^ 46 * 2 ^ 23) := by ring
      _ ≤ _ := mul_le_mul_of_nonneg_left (by norm_num) hP0
  have hη1 : n * η F64 ≤ 1 := hnη.trans tiny_le
  have hsum0 : 0 ≤ 2 * n * (β + tiny) + 3 * M * S + n * η F64 := by positivity
  have hsum : (1 + u F64) ^ n * (2 * n * (β + tiny) + 3 * M * S + n * η F64) ≤ P * 2 ^ 76 := by
    calc _ ≤ 2 * (P * 2 ^ 22 + P * 2 ^ 74 + 1) := mul_le_mul hq (by linarith) hsum0 (by norm_num)
      _ ≤ _ := by
        norm_num at h1000 ⊢
        linarith
  have hWS : 4 * n * K * (2 * n * (β + tiny) + 3 * M * S + n * η F64) ≤ P * 2 ^ 120 := by
    have e : 4 * n * K * (2 * n * (β + tiny) + 3 * M * S + n * η F64) =
        8 * (n * n) * (K * (β + tiny)) + 12 * (n * (K * M)) * S + 4 * n * (K * (n * η F64)) := by ring
    have a1 : 8 * (n * n) * (K * (β + tiny)) ≤ 8 * (1000000 * 1000000) * (P + 2 ^ 46) :=
      mul_le_mul (mul_le_mul_of_nonneg_left (mul_le_mul hnr hnr (by positivity) (by norm_num)) (by norm_num)) hKy hKy0 (by norm_num)
    have a2 : 12 * (n * (K * M)) * S ≤ 12 * 2 ^ 46 * (P * 2 ^ 66) :=
      mul_le_mul (mul_le_mul_of_nonneg_left hk1 (by norm_num)) hSP hS0 (by norm_num)
    have a3 : 4 * n * (K * (n * η F64)) ≤ 4 * 1000000 * 2 ^ 46 :=
      mul_le_mul (mul_le_mul_of_nonneg_left hnr (by norm_num)) (le_trans (mul_le_mul_of_nonneg_left hnη hK0) hKt) (by positivity) (by norm_num)
    rw [e]
    norm_num at a1 a2 a3 h1000 ⊢
    linarith
  have hs : n * (4 * n * K) * γ F64 n * (3 * M) ≤ 1 / 2 := by
    have a1 : n * (4 * n * K) * γ F64 n * (3 * M) = 12 * (n ^ 2 * (K * M)) * γ F64 n := by ring
    have a2 : 12 * (n ^ 2 * (K * M)) * γ F64 n ≤ 12 * (n ^ 2 * (K * M)) * (n / 2 ^ 52) :=
      mul_le_mul_of_nonneg_left hγ (by positivity)
    have a3 : 12 * (n ^ 2 * (K * M)) * (n / 2 ^ 52) = n ^ 3 * (K * M) * (12 / 2 ^ 52) := by ring
    have a4 := hcond
    rw [a1]
    refine a2.trans (a3.le.trans ?_)
    norm_num at a4 ⊢
    linarith
  refine (LU.Rnd.backward_fin j (by positivity) (fun i => h6 i j) (fun i c _ => hfin i c i.2 c.2) hUM hV hVt hW hY2 hs hS ?_ ?_).1 i
  · refine hsum.trans (le_trans ?_ hΩ)
    exact mul_le_mul_of_nonneg_left (by norm_num) hP0
  · refine le_trans ?_ hΩ
    have e : (1 + u F64) * (4 * n * K * ((1 + u F64) ^ n * (2 * n * (β + tiny) + 3 * M * S + n * η F64))) =
        (1 + u F64) * ((1 + u F64) ^ n) * (4 * n * K * (2 * n * (β + tiny) + 3 * M * S + n * η F64)) := by ring
    have a1 : (1 + u F64) * ((1 + u F64) ^ n) * (4 * n * K * (2 * n * (β + tiny) + 3 * M * S + n * η F64)) ≤
        2 * 2 * (P * 2 ^ 120) :=
      mul_le_mul (mul_le_mul (by rw [hu]; norm_num) hq (zero_le_one.trans hq0) (by norm_num)) hWS (mul_nonneg (by positivity) hsum0) (by norm_num)
    have a2 := eta_le
    rw [e]
    norm_num at a1 a2 h1000 ⊢
    linarith


end LA.Props
