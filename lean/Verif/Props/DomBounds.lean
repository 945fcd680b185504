import Verif.Proofs.FewSolve
import Verif.Proofs.DomF64

/-!
# C117: column dominant systems of doubles

Matrices in which every diagonal entry outweighs the rest of its column: the decomposition makes no exchanges, the entries do not grow,
nothing overflows, and the computed solution is close to the true one.
-/

namespace LA.Props
open LA Finset Fp
set_option linter.unusedSectionVars false

variable {n p : Nat}

/-- Finite entries of at most `M`; each diagonal entry exceeds the sum of the rest of its column by at least `δ`, which is not too small. -/
structure DominantBy (A : Matrix (Fin n) (Fin n) F64) (M δ : ℝ) : Prop where
  entry : ∀ i j, (A i j).isFin ∧ |(A i j).toReal| ≤ M
  lower : tiny ≤ M
  upper : M ≤ 2 ^ 800
  pos : 0 < δ
  gap : ∀ j, δ + ∑ i ∈ univ.erase j, |(A i j).toReal| ≤ |(A j j).toReal|
  cond : n ^ 3 * M ≤ 2 ^ 46 * δ

theorem DominantBy.gap' {A : Matrix (Fin n) (Fin n) F64} {M δ : ℝ} (h : DominantBy A M δ) (j : Fin n) :
    δ + ∑ i, |(A i j).toReal| ≤ 2 * |(A j j).toReal| := by
  have := h.gap j
  rw [← add_sum_erase _ _ (mem_univ j)]
  linarith

theorem DominantBy.small {A : Matrix (Fin n) (Fin n) F64} {M δ : ℝ} (h : DominantBy A M δ) (hn : 0 < n) : n ≤ 65536 ∧ δ ≤ M := by
  have hM0 : 0 < M := lt_of_lt_of_le tiny_pos h.lower
  have h1 : δ ≤ M := by
    have a := h.gap ⟨0, hn⟩
    have b := (h.entry ⟨0, hn⟩ ⟨0, hn⟩).2
    have c : 0 ≤ ∑ i ∈ univ.erase ⟨0, hn⟩, |(A i ⟨0, hn⟩).toReal| := sum_nonneg fun _ _ => abs_nonneg _
    linarith
  refine ⟨?_, h1⟩
  by_contra hlt
  have h2 : (65537 : ℝ) ≤ n := by
    have : 65537 ≤ n := by omega
    exact_mod_cast this
  have h3 := mul_le_mul_of_nonneg_right (pow_le_pow_left₀ (by norm_num) h2 3) hM0.le
  have h4 := h.cond
  norm_num at h3 h4
  linarith

/-- What the decomposition computes, with bounds. -/
structure DomFactored (A : Matrix (Fin n) (Fin n) F64) (M : ℝ) (G : Nat → Nat → F64) : Prop where
  new : LU.new (ofM A) = .ok ⟨ofM (Matrix.of fun (i : Fin n) (j : Fin n) => G i j), true, List.ofFn fun i : Fin n => i.1⟩
  fin : ∀ i c, i < n → c < n → (G i c).isFin
  lcol : ∀ c, c < n → ∑ i ∈ Ico (c + 1) n, |(G i c).toReal| ≤ 1
  up : ∀ (i : Nat) (c : Fin n), i ≤ c.1 → |(G i c).toReal| ≤ 2 * |(A c c).toReal|
  sign : ∀ c : Fin n, 0 < (A c c).toReal * (G c c).toReal
  err : ∀ i c : Fin n, |(A i c).toReal - ∑ k, LU.lower n n (fun i c => (G i c).toReal) i k * LU.upper n n (fun i c => (G i c).toReal) k c| ≤
    3 * n * (n + 1) / 2 ^ 52 * M

theorem DomFactored.low {A : Matrix (Fin n) (Fin n) F64} {M : ℝ} {G : Nat → Nat → F64} (h : DomFactored A M G) (i c : Nat) (hi : i < n) (hc : c < i) :
    |(G i c).toReal| ≤ 1 :=
  (single_le_sum (f := fun i => |(G i c).toReal|) (fun i _ => abs_nonneg _) (mem_Ico.2 ⟨hc, hi⟩)).trans (h.lcol c (by omega))

theorem dom_lower_le {G : Nat → Nat → F64} (h : ∀ i c, i < n → c < i → |(G i c).toReal| ≤ 1) (i k : Fin n) :
    |LU.lower n n (fun i c => (G i c).toReal) i k| ≤ 1 := by
  simp only [LU.lower, Matrix.of_apply]
  split
  · next hk => exact h i k i.2 hk
  · split <;> simp

theorem dom_upper_le {G : Nat → Nat → F64} {a : ℝ} (c : Fin n) (ha : 0 ≤ a) (h : ∀ i, i ≤ c.1 → |(G i c).toReal| ≤ a) (k : Fin n) :
    |LU.upper n n (fun i c => (G i c).toReal) k c| ≤ a := by
  simp only [LU.upper, Matrix.of_apply]
  split
  · next hk => exact h k hk
  · rw [abs_zero]; exact ha

theorem dom_small (hn16 : n ≤ 65536) (hn : 0 < n) {M : ℝ} (hM1 : tiny ≤ M) {G : Nat → Nat → F64}
    (hL : ∀ i k : Fin n, |LU.lower n n (fun i c => (G i c).toReal) i k| ≤ 1) (hU : ∀ k c : Fin n, |LU.upper n n (fun i c => (G i c).toReal) k c| ≤ 2 * M)
    (i c : Fin n) :
    γ F64 (n + 1) * (∑ k, |LU.lower n n (fun i c => (G i c).toReal) i k| * |LU.upper n n (fun i c => (G i c).toReal) k c|) + θ F64 n +
        (1 + u F64) * η F64 * ∑ k, |LU.upper n n (fun i c => (G i c).toReal) k c| ≤ 3 * n * (n + 1) / 2 ^ 52 * M := by
  have hM0 : 0 < M := lt_of_lt_of_le tiny_pos hM1
  have hu : u F64 = 1 / 2 ^ 53 := rfl
  have hη0 := η_nonneg (α := F64)
  have hη := eta_le
  have hθ := theta_f64 (n := n) (by omega)
  have hn1 : (1 : ℝ) ≤ n := by exact_mod_cast hn
  have s2 : ∑ k, |LU.upper n n (fun i c => (G i c).toReal) k c| ≤ n * (2 * M) := by
    calc _ ≤ ∑ _k : Fin n, 2 * M := sum_le_sum fun k _ => hU k c
      _ = _ := by rw [sum_const, card_univ, Fintype.card_fin, nsmul_eq_mul]
  have s1 : ∑ k, |LU.lower n n (fun i c => (G i c).toReal) i k| * |LU.upper n n (fun i c => (G i c).toReal) k c| ≤ n * (2 * M) :=
    (sum_le_sum fun k _ => mul_le_of_le_one_left (abs_nonneg _) (hL i k)).trans s2
  have hγ := gamma_f64 (k := n + 1) (by omega)
  push_cast at hγ
  have t1 := mul_le_mul hγ s1 (sum_nonneg fun _ _ => by positivity) (by positivity)
  have t2 : θ F64 n ≤ M * (1 / 2 ^ 154) := hθ.trans (mul_le_mul_of_nonneg_right hM1 (by norm_num))
  have t3 : (1 + u F64) * η F64 * (∑ k, |LU.upper n n (fun i c => (G i c).toReal) k c|) ≤ 2 * (1 / 2 ^ 175) * (n * (2 * M)) :=
    mul_le_mul (mul_le_mul (by rw [hu]; norm_num) hη hη0 (by norm_num)) s2 (sum_nonneg fun _ _ => abs_nonneg _) (by norm_num)
  refine (add_le_add (add_le_add t1 t2) t3).trans ?_
  have t5 : M ≤ n * M := le_mul_of_one_le_left hM0.le hn1
  have t6 : 0 ≤ n * (n * M) := by positivity
  have e1 : ((n : ℝ) + 1) / 2 ^ 52 * (n * (2 * M)) = (n * (n * M)) * (2 / 2 ^ 52) + (n * M) * (2 / 2 ^ 52) := by ring
  have e2 : 3 * (n : ℝ) * (n + 1) / 2 ^ 52 * M = (n * (n * M)) * (3 / 2 ^ 52) + (n * M) * (3 / 2 ^ 52) := by ring
  have e3 : 2 * (1 / 2 ^ 175) * ((n : ℝ) * (2 * M)) = (n * M) * (4 / 2 ^ 175) := by ring
  rw [e1, e2, e3]
  generalize (n : ℝ) * (n * M) = b at *
  generalize (n : ℝ) * M = a at *
  norm_num
  linarith

theorem dom_factored (hn : 0 < n) {A : Matrix (Fin n) (Fin n) F64} {M δ : ℝ} (hA : DominantBy A M δ) : ∃ G : Nat → Nat → F64, DomFactored A M G := by
  obtain ⟨G, σ, h1, h2⟩ := LU.Rnd.new_ofM hn hn A
  obtain ⟨hn16, -⟩ := hA.small hn
  have hM0 : 0 < M := lt_of_lt_of_le tiny_pos hA.lower
  have hC := LU.Dom.columns h2 (M := M) (δ := δ) (fun i c hi hc => by rw [ext_eq A hi hc]; exact hA.entry _ _) hA.lower hA.upper hA.pos
    (fun c hc => by
      have := hA.gap' ⟨c, hc⟩
      rw [← Fin.sum_univ_eq_sum_range (fun i => |(ext A i c).toReal|), ext_eq A hc hc]
      have e : ∀ i : Fin n, ext A i c = A i ⟨c, hc⟩ := fun i => ext_eq A i.2 hc
      simp only [e]
      exact this) hA.cond
  have hσ : σ = 1 := Equiv.ext fun i => (hC i i.2).fix i.2
  subst hσ
  have hfin : ∀ i c, i < n → c < n → (G i c).isFin := fun i c hi hc => (hC c hc).fin i hi
  have hlcol : ∀ c, c < n → ∑ i ∈ Ico (c + 1) n, |(G i c).toReal| ≤ 1 := fun c hc => (hC c hc).low
  have hlow : ∀ i c, i < n → c < i → |(G i c).toReal| ≤ 1 := fun i c hi hc =>
    (single_le_sum (f := fun i => |(G i c).toReal|) (fun i _ => abs_nonneg _) (mem_Ico.2 ⟨hc, hi⟩)).trans (hlcol c (by omega))
  have hup : ∀ (i : Nat) (c : Fin n), i ≤ c.1 → |(G i c).toReal| ≤ 2 * |(A c c).toReal| := fun i c hi => by
    have := (hC c c.2).up i hi
    rwa [ext_fin] at this
  refine ⟨G, by simpa using h1, hfin, hlcol, hup, fun c => by have := (hC c c.2).sign; rwa [ext_fin] at this, fun i c => ?_⟩
  have hF : ∀ (_ : ∀ i k, Fp.fin (LU.Rnd.lowerA n n G i k)) (_ : ∀ k c, Fp.fin (LU.Rnd.upperA n n G k c)) (i c : Fin n),
    |val (ext A i c) - ∑ k, val (LU.Rnd.lowerA n n G i k) * val (LU.Rnd.upperA n n G k c)| ≤
      γ F64 (n + 1) * (∑ k, |val (LU.Rnd.lowerA n n G i k)| * |val (LU.Rnd.upperA n n G k c)|) + θ F64 n +
        (1 + u F64) * η F64 * ∑ k, |val (LU.Rnd.upperA n n G k c)| := by
    have hmin : min n n = n := Nat.min_self n
    have := LU.Rnd.factor_err h2
    rw [hmin] at this
    exact fun hL hU => this hL hU
  have h3 := hF (fun i k => by
      simp only [LU.Rnd.lowerA, Matrix.of_apply]
      split
      · exact hfin i k i.2 k.2
      · split
        · exact Fp.one.1
        · exact Fp.zero.1) (fun k c => by
      simp only [LU.Rnd.upperA, Matrix.of_apply]
      split
      · exact hfin k c k.2 c.2
      · exact Fp.zero.1) i c
  rw [ext_fin] at h3
  simp only [fun i k => (LU.Rnd.val_lowerA n n G i k).1, fun i k => (LU.Rnd.val_upperA n n G i k).1] at h3
  refine h3.trans (dom_small hn16 hn hA.lower (dom_lower_le hlow) (fun k c => ?_) i c)
  exact dom_upper_le c (by positivity) (fun i hi => (hup i c hi).trans (by have := (hA.entry c c).2; linarith)) k

theorem DomFactored.upM {A : Matrix (Fin n) (Fin n) F64} {M δ : ℝ} {G : Nat → Nat → F64} (h : DomFactored A M G) (hA : DominantBy A M δ) (k c : Fin n) :
    |LU.upper n n (fun i c => (G i c).toReal) k c| ≤ 2 * M :=
  dom_upper_le c (mul_nonneg (by norm_num) (tiny_pos.le.trans hA.lower)) (fun i hi => (h.up i c hi).trans (by have := (hA.entry c c).2; linarith)) k

/-- C117, factors of a column dominant matrix of doubles: no exchanges, multipliers that add up to at most one in each column, no growth
beyond twice the diagonal, pivots with the signs of the diagonal entries, and a product close to the matrix. -/
theorem C117_factors (hn : 0 < n) (A : Matrix (Fin n) (Fin n) F64) (M δ : ℝ) (hA : DominantBy A M δ) :
    ∃ (x : LU F64) (L U : Matrix (Fin n) (Fin n) F64),
      LU.new (ofM A) = .ok x ∧ x.getPiv = (List.ofFn fun i : Fin n => i.1) ∧ x.getL = .ok (ofM L) ∧ x.getU = .ok (ofM U) ∧
      x.isNonSingular = .ok true ∧
      (∀ i k, (L i k).isFin) ∧ (∀ k, ∑ i ∈ univ.filter (fun i => k < i), |(L i k).toReal| ≤ 1) ∧
      (∀ k c, (U k c).isFin ∧ |(U k c).toReal| ≤ 2 * |(A c c).toReal|) ∧ (∀ c, 0 < (A c c).toReal * (U c c).toReal) ∧
      ∀ i c, |(A i c).toReal - ∑ k, (L i k).toReal * (U k c).toReal| ≤ 3 * n * (n + 1) / 2 ^ 52 * M := by
  obtain ⟨G, hf⟩ := dom_factored hn hA
  have hL' := LU.Rnd.getL_ok G hn hn true (List.ofFn fun i : Fin n => i.1)
  have hU' := LU.Rnd.getU_ok G hn hn true (List.ofFn fun i : Fin n => i.1)
  rw [Nat.min_self] at hL' hU'
  have eL : ∀ i k, (LU.Rnd.lowerA n n G i k).toReal = LU.lower n n (fun i c => (G i c).toReal) i k := fun i k => (LU.Rnd.val_lowerA n n G i k).1
  have eU : ∀ i k, (LU.Rnd.upperA n n G i k).toReal = LU.upper n n (fun i c => (G i c).toReal) i k := fun i k => (LU.Rnd.val_upperA n n G i k).1
  have hne : ∀ c : Fin n, (G c c).toReal ≠ 0 := fun c h0 => by
    have := hf.sign c
    rw [h0, mul_zero] at this
    exact lt_irrefl _ this
  refine ⟨_, _, _, hf.new, rfl, hL', hU', ?_, fun i k => ?_, fun k => ?_, fun k c => ⟨?_, ?_⟩, fun c => ?_, fun i c => ?_⟩
  · rw [LU.Rnd.isNonSingular_ok hn]
    refine congrArg Except.ok (decide_eq_true fun i => ?_)
    by_contra h0
    rw [Bool.not_eq_false] at h0
    have := (Fp.eq _ _ (hf.fin i i i.2 i.2) Fp.zero.1).mp h0
    rw [Fp.zero.2] at this
    exact hne i this
  · simp only [LU.Rnd.lowerA, Matrix.of_apply]
    split
    · exact hf.fin i k i.2 k.2
    · split
      · exact (Fp.one (α := F64)).1
      · exact (Fp.zero (α := F64)).1
  · refine le_trans (le_of_eq ?_) (hf.lcol k k.2)
    have e1 : ∑ i ∈ Ico (k.1 + 1) n, |(G i k).toReal| = ∑ i ∈ range n, if k.1 < i then |(G i k).toReal| else 0 := by
      rw [← sum_filter]
      refine sum_congr ?_ fun _ _ => rfl
      ext i
      simp only [mem_Ico, mem_filter, mem_range]
      omega
    rw [e1, ← Fin.sum_univ_eq_sum_range (fun i => if k.1 < i then |(G i k).toReal| else 0), sum_filter]
    refine sum_congr rfl fun i _ => ?_
    by_cases hki : k < i
    · rw [if_pos hki, if_pos (show k.1 < i.1 from hki), eL]
      simp only [LU.lower, Matrix.of_apply]
      rw [if_pos (show k.1 < i.1 from hki)]
    · rw [if_neg hki, if_neg (fun h : k.1 < i.1 => hki h)]
  · simp only [LU.Rnd.upperA, Matrix.of_apply]
    split
    · exact hf.fin k c k.2 c.2
    · exact (Fp.zero (α := F64)).1
  · rw [eU]
    exact dom_upper_le c (by positivity) (fun i hi => hf.up i c hi) k
  · rw [eU]
    have : LU.upper n n (fun i c => (G i c).toReal) c c = (G c c).toReal := by simp [LU.upper]
    rw [this]
    exact hf.sign c
  · simp only [eL, eU]; exact hf.err i c

/-- The residual of the computed solution. -/
theorem dom_resid (hn : 0 < n) (hp : 0 < p) {A : Matrix (Fin n) (Fin n) F64} {M δ : ℝ} (hA : DominantBy A M δ) {B X : Matrix (Fin n) (Fin p) F64}
    (hX : (ofM A).solve (ofM B) = .ok (some (ofM X))) (hXf : ∀ i j, (X i j).isFin) (i : Fin n) (j : Fin p) :
    |(B i j).toReal - ∑ c, (A i c).toReal * (X c j).toReal| ≤
      3 * n * (3 * n + 1) / 2 ^ 52 * M * ∑ c, |(X c j).toReal| + tiny * (1 + M) := by
  obtain ⟨G, hf⟩ := dom_factored hn hA
  obtain ⟨hn16, -⟩ := hA.small hn
  have hM1 := hA.lower
  obtain ⟨x, σ', L, U, h1, h2, h3, h4, h5⟩ := C63_solve hn hp A B
  rw [hf.new] at h1
  obtain rfl := Except.ok.inj h1
  obtain rfl : σ' = 1 := by
    have h2 := List.ofFn_injective h2
    exact Equiv.ext fun i => Fin.ext (congrFun h2 i).symm
  have hL' := LU.Rnd.getL_ok G hn hn true (List.ofFn fun i : Fin n => i.1)
  have hU' := LU.Rnd.getU_ok G hn hn true (List.ofFn fun i : Fin n => i.1)
  rw [Nat.min_self] at hL' hU'
  obtain rfl : L = LU.Rnd.lowerA n n G := ofM_inj (Except.ok.inj (h3.symm.trans hL'))
  obtain rfl : U = LU.Rnd.upperA n n G := ofM_inj (Except.ok.inj (h4.symm.trans hU'))
  rcases h5 with ⟨-, h5⟩ | ⟨-, X', h5, h6⟩
  · rw [h5] at hX; simp at hX
  obtain rfl : X' = X := ofM_inj (by rw [h5] at hX; simpa using hX)
  have h7 := h6 (fun i k => by
      simp only [LU.Rnd.lowerA, Matrix.of_apply]
      split
      · exact hf.fin i k i.2 k.2
      · split
        · exact Fp.one.1
        · exact Fp.zero.1) (fun k c => by
      simp only [LU.Rnd.upperA, Matrix.of_apply]
      split
      · exact hf.fin k c k.2 c.2
      · exact Fp.zero.1) hXf i j
  simp only [fun i k => (LU.Rnd.val_lowerA n n G i k).1, fun i k => (LU.Rnd.val_upperA n n G i k).1, Equiv.Perm.one_apply] at h7
  refine h7.trans ?_
  have ht := tiny_pos
  have hM0 : 0 < M := lt_of_lt_of_le ht hM1
  have hnr : (n : ℝ) ≤ 65536 := by exact_mod_cast hn16
  have hn1 : (1 : ℝ) ≤ n := by exact_mod_cast hn
  have hη0 := η_nonneg (α := F64)
  have hηt := eta_tiny
  have hg := gamma_f64 (k := 3 * n + 1) (by omega)
  have hg0 := γ_nonneg (α := F64) (3 * n + 1)
  have hq : (1 + u F64) ^ (2 * n) ≤ 2 := pow_f64 (by omega)
  have hlo := dom_lower_le hf.low
  have hup := hf.upM hA
  push_cast at hg
  set s := ∑ c, |(X' c j).toReal| with hs
  have hs0 : 0 ≤ s := sum_nonneg fun _ _ => abs_nonneg _
  -- the three sums
  have s1 : ∑ k, |LU.lower n n (fun i c => (G i c).toReal) i k| * ∑ c, |LU.upper n n (fun i c => (G i c).toReal) k c| * |(X' c j).toReal| ≤
      n * (2 * M * s) := by
    calc _ ≤ ∑ _k : Fin n, 2 * M * s := sum_le_sum fun k _ => by
          refine (mul_le_of_le_one_left (sum_nonneg fun _ _ => by positivity) (hlo i k)).trans ?_
          rw [hs, mul_sum]
          exact sum_le_sum fun c _ => mul_le_mul_of_nonneg_right (hup k c) (abs_nonneg _)
      _ = _ := by rw [sum_const, card_univ, Fintype.card_fin, nsmul_eq_mul]
  have s2 : ∑ k, |LU.lower n n (fun i c => (G i c).toReal) i k| * (n + |LU.upper n n (fun i c => (G i c).toReal) k k|) ≤
      65536 * (65536 + 2 * M) := by
    calc _ ≤ ∑ _k : Fin n, (65536 + 2 * M) := sum_le_sum fun k _ =>
            (mul_le_of_le_one_left (by positivity) (hlo i k)).trans (add_le_add hnr (hup k k))
      _ = n * (65536 + 2 * M) := by rw [sum_const, card_univ, Fintype.card_fin, nsmul_eq_mul]
      _ ≤ _ := mul_le_mul_of_nonneg_right hnr (by positivity)
  have s3 : ∑ c, (n + ∑ k, |LU.upper n n (fun i c => (G i c).toReal) k c|) * |(X' c j).toReal| ≤ (65536 + 65536 * (2 * M)) * s := by
    rw [hs, mul_sum]
    refine sum_le_sum fun c _ => mul_le_mul_of_nonneg_right (add_le_add hnr ?_) (abs_nonneg _)
    calc _ ≤ ∑ _k : Fin n, 2 * M := sum_le_sum fun k _ => hup k c
      _ = n * (2 * M) := by rw [sum_const, card_univ, Fintype.card_fin, nsmul_eq_mul]
      _ ≤ _ := mul_le_mul_of_nonneg_right hnr (by positivity)
  have n1 : 0 ≤ ∑ k, |LU.lower n n (fun i c => (G i c).toReal) i k| * ∑ c, |LU.upper n n (fun i c => (G i c).toReal) k c| * |(X' c j).toReal| :=
    sum_nonneg fun _ _ => mul_nonneg (abs_nonneg _) (sum_nonneg fun _ _ => by positivity)
  have n2 : 0 ≤ ∑ k, |LU.lower n n (fun i c => (G i c).toReal) i k| * (n + |LU.upper n n (fun i c => (G i c).toReal) k k|) :=
    sum_nonneg fun _ _ => by positivity
  have n3 : 0 ≤ ∑ c, (n + ∑ k, |LU.upper n n (fun i c => (G i c).toReal) k c|) * |(X' c j).toReal| :=
    sum_nonneg fun _ _ => mul_nonneg (add_nonneg (by positivity) (sum_nonneg fun _ _ => abs_nonneg _)) (abs_nonneg _)
  have t1 := mul_le_mul hg s1 n1 (by positivity)
  have t2 : η F64 * (1 + u F64) ^ (2 * n) * (n + (∑ k, |LU.lower n n (fun i c => (G i c).toReal) i k| *
      (n + |LU.upper n n (fun i c => (G i c).toReal) k k|)) + ∑ c, (n + ∑ k, |LU.upper n n (fun i c => (G i c).toReal) k c|) * |(X' c j).toReal|) ≤
      tiny * (1 / 2 ^ 175) * 2 * (65536 + 65536 * (65536 + 2 * M) + (65536 + 65536 * (2 * M)) * s) := by
    rw [← hηt]
    refine mul_le_mul (mul_le_mul_of_nonneg_left hq hη0) (by linarith) (by positivity) (by positivity)
  refine (add_le_add t1 t2).trans ?_
  have e1 : tiny * (1 / 2 ^ 175) * 2 * (65536 + 65536 * (65536 + 2 * M) + (65536 + 65536 * (2 * M)) * s) =
      tiny * ((2 ^ 17 + 2 ^ 33) / 2 ^ 175) + tiny * M * (2 ^ 18 / 2 ^ 175) + tiny * s * (2 ^ 17 / 2 ^ 175) + tiny * (M * s) * (2 ^ 18 / 2 ^ 175) := by ring
  have f2 : tiny * s ≤ M * s := mul_le_mul_of_nonneg_right hM1 hs0
  have f3 : tiny * (M * s) ≤ M * s := mul_le_of_le_one_left (by positivity) tiny_le
  have f4 : M * s ≤ n * (M * s) := le_mul_of_one_le_left (by positivity) hn1
  have f5 : 0 ≤ M * s := by positivity
  have f7 : n * (M * s) ≤ n * (n * (M * s)) := le_mul_of_one_le_left (by positivity) hn1
  have f6 : 0 ≤ tiny * M := by positivity
  have e2 : (3 * n + 1 : ℝ) / 2 ^ 52 * (n * (2 * M * s)) = (n * (n * (M * s))) * (6 / 2 ^ 52) + (n * (M * s)) * (2 / 2 ^ 52) := by ring
  have e3 : 3 * n * (3 * n + 1 : ℝ) / 2 ^ 52 * M * s = (n * (n * (M * s))) * (9 / 2 ^ 52) + (n * (M * s)) * (3 / 2 ^ 52) := by ring
  rw [e1, e2, e3, mul_add, mul_one]
  generalize n * (n * (M * s)) = a' at *
  generalize n * (M * s) = a at *
  generalize M * s = b at *
  generalize tiny * M = d at *
  generalize tiny * s = e at *
  norm_num
  linarith

/-- A column dominant matrix does not shrink the sum of the absolute values much. -/
theorem dom_norm {A : Matrix (Fin n) (Fin n) ℝ} {δ : ℝ} (h : ∀ j, δ + ∑ i, |A i j| ≤ 2 * |A j j|) (x : Fin n → ℝ) :
    δ * ∑ j, |x j| ≤ ∑ i, |∑ j, A i j * x j| := by
  have e1 : ∀ i, 2 * (|A i i| * |x i|) - ∑ j, |A i j| * |x j| ≤ |∑ j, A i j * x j| := fun i => by
    rw [← add_sum_erase _ (fun j => |A i j| * |x j|) (mem_univ i), ← add_sum_erase _ (fun j => A i j * x j) (mem_univ i)]
    have a1 : |∑ j ∈ univ.erase i, A i j * x j| ≤ ∑ j ∈ univ.erase i, |A i j| * |x j| :=
      (abs_sum_le_sum_abs _ _).trans (le_of_eq (sum_congr rfl fun j _ => abs_mul _ _))
    have a2 := abs_sub_abs_le_abs_sub (A i i * x i) (-∑ j ∈ univ.erase i, A i j * x j)
    rw [abs_neg, sub_neg_eq_add, abs_mul] at a2
    linarith
  refine le_trans ?_ (sum_le_sum fun i _ => e1 i)
  rw [sum_sub_distrib, sum_comm, ← sum_sub_distrib, mul_sum]
  refine sum_le_sum fun j _ => ?_
  rw [← sum_mul]
  have := mul_le_mul_of_nonneg_right (h j) (abs_nonneg (x j))
  linarith

/-- The inverse of the computed `U`. -/
theorem dom_inverse (hn : 0 < n) {A : Matrix (Fin n) (Fin n) F64} {M δ : ℝ} (hA : DominantBy A M δ) {G : Nat → Nat → F64} (hf : DomFactored A M G) :
    ∃ V : Matrix (Fin n) (Fin n) ℝ, V * LU.upper n n (fun i c => (G i c).toReal) = 1 ∧ (∀ c r : Fin n, r < c → V c r = 0) ∧
      ∀ c, ∑ r, |V c r| ≤ 4 * n * (1 / δ) := by
  have hδ := hA.pos
  have hM0 : 0 < M := lt_of_lt_of_le tiny_pos hA.lower
  have hn1 : (1 : ℝ) ≤ n := by exact_mod_cast hn
  obtain ⟨U, hU⟩ : ∃ U, U = LU.upper n n (fun i c => (G i c).toReal) := ⟨_, rfl⟩
  obtain ⟨L, hL⟩ : ∃ L, L = LU.lower n n (fun i c => (G i c).toReal) := ⟨_, rfl⟩
  rw [← hU]
  -- the columns of `L`
  have hLcol : ∀ k, ∑ i, |L i k| ≤ 2 := fun k => by
    have e : ∑ i, |L i k| = ∑ i ∈ range n, ((if k.1 < i then |(G i k).toReal| else 0) + if k.1 = i then 1 else 0) := by
      rw [← Fin.sum_univ_eq_sum_range (fun i => (if k.1 < i then |(G i k).toReal| else 0) + if k.1 = i then 1 else 0)]
      refine sum_congr rfl fun i _ => ?_
      rw [hL]
      simp only [LU.lower, Matrix.of_apply]
      by_cases h1 : k.1 < i.1
      · rw [if_pos h1, if_pos h1, if_neg (by omega), add_zero]
      · by_cases h2 : k.1 = i.1
        · rw [if_neg h1, if_neg h1, if_pos h2, if_pos (by omega)]; simp
        · rw [if_neg h1, if_neg h1, if_neg h2, if_neg (by omega)]; simp
    rw [e, sum_add_distrib, sum_ite_eq, if_pos (mem_range.2 k.2)]
    have e1 : ∑ i ∈ range n, (if k.1 < i then |(G i k).toReal| else 0) = ∑ i ∈ Ico (k.1 + 1) n, |(G i k).toReal| := by
      rw [← sum_filter]
      refine sum_congr ?_ fun _ _ => rfl
      ext i
      simp only [mem_Ico, mem_filter, mem_range]
      omega
    rw [e1]
    have := hf.lcol k k.2
    linarith
  have key : ∀ x : Fin n → ℝ, ∑ j, |x j| ≤ 4 * (1 / δ) * ∑ r, |U.mulVec x r| := by
    intro x
    have h1 := dom_norm (A := A.map F64.toReal) (δ := δ) (fun j => hA.gap' j) x
    simp only [Matrix.map_apply] at h1
    obtain ⟨e, he⟩ : ∃ e : ℝ, e = 3 * n * (n + 1) / 2 ^ 52 * M := ⟨_, rfl⟩
    have h2 : ∀ i, |∑ j, (A i j).toReal * x j| ≤ |∑ k, L i k * U.mulVec x k| + e * ∑ j, |x j| := fun i => by
      have e1 : ∑ k, L i k * U.mulVec x k = ∑ j, (∑ k, L i k * U k j) * x j := by
        simp only [Matrix.mulVec, dotProduct, mul_sum, sum_mul]
        rw [sum_comm]
        exact sum_congr rfl fun j _ => sum_congr rfl fun k _ => by ring
      have e2 : ∑ j, (A i j).toReal * x j = (∑ k, L i k * U.mulVec x k) + ∑ j, ((A i j).toReal - ∑ k, L i k * U k j) * x j := by
        rw [e1, ← sum_add_distrib]
        exact sum_congr rfl fun j _ => by ring
      rw [e2]
      refine (abs_add_le _ _).trans (add_le_add le_rfl ((abs_sum_le_sum_abs _ _).trans ?_))
      rw [mul_sum]
      refine sum_le_sum fun j _ => ?_
      rw [abs_mul]
      refine mul_le_mul_of_nonneg_right ?_ (abs_nonneg _)
      rw [he, hL, hU]
      exact hf.err i j
    have h3 : ∑ i, |∑ k, L i k * U.mulVec x k| ≤ 2 * ∑ k, |U.mulVec x k| := by
      calc _ ≤ ∑ i, ∑ k, |L i k| * |U.mulVec x k| := sum_le_sum fun i _ =>
            (abs_sum_le_sum_abs _ _).trans (le_of_eq (sum_congr rfl fun j _ => abs_mul _ _))
        _ = ∑ k, (∑ i, |L i k|) * |U.mulVec x k| := by rw [sum_comm]; exact sum_congr rfl fun k _ => by rw [sum_mul]
        _ ≤ ∑ k, 2 * |U.mulVec x k| := sum_le_sum fun k _ => mul_le_mul_of_nonneg_right (hLcol k) (abs_nonneg _)
        _ = _ := by rw [mul_sum]
    have h4 : ∑ i, |∑ j, (A i j).toReal * x j| ≤ 2 * (∑ k, |U.mulVec x k|) + n * (e * ∑ j, |x j|) := by
      calc _ ≤ ∑ i, (|∑ k, L i k * U.mulVec x k| + e * ∑ j, |x j|) := sum_le_sum fun i _ => h2 i
        _ = (∑ i, |∑ k, L i k * U.mulVec x k|) + n * (e * ∑ j, |x j|) := by rw [sum_add_distrib]; simp
        _ ≤ _ := add_le_add h3 le_rfl
    have h5 : n * e ≤ δ / 2 := by
      have c1 : n * e = 3 * (n ^ 3 * M + n ^ 2 * M) / 2 ^ 52 := by rw [he]; ring
      have c2 : (n : ℝ) ^ 2 * M ≤ n ^ 3 * M := mul_le_mul_of_nonneg_right (pow_le_pow_right₀ hn1 (by norm_num)) hM0.le
      have c3 := hA.cond
      rw [c1]
      norm_num at c3 ⊢
      linarith
    have hx0 : 0 ≤ ∑ j, |x j| := sum_nonneg fun _ _ => abs_nonneg _
    have h6 := mul_le_mul_of_nonneg_right h5 hx0
    have h7 : δ / 2 * ∑ j, |x j| ≤ 2 * ∑ k, |U.mulVec x k| := by
      have : n * (e * ∑ j, |x j|) = n * e * ∑ j, |x j| := by ring
      linarith
    have : 4 * (1 / δ) * ∑ r, |U.mulVec x r| = (4 * ∑ r, |U.mulVec x r|) / δ := by ring
    rw [this, le_div_iff₀ hδ]
    linarith
  have hunit : IsUnit U := by
    refine Matrix.mulVec_injective_iff_isUnit.mp fun x y hxy => ?_
    have h0 : U.mulVec (x - y) = 0 := by rw [Matrix.mulVec_sub, hxy, sub_self]
    have h1 := key (x - y)
    rw [h0] at h1
    simp only [Pi.zero_apply, abs_zero, sum_const_zero, mul_zero] at h1
    funext c
    have h2 : |(x - y) c| ≤ 0 := (single_le_sum (f := fun c => |(x - y) c|) (fun i _ => abs_nonneg _) (mem_univ c)).trans h1
    exact sub_eq_zero.mp (abs_nonpos_iff.mp h2)
  have hdet := (Matrix.isUnit_iff_isUnit_det _).1 hunit
  refine ⟨U⁻¹, Matrix.nonsing_inv_mul _ hdet, ?_, fun c => ?_⟩
  · haveI := hunit.invertible
    have hb : U.BlockTriangular id := fun i j hij => by
      have : j.1 < i.1 := hij
      rw [hU]
      simp only [LU.upper, Matrix.of_apply]; rw [if_neg (by omega)]
    intro c r hrc
    exact Matrix.blockTriangular_inv_of_blockTriangular hb hrc
  · have hent : ∀ r, |U⁻¹ c r| ≤ 4 * (1 / δ) := fun r => by
      have h1 := key (U⁻¹.mulVec (Pi.single r 1))
      rw [Matrix.mulVec_mulVec, Matrix.mul_nonsing_inv _ hdet, Matrix.one_mulVec] at h1
      have h2 : ∑ i, |(Pi.single r (1 : ℝ) : Fin n → ℝ) i| = 1 := by
        rw [sum_eq_single r]
        · simp
        · intro b _ hb; simp [hb]
        · simp
      rw [h2, mul_one] at h1
      have h3 : |(U⁻¹.mulVec (Pi.single r 1)) c| ≤ _ := (single_le_sum (f := fun c => |(U⁻¹.mulVec (Pi.single r 1)) c|) (fun i _ => abs_nonneg _) (mem_univ c)).trans h1
      simpa using h3
    calc _ ≤ ∑ _r : Fin n, 4 * (1 / δ) := sum_le_sum fun r _ => hent r
      _ = _ := by rw [sum_const, card_univ, Fintype.card_fin, nsmul_eq_mul]; ring

/-- C117: a column dominant system of doubles is solved: `solve` answers, nothing overflows, the residual is small, and so is the error,
measured by the sum of the absolute values. -/
theorem C117_solve (hn : 0 < n) (hp : 0 < p) (A : Matrix (Fin n) (Fin n) F64) (B : Matrix (Fin n) (Fin p) F64) (M δ β : ℝ) (hA : DominantBy A M δ)
    (hB : ∀ i j, (B i j).isFin ∧ |(B i j).toReal| ≤ β) (hβ : β ≤ 2 ^ 700) (hδβ : β ≤ 2 ^ 700 * δ) :
    ∃ (X : Matrix (Fin n) (Fin p) F64) (Y : Matrix (Fin n) (Fin p) ℝ), (ofM A).solve (ofM B) = .ok (some (ofM X)) ∧ (∀ i j, (X i j).isFin) ∧
      (∀ i j, |(B i j).toReal - ∑ c, (A i c).toReal * (X c j).toReal| ≤
        3 * n * (3 * n + 1) / 2 ^ 52 * M * (∑ c, |(X c j).toReal|) + tiny * (1 + M)) ∧
      A.map F64.toReal * Y = B.map F64.toReal ∧
      ∀ j, ∑ i, |(X i j).toReal - Y i j| ≤ 2 * n * (3 * n * (3 * n + 1) / 2 ^ 52 * M * (∑ c, |Y c j|) + tiny * (1 + M)) / δ := by
  obtain ⟨G, hf⟩ := dom_factored hn hA
  obtain ⟨hn16, -⟩ := hA.small hn
  have hδ := hA.pos
  have hM0 : 0 < M := lt_of_lt_of_le tiny_pos hA.lower
  have hn1 : (1 : ℝ) ≤ n := by exact_mod_cast hn
  obtain ⟨V, hV, hVt, hW⟩ := dom_inverse hn hA hf
  have hKβ : 1 / δ * β ≤ 2 ^ 700 := by rw [one_div, ← div_eq_inv_mul, div_le_iff₀ hδ]; exact hδβ
  obtain ⟨X, h1, h2⟩ := few_core hn hp (by omega) (M := M) (K := 1 / δ) (G := G) (σ := 1) (V := V) (by simpa using hf.new) hf.fin
    (fun c hc => (hf.lcol c hc).trans (by norm_num)) (fun i c => (hf.upM hA i c).trans (by linarith)) hV hVt hW hA.lower hA.upper (by positivity) (by
      rw [one_div, ← div_eq_inv_mul, ← mul_div_assoc, div_le_iff₀ hδ]; exact hA.cond) hB omega_700.1 omega_700.2 hβ hKβ
  have h3 := fun i j => dom_resid hn hp hA h1 h2 i j
  obtain ⟨R, hR⟩ : ∃ R, R = A.map F64.toReal := ⟨_, rfl⟩
  have hnorm : ∀ x : Fin n → ℝ, δ * ∑ j, |x j| ≤ ∑ i, |∑ j, (A i j).toReal * x j| := fun x =>
    dom_norm (A := A.map F64.toReal) (δ := δ) (fun j => hA.gap' j) x
  have hunit : IsUnit R := by
    refine Matrix.mulVec_injective_iff_isUnit.mp fun x y hxy => ?_
    have h0 : R.mulVec (x - y) = 0 := by rw [Matrix.mulVec_sub, hxy, sub_self]
    have h1 := hnorm (x - y)
    have e0 : ∀ i, ∑ j, (A i j).toReal * (x - y) j = 0 := fun i => by
      have := congrFun h0 i
      rw [hR] at this
      exact this
    simp only [e0, abs_zero, sum_const_zero] at h1
    have h2 : ∑ j, |(x - y) j| ≤ 0 := by
      by_contra hlt
      have := mul_pos hδ (not_le.1 hlt)
      linarith
    funext c
    have h2 : |(x - y) c| ≤ 0 := (single_le_sum (f := fun c => |(x - y) c|) (fun i _ => abs_nonneg _) (mem_univ c)).trans h2
    exact sub_eq_zero.mp (abs_nonpos_iff.mp h2)
  have hdet := (Matrix.isUnit_iff_isUnit_det _).1 hunit
  have hY : R * (R⁻¹ * B.map F64.toReal) = B.map F64.toReal := by rw [← Matrix.mul_assoc, Matrix.mul_nonsing_inv _ hdet, Matrix.one_mul]
  obtain ⟨Y, hYd⟩ : ∃ Y, Y = R⁻¹ * B.map F64.toReal := ⟨_, rfl⟩
  rw [← hYd, hR] at hY
  refine ⟨X, Y, h1, h2, h3, hY, fun j => ?_⟩
  obtain ⟨ρ, hρ⟩ : ∃ ρ : ℝ, ρ = 3 * n * (3 * n + 1) / 2 ^ 52 * M := ⟨_, rfl⟩
  obtain ⟨t, ht⟩ : ∃ t : ℝ, t = tiny * (1 + M) := ⟨_, rfl⟩
  rw [← hρ, ← ht] at h3 ⊢
  obtain ⟨d, hd⟩ : ∃ d, d = ∑ i, |(X i j).toReal - Y i j| := ⟨_, rfl⟩
  obtain ⟨y, hy⟩ : ∃ y, y = ∑ i, |Y i j| := ⟨_, rfl⟩
  have hρ0 : 0 ≤ ρ := by rw [hρ]; positivity
  have a1 := hnorm fun i => (X i j).toReal - Y i j
  have a2 : ∀ i, |∑ c, (A i c).toReal * ((X c j).toReal - Y c j)| ≤ ρ * (y + d) + t := fun i => by
    have e1 : ∑ c, (A i c).toReal * ((X c j).toReal - Y c j) = -((B i j).toReal - ∑ c, (A i c).toReal * (X c j).toReal) := by
      have : (B i j).toReal = ∑ c, (A i c).toReal * Y c j := by
        have := congrFun (congrFun hY i) j
        rw [Matrix.mul_apply] at this
        simpa using this.symm
      rw [this, neg_sub, ← sum_sub_distrib]
      exact sum_congr rfl fun c _ => by ring
    rw [e1, abs_neg]
    refine (h3 i j).trans (add_le_add (mul_le_mul_of_nonneg_left ?_ hρ0) le_rfl)
    rw [hy, hd, ← sum_add_distrib]
    refine sum_le_sum fun c _ => ?_
    have := abs_sub_abs_le_abs_sub (X c j).toReal (Y c j)
    linarith
  have a3 : ∑ i, |∑ c, (A i c).toReal * ((X c j).toReal - Y c j)| ≤ n * (ρ * (y + d) + t) := by
    calc _ ≤ ∑ _i : Fin n, (ρ * (y + d) + t) := sum_le_sum fun i _ => a2 i
      _ = _ := by rw [sum_const, card_univ, Fintype.card_fin, nsmul_eq_mul]
  have a4 : n * ρ ≤ δ / 2 := by
    have c1 : n * ρ = (9 * (n ^ 3 * M) + 3 * (n ^ 2 * M)) / 2 ^ 52 := by rw [hρ]; ring
    have c2 : (n : ℝ) ^ 2 * M ≤ n ^ 3 * M := mul_le_mul_of_nonneg_right (pow_le_pow_right₀ hn1 (by norm_num)) hM0.le
    have c3 := hA.cond
    rw [c1]
    norm_num at c3 ⊢
    linarith
  have hd0 : 0 ≤ d := by rw [hd]; exact sum_nonneg fun _ _ => abs_nonneg _
  have a5 := mul_le_mul_of_nonneg_right a4 hd0
  rw [← hd] at a1 ⊢
  rw [← hy]
  have a6 : n * (ρ * (y + d) + t) = n * (ρ * y + t) + n * ρ * d := by ring
  rw [le_div_iff₀ hδ]
  have := a1.trans a3
  rw [a6] at this
  linarith

/-- C117: the inverse of a column dominant matrix of doubles. -/
theorem C117_inverse (hn : 0 < n) (A : Matrix (Fin n) (Fin n) F64) (M δ : ℝ) (hA : DominantBy A M δ) (hδ1 : 1 ≤ 2 ^ 700 * δ) :
    ∃ (X : Matrix (Fin n) (Fin n) F64) (Z : Matrix (Fin n) (Fin n) ℝ), (ofM A).inverse = .ok (some (ofM X)) ∧ (∀ i j, (X i j).isFin) ∧
      A.map F64.toReal * Z = 1 ∧
      ∀ j, ∑ i, |(X i j).toReal - Z i j| ≤ 2 * n * (3 * n * (3 * n + 1) / 2 ^ 52 * M * (∑ c, |Z c j|) + tiny * (1 + M)) / δ := by
  have hinv : (ofM A).inverse = (ofM A).solve (ofM (1 : Matrix (Fin n) (Fin n) F64)) := by
    unfold Mat.inverse Mat.solve
    simp only [ofM_cols A hn, ofM_rows, ok_bind, beq_self_eq_true, assert_true, C05_id_square]
  have e : ∀ i j, (((1 : Matrix (Fin n) (Fin n) F64) i j).isFin) ∧ ((1 : Matrix (Fin n) (Fin n) F64) i j).toReal = (1 : Matrix (Fin n) (Fin n) ℝ) i j := by
    intro i j
    by_cases h : i = j
    · subst h; rw [Matrix.one_apply_eq, Matrix.one_apply_eq]; exact Fp.one (α := F64)
    · rw [Matrix.one_apply_ne h, Matrix.one_apply_ne h]; exact Fp.zero (α := F64)
  have e2 : (1 : Matrix (Fin n) (Fin n) F64).map F64.toReal = 1 := by ext i j; exact (e i j).2
  have h700 : (1 : ℝ) ≤ 2 ^ 700 := one_le_pow₀ (by norm_num)
  obtain ⟨X, Z, h1, h2, -, h4, h5⟩ := C117_solve hn hn A 1 M δ 1 hA (fun i j => ⟨(e i j).1, by
    rw [(e i j).2]
    by_cases h : i = j
    · subst h; rw [Matrix.one_apply_eq, abs_one]
    · rw [Matrix.one_apply_ne h, abs_zero]; exact zero_le_one⟩) h700 hδ1
  exact ⟨X, Z, hinv.trans h1, h2, by rwa [e2] at h4, h5⟩

set_option maxHeartbeats 2000000 in
/-- C117: the determinant of a column dominant matrix of doubles: the relative error is small (up to underflow). -/
theorem C117_det (hn : 0 < n) (A : Matrix (Fin n) (Fin n) F64) (M δ : ℝ) (hA : DominantBy A M δ) (hc : n ^ 4 * M ≤ 2 ^ 46 * δ)
    (hd : (1 + 4 * M) ^ n ≤ 2 ^ 1000) :
    ∃ d : F64, (ofM A).det = .ok d ∧ d.isFin ∧
      |d.toReal - (A.map F64.toReal).det| ≤ n * (3 * n ^ 2 * (n + 1) * (M / δ) + 1) / 2 ^ 51 * |(A.map F64.toReal).det| +
        tiny * (1 + 4 * M) ^ n := by
  obtain ⟨G, hf⟩ := dom_factored hn hA
  obtain ⟨hn16, -⟩ := hA.small hn
  have ht := tiny_pos
  have hδ := hA.pos
  have hM0 : 0 < M := lt_of_lt_of_le ht hA.lower
  have hn1 : (1 : ℝ) ≤ n := by exact_mod_cast hn
  have hnr : (n : ℝ) ≤ 65536 := by exact_mod_cast hn16
  have hK0 : 0 ≤ M / δ := by positivity
  have hc4 : (n : ℝ) ^ 4 * (M / δ) ≤ 2 ^ 46 := by
    rw [← mul_div_assoc, div_le_iff₀ hδ]; exact hc
  have hc3 : (n : ℝ) ^ 3 * (M / δ) ≤ 2 ^ 46 := (mul_le_mul_of_nonneg_right (pow_le_pow_right₀ hn1 (by norm_num)) hK0).trans hc4
  have hu : u F64 = 1 / 2 ^ 53 := rfl
  have hη0 := η_nonneg (α := F64)
  obtain ⟨x, σ', L, U, d, h1, h2, h3, h4, h5, h6⟩ := C74_det hn A
  rw [hf.new] at h1
  obtain rfl := Except.ok.inj h1
  obtain rfl : σ' = 1 := by
    have h2 := List.ofFn_injective h2
    exact Equiv.ext fun i => Fin.ext (congrFun h2 i).symm
  have hL' := LU.Rnd.getL_ok G hn hn true (List.ofFn fun i : Fin n => i.1)
  have hU' := LU.Rnd.getU_ok G hn hn true (List.ofFn fun i : Fin n => i.1)
  rw [Nat.min_self] at hL' hU'
  obtain rfl : L = LU.Rnd.lowerA n n G := ofM_inj (Except.ok.inj (h3.symm.trans hL'))
  obtain rfl : U = LU.Rnd.upperA n n G := ofM_inj (Except.ok.inj (h4.symm.trans hU'))
  have hUM : ∀ i, i < n → |(G i i).toReal| ≤ 2 * M := fun i hi =>
    (hf.up i ⟨i, hi⟩ le_rfl).trans (by have := (hA.entry ⟨i, hi⟩ ⟨i, hi⟩).2; linarith)
  have hdf : d.isFin := by
    have e := det_facc hn hf.new
    rw [e] at h5
    obtain rfl := Except.ok.inj h5
    refine (fprod_fin _ ?_ (fun j => G j j) (b := 2 * M) (by positivity) n (fun i hi => ⟨hf.fin i i hi hi, hUM i hi⟩) ?_).1
    · split
      · have := Fp.one (α := F64)
        exact ⟨this.1, by have e : ((1 : F64)).toReal = 1 := this.2; rw [e, abs_one]⟩
      · have := Fp.neg (1 : F64) (Fp.one (α := F64)).1
        have e1 : ((1 : F64)).toReal = 1 := (Fp.one (α := F64)).2
        exact ⟨this.1, by have e : ((-1 : F64)).toReal = -((1 : F64)).toReal := this.2; rw [e, e1, abs_neg, abs_one]⟩
    · rw [show 2 * (2 * M) = 4 * M by ring]; exact hd
  refine ⟨d, h5, hdf, ?_⟩
  obtain ⟨E, hE, hdet⟩ := h6 (fun i k => by
      simp only [LU.Rnd.lowerA, Matrix.of_apply]
      split
      · exact hf.fin i k i.2 k.2
      · split
        · exact Fp.one.1
        · exact Fp.zero.1) (fun k c => by
      simp only [LU.Rnd.upperA, Matrix.of_apply]
      split
      · exact hf.fin k c k.2 c.2
      · exact Fp.zero.1) hdf
  simp only [fun i k => (LU.Rnd.val_lowerA n n G i k).1, fun i k => (LU.Rnd.val_upperA n n G i k).1] at hE
  have hE' : ∀ i c, |E i c| ≤ 3 * n * (n + 1) / 2 ^ 52 * M := fun i c =>
    (hE i c).trans (dom_small hn16 hn hA.lower (dom_lower_le hf.low) (hf.upM hA) i c)
  -- the inverse, by columns
  have hnorm : ∀ x : Fin n → ℝ, δ * ∑ j, |x j| ≤ ∑ i, |∑ j, (A i j).toReal * x j| := fun x =>
    dom_norm (A := A.map F64.toReal) (δ := δ) (fun j => hA.gap' j) x
  obtain ⟨R, hR⟩ : ∃ R, R = A.map F64.toReal := ⟨_, rfl⟩
  have hRv : A.map Fp.val = R := hR.symm
  rw [hRv] at hdet
  rw [← hR]
  have hunit : IsUnit R := by
    refine Matrix.mulVec_injective_iff_isUnit.mp fun x y hxy => ?_
    have h0 : R.mulVec (x - y) = 0 := by rw [Matrix.mulVec_sub, hxy, sub_self]
    have h1 := hnorm (x - y)
    have e0 : ∀ i, ∑ j, (A i j).toReal * (x - y) j = 0 := fun i => by
      have := congrFun h0 i
      rw [hR] at this
      exact this
    simp only [e0, abs_zero, sum_const_zero] at h1
    have h2 : ∑ j, |(x - y) j| ≤ 0 := by
      by_contra hlt
      have := mul_pos hδ (not_le.1 hlt)
      linarith
    funext c
    have h2 : |(x - y) c| ≤ 0 := (single_le_sum (f := fun c => |(x - y) c|) (fun i _ => abs_nonneg _) (mem_univ c)).trans h2
    exact sub_eq_zero.mp (abs_nonpos_iff.mp h2)
  have hRdet := (Matrix.isUnit_iff_isUnit_det _).1 hunit
  have hcolZ : ∀ r, ∑ c, |R⁻¹ c r| ≤ 1 / δ := fun r => by
    have b1 := hnorm fun c => R⁻¹ c r
    have b2 : ∑ i, |∑ j, (A i j).toReal * R⁻¹ j r| = 1 := by
      have b3 : ∀ i, ∑ j, (A i j).toReal * R⁻¹ j r = (1 : Matrix (Fin n) (Fin n) ℝ) i r := fun i => by
        rw [← Matrix.mul_nonsing_inv _ hRdet, Matrix.mul_apply]
        exact sum_congr rfl fun j _ => by rw [hR]; rfl
      simp only [b3]
      rw [sum_eq_single r]
      · simp
      · intro b _ hb; simp [hb]
      · simp
    rw [b2] at b1
    rw [le_div_iff₀ hδ, mul_comm]; exact b1
  have hnear := det_near (A := R.transpose) (E := E.transpose) (Z := R⁻¹.transpose) (K := 1 / δ) (ε := 3 * n * (n + 1) / 2 ^ 52 * M)
    (by rw [← Matrix.transpose_mul, Matrix.mul_nonsing_inv _ hRdet, Matrix.transpose_one])
    (fun i => by simpa only [Matrix.transpose_apply] using hcolZ i) (fun i j => hE' j i)
  rw [← Matrix.transpose_add, Matrix.det_transpose, Matrix.det_transpose] at hnear
  obtain ⟨a, ha⟩ : ∃ a, a = R.det := ⟨_, rfl⟩
  obtain ⟨a', ha'⟩ : ∃ a', a' = (R + E).det := ⟨_, rfl⟩
  rw [← ha, ← ha'] at hnear
  rw [← ha]
  rw [← ha'] at hdet
  -- the perturbation
  obtain ⟨t, htd⟩ : ∃ t : ℝ, t = n * (1 / δ * (3 * n * (n + 1) / 2 ^ 52 * M)) := ⟨_, rfl⟩
  rw [← htd] at hnear
  have hnt : n * t = n * (3 * n ^ 2 * (n + 1) * (M / δ)) / 2 ^ 52 := by rw [htd]; ring
  have hnt2 : n * (3 * n ^ 2 * (n + 1) * (M / δ)) ≤ 2 ^ 50 := by
    have e : n * (3 * n ^ 2 * (n + 1) * (M / δ)) = 3 * (n ^ 4 * (M / δ)) + 3 * (n ^ 3 * (M / δ)) := by ring
    rw [e]
    norm_num at hc4 hc3 ⊢
    linarith
  have ht0 : 0 ≤ t := by rw [htd]; positivity
  have hlin := pow_le_linear ht0 (show n * t ≤ 1 by rw [hnt]; norm_num at hnt2 ⊢; linarith)
  have hnear2 : |a' - a| ≤ n * (3 * n ^ 2 * (n + 1) * (M / δ)) / 2 ^ 51 * |a| := by
    refine hnear.trans (mul_le_mul_of_nonneg_right ?_ (abs_nonneg _))
    rw [hnt] at hlin
    norm_num at hlin ⊢
    linarith
  have ha2 : |a'| ≤ 3 / 2 * |a| := by
    have e1 := abs_sub_abs_le_abs_sub a' a
    have e2 : n * (3 * n ^ 2 * (n + 1) * (M / δ)) / 2 ^ 51 * |a| ≤ 1 / 2 * |a| :=
      mul_le_mul_of_nonneg_right (by norm_num at hnt2 ⊢; linarith) (abs_nonneg _)
    linarith
  have hγ := gamma_f64 (k := n) (by omega)
  have hround : γ F64 n * |a'| ≤ n / 2 ^ 51 * |a| := by
    calc _ ≤ n / 2 ^ 52 * (3 / 2 * |a|) := mul_le_mul hγ ha2 (abs_nonneg _) (by positivity)
      _ ≤ _ := by
        have : 0 ≤ n * |a| := by positivity
        norm_num
        linarith
  -- underflow
  have hunder : η F64 * ∑ j : Fin n, ∏ i ∈ univ.filter (fun i => j < i), (1 + u F64) * |val (LU.Rnd.upperA n n G i i)| ≤
      tiny * (1 + 4 * M) ^ n := by
    have e1 : ∀ j : Fin n, ∏ i ∈ univ.filter (fun i => j < i), (1 + u F64) * |val (LU.Rnd.upperA n n G i i)| ≤ (1 + 4 * M) ^ n := by
      intro j
      have e0 : 0 ≤ u F64 := by rw [hu]; positivity
      calc _ ≤ ∏ _i ∈ univ.filter (fun i : Fin n => j < i), (1 + 4 * M) := by
            refine prod_le_prod (fun i _ => mul_nonneg (by linarith) (abs_nonneg _)) fun i _ => ?_
            have b1 := hUM i i.2
            have b2 : |val (LU.Rnd.upperA n n G i i)| = |(G i i).toReal| := by rw [show LU.Rnd.upperA n n G i i = G i i by simp [LU.Rnd.upperA]]; rfl
            rw [b2]
            have b3 : (1 + u F64) * |(G i i).toReal| ≤ 2 * (2 * M) := mul_le_mul (by rw [hu]; norm_num) b1 (abs_nonneg _) (by norm_num)
            linarith
        _ = (1 + 4 * M) ^ (univ.filter (fun i : Fin n => j < i)).card := by rw [prod_const]
        _ ≤ _ := pow_le_pow_right₀ (by linarith) ((card_le_univ _).trans (by simp))
    calc _ ≤ η F64 * ∑ _j : Fin n, (1 + 4 * M) ^ n := mul_le_mul_of_nonneg_left (sum_le_sum fun j _ => e1 j) hη0
      _ = (n * η F64) * (1 + 4 * M) ^ n := by simp; ring
      _ ≤ _ := by
        refine mul_le_mul_of_nonneg_right ?_ (by positivity)
        rw [eta_tiny]
        have := mul_le_mul_of_nonneg_right hnr (show 0 ≤ tiny * (1 / 2 ^ 175) by positivity)
        norm_num at this ⊢
        linarith
  have e : n * (3 * n ^ 2 * (n + 1) * (M / δ) + 1) / 2 ^ 51 * |a| = n * (3 * n ^ 2 * (n + 1) * (M / δ)) / 2 ^ 51 * |a| + n / 2 ^ 51 * |a| := by ring
  rw [e]
  have hdet' : |d.toReal - a'| ≤ γ F64 n * |a'| + η F64 * ∑ j : Fin n, ∏ i ∈ univ.filter (fun i => j < i), (1 + u F64) * |val (LU.Rnd.upperA n n G i i)| := hdet
  have tri : |d.toReal - a| ≤ |d.toReal - a'| + |a' - a| := by
    have := abs_add_le (d.toReal - a') (a' - a)
    rwa [show d.toReal - a' + (a' - a) = d.toReal - a by ring] at this
  linarith

/-! ## Examples -/

/-- The hypotheses hold for the spline matrix, with up to 32768 rows (and those of `C117_det` with up to 200). -/
example (hn : n ≤ 32768) : DominantBy (spline n) 4 2 := by
  obtain ⟨h1, h2, h3, h4⟩ := spline_meets (n := n) hn
  have hs : ∀ i j, spline n i j = spline n j i := fun i j => by
    simp only [spline, Matrix.of_apply]
    by_cases e : i = j
    · rw [if_pos e, if_pos e.symm]
    · rw [if_neg e, if_neg (Ne.symm e)]
      exact if_congr or_comm rfl rfl
  refine ⟨h1.entry, h4, ?_, by norm_num, fun j => ?_, h3⟩
  · calc (4 : ℝ) = 2 ^ 2 := by norm_num
      _ ≤ 2 ^ 800 := pow_le_pow_right₀ (by norm_num) (by norm_num)
  · have := h2 j
    simp only [hs j] at this
    exact this

example (hn2 : n ≤ 200) : (n : ℝ) ^ 4 * 4 ≤ 2 ^ 46 * 2 ∧ ((1 : ℝ) + 4 * 4) ^ n ≤ 2 ^ 1000 := by
  have : (n : ℝ) ≤ 200 := by exact_mod_cast hn2
  have := pow_le_pow_left₀ (Nat.cast_nonneg n) this 4
  refine ⟨by norm_num at this ⊢; linarith, ?_⟩
  calc ((1 : ℝ) + 4 * 4) ^ n ≤ (2 ^ 5) ^ n := pow_le_pow_left₀ (by norm_num) (by norm_num) n
    _ = 2 ^ (5 * n) := (pow_mul _ _ _).symm
    _ ≤ 2 ^ 1000 := pow_le_pow_right₀ (by norm_num) (by omega)

end LA.Props
