import Verif.Proofs.RndSolve2
import Verif.Proofs.RndChol3
import Verif.RatFp
import Verif.Props.Elementwise

/-! # C61–C64: rounding errors

`Fp α` (Verif/Rounding.lean) is the standard model of floating-point arithmetic; `γ k = (1+u)^k - 1` is the error of `k` roundings,
`θ k = k*(1+u)^k*η` that of `k` underflows.  Bounds hold whenever the results are finite. -/

namespace LA.Props
open LA Finset Fp
set_option linter.unusedSectionVars false

variable {α : Type} [Zero α] [One α] [Add α] [Sub α] [Neg α] [Mul α] [FloatOps α] [Fp α] {m n p : Nat}

/-- C61: error of `a * b`, entry by entry: at most `((1+u)^(p+1) - 1) * (|A| |B|) i j` plus the underflow term. -/
theorem C61_mul (hm : 0 < m) (hp : 0 < p) (A : Matrix (Fin m) (Fin p) α) (B : Matrix (Fin p) (Fin n) α) :
    ∃ C : Matrix (Fin m) (Fin n) α, (ofM A).mul (ofM B) = .ok (ofM C) ∧
      ∀ i j, fin (C i j) →
        |val (C i j) - ∑ k, val (A i k) * val (B k j)| ≤ γ α (p + 1) * (∑ k, |val (A i k)| * |val (B k j)|) + θ α p := by
  refine ⟨_, C10_mul_general hm hp A B, fun i j hf => ?_⟩
  have e : (List.finRange p).foldl (fun s k => s + A i k * B k j) 0 =
      fdot (fun k => ext A i k) (fun k => ext B k j) p := by
    unfold fdot
    rw [← foldl_facc]
    simp
  simp only [Matrix.of_apply] at hf ⊢
  rw [e] at hf ⊢
  obtain ⟨-, h⟩ := fdot_err _ _ p hf
  have e1 : ∑ k ∈ range p, val (ext A i k) * val (ext B k j) = ∑ k, val (A i k) * val (B k j) := by
    rw [sum_range]; simp
  have e2 : ∑ k ∈ range p, |val (ext A i k) * val (ext B k j)| = ∑ k, |val (A i k)| * |val (B k j)| := by
    rw [sum_range]; simp [abs_mul]
  rwa [e1, e2] at h

/-- C61: an entry of the product does not overflow if the sum of the absolute values leaves room for the rounding errors. -/
theorem C61_mul_finite (hm : 0 < m) (hp : 0 < p) (A : Matrix (Fin m) (Fin p) α) (B : Matrix (Fin p) (Fin n) α)
    (hA : ∀ i k, fin (A i k)) (hB : ∀ k j, fin (B k j)) :
    ∃ C : Matrix (Fin m) (Fin n) α, (ofM A).mul (ofM B) = .ok (ofM C) ∧
      ∀ i j, (1 + u α) ^ (p + 1) * (∑ k, |val (A i k)| * |val (B k j)|) + θ α p ≤ Ω α → fin (C i j) := by
  refine ⟨_, C10_mul_general hm hp A B, fun i j hf => ?_⟩
  have e : (List.finRange p).foldl (fun s k => s + A i k * B k j) 0 =
      fdot (fun k => ext A i k) (fun k => ext B k j) p := by
    unfold fdot
    rw [← foldl_facc]
    simp
  simp only [Matrix.of_apply] at hf ⊢
  rw [e]
  refine fdot_fin _ _ _ (fun k hk => ?_) ?_
  · rw [ext_eq A i.2 hk, ext_eq B hk j.2]
    exact ⟨hA _ _, hB _ _⟩
  · have e2 : ∑ k ∈ range p, |val (ext A i k) * val (ext B k j)| = ∑ k, |val (A i k)| * |val (B k j)| := by
      rw [sum_range]; simp [abs_mul]
    rwa [e2]

/-- C61 for `f64`: the product of matrices with at most a million columns and finite entries of at most `2^500` is finite. -/
theorem C61_f64 (hm : 0 < m) (hp : 0 < p) (hp6 : p ≤ 1000000) (A : Matrix (Fin m) (Fin p) (Bin .f64)) (B : Matrix (Fin p) (Fin n) (Bin .f64))
    (hA : ∀ i k, fin (A i k) ∧ |val (A i k)| ≤ 2 ^ 500) (hB : ∀ k j, fin (B k j) ∧ |val (B k j)| ≤ 2 ^ 500) :
    ∃ C : Matrix (Fin m) (Fin n) (Bin .f64), (ofM A).mul (ofM B) = .ok (ofM C) ∧ (∀ i j, fin (C i j)) ∧
      ∀ i j, |val (C i j) - ∑ k, val (A i k) * val (B k j)| ≤
        γ (Bin .f64) (p + 1) * (∑ k, |val (A i k)| * |val (B k j)|) + θ (Bin .f64) p := by
  obtain ⟨C, h1, h2⟩ := C61_mul_finite hm hp A B (fun i k => (hA i k).1) (fun k j => (hB k j).1)
  obtain ⟨C', h1', h3⟩ := C61_mul hm hp A B
  have : ofM C' = ofM C := by rw [h1] at h1'; exact (Except.ok.inj h1').symm
  have hC : C' = C := ofM_inj this
  subst hC
  have hf : ∀ i j, fin (C' i j) := by
    intro i j
    refine h2 i j ?_
    have hs : (∑ k, |val (A i k)| * |val (B k j)|) ≤ p * (2 ^ 500 * 2 ^ 500) := by
      calc _ ≤ ∑ _k : Fin p, ((2 : ℝ) ^ 500 * 2 ^ 500) :=
            sum_le_sum fun k _ => mul_le_mul (hA i k).2 (hB k j).2 (abs_nonneg _) (by positivity)
        _ = _ := by rw [sum_const, card_univ, Fintype.card_fin, nsmul_eq_mul]
    have hpr : (p : ℝ) ≤ 1000000 := by exact_mod_cast hp6
    have h1 : (1 + u (Bin .f64)) ^ (p + 1) ≤ 2 := by
      refine (Bin.f64_pow (by norm_num; omega)).trans ?_
      rw [Bin.f64_u]; push_cast
      norm_num; linarith
    have h0 : (1 + u (Bin .f64)) ^ p ≤ 2 := (pow_le_pow_right₀ one_u (by omega)).trans h1
    have hθ : θ (Bin .f64) p ≤ 2000000 := by
      unfold θ
      have hη := Bin.f64_η_le
      have := η_nonneg (α := Bin .f64)
      have := u_nonneg (α := Bin .f64)
      calc _ ≤ (1000000 : ℝ) * 2 * (1 / 2 ^ 53) := by gcongr
        _ ≤ _ := by norm_num
    refine le_trans ?_ Bin.f64_Ω
    have hb : (2 : ℝ) ^ 1023 = 2 ^ 23 * (2 ^ 500 * 2 ^ 500) := by rw [← pow_add, ← pow_add]
    have hone : (1 : ℝ) ≤ 2 ^ 500 * 2 ^ 500 := by rw [← pow_add]; exact one_le_pow₀ (by norm_num)
    rw [hb]
    clear hb
    generalize (2 : ℝ) ^ 500 * 2 ^ 500 = T at *
    have hs0 : 0 ≤ ∑ k, |val (A i k)| * |val (B k j)| := sum_nonneg fun _ _ => by positivity
    calc (1 + u (Bin .f64)) ^ (p + 1) * (∑ k, |val (A i k)| * |val (B k j)|) + θ (Bin .f64) p
        ≤ 2 * (1000000 * T) + 2000000 := by
          refine add_le_add (mul_le_mul h1 (hs.trans ?_) hs0 (by norm_num)) hθ
          gcongr
      _ ≤ 2 ^ 23 * T := by norm_num; linarith
  exact ⟨C', h1', hf, fun i j => h3 i j (hf i j)⟩

/-- C62: the computed factors of `A` are the exact factors of a matrix close to `A` (rows permuted): the error is at most
`((1+u)^(r+1) - 1) * |L| |U|`, `r = min m n`, plus the underflow term; the multipliers are at most `1 + u + η`. -/
theorem C62_lu (hm : 0 < m) (hn : 0 < n) (A : Matrix (Fin m) (Fin n) α) :
    ∃ (x : LU α) (σ : Equiv.Perm (Fin m)) (L : Matrix (Fin m) (Fin (min m n)) α) (U : Matrix (Fin (min m n)) (Fin n) α),
      LU.new (ofM A) = .ok x ∧ x.getPiv = (List.ofFn fun i => (σ i).1) ∧ x.getL = .ok (ofM L) ∧ x.getU = .ok (ofM U) ∧
      (∀ i k, i.1 < k.1 → val (L i k) = 0) ∧ (∀ i k, i.1 = k.1 → val (L i k) = 1) ∧ (∀ k c, c.1 < k.1 → val (U k c) = 0) ∧
      ((∀ i k, fin (L i k)) → (∀ k c, fin (U k c)) →
        (∀ i c, |val (A (σ i) c) - ∑ k, val (L i k) * val (U k c)| ≤
          γ α (min m n + 1) * (∑ k, |val (L i k)| * |val (U k c)|) + θ α (min m n) + (1 + u α) * η α * ∑ k, |val (U k c)|) ∧
        ∀ i k, |val (L i k)| ≤ 1 + u α + η α) := by
  obtain ⟨G, σ, h1, h2⟩ := LU.Rnd.new_ofM hm hn A
  refine ⟨_, σ, _, _, h1, rfl, LU.Rnd.getL_ok G hm hn _ _, LU.Rnd.getU_ok G hm hn _ _, ?_, ?_, ?_, fun hL hU => ⟨fun i c => ?_, ?_⟩⟩
  · intro i k h
    simp only [LU.Rnd.lowerA, Matrix.of_apply]
    rw [if_neg (by omega), if_neg (by omega), Fp.zero.2]
  · intro i k h
    simp only [LU.Rnd.lowerA, Matrix.of_apply]
    rw [if_neg (by omega), if_pos h, Fp.one.2]
  · intro k c h
    simp only [LU.Rnd.upperA, Matrix.of_apply]
    rw [if_neg (by omega), Fp.zero.2]
  · have := LU.Rnd.factor_err h2 hL hU i c
    rwa [ext_fin] at this
  · intro i k
    have hu := u_nonneg (α := α)
    have hη := η_nonneg (α := α)
    by_cases h : k.1 < i.1
    · have := LU.Rnd.mult_err h2 (LU.Rnd.fin_G hL hU) i k (by omega) h
      simpa [LU.Rnd.lowerA, h] using this
    · simp only [LU.Rnd.lowerA, Matrix.of_apply]
      rw [if_neg h]
      split
      · rw [Fp.one.2, abs_one]; linarith
      · rw [Fp.zero.2, abs_zero]; linarith

/-- C62: no overflow: if the entries of `A` are finite and at most `M`, and `3^r * (M + underflow)` is in range, the factors are finite. -/
theorem C62_finite (hm : 0 < m) (hn : 0 < n) (A : Matrix (Fin m) (Fin n) α) (M : ℝ) (hA : ∀ i j, fin (A i j) ∧ |val (A i j)| ≤ M)
    (hu : (1 + u α) ^ (min m n + 2) * (1 + u α + η α) ≤ 2) (h1 : 1 + u α + η α ≤ Ω α)
    (hM : (1 + u α) * (M + θ α (min m n)) * 3 ^ min m n ≤ Ω α) :
    ∃ (x : LU α) (L : Matrix (Fin m) (Fin (min m n)) α) (U : Matrix (Fin (min m n)) (Fin n) α),
      LU.new (ofM A) = .ok x ∧ x.getL = .ok (ofM L) ∧ x.getU = .ok (ofM U) ∧ (∀ i k, fin (L i k)) ∧
      ∀ k c, fin (U k c) ∧ |val (U k c)| ≤ (1 + u α) * (M + θ α (min m n)) * 3 ^ k.1 := by
  obtain ⟨G, σ, h3, h4⟩ := LU.Rnd.new_ofM hm hn A
  have hG := LU.Rnd.no_overflow h4 (M := M) (fun i c hi hc => by rw [ext_eq A hi hc]; exact hA _ _) hu h1 hM
  refine ⟨_, _, _, h3, LU.Rnd.getL_ok G hm hn _ _, LU.Rnd.getU_ok G hm hn _ _, fun i k => ?_, fun k c => ?_⟩
  · simp only [LU.Rnd.lowerA, Matrix.of_apply]
    split
    · exact (hG k (by omega) i i.2).1
    · split
      · exact Fp.one.1
      · exact Fp.zero.1
  · have hk := k.2
    simp only [LU.Rnd.upperA, Matrix.of_apply]
    split
    · next h =>
      have := hG c c.2 k (by omega)
      rwa [if_neg (by omega)] at this
    · rw [Fp.zero.2, abs_zero]
      refine ⟨Fp.zero.1, ?_⟩
      have := (abs_nonneg _).trans (hA ⟨0, hm⟩ ⟨0, hn⟩).2
      have := θ_nonneg (α := α) (min m n)
      have := u_nonneg (α := α)
      positivity

/-- C62 for `f64`: matrices of rank at most 100 and finite entries of at most `2^800` have finite factors. -/
theorem C62_f64 (hm : 0 < m) (hn : 0 < n) (hr : min m n ≤ 100) (A : Matrix (Fin m) (Fin n) (Bin .f64))
    (hA : ∀ i j, fin (A i j) ∧ |val (A i j)| ≤ 2 ^ 800) :
    ∃ (x : LU (Bin .f64)) (L : Matrix (Fin m) (Fin (min m n)) (Bin .f64)) (U : Matrix (Fin (min m n)) (Fin n) (Bin .f64)),
      LU.new (ofM A) = .ok x ∧ x.getL = .ok (ofM L) ∧ x.getU = .ok (ofM U) ∧ (∀ i k, fin (L i k)) ∧ ∀ k c, fin (U k c) := by
  have hr' : ((min m n : Nat) : ℝ) ≤ 100 := by exact_mod_cast hr
  have hr'' : min (m : ℝ) n ≤ 100 := by rw [← Nat.cast_min]; exact hr'
  have hu0 := u_nonneg (α := Bin .f64)
  have hη := Bin.f64_η_le
  have hη0 := η_nonneg (α := Bin .f64)
  have h1 : (1 + u (Bin .f64)) ^ (min m n + 2) ≤ 3 / 2 := by
    refine (Bin.f64_pow (by norm_num; omega)).trans ?_
    rw [Bin.f64_u]; push_cast
    norm_num; linarith
  have h0 : (1 + u (Bin .f64)) ^ min m n ≤ 3 / 2 := (pow_le_pow_right₀ one_u (by omega)).trans h1
  have h2 : 1 + u (Bin .f64) + η (Bin .f64) ≤ 4 / 3 := by
    rw [Bin.f64_u]
    norm_num at hη ⊢; linarith
  have hΩ := Bin.f64_Ω
  have hθ : θ (Bin .f64) (min m n) ≤ 1 := by
    unfold θ
    calc _ ≤ (100 : ℝ) * (3 / 2) * (1 / 2 ^ 53) := by gcongr
      _ ≤ _ := by norm_num
  have h800 : (1 : ℝ) ≤ 2 ^ 800 := one_le_pow₀ (by norm_num)
  have c1 : (1 + u (Bin .f64)) ^ (min m n + 2) * (1 + u (Bin .f64) + η (Bin .f64)) ≤ 2 := by
    calc _ ≤ (3 / 2 : ℝ) * (4 / 3) := by gcongr
      _ = 2 := by norm_num
  have c2 : 1 + u (Bin .f64) + η (Bin .f64) ≤ Ω (Bin .f64) := by
    refine le_trans ?_ hΩ
    have : (2 : ℝ) ^ 1 ≤ 2 ^ 1023 := pow_le_pow_right₀ (by norm_num) (by norm_num)
    clear hΩ h800 hA
    refine le_trans ?_ this
    clear this
    linarith
  have c3 : (1 + u (Bin .f64)) * (2 ^ 800 + θ (Bin .f64) (min m n)) * 3 ^ min m n ≤ Ω (Bin .f64) := by
    refine le_trans ?_ hΩ
    have hb : (2 : ℝ) ^ 1023 = 2 ^ 223 * 2 ^ 800 := by rw [← pow_add]
    have h3 : (3 : ℝ) ^ min m n ≤ 3 ^ 100 := pow_le_pow_right₀ (by norm_num) hr
    rw [hb]
    clear hb hΩ
    have hθ0 := θ_nonneg (α := Bin .f64) (min m n)
    generalize (2 : ℝ) ^ 800 = T at *
    calc (1 + u (Bin .f64)) * (T + θ (Bin .f64) (min m n)) * 3 ^ min m n ≤ (4 / 3) * (T + 1) * 3 ^ 100 := by
          gcongr; linarith
      _ ≤ _ := by norm_num; linarith
  obtain ⟨x, L, U, g1, g2, g3, g4, g5⟩ := C62_finite hm hn A (2 ^ 800) hA c1 c2 c3
  exact ⟨x, L, U, g1, g2, g3, g4, fun k c => (g5 k c).1⟩

/-- C63: `solve` in rounded arithmetic.  With the computed factors `L`, `U`: it returns `None` exactly when a diagonal entry of `U` is
zero; otherwise the residual of the solution is at most `((1+u)^(3n+1) - 1) * |L| |U| |X|` plus the underflow term. -/
theorem C63_solve (hn : 0 < n) (hp : 0 < p) (A : Matrix (Fin n) (Fin n) α) (B : Matrix (Fin n) (Fin p) α) :
    ∃ (x : LU α) (σ : Equiv.Perm (Fin n)) (L U : Matrix (Fin n) (Fin n) α),
      LU.new (ofM A) = .ok x ∧ x.getPiv = (List.ofFn fun i => (σ i).1) ∧ x.getL = .ok (ofM L) ∧ x.getU = .ok (ofM U) ∧
      ((∃ i, FloatOps.eq (U i i) 0 = true) ∧ (ofM A).solve (ofM B) = .ok none ∨
       (∀ i, FloatOps.eq (U i i) 0 = false) ∧ ∃ X : Matrix (Fin n) (Fin p) α, (ofM A).solve (ofM B) = .ok (some (ofM X)) ∧
        ((∀ i k, fin (L i k)) → (∀ k c, fin (U k c)) → (∀ i j, fin (X i j)) → ∀ i j,
          |val (B (σ i) j) - ∑ c, val (A (σ i) c) * val (X c j)| ≤
            γ α (3 * n + 1) * (∑ k, |val (L i k)| * ∑ c, |val (U k c)| * |val (X c j)|) +
            η α * (1 + u α) ^ (2 * n) * (n + (∑ k, |val (L i k)| * (n + |val (U k k)|)) +
              ∑ c, (n + ∑ k, |val (U k c)|) * |val (X c j)|))) := by
  obtain ⟨G, σ, h1, h2⟩ := LU.Rnd.new_ofM hn hn A
  have hL' := LU.Rnd.getL_ok G hn hn (decide (Equiv.Perm.sign σ = 1)) (List.ofFn fun i => (σ i).1)
  have hU' := LU.Rnd.getU_ok G hn hn (decide (Equiv.Perm.sign σ = 1)) (List.ofFn fun i => (σ i).1)
  have hF : ∀ (hL : ∀ i k, fin (LU.Rnd.lowerA n n G i k)) (hU : ∀ k c, fin (LU.Rnd.upperA n n G k c)) (i c : Fin n),
    |val (ext A (σ i) c) - ∑ k, val (LU.Rnd.lowerA n n G i k) * val (LU.Rnd.upperA n n G k c)| ≤
      γ α (n + 1) * (∑ k, |val (LU.Rnd.lowerA n n G i k)| * |val (LU.Rnd.upperA n n G k c)|) + θ α n +
        (1 + u α) * η α * ∑ k, |val (LU.Rnd.upperA n n G k c)| := by
    have := @LU.Rnd.factor_err α _ _ _ _ _ _ _ _ n n (ext A) G σ h2
    rwa [min_self] at this
  rw [min_self] at hL' hU'
  have hdiag : ∀ i : Fin n, LU.Rnd.upperA n n G i i = G i i := fun i => by simp [LU.Rnd.upperA]
  refine ⟨_, σ, _, _, h1, rfl, hL', hU', ?_⟩
  rcases LU.Rnd.solve_ok hn hp G (decide (Equiv.Perm.sign σ = 1)) σ B with ⟨h3, h4⟩ | ⟨h3, X, Y, h4, h5, h6⟩
  · left
    obtain ⟨i, hi⟩ := h3
    refine ⟨⟨i, by rw [hdiag]; exact hi⟩, ?_⟩
    unfold Mat.solve
    rw [h1, ok_bind, h4]
  · right
    refine ⟨fun i => by rw [hdiag]; exact h3 i, Matrix.of fun i j => X i j, ?_, ?_⟩
    · unfold Mat.solve
      rw [h1, ok_bind, h4]
    · intro hL hU hX i j
      have hG : ∀ i : Fin n, fin (G i i) := fun i => by rw [← hdiag]; exact hU i i
      have b2 := fun i => LU.Rnd.backward_err j (fun i => h6 i j) (fun i => hX i j) hG i
      have b1 := fun i => LU.Rnd.forward_err (G := G) (Y := Y) (b := fun i j => if h : i < n ∧ j < p then B (σ ⟨i, h.1⟩) ⟨j, h.2⟩ else 0) j
        (fun i => (h5 i j).trans (by simp)) (fun i => (b2 i).1) i
      have r := resid3 (A := fun i c => val (ext A (σ i) c)) (L := fun i k => LU.lower n n (fun i c => val (G i c)) i k)
        (U := fun k c => LU.upper n n (fun i c => val (G i c)) k c) (x := fun c => val (X c j)) (y := fun k => val (Y k j))
        (r1 := fun _ => θ α n) (r2 := fun k => θ α n + (1 + u α) ^ n * η α * |val (G k k)|)
        (r3 := fun i c => θ α n + (1 + u α) * η α * ∑ k, |LU.upper n n (fun i c => val (G i c)) k c|) (g1 := γ α n) (g2 := γ α n)
        (g3 := γ α (n + 1)) (γ_nonneg n) b1 (fun k => (b2 k).2) (fun i c => by
          have := hF hL hU i c
          simp only [fun i k => (LU.Rnd.val_lowerA n n G i k).1, fun i k => (LU.Rnd.val_upperA n n G i k).1] at this
          linarith) i
      simp only [ext_fin, dif_pos, Fin.is_lt, and_self, Fin.eta] at r
      have hd2 : ∀ k : Fin n, |val (LU.Rnd.upperA n n G k k)| = |val (G k k)| := fun k => by rw [hdiag]
      simp only [hd2]
      simp only [fun i k => (LU.Rnd.val_lowerA n n G i k).1, fun i k => (LU.Rnd.val_upperA n n G i k).1, Matrix.of_apply]
      refine r.trans ?_
      have hq1 : (1 : ℝ) ≤ (1 + u α) ^ n := one_le_pow n
      have hq2 : (1 + u α) ≤ (1 + u α) ^ n := by
        calc (1 + u α) = (1 + u α) ^ 1 := (pow_one _).symm
          _ ≤ _ := pow_le_pow_right₀ one_u hn
      have hη := η_nonneg (α := α)
      have hu := u_nonneg (α := α)
      have hg : γ α n * (1 + γ α n) + γ α n + γ α (n + 1) ≤ γ α (3 * n + 1) := by
        rw [LU.Rnd.γ_double]
        refine (LU.Rnd.γ_add_le _ _).trans (le_of_eq ?_)
        congr 1; ring
      have hW : 0 ≤ ∑ k, |LU.lower n n (fun i c => val (G i c)) i k| * ∑ c, |LU.upper n n (fun i c => val (G i c)) k c| * |val (X c j)| :=
        sum_nonneg fun _ _ => mul_nonneg (abs_nonneg _) (sum_nonneg fun _ _ => by positivity)
      have a1 := mul_le_mul_of_nonneg_right hg hW
      have hθ : θ α n = n * (1 + u α) ^ n * η α := rfl
      have hqq : (1 + u α) ^ (2 * n) = (1 + u α) ^ n * (1 + u α) ^ n := by rw [two_mul, pow_add]
      have a2 : θ α n ≤ η α * (1 + u α) ^ (2 * n) * n := by
        rw [hθ, hqq]
        have : (n : ℝ) * (1 + u α) ^ n * η α * 1 ≤ (n : ℝ) * (1 + u α) ^ n * η α * (1 + u α) ^ n :=
          mul_le_mul_of_nonneg_left hq1 (by positivity)
        linarith
      have a3 : (1 + γ α n) * (∑ k, |LU.lower n n (fun i c => val (G i c)) i k| * (θ α n + (1 + u α) ^ n * η α * |val (G k k)|)) =
          η α * (1 + u α) ^ (2 * n) * ∑ k, |LU.lower n n (fun i c => val (G i c)) i k| * (n + |val (G k k)|) := by
        rw [mul_sum, mul_sum]
        refine sum_congr rfl fun k _ => ?_
        rw [hθ, hqq]; unfold γ; ring
      have a4 : ∑ c : Fin n, (θ α n + (1 + u α) * η α * ∑ k, |LU.upper n n (fun i c => val (G i c)) k c|) * |val (X c j)| ≤
          η α * (1 + u α) ^ (2 * n) * ∑ c : Fin n, (n + ∑ k, |LU.upper n n (fun i c => val (G i c)) k c|) * |val (X c j)| := by
        rw [mul_sum]
        refine sum_le_sum fun c _ => ?_
        have hs : 0 ≤ ∑ k, |LU.upper n n (fun i c => val (G i c)) k c| := sum_nonneg fun _ _ => abs_nonneg _
        rw [← mul_assoc]
        refine mul_le_mul_of_nonneg_right ?_ (abs_nonneg _)
        have : (1 + u α) * η α * (∑ k, |LU.upper n n (fun i c => val (G i c)) k c|) ≤
            η α * (1 + u α) ^ (2 * n) * ∑ k, |LU.upper n n (fun i c => val (G i c)) k c| := by
          refine mul_le_mul_of_nonneg_right ?_ hs
          rw [hqq, mul_comm]
          refine mul_le_mul_of_nonneg_left ?_ hη
          nlinarith
        rw [mul_add]
        linarith
      rw [mul_add, mul_add]
      linarith

/-- C64: the computed Cholesky factor of a finite matrix: lower triangular with a positive diagonal, `L * L'` close to `A`: the error is
at most `((1+u)^(n+2) - 1) * |L| |L|'` plus the underflow term. -/
theorem C64_cholesky (hn : 0 < n) (A : Matrix (Fin n) (Fin n) α) (hA : ∀ i j, fin (A i j)) :
    Cholesky.new (ofM A) = .ok none ∨
    ∃ (c : Cholesky α) (L : Matrix (Fin n) (Fin n) α), Cholesky.new (ofM A) = .ok (some c) ∧ c.getL = ofM L ∧
      (∀ i j, i < j → L i j = 0) ∧ ((∀ i j, fin (L i j)) → (∀ i, 0 < val (L i i)) ∧
        ∀ i k, |val (A i k) - ∑ t, val (L i t) * val (L k t)| ≤
          γ α (n + 2) * (∑ t, |val (L i t)| * |val (L k t)|) + θ α n + (1 + u α) * η α * |val (L (min i k) (min i k))|) := by
  obtain ⟨o, ho, hP⟩ := Cholesky.Rnd.new_post hn A
  match o, hP with
  | none, hP => exact Or.inl ho
  | some c, ⟨L, hc, hP⟩ =>
    refine Or.inr ⟨c, _, ho, by rw [hc]; rfl, fun i j hij => hP.zero i j i.2 hij, fun hL => ?_⟩
    have hL' : ∀ i k, i < n → k < n → fin (L i k) := fun i k hi hk => hL ⟨i, hi⟩ ⟨k, hk⟩
    refine ⟨fun i => Cholesky.Rnd.diag_pos hP hL' i, fun i k => ?_⟩
    have := Cholesky.Rnd.both_err hP (fun i k hi hk => by rw [ext_eq A hi hk]; exact hA _ _) hL' i k
    simpa only [ext_fin, Matrix.of_apply] using this

/-- C64: a symmetric matrix that is positive definite with the margin `ε` of the rounding errors is accepted, and the factor is finite. -/
theorem C64_accepts (hn : 0 < n) (A : Matrix (Fin n) (Fin n) α) (hA : ∀ i j, fin (A i j)) (hsym : ∀ i j, val (A i j) = val (A j i))
    (D ε : ℝ) (hD : 0 ≤ D) (hε : ε = γ α (n + 4) * D + θ α n + η α * Real.sqrt D) (hbd : ∀ i j, |val (A i j)| + ε ≤ D)
    (hpd : ∀ x : Fin n → ℝ, x ≠ 0 → ε * (∑ i, |x i|) ^ 2 < ∑ i, ∑ j, x i * val (A i j) * x j)
    (hbig : 2 * (1 + u α) ^ (n + 1) * D + θ α n ≤ Ω α) (hroot : (1 + u α) * Real.sqrt D + η α ≤ Ω α) :
    ∃ (c : Cholesky α) (L : Matrix (Fin n) (Fin n) α), Cholesky.new (ofM A) = .ok (some c) ∧ c.getL = ofM L ∧ ∀ i j, fin (L i j) := by
  have hM : Cholesky.Rnd.Margin n (ext A) D ε :=
    ⟨fun i k hi hk => by rw [ext_eq A hi hk]; exact hA _ _, fun i k hi hk => by rw [ext_eq A hi hk, ext_eq A hk hi]; exact hsym _ _, hD, hε.ge,
      fun i k hi hk => by rw [ext_eq A hi hk]; exact hbd _ _, fun x hx => by simpa only [ext_fin] using hpd x hx, hbig, hroot⟩
  obtain ⟨o, ho, hP⟩ := Cholesky.Rnd.new_post hn A
  match o, hP with
  | none, hP => exact absurd hP (Cholesky.Rnd.not_stop hM)
  | some c, ⟨L, hc, hP⟩ =>
    refine ⟨c, _, ho, by rw [hc]; rfl, fun i j => ?_⟩
    rw [Matrix.of_apply]
    rcases le_or_gt j i with h | h
    · exact (Cholesky.Rnd.rows_good hM le_rfl hP i i.2).fin j h
    · rw [hP.zero i j i.2 h]; exact Fp.zero.1

/-- C64: the residual of `solve` with a computed Cholesky factor is at most `((1+u)^(3n+2) - 1) * |L| |L|' |X|` plus the
underflow term. -/
theorem C64_solve (hn : 0 < n) (hp : 0 < p) (A : Matrix (Fin n) (Fin n) α) (hA : ∀ i j, fin (A i j)) (B : Matrix (Fin n) (Fin p) α)
    (c : Cholesky α) (hc : Cholesky.new (ofM A) = .ok (some c)) :
    ∃ (L : Matrix (Fin n) (Fin n) α) (X : Matrix (Fin n) (Fin p) α), c.getL = ofM L ∧ c.solve (ofM B) = .ok (ofM X) ∧
      ((∀ i j, fin (L i j)) → (∀ i j, fin (X i j)) → ∀ i j,
        |val (B i j) - ∑ c, val (A i c) * val (X c j)| ≤
          γ α (3 * n + 2) * (∑ k, |val (L i k)| * ∑ c, |val (L c k)| * |val (X c j)|) +
          η α * (1 + u α) ^ (2 * n) * ((n + |val (L i i)|) + (∑ k, |val (L i k)| * (n + |val (L k k)|)) +
            ∑ c, (n + |val (L (min i c) (min i c))|) * |val (X c j)|)) := by
  obtain ⟨o, ho, hP⟩ := Cholesky.Rnd.new_post hn A
  rw [ho] at hc
  cases hc
  obtain ⟨L, rfl, hP⟩ := hP
  obtain ⟨X, Y, h4, h5, h6⟩ := Cholesky.Rnd.solve_ok hn hp L B
  refine ⟨_, Matrix.of fun i j => X i j, rfl, h4, fun hL hX i j => ?_⟩
  simp only [Matrix.of_apply] at hL hX
  have hL' : ∀ i k, i < n → k < n → fin (L i k) := fun i k hi hk => hL ⟨i, hi⟩ ⟨k, hk⟩
  have b2 := fun i => Cholesky.Rnd.backward_err (L := L) (X := X) (Y := Y) hP.zero j (fun i => h6 i j i.2 j.2) (fun i => hX i j) (fun i => hL i i) i
  have b1 := fun i => Cholesky.Rnd.forward_err (L := L) (X := Y) (B := ext B) hP.zero j (fun i => h5 i j i.2 j.2) (fun i => (b2 i).1) (fun i => hL i i) i
  have r := resid3 (A := fun i c => val (A i c)) (L := fun i k : Fin n => val (L i k)) (U := fun k c : Fin n => val (L c k))
    (x := fun c => val (X c j)) (y := fun k => val (Y k j)) (g3 := γ α (n + 2))
    (r3 := fun i c => θ α n + (1 + u α) * η α * |val (L (min i c).1 (min i c).1)|) (γ_nonneg n) (fun i => (b1 i).2) (fun k => (b2 k).2)
    (fun i c => by
      have := Cholesky.Rnd.both_err hP (fun i k hi hk => by rw [ext_eq A hi hk]; exact hA _ _) hL' i c
      rw [ext_fin] at this
      linarith) i
  simp only [ext_fin, Matrix.of_apply] at r ⊢
  refine r.trans ?_
  have hq1 : (1 : ℝ) ≤ (1 + u α) ^ n := one_le_pow n
  have hq2 : (1 + u α) ≤ (1 + u α) ^ n := by
    calc (1 + u α) = (1 + u α) ^ 1 := (pow_one _).symm
      _ ≤ _ := pow_le_pow_right₀ one_u hn
  have hη := η_nonneg (α := α)
  have hu := u_nonneg (α := α)
  have hg : γ α n * (1 + γ α n) + γ α n + γ α (n + 2) ≤ γ α (3 * n + 2) := by
    rw [LU.Rnd.γ_double]
    refine (LU.Rnd.γ_add_le _ _).trans (le_of_eq ?_)
    congr 1; ring
  have hW : 0 ≤ ∑ k : Fin n, |val (L i k)| * ∑ c : Fin n, |val (L c k)| * |val (X c j)| :=
    sum_nonneg fun _ _ => mul_nonneg (abs_nonneg _) (sum_nonneg fun _ _ => by positivity)
  have a1 := mul_le_mul_of_nonneg_right hg hW
  have hθ : θ α n = n * (1 + u α) ^ n * η α := rfl
  have hqq : (1 + u α) ^ (2 * n) = (1 + u α) ^ n * (1 + u α) ^ n := by rw [two_mul, pow_add]
  have hone : ∀ t : ℝ, 0 ≤ t → θ α n + (1 + u α) ^ n * η α * t ≤ η α * (1 + u α) ^ (2 * n) * (n + t) := by
    intro t ht
    rw [hθ, hqq]
    have : (n + t) * ((1 + u α) ^ n * η α) * 1 ≤ (n + t) * ((1 + u α) ^ n * η α) * (1 + u α) ^ n :=
      mul_le_mul_of_nonneg_left hq1 (by positivity)
    linarith
  have a2 := hone |val (L i i)| (abs_nonneg _)
  have a3 : (1 + γ α n) * (∑ k : Fin n, |val (L i k)| * (θ α n + (1 + u α) ^ n * η α * |val (L k k)|)) =
      η α * (1 + u α) ^ (2 * n) * ∑ k : Fin n, |val (L i k)| * (n + |val (L k k)|) := by
    rw [mul_sum, mul_sum]
    refine sum_congr rfl fun k _ => ?_
    rw [hθ, hqq]; unfold γ; ring
  have a4 : ∑ c : Fin n, (θ α n + (1 + u α) * η α * |val (L (min i c).1 (min i c).1)|) * |val (X c j)| ≤
      η α * (1 + u α) ^ (2 * n) * ∑ c : Fin n, (n + |val (L (min i c).1 (min i c).1)|) * |val (X c j)| := by
    rw [mul_sum]
    refine sum_le_sum fun c _ => ?_
    rw [← mul_assoc]
    refine mul_le_mul_of_nonneg_right (le_trans ?_ (hone _ (abs_nonneg _))) (abs_nonneg _)
    have : (1 + u α) * η α * |val (L (min i c).1 (min i c).1)| ≤ (1 + u α) ^ n * η α * |val (L (min i c).1 (min i c).1)| := by gcongr
    linarith
  rw [mul_add, mul_add]
  linarith

/-! ## The hypotheses can be met -/

/-- `f64` matrices within the bounds of `C61_f64` and `C62_f64`. -/
example : ∀ i k : Fin 2, fin (!![(1 : Bin .f64), 0; -1, 1] i k) ∧ |val (!![(1 : Bin .f64), 0; -1, 1] i k)| ≤ 2 ^ 500 := by
  have h : (1 : ℝ) ≤ 2 ^ 500 := one_le_pow₀ (by norm_num)
  have h1 := Fp.one (α := Bin .f64)
  have h0 := Fp.zero (α := Bin .f64)
  have hm := Fp.neg (1 : Bin .f64) h1.1
  intro i k
  fin_cases i <;> fin_cases k
  · exact ⟨h1.1, by change |val (1 : Bin .f64)| ≤ _; rw [h1.2, abs_one]; exact h⟩
  · exact ⟨h0.1, by change |val (0 : Bin .f64)| ≤ _; rw [h0.2, abs_zero]; exact le_trans zero_le_one h⟩
  · exact ⟨hm.1, by change |val (-1 : Bin .f64)| ≤ _; rw [hm.2, h1.2, abs_neg, abs_one]; exact h⟩
  · exact ⟨h1.1, by change |val (1 : Bin .f64)| ≤ _; rw [h1.2, abs_one]; exact h⟩

/-- A product with finite entries. -/
example : (ofM (QF.mat !![1, 2; 3, 4])).mul (ofM (QF.mat !![1, 1; 0, 1/3])) = .ok (ofM (QF.mat !![1, 5/3; 3, 13/3])) := by decide +kernel

/-- Factors with finite entries. -/
example : ∃ x, LU.new (ofM (QF.mat !![1, 2; 3, 4])) = .ok x ∧ x.getL = .ok (ofM (QF.mat !![1, 0; 1/3, 1])) ∧
    x.getU = .ok (ofM (QF.mat !![3, 4; 0, 2/3])) := by
  refine ⟨⟨ofM (QF.mat !![3, 4; 1/3, 2/3]), false, [1, 0]⟩, ?_, ?_, ?_⟩ <;> decide +kernel

/-- A solution with finite entries. -/
example : (ofM (QF.mat !![1, 2; 3, 4])).solve (ofM (QF.mat !![5; 6])) = .ok (some (ofM (QF.mat !![-4; 9/2]))) := by decide +kernel

/-- A Cholesky factor with finite entries, and a rejected matrix. -/
example : Cholesky.new (ofM (QF.mat !![4, 2; 2, 10])) = .ok (some ⟨ofM (QF.mat !![2, 0; 1, 3])⟩) ∧
    (Cholesky.mk (ofM (QF.mat !![2, 0; 1, 3]))).solve (ofM (QF.mat !![6; 12])) = .ok (ofM (QF.mat !![1; 1])) ∧
    Cholesky.new (ofM (QF.mat !![1, 2; 2, 1])) = .ok none := by
  refine ⟨?_, ?_, ?_⟩ <;> decide +kernel

/-- A matrix that meets the hypotheses of `C64_accepts` with `D = 11`. -/
example : ∃ (c : Cholesky QF) (L : Matrix (Fin 2) (Fin 2) QF), Cholesky.new (ofM (QF.mat !![4, 2; 2, 10])) = .ok (some c) ∧
    c.getL = ofM L ∧ ∀ i j, fin (L i j) := by
  have hv : ∀ (A : Matrix (Fin 2) (Fin 2) ℚ) i j, val (QF.mat A i j) = (A i j : ℝ) := fun A i j => rfl
  have hu : u QF = 1 / 2 ^ 20 := rfl
  have hη : η QF = 0 := rfl
  have hΩ : Ω QF = 2 ^ 1000 := rfl
  have hθ : θ QF 2 = 0 := by unfold θ; rw [hη, mul_zero]
  have hε : γ QF (2 + 4) * 11 + θ QF 2 + η QF * Real.sqrt 11 ≤ 1 / 100 := by
    rw [hθ, hη]; unfold γ; rw [hu]; norm_num
  have hε0 : 0 ≤ γ QF (2 + 4) * 11 + θ QF 2 + η QF * Real.sqrt 11 := by
    rw [hθ, hη]; unfold γ; rw [hu]; norm_num
  have hbig : (2 : ℝ) ^ 10 ≤ 2 ^ 1000 := pow_le_pow_right₀ (by norm_num) (by norm_num)
  refine C64_accepts (by norm_num) _ (fun i j => Option.some_ne_none _) (fun i j => ?_) 11 _ (by norm_num) rfl (fun i j => ?_) (fun x hx => ?_) ?_ ?_
  · rw [hv, hv]; fin_cases i <;> fin_cases j <;> simp
  · rw [hv]; generalize γ QF (2 + 4) * 11 + θ QF 2 + η QF * Real.sqrt 11 = ε at *
    fin_cases i <;> fin_cases j <;> norm_num <;> linarith
  · simp only [hv, Fin.sum_univ_two]
    generalize γ QF (2 + 4) * 11 + θ QF 2 + η QF * Real.sqrt 11 = ε at *
    have hx' : 0 < x 0 ^ 2 + x 1 ^ 2 := by
      by_contra h
      apply hx
      have h0 : x 0 = 0 := by nlinarith [sq_nonneg (x 0), sq_nonneg (x 1)]
      have h1 : x 1 = 0 := by nlinarith [sq_nonneg (x 0), sq_nonneg (x 1)]
      funext i; fin_cases i <;> simp [h0, h1]
    have h2 : (|x 0| + |x 1|) ^ 2 ≤ 2 * (x 0 ^ 2 + x 1 ^ 2) := by
      nlinarith [sq_nonneg (|x 0| - |x 1|), sq_abs (x 0), sq_abs (x 1)]
    have h3 : ε * (|x 0| + |x 1|) ^ 2 ≤ 1 / 100 * (2 * (x 0 ^ 2 + x 1 ^ 2)) := mul_le_mul hε h2 (by positivity) (by norm_num)
    simp
    nlinarith [sq_nonneg (x 0 + x 1)]
  · rw [hθ, hΩ, hu]
    refine le_trans ?_ hbig
    norm_num
  · rw [hη, hΩ, hu]
    refine le_trans ?_ hbig
    have : Real.sqrt 11 ≤ 4 := by rw [Real.sqrt_le_left (by norm_num)]; norm_num
    norm_num; linarith

end LA.Props
