import Verif.Props.Power
import Verif.Props.Accuracy
import Verif.Props.CholeskyBounds
import Verif.Props.LUBounds
import Verif.Proofs.GramInv
import Verif.Proofs.F64Alg
import Verif.Proofs.WeylSym

/-! # C114: `power_method` on doubles -/

namespace LA.Props
open LA Finset Fp
open _root_.LA.RQ (l2)
set_option linter.unusedSectionVars false

section
variable {α : Type} [Zero α] [One α] [Add α] [Sub α] [Neg α] [Mul α] [FloatOps α] [Fp α] {n : Nat} (hn : 0 < n)

/-- Comparing and taking absolute values does not round. -/
theorem maxElem_rnd (v : Fin n → α) (hv : ∀ i, fin (v i)) : ∃ x, (ofM (colVec v)).maxElem = .ok x ∧ fin x ∧
    val x = headMax hn (fun i => val (v i)) := by
  have ha := fun i => (Fp.abs (v i)).2 (hv i)
  have hf := fun i => (Fp.abs (v i)).1.2 (hv i)
  unfold Mat.maxElem
  rw [idx_colVec v hn, ok_bind, ofM_rows]
  by_cases h1 : n = 1
  · subst h1
    rw [loop_self]
    refine ⟨_, rfl, hf _, ?_⟩
    rw [ha]
    simp [headMax]
  · have hm : headMax hn (fun i => val (v i)) = max |val (v ⟨0, hn⟩)| |val (v ⟨1, by omega⟩)| := by
      unfold headMax; congr 4; simp [Nat.mod_eq_of_lt (show 1 < n by omega)]
    obtain ⟨s, hs, h⟩ := loop_post (lo := 1) (hi := n) (s := FloatOps.abs (v ⟨0, hn⟩))
      (f := fun _ (cur : α) => do
        let x := FloatOps.abs (← idx (ofM (colVec v)).data 1)
        if FloatOps.lt cur x then return x else return cur)
      (fun k s => fin s ∧ ((k = 1 ∧ val s = |val (v ⟨0, hn⟩)|) ∨ val s = headMax hn fun i => val (v i))) (by omega)
      ⟨hf _, Or.inl ⟨rfl, ha _⟩⟩ (by
        intro k s hk1 hk ⟨hs1, hs⟩
        rw [idx_colVec v (show 1 < n by omega), ok_bind]
        have hlt := Fp.lt s _ hs1 (hf ⟨1, by omega⟩)
        rw [ha] at hlt
        dsimp only
        by_cases hc : val s < |val (v ⟨1, by omega⟩)|
        · rw [if_pos (hlt.2 hc)]
          refine Post.ok ⟨hf _, Or.inr ?_⟩
          rw [ha, hm]
          rcases hs with ⟨-, hs⟩ | hs
          · rw [max_eq_right]; rw [← hs]; exact hc.le
          · rw [hs, hm] at hc
            exact absurd hc (not_lt.2 (le_max_right _ _))
        · rw [if_neg fun h => hc (hlt.1 h)]
          refine Post.ok ⟨hs1, Or.inr ?_⟩
          rcases hs with ⟨-, hs⟩ | hs
          · rw [hs, hm, max_eq_left]; rw [← hs]; exact not_lt.1 hc
          · exact hs)
    rcases h with ⟨h0, ⟨h, _⟩ | h⟩
    · omega
    · exact ⟨s, hs, h0, h⟩

include hn in
/-- The norm, together with the fact that a finite result comes from finite elements. -/
theorem length_rnd (v : Fin n → α) : ∃ s t, (ofM (colVec v)).length = .ok t ∧ FloatOps.sqrt s = .ok t ∧
    (fin t → (∀ i, fin (v i)) ∧ |val t - l2 (fun i => val (v i))| ≤ γ α (n + 2) * l2 (fun i => val (v i)) + (1 + u α) * √(θ α n)) := by
  obtain ⟨t, ht⟩ := Fp.sqrt_total (fdot (lin (colVec v)) (lin (colVec v)) (n * 1))
  refine ⟨_, t, ?_, ht, fun h => ?_⟩
  · unfold Mat.length Mat.vectorEuclideanNorm
    rw [colVec_cols hn]
    simp only [ok_bind, beq_self_eq_true, assert_true]
    have := C72_frobenius (colVec v)
    show (ofM (colVec v)).frobeniusNorm = _
    unfold Mat.frobeniusNorm
    rw [frob_facc, ok_bind, ht]
  · obtain ⟨h1, h2⟩ := fnorm_err _ _ _ ht h
    refine ⟨fun i => ?_, ?_⟩
    · have := h1 i.1 (by omega)
      have e := lin_rm (colVec v) i 0
      simp only [mul_one, Fin.val_zero, add_zero] at e
      rw [e] at this
      exact this
    · rw [sum_lin (colVec v) fun x => val x ^ 2, mul_one] at h2
      have e : ∑ i, ∑ j, val (colVec v i j) ^ 2 = ∑ i, val (v i) ^ 2 := by simp [colVec]
      rw [e] at h2
      exact h2

include hn in
/-- One iteration. -/
theorem powerLoop_rnd (A : Matrix (Fin n) (Fin n) α) (eps : α) (v : Fin n → α) :
    ∃ (W : Matrix (Fin n) (Fin 1) α) (x f s d : α), (ofM A).mul (ofM (colVec v)) = .ok (ofM W) ∧
      (ofM (colVec fun i => W i 0)).maxElem = .ok x ∧ RDiv.rdiv 1 x = .ok f ∧
      (ofM (colVec fun i => f * W i 0 - v i)).length = .ok d ∧ FloatOps.sqrt s = .ok d ∧
      ∀ fuel, (ofM A).powerLoop eps (fuel + 1) (ofM (colVec v)) =
        if FloatOps.le d eps then .ok (ofM (colVec fun i => f * W i 0)) else (ofM A).powerLoop eps fuel (ofM (colVec fun i => f * W i 0)) := by
  obtain ⟨W, h1, -⟩ := C61_mul hn hn A (colVec v)
  obtain ⟨x, hx⟩ := maxElem_total hn fun i => W i 0
  obtain ⟨f, hf⟩ := Fp.div_total (1 : α) x
  obtain ⟨s, d, hd, hsq, -⟩ := length_rnd hn fun i => f * W i 0 - v i
  refine ⟨W, x, f, s, d, h1, hx, hf, hd, hsq, fun fuel => ?_⟩
  have hW : W = colVec fun i => W i 0 := colVec_surj W
  have hs : f • colVec (fun i => W i 0) = colVec fun i => f * W i 0 := by ext i j; rfl
  have hd' : (colVec fun i => f * W i 0) - colVec v = colVec fun i => f * W i 0 - v i := by ext i j; rfl
  rw [Mat.powerLoop, h1, ok_bind, hW]
  beta_reduce
  rw [hx, ok_bind, hf, ok_bind, (C09_mutating_agree (ofM (colVec fun i => W i 0)) (ofM A) f).2.2.2.2.1, C08_scale, ok_bind, hs,
    C08_sub hn, ok_bind, hd', hd, ok_bind]
  rfl

end

theorem f64_mk_sign {a b : Nat} {s t : Bool} (h : F64.mk s a b = .inf t) : t = s := by
  unfold F64.mk at h
  by_cases hc : F64.rnd a b < 2 ^ 2098
  · rw [dif_pos hc] at h
    exact absurd h F64.noConfusion
  · rw [dif_neg hc] at h
    injection h with h
    exact h.symm

theorem f64_le_fin {x y s : F64} (hs : FloatOps.sqrt s = .ok x) (h : FloatOps.le x y = true) (hy : y.isFin) : x.isFin := by
  obtain ⟨b, k, hk, rfl⟩ := F64.isFin_iff hy
  cases x with
  | nan => exact absurd h (by simp [FloatOps.le, F64.cmp])
  | inf t =>
    cases t
    · exact absurd h (by simp [FloatOps.le, F64.cmp, F64.sgn])
    · exfalso
      have hs : F64.sqrt s = .inf true := Except.ok.inj hs
      cases s with
      | nan => simp [F64.sqrt] at hs
      | inf t => cases t <;> simp [F64.sqrt] at hs
      | fin t a ha =>
        simp only [F64.sqrt] at hs
        split at hs
        · cases hs
        · split at hs
          · cases hs
          · exact absurd (f64_mk_sign hs) (by simp)
  | fin => trivial

theorem f64_eta_top {x : F64} (h : x.isFin) : |x.toReal| * η F64 ≤ 1 / 2 ^ 51 := by
  obtain ⟨s, k, hk, rfl⟩ := F64.isFin_iff h
  have h1 : |(F64.fin s k hk).toReal| ≤ 2 ^ 2098 * F64.U := by
    have hk2 : k < 2 ^ 2098 := F64.rep_lt hk
    have hk3 : (k : ℝ) ≤ 2 ^ 2098 := by exact_mod_cast hk2.le
    have e : |(F64.fin s k hk).toReal| = k * F64.U := by
      show |((F64.sgn s k : ℤ) : ℝ) * F64.U| = _
      rw [abs_mul, abs_of_pos F64.U_pos]
      congr 1
      unfold F64.sgn
      cases s <;> simp
    rw [e]
    exact mul_le_mul_of_nonneg_right hk3 F64.U_pos.le
  have h2 : η F64 = F64.U / 2 := rfl
  have h3 : (2 : ℝ) ^ 2098 * F64.U * (F64.U / 2) = 1 / 2 ^ 51 := by
    unfold F64.U
    rw [one_div, div_eq_mul_inv _ (2 : ℝ), ← mul_assoc, show (2098 : ℕ) = 1074 + (1023 + 1) from rfl, pow_add, mul_comm ((2 : ℝ) ^ 1074) _,
      mul_assoc ((2 : ℝ) ^ (1023 + 1)), mul_inv_cancel₀ (by positivity), mul_one, show (1074 : ℕ) = (1023 + 1) + 50 from rfl, pow_add _ (1023 + 1) 50,
      mul_inv, ← mul_assoc, mul_inv_cancel₀ (by positivity)]
    norm_num
  rw [h2, ← h3]
  exact mul_le_mul_of_nonneg_right h1 (by have := F64.U_pos; positivity)

/-- The last iteration. -/
theorem power_step {n : Nat} (hn : 0 < n) (hn2 : n ≤ 2 ^ 20) {A : Matrix (Fin n) (Fin n) F64} {eps : F64} (he : eps.isFin) {v : Fin n → F64}
    {W : Matrix (Fin n) (Fin 1) F64} {x f s d : F64} (h1 : (ofM A).mul (ofM (colVec v)) = .ok (ofM W))
    (h2 : (ofM (colVec fun i => W i 0)).maxElem = .ok x) (h3 : RDiv.rdiv 1 x = .ok f)
    (h4 : (ofM (colVec fun i => f * W i 0 - v i)).length = .ok d) (h5 : FloatOps.sqrt s = .ok d) (h6 : FloatOps.le d eps = true) :
    (∀ i, (f * W i 0).isFin) ∧ (∀ i j, (A i j).isFin) ∧ |headMax hn (fun i => (f * W i 0).toReal) - 1| ≤ 1 / 2 ^ 50 ∧ 0 ≤ eps.toReal ∧
    ∃ μ : ℝ, 0 < μ ∧ l2 (fun i => ∑ j, (A i j).toReal * (f * W j 0).toReal - μ * (f * W i 0).toReal) ≤
      (1 + 1 / 2 ^ 29) * frob (A.map F64.toReal) * (eps.toReal + 1 / 2 ^ 500) +
        ((n + 1) * frob (A.map F64.toReal) / 2 ^ 52 + μ / 2 ^ 53) * l2 (fun i => (f * W i 0).toReal) + tiny * (1 + μ) := by
  have hd := f64_le_fin h5 h6 he
  have hv : ∀ x : F64, val x = x.toReal := fun _ => rfl
  obtain ⟨s', d', g1, -, g2⟩ := length_rnd hn fun i => f * W i 0 - v i
  obtain rfl : d = d' := Except.ok.inj (h4.symm.trans g1)
  obtain ⟨hD, hdist⟩ := g2 hd
  have hsub := fun i => Fp.sub (f * W i 0) (v i) (hD i)
  have hyf : ∀ i, (f * W i 0).isFin := fun i => (hsub i).1
  have hvf : ∀ i, (v i).isFin := fun i => (hsub i).2.1
  have hmul := fun i => Fp.mul f (W i 0) (hyf i)
  have hff : f.isFin := (hmul ⟨0, hn⟩).1
  have hWf : ∀ i, (W i 0).isFin := fun i => (hmul i).2.1
  obtain ⟨W', k1, k2⟩ := C61_mul hn hn A (colVec v)
  obtain rfl : W = W' := ofM_inj (Except.ok.inj (h1.symm.trans k1))
  obtain ⟨x', m1, m2, m3⟩ := maxElem_rnd hn (fun i => W i 0) hWf
  obtain rfl : x = x' := Except.ok.inj (h2.symm.trans m1)
  obtain ⟨-, hdiv⟩ := Fp.div 1 x f h3 hff
  obtain ⟨hx0, hf1, -⟩ := hdiv m2
  have hu : u F64 = 1 / 2 ^ 53 := rfl
  have hη0 := η_nonneg (α := F64)
  have hη := eta_le
  have ht := tiny_pos
  have h1v : val (1 : F64) = 1 := (Fp.one (α := F64)).2
  rw [h1v, hu] at hf1
  rw [m3] at hx0 hf1
  have hM0 : 0 < headMax hn fun i => val (W i 0) := lt_of_le_of_ne (headMax_nonneg hn _) (Ne.symm hx0)
  have hMη : (headMax hn fun i => val (W i 0)) * η F64 ≤ 1 / 2 ^ 51 := by
    have := f64_eta_top m2
    rw [← hv, m3, abs_of_pos hM0] at this
    exact this
  obtain ⟨M, hM⟩ : ∃ M, M = headMax hn fun i => val (W i 0) := ⟨_, rfl⟩
  rw [← hM] at hM0 hMη hf1
  obtain ⟨φ, hφ⟩ : ∃ φ, φ = val f := ⟨_, rfl⟩
  rw [← hφ] at hf1
  have hφM : |φ * M - 1| ≤ 1 / 2 ^ 53 + 1 / 2 ^ 51 := by
    have a1 := mul_le_mul_of_nonneg_right hf1 hM0.le
    rw [abs_of_pos (show 0 < 1 / M by positivity)] at a1
    have e1 : |φ - 1 / M| * M = |φ * M - 1| := by
      rw [show |φ - 1 / M| * M = |φ - 1 / M| * |M| by rw [abs_of_pos hM0], ← abs_mul, sub_mul, one_div_mul_cancel hM0.ne']
    have e2 : (1 / 2 ^ 53 * (1 / M) + η F64) * M = 1 / 2 ^ 53 + M * η F64 := by
      field_simp
    rw [e1, e2] at a1
    linarith
  have hφ0 : 0 < φ := by
    have a1 := (abs_le.mp hφM).1
    have : 0 < φ * M := by norm_num at a1; linarith
    exact (mul_pos_iff_of_pos_right hM0).mp this
  have hym : ∀ i, |(f * W i 0).toReal - φ * val (W i 0)| ≤ 1 / 2 ^ 53 * |(f * W i 0).toReal| + η F64 := by
    intro i
    have := (hmul i).2.2.2
    rw [hu, ← hφ] at this
    exact this
  have hym2 : ∀ i, |(f * W i 0).toReal - φ * val (W i 0)| ≤ 1 / 2 ^ 53 * (φ * |val (W i 0)|) + η F64 := by
    intro i
    have := (hmul i).2.2.1
    rw [hu, ← hφ, abs_mul, abs_of_pos hφ0] at this
    exact this
  have heps0 : 0 ≤ eps.toReal ∧ val d ≤ eps.toReal := by
    have a1 := (Fp.sqrt s d h5 hd).2.2.1
    have a2 := (Fp.le d eps hd he).1 h6
    exact ⟨a1.trans a2, a2⟩
  have hA : ∀ i j, (A i j).isFin := by
    intro i j
    have x3 := C10_mul_general hn hn A (colVec v)
    rw [h1] at x3
    have x4 := ofM_inj (Except.ok.inj x3)
    have hf := hWf i
    rw [x4] at hf
    have e : (List.finRange n).foldl (fun s k => s + A i k * colVec v k 0) 0 =
        fdot (fun k => ext A i k) (fun k => ext (colVec v) k 0) n := by
      unfold fdot
      rw [← foldl_facc]
      have : ∀ k : Fin n, ext (colVec v) k 0 = colVec v k 0 := fun k => ext_eq (colVec v) k.2 Nat.one_pos
      simp [this]
    simp only [Matrix.of_apply] at hf
    rw [e] at hf
    have := ((fdot_err (α := F64) _ _ n hf).1 j j.2).1
    rwa [ext_fin] at this
  refine ⟨hyf, hA, ?_, heps0.1, 1 / φ, by positivity, ?_⟩
  · have a1 : ∀ i, |(|(f * W i 0).toReal| - φ * |val (W i 0)|)| ≤ 1 / 2 ^ 53 * (φ * M) + η F64 ∨ M < |val (W i 0)| := by
      intro i
      by_cases hc : |val (W i 0)| ≤ M
      · left
        have b1 := abs_abs_sub_abs_le (f * W i 0).toReal (φ * val (W i 0))
        rw [abs_mul, abs_of_pos hφ0] at b1
        refine b1.trans ((hym2 i).trans ?_)
        have := mul_le_mul_of_nonneg_left hc hφ0.le
        linarith
      · right; exact not_le.1 hc
    have hle : ∀ i, i = ⟨0, hn⟩ ∨ i = ⟨1 % n, Nat.mod_lt _ hn⟩ → |(|(f * W i 0).toReal| - φ * |val (W i 0)|)| ≤ 1 / 2 ^ 53 * (φ * M) + η F64 := by
      intro i hi
      refine (a1 i).resolve_right (not_lt.2 ?_)
      rw [hM]
      rcases hi with rfl | rfl
      · exact le_max_left _ _
      · exact le_max_right _ _
    have b1 := abs_max_sub_max_le_max |(f * W ⟨0, hn⟩ 0).toReal| |(f * W ⟨1 % n, Nat.mod_lt _ hn⟩ 0).toReal|
      (φ * |val (W ⟨0, hn⟩ 0)|) (φ * |val (W ⟨1 % n, Nat.mod_lt _ hn⟩ 0)|)
    have b2 := b1.trans (max_le (hle _ (Or.inl rfl)) (hle _ (Or.inr rfl)))
    rw [← mul_max_of_nonneg _ _ hφ0.le] at b2
    have e : max |val (W ⟨0, hn⟩ 0)| |val (W ⟨1 % n, Nat.mod_lt _ hn⟩ 0)| = M := hM.symm
    rw [e] at b2
    change |headMax hn (fun i => (f * W i 0).toReal) - φ * M| ≤ _ at b2
    have b3 := abs_sub_le (headMax hn fun i => (f * W i 0).toReal) (φ * M) 1
    have b4 := (abs_le.mp hφM).2
    norm_num at b2 b3 b4 hφM hη ⊢
    linarith
  · obtain ⟨μ, hμ⟩ : ∃ μ, μ = 1 / φ := ⟨_, rfl⟩
    rw [← hμ]
    have hμ0 : 0 < μ := by rw [hμ]; positivity
    have hμφ : μ * φ = 1 := by rw [hμ]; field_simp
    have hF0 := frob_nonneg (A.map F64.toReal)
    obtain ⟨y, hy⟩ : ∃ y : Fin n → ℝ, y = fun i => (f * W i 0).toReal := ⟨_, rfl⟩
    obtain ⟨z, hz⟩ : ∃ z : Fin n → ℝ, z = fun i => (v i).toReal := ⟨_, rfl⟩
    obtain ⟨w, hw⟩ : ∃ w : Fin n → ℝ, w = fun i => (W i 0).toReal := ⟨_, rfl⟩
    obtain ⟨B, hB⟩ : ∃ B, B = A.map F64.toReal := ⟨_, rfl⟩
    have hyi : ∀ i, (f * W i 0).toReal = y i := fun i => by rw [hy]
    have e0 : (fun i => ∑ j, (A i j).toReal * (f * W j 0).toReal - μ * (f * W i 0).toReal) =
        B.mulVec (y - z) + ((B.mulVec z - w) + (w - μ • y)) := by
      rw [Matrix.mulVec_sub]
      funext i
      simp only [Pi.add_apply, Pi.sub_apply, Pi.smul_apply, smul_eq_mul]
      have : B.mulVec y i = ∑ j, (A i j).toReal * (f * W j 0).toReal := by rw [hB, hy]; rfl
      rw [this, hyi]
      ring
    rw [e0, ← hy, ← hB]
    rw [← hB] at hF0
    have hy0 := RQ.l2_nonneg y
    -- the scaling
    have c1 : l2 (w - μ • y) ≤ μ / 2 ^ 53 * l2 y + √n * (μ * η F64) := by
      have a1 : l2 (w - μ • y) ≤ l2 ((μ / 2 ^ 53) • (fun i => |y i|) + fun _ => μ * η F64) := by
        refine RQ.l2_mono fun i => ?_
        have := mul_le_mul_of_nonneg_left (hym i) hμ0.le
        rw [hyi] at this
        have e : μ * |y i - φ * val (W i 0)| = |(w - μ • y) i| := by
          rw [show μ * |y i - φ * val (W i 0)| = |μ| * |y i - φ * val (W i 0)| by rw [abs_of_pos hμ0], ← abs_mul, mul_sub, ← mul_assoc, hμφ,
            one_mul, abs_sub_comm, hw]
          rfl
        rw [e] at this
        refine this.trans (le_of_eq ?_)
        simp only [Pi.add_apply, Pi.smul_apply, smul_eq_mul]
        ring
      refine a1.trans ((RQ.l2_add _ _).trans ?_)
      rw [RQ.l2_smul, abs_of_nonneg (by positivity), RQ.l2_abs, RQ.l2_const _ (mul_nonneg hμ0.le hη0)]
    -- the product
    have c2 : l2 (B.mulVec z - w) ≤ (n + 1) / 2 ^ 52 * (frob B * l2 z) + √n * θ F64 n := by
      have a0 : γ F64 (n + 1) ≤ (n + 1) / 2 ^ 52 := by
        have := gamma_f64 (k := n + 1) (by omega)
        push_cast at this
        exact this
      have a1 : l2 (B.mulVec z - w) ≤ l2 (((n + 1) / 2 ^ 52 * l2 z) • (fun i => l2 fun j => B i j) + fun _ => θ F64 n) := by
        refine RQ.l2_mono fun i => ?_
        have b1 := k2 i 0 (hWf i)
        have b2 := RQ.sum_abs_le (fun j => B i j) z
        have b3 : ∑ k, |val (A i k)| * |val (colVec v k 0)| = ∑ k, |B i k * z k| := by
          refine sum_congr rfl fun k _ => ?_
          rw [abs_mul, hB, hz]
          rfl
        have b4 : ∑ k, val (A i k) * val (colVec v k 0) = B.mulVec z i := by
          rw [hB, hz]; rfl
        rw [b3, b4] at b1
        have b5 : |(B.mulVec z - w) i| = |val (W i 0) - B.mulVec z i| := by
          rw [abs_sub_comm, Pi.sub_apply, hw, hv]
        rw [b5]
        refine b1.trans (add_le_add ?_ le_rfl)
        refine (mul_le_mul a0 b2 (sum_nonneg fun _ _ => abs_nonneg _) (by positivity)).trans (le_of_eq ?_)
        simp only [Pi.smul_apply, smul_eq_mul]
        ring
      refine a1.trans ((RQ.l2_add _ _).trans ?_)
      rw [RQ.l2_smul, abs_of_nonneg (mul_nonneg (by positivity) (RQ.l2_nonneg _)), ← GramInv.frob_rows, RQ.l2_const _ (θ_nonneg n)]
      refine le_of_eq ?_
      ring
    -- the distance
    have hnr : (n : ℝ) ≤ 1048576 := by exact_mod_cast hn2
    have hθ := theta_f64 hn2
    have hθ0 := θ_nonneg (α := F64) n
    have c3 : l2 (y - z) ≤ (1 + 1 / 2 ^ 30) * (eps.toReal + 1 / 2 ^ 500) := by
      obtain ⟨D, hDd⟩ : ∃ D : Fin n → ℝ, D = fun i => val (f * W i 0 - v i) := ⟨_, rfl⟩
      rw [← hDd] at hdist
      have hD0 := RQ.l2_nonneg D
      have a1 : l2 (y - z) ≤ l2 ((1 + 1 / 2 ^ 53 : ℝ) • fun i => |D i|) := by
        refine RQ.l2_mono fun i => ?_
        have := (hsub i).2.2.2
        rw [hu] at this
        have e1 : val (f * W i 0) = y i := hyi i
        have e2 : val (v i) = z i := by rw [hz]; rfl
        have e3 : val (f * W i 0 - v i) = D i := by rw [hDd]
        rw [e1, e2, e3] at this
        have b := abs_sub_abs_le_abs_sub (y i - z i) (D i)
        rw [abs_sub_comm] at b
        simp only [Pi.sub_apply, Pi.smul_apply, smul_eq_mul]
        rw [abs_sub_comm (y i - z i)] at b
        rw [abs_sub_comm] at this
        norm_num at this b ⊢
        rw [abs_sub_comm] at b
        grind
      rw [RQ.l2_smul, RQ.l2_abs, abs_of_nonneg (by norm_num)] at a1
      have a2 : γ F64 (n + 2) ≤ 1 / 2 ^ 31 := by
        have := gamma_f64 (k := n + 2) (by omega)
        push_cast at this
        norm_num at this ⊢
        linarith
      have a3 : (1 + u F64) * √(θ F64 n) ≤ 1 / 2 ^ 500 := by
        have b1 : √(θ F64 n) ≤ 1 / 2 ^ 501 := by
          refine Real.sqrt_le_iff.mpr ⟨by positivity, hθ.trans ?_⟩
          unfold tiny
          rw [div_pow, one_pow, one_div_mul_one_div, ← pow_mul, ← pow_add]
          exact one_div_le_one_div_of_le (by positivity) (pow_le_pow_right₀ (by norm_num) (by norm_num))
        have b2 : (1 : ℝ) / 2 ^ 500 = 2 * (1 / 2 ^ 501) := by
          rw [pow_succ _ 500]; field_simp
        rw [b2, hu]
        exact mul_le_mul (by norm_num) b1 (Real.sqrt_nonneg _) (by norm_num)
      have a4 := (abs_le.mp hdist).1
      have a5 := mul_le_mul_of_nonneg_right a2 hD0
      have a6 := heps0.2
      generalize (1 : ℝ) / 2 ^ 500 = r at *
      norm_num at a1 a5 ⊢
      linarith
    have c4 : l2 z ≤ l2 y + l2 (y - z) := by
      have := RQ.l2_le_add z y
      rwa [RQ.l2_sub_comm z y] at this
    have c5 := GramInv.l2_mulVec_le B (y - z)
    have c6 := RQ.l2_add (B.mulVec (y - z)) ((B.mulVec z - w) + (w - μ • y))
    have c7 := RQ.l2_add (B.mulVec z - w) (w - μ • y)
    have hsn : √(n : ℝ) ≤ 2 ^ 10 := Real.sqrt_le_iff.mpr ⟨by norm_num, by norm_num; linarith⟩
    have d1 : √n * θ F64 n ≤ tiny := by
      calc √n * θ F64 n ≤ 2 ^ 10 * (tiny * (1 / 2 ^ 154)) := mul_le_mul hsn hθ hθ0 (by norm_num)
        _ = tiny * (2 ^ 10 * (1 / 2 ^ 154)) := by ring
        _ ≤ tiny := mul_le_of_le_one_right ht.le (by norm_num)
    have d2 : √n * (μ * η F64) ≤ tiny * μ := by
      rw [eta_tiny]
      calc √n * (μ * (tiny * (1 / 2 ^ 175))) ≤ 2 ^ 10 * (μ * (tiny * (1 / 2 ^ 175))) :=
            mul_le_mul_of_nonneg_right hsn (mul_nonneg hμ0.le (mul_nonneg ht.le (by norm_num)))
        _ = tiny * μ * (2 ^ 10 * (1 / 2 ^ 175)) := by ring
        _ ≤ tiny * μ := mul_le_of_le_one_right (mul_nonneg ht.le hμ0.le) (by norm_num)
    have hN : ((n : ℝ) + 1) / 2 ^ 52 ≤ 1 / 2 ^ 31 := by norm_num; linarith
    have d3 : (n + 1) / 2 ^ 52 * (frob B * l2 z) ≤ (n + 1) / 2 ^ 52 * (frob B * l2 y) + 1 / 2 ^ 31 * (frob B * l2 (y - z)) := by
      have b1 := mul_le_mul_of_nonneg_left c4 hF0
      have b2 := mul_le_mul_of_nonneg_left b1 (show (0 : ℝ) ≤ (n + 1) / 2 ^ 52 by positivity)
      have b3 := mul_le_mul_of_nonneg_right hN (mul_nonneg hF0 (RQ.l2_nonneg (y - z)))
      rw [mul_add, mul_add] at b2
      linarith
    have d4 := mul_le_mul_of_nonneg_left c3 hF0
    have d5 : 0 ≤ frob B * (eps.toReal + 1 / 2 ^ 500) := mul_nonneg hF0 (add_nonneg heps0.1 (by positivity))
    have d6 : (1 + 1 / 2 ^ 29) * frob B * (eps.toReal + 1 / 2 ^ 500) = (1 + 1 / 2 ^ 29) * (frob B * (eps.toReal + 1 / 2 ^ 500)) := by ring
    have d7 : frob B * ((1 + 1 / 2 ^ 30) * (eps.toReal + 1 / 2 ^ 500)) = (1 + 1 / 2 ^ 30) * (frob B * (eps.toReal + 1 / 2 ^ 500)) := by ring
    have d8 : ((n + 1) * frob B / 2 ^ 52 + μ / 2 ^ 53) * l2 y = (n + 1) / 2 ^ 52 * (frob B * l2 y) + μ / 2 ^ 53 * l2 y := by ring
    rw [d6, d8]
    rw [d7] at d4
    have d9 : frob B * l2 (y - z) + 1 / 2 ^ 31 * (frob B * l2 (y - z)) ≤ (1 + 1 / 2 ^ 29) * (frob B * (eps.toReal + 1 / 2 ^ 500)) := by
      generalize frob B * (eps.toReal + 1 / 2 ^ 500) = r at *
      generalize frob B * l2 (y - z) = r' at *
      norm_num at d4 ⊢
      linarith only [d4, d5]
    have d10 : tiny * (1 + μ) = tiny + tiny * μ := by ring
    rw [d10]
    linarith only [c1, c2, c5, c6, c7, d1, d2, d3, d9]

/-- C114: a vector that `power_method` returns on doubles, for a finite tolerance, is finite; the matrix was finite; the first two elements of the vector have
largest absolute value 1 up to `2^-50`; and the vector is an approximate eigenvector, with the error of C78 and rounding errors. -/
theorem C114_result {n : Nat} (hn : 0 < n) (hn2 : n ≤ 2 ^ 20) (A : Matrix (Fin n) (Fin n) F64) (q : Fin n → F64) (eps : F64) (he : eps.isFin)
    (fuel : Nat) (x : Mat F64) (h : (ofM A).powerMethod fuel (ofM (colVec q)) eps = .ok x) :
    ∃ (y : Fin n → F64) (μ : ℝ), x = ofM (colVec y) ∧ (∀ i, (y i).isFin) ∧ (∀ i j, (A i j).isFin) ∧ 0 ≤ eps.toReal ∧
      |max |(y ⟨0, hn⟩).toReal| |(y ⟨1 % n, Nat.mod_lt _ hn⟩).toReal| - 1| ≤ 1 / 2 ^ 50 ∧ 0 < μ ∧
      l2 (fun i => ∑ j, (A i j).toReal * (y j).toReal - μ * (y i).toReal) ≤
        (1 + 1 / 2 ^ 29) * √(∑ i, ∑ j, (A i j).toReal ^ 2) * (eps.toReal + 1 / 2 ^ 500) +
          ((n + 1) * √(∑ i, ∑ j, (A i j).toReal ^ 2) / 2 ^ 52 + μ / 2 ^ 53) * l2 (fun i => (y i).toReal) + 1 / 2 ^ 900 * (1 + μ) := by
  obtain ⟨f, hf⟩ := powerMethod_start hn A q eps
  rw [hf] at h
  generalize (fun i => f * q i) = v at h
  induction fuel generalizing v with
  | zero => cases h
  | succ fuel ih =>
    obtain ⟨W, x', f, s, d, h1, h2, h3, h4, h5, h6⟩ := powerLoop_rnd hn A eps v
    rw [h6] at h
    split at h
    · next hle =>
      obtain ⟨a1, a2, a3, a4, μ, a5, a6⟩ := power_step hn hn2 he h1 h2 h3 h4 h5 hle
      exact ⟨_, μ, (Except.ok.inj h).symm, a1, a2, a4, a3, a5, a6⟩
    · exact ih _ h

/-- Near an approximate eigenvalue of a symmetric matrix there is an eigenvalue. -/
theorem near_eigenvalue {n : Nat} (hn : 0 < n) {A : Matrix (Fin n) (Fin n) ℝ} (hA : A.IsSymm) (y : Fin n → ℝ) (μ : ℝ) :
    ∃ (l : ℝ) (z : Fin n → ℝ), z ≠ 0 ∧ A.mulVec z = l • z ∧ |l - μ| * l2 y ≤ l2 (A.mulVec y - μ • y) := by
  obtain ⟨W, l, hW, -, hA'⟩ := spectral hA
  obtain ⟨k, -, hk⟩ := Finset.exists_min_image Finset.univ (fun i : Fin n => |l i - μ|) ⟨⟨0, hn⟩, Finset.mem_univ _⟩
  have hWt : W.transpose * W = 1 := hW
  refine ⟨l k, W.mulVec (Pi.single k 1), ?_, ?_, ?_⟩
  · intro h0
    have h1 := RQ.l2_orth hWt (Pi.single k 1)
    rw [h0, RQ.l2_zero, GramInv.l2_single] at h1
    exact zero_ne_one h1
  · rw [hA', Matrix.mulVec_mulVec, Matrix.mul_assoc, Matrix.mul_assoc, hWt, Matrix.mul_one, ← Matrix.mulVec_mulVec, Matrix.diagonal_mulVec_single]
    rw [← Matrix.mulVec_smul]
    congr 1
    rw [← Pi.single_smul, smul_eq_mul]
  · have hW2 : W.transpose.transpose * W.transpose = 1 := by rw [Matrix.transpose_transpose]; exact hW.right
    have e1 : W.transpose.mulVec (A.mulVec y - μ • y) = fun i => (l i - μ) * W.transpose.mulVec y i := by
      rw [Matrix.mulVec_sub, Matrix.mulVec_smul, Matrix.mulVec_mulVec, hA', ← Matrix.mul_assoc, ← Matrix.mul_assoc, hWt, Matrix.one_mul,
        ← Matrix.mulVec_mulVec]
      funext i
      rw [Pi.sub_apply, Matrix.mulVec_diagonal, Pi.smul_apply, smul_eq_mul, sub_mul]
    rw [← RQ.l2_orth hW2 (A.mulVec y - μ • y), ← RQ.l2_orth hW2 y, e1, ← abs_of_nonneg (abs_nonneg (l k - μ)), ← RQ.l2_smul, ← RQ.l2_abs (fun i => _ * _),
      ← RQ.l2_abs (_ • _)]
    refine RQ.l2_mono fun i => ?_
    rw [abs_abs, Pi.smul_apply, smul_eq_mul, abs_mul, abs_abs, abs_mul]
    exact mul_le_mul_of_nonneg_right (hk i (Finset.mem_univ _)) (abs_nonneg _)

/-- C114: for a symmetric matrix there is an eigenvalue close to the factor `μ`. -/
theorem C114_symmetric {n : Nat} (hn : 0 < n) (hn2 : n ≤ 2 ^ 20) (A : Matrix (Fin n) (Fin n) F64) (hA : ∀ i j, A i j = A j i) (q : Fin n → F64)
    (eps : F64) (he : eps.isFin) (fuel : Nat) (x : Mat F64) (h : (ofM A).powerMethod fuel (ofM (colVec q)) eps = .ok x) :
    ∃ (y : Fin n → F64) (μ l : ℝ) (z : Fin n → ℝ), x = ofM (colVec y) ∧ 0 < μ ∧ z ≠ 0 ∧ (A.map F64.toReal).mulVec z = l • z ∧
      1 - 1 / 2 ^ 50 ≤ l2 (fun i => (y i).toReal) ∧
      |l - μ| * l2 (fun i => (y i).toReal) ≤ (1 + 1 / 2 ^ 29) * √(∑ i, ∑ j, (A i j).toReal ^ 2) * (eps.toReal + 1 / 2 ^ 500) +
          ((n + 1) * √(∑ i, ∑ j, (A i j).toReal ^ 2) / 2 ^ 52 + μ / 2 ^ 53) * l2 (fun i => (y i).toReal) + 1 / 2 ^ 900 * (1 + μ) := by
  obtain ⟨y, μ, h1, h2, h3, h4, h5, h6, h7⟩ := C114_result hn hn2 A q eps he fuel x h
  have hs : (A.map F64.toReal).IsSymm := by
    ext i j
    show (A j i).toReal = (A i j).toReal
    rw [hA]
  obtain ⟨l, z, a1, a2, a3⟩ := near_eigenvalue hn hs (fun i => (y i).toReal) μ
  refine ⟨y, μ, l, z, h1, h6, a1, a2, ?_, a3.trans h7⟩
  have b1 := (abs_le.mp h5).1
  have b2 : max |(y ⟨0, hn⟩).toReal| |(y ⟨1 % n, Nat.mod_lt _ hn⟩).toReal| ≤ l2 fun i => (y i).toReal :=
    max_le (GramInv.entry_le_l2 (fun i => (y i).toReal) _) (GramInv.entry_le_l2 (fun i => (y i).toReal) _)
  linarith

/-- Four iterations on a diagonal matrix. -/
example : (ofM (!![dec 2 0, 0; 0, 1] : Matrix (Fin 2) (Fin 2) F64)).powerMethod 4 (ofM (colVec ![1, 1])) (two (-4)) =
    .ok (ofM (colVec ![1, two (-4)])) ∧ (two (-4)).isFin := by
  constructor <;> decide +kernel

end LA.Props
