import Verif.Props.CholeskyBlocks
import Verif.Props.Echelon

/-!
# C124: solving unconnected systems

With the decomposition of a block diagonal matrix, `solve` returns the solutions of the blocks (up to the sign of zeros).
-/

namespace LA.Props
open LA F64 Cholesky.Rnd

section
variable {n p q : Nat}

theorem facc_split (z : F64) (f : Nat → F64) (n r : Nat) :
    facc (· - ·) z f (n + r) = facc (· - ·) (facc (· - ·) z f n) (fun t => f (n + t)) r := by
  induction r with
  | zero => rfl
  | succ r ih =>
    show facc (· - ·) z f (n + r) - f (n + r) = facc (· - ·) (facc (· - ·) z f n) (fun t => f (n + t)) r - f (n + r)
    rw [ih]

theorem facc_start_fin {z : F64} {f : Nat → F64} {k : Nat} (h : (facc (· - ·) z f k).isFin) : z.isFin := by
  induction k with
  | zero => exact h
  | succ k ih => exact ih (Fp.sub (α := F64) _ _ h).1

/-- Substitution in a block lower triangular factor with a zero block. -/
theorem blocks_solve (hn : 0 < n) (hp : 0 < p) (hq : 0 < q) {G : Nat → Nat → F64} {G₁ G₂ : Nat → Nat → F64}
    (e1 : ∀ i k, i < n → k ≤ i → G i k = G₁ i k) (e2 : ∀ i k, i < p → k ≤ i → G (n + i) (n + k) = G₂ i k)
    (hz : ∀ i k, i < p → k < n → isZero (G (n + i) k)) (d2 : ∀ i, i < p → ¬ isZero (G₂ i i)) (d1 : ∀ i, i < n → ¬ isZero (G₁ i i))
    (B : Matrix (Fin (n + p)) (Fin q) F64) {X₁ : Matrix (Fin n) (Fin q) F64} {X₂ : Matrix (Fin p) (Fin q) F64}
    (h1 : Cholesky.solve ⟨ofM (Matrix.of fun (i : Fin n) (j : Fin n) => G₁ i j)⟩ (ofM (B.submatrix (Fin.castAdd p) id)) = .ok (ofM X₁))
    (h2 : Cholesky.solve ⟨ofM (Matrix.of fun (i : Fin p) (j : Fin p) => G₂ i j)⟩ (ofM (B.submatrix (Fin.natAdd n) id)) = .ok (ofM X₂))
    (f1 : ∀ i j, (X₁ i j).isFin) (f2 : ∀ i j, (X₂ i j).isFin) :
    ∃ X : Matrix (Fin (n + p)) (Fin q) F64,
      Cholesky.solve ⟨ofM (Matrix.of fun (i : Fin (n + p)) (j : Fin (n + p)) => G i j)⟩ (ofM B) = .ok (ofM X) ∧
      (∀ i j, Agree (X (Fin.castAdd p i) j) (X₁ i j)) ∧ ∀ i j, Agree (X (Fin.natAdd n i) j) (X₂ i j) := by
  obtain ⟨Z1, Y1, s1, y1, x1⟩ := solve_ok hn hq G₁ (B.submatrix (Fin.castAdd p) id)
  obtain ⟨Z2, Y2, s2, y2, x2⟩ := solve_ok hp hq G₂ (B.submatrix (Fin.natAdd n) id)
  obtain ⟨Z, Y, s, y, x⟩ := solve_ok (show 0 < n + p by omega) hq G B
  rw [h1] at s1
  rw [h2] at s2
  obtain rfl := ofM_inj (Except.ok.inj s1)
  obtain rfl := ofM_inj (Except.ok.inj s2)
  have b1 : ∀ i j, i < n → j < q → ext (B.submatrix (Fin.castAdd p) id) i j = ext B i j := by
    intro i j hi hj
    rw [ext_eq _ hi hj, ext_eq B (show i < n + p by omega) hj]; rfl
  have b2 : ∀ i j, i < p → j < q → ext (B.submatrix (Fin.natAdd n) id) i j = ext B (n + i) j := by
    intro i j hi hj
    rw [ext_eq _ hi hj, ext_eq B (show n + i < n + p by omega) hj]; rfl
  -- forward substitution
  have yy1 : ∀ i j, i < n → j < q → Y i j = Y1 i j := by
    intro i
    induction i using Nat.strong_induction_on with
    | _ i ih =>
      intro j hi hj
      have a := y i j (by omega) hj
      have b := y1 i j hi hj
      rw [b1 i j hi hj] at b
      rw [e1 i i hi le_rfl, facc_congr (y := fun t => Y1 t j * G₁ i t) fun t ht => by rw [ih t ht j (by omega) hj, e1 i t hi ht.le], b] at a
      exact (Except.ok.inj a).symm
  have fy1 : ∀ i j, i < n → j < q → (Y1 i j).isFin := fun i j hi hj =>
    facc_start_fin (Fp.div (α := F64) _ _ _ (x1 i j hi hj) (f1 ⟨i, hi⟩ ⟨j, hj⟩)).1
  have yy2 : ∀ i j, i < p → j < q → Agree (Y (n + i) j) (Y2 i j) := by
    intro i
    induction i using Nat.strong_induction_on with
    | _ i ih =>
      intro j hi hj
      rw [rdiv_ok (y (n + i) j (by omega) hj), rdiv_ok (y2 i j hi hj), b2 i j hi hj, e2 i i hi le_rfl, facc_split]
      refine Agree.div (sub_facc_agree (sub_zeros_agree fun t ht => ?_) fun t ht => ?_) (Agree.refl _) (d2 i hi)
      · rw [F64.mul_comm, yy1 t j ht hj]
        exact zero_mul_fin (hz i t hi ht) (fy1 t j ht hj)
      · beta_reduce
        rw [e2 i t hi ht.le]
        exact (ih t ht j (by omega) hj).mul (Agree.refl _)
  -- back substitution
  have xx2 : ∀ r i j, i + r + 1 = p → j < q → Agree (Z (n + i) j) (Z2 i j) := by
    intro r
    induction r using Nat.strong_induction_on with
    | _ r ih =>
      intro i j hi hj
      have hip : i < p := by omega
      rw [rdiv_ok (x (n + i) j (by omega) hj), rdiv_ok (x2 i j hip hj), e2 i i hip le_rfl,
        show n + p - (n + i + 1) = p - (i + 1) by omega]
      refine Agree.div (sub_facc_agree (yy2 i j hip hj) fun t ht => ?_) (Agree.refl _) (d2 i hip)
      rw [show n + i + 1 + t = n + (i + 1 + t) by omega, e2 (i + 1 + t) i (by omega) (by omega)]
      exact (ih (r - 1 - t) (by omega) (i + 1 + t) j (by omega) hj).mul (Agree.refl _)
  have fz2 : ∀ i j, i < p → j < q → (Z (n + i) j).isFin := fun i j hi hj =>
    agree_fin (xx2 (p - 1 - i) i j (by omega) hj) (f2 ⟨i, hi⟩ ⟨j, hj⟩)
  have xx1 : ∀ r i j, i + r + 1 = n → j < q → Agree (Z i j) (Z1 i j) := by
    intro r
    induction r using Nat.strong_induction_on with
    | _ r ih =>
      intro i j hi hj
      have hin : i < n := by omega
      rw [rdiv_ok (x i j (by omega) hj), rdiv_ok (x1 i j hin hj), e1 i i hin le_rfl,
        show n + p - (i + 1) = (n - (i + 1)) + p by omega, facc_split]
      refine Agree.div ((sub_zeros_agree fun t ht => ?_).trans (sub_facc_agree (by rw [yy1 i j hin hj]; exact Agree.refl _) fun t ht => ?_))
        (Agree.refl _) (d1 i hin)
      · rw [show i + 1 + (n - (i + 1) + t) = n + t by omega, F64.mul_comm]
        exact zero_mul_fin (hz t i ht hin) (fz2 t j ht hj)
      · beta_reduce
        rw [e1 (i + 1 + t) i (by omega) (by omega)]
        exact (ih (r - 1 - t) (by omega) (i + 1 + t) j (by omega) hj).mul (Agree.refl _)
  exact ⟨_, s, fun i j => xx1 (n - 1 - i) i j (by omega) j.2, fun i j => xx2 (p - 1 - i) i j (by omega) j.2⟩

/-- C124: the solution of a block diagonal system consists of the solutions of the blocks (up to the sign of zeros). -/
theorem C124_solve (hn : 0 < n) (hp : 0 < p) (hq : 0 < q) (A : Matrix (Fin (n + p)) (Fin (n + p)) F64)
    (hz : ∀ i j, isZero (A (Fin.natAdd n i) (Fin.castAdd p j)) ∧ isZero (A (Fin.castAdd p j) (Fin.natAdd n i)))
    {L₁ : Matrix (Fin n) (Fin n) F64} {L₂ : Matrix (Fin p) (Fin p) F64}
    (h1 : Cholesky.new (ofM (A.submatrix (Fin.castAdd p) (Fin.castAdd p))) = .ok (some ⟨ofM L₁⟩))
    (h2 : Cholesky.new (ofM (A.submatrix (Fin.natAdd n) (Fin.natAdd n))) = .ok (some ⟨ofM L₂⟩))
    (hf1 : ∀ i j, (L₁ i j).isFin) (hf2 : ∀ i j, (L₂ i j).isFin)
    (B : Matrix (Fin (n + p)) (Fin q) F64) {X₁ : Matrix (Fin n) (Fin q) F64} {X₂ : Matrix (Fin p) (Fin q) F64}
    (s1 : Cholesky.solve ⟨ofM L₁⟩ (ofM (B.submatrix (Fin.castAdd p) id)) = .ok (ofM X₁))
    (s2 : Cholesky.solve ⟨ofM L₂⟩ (ofM (B.submatrix (Fin.natAdd n) id)) = .ok (ofM X₂))
    (f1 : ∀ i j, (X₁ i j).isFin) (f2 : ∀ i j, (X₂ i j).isFin) :
    ∃ (c : Cholesky F64) (X : Matrix (Fin (n + p)) (Fin q) F64), Cholesky.new (ofM A) = .ok (some c) ∧ c.solve (ofM B) = .ok (ofM X) ∧
      (∀ i j, Agree (X (Fin.castAdd p i) j) (X₁ i j)) ∧ ∀ i j, Agree (X (Fin.natAdd n i) j) (X₂ i j) := by
  rcases C124_blocks hn hp A hz h1 hf1 with ⟨h, -⟩ | ⟨L₂', L, h2', h, a1, a2, a3, a4⟩
  · rw [h2] at h
    cases h
  rw [h2] at h2'
  obtain rfl : L₂ = L₂' := ofM_inj (congrArg Cholesky.l (Option.some.inj (Except.ok.inj h2')))
  have dpos : ∀ {m : Nat} (hm : 0 < m) {A : Matrix (Fin m) (Fin m) F64} {L : Matrix (Fin m) (Fin m) F64},
      Cholesky.new (ofM A) = .ok (some ⟨ofM L⟩) → (∀ i j, (L i j).isFin) → ∀ i, i < m → ¬ isZero (ext L i i) := by
    intro m hm A L h hf i hi h0
    obtain ⟨o, ho, hp⟩ := new_post hm A
    rw [h] at ho
    obtain rfl := Except.ok.inj ho
    obtain ⟨G, e, hG⟩ := hp
    obtain rfl := ofM_inj (congrArg Cholesky.l e)
    rw [ext_eq _ hi hi] at h0
    exact fin_val_pos_ne (diag_pos hG (fun a b ha hb => hf ⟨a, ha⟩ ⟨b, hb⟩) ⟨i, hi⟩) (F64.eq_zero_iff.2 h0)
  have ofe : ∀ {m : Nat} (L : Matrix (Fin m) (Fin m) F64), L = Matrix.of fun (i : Fin m) (j : Fin m) => ext L i j := by
    intro m L
    ext i j
    exact (ext_eq L i.2 j.2).symm
  obtain ⟨X, hX, c1, c2⟩ := blocks_solve hn hp hq (G := ext L) (G₁ := ext L₁) (G₂ := ext L₂)
    (fun i k hi hk => by
      rw [ext_eq L (show i < n + p by omega) (show k < n + p by omega), ext_eq L₁ hi (show k < n by omega)]
      exact a1 ⟨i, hi⟩ ⟨k, by omega⟩)
    (fun i k hi hk => by
      rw [ext_eq L (show n + i < n + p by omega) (show n + k < n + p by omega), ext_eq L₂ hi (show k < p by omega)]
      exact a2 ⟨i, hi⟩ ⟨k, by omega⟩)
    (fun i k hi hk => by
      rw [ext_eq L (show n + i < n + p by omega) (show k < n + p by omega)]
      exact a4 ⟨i, hi⟩ ⟨k, hk⟩)
    (dpos hp h2 hf2) (dpos hn h1 hf1) B (by rw [← ofe]; exact s1) (by rw [← ofe]; exact s2) f1 f2
  exact ⟨_, X, h, by rw [ofe L]; exact hX, c1, c2⟩

end

section Examples

/-- The systems `4 x = 8` and `4, 2; 2, 5` with right hand side `8, 8` solved together. -/
example : (do
      let c ← Cholesky.new (ofM !![dec 4 0, 0, 0; 0, dec 4 0, dec 2 0; 0, dec 2 0, dec 5 0])
      match c with
      | none => .error .unwrap
      | some c => c.solve (ofM !![dec 8 0; dec 8 0; dec 8 0])) = .ok (ofM !![dec 2 0; dec 15 (-1); 1]) ∧
    Cholesky.solve ⟨ofM !![dec 2 0]⟩ (ofM !![dec 8 0]) = .ok (ofM !![dec 2 0]) ∧
    Cholesky.solve ⟨ofM !![dec 2 0, 0; 1, dec 2 0]⟩ (ofM !![dec 8 0; dec 8 0]) = .ok (ofM !![dec 15 (-1); 1]) :=
  ⟨by decide +kernel, by decide +kernel, by decide +kernel⟩

end Examples

end LA.Props
