import Verif.Props.Forward
import Verif.Props.QRRounding
import Verif.Props.QR
import Verif.Props.SVD
import Verif.Proofs.StdFrob
import Verif.Proofs.Weyl

/-!
# C103: `pinverse` in floating-point arithmetic

`pinverse()` factors `A = Q R`, computes `G = RᵀR`, inverts `G` to `Z`, and returns the product of `Z` and `Aᵀ`.  In exact arithmetic this is `(AᵀA)⁻¹Aᵀ`
(C39).  Here each of the four steps rounds.
-/

namespace LA.Props
open LA Finset Fp Matrix
open _root_.LA.RQ (l2)
set_option linter.unusedSectionVars false

section
variable {α : Type} [Zero α] [One α] [Add α] [Sub α] [Neg α] [Mul α] [FloatOps α] [Fp α] {m n : Nat}

/-- How far, in the Frobenius norm, `A` is from `Q R`, with an orthogonal `Q`: C77, for all columns together. -/
noncomputable def qrErr (A R : Matrix (Fin m) (Fin n) α) : ℝ :=
  qrDelta α m n * frobenius (A.map val) + √n * qrRho R

/-- How far the computed `RᵀR` is from `AᵀA`. -/
noncomputable def gramErr (A R : Matrix (Fin m) (Fin n) α) : ℝ :=
  2 * frobenius (A.map val) * qrErr A R + qrErr A R ^ 2 + γ α (m + 1) * frobenius (R.map val) ^ 2 + n * θ α m

/-- How far the computed product `Z Aᵀ` is from the exact one. -/
noncomputable def productErr (A : Matrix (Fin m) (Fin n) α) (Z : Matrix (Fin n) (Fin n) α) : ℝ :=
  γ α (n + 1) * (frobenius (Z.map val) * frobenius (A.map val)) + √(n * m : Nat) * θ α n

/-- How far the computed `Z` is from inverting the computed `RᵀR` (C74). -/
noncomputable def inverseErr (L U Z : Matrix (Fin n) (Fin n) α) : ℝ := frobenius (Matrix.of fun i j => solveErr L U Z i j)

/-- How far the result of `pinverse()` is from solving `AᵀA X = Aᵀ`. -/
noncomputable def pinvErr (A R : Matrix (Fin m) (Fin n) α) (L U Z : Matrix (Fin n) (Fin n) α) : ℝ :=
  frobenius (A.map val) ^ 2 * productErr A Z + (gramErr A R * frobenius (Z.map val) + inverseErr L U Z) * frobenius (A.map val)

/-! ## Frobenius norms -/

theorem frobenius_nonneg (M : Matrix (Fin m) (Fin n) ℝ) : 0 ≤ frobenius M := frob_nonneg M

/-- Permuting the rows does not change the norm. -/
theorem frobenius_perm (σ : Equiv.Perm (Fin m)) (M : Matrix (Fin m) (Fin n) ℝ) : frobenius (M.submatrix σ id) = frobenius M := by
  unfold frobenius
  congr 1
  exact Equiv.sum_comp σ fun i => ∑ j, M i j ^ 2

theorem frobenius_abs (M : Matrix (Fin m) (Fin n) ℝ) : frobenius (Matrix.of fun i j => |M i j|) = frobenius M := by
  unfold frobenius
  simp [sq_abs]

theorem frobenius_const (t : ℝ) (ht : 0 ≤ t) : frobenius (Matrix.of fun (_ : Fin m) (_ : Fin n) => t) = √(m * n : Nat) * t := by
  unfold frobenius
  simp only [Matrix.of_apply, sum_const, card_univ, Fintype.card_fin, nsmul_eq_mul]
  rw [← mul_assoc, Real.sqrt_mul (by positivity), Real.sqrt_sq ht]
  push_cast
  rfl

/-- A product of computed matrices: the bound of C61 in the Frobenius norm. -/
theorem product_frobenius {p : Nat} {A : Matrix (Fin m) (Fin p) α} {B : Matrix (Fin p) (Fin n) α} {C : Matrix (Fin m) (Fin n) α}
    (h : ∀ i j, |val (C i j) - ∑ k, val (A i k) * val (B k j)| ≤ γ α (p + 1) * (∑ k, |val (A i k)| * |val (B k j)|) + θ α p) :
    frobenius (C.map val - A.map val * B.map val) ≤
      γ α (p + 1) * (frobenius (A.map val) * frobenius (B.map val)) + √(m * n : Nat) * θ α p := by
  have hγ := γ_nonneg (α := α) (p + 1)
  have hθ := θ_nonneg (α := α) p
  have h1 : frob (C.map val - A.map val * B.map val) ≤
      frob (γ α (p + 1) • ((Matrix.of fun i j => |A.map val i j|) * (Matrix.of fun i j => |B.map val i j|)) + Matrix.of fun _ _ => θ α p) := by
    refine frob_mono fun i j => ?_
    have := h i j
    simpa [Matrix.mul_apply] using this
  refine h1.trans ((frob_add_le _ _).trans (add_le_add ?_ (le_of_eq (frobenius_const _ hθ))))
  rw [frob_smul, abs_of_nonneg hγ]
  refine mul_le_mul_of_nonneg_left ((frob_mul_le _ _).trans (le_of_eq ?_)) hγ
  exact congr_arg₂ (· * ·) (frobenius_abs _) (frobenius_abs _)

/-- Columns that are close make matrices that are close. -/
theorem columns_frobenius {E A : Matrix (Fin m) (Fin n) ℝ} {δ ρ : ℝ} (hδ : 0 ≤ δ) (hρ : 0 ≤ ρ)
    (h : ∀ j, l2 (fun i => E i j) ≤ δ * l2 (fun i => A i j) + ρ) : frobenius E ≤ δ * frobenius A + √n * ρ := by
  have key : ∀ M : Matrix (Fin m) (Fin n) ℝ, frobenius M = l2 (fun j => l2 fun i => M i j) := by
    intro M
    unfold frobenius
    rw [sum_comm]
    unfold RQ.l2
    congr 1
    refine sum_congr rfl fun j _ => ?_
    rw [Real.sq_sqrt (sum_nonneg fun _ _ => sq_nonneg _)]
  rw [key, key]
  have h1 : l2 (fun j => l2 fun i => E i j) ≤ l2 (δ • (fun j => l2 fun i => A i j) + fun _ => ρ) := by
    refine RQ.l2_mono fun j => ?_
    rw [abs_of_nonneg (RQ.l2_nonneg _)]
    exact h j
  refine h1.trans ((RQ.l2_add _ _).trans ?_)
  rw [RQ.l2_smul, abs_of_nonneg hδ, RQ.l2_const _ hρ]

/-- If `A = Q R + E` with orthogonal `Q`, then `AᵀA` is close to `RᵀR`. -/
theorem gram_close {A R : Matrix (Fin m) (Fin n) ℝ} {Q : Matrix (Fin m) (Fin m) ℝ} (hQ : Qᵀ * Q = 1) :
    frobenius (Aᵀ * A - Rᵀ * R) ≤ 2 * frobenius A * frobenius (A - Q * R) + frobenius (A - Q * R) ^ 2 := by
  set E := A - Q * R with hE
  have h1 : Aᵀ * A - Rᵀ * R = Aᵀ * E + Eᵀ * A - Eᵀ * E := by
    have e : Rᵀ * R = (A - E)ᵀ * (A - E) := by
      rw [show A - E = Q * R by rw [hE]; abel, Matrix.transpose_mul, Matrix.mul_assoc, ← Matrix.mul_assoc Qᵀ, hQ, Matrix.one_mul]
    clear_value E
    rw [e]
    simp only [Matrix.transpose_sub, Matrix.sub_mul, Matrix.mul_sub]
    abel
  rw [h1]
  have a1 := frob_mul_le Aᵀ E
  have a2 := frob_mul_le Eᵀ A
  have a3 := frob_mul_le Eᵀ E
  rw [frob_transpose] at a1 a2 a3
  have b1 := frob_sub_le (Aᵀ * E + Eᵀ * A) (Eᵀ * E)
  have b2 := frob_add_le (Aᵀ * E) (Eᵀ * A)
  show frob (Aᵀ * E + Eᵀ * A - Eᵀ * E) ≤ 2 * frob A * frob E + frob E ^ 2
  have : frob E ^ 2 = frob E * frob E := sq _
  have : frob E * frob A = frob A * frob E := mul_comm _ _
  linarith

/-! ## The four steps -/

/-- The steps of `pinverse()`, and what each of them guarantees. -/
theorem pinv_rounding (hm : 0 < m) (hn : 0 < n) (A : Matrix (Fin m) (Fin n) α) (hε : γ α (m + 4) ≤ 1 / 64) :
    ∃ (x : QR α) (R H : Matrix (Fin m) (Fin n) α) (G : Matrix (Fin n) (Fin n) α) (y : LU α) (σ : Equiv.Perm (Fin n))
      (L U : Matrix (Fin n) (Fin n) α),
      QR.new (ofM A) = .ok x ∧ x.getR = .ok (ofM R) ∧ x.getH = .ok (ofM H) ∧ (ofM R.transpose).mul (ofM R) = .ok (ofM G) ∧
      LU.new (ofM G) = .ok y ∧ y.getPiv = (List.ofFn fun i => (σ i).1) ∧ y.getL = .ok (ofM L) ∧ y.getU = .ok (ofM U) ∧
      ((∀ i j, fin (R i j)) → (∀ i j, fin (H i j)) → QRRange R H → (∀ i j, fin (G i j)) →
        frobenius ((A.map val)ᵀ * A.map val - G.map val) ≤ gramErr A R) ∧
      ((∀ i k, fin (L i k)) → (∀ k c, fin (U k c)) → ∃ E : Matrix (Fin n) (Fin n) ℝ,
        frobenius E ≤ frobenius (Matrix.of fun i c => factorErr L U i c) ∧
        (G.map val + E).det = Equiv.Perm.sign σ * ∏ i, val (U i i)) ∧
      ((∃ i, FloatOps.eq (U i i) 0 = true) ∧ (ofM A).pinverse = .error .unwrap ∨
       (∀ i, FloatOps.eq (U i i) 0 = false) ∧ ∃ (Z : Matrix (Fin n) (Fin n) α) (X : Matrix (Fin n) (Fin m) α),
        (ofM G).inverse = .ok (some (ofM Z)) ∧ (ofM A).pinverse = .ok (ofM X) ∧
        ((∀ i j, fin (X i j)) → (∀ i j, fin (Z i j)) ∧ frobenius (X.map val - Z.map val * (A.map val)ᵀ) ≤ productErr A Z) ∧
        ((∀ i k, fin (L i k)) → (∀ k c, fin (U k c)) → (∀ i j, fin (Z i j)) →
          frobenius (1 - G.map val * Z.map val) ≤ inverseErr L U Z)) := by
  obtain ⟨x, R, H, h1, h2, h3, h4⟩ := C77_backward hm hn A hε
  obtain ⟨G, g1, g2⟩ := C61_mul hn hm R.transpose R
  obtain ⟨y, σ, L, U, k1, k2, k3, k4, k5⟩ := C74_inverse hn G
  obtain ⟨y', σ', L', U', l1, l2', l3, l4, l5⟩ := factor_near hn G
  obtain rfl : y' = y := by rw [k1] at l1; exact (Except.ok.inj l1).symm
  obtain rfl : L' = L := ofM_inj (by rw [k3] at l3; exact (Except.ok.inj l3).symm)
  obtain rfl : U' = U := ofM_inj (by rw [k4] at l4; exact (Except.ok.inj l4).symm)
  obtain rfl : σ' = σ := by
    rw [k2] at l2'
    have := List.ofFn_injective l2'
    exact Equiv.ext fun i => Fin.ext (congr_fun this i).symm
  refine ⟨x, R, H, G, y', σ', L', U', h1, h2, h3, g1, k1, k2, k3, k4, fun hR hH hrange hG => ?_, fun hL hU => ?_, ?_⟩
  · obtain ⟨hA, Q, q1, q2⟩ := h4 hR hH hrange
    have e1 : frobenius (A.map val - Q * R.map val) ≤ qrErr A R := by
      refine columns_frobenius qrDelta_nonneg (qrRho_nonneg R) fun j => ?_
      have := q2 j
      simpa [Matrix.mul_apply] using this
    have e2 := gram_close (A := A.map val) (R := R.map val) q1
    have e3 := product_frobenius (A := R.transpose) (B := R) (C := G) (fun i j => g2 i j (hG i j))
    have e4 : frobenius (R.transpose.map val) = frobenius (R.map val) := frob_transpose (R.map val)
    have e5 : √(n * n : Nat) = (n : ℝ) := by
      push_cast
      exact Real.sqrt_mul_self (by positivity)
    rw [e4, e5] at e3
    have e6 := frob_tri ((A.map val)ᵀ * A.map val) ((R.map val)ᵀ * R.map val) (G.map val)
    have e7 : frob ((R.map val)ᵀ * R.map val - G.map val) = frobenius (G.map val - R.transpose.map val * R.map val) := frob_sub_comm _ _
    rw [e7] at e6
    have hA0 := frobenius_nonneg (A.map val)
    have hE0 := frobenius_nonneg (A.map val - Q * R.map val)
    have e8 : 2 * frobenius (A.map val) * frobenius (A.map val - Q * R.map val) ≤ 2 * frobenius (A.map val) * qrErr A R :=
      mul_le_mul_of_nonneg_left e1 (by linarith)
    have e9 : frobenius (A.map val - Q * R.map val) ^ 2 ≤ qrErr A R ^ 2 := pow_le_pow_left₀ hE0 e1 2
    unfold gramErr
    have e10 : frobenius (R.map val) ^ 2 = frobenius (R.map val) * frobenius (R.map val) := sq _
    rw [e10]
    exact e6.trans (by
      have : frob ((A.map val)ᵀ * A.map val - (R.map val)ᵀ * R.map val) = frobenius ((A.map val)ᵀ * A.map val - (R.map val)ᵀ * R.map val) := rfl
      rw [this]
      linarith)
  · obtain ⟨E, hE, hd⟩ := l5 hL hU
    refine ⟨E, ?_, hd⟩
    rw [← frobenius_perm σ' E]
    exact frob_mono fun i j => hE i j
  · rcases k5 with ⟨hz, hnone⟩ | ⟨hnz, Z, hinv, hres⟩
    · refine Or.inl ⟨hz, ?_⟩
      unfold Mat.pinverse
      rw [h1, ok_bind, h2, ok_bind, t_ofM hm, ok_bind, g1, ok_bind, hnone, ok_bind]
      rfl
    · obtain ⟨X, x1, x2⟩ := C61_mul hn hn Z A.transpose
      refine Or.inr ⟨hnz, Z, X, hinv, ?_, fun hX => ⟨fun i j => ?_, ?_⟩, fun hL hU hZ => ?_⟩
      · unfold Mat.pinverse
        rw [h1, ok_bind, h2, ok_bind, t_ofM hm, ok_bind, g1, ok_bind, hinv, ok_bind]
        simp only [unwrap, ok_bind]
        rw [t_ofM hm, ok_bind, x1]
      · have x3 := C10_mul_general hn hn Z A.transpose
        rw [x1] at x3
        have x4 := ofM_inj (Except.ok.inj x3)
        have hf := hX i ⟨0, hm⟩
        rw [x4] at hf
        have e : (List.finRange n).foldl (fun s k => s + Z i k * A.transpose k ⟨0, hm⟩) 0 =
            fdot (fun k => ext Z i k) (fun k => ext A.transpose k 0) n := by
          unfold fdot
          rw [← foldl_facc]
          have : ∀ k : Fin n, ext A.transpose k 0 = A.transpose k ⟨0, hm⟩ := fun k => ext_eq A.transpose k.2 hm
          simp [this]
        simp only [Matrix.of_apply] at hf
        rw [e] at hf
        have := ((fdot_err _ _ n hf).1 j j.2).1
        rwa [ext_fin] at this
      · have e3 := product_frobenius (A := Z) (B := A.transpose) (C := X) (fun i j => x2 i j (hX i j))
        have e4 : frobenius (A.transpose.map val) = frobenius (A.map val) := frob_transpose (A.map val)
        rw [e4] at e3
        exact e3
      · have := hres hL hU hZ
        rw [← frobenius_perm σ' (1 - G.map val * Z.map val)]
        refine frob_mono fun i j => ?_
        have := this i j
        simpa [Matrix.mul_apply, solveErr] using this

/-- C103: unless it panics, `pinverse()` returns a matrix that satisfies the normal equations `AᵀA X = Aᵀ` up to the error `pinvErr`, a sum of products of norms
with factors of the size of the unit roundoff. It panics exactly if a pivot of the computed `RᵀR` is zero. -/
theorem C103_pinverse (hm : 0 < m) (hn : 0 < n) (A : Matrix (Fin m) (Fin n) α) (hε : γ α (m + 4) ≤ 1 / 64) :
    ∃ (x : QR α) (R H : Matrix (Fin m) (Fin n) α) (G : Matrix (Fin n) (Fin n) α) (y : LU α) (L U : Matrix (Fin n) (Fin n) α),
      QR.new (ofM A) = .ok x ∧ x.getR = .ok (ofM R) ∧ x.getH = .ok (ofM H) ∧ (ofM R.transpose).mul (ofM R) = .ok (ofM G) ∧
      LU.new (ofM G) = .ok y ∧ y.getL = .ok (ofM L) ∧ y.getU = .ok (ofM U) ∧
      ((∃ i, FloatOps.eq (U i i) 0 = true) ∧ (ofM A).pinverse = .error .unwrap ∨
       (∀ i, FloatOps.eq (U i i) 0 = false) ∧ ∃ (Z : Matrix (Fin n) (Fin n) α) (X : Matrix (Fin n) (Fin m) α),
        (ofM G).inverse = .ok (some (ofM Z)) ∧ (ofM A).pinverse = .ok (ofM X) ∧
        ((∀ i j, fin (R i j)) → (∀ i j, fin (H i j)) → QRRange R H → (∀ i j, fin (G i j)) → (∀ i k, fin (L i k)) → (∀ k c, fin (U k c)) →
          (∀ i j, fin (X i j)) → frobenius ((A.map val)ᵀ * A.map val * X.map val - (A.map val)ᵀ) ≤ pinvErr A R L U Z)) := by
  obtain ⟨x, R, H, G, y, σ, L, U, h1, h2, h3, h4, h5, h6, h7, h8, h9, -, h10⟩ := pinv_rounding hm hn A hε
  refine ⟨x, R, H, G, y, L, U, h1, h2, h3, h4, h5, h7, h8, ?_⟩
  refine h10.imp id fun ⟨a1, Z, X, a2, a3, a4, a5⟩ => ⟨a1, Z, X, a2, a3, fun hR hH hr hG hL hU hX => ?_⟩
  obtain ⟨hZ, b1⟩ := a4 hX
  have b2 := a5 hL hU hZ
  have b3 := h9 hR hH hr hG
  generalize hA' : A.map val = B at *
  generalize hX' : X.map val = Y at *
  generalize hZ' : Z.map val = W at *
  generalize hG' : G.map val = K at *
  have e : Bᵀ * B * Y - Bᵀ = Bᵀ * (B * (Y - W * Bᵀ)) + ((Bᵀ * B - K) * W - (1 - K * W)) * Bᵀ := by
    simp only [Matrix.mul_sub, Matrix.sub_mul, Matrix.one_mul, Matrix.mul_assoc]
    abel
  rw [e]
  have c1 := frob_mul_le Bᵀ (B * (Y - W * Bᵀ))
  have c2 := frob_mul_le B (Y - W * Bᵀ)
  have c3 := frob_mul_le ((Bᵀ * B - K) * W - (1 - K * W)) Bᵀ
  have c4 := frob_sub_le ((Bᵀ * B - K) * W) (1 - K * W)
  have c5 := frob_mul_le (Bᵀ * B - K) W
  have c6 := frob_add_le (Bᵀ * (B * (Y - W * Bᵀ))) (((Bᵀ * B - K) * W - (1 - K * W)) * Bᵀ)
  rw [frob_transpose] at c1 c3
  have nB := frob_nonneg B
  have nW := frob_nonneg W
  change frob (Y - W * Bᵀ) ≤ _ at b1
  change frob (1 - K * W) ≤ _ at b2
  change frob (Bᵀ * B - K) ≤ _ at b3
  change frob _ ≤ _
  unfold pinvErr
  rw [hA', hZ']
  change _ ≤ frob B ^ 2 * productErr A Z + (gramErr A R * frob W + inverseErr L U Z) * frob B
  have d1 : frob B * frob (B * (Y - W * Bᵀ)) ≤ frob B ^ 2 * productErr A Z := by
    calc frob B * frob (B * (Y - W * Bᵀ)) ≤ frob B * (frob B * frob (Y - W * Bᵀ)) := mul_le_mul_of_nonneg_left c2 nB
      _ = frob B ^ 2 * frob (Y - W * Bᵀ) := by ring
      _ ≤ _ := mul_le_mul_of_nonneg_left b1 (by positivity)
  have d2 : frob ((Bᵀ * B - K) * W - (1 - K * W)) ≤ gramErr A R * frob W + inverseErr L U Z := by
    have := mul_le_mul_of_nonneg_right b3 nW
    linarith
  have d3 := mul_le_mul_of_nonneg_right d2 nB
  linarith

/-- C103: and so it is close to the Moore-Penrose inverse `(AᵀA)⁻¹Aᵀ` of a matrix with independent columns. -/
theorem C103_forward (hm : 0 < m) (hn : 0 < n) (A : Matrix (Fin m) (Fin n) α) (hε : γ α (m + 4) ≤ 1 / 64)
    (hA : FullColumnRank (A.map val)) :
    ∃ (x : QR α) (R H : Matrix (Fin m) (Fin n) α) (G : Matrix (Fin n) (Fin n) α) (y : LU α) (L U : Matrix (Fin n) (Fin n) α),
      QR.new (ofM A) = .ok x ∧ x.getR = .ok (ofM R) ∧ x.getH = .ok (ofM H) ∧ (ofM R.transpose).mul (ofM R) = .ok (ofM G) ∧
      LU.new (ofM G) = .ok y ∧ y.getL = .ok (ofM L) ∧ y.getU = .ok (ofM U) ∧
      ((∃ i, FloatOps.eq (U i i) 0 = true) ∧ (ofM A).pinverse = .error .unwrap ∨
       (∀ i, FloatOps.eq (U i i) 0 = false) ∧ ∃ (Z : Matrix (Fin n) (Fin n) α) (X : Matrix (Fin n) (Fin m) α),
        (ofM G).inverse = .ok (some (ofM Z)) ∧ (ofM A).pinverse = .ok (ofM X) ∧
        ((∀ i j, fin (R i j)) → (∀ i j, fin (H i j)) → QRRange R H → (∀ i j, fin (G i j)) → (∀ i k, fin (L i k)) → (∀ k c, fin (U k c)) →
          (∀ i j, fin (X i j)) →
          frobenius (X.map val - ((A.map val)ᵀ * A.map val)⁻¹ * (A.map val)ᵀ) ≤
            frobenius ((A.map val)ᵀ * A.map val)⁻¹ * pinvErr A R L U Z)) := by
  obtain ⟨x, R, H, G, y, L, U, h1, h2, h3, h4, h5, h7, h8, h9⟩ := C103_pinverse hm hn A hε
  refine ⟨x, R, H, G, y, L, U, h1, h2, h3, h4, h5, h7, h8, ?_⟩
  refine h9.imp id fun ⟨a1, Z, X, a2, a3, a4⟩ => ⟨a1, Z, X, a2, a3, fun hR hH hr hG hL hU hX => ?_⟩
  have b := a4 hR hH hr hG hL hU hX
  have hu : IsUnit ((A.map val)ᵀ * A.map val).det := isUnit_iff_ne_zero.mpr ((gram_det_ne_zero_iff _).2 hA)
  generalize A.map val = B at *
  have e : X.map val - (Bᵀ * B)⁻¹ * Bᵀ = (Bᵀ * B)⁻¹ * (Bᵀ * B * X.map val - Bᵀ) := by
    rw [Matrix.mul_sub, ← Matrix.mul_assoc _ (Bᵀ * B), Matrix.nonsing_inv_mul _ hu, Matrix.one_mul]
  rw [e]
  exact (frob_mul_le _ _).trans (mul_le_mul_of_nonneg_left b (frob_nonneg _))

/-- C103: it panics only if `AᵀA` is singular or within the rounding errors of a singular matrix. -/
theorem C103_panics (hm : 0 < m) (hn : 0 < n) (A : Matrix (Fin m) (Fin n) α) (hε : γ α (m + 4) ≤ 1 / 64) :
    ∃ (x : QR α) (R H : Matrix (Fin m) (Fin n) α) (G : Matrix (Fin n) (Fin n) α) (y : LU α) (L U : Matrix (Fin n) (Fin n) α),
      QR.new (ofM A) = .ok x ∧ x.getR = .ok (ofM R) ∧ x.getH = .ok (ofM H) ∧ (ofM R.transpose).mul (ofM R) = .ok (ofM G) ∧
      LU.new (ofM G) = .ok y ∧ y.getL = .ok (ofM L) ∧ y.getU = .ok (ofM U) ∧
      ((∀ i j, fin (R i j)) → (∀ i j, fin (H i j)) → QRRange R H → (∀ i j, fin (G i j)) → (∀ i k, fin (L i k)) → (∀ k c, fin (U k c)) →
        ∀ e, (ofM A).pinverse = .error e → e = .unwrap ∧ ∃ E : Matrix (Fin n) (Fin n) ℝ,
          frobenius E ≤ gramErr A R + frobenius (Matrix.of fun i c => factorErr L U i c) ∧ ((A.map val)ᵀ * A.map val + E).det = 0) := by
  obtain ⟨x, R, H, G, y, σ, L, U, h1, h2, h3, h4, h5, h6, h7, h8, h9, h11, h10⟩ := pinv_rounding hm hn A hε
  refine ⟨x, R, H, G, y, L, U, h1, h2, h3, h4, h5, h7, h8, fun hR hH hr hG hL hU e he => ?_⟩
  rcases h10 with ⟨⟨i, hi⟩, hp⟩ | ⟨-, Z, X, -, hp, -⟩
  · rw [hp] at he
    refine ⟨(Except.error.inj he).symm, ?_⟩
    obtain ⟨E, e1, e2⟩ := h11 hL hU
    refine ⟨E - ((A.map val)ᵀ * A.map val - G.map val), ?_, ?_⟩
    · have := frob_sub_le E ((A.map val)ᵀ * A.map val - G.map val)
      have b3 := h9 hR hH hr hG
      change frob _ ≤ _ at b3
      change frob _ ≤ _ at e1
      change frob _ ≤ _
      linarith
    · have : (A.map val)ᵀ * A.map val + (E - ((A.map val)ᵀ * A.map val - G.map val)) = G.map val + E := by abel
      rw [this, e2]
      have : val (U i i) = 0 := by rw [(Fp.eq _ _ (hU i i) Fp.zero.1).1 hi, Fp.zero.2]
      rw [prod_eq_zero (mem_univ i) this, mul_zero]
  · rw [hp] at he; cases he

end

/-! ## `f64` -/

/-- The condition on `γ` holds for doubles. -/
theorem f64_gamma {m n : Nat} (hm : 0 < m) (hn : 0 < n) (hs : (m + 4) * min m n ≤ 2 ^ 40) : γ F64 (m + 4) ≤ 1 / 64 := (f64_bounds hm hn hs).1

/-- C103 is false without the rounding errors: the columns of this matrix are independent (the determinant is `-2^-30`), but the squares are lost when `RᵀR` is
computed, and `pinverse()` panics. -/
theorem C103_refuted_panics :
    (ofM (!![two 0, two 0; two (-30), 0] : Matrix (Fin 2) (Fin 2) F64)).pinverse = .error .unwrap ∧
    FullColumnRank ((!![two 0, two 0; two (-30), 0] : Matrix (Fin 2) (Fin 2) F64).map F64.toReal) := by
  refine ⟨by decide +kernel, ?_⟩
  have t0 : (two 0).toReal = 1 := by
    have : two 0 = 1 := by decide +kernel
    rw [this]
    exact (Fp.one (α := F64)).2
  have tz : (0 : F64).toReal = 0 := (Fp.zero (α := F64)).2
  have t1 : (two (-30)).toReal ≠ 0 := by
    have h : two (-30) = .fin false (2 ^ 1044) (by decide +kernel) := by decide +kernel
    rw [h, f64_fin_toReal]
    push_cast
    positivity
  intro x hx
  have e0 := congr_fun hx 0
  have e1 := congr_fun hx 1
  simp only [Matrix.mulVec, dotProduct, Fin.sum_univ_two, Matrix.map_apply, Matrix.of_apply, Matrix.cons_val', Matrix.cons_val_zero,
    Matrix.cons_val_one, Matrix.cons_val_fin_one, t0, tz, one_mul, zero_mul, add_zero, Pi.zero_apply] at e0 e1
  have hx0 : x 0 = 0 := (mul_eq_zero.mp e1).resolve_left t1
  rw [hx0, zero_add] at e0
  funext i
  fin_cases i
  · exact hx0
  · exact e0

/-- And a wide matrix, for which `AᵀA` is singular and `pinverse()` panics in exact arithmetic (`C39_wide`), can get an answer: for the row `(7, 0.3)` it is zero. -/
theorem C103_refuted_wide :
    (ofM (!![dec 7 0, dec 3 (-1)] : Matrix (Fin 1) (Fin 2) F64)).pinverse = .ok (ofM (!![0; 0] : Matrix (Fin 2) (Fin 1) F64)) := by
  decide +kernel

/-- The hypotheses of `C103_pinverse` and `C103_forward` hold for the matrix `[3, 0; 4, 5; 0, 0]`; the result is off by units in the last place. -/
example : ∃ (x : QR F64) (R H : Matrix (Fin 3) (Fin 2) F64) (G : Matrix (Fin 2) (Fin 2) F64) (y : LU F64) (L U Z : Matrix (Fin 2) (Fin 2) F64)
    (X : Matrix (Fin 2) (Fin 3) F64),
    γ F64 (3 + 4) ≤ 1 / 64 ∧
    QR.new (ofM !![dec 3 0, dec 0 0; dec 4 0, dec 5 0; 0, 0]) = .ok x ∧ x.getR = .ok (ofM R) ∧ x.getH = .ok (ofM H) ∧
    (ofM R.transpose).mul (ofM R) = .ok (ofM G) ∧ LU.new (ofM G) = .ok y ∧ y.getL = .ok (ofM L) ∧ y.getU = .ok (ofM U) ∧
    (ofM G).inverse = .ok (some (ofM Z)) ∧ (ofM !![dec 3 0, dec 0 0; dec 4 0, dec 5 0; 0, 0]).pinverse = .ok (ofM X) ∧
    (∀ i j, (R i j).isFin) ∧ (∀ i j, (H i j).isFin) ∧ QRRange R H ∧ (∀ i j, (G i j).isFin) ∧ (∀ i j, (L i j).isFin) ∧ (∀ i j, (U i j).isFin) ∧
    (∀ i j, (X i j).isFin) ∧ X 0 1 ≠ 0 := by
  refine ⟨⟨ofM !![dec 8 0, dec (-4) 0; dec 4 0, dec 6 0; 0, 0], [dec (-5) 0, dec (-3) 0]⟩,
    !![dec (-5) 0, dec (-4) 0; 0, dec (-3) 0; 0, 0], !![dec 8 0, 0; dec 4 0, dec 6 0; 0, 0], !![dec 25 0, dec 20 0; dec 20 0, dec 25 0],
    ⟨ofM !![dec 25 0, dec 20 0; F64.ofRat 3602879701896397 (2 ^ 52), dec 9 0], true, [0, 1]⟩,
    !![dec 1 0, 0; F64.ofRat 3602879701896397 (2 ^ 52), dec 1 0], !![dec 25 0, dec 20 0; 0, dec 9 0],
    !![F64.ofRat 2001599834386887 (2 ^ 54), F64.ofRat (-6405119470038039) (2 ^ 56);
      F64.ofRat (-6405119470038039) (2 ^ 56), F64.ofRat 2001599834386887 (2 ^ 54)],
    !![F64.ofRat 6004799503160661 (2 ^ 54), F64.ofRat (-1) (2 ^ 54), 0;
      F64.ofRat (-4803839602528529) (2 ^ 54), F64.ofRat 3602879701896397 (2 ^ 54), 0],
    f64_gamma (n := 2) (by norm_num) (by norm_num) (by norm_num),
    by decide +kernel, by decide +kernel, by decide +kernel, by decide +kernel, by decide +kernel, by decide +kernel, by decide +kernel,
    by decide +kernel, by decide +kernel, ?_, ?_, f64_range (by norm_num) ?_, ?_, ?_, ?_, ?_, by decide +kernel⟩
  · intro i j; fin_cases i <;> fin_cases j <;> decide +kernel
  · intro i j; fin_cases i <;> fin_cases j <;> decide +kernel
  · intro i k hik
    right
    fin_cases k
    · obtain rfl : i = 0 := Fin.ext hik
      exact f64_inRange (by decide +kernel) (by decide +kernel) (by decide +kernel)
    · obtain rfl : i = 1 := Fin.ext hik
      exact f64_inRange (by decide +kernel) (by decide +kernel) (by decide +kernel)
  · intro i j; fin_cases i <;> fin_cases j <;> decide +kernel
  · intro i j; fin_cases i <;> fin_cases j <;> decide +kernel
  · intro i j; fin_cases i <;> fin_cases j <;> decide +kernel
  · intro i j; fin_cases i <;> fin_cases j <;> decide +kernel

end LA.Props
