import Verif.Proofs.LUScale
import Verif.Proofs.QRScale
import Verif.Props.Elementwise
import Verif.Proofs.RndSolve
import Verif.Proofs.RndLU2

/-!
# C121: changing units by powers of two

Multiplying the columns of a matrix by powers of two (other units for the unknowns) changes no digit of any result: with unlimited exponents
(`Fu`: 53 significant bits, no overflow, no underflow) every pivot, factor, solution and determinant is the same up to the same powers.
-/

namespace LA.Props
open LA Fu

section
variable {m n p : Nat}

theorem of_ext_fu (G : Matrix (Fin m) (Fin n) Fu) : (Matrix.of fun (i : Fin m) (j : Fin n) => ext G i j) = G := by
  ext i j : 2
  exact ext_fin G i j

theorem facc_sub_fu {g : ℤ} {z z' : Fu} {f f' : Nat → Fu} {n : Nat} (hz : Sc g z z') (h : ∀ k, k < n → Sc g (f k) (f' k)) :
    Sc g (facc (· - ·) z f n) (facc (· - ·) z' f' n) := by
  induction n with
  | zero => exact hz
  | succ k ih => exact (ih fun i hi => h i (by omega)).sub (h k (by omega))

theorem facc_add_fu {g : ℤ} {z z' : Fu} {f f' : Nat → Fu} {n : Nat} (hz : Sc g z z') (h : ∀ k, k < n → Sc g (f k) (f' k)) :
    Sc g (facc (· + ·) z f n) (facc (· + ·) z' f' n) := by
  induction n with
  | zero => exact hz
  | succ k ih => exact (ih fun i hi => h i (by omega)).add (h k (by omega))

theorem facc_mul_fu {g : Nat → ℤ} {z : Fu} {f f' : Nat → Fu} {n : Nat} (h : ∀ k, k < n → Sc (g k) (f k) (f' k)) :
    Sc (∑ k ∈ Finset.range n, g k) (facc (· * ·) z f n) (facc (· * ·) z f' n) := by
  induction n with
  | zero => exact Sc.refl z
  | succ k ih =>
    rw [Finset.sum_range_succ]
    exact (ih fun i hi => h i (by omega)).mul (h k (by omega))

theorem eq_fu (x y : Fu) : (FloatOps.eq x y : Bool) = decide (x.q = y.q) := rfl

theorem rdiv_fu (x y : Fu) (h : FloatOps.eq y 0 = false) : ∃ z, RDiv.rdiv x y = .ok z := by
  have h0 : ¬ y.q = 0 := fun e => by rw [eq_fu, e] at h; exact absurd h (by decide)
  exact ⟨⟨rnd (x.q / y.q)⟩, if_neg h0⟩

/-- C121: the decompositions: the same pivots, the same `L`; the columns of `U` in the new units. -/
theorem C121_factors (hm : 0 < m) (hn : 0 < n) {A A' : Matrix (Fin m) (Fin n) Fu} {t : Fin n → ℤ}
    (h : ∀ i j, (A' i j).q = (A i j).q * 2 ^ t j) :
    ∃ (x x' : LU Fu) (L : Matrix (Fin m) (Fin (min m n)) Fu) (U U' : Matrix (Fin (min m n)) (Fin n) Fu),
      LU.new (ofM A) = .ok x ∧ LU.new (ofM A') = .ok x' ∧ x'.getPiv = x.getPiv ∧ x.getL = .ok (ofM L) ∧ x'.getL = .ok (ofM L) ∧
      x.getU = .ok (ofM U) ∧ x'.getU = .ok (ofM U') ∧ ∀ i j, (U' i j).q = (U i j).q * 2 ^ t j := by
  obtain ⟨G, G', pos, σ, h1, h2, h3⟩ := LU.Scale.new_sim hm hn h
  have a1 := LU.Rnd.getL_ok (ext G) hm hn pos (List.ofFn fun i => (σ i).1)
  have a2 := LU.Rnd.getL_ok (ext G') hm hn pos (List.ofFn fun i => (σ i).1)
  have b1 := LU.Rnd.getU_ok (ext G) hm hn pos (List.ofFn fun i => (σ i).1)
  have b2 := LU.Rnd.getU_ok (ext G') hm hn pos (List.ofFn fun i => (σ i).1)
  rw [of_ext_fu] at a1 a2 b1 b2
  have hL : LU.Rnd.lowerA m (min m n) (ext G') = LU.Rnd.lowerA m (min m n) (ext G) := by
    ext i j : 2
    have hi := i.2
    have hj := j.2
    simp only [LU.Rnd.lowerA, Matrix.of_apply]
    split
    · rename_i hji
      rw [ext_eq G' hi (by omega), ext_eq G hi (by omega)]
      have := h3 i ⟨j, by omega⟩
      rw [if_pos hji] at this
      exact this.eq
    · rfl
  rw [hL] at a2
  refine ⟨_, _, _, _, _, h1, h2, rfl, a1, a2, b1, b2, fun i j => ?_⟩
  have hi := i.2
  have hj := j.2
  simp only [LU.Rnd.upperA, Matrix.of_apply]
  split
  · rename_i hij
    rw [ext_eq G' (by omega) hj, ext_eq G (by omega) hj]
    have := h3 ⟨i, by omega⟩ j
    rw [if_neg (by dsimp only; omega)] at this
    exact this
  · exact Sc.zero _

/-- C121: whether the matrix is recognised as singular does not depend on the units. -/
theorem C121_singular (hn : 0 < n) {A A' : Matrix (Fin n) (Fin n) Fu} {t : Fin n → ℤ} (h : ∀ i j, (A' i j).q = (A i j).q * 2 ^ t j) :
    (ofM A').isNonSingular = (ofM A).isNonSingular := by
  obtain ⟨G, G', pos, σ, h1, h2, h3⟩ := LU.Scale.new_sim hn hn h
  have a1 := LU.Rnd.isNonSingular_ok hn (ext G) pos (List.ofFn fun i => (σ i).1)
  have a2 := LU.Rnd.isNonSingular_ok hn (ext G') pos (List.ofFn fun i => (σ i).1)
  rw [of_ext_fu] at a1 a2
  unfold Mat.isNonSingular
  rw [ofM_cols A hn, ofM_cols A' hn]
  simp only [ok_bind, ofM_rows, beq_self_eq_true, assert_true, h1, h2]
  rw [a1, a2]
  congr 2
  apply propext
  refine forall_congr' fun i => ?_
  have := h3 i i
  rw [if_neg (lt_irrefl _)] at this
  rw [ext_fin, ext_fin, eq_fu, eq_fu]
  have hz : (G' i i).q = (0 : Fu).q ↔ (G i i).q = (0 : Fu).q := this.zero_iff
  simp only [hz]

/-- C121: the solution of the system in other units (unknown `i` in units `2^{t i}`, right-hand side `j` in units `2^{r j}`). -/
theorem C121_solve (hn : 0 < n) (hp : 0 < p) {A A' : Matrix (Fin n) (Fin n) Fu} {B B' : Matrix (Fin n) (Fin p) Fu} {t : Fin n → ℤ} {r : Fin p → ℤ}
    (h : ∀ i j, (A' i j).q = (A i j).q * 2 ^ t j) (hB : ∀ i j, (B' i j).q = (B i j).q * 2 ^ r j) :
    (ofM A).solve (ofM B) = .ok none ∧ (ofM A').solve (ofM B') = .ok none ∨
    ∃ X X' : Matrix (Fin n) (Fin p) Fu, (ofM A).solve (ofM B) = .ok (some (ofM X)) ∧ (ofM A').solve (ofM B') = .ok (some (ofM X')) ∧
      ∀ i j, (X' i j).q = (X i j).q * 2 ^ (r j - t i) := by
  obtain ⟨G, G', pos, σ, h1, h2, h3⟩ := LU.Scale.new_sim hn hn h
  have e3 : ∀ i j, i < n → j < n → ∀ g, (∀ hj : j < n, g = if j < i then 0 else t ⟨j, hj⟩) → Sc g (ext G i j) (ext G' i j) := by
    intro i j hi hj g hg
    rw [ext_eq G hi hj, ext_eq G' hi hj]
    exact (h3 ⟨i, hi⟩ ⟨j, hj⟩).cast (hg hj).symm
  unfold Mat.solve
  rw [h1, h2, ok_bind, ok_bind]
  have s1 := LU.Rnd.solve_ok' hn hp (ext G) pos σ B rdiv_fu
  have s2 := LU.Rnd.solve_ok' hn hp (ext G') pos σ B' rdiv_fu
  rw [of_ext_fu] at s1 s2
  have hd : ∀ i : Fin n, (FloatOps.eq (ext G' i i) 0 : Bool) = FloatOps.eq (ext G i i) 0 := fun i => by
    have := e3 i i i.2 i.2 (t i) fun _ => by rw [if_neg (lt_irrefl _)]
    have hz : (ext G' i i).q = (0 : Fu).q ↔ (ext G i i).q = (0 : Fu).q := this.zero_iff
    rw [eq_fu, eq_fu]
    simp only [hz]
  rcases s1 with ⟨a, b⟩ | ⟨a, X, Y, b, hY, hX⟩ <;> rcases s2 with ⟨c, d⟩ | ⟨c, X', Y', d, hY', hX'⟩
  · exact Or.inl ⟨b, d⟩
  · obtain ⟨i, hi⟩ := a; rw [← hd, c i] at hi; cases hi
  · obtain ⟨i, hi⟩ := c; rw [hd, a i] at hi; cases hi
  · refine Or.inr ⟨_, _, b, d, fun i j => ?_⟩
    have fy : ∀ k (hk : k < n), Sc (r j) (Y k j) (Y' k j) := by
      intro k
      induction k using Nat.strong_induction_on with
      | _ k ih =>
        intro hk
        have y1 := hY ⟨k, hk⟩ j
        have y2 := hY' ⟨k, hk⟩ j
        dsimp only at y1 y2
        rw [y1, y2]
        refine facc_sub_fu (hB _ j) fun l hl' => ?_
        have := (ih l hl' (by omega)).mul (e3 k l hk (by omega) 0 fun _ => by rw [if_pos hl'])
        exact this.cast (add_zero _)
    have fx : ∀ k i (hi : i < n), i + k = n - 1 → Sc (r j - t ⟨i, hi⟩) (X i j) (X' i j) := by
      intro k
      induction k using Nat.strong_induction_on with
      | _ k ih =>
        intro i hi hk
        have x1 := hX ⟨i, hi⟩ j
        have x2 := hX' ⟨i, hi⟩ j
        dsimp only at x1 x2
        have hg := e3 i i hi hi (t ⟨i, hi⟩) fun _ => by rw [if_neg (lt_irrefl _)]
        have hacc : Sc (r j) (facc (· - ·) (Y i j) (fun s => X (n - 1 - s) j * ext G i (n - 1 - s)) (n - 1 - i))
            (facc (· - ·) (Y' i j) (fun s => X' (n - 1 - s) j * ext G' i (n - 1 - s)) (n - 1 - i)) := by
          refine facc_sub_fu (fy i hi) fun l hl' => ?_
          have := (ih l (by omega) (n - 1 - l) (by omega) (by omega)).mul (e3 i (n - 1 - l) hi (by omega) (t ⟨n - 1 - l, by omega⟩)
            fun _ => by rw [if_neg (by omega)])
          exact this.cast (sub_add_cancel _ _)
        rcases hacc.div hg with ⟨e, -⟩ | ⟨z, z', e, e', hz⟩
        · rw [e] at x1; cases x1
        · rw [e] at x1; rw [e'] at x2
          obtain rfl := Except.ok.inj x1
          obtain rfl := Except.ok.inj x2
          exact hz
    exact fx (n - 1 - i) i i.2 (by omega)

/-- C121: the inverse in other units. -/
theorem C121_inverse (hn : 0 < n) {A A' : Matrix (Fin n) (Fin n) Fu} {t : Fin n → ℤ} (h : ∀ i j, (A' i j).q = (A i j).q * 2 ^ t j) :
    (ofM A).inverse = .ok none ∧ (ofM A').inverse = .ok none ∨
    ∃ X X' : Matrix (Fin n) (Fin n) Fu, (ofM A).inverse = .ok (some (ofM X)) ∧ (ofM A').inverse = .ok (some (ofM X')) ∧
      ∀ i j, (X' i j).q = (X i j).q * 2 ^ (-t i) := by
  have e : ∀ A : Matrix (Fin n) (Fin n) Fu, (ofM A).inverse = (ofM A).solve (ofM (1 : Matrix (Fin n) (Fin n) Fu)) := fun A => by
    unfold Mat.inverse Mat.solve
    rw [ofM_cols A hn, ok_bind, ofM_rows, beq_self_eq_true, assert_true, ok_bind, C05_id_square]
    rfl
  rw [e A, e A']
  rcases C121_solve hn hn (r := fun _ => 0) h (B := 1) (B' := 1) (fun i j => by simp) with h1 | ⟨X, X', h1, h2, h3⟩
  · exact Or.inl h1
  · refine Or.inr ⟨X, X', h1, h2, fun i j => ?_⟩
    rw [h3, zero_sub]

theorem det_packed_fu (hn : 0 < n) (G : Nat → Nat → Fu) (pos : Bool) (piv : List Nat) :
    LU.det ⟨ofM (Matrix.of fun (i j : Fin n) => G i j), pos, piv⟩ = .ok (facc (· * ·) (if pos then 1 else -1) (fun k => G k k) n) := by
  unfold LU.det
  simp only [ofM_cols _ hn, ofM_rows, ok_bind, beq_self_eq_true, assert_true]
  refine Post.eq_ok ((loop_post (fun k d => d = facc (· * ·) (if pos then 1 else -1) (fun k => G k k) k) (Nat.zero_le n)
    (by simp [facc]) ?_).mono fun d h => h)
  rintro k d - hk rfl
  rw [idx_ofM _ hk hk, ok_bind]
  exact Post.ok rfl

/-- C121: the determinant is multiplied by the product of the powers, exactly. -/
theorem C121_det (hn : 0 < n) {A A' : Matrix (Fin n) (Fin n) Fu} {t : Fin n → ℤ} (h : ∀ i j, (A' i j).q = (A i j).q * 2 ^ t j) :
    ∃ d d' : Fu, (ofM A).det = .ok d ∧ (ofM A').det = .ok d' ∧ d'.q = d.q * 2 ^ ∑ j, t j := by
  obtain ⟨G, G', pos, σ, h1, h2, h3⟩ := LU.Scale.new_sim hn hn h
  have a1 := det_packed_fu hn (ext G) pos (List.ofFn fun i => (σ i).1)
  have a2 := det_packed_fu hn (ext G') pos (List.ofFn fun i => (σ i).1)
  rw [of_ext_fu] at a1 a2
  unfold Mat.det
  simp only [ofM_cols A hn, ofM_cols A' hn, ofM_rows, ok_bind, beq_self_eq_true, assert_true, h1, h2]
  refine ⟨_, _, a1, a2, ?_⟩
  have := facc_mul_fu (g := fun k => if hk : k < n then t ⟨k, hk⟩ else 0) (z := if pos then 1 else -1) (f := fun k => ext G k k) (f' := fun k => ext G' k k) (n := n)
    fun k hk => by
      rw [ext_eq G hk hk, ext_eq G' hk hk]
      have := h3 ⟨k, hk⟩ ⟨k, hk⟩
      rw [if_neg (lt_irrefl _)] at this
      exact this.cast (by rw [dif_pos hk])
  rw [Finset.sum_range] at this
  exact this.cast (Finset.sum_congr rfl fun k _ => by rw [dif_pos k.2])

/-- An exponent for every index. -/
def onNat (t : Fin n → ℤ) (k : Nat) : ℤ := if h : k < n then t ⟨k, h⟩ else 0

theorem onNat_val (t : Fin n → ℤ) (k : Fin n) : onNat t k = t k := by unfold onNat; rw [dif_pos k.2]

/-- C121: the QR decomposition: the same `Q`, the columns of `R` and of the reflection vectors in the new units. -/
theorem C121_qr (hm : 0 < m) (hn : 0 < n) {A A' : Matrix (Fin m) (Fin n) Fu} {t : Fin n → ℤ}
    (h : ∀ i j, (A' i j).q = (A i j).q * 2 ^ t j) {x : QR Fu} (hx : QR.new (ofM A) = .ok x) :
    ∃ x', QR.new (ofM A') = .ok x' ∧ x'.getQ = x.getQ ∧ x'.isFullRank = x.isFullRank ∧
      (∀ R : Matrix (Fin m) (Fin n) Fu, x.getR = .ok (ofM R) →
        ∃ R' : Matrix (Fin m) (Fin n) Fu, x'.getR = .ok (ofM R') ∧ ∀ i j, (R' i j).q = (R i j).q * 2 ^ t j) ∧
      ∀ H : Matrix (Fin m) (Fin n) Fu, x.getH = .ok (ofM H) →
        ∃ H' : Matrix (Fin m) (Fin n) Fu, x'.getH = .ok (ofM H') ∧ ∀ i j, (H' i j).q = (H i j).q * 2 ^ t j := by
  have hs := QR.Scale.new_sim (t := onNat t) hm fun i j => (show Sc (t j) (A i j) (A' i j) from h i j).cast (onNat_val t j).symm
  rw [hx] at hs
  rcases hs with ⟨e, h1, -⟩ | ⟨y, x', h1, h2, h3⟩
  · cases h1
  obtain rfl := Except.ok.inj h1
  refine ⟨x', h2, ?_, ?_, fun R hR => ?_, fun H hH => ?_⟩
  · rcases QR.Scale.getQ_sim hm hn h3 with ⟨e, h4, h5⟩ | ⟨a, b, h4, h5, h6⟩
    · rw [h4, h5]
    · rw [h4, h5, h6]
  · rcases QR.Scale.isFullRank_sim hm hn h3 with ⟨e, h4, h5⟩ | ⟨a, b, h4, h5, h6⟩
    · rw [h4, h5]
    · rw [h4, h5, h6]
  · have := QR.Scale.getR_sim hm hn h3
    rw [hR] at this
    rcases this with ⟨e, h4, -⟩ | ⟨a, b, h4, h5, Y, Y', h6, h7, h8⟩
    · cases h4
    have h4 := Except.ok.inj h4
    subst h6 h7
    obtain rfl := ofM_inj h4
    exact ⟨Y', h5, fun i j => (h8 i j).cast (onNat_val t j)⟩
  · have := QR.Scale.getH_sim hm hn h3
    rw [hH] at this
    rcases this with ⟨e, h4, -⟩ | ⟨a, b, h4, h5, Y, Y', h6, h7, h8⟩
    · cases h4
    have h4 := Except.ok.inj h4
    subst h6 h7
    obtain rfl := ofM_inj h4
    exact ⟨Y', h5, fun i j => (h8 i j).cast (onNat_val t j)⟩

/-- C121: the Cholesky decomposition, every variable in its own unit: refused for the same matrices; row `i` of `L` in the unit of variable `i`. -/
theorem C121_cholesky (hn : 0 < n) {A A' : Matrix (Fin n) (Fin n) Fu} {s : Fin n → ℤ}
    (h : ∀ i j, (A' i j).q = (A i j).q * 2 ^ (s i + s j)) :
    (Cholesky.new (ofM A) = .ok none → Cholesky.new (ofM A') = .ok none) ∧
    ∀ L : Matrix (Fin n) (Fin n) Fu, Cholesky.new (ofM A) = .ok (some ⟨ofM L⟩) →
      ∃ L' : Matrix (Fin n) (Fin n) Fu, Cholesky.new (ofM A') = .ok (some ⟨ofM L'⟩) ∧ ∀ i j, (L' i j).q = (L i j).q * 2 ^ s i := by
  have hs := Cholesky.Scale.new_sim (s := onNat s) hn fun i j =>
    (show Sc (s i + s j) (A i j) (A' i j) from h i j).cast (by rw [onNat_val, onNat_val])
  refine ⟨fun h1 => ?_, fun L h1 => ?_⟩
  · rw [h1] at hs
    rcases hs with ⟨e, h2, -⟩ | ⟨y, x', h2, h3, h4⟩
    · cases h2
    obtain rfl := Except.ok.inj h2
    cases x' with
    | none => exact h3
    | some c => exact h4.elim
  · rw [h1] at hs
    rcases hs with ⟨e, h2, -⟩ | ⟨y, x', h2, h3, h4⟩
    · cases h2
    obtain rfl := Except.ok.inj h2
    cases x' with
    | none => exact h4.elim
    | some c =>
      obtain ⟨Y, Y', h6, h7, h8⟩ := h4
      obtain rfl := ofM_inj h6
      obtain ⟨l⟩ := c
      dsimp only at h7
      subst h7
      exact ⟨Y', h3, fun i j => (h8 i j).cast (onNat_val s i)⟩

theorem forward_length {l x z : List Fu} {n nx : Nat} (h : Cholesky.forward l n nx x = .ok z) : z.length = x.length := by
  have hset : ∀ {d d' : List Fu} {p : Nat} {y : Fu}, setIdx d p y = .ok d' → d'.length = d.length := by
    intro d d' p y h
    unfold setIdx at h
    split at h
    · cases h; simp
    · cases h
  unfold Cholesky.forward at h
  refine loop_inv_ok (fun _ (y : List Fu) => y.length = x.length) (Nat.zero_le n) h rfl fun k a b _ _ h0 h1 => ?_
  refine loop_inv_ok (fun _ (y : List Fu) => y.length = x.length) (Nat.zero_le nx) h1 h0 fun j a b _ _ h0 h1 => ?_
  obtain ⟨c, h2, h3⟩ := bind_eq_ok.1 h1
  have hc := loop_inv_ok (fun _ (y : List Fu) => y.length = x.length) (Nat.zero_le k) h2 h0 fun i a b _ _ h0 h1 => by
    obtain ⟨_, -, h1⟩ := bind_eq_ok.1 h1
    obtain ⟨_, -, h1⟩ := bind_eq_ok.1 h1
    obtain ⟨_, -, h1⟩ := bind_eq_ok.1 h1
    rw [hset h1, h0]
  obtain ⟨_, -, h3⟩ := bind_eq_ok.1 h3
  obtain ⟨_, -, h3⟩ := bind_eq_ok.1 h3
  obtain ⟨_, -, h3⟩ := bind_eq_ok.1 h3
  rw [hset h3, hc]

/-- C121: the solution by the Cholesky decomposition in other units. -/
theorem C121_cholesky_solve (hn : 0 < n) {L L' : Matrix (Fin n) (Fin n) Fu} {B B' : Matrix (Fin n) (Fin p) Fu} {s : Fin n → ℤ}
    {r : Fin p → ℤ} (h : ∀ i j, (L' i j).q = (L i j).q * 2 ^ s i) (hB : ∀ i j, (B' i j).q = (B i j).q * 2 ^ (s i + r j))
    {X : Matrix (Fin n) (Fin p) Fu} (hX : Cholesky.solve ⟨ofM L⟩ (ofM B) = .ok (ofM X)) :
    ∃ X' : Matrix (Fin n) (Fin p) Fu, Cholesky.solve ⟨ofM L'⟩ (ofM B') = .ok (ofM X') ∧ ∀ i j, (X' i j).q = (X i j).q * 2 ^ (r j - s i) := by
  have hl : LRel (fun q => onNat s (q / n)) (ofM L).data (ofM L').data := lrel_ofM fun i j =>
    (show Sc (s i) (L i j) (L' i j) from h i j).cast (by rw [row_div j.2, onNat_val])
  have hb : LRel (fun q => onNat s (q / p) + onNat r (q % p)) (ofM B).data (ofM B').data := lrel_ofM fun i j =>
    (show Sc (s i + r j) (B i j) (B' i j) from hB i j).cast (by rw [row_div j.2, col_mod j.2, onNat_val, onNat_val])
  have hs : Sim2 (Cholesky.solve ⟨ofM L⟩ (ofM B)) (Cholesky.solve ⟨ofM L'⟩ (ofM B'))
      (MRel n p fun i j => onNat r ((i * p + j) % p) - onNat s ((i * p + j) / p)) := by
    unfold Cholesky.solve
    simp only [ofM_rows, beq_self_eq_true, assert_true, ok_bind, ofM_cols B hn, ofM_cols B' hn]
    obtain ⟨y, hy, hy2⟩ : ∃ y, Cholesky.forward (ofM L).data n p (ofM B).data = y ∧ ∀ z, y = .ok z → z.length = n * p := by
      refine ⟨_, rfl, fun z hz => ?_⟩
      rw [forward_length hz, ofM_length]
    refine Sim2.bind (P := fun a b => a.length = n * p ∧ LRel (fun q => onNat r (q % p)) a b) ?_ fun a b hab =>
      (Cholesky.Scale.backward_sim hl hab.2 hab.1).bind fun a b hab => mrel_new hab
    rcases Cholesky.Scale.forward_sim hl hb with h1 | ⟨a, b, h1, h2, h3⟩
    · exact Or.inl h1
    · rw [hy] at h1
      refine Or.inr ⟨a, b, hy.trans h1, h2, hy2 a h1, h3.congr fun q hq => ?_⟩
      rw [hy2 a h1] at hq
      rw [if_pos hq]
  rw [hX] at hs
  rcases hs with ⟨e, h2, -⟩ | ⟨y, x', h2, h3, Y, Y', h6, h7, h8⟩
  · cases h2
  have h2 := Except.ok.inj h2
  subst h6 h7
  obtain rfl := ofM_inj h2
  refine ⟨Y', h3, fun i j => (h8 i j).cast ?_⟩
  dsimp only
  rw [row_div j.2, col_mod j.2, onNat_val, onNat_val]

/-- C121: products: the units in the middle cancel. -/
theorem C121_mul (hm : 0 < m) (hn : 0 < n) {A A' : Matrix (Fin m) (Fin n) Fu} {B B' : Matrix (Fin n) (Fin p) Fu} {a : Fin m → ℤ} {b : Fin n → ℤ}
    {c : Fin p → ℤ} (hA : ∀ i k, (A' i k).q = (A i k).q * 2 ^ (a i - b k)) (hB : ∀ k j, (B' k j).q = (B k j).q * 2 ^ (b k + c j)) :
    ∃ C C' : Matrix (Fin m) (Fin p) Fu, (ofM A).mul (ofM B) = .ok (ofM C) ∧ (ofM A').mul (ofM B') = .ok (ofM C') ∧
      ∀ i j, (C' i j).q = (C i j).q * 2 ^ (a i + c j) := by
  refine ⟨_, _, C10_mul_general hm hn A B, C10_mul_general hm hn A' B', fun i j => ?_⟩
  have : ∀ (l : List (Fin n)) (z z' : Fu), Sc (a i + c j) z z' →
      Sc (a i + c j) (l.foldl (fun s k => s + A i k * B k j) z) (l.foldl (fun s k => s + A' i k * B' k j) z') := by
    intro l
    induction l with
    | nil => exact fun z z' h => h
    | cons k l ih =>
      intro z z' h
      exact ih _ _ (h.add ((Sc.mul (hA i k) (hB k j)).cast (by ring)))
  exact this _ _ _ (Sc.zero _)

end

/-- A system whose solution is rounded, and the same system with the second unknown in units `2^-10`: the same digits. -/
example : (∀ i j, ((!![⟨1⟩, ⟨2048⟩; ⟨3⟩, ⟨5120⟩] : Matrix (Fin 2) (Fin 2) Fu) i j).q =
      ((!![⟨1⟩, ⟨2⟩; ⟨3⟩, ⟨5⟩] : Matrix (Fin 2) (Fin 2) Fu) i j).q * 2 ^ (![0, 10] : Fin 2 → ℤ) j) ∧
    (ofM !![(⟨1⟩ : Fu), ⟨2⟩; ⟨3⟩, ⟨5⟩]).solve (ofM !![(⟨1⟩ : Fu); ⟨1⟩]) =
      .ok (some (ofM !![(⟨-6755399441055741 / 2 ^ 51⟩ : Fu); ⟨9007199254740989 / 2 ^ 52⟩])) ∧
    (ofM !![(⟨1⟩ : Fu), ⟨2048⟩; ⟨3⟩, ⟨5120⟩]).solve (ofM !![(⟨1⟩ : Fu); ⟨1⟩]) =
      .ok (some (ofM !![(⟨-6755399441055741 / 2 ^ 51⟩ : Fu); ⟨9007199254740989 / 2 ^ 62⟩])) := by
  refine ⟨fun i j => ?_, ?_, ?_⟩
  · fin_cases i <;> fin_cases j <;> simp [mul_assoc] <;> norm_num [zpow_ofNat]
  · decide +kernel
  · decide +kernel

/-- A positive definite matrix in two units. -/
example : (∀ i j, ((!![⟨2⟩, ⟨1 / 8⟩; ⟨1 / 8⟩, ⟨5 / 64⟩] : Matrix (Fin 2) (Fin 2) Fu) i j).q =
      ((!![⟨2⟩, ⟨1⟩; ⟨1⟩, ⟨5⟩] : Matrix (Fin 2) (Fin 2) Fu) i j).q * 2 ^ ((![0, -3] : Fin 2 → ℤ) i + (![0, -3] : Fin 2 → ℤ) j)) ∧
    Cholesky.new (ofM !![(⟨2⟩ : Fu), ⟨1⟩; ⟨1⟩, ⟨5⟩]) = .ok (some ⟨ofM !![(⟨6369051672525773 / 2 ^ 52⟩ : Fu), ⟨0⟩;
      ⟨1592262918131443 / 2 ^ 51⟩, ⟨4776788754394329 / 2 ^ 51⟩]⟩) ∧
    Cholesky.new (ofM !![(⟨2⟩ : Fu), ⟨1 / 8⟩; ⟨1 / 8⟩, ⟨5 / 64⟩]) = .ok (some ⟨ofM !![(⟨6369051672525773 / 2 ^ 52⟩ : Fu), ⟨0⟩;
      ⟨1592262918131443 / 2 ^ 54⟩, ⟨4776788754394329 / 2 ^ 54⟩]⟩) := by
  refine ⟨fun i j => ?_, ?_, ?_⟩
  · fin_cases i <;> fin_cases j <;> simp [mul_assoc] <;> norm_num
  · decide +kernel
  · decide +kernel

/-- A QR decomposition succeeds, with rounded factors. -/
example : ∃ x, QR.new (ofM !![(⟨1⟩ : Fu), ⟨2⟩; ⟨3⟩, ⟨5⟩]) = .ok x ∧ x.rdiag = [⟨-7120816245988179 / 2 ^ 51⟩, ⟨22252550768713 / 2 ^ 46⟩] ∧ x.isFullRank = .ok true :=
  ⟨⟨ofM !![(⟨2343154014918357 / 2 ^ 49⟩ : Fu), ⟨-189146681534061 / 2 ^ 45⟩; ⟨3⟩, ⟨-22252550768713 / 2 ^ 45⟩],
    [⟨-7120816245988179 / 2 ^ 51⟩, ⟨22252550768713 / 2 ^ 46⟩]⟩, by decide +kernel, rfl, by decide +kernel⟩

/-- Rows are different: multiplying an equation by a power of two can change the pivots. -/
example : (do let x ← LU.new (ofM !![(⟨1⟩ : Fu), ⟨2⟩; ⟨3⟩, ⟨5⟩]); return x.getPiv) = .ok [1, 0] ∧
    (do let x ← LU.new (ofM !![(⟨4⟩ : Fu), ⟨8⟩; ⟨3⟩, ⟨5⟩]); return x.getPiv) = .ok [0, 1] := by
  refine ⟨?_, ?_⟩ <;> decide +kernel

/-- `QRDecomposition::solve` is not consistent in units: `x = 1` and `2 x = 2` have different answers. -/
example : (do let x ← QR.new (ofM !![(⟨1⟩ : Fu)]); x.solve (ofM !![(⟨1⟩ : Fu)])) = .ok (some (ofM !![(⟨1⟩ : Fu)])) ∧
    (do let x ← QR.new (ofM !![(⟨2⟩ : Fu)]); x.solve (ofM !![(⟨2⟩ : Fu)])) = .ok (some (ofM !![(⟨3⟩ : Fu)])) := by
  refine ⟨?_, ?_⟩ <;> decide +kernel

end LA.Props
