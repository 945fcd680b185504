import Verif.Props.Band
import Verif.Props.QRSigns
import Verif.Props.LUBounds

/-!
# C118: a row or a column of zeros is recognised in floating point

For doubles the factors of a singular matrix are not exactly singular in general.  They are if a row or a column consists of zeros (of either
sign).
-/

namespace LA.Props
open LA F64 Finset
set_option linter.unusedSectionVars false

variable {m n p : Nat}

/-- Some row or some column consists of zeros (of either sign). -/
def ZeroLine (A : Matrix (Fin m) (Fin n) F64) : Prop := (∃ r, ∀ j, F64.isZero (A r j)) ∨ ∃ c, ∀ i, F64.isZero (A i c)

/-- A zero entry on the diagonal of the factors. -/
theorem zero_line_pivot {A : Matrix (Fin n) (Fin n) F64} (hA : ZeroLine A) {G : Nat → Nat → F64} {σ : Equiv.Perm (Fin n)}
    (h : ∀ c, c < n → LU.Rnd.Col n (ext A) G σ c) (hG : ∀ i c, i < n → c < n → (G i c).isFin) : ∃ c : Fin n, F64.isZero (G c c) := by
  have hz : ∀ (a : F64) i c, i < n → c < n → F64.isZero a →
      (∀ k, k < min i c → F64.isZero (G i k) ∨ F64.isZero (G k c)) → F64.isZero (LU.Rnd.W a G i c) := by
    intro a i c hi hc h0 hk
    refine zeros_f64.sub _ _ h0 (LU.Band.fdot_zero zeros_f64 fun t ht => ?_)
    rcases hk t ht with h | h
    · exact Or.inl ⟨h, hG _ _ (by omega) hc⟩
    · exact Or.inr ⟨hG _ _ hi (by omega), h⟩
  rcases hA with ⟨r, hr⟩ | ⟨c, hc⟩
  · obtain ⟨i, rfl⟩ := σ.surjective r
    have key : ∀ c, c ≤ i.1 → F64.isZero (G i c) := by
      intro c
      induction c using Nat.strong_induction_on with
      | _ c ih =>
        intro hci
        have hcn : c < n := by omega
        have hw := hz (ext A (σ i) c) i c i.2 hcn (by rw [ext_eq A (σ i).2 hcn]; exact hr _) fun k hk => Or.inl (ih k (by omega) (by omega))
        rcases Nat.lt_or_ge c i.1 with hlt | hge
        · have hq := (h c hcn).lo i hlt
          unfold LU.Rnd.Quot at hq
          split at hq
          · rw [hq]; exact hw
          · next hne => exact zeros_f64.div _ _ _ hw (hG c c hcn hcn) hne hq
        · rw [(h c hcn).up i hge]; exact hw
    exact ⟨i, key i le_rfl⟩
  · have key : ∀ i, i ≤ c.1 → F64.isZero (G i c) := by
      intro i
      induction i using Nat.strong_induction_on with
      | _ i ih =>
        intro hic
        have hin : i < n := by omega
        have hw := hz (ext A (σ ⟨i, hin⟩) c) i c hin c.2 (by rw [ext_eq A (σ ⟨i, hin⟩).2 c.2]; exact hc _) fun k hk => Or.inr (ih k (by omega) (by omega))
        have := (h c c.2).up ⟨i, hin⟩ hic
        dsimp only at this
        rw [this]; exact hw
    exact ⟨c, key c le_rfl⟩

/-- NaN or a zero. -/
def NanOrZero (d : F64) : Prop := d = F64.nan ∨ F64.isZero d

theorem mul_zero_cases (x : F64) {y : F64} (hy : F64.isZero y) : NanOrZero (x * y) := by
  obtain ⟨s, rfl⟩ := F64.isZero_iff.1 hy
  by_cases hx : x.isFin
  · exact Or.inr (zeros_f64.mul_right _ _ hx hy)
  · left
    rcases x with _ | t | ⟨t, a, ha⟩
    · rfl
    · rfl
    · exact absurd trivial hx

theorem NanOrZero.mul {x y : F64} (hx : NanOrZero x) (hy : y.isFin) : NanOrZero (x * y) := by
  rcases hx with rfl | hx
  · left; rfl
  · exact Or.inr (zeros_f64.mul_left _ _ hx hy)

theorem facc_zero {z : F64} {f : Nat → F64} {c k : Nat} (hc : F64.isZero (f c)) (hck : c < k) (hf : ∀ i, i < k → (f i).isFin) :
    NanOrZero (facc (· * ·) z f k) := by
  induction k with
  | zero => omega
  | succ k ih =>
    rcases Nat.lt_or_ge c k with h | h
    · exact (ih h fun i hi => hf i (by omega)).mul (hf k (by omega))
    · obtain rfl : c = k := by omega
      exact mul_zero_cases _ hc

/-- C118: as long as the factors are finite, a matrix with a row or a column of zeros is reported singular, is not solved or inverted, and
its determinant is a zero (or NaN, if the product of other diagonal entries overflows). -/
theorem C118_singular (hn : 0 < n) (hp : 0 < p) (A : Matrix (Fin n) (Fin n) F64) (B : Matrix (Fin n) (Fin p) F64) (hA : ZeroLine A) :
    ∃ (x : LU F64) (L U : Matrix (Fin n) (Fin n) F64) (d : F64), LU.new (ofM A) = .ok x ∧ x.getL = .ok (ofM L) ∧ x.getU = .ok (ofM U) ∧
      (ofM A).det = .ok d ∧
      ((∀ i k, (L i k).isFin) → (∀ k c, (U k c).isFin) →
        x.isNonSingular = .ok false ∧ (ofM A).solve (ofM B) = .ok none ∧ (ofM A).inverse = .ok none ∧ (d = F64.nan ∨ F64.isZero d)) := by
  obtain ⟨G, σ, hx, hcol⟩ := LU.Rnd.new_ofM hn hn A
  have hL' := LU.Rnd.getL_ok G hn hn (decide (Equiv.Perm.sign σ = 1)) (List.ofFn fun i => (σ i).1)
  have hU' := LU.Rnd.getU_ok G hn hn (decide (Equiv.Perm.sign σ = 1)) (List.ofFn fun i => (σ i).1)
  rw [Nat.min_self] at hL' hU'
  have hdet : ∃ d, (ofM A).det = .ok d ∧ d = facc (· * ·) (if decide (Equiv.Perm.sign σ = 1) = true then (1 : F64) else -1) (fun k => G k k) n := by
    refine ⟨_, ?_, rfl⟩
    unfold Mat.det
    simp only [ofM_cols _ hn, ofM_rows, ok_bind, beq_self_eq_true, assert_true]
    rw [hx, ok_bind, det_packed hn]
  obtain ⟨d, hd1, hd2⟩ := hdet
  refine ⟨_, _, _, d, hx, hL', hU', hd1, fun hL hU => ?_⟩
  have hG : ∀ i c, i < n → c < n → (G i c).isFin := fun i c hi hc => by
    by_cases h : c < i
    · have := hL ⟨i, hi⟩ ⟨c, hc⟩
      simp only [LU.Rnd.lowerA, Matrix.of_apply] at this
      rwa [if_pos h] at this
    · have := hU ⟨i, hi⟩ ⟨c, hc⟩
      simp only [LU.Rnd.upperA, Matrix.of_apply] at this
      rwa [if_pos (by omega)] at this
  obtain ⟨c, hc⟩ := zero_line_pivot hA hcol hG
  have hsol : ∀ {q : Nat} (hq : 0 < q) (C : Matrix (Fin n) (Fin q) F64), (ofM A).solve (ofM C) = .ok none := fun hq C => by
    unfold Mat.solve
    rw [hx, ok_bind]
    rcases LU.Rnd.solve_ok hn hq G (decide (Equiv.Perm.sign σ = 1)) σ C with ⟨-, b⟩ | ⟨a, -⟩
    · exact b
    · have := a c
      rw [F64.eq_zero_iff.2 hc] at this
      cases this
  refine ⟨?_, hsol hp B, ?_, ?_⟩
  · rw [LU.Rnd.isNonSingular_ok hn]
    refine congrArg Except.ok (decide_eq_false fun h => ?_)
    have := h c
    rw [F64.eq_zero_iff.2 hc] at this
    cases this
  · rw [inverse_eq hn A]; exact hsol hn _
  · rw [hd2]; exact facc_zero (f := fun k => G k k) hc c.2 fun i hi => hG i i hi hi

/-- C118: no condition on the factors is needed if `n ≤ 100` and no entry exceeds `2^800`. -/
theorem C118_bounded (hn : 0 < n) (hp : 0 < p) (hn100 : n ≤ 100) (A : Matrix (Fin n) (Fin n) F64) (B : Matrix (Fin n) (Fin p) F64) (hA : ZeroLine A)
    (hb : ∀ i j, (A i j).isFin ∧ |(A i j).toReal| ≤ 2 ^ 800) :
    ∃ (x : LU F64) (d : F64), LU.new (ofM A) = .ok x ∧ x.isNonSingular = .ok false ∧ (ofM A).solve (ofM B) = .ok none ∧
      (ofM A).inverse = .ok none ∧ (ofM A).det = .ok d ∧ (d = F64.nan ∨ F64.isZero d) := by
  have h1 : tiny ≤ (2 : ℝ) ^ 800 := tiny_le.trans (one_le_pow₀ (by norm_num))
  obtain ⟨x, σ, L, U, a1, -, a2, a3, a4, a5, -⟩ := C110_factors hn hn100 A (2 ^ 800) hb h1 le_rfl
  obtain ⟨x', L', U', d, b1, b2, b3, b4, b5⟩ := C118_singular hn hp A B hA
  rw [a1] at b1
  obtain rfl := Except.ok.inj b1
  obtain rfl : L = L' := ofM_inj (Except.ok.inj (a2.symm.trans b2))
  obtain rfl : U = U' := ofM_inj (Except.ok.inj (a3.symm.trans b3))
  obtain ⟨c1, c2, c3, c4⟩ := b5 (fun i k => (a4 i k).1) fun k c => (a5 k c).1
  exact ⟨x, d, a1, c1, c2, c3, b4, c4⟩

/-! ## QR -/

open QR.Rnd in
theorem zero_div_cases {x y : F64} (hx : F64.isZero x) : NanOrZero (F64.div x y) := by
  obtain ⟨s, rfl⟩ := F64.isZero_iff.1 hx
  by_cases hy : F64.isZero y
  · obtain ⟨t, rfl⟩ := F64.isZero_iff.1 hy
    left; cases s <;> cases t <;> rfl
  by_cases hf : y.isFin
  · exact Or.inr (zeros_f64.div _ _ _ hx hf (fun e => hy (F64.eq_zero_iff.1 e)) rfl)
  · rcases y with _ | t | ⟨t, a, ha⟩
    · left; rfl
    · right; cases s <;> cases t <;> exact rfl
    · exact absurd trivial hf

theorem sqrt_zero {x z : F64} (hx : F64.isZero x) (h : FloatOps.sqrt x = .ok z) : F64.isZero z := by
  obtain ⟨s, rfl⟩ := F64.isZero_iff.1 hx
  cases s <;> · obtain rfl := Except.ok.inj h; exact rfl

theorem isFullRank_rnd (hn : 0 < n) (hnm : n ≤ m) (G : Nat → Nat → F64) (d : Nat → F64) {c : Nat} (hc : c < n) (h0 : FloatOps.eq (d c) 0 = true) :
    (QR.Rnd.ob m n G d).isFullRank = .ok false := by
  unfold QR.isFullRank
  rw [QR.Rnd.ob_cols G d (by omega), ok_bind]
  have := loopF_all (lo := 0) (hi := n) (f := fun j _ => do
    if FloatOps.eq (← idx (QR.Rnd.ob m n G d).rdiag j) 0 then return Flow.ret false else return Flow.next ()) (fun j => FloatOps.eq (d j) 0 = false) (by
      intro j _ hj
      rw [(QR.Rnd.ob_vect (m := m) (n := n) G d).idx (by omega), ok_bind]
      constructor
      · intro h; rw [if_neg]; · rfl
        simpa using h
      · intro h; rw [if_pos]; · rfl
        simpa using h)
  rw [this.2 (fun h' => by have := h' c (Nat.zero_le _) hc; rw [h0] at this; cases this), ok_bind]
  rfl

open QR.Rnd in
/-- C118: a column of zeros in the QR decomposition: as long as `get_h()` and `get_r()` are finite, the column of `R` consists of zeros and
`is_full_rank()` is false. -/
theorem C118_qr (hn : 0 < n) (hnm : n ≤ m) (A : Matrix (Fin m) (Fin n) F64) (c : Fin n) (hA : ∀ i, F64.isZero (A i c)) :
    ∃ (x : QR F64) (H R : Matrix (Fin m) (Fin n) F64), QR.new (ofM A) = .ok x ∧ x.getH = .ok (ofM H) ∧ x.getR = .ok (ofM R) ∧
      ((∀ i j, (H i j).isFin) → (∀ i j, (R i j).isFin) →
        x.isFullRank = .ok false ∧ (∀ i, F64.isZero (R i c)) ∧ ∀ B : Mat F64, B.rows = m → x.solve B = .ok none) := by
  have hm : 0 < m := by omega
  have hmin : min m n = n := by omega
  obtain ⟨Gs, d, g0, gs, e⟩ := new_rnd hm hn A
  refine ⟨_, _, _, e, getH_rnd _ _ hm hn, getR_rnd _ _ hm hn, fun hH hR => ?_⟩
  rw [hmin] at gs
  have hfin : ∀ t, t ≤ n → ∀ r j, r < m → j < n → (Gs (n - t) r j).isFin := by
    intro t
    induction t with
    | zero =>
      intro _ r j hr hj
      by_cases h : j ≤ r
      · have := hH ⟨r, hr⟩ ⟨j, hj⟩
        simp only [hmat, Matrix.of_apply, hmin] at this
        rwa [if_pos h] at this
      · have := hR ⟨r, hr⟩ ⟨j, hj⟩
        simp only [rmat, Matrix.of_apply, hmin] at this
        rwa [if_pos (by omega)] at this
    | succ t ih =>
      intro ht
      have h1 := gs (n - (t + 1)) (by omega)
      rw [show n - (t + 1) + 1 = n - t by omega] at h1
      exact step_fin h1 (by omega) (ih (by omega))
  have hf : ∀ k, k ≤ n → ∀ r j, r < m → j < n → (Gs k r j).isFin := fun k hk => by
    have := hfin (n - k) (by omega)
    rwa [show n - (n - k) = k by omega] at this
  have key : ∀ k, k ≤ c.1 → ∀ r, r < m → F64.isZero (Gs k r c) := by
    intro k
    induction k with
    | zero => intro _ r hr; rw [g0, ext_eq A hr c.2]; exact hA _
    | succ k ih =>
      intro hk r hr
      have hz := ih (by omega)
      have hs := gs k (by omega)
      rcases h0 : FloatOps.eq (d k) 0 with _ | _
      · have hnn := hf (k + 1) (by omega) r c hr c.2
        rw [hs.app h0 r c hr (by omega) c.2] at hnn ⊢
        unfold app at hnn ⊢
        split at hnn
        · next hkr =>
          rw [if_pos hkr]
          have hd : F64.isZero (dotFrom m k (fun r => Gs (k + 1) r k) fun r => Gs k r c) :=
            LU.Band.fdot_zero zeros_f64 fun t ht => Or.inr ⟨hf (k + 1) (by omega) _ _ (by omega) (by omega), hz _ (by omega)⟩
          rw [dv_f64] at hnn ⊢
          rcases zero_div_cases (y := d k * Gs (k + 1) k k) hd with hq | hq
          · rw [hq] at hnn
            have := (Fp.add (α := F64) _ _ hnn).2.1
            exact absurd (Fp.mul (α := F64) _ _ this).1 (fun h => h)
          · exact zeros_f64.add _ _ (hz r hr) (zeros_f64.mul_left _ _ hq (hf (k + 1) (by omega) r k hr (by omega)))
        · next hkr => rw [if_neg hkr]; exact hz r hr
      · rw [hs.zero h0]; exact hz r hr
  have hrest : ∀ k, c.1 < k → k ≤ n → ∀ r, r < c.1 → Gs k r c = Gs c r c := by
    intro k
    induction k with
    | zero => intro h; omega
    | succ k ih =>
      intro hck hkn r hr
      rcases Nat.lt_or_ge c.1 k with h | h
      · rw [(gs k (by omega)).left r c h]; exact ih h (by omega) r hr
      · obtain rfl : k = c.1 := by omega
        exact (gs c c.2).low r (by omega)
  have hd0 : F64.isZero (d c) := by
    obtain ⟨z, hz, ha⟩ := (gs c c.2).sqrt
    have hdot : F64.isZero (dotFrom m c (fun r => Gs c r c) fun r => Gs c r c) :=
      LU.Band.fdot_zero zeros_f64 fun t ht => Or.inl ⟨key c le_rfl _ (by omega), hf c (by omega) _ _ (by omega) c.2⟩
    rw [ha, if_neg (by rw [lt_zero_isZero (key c le_rfl c (by omega))]; exact Bool.false_ne_true)]
    exact sqrt_zero hdot hz
  have hrank := isFullRank_rnd hn hnm (Gs (min m n)) d c.2 (F64.eq_zero_iff.2 hd0)
  refine ⟨hrank, fun i => ?_, fun B hB => ?_⟩
  · simp only [rmat, Matrix.of_apply, hmin]
    split
    · next h => rw [hrest n c.2 le_rfl i h]; exact key c le_rfl i i.2
    · split
      · exact hd0
      · exact zeros_f64.zero
  · unfold QR.solve
    rw [hrank]
    have : (B.rows == (ob m n (Gs (min m n)) d).qr.rows) = true := by rw [hB]; exact beq_self_eq_true m
    rw [this]
    rfl

/-! ## Examples -/

/-- The QR decomposition of a matrix with a column of zeros. -/
example : (QR.new (ofM (!![dec 3 0, F64.zero true, 1; dec 4 0, 0, dec 2 0; 0, 0, 1] : Matrix (Fin 3) (Fin 3) F64)) >>= fun x => x.isFullRank) = .ok false := by
  decide +kernel

/-- A row of zeros, one of them negative. -/
example : ZeroLine (!![1, dec 2 0; F64.zero true, 0] : Matrix (Fin 2) (Fin 2) F64) := by
  refine Or.inl ⟨1, fun j => ?_⟩
  have h0 : F64.isZero (0 : F64) := zeros_f64.zero
  have h1 : F64.isZero (F64.zero true) := F64.isZero_iff.2 ⟨true, by rfl⟩
  fin_cases j
  · simpa using h1
  · simpa using h0

/-- A column of zeros: the rows are exchanged, the determinant is a zero, `solve` answers `None`. -/
example : (ofM (!![1, 0, dec 2 0; dec 3 0, 0, dec 7 0; 1, 0, 1] : Matrix (Fin 3) (Fin 3) F64)).det = .ok (F64.zero false) ∧
    (ofM (!![1, 0, dec 2 0; dec 3 0, 0, dec 7 0; 1, 0, 1] : Matrix (Fin 3) (Fin 3) F64)).inverse = .ok none := by
  decide +kernel

/-- The determinant can be NaN, although all entries and factors are finite: the product of the first two pivots overflows. -/
example : (ofM (!![dec (10 ^ 200) 0, 0, 0; 0, dec (10 ^ 200) 0, 0; 0, 0, 0] : Matrix (Fin 3) (Fin 3) F64)).det = .ok F64.nan := by
  decide +kernel

/-- Two equal columns, on the other hand, need not be recognised: the matrix with rows 49, 49 and 1, 1 is inverted. -/
theorem C118_equal_columns : ∃ A : Matrix (Fin 2) (Fin 2) F64, (∀ i, A i 0 = A i 1) ∧ (∃ x, LU.new (ofM A) = .ok x ∧ x.isNonSingular = .ok true) ∧
    ∃ X, (ofM A).inverse = .ok (some X) := by
  refine ⟨!![dec 49 0, dec 49 0; 1, 1], fun i => by fin_cases i <;> rfl, ?_, ?_⟩
  · have h : (LU.new (ofM (!![dec 49 0, dec 49 0; 1, 1] : Matrix (Fin 2) (Fin 2) F64)) >>= fun x => x.isNonSingular) = .ok true := by decide +kernel
    rw [bind_eq_ok] at h
    exact h
  · have h : (match (ofM (!![dec 49 0, dec 49 0; 1, 1] : Matrix (Fin 2) (Fin 2) F64)).inverse with | .ok (some _) => true | _ => false) = true := by
      decide +kernel
    revert h
    split
    · next e => exact fun _ => ⟨_, e⟩
    · intro h; cases h

end LA.Props
