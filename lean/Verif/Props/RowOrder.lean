import Verif.Props.RightHandSides
import Verif.Props.QRRounding

/-!
# C93: the order of the equations does not matter

With partial pivoting the rows are reordered anyway: if no pivot has a rival of the same size (all multipliers are below one in absolute
value), then the factors, the solutions, the inverse and the determinant are the same, bit by bit, for every order of the rows.
-/

namespace LA.Props
open LA Fp LU.Rnd
set_option linter.unusedSectionVars false

section
variable {α : Type} [Zero α] [One α] [Add α] [Sub α] [Neg α] [Mul α] [FloatOps α] [Fp α] {m n : Nat}

theorem quot_unique {x q y y' : α} (h : Quot x q y) (h' : Quot x q y') : y = y' := by
  unfold LU.Rnd.Quot at h h'
  split at h
  · rename_i hq; rw [if_pos hq] at h'; rw [h, h']
  · rename_i hq
    rw [if_neg hq] at h'
    rw [h] at h'
    exact Except.ok.inj h'

/-- If every pivot is strictly larger than its rivals, the factors and the order of the rows are determined by the rows, whatever their
order. -/
theorem pivots_unique {A G G' : Nat → Nat → α} {σ ρ : Equiv.Perm (Fin m)} (h : ∀ c, c < n → Col m A G σ c)
    (h' : ∀ c, c < n → Col m A G' ρ c) (hfin : ∀ c, c < n → ∀ i : Fin m, c ≤ i.1 → fin (W (A (σ i) c) G i c))
    (hs : ∀ c, c < n → ∀ i : Fin m, c < i.1 → |val (W (A (σ i) c) G i c)| < |val (G c c)|) :
    ∀ c, c ≤ n → (∀ k : Fin m, k.1 < c → ρ k = σ k) ∧ ∀ (r : Fin m) k, k < c → G' (ρ.symm r) k = G (σ.symm r) k := by
  intro c
  induction c with
  | zero => exact fun _ => ⟨fun k hk => absurd hk (by omega), fun r k hk => absurd hk (by omega)⟩
  | succ c ih =>
    intro hc
    obtain ⟨ih1, ih2⟩ := ih (by omega)
    have C := h c (by omega)
    have C' := h' c (by omega)
    -- rows already placed
    have hlt : ∀ r : Fin m, (σ.symm r).1 < c → ρ.symm r = σ.symm r := by
      intro r hr
      rw [Equiv.symm_apply_eq, ih1 _ hr, Equiv.apply_symm_apply]
    have hlt' : ∀ r : Fin m, (ρ.symm r).1 < c → ρ.symm r = σ.symm r := by
      intro r hr
      symm
      rw [Equiv.symm_apply_eq, ← ih1 _ hr, Equiv.apply_symm_apply]
    -- the part of column `c` above the diagonal
    have ha : ∀ k, k < m → k < c → G' k c = G k c := by
      intro k
      induction k using Nat.strong_induction_on with
      | _ k ihk =>
        intro hkm hkc
        have e1 := C.up ⟨k, hkm⟩ (by dsimp only; omega)
        have e2 := C'.up ⟨k, hkm⟩ (by dsimp only; omega)
        rw [ih1 ⟨k, hkm⟩ hkc] at e2
        dsimp only at e1 e2
        rw [e1, e2]
        refine W_congr rfl fun t ht => ⟨?_, ihk t (by omega) (by omega) (by omega)⟩
        have := ih2 (σ ⟨k, hkm⟩) t (by omega)
        rw [hlt _ (by rw [Equiv.symm_apply_apply]; exact hkc), Equiv.symm_apply_apply] at this
        exact this
    -- the candidates
    have hb : ∀ r : Fin m, c ≤ (σ.symm r).1 → c ≤ (ρ.symm r).1 → W (A r c) G' (ρ.symm r) c = W (A r c) G (σ.symm r) c := by
      intro r h1 h2
      refine W_congr (by omega) fun t ht => ⟨ih2 r t (by omega), ?_⟩
      have := r.2
      have := (ρ.symm r).2
      exact ha t (by omega) (by omega)
    have hge : ∀ r : Fin m, c ≤ (σ.symm r).1 ↔ c ≤ (ρ.symm r).1 := by
      intro r
      constructor
      · intro h1
        by_contra h2
        rw [hlt' r (by omega)] at h2
        exact h2 h1
      · intro h1
        by_contra h2
        rw [hlt r (by omega)] at h1
        exact h2 h1
    -- the pivot
    have hc' : ∀ hcm : c < m, ρ ⟨c, hcm⟩ = σ ⟨c, hcm⟩ := by
      intro hcm
      have f' : ∀ i : Fin m, c ≤ i.1 → fin (W (A (ρ i) c) G' i c) := by
        intro i hi
        have h2 : c ≤ (ρ.symm (ρ i)).1 := by rw [Equiv.symm_apply_apply]; exact hi
        have h1 := (hge (ρ i)).2 h2
        have := hb (ρ i) h1 h2
        rw [Equiv.symm_apply_apply] at this
        rw [this]
        have := hfin c (by omega) (σ.symm (ρ i)) h1
        rwa [Equiv.apply_symm_apply] at this
      have hr0 : c ≤ (ρ.symm (σ ⟨c, hcm⟩)).1 := (hge _).1 (by rw [Equiv.symm_apply_apply])
      have p1 := C'.piv f' (ρ.symm (σ ⟨c, hcm⟩)) hr0
      rw [Equiv.apply_symm_apply, hb _ (by rw [Equiv.symm_apply_apply]) hr0, Equiv.symm_apply_apply] at p1
      have e0 := C.up ⟨c, hcm⟩ le_rfl
      dsimp only at e0 p1
      rw [← e0] at p1
      have hr1 : c ≤ (σ.symm (ρ ⟨c, hcm⟩)).1 := (hge _).2 (by rw [Equiv.symm_apply_apply])
      have e1 := C'.up ⟨c, hcm⟩ le_rfl
      have e2 := hb (ρ ⟨c, hcm⟩) hr1 (by rw [Equiv.symm_apply_apply])
      rw [Equiv.symm_apply_apply] at e2
      rw [e2] at e1
      dsimp only at e1
      rw [e1] at p1
      by_contra hne
      have hgt : c < (σ.symm (ρ ⟨c, hcm⟩)).1 := by
        rcases Nat.lt_or_ge c (σ.symm (ρ ⟨c, hcm⟩)).1 with h0 | h0
        · exact h0
        · exfalso
          apply hne
          have : σ.symm (ρ ⟨c, hcm⟩) = ⟨c, hcm⟩ := Fin.ext (by dsimp only; omega)
          rw [Equiv.symm_apply_eq] at this
          exact this
      have := hs c (by omega) _ hgt
      rw [Equiv.apply_symm_apply] at this
      linarith
    have hfirst : ∀ k : Fin m, k.1 < c + 1 → ρ k = σ k := by
      intro k hk
      by_cases hk' : k.1 < c
      · exact ih1 k hk'
      · have e : k = ⟨c, by omega⟩ := Fin.ext (by dsimp only; omega)
        rw [e]; exact hc' _
    refine ⟨hfirst, fun r k hk => ?_⟩
    by_cases hk' : k < c
    · exact ih2 r k hk'
    obtain rfl : k = c := by omega
    have hrm := (σ.symm r).2
    have hrm' := (ρ.symm r).2
    rcases lt_trichotomy (σ.symm r).1 k with h0 | h0 | h0
    · rw [hlt r h0]
      exact ha _ hrm h0
    · have e : σ.symm r = ⟨k, by omega⟩ := Fin.ext h0
      have e' : ρ.symm r = ⟨k, by omega⟩ := by
        rw [Equiv.symm_apply_eq, hc', ← e, Equiv.apply_symm_apply]
      have e1 := C.up (σ.symm r) (by omega)
      have e2 := C'.up (ρ.symm r) (by rw [e'])
      rw [Equiv.apply_symm_apply] at e1 e2
      rw [e1, e2]
      exact hb r (by omega) (by rw [e'])
    · have h1 := (hge r).1 (by omega)
      have hne : (ρ.symm r).1 ≠ k := by
        intro h2
        have e' : ρ.symm r = ⟨k, by omega⟩ := Fin.ext h2
        rw [Equiv.symm_apply_eq, hc'] at e'
        rw [e', Equiv.symm_apply_apply] at h0
        simp at h0
      have l1 := C.lo (σ.symm r) h0
      have l2 := C'.lo (ρ.symm r) (by omega)
      rw [Equiv.apply_symm_apply] at l1 l2
      rw [hb r (by omega) h1] at l2
      have hd : G' k k = G k k := by
        have e1 := C.up ⟨k, by omega⟩ le_rfl
        have e2 := C'.up ⟨k, by omega⟩ le_rfl
        have e3 := hb (σ ⟨k, by omega⟩) (by rw [Equiv.symm_apply_apply]) (by rw [← hc', Equiv.symm_apply_apply])
        rw [Equiv.symm_apply_apply] at e3
        rw [← hc', Equiv.symm_apply_apply] at e3
        dsimp only at e1 e2 e3
        rw [e1, e2, e3, hc']
      rw [hd] at l2
      exact quot_unique l2 l1

end

/-! ## `f64` -/

open F64 in
/-- Numbers of the same size have the quotient `1` or `-1`. -/
theorem div_tie {w p g : F64} (h : RDiv.rdiv w p = .ok g) (hw : w.isFin) (hp : p.isFin) (h0 : p.toReal ≠ 0) (he : |w.toReal| = |p.toReal|) :
    |g.toReal| = 1 := by
  have hd : (RDiv.rdiv w p : R F64) = .ok (F64.div w p) := rfl
  rw [hd] at h
  obtain rfl := Except.ok.inj h
  have habs : ∀ (s : Bool) (k : Nat), |(sgn s k : ℝ)| = k := by
    intro s k
    cases s
    · simp [sgn]
    · simp [sgn]
  rcases w with _ | s | ⟨s, a, ha⟩
  · cases hw
  · cases hw
  rcases p with _ | t | ⟨t, b, hb⟩
  · cases hp
  · cases hp
  have hU := F64.U_pos
  have hab : a = b := by
    unfold F64.toReal at he
    rw [abs_mul, abs_mul, habs, habs] at he
    have := mul_right_cancel₀ (abs_ne_zero.2 hU.ne') he
    exact_mod_cast this
  subst hab
  have ha0 : a ≠ 0 := by
    rintro rfl
    apply h0
    simp [F64.toReal, sgn]
  unfold F64.div
  dsimp only
  rw [if_neg ha0, Nat.mul_comm, mk_exact (Nat.pos_of_ne_zero ha0) (by decide +kernel)]
  unfold F64.toReal
  dsimp only
  rw [abs_mul, habs, abs_of_pos hU, F64.cast_two_pow, one_div_mul_cancel hU.ne']

section
variable {n p : Nat}

/-- The condition of C93, in terms of the factors of the matrix: everything is finite, the multipliers are below one in absolute value, and
no pivot except possibly the last is zero. -/
def NoTies (L U : Matrix (Fin n) (Fin n) F64) : Prop :=
  (∀ i k, (L i k).isFin) ∧ (∀ i k, (U i k).isFin) ∧ (∀ i k : Fin n, k < i → |(L i k).toReal| < 1) ∧
    ∀ k : Fin n, k.1 + 1 < n → (U k k).toReal ≠ 0

/-- The two factorisations. -/
theorem same_factors (hn : 0 < n) (A : Matrix (Fin n) (Fin n) F64) (τ : Equiv.Perm (Fin n)) {x : LU F64} {L U : Matrix (Fin n) (Fin n) F64}
    (hx : LU.new (ofM A) = .ok x) (hL : x.getL = .ok (ofM L)) (hU : x.getU = .ok (ofM U)) (ht : NoTies L U) :
    ∃ (G : Nat → Nat → F64) (σ : Equiv.Perm (Fin n)),
      x = ⟨ofM (Matrix.of fun (i j : Fin n) => G i j), decide (Equiv.Perm.sign (σ.trans τ) = 1), List.ofFn fun i => (τ (σ i)).1⟩ ∧
      LU.new (ofM (A.submatrix τ id)) =
        .ok ⟨ofM (Matrix.of fun (i j : Fin n) => G i j), decide (Equiv.Perm.sign σ = 1), List.ofFn fun i => (σ i).1⟩ := by
  obtain ⟨G, σ, h1, h2⟩ := LU.Rnd.new_ofM hn hn A
  obtain ⟨G', σ', h1', h2'⟩ := LU.Rnd.new_ofM hn hn (A.submatrix τ id)
  rw [hx] at h1
  have ex := Except.ok.inj h1
  have eL : lowerA n n G = L := by
    have := LU.Rnd.getL_ok G hn hn (decide (Equiv.Perm.sign σ = 1)) (List.ofFn fun i => (σ i).1)
    rw [← ex, hL, Nat.min_self] at this
    exact (ofM_inj (Except.ok.inj this)).symm
  have eU : upperA n n G = U := by
    have := LU.Rnd.getU_ok G hn hn (decide (Equiv.Perm.sign σ = 1)) (List.ofFn fun i => (σ i).1)
    rw [← ex, hU, Nat.min_self] at this
    exact (ofM_inj (Except.ok.inj this)).symm
  obtain ⟨t1, t2, t3, t4⟩ := ht
  have gU : ∀ c, c < n → fin (G c c) := by
    intro c hc
    have := t2 ⟨c, hc⟩ ⟨c, hc⟩
    rw [← eU] at this
    change (G c c).isFin
    simpa [upperA] using this
  have gL : ∀ c (hc : c < n) (i : Fin n), c < i.1 → fin (G i c) ∧ |val (G i c)| < 1 := by
    intro c hc i hi
    have a := t1 i ⟨c, hc⟩
    have b := t3 i ⟨c, hc⟩ hi
    rw [← eL] at a b
    simp only [lowerA, Matrix.of_apply] at a b
    rw [if_pos hi] at a b
    exact ⟨a, b⟩
  have hW : ∀ c, c < n → ∀ i : Fin n, c ≤ i.1 → fin (W (ext A (σ i) c) G i c) := by
    intro c hc i hi
    rcases Nat.eq_or_lt_of_le hi with h0 | h0
    · rw [← (h2 c hc).up i h0.ge]
      rw [← h0]
      exact gU c hc
    · have := (h2 c hc).lo i h0
      unfold LU.Rnd.Quot at this
      split at this
      · rw [← this]; exact (gL c hc i h0).1
      · exact (quot_err this (gL c hc i h0).1 (gU c hc)).1
  have hs : ∀ c, c < n → ∀ i : Fin n, c < i.1 → |val (W (ext A (σ i) c) G i c)| < |val (G c c)| := by
    intro c hc i hi
    have hp := (h2 c hc).piv (hW c hc) i hi.le
    refine lt_of_le_of_ne hp fun he => ?_
    have h0 : val (G c c) ≠ 0 := by
      have := t4 ⟨c, hc⟩ (by dsimp only; omega)
      rw [← eU] at this
      change (G c c).toReal ≠ 0
      simpa [upperA] using this
    have hq := (h2 c hc).lo i hi
    unfold LU.Rnd.Quot at hq
    split at hq
    · rename_i hz
      exact h0 (by rw [(Fp.eq _ _ (gU c hc) Fp.zero.1).1 hz, Fp.zero.2])
    · have h5 := div_tie hq (hW c hc i hi.le) (gU c hc) h0 he
      have h6 := (gL c hc i hi).2
      change |(G i c).toReal| < 1 at h6
      linarith
  have h3 : ∀ c, c < n → Col n (ext A) G' (σ'.trans τ) c := by
    intro c hc
    have e : ∀ i : Fin n, ext (A.submatrix τ id) (σ' i) c = ext A (σ'.trans τ i) c := by
      intro i
      rw [ext_eq _ (σ' i).2 hc, ext_eq _ (σ'.trans τ i).2 hc]
      rfl
    have := h2' c hc
    exact ⟨fun i hi => by rw [← e]; exact this.up i hi, fun i hi => by rw [← e]; exact this.lo i hi, fun hf i hi => by
      rw [← e]; exact this.piv (fun i hi => by rw [e]; exact hf i hi) i hi⟩
  obtain ⟨k1, k2⟩ := pivots_unique h2 h3 hW hs n le_rfl
  have eσ : σ'.trans τ = σ := Equiv.ext fun k => k1 k k.2
  rw [eσ] at k2
  have eG : (Matrix.of fun (i j : Fin n) => G' i j) = Matrix.of fun (i j : Fin n) => G i j := by
    ext i j
    have := k2 (σ i) j j.2
    rw [Equiv.symm_apply_apply] at this
    exact this
  refine ⟨G, σ', ?_, ?_⟩
  · rw [ex, eσ]
    have : ∀ i, τ (σ' i) = σ i := fun i => by rw [← eσ]; rfl
    simp only [this]
  · rw [h1', eG]

/-- C93: the factors do not depend on the order of the rows: `a.permute_rows(t)` has the same `L` and `U`, and its pivot vector leads to the
same rows of `a`. -/
theorem C93_factors (hn : 0 < n) (A : Matrix (Fin n) (Fin n) F64) (τ : Equiv.Perm (Fin n)) {x : LU F64} {L U : Matrix (Fin n) (Fin n) F64}
    (hx : LU.new (ofM A) = .ok x) (hL : x.getL = .ok (ofM L)) (hU : x.getU = .ok (ofM U)) (ht : NoTies L U) :
    ∃ (y : LU F64) (σ : Equiv.Perm (Fin n)), (do let b ← (ofM A).permuteRows (List.ofFn fun i => (τ i).1); LU.new b) = .ok y ∧
      y.getL = .ok (ofM L) ∧ y.getU = .ok (ofM U) ∧ y.getPiv = (List.ofFn fun i => (σ i).1) ∧ x.getPiv = List.ofFn fun i => (τ (σ i)).1 := by
  obtain ⟨G, σ, e, h⟩ := same_factors hn A τ hx hL hU ht
  refine ⟨_, σ, by rw [permuteRows_perm hn, ok_bind]; exact h, ?_, ?_, rfl, by rw [e]; rfl⟩
  · rw [← hL, e, getL_ok G hn hn, getL_ok G hn hn]
  · rw [← hU, e, getU_ok G hn hn, getU_ok G hn hn]

/-- C93: permuting the equations (rows of the matrix and right-hand sides together) does not change the solution. -/
theorem C93_solve (hn : 0 < n) (hp : 0 < p) (A : Matrix (Fin n) (Fin n) F64) (B : Matrix (Fin n) (Fin p) F64) (τ : Equiv.Perm (Fin n)) {x : LU F64}
    {L U : Matrix (Fin n) (Fin n) F64} (hx : LU.new (ofM A) = .ok x) (hL : x.getL = .ok (ofM L)) (hU : x.getU = .ok (ofM U)) (ht : NoTies L U) :
    (do let a ← (ofM A).permuteRows (List.ofFn fun i => (τ i).1); let b ← (ofM B).permuteRows (List.ofFn fun i => (τ i).1); a.solve b) =
      (ofM A).solve (ofM B) := by
  obtain ⟨G, σ, e, h⟩ := same_factors hn A τ hx hL hU ht
  rw [permuteRows_perm hn, ok_bind, permuteRows_perm hn, ok_bind]
  unfold Mat.solve
  rw [hx, h, ok_bind, ok_bind, e]
  have hB := solve_ok hn hp G (decide (Equiv.Perm.sign (σ.trans τ) = 1)) (σ.trans τ) B
  have hB' := solve_ok hn hp G (decide (Equiv.Perm.sign σ = 1)) σ (B.submatrix τ id)
  simp only [Equiv.trans_apply] at hB
  rcases hB with ⟨a, b⟩ | ⟨a, X, Y, b, hY, hX⟩ <;> rcases hB' with ⟨c, d⟩ | ⟨c, X', Y', d, hY', hX'⟩
  · rw [b]; exact d
  · obtain ⟨i, hi⟩ := a; rw [c i] at hi; cases hi
  · obtain ⟨i, hi⟩ := c; rw [a i] at hi; cases hi
  · rw [b]
    refine d.trans ?_
    refine congrArg (fun M => Except.ok (some (ofM M))) ?_
    ext i j
    have e1 := fwd_unique (n := n) (G := G) (B := fun i => if h : i < n then B (τ (σ ⟨i, h⟩)) j else 0) (fun _ _ => rfl) (Y := fun i => Y i j) (Y' := fun i => Y' i j)
      (fun i hi => by simp only [dif_pos hi]; exact hY ⟨i, hi⟩ j) (fun i hi => by simp only [dif_pos hi]; exact hY' ⟨i, hi⟩ j)
    exact (bwd_unique (n := n) (G := G) e1 (X := fun i => X i j) (X' := fun i => X' i j) (fun i hi => hX ⟨i, hi⟩ j)
      (fun i hi => hX' ⟨i, hi⟩ j) i i.2).symm

/-- C93: the inverse of the matrix with permuted rows is the inverse with its columns permuted alike. -/
theorem C93_inverse (hn : 0 < n) (A : Matrix (Fin n) (Fin n) F64) (τ : Equiv.Perm (Fin n)) {x : LU F64}
    {L U : Matrix (Fin n) (Fin n) F64} (hx : LU.new (ofM A) = .ok x) (hL : x.getL = .ok (ofM L)) (hU : x.getU = .ok (ofM U)) (ht : NoTies L U) :
    (do let a ← (ofM A).permuteRows (List.ofFn fun i => (τ i).1); a.inverse) =
      (do match ← (ofM A).inverse with
          | some y => return some (← y.permuteColumns (List.ofFn fun i => (τ i).1))
          | none => return none) := by
  have hi : ∀ A : Matrix (Fin n) (Fin n) F64, (ofM A).inverse = (ofM A).solve (ofM (1 : Matrix (Fin n) (Fin n) F64)) := by
    intro A
    unfold Mat.inverse Mat.solve
    rw [ofM_cols A hn, ok_bind, ofM_rows, beq_self_eq_true, assert_true, ok_bind, C05_id_square]
    rfl
  have h1 := C93_solve hn hn A ((1 : Matrix (Fin n) (Fin n) F64).submatrix id τ) τ hx hL hU ht
  rw [permuteRows_perm hn, ok_bind, permuteRows_perm hn, ok_bind] at h1
  have e1 : ((1 : Matrix (Fin n) (Fin n) F64).submatrix id τ).submatrix τ id = 1 := by
    ext i j
    simp [Matrix.submatrix_apply, Matrix.one_apply]
  rw [e1] at h1
  rw [permuteRows_perm hn, ok_bind, hi, h1, hi]
  rcases C92_select hn hn hn A 1 τ with ⟨a, b⟩ | ⟨X, a, b⟩
  · rw [a, b]; rfl
  · rw [a, b, ok_bind]
    dsimp only
    rw [permuteColumns_perm, ok_bind]
    rfl

/-- The determinant from the packed factors. -/
theorem det_packed (hn : 0 < n) (G : Nat → Nat → F64) (pos : Bool) (piv : List Nat) :
    LU.det ⟨ofM (Matrix.of fun (i j : Fin n) => G i j), pos, piv⟩ = .ok (facc (· * ·) (if pos then 1 else -1) (fun k => G k k) n) := by
  unfold LU.det
  simp only [ofM_cols _ hn, ofM_rows, ok_bind, beq_self_eq_true, assert_true]
  refine Post.eq_ok ((loop_post (fun k d => d = facc (· * ·) (if pos then 1 else -1) (fun k => G k k) k) (Nat.zero_le n)
    (by simp [facc]) ?_).mono fun d h => h)
  rintro k d - hk rfl
  rw [idx_ofM _ hk hk, ok_bind]
  exact Post.ok rfl

theorem facc_neg (f : Nat → F64) (z : F64) (k : Nat) : facc (· * ·) (-z) f k = -facc (· * ·) z f k := by
  induction k with
  | zero => rfl
  | succ k ih => rw [facc, facc, ih, F64.neg_mul]

/-- C93: a permutation of the rows multiplies the determinant by its sign, exactly. -/
theorem C93_det (hn : 0 < n) (A : Matrix (Fin n) (Fin n) F64) (τ : Equiv.Perm (Fin n)) {x : LU F64}
    {L U : Matrix (Fin n) (Fin n) F64} (hx : LU.new (ofM A) = .ok x) (hL : x.getL = .ok (ofM L)) (hU : x.getU = .ok (ofM U)) (ht : NoTies L U) :
    (do let a ← (ofM A).permuteRows (List.ofFn fun i => (τ i).1); a.det) =
      (do let d ← (ofM A).det; return if Equiv.Perm.sign τ = 1 then d else -d) := by
  obtain ⟨G, σ, e, h⟩ := same_factors hn A τ hx hL hU ht
  rw [permuteRows_perm hn, ok_bind]
  unfold Mat.det
  simp only [ofM_cols _ hn, ofM_rows, ok_bind, beq_self_eq_true, assert_true]
  rw [hx, h, ok_bind, ok_bind, e, det_packed hn, det_packed hn, ok_bind, Equiv.Perm.sign_trans]
  refine congrArg Except.ok ?_
  rcases Int.units_eq_one_or (Equiv.Perm.sign τ) with h1 | h1 <;> rcases Int.units_eq_one_or (Equiv.Perm.sign σ) with h2 | h2 <;>
    rw [h1, h2] <;> simp [facc_neg, F64.neg_neg]

end

/-- The condition of C93 can be checked by comparisons of doubles. -/
theorem noTies_of {n : Nat} {L U : Matrix (Fin n) (Fin n) F64} (h1 : ∀ i k, (L i k).isFin) (h2 : ∀ i k, (U i k).isFin)
    (h3 : ∀ i k : Fin n, k < i → FloatOps.lt (FloatOps.abs (L i k)) 1 = true) (h4 : ∀ k : Fin n, k.1 + 1 < n → FloatOps.eq (U k k) 0 = false) :
    NoTies L U := by
  refine ⟨h1, h2, fun i k hk => ?_, fun k hk h0 => ?_⟩
  · have := (Fp.lt _ _ ((Fp.abs (L i k)).1.2 (h1 i k)) Fp.one.1).1 (h3 i k hk)
    rw [(Fp.abs (L i k)).2 (h1 i k), Fp.one.2] at this
    exact this
  · have := (Fp.eq (U k k) 0 (h2 k k) (Fp.zero (α := F64)).1).2 (by rw [(Fp.zero (α := F64)).2]; exact h0)
    rw [h4 k hk] at this
    cases this

/-- An ordinary matrix satisfies the condition; its factors are rounded. -/
example : ∃ (x : LU F64) (L U : Matrix (Fin 2) (Fin 2) F64), LU.new (ofM !![dec 1 0, dec 2 0; dec 3 0, dec 1 0]) = .ok x ∧
    x.getL = .ok (ofM L) ∧ x.getU = .ok (ofM U) ∧ NoTies L U ∧ x.getPiv = [1, 0] := by
  refine ⟨⟨ofM !![dec 3 0, dec 1 0; F64.ofRat 1 3, F64.ofRat 7505999378950827 (2 ^ 52)], false, [1, 0]⟩,
    !![dec 1 0, dec 0 0; F64.ofRat 1 3, dec 1 0], !![dec 3 0, dec 1 0; dec 0 0, F64.ofRat 7505999378950827 (2 ^ 52)], by decide +kernel,
    by decide +kernel, by decide +kernel, noTies_of ?_ ?_ ?_ ?_, rfl⟩
  · intro i j; fin_cases i <;> fin_cases j <;> decide +kernel
  · intro i j; fin_cases i <;> fin_cases j <;> decide +kernel
  · intro i j; fin_cases i <;> fin_cases j <;> decide +kernel
  · intro i; fin_cases i <;> decide +kernel

/-- With a tie (multiplier `1`) the order of the equations does influence the rounding errors: `x - 4y = -4`, `x - y = -3`. -/
example : (ofM !![dec 1 0, dec (-4) 0; dec 1 0, dec (-1) 0]).solve (ofM !![dec (-4) 0; dec (-3) 0]) =
      .ok (some (ofM !![F64.ofRat (-3002399751580331) (2 ^ 50); F64.ofRat 1 3])) ∧
    (ofM !![dec 1 0, dec (-1) 0; dec 1 0, dec (-4) 0]).solve (ofM !![dec (-3) 0; dec (-4) 0]) =
      .ok (some (ofM !![F64.ofRat (-6004799503160661) (2 ^ 51); F64.ofRat 1 3])) := by
  refine ⟨?_, ?_⟩ <;> decide +kernel

end LA.Props
