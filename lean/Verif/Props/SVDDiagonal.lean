import Verif.Proofs.SVDDiag3

/-!
# C97: the singular value decomposition of a diagonal `f64` matrix

The matrix may have any shape, negative and zero entries (of either sign) on the diagonal, zeros of either sign elsewhere, numbers of
any magnitude (no overflow, no underflow occurs).  `SVD::new` returns after one iteration of the main loop per diagonal entry; no
rounding error is made anywhere.
-/

set_option linter.unusedSectionVars false

namespace LA.Props
open F64 Matrix Finset

/-- The diagonal of a matrix of any shape. -/
def diagOf {m n : Nat} (A : Matrix (Fin m) (Fin n) F64) (k : Nat) : F64 := if h : k < m ∧ k < n then A ⟨k, h.1⟩ ⟨k, h.2⟩ else 0

/-- The columns of `Q` are unit vectors up to sign: column `j` is zero but for `±1` in row `π j` (zeros of either sign). -/
def SignedUnits {m : Nat} (Q : Matrix (Fin m) (Fin m) F64) (π : Equiv.Perm Nat) : Prop :=
  ∀ i j : Fin m, (i.1 = π j → Q i j = 1 ∨ Q i j = -1) ∧ (i.1 ≠ π j → (Q i j).isZero)

theorem svd_fuel {a : Mat F64} {N : Nat} {x : SVD F64} (h : SVD.new N a = .ok x) : ∀ fuel, N ≤ fuel → SVD.new fuel a = .ok x := by
  intro fuel hf
  obtain ⟨d, rfl⟩ : ∃ d, fuel = N + d := ⟨fuel - N, by omega⟩
  clear hf
  induction d with
  | zero => exact h
  | succ d ih =>
    rcases SVD.new_upto a (N + d) with h1 | h1
    · rw [ih] at h1; cases h1
    · rw [show N + (d + 1) = N + d + 1 from rfl, ← h1, ih]

theorem diag_out {m n : Nat} (hm : 0 < m) (hn : 0 < n) {A : Matrix (Fin m) (Fin n) F64} (hfin : ∀ i j, (A i j).isFin)
    (hoff : ∀ i j, i.1 ≠ j.1 → (A i j).isZero) :
    ∃ U S V π g h, (∀ fuel, min m n ≤ fuel → SVD.new fuel (ofM A) = .ok ⟨ofM U, ofM S, ofM V⟩) ∧ SVD.Dg.Out m n (diagOf A) U S V π g h := by
  obtain ⟨U, S, V, π, g, h, h1, h2⟩ := SVD.Dg.new_diag hm hn (A := A) (D := diagOf A) (fun j hj => by
      unfold diagOf; rw [dif_pos ⟨by omega, by omega⟩]; exact hfin _ _) hoff
    (fun i j hij => by unfold diagOf; rw [dif_pos ⟨by omega, j.2⟩]; congr 1; exact Fin.ext hij) (le_refl (min m n))
  exact ⟨U, S, V, π, g, h, svd_fuel h1, h2⟩

theorem signed_units {m : Nat} {Q : Matrix (Fin m) (Fin m) F64} {π : Equiv.Perm Nat} {g : Nat → ℤˣ}
    (h : ∀ i j : Fin m, Agree (Q i j) (if i.1 = π j then sg (g j) 1 else 0)) : SignedUnits Q π := by
  intro i j
  have := h i j
  constructor
  · intro e
    rw [if_pos e] at this
    have h1 : ¬ (sg (g j) 1).isZero := by rw [isZero_sg]; rw [← not_zero]; decide +kernel
    have h2 := Agree.nonzero this.symm h1
    unfold sg at h2
    split at h2
    · exact Or.inl h2.symm
    · exact Or.inr h2.symm
  · intro e
    rw [if_neg e] at this
    exact (agree_zero this).2 (show F64.isZero (0 : F64) from rfl)

/-- C97: `SVD::new` of a finite diagonal `f64` matrix of any shape returns within `min(m, n)` iterations.  There is a permutation `π`
of the positions such that the singular values are exactly `|a_{π(0)}|, |a_{π(1)}|, …`, in descending order; `U` and `V` consist of the
unit vectors `±e_{π(0)}, ±e_{π(1)}, …`; the rest of `S` is `+0`. -/
theorem C97_factors {m n : Nat} (hm : 0 < m) (hn : 0 < n) (A : Matrix (Fin m) (Fin n) F64) (hfin : ∀ i j, (A i j).isFin)
    (hoff : ∀ i j, i.1 ≠ j.1 → (A i j).isZero) :
    ∃ (U : Matrix (Fin m) (Fin m) F64) (S : Matrix (Fin m) (Fin n) F64) (V : Matrix (Fin n) (Fin n) F64) (π : Equiv.Perm Nat),
      (∀ fuel, min m n ≤ fuel → SVD.new fuel (ofM A) = .ok ⟨ofM U, ofM S, ofM V⟩) ∧ (∀ k, min m n ≤ k → π k = k) ∧ SignedUnits U π ∧ SignedUnits V π ∧
      (∀ i j, S i j = if i.1 = j.1 then F64.abs (diagOf A (π j)) else 0) ∧
      ∀ i j, i ≤ j → j < min m n → (F64.abs (diagOf A (π j))).toReal ≤ (F64.abs (diagOf A (π i))).toReal := by
  obtain ⟨U, S, V, π, g, h, h1, h2⟩ := diag_out hm hn hfin hoff
  exact ⟨U, S, V, π, h1, h2.fix, signed_units h2.u, signed_units h2.v, h2.s, h2.sorted⟩

/-- A sum with one term that is not zero. -/
theorem fold_one {p : Nat} {f : Fin p → F64} {j : Fin p} (h : ∀ k, k ≠ j → isZero (f k)) : Agree ((List.finRange p).foldl (fun s k => s + f k) 0) (f j) := by
  rw [fold_unit f j h, F64.add_comm]
  exact SVD.Dg.add_zero_agree _ (show F64.isZero (0 : F64) from rfl)

theorem fold_none {p : Nat} {f : Fin p → F64} (h : ∀ k, isZero (f k)) : isZero ((List.finRange p).foldl (fun s k => s + f k) 0) := by
  have := fold_zeros (List.finRange p) f 0 (fun k _ => h k)
  rw [show (0 : F64) + 0 = 0 from rfl] at this
  rw [this]; rfl

theorem unit_fin (g : ℤˣ) : (sg g 1).isFin := by
  unfold sg
  split <;> decide +kernel

/-- C97: the decomposition is exact: `U * S * V.t()`, computed in `f64`, is `A` (a zero entry may come out with the other sign). -/
theorem C97_product {m n : Nat} (hm : 0 < m) (hn : 0 < n) (A : Matrix (Fin m) (Fin n) F64) (hfin : ∀ i j, (A i j).isFin)
    (hoff : ∀ i j, i.1 ≠ j.1 → (A i j).isZero) {fuel : Nat} {x : SVD F64} (hx : SVD.new fuel (ofM A) = .ok x) :
    ∃ B : Matrix (Fin m) (Fin n) F64, (do (← x.u.mul x.s).mul (← x.v.t)) = .ok (ofM B) ∧ ∀ i j, Agree (B i j) (A i j) := by
  obtain ⟨U, S, V, π, g, h, h1, h2⟩ := diag_out hm hn hfin hoff
  have := svd_fuel hx (max fuel (min m n)) (by omega)
  rw [h1 _ (by omega)] at this
  cases this
  have hlt : ∀ j, j < min m n → π j < min m n := by
    intro j hj
    by_contra hc
    have := π.injective (h2.fix (π j) (by omega))
    omega
  have hD : ∀ j, (diagOf A j).isFin := by
    intro j
    unfold diagOf
    split
    · exact hfin _ _
    · exact (by decide +kernel)
  have hSfin : ∀ i j, (S i j).isFin := by
    intro i j
    rw [h2.s]
    split
    · exact SVD.Dg.abs_fin (hD _)
    · exact (by decide +kernel)
  have hUfin : ∀ i j, (U i j).isFin := by
    intro i j
    refine agree_fin (h2.u i j) ?_
    split
    · exact unit_fin _
    · exact (by decide +kernel)
  have hVfin : ∀ i j, (V i j).isFin := by
    intro i j
    refine agree_fin (h2.v i j) ?_
    split
    · exact unit_fin _
    · exact (by decide +kernel)
  have hz : F64.isZero (0 : F64) := rfl
  -- the first product
  have hUS : ∀ (i : Fin m) (j : Fin n), Agree ((List.finRange m).foldl (fun s k => s + U i k * S k j) 0)
      (if i.1 = π j ∧ j.1 < m then sg (g j) (F64.abs (diagOf A (π j))) else 0) := by
    intro i j
    by_cases hj : j.1 < m
    · have := fold_one (f := fun k => U i k * S k j) (j := (⟨j, hj⟩ : Fin m)) fun k hk => by
        have : S k j = 0 := by rw [h2.s, if_neg]; intro e; exact hk (Fin.ext e)
        rw [this, F64.mul_comm]
        exact zero_mul_fin hz (hUfin _ _)
      refine this.trans ?_
      have hs : S ⟨j, hj⟩ j = F64.abs (diagOf A (π j)) := by rw [h2.s, if_pos rfl]
      have hu := h2.u i ⟨j, hj⟩
      dsimp only at hu
      rw [hs]
      by_cases e : i.1 = π j
      · rw [if_pos e] at hu
        rw [if_pos ⟨e, hj⟩]
        have h3 := hu.mul (Agree.refl (F64.abs (diagOf A (π j))))
        refine h3.trans ?_
        have h4 := sg_mul (g j) 1 1 (F64.abs (diagOf A (π j)))
        rw [_root_.mul_one, F64.mul_comm 1, F64.mul_one] at h4
        rw [← h4]; exact Or.inl rfl
      · rw [if_neg e] at hu
        rw [if_neg (by tauto)]
        exact Or.inr ⟨zero_mul_fin ((agree_zero hu).2 hz) (SVD.Dg.abs_fin (hD _)), hz⟩
    · rw [if_neg (by tauto)]
      refine Or.inr ⟨fold_none fun k => ?_, hz⟩
      have : S k j = 0 := by rw [h2.s, if_neg (by omega)]
      rw [this, F64.mul_comm]
      exact zero_mul_fin hz (hUfin _ _)
  refine ⟨Matrix.of fun i l => (List.finRange n).foldl (fun s j => s + (Matrix.of fun i j => (List.finRange m).foldl (fun s k => s + U i k * S k j) 0) i j * Vᵀ j l) 0, ?_, ?_⟩
  · dsimp only
    rw [C10_mul_general hm hm, ok_bind, C12_transpose hn, ok_bind, C10_mul_general hm hn]
  intro i l
  simp only [Matrix.of_apply, Matrix.transpose_apply]
  set P : Fin n → F64 := fun j => (List.finRange m).foldl (fun s k => s + U i k * S k j) 0 with hP
  have hPf : ∀ j, (P j).isFin := fun j => agree_fin (hUS i j) (by
    split
    · unfold sg
      split
      · exact SVD.Dg.abs_fin (hD _)
      · exact SVD.Dg.neg_fin' (SVD.Dg.abs_fin (hD _))
    · exact (by decide +kernel))
  show Agree ((List.finRange n).foldl (fun s j => s + P j * V l j) 0) (A i l)
  -- the terms that vanish
  have hterm : ∀ j : Fin n, ¬ (i.1 = π j ∧ l.1 = π j ∧ j.1 < m) → isZero (P j * V l j) := by
    intro j hj
    by_cases e1 : i.1 = π j ∧ j.1 < m
    · have e2 : l.1 ≠ π j := by tauto
      have hv := h2.v l j
      rw [if_neg e2] at hv
      rw [F64.mul_comm]
      exact zero_mul_fin ((agree_zero hv).2 hz) (hPf j)
    · have hp := hUS i j
      rw [if_neg e1] at hp
      exact zero_mul_fin ((agree_zero hp).2 hz) (hVfin _ _)
  by_cases hil : i.1 = l.1
  · have hj0 : π.symm i.1 < min m n := by
      by_contra hc
      have := h2.fix (π.symm i.1) (by omega)
      rw [Equiv.apply_symm_apply] at this
      omega
    set j0 : Fin n := ⟨π.symm i.1, by omega⟩ with hj0d
    have hπ : π j0 = i.1 := by rw [hj0d]; exact Equiv.apply_symm_apply _ _
    have := fold_one (f := fun j => P j * V l j) (j := j0) fun k hk => hterm k fun hc => hk (by
      apply Fin.ext; rw [hj0d]; show k.1 = π.symm i.1; rw [hc.1, Equiv.symm_apply_apply])
    refine this.trans ?_
    have hp := hUS i j0
    rw [if_pos ⟨hπ.symm, show j0.1 < m by show π.symm i.1 < m; omega⟩] at hp
    have hv := h2.v l j0
    rw [if_pos (by rw [hπ, hil])] at hv
    refine (hp.mul hv).trans ?_
    rw [sg_mul, F64.mul_one]
    have hs := h2.sign j0 (by show π.symm i.1 < min m n; exact hj0)
    have hAi : A i l = diagOf A (π j0) := by
      rw [hπ]; unfold diagOf
      rw [dif_pos ⟨i.2, by omega⟩]
      congr 1
      exact Fin.ext hil.symm
    rw [hAi]
    have hs2 : SA (g j0 * h j0) (diagOf A (π j0)) (F64.abs (diagOf A (π j0))) := hs
    exact Agree.symm (SA.symm hs2)
  · refine Or.inr ⟨fold_none fun k => hterm k fun hc => hil (by rw [hc.1, hc.2.1]), hoff i l hil⟩

/-- C97: for `m ≤ n` the rank is the number of diagonal entries that exceed `max(m, n)·|largest entry|·2⁻⁵²` in absolute value
(the threshold as computed in `f64`). -/
theorem C97_rank {m n : Nat} (hm : 0 < m) (hmn : m ≤ n) (A : Matrix (Fin m) (Fin n) F64) (hfin : ∀ i j, (A i j).isFin)
    (hoff : ∀ i j, i.1 ≠ j.1 → (A i j).isZero) {fuel : Nat} {x : SVD F64} (hx : SVD.new fuel (ofM A) = .ok x) :
    ∃ k₀, k₀ < m ∧ (∀ k, k < m → (F64.abs (diagOf A k)).toReal ≤ (F64.abs (diagOf A k₀)).toReal) ∧
      x.rank = .ok ((range m).filter fun k => (FloatOps.lt (FloatOps.cst ((max m n : Nat) : Int) 1 * F64.abs (diagOf A k₀) * F64.ofRat 1 (2 ^ 52))
        (F64.abs (diagOf A k)) : Bool) = true).card := by
  obtain ⟨U, S, V, π, g, h, h1, h2⟩ := diag_out hm (by omega) hfin hoff
  have := svd_fuel hx (max fuel (min m n)) (by omega)
  rw [h1 _ (by omega)] at this
  cases this
  have hfix : ∀ k, m ≤ k → π k = k := fun k hk => h2.fix k (by omega)
  have hlt : ∀ j, j < m → π j < m := by
    intro j hj
    by_contra hc
    have := π.injective (hfix (π j) (by omega))
    omega
  have hlt' : ∀ j, j < m → π.symm j < m := by
    intro j hj
    by_contra hc
    have := hfix (π.symm j) (by omega)
    rw [Equiv.apply_symm_apply] at this
    omega
  refine ⟨π 0, hlt 0 hm, fun k hk => ?_, ?_⟩
  · have := h2.sorted 0 (π.symm k) (Nat.zero_le _) (by have := hlt' k hk; omega)
    rwa [Equiv.apply_symm_apply] at this
  · have hcard : ∀ P : Nat → Prop, [DecidablePred P] → ((range m).filter P).card = ((range m).filter fun k => P (π k)).card := by
      intro P _
      refine (Finset.card_bij (fun k _ => π k) (fun k hk => ?_) (fun a _ b _ e => π.injective e) (fun b hb => ?_)).symm
      · rw [Finset.mem_filter, Finset.mem_range] at hk ⊢
        exact ⟨hlt k hk.1, hk.2⟩
      · rw [Finset.mem_filter, Finset.mem_range] at hb
        refine ⟨π.symm b, ?_, Equiv.apply_symm_apply _ _⟩
        rw [Finset.mem_filter, Finset.mem_range, Equiv.apply_symm_apply]
        exact ⟨hlt' b hb.1, hb.2⟩
    rw [hcard]
    unfold SVD.rank
    have hS : ∀ i, i < m → (ofM S).get i i = .ok (F64.abs (diagOf A (π i))) := by
      intro i hi
      rw [ofM_get _ hi (by omega), h2.s, if_pos rfl]
    simp only [ofM_rows, hS 0 hm, ok_bind]
    refine Post.eq_ok ((loop_post (lo := 0) (hi := m) (fun k r => r = ((range k).filter fun k => (FloatOps.lt (FloatOps.cst ((max m n : Nat) : Int) 1 *
      F64.abs (diagOf A (π 0)) * F64.ofRat 1 (2 ^ 52)) (F64.abs (diagOf A (π k))) : Bool) = true).card) (Nat.zero_le _) (by simp) ?_).mono fun r h => h)
    rintro i r - hi rfl
    rw [hS i hi, ok_bind, Finset.range_add_one, Finset.filter_insert]
    show Post (if (FloatOps.lt (FloatOps.cst ((max m n : Nat) : Int) 1 * F64.abs (diagOf A (π 0)) * F64.ofRat 1 (2 ^ 52)) (F64.abs (diagOf A (π i))) : Bool) = true
      then _ else _) _
    by_cases h1 : (FloatOps.lt (FloatOps.cst ((max m n : Nat) : Int) 1 * F64.abs (diagOf A (π 0)) * F64.ofRat 1 (2 ^ 52)) (F64.abs (diagOf A (π i))) : Bool) = true
    · rw [if_pos h1, if_pos h1, Finset.card_insert_of_notMem (by simp)]; exact Post.ok rfl
    · rw [if_neg h1, if_neg h1]; exact Post.ok rfl

/-- The hypotheses are met: `[2 0 0; 0 -3 0]` (with a negative zero): the singular values are `3` and `2`, ... -/
theorem diag_case : (∀ i j, ((!![dec 2 0, 0, 0; -0, dec (-3) 0, (0 : F64)] : Matrix (Fin 2) (Fin 3) F64) i j).isFin) ∧
    ∀ (i : Fin 2) (j : Fin 3), i.1 ≠ j.1 → F64.isZero (!![dec 2 0, 0, 0; -0, dec (-3) 0, (0 : F64)] i j) := by
  constructor
  · intro i j; fin_cases i <;> fin_cases j <;> decide +kernel
  · intro i j h
    fin_cases i <;> fin_cases j <;> first | exact absurd rfl h | exact eq_zero_iff.1 (by decide +kernel)

example : (SVD.new 2 (ofM !![dec 2 0, 0, 0; -0, dec (-3) 0, (0 : F64)]) >>= fun x => .ok x.s) = .ok (ofM !![dec 3 0, 0, 0; 0, dec 2 0, (0 : F64)]) ∧
    (SVD.new 2 (ofM !![dec 2 0, 0, 0; -0, dec (-3) 0, (0 : F64)]) >>= fun x => x.rank) = .ok 2 := by
  decide +kernel

/-- ... `U` and `V` exchange the positions, and the product is the matrix. -/
example : ∃ x, SVD.new 2 (ofM !![dec 2 0, 0, 0; -0, dec (-3) 0, (0 : F64)]) = .ok x ∧ ∃ B, (do (← x.u.mul x.s).mul (← x.v.t)) = .ok (ofM B) ∧
    ∀ i j, Agree (B i j) (!![dec 2 0, 0, 0; -0, dec (-3) 0, (0 : F64)] i j) := by
  obtain ⟨U, S, V, π, h, -⟩ := C97_factors (by norm_num) (by norm_num) _ diag_case.1 diag_case.2
  obtain ⟨B, hB⟩ := C97_product (by norm_num) (by norm_num) _ diag_case.1 diag_case.2 (h 2 le_rfl)
  exact ⟨_, h 2 le_rfl, B, hB⟩

end LA.Props
