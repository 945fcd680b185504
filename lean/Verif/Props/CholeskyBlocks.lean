import Verif.Props.Leading
import Verif.Props.Band
import Verif.Proofs.RndChol2

/-!
# C124: zeros in the Cholesky decomposition of doubles

The factor has its zeros where the matrix has them at the left of a row (the profile), and two systems that are not connected do not
influence each other: the factor of a block diagonal matrix consists of the factors of the blocks, bit for bit.
-/

namespace LA.Props
open LA F64 Cholesky.Rnd Finset

section
variable {n p : Nat}

theorem fin_val_pos_ne {x : F64} (h : (0 : ℝ) < Fp.val x) : FloatOps.eq x 0 ≠ true := fun e => by
  have h0 : isZero x := F64.eq_zero_iff.1 e
  obtain ⟨s, rfl⟩ := isZero_iff.1 h0
  have : Fp.val (F64.zero s) = (0 : ℝ) := by
    show F64.toReal _ = 0
    simp [F64.toReal, F64.zero, F64.sgn_zero]
  rw [this] at h
  exact lt_irrefl _ h

/-- Zeros at the left of row `i`. -/
theorem row_zeros {A L : Nat → Nat → F64} {i s : Nat} (hs : s ≤ i)
    (lo : ∀ k, k < s → RDiv.rdiv (A i k - fdot (fun t => L k t) (fun t => L i t) k) (L k k) = .ok (L i k))
    (hL : ∀ k t, k < s → t ≤ k → (L k t).isFin) (hd : ∀ k, k < s → FloatOps.eq (L k k) 0 ≠ true)
    (hA : ∀ k, k < s → isZero (A i k)) : ∀ k, k < s → isZero (L i k) := by
  intro k
  induction k using Nat.strong_induction_on with
  | _ k ih =>
    intro hk
    exact zeros_f64.div _ _ _ (zeros_f64.sub _ _ (hA k hk) (LU.Band.fdot_zero zeros_f64 fun t ht => Or.inr ⟨hL k t hk ht.le, ih t ht (by omega)⟩))
      (hL k k hk le_rfl) (hd k hk) (lo k hk)

/-- C124: the profile: the zeros at the beginning of a row of the matrix are zeros of the factor. -/
theorem C124_profile (hn : 0 < n) (A : Matrix (Fin n) (Fin n) F64) {c : Cholesky F64} {L : Matrix (Fin n) (Fin n) F64}
    (hc : Cholesky.new (ofM A) = .ok (some c)) (hL : c.getL = ofM L) (hf : ∀ i j, (L i j).isFin) (i : Fin n) (s : Nat) (hs : s ≤ i)
    (hA : ∀ k : Fin n, k.1 < s → isZero (A i k)) (k : Fin n) (hk : k.1 < s) : isZero (L i k) := by
  obtain ⟨o, ho, hp⟩ := new_post hn A
  rw [hc] at ho
  obtain rfl := Except.ok.inj ho
  obtain ⟨G, rfl, hG⟩ := hp
  obtain rfl := ofM_inj hL
  have hi := i.2
  have hf' : ∀ a b, a < n → b < n → (G a b).isFin := fun a b ha hb => hf ⟨a, ha⟩ ⟨b, hb⟩
  refine row_zeros (A := ext A) (L := G) hs (fun k hk => hG.lo i k i.2 (by omega)) (fun k t hk ht => hf' k t (by omega) (by omega))
    (fun k hk => fin_val_pos_ne (diag_pos hG hf' ⟨k, by omega⟩)) (fun k hk => ?_) k hk
  rw [ext_eq A hi (show k < n by omega)]
  exact hA ⟨k, by omega⟩ hk

/-- The contribution of zeros. -/
theorem fdot_skip {x y : Nat → F64} {n : Nat} (hx : ∀ t, t < n → isZero (x t)) (hy : ∀ t, t < n → isZero (y t)) (r : Nat) :
    fdot x y (n + r) = fdot (fun t => x (n + t)) (fun t => y (n + t)) r := by
  unfold fdot
  induction r with
  | zero =>
    show facc _ _ _ n = 0
    have : ∀ k, k ≤ n → facc (· + ·) 0 (fun i => x i * y i) k = 0 := by
      intro k
      induction k with
      | zero => exact fun _ => rfl
      | succ k ih =>
        intro hk
        show facc _ _ _ k + x k * y k = 0
        rw [ih (by omega)]
        obtain ⟨a, ha⟩ := isZero_iff.1 (hx k hk)
        obtain ⟨b, hb⟩ := isZero_iff.1 (hy k hk)
        obtain ⟨s, hs⟩ := isZero_iff.1 (F64.mul_zero' (x k) b (by rw [ha]; trivial))
        rw [hb, hs]
        exact (zero_add_zero false s).trans rfl
    exact this n le_rfl
  | succ r ih =>
    show facc _ _ _ (n + r) + x (n + r) * y (n + r) = facc _ _ _ r + x (n + r) * y (n + r)
    rw [ih]

/-- C124: unconnected systems: the factor of a block diagonal matrix consists of the factors of the blocks, bit for bit. -/
theorem C124_blocks (hn : 0 < n) (hp : 0 < p) (A : Matrix (Fin (n + p)) (Fin (n + p)) F64)
    (hz : ∀ i j, isZero (A (Fin.natAdd n i) (Fin.castAdd p j)) ∧ isZero (A (Fin.castAdd p j) (Fin.natAdd n i)))
    {L₁ : Matrix (Fin n) (Fin n) F64} (h1 : Cholesky.new (ofM (A.submatrix (Fin.castAdd p) (Fin.castAdd p))) = .ok (some ⟨ofM L₁⟩))
    (hf : ∀ i j, (L₁ i j).isFin) :
    Cholesky.new (ofM (A.submatrix (Fin.natAdd n) (Fin.natAdd n))) = .ok none ∧ Cholesky.new (ofM A) = .ok none ∨
    ∃ (L₂ : Matrix (Fin p) (Fin p) F64) (L : Matrix (Fin (n + p)) (Fin (n + p)) F64),
      Cholesky.new (ofM (A.submatrix (Fin.natAdd n) (Fin.natAdd n))) = .ok (some ⟨ofM L₂⟩) ∧ Cholesky.new (ofM A) = .ok (some ⟨ofM L⟩) ∧
      (∀ i j, L (Fin.castAdd p i) (Fin.castAdd p j) = L₁ i j) ∧ (∀ i j, L (Fin.natAdd n i) (Fin.natAdd n j) = L₂ i j) ∧
      (∀ i j, L (Fin.castAdd p i) (Fin.natAdd n j) = 0) ∧ ∀ i j, isZero (L (Fin.natAdd n i) (Fin.castAdd p j)) := by
  obtain ⟨o1, ho1, hp1⟩ := new_post hn (A.submatrix (Fin.castAdd p) (Fin.castAdd p))
  rw [h1] at ho1
  obtain rfl := Except.ok.inj ho1
  obtain ⟨G1, e1, hG1⟩ := hp1
  obtain rfl := ofM_inj (congrArg Cholesky.l e1)
  have hf1 : ∀ a b, a < n → b < n → (G1 a b).isFin := fun a b ha hb => hf ⟨a, ha⟩ ⟨b, hb⟩
  obtain ⟨o2, ho2, hp2⟩ := new_post hp (A.submatrix (Fin.natAdd n) (Fin.natAdd n))
  obtain ⟨o, ho, hp0⟩ := new_post (show 0 < n + p by omega) A
  have a1 : ∀ i k, i < n → k < n → ext (A.submatrix (Fin.castAdd p) (Fin.castAdd p)) i k = ext A i k := by
    intro i k hi hk
    rw [ext_eq _ hi hk, ext_eq A (show i < n + p by omega) (show k < n + p by omega)]; rfl
  have a2 : ∀ i k, i < p → k < p → ext (A.submatrix (Fin.natAdd n) (Fin.natAdd n)) i k = ext A (n + i) (n + k) := by
    intro i k hi hk
    rw [ext_eq _ hi hk, ext_eq A (show n + i < n + p by omega) (show n + k < n + p by omega)]; rfl
  have az : ∀ i k, i < p → k < n → isZero (ext A (n + i) k) ∧ isZero (ext A k (n + i)) := by
    intro i k hi hk
    rw [ext_eq A (show n + i < n + p by omega) (show k < n + p by omega), ext_eq A (show k < n + p by omega) (show n + i < n + p by omega)]
    exact hz ⟨i, hi⟩ ⟨k, hk⟩
  -- rows up to `j` of any factor of `A`
  have key : ∀ (L : Nat → Nat → F64) (j : Nat), n ≤ j →
      (∀ i k, i ≤ j → i < n + p → k < i → RDiv.rdiv (ext A i k - fdot (fun t => L k t) (fun t => L i t) k) (L k k) = .ok (L i k)) →
      (∀ i, i < j → FloatOps.sqrt (ext A i i - fdot (fun t => L i t) (fun t => L i t) i) = .ok (L i i)) →
      (∀ i k, i < n → k ≤ i → L i k = G1 i k) ∧ (∀ i k, n + i ≤ j → i < p → k < n → isZero (L (n + i) k)) ∧
      (∀ i k r, n + i ≤ j → i < p → k ≤ i → fdot (fun t => L (n + k) t) (fun t => L (n + i) t) (n + r) =
        fdot (fun t => L (n + k) (n + t)) (fun t => L (n + i) (n + t)) r) := by
    intro L j hj lo dg
    have u1 : ∀ i k, i < n → k ≤ i → L i k = G1 i k := fun i k hi hk =>
      part_unique (n' := n) (n := n) (A' := ext (A.submatrix (Fin.castAdd p) (Fin.castAdd p))) (A := ext A) (L := L) (L' := G1) (j := n)
        (fun i k _ hi hk => (a1 i k hi (by omega)).symm) (fun i k _ hi hk => lo i k (by omega) (by omega) hk) (fun i k _ hi hk => hG1.lo i k hi hk)
        (fun i hi => dg i (by omega)) (fun i hi => (hG1.dg i hi).1) i k hi.le hi hk (by omega)
    have u2 : ∀ i k, n + i ≤ j → i < p → k < n → isZero (L (n + i) k) := fun i k hi hip hk =>
      row_zeros (A := ext A) (L := L) (i := n + i) (s := n) (by omega) (fun k hk => lo (n + i) k hi (by omega) (by omega))
        (fun k t hk ht => by rw [u1 k t hk ht]; exact hf1 k t hk (by omega))
        (fun k hk => by rw [u1 k k hk le_rfl]; exact fin_val_pos_ne (diag_pos hG1 hf1 ⟨k, hk⟩)) (fun k hk => (az i k hip hk).1) k hk
    exact ⟨u1, u2, fun i k r hi hip hk => fdot_skip (fun t ht => u2 k t (by omega) (by omega) ht) (fun t ht => u2 i t hi hip ht) r⟩
  have lo2 : ∀ (L : Nat → Nat → F64) (j : Nat), n ≤ j →
      (∀ i k, i ≤ j → i < n + p → k < i → RDiv.rdiv (ext A i k - fdot (fun t => L k t) (fun t => L i t) k) (L k k) = .ok (L i k)) →
      (∀ i, i < j → FloatOps.sqrt (ext A i i - fdot (fun t => L i t) (fun t => L i t) i) = .ok (L i i)) →
      (∀ i k, n + i ≤ j → i < p → k < i → RDiv.rdiv (ext A (n + i) (n + k) - fdot (fun t => L (n + k) (n + t)) (fun t => L (n + i) (n + t)) k) (L (n + k) (n + k)) = .ok (L (n + i) (n + k))) ∧
      ∀ i, n + i < j → i < p → FloatOps.sqrt (ext A (n + i) (n + i) - fdot (fun t => L (n + i) (n + t)) (fun t => L (n + i) (n + t)) i) = .ok (L (n + i) (n + i)) := by
    intro L j hj lo dg
    obtain ⟨u1, u2, u3⟩ := key L j hj lo dg
    refine ⟨fun i k hi hip hk => ?_, fun i hi hip => ?_⟩
    · rw [← u3 i k k hi hip hk.le]; exact lo (n + i) (n + k) hi (by omega) (by omega)
    · rw [← u3 i i i hi.le hip le_rfl]; exact dg (n + i) hi
  rcases o with _ | c
  · rcases o2 with _ | c2
    · exact Or.inl ⟨ho2, ho⟩
    exfalso
    obtain ⟨G2, rfl, hG2⟩ := hp2
    rcases hp0 with ⟨i, k, hi, hk, he⟩ | ⟨j, L, hj, hpt, hr, hl⟩
    · rcases Nat.lt_or_ge i n with hin | hin
      · rw [← a1 k i (by omega) hin, ← a1 i k hin (by omega), hG1.symm i k hin hk] at he
        cases he
      · obtain ⟨i, rfl⟩ := Nat.exists_eq_add_of_le hin
        rcases Nat.lt_or_ge k n with hkn | hkn
        · obtain ⟨z1, z2⟩ := az i k (by omega) hkn
          obtain ⟨s, hs⟩ := isZero_iff.1 z1
          obtain ⟨t, ht⟩ := isZero_iff.1 z2
          rw [hs, ht] at he
          cases s <;> cases t <;> exact absurd he (by decide)
        · obtain ⟨k, rfl⟩ := Nat.exists_eq_add_of_le hkn
          rw [← a2 k i (by omega) (by omega), ← a2 i k (by omega) (by omega), hG2.symm i k (by omega) (by omega)] at he
          cases he
    · have lo : ∀ i k, i ≤ j → i < n + p → k < i → RDiv.rdiv (ext A i k - fdot (fun t => L k t) (fun t => L i t) k) (L k k) = .ok (L i k) := by
        intro i k hi _ hk
        rcases Nat.lt_or_ge i j with hij | hij
        · exact hpt.lo i k hij hk
        · obtain rfl : i = j := by omega
          exact hr k hk
      rcases Nat.lt_or_ge j n with hjn | hjn
      · have hs := part_unique (n' := n) (n := n) (L := L) (L' := G1) (j := j) (A := ext A) (fun i k hi hin hk => (a1 i k hin (by omega)).symm)
          (fun i k hi hin hk => lo i k hi (by omega) hk) (fun i k hi hin hk => hG1.lo i k hin hk) (fun i hi => (hpt.dg i hi).1)
          (fun i hi => (hG1.dg i (by omega)).1) j
        have hl' := (hG1.dg j hjn).2
        rw [← fdot_congr (fun t ht => ⟨hs t le_rfl hjn ht.le ht, hs t le_rfl hjn ht.le ht⟩), a1 j j hjn hjn, hl] at hl'
        cases hl'
      · obtain ⟨i, rfl⟩ := Nat.exists_eq_add_of_le hjn
        have hip : i < p := by omega
        obtain ⟨u1, u2, u3⟩ := key L (n + i) hjn lo fun i hi => (hpt.dg i hi).1
        obtain ⟨v1, v2⟩ := lo2 L (n + i) hjn lo fun i hi => (hpt.dg i hi).1
        have hs := part_unique (n' := p) (n := p) (L := fun a b => L (n + a) (n + b)) (L' := G2) (j := i) (A := fun a b => ext A (n + a) (n + b))
          (A' := ext (A.submatrix (Fin.natAdd n) (Fin.natAdd n))) (fun i k hi hin hk => (a2 i k hin (by omega)).symm)
          (fun i k hi hin hk => v1 i k (by omega) hin hk) (fun i k hi hin hk => hG2.lo i k hin hk) (fun i hi => v2 i (by omega) (by omega))
          (fun i hi => (hG2.dg i (by omega)).1) i
        have hl' := (hG2.dg i hip).2
        rw [← fdot_congr (fun t ht => ⟨hs t le_rfl hip ht.le ht, hs t le_rfl hip ht.le ht⟩), a2 i i hip hip, ← u3 i i i le_rfl hip le_rfl, hl] at hl'
        cases hl'
  · obtain ⟨L, rfl, hL⟩ := hp0
    obtain ⟨u1, u2, u3⟩ := key L (n + p) (by omega) (fun i k _ hi hk => hL.lo i k hi hk) fun i hi => (hL.dg i hi).1
    obtain ⟨v1, v2⟩ := lo2 L (n + p) (by omega) (fun i k _ hi hk => hL.lo i k hi hk) fun i hi => (hL.dg i hi).1
    right
    rcases o2 with _ | c2
    · exfalso
      rcases hp2 with ⟨i, k, hi, hk, he⟩ | ⟨j, L', hj, hpt, hr, hl⟩
      · rw [a2 k i (by omega) hi, a2 i k hi (by omega), hL.symm (n + i) (n + k) (by omega) (by omega)] at he
        cases he
      · have hs := part_unique (n' := p) (n := p) (L := fun a b => L (n + a) (n + b)) (L' := L') (j := j) (A := fun a b => ext A (n + a) (n + b))
          (A' := ext (A.submatrix (Fin.natAdd n) (Fin.natAdd n))) (fun i k hi hin hk => (a2 i k hin (by omega)).symm)
          (fun i k hi hin hk => v1 i k (by omega) hin hk) (fun i k hi hin hk => by
            rcases Nat.lt_or_ge i j with hij | hij
            · exact hpt.lo i k hij hk
            · obtain rfl : i = j := by omega
              exact hr k hk) (fun i hi => v2 i (by omega) (by omega)) (fun i hi => (hpt.dg i hi).1) j
        have hl' := (hL.dg (n + j) (by omega)).2
        rw [u3 j j j (by omega) hj le_rfl, fdot_congr (fun t ht => ⟨hs t le_rfl hj ht.le ht, hs t le_rfl hj ht.le ht⟩), ← a2 j j hj hj, hl] at hl'
        cases hl'
    · obtain ⟨G2, rfl, hG2⟩ := hp2
      refine ⟨_, _, ho2, ho, fun i j => ?_, fun i j => ?_, fun i j => ?_, fun i j => u2 i j (by omega) i.2 j.2⟩
      · show L i j = G1 i j
        rcases Nat.lt_or_ge i.1 j.1 with hij | hij
        · rw [hL.zero i j (by omega) hij, hG1.zero i j i.2 hij]
        · exact u1 i j i.2 hij
      · show L (n + i) (n + j) = G2 i j
        rcases Nat.lt_or_ge i.1 j.1 with hij | hij
        · rw [hL.zero (n + i) (n + j) (by omega) (by omega), hG2.zero i j i.2 hij]
        · exact part_unique (n' := p) (n := p) (L := fun a b => L (n + a) (n + b)) (L' := G2) (j := p) (A := fun a b => ext A (n + a) (n + b))
            (A' := ext (A.submatrix (Fin.natAdd n) (Fin.natAdd n))) (fun i k hi hin hk => (a2 i k hin (by omega)).symm)
            (fun i k hi hin hk => v1 i k (by omega) hin hk) (fun i k hi hin hk => hG2.lo i k hin hk) (fun i hi => v2 i (by omega) (by omega))
            (fun i hi => (hG2.dg i (by omega)).1) i j i.2.le i.2 hij j.2
      · exact hL.zero i (n + j) (by omega) (by omega)

/-- C124: a system whose first block is refused is refused. -/
theorem C124_first (hn : 0 < n) (A : Matrix (Fin (n + p)) (Fin (n + p)) F64)
    (h1 : Cholesky.new (ofM (A.submatrix (Fin.castAdd p) (Fin.castAdd p))) = .ok none) : Cholesky.new (ofM A) = .ok none :=
  C98_cholesky_none hn A h1

end

section Examples

/-- Two systems, `4` and `4, 2; 2, 5`, and their factors `2` and `2, 0; 1, 2`. -/
example : Cholesky.new (ofM !![dec 4 0, 0, 0; 0, dec 4 0, dec 2 0; 0, dec 2 0, dec 5 0]) =
      .ok (some ⟨ofM !![dec 2 0, 0, 0; 0, dec 2 0, 0; 0, 1, dec 2 0]⟩) ∧
    Cholesky.new (ofM !![dec 4 0, dec 2 0; dec 2 0, dec 5 0]) = .ok (some ⟨ofM !![dec 2 0, 0; 1, dec 2 0]⟩) ∧
    Cholesky.new (ofM !![dec 4 0]) = .ok (some ⟨ofM !![dec 2 0]⟩) := ⟨by decide +kernel, by decide +kernel, by decide +kernel⟩

/-- A refused second block refuses the whole. -/
example : Cholesky.new (ofM !![dec 4 0, 0, 0; 0, dec 1 0, dec 2 0; 0, dec 2 0, dec 1 0]) = .ok none ∧
    Cholesky.new (ofM !![dec 1 0, dec 2 0; dec 2 0, dec 1 0]) = .ok none := ⟨by decide +kernel, by decide +kernel⟩

/-- The profile: zeros at the left of row 3 stay, the zero inside row 3 of the second matrix does not (fill-in). -/
example : Cholesky.new (ofM !![dec 4 0, dec 2 0, 0; dec 2 0, dec 5 0, dec 2 0; 0, dec 2 0, dec 5 0]) =
      .ok (some ⟨ofM !![dec 2 0, 0, 0; 1, dec 2 0, 0; 0, 1, dec 2 0]⟩) ∧
    Cholesky.new (ofM !![dec 4 0, dec 2 0, dec 2 0; dec 2 0, dec 5 0, 0; dec 2 0, 0, dec 9 0]) =
      .ok (some ⟨ofM !![dec 2 0, 0, 0; 1, dec 2 0, 0; 1, dec (-5) (-1), FloatOps.sqrt (dec 775 (-2)) |>.toOption.getD 0]⟩) := ⟨by decide +kernel, by decide +kernel⟩

end Examples

end LA.Props

