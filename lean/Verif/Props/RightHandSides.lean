import Verif.Props.Accuracy
import Verif.Props.Blocks
import Verif.Props.FloatLaws
import Verif.Props.IEEE
import Verif.Proofs.RndSolve
import Verif.Proofs.RndChol2

/-!
# C92: right-hand sides are solved one by one

`solve` with several right-hand sides gives, column by column and bit by bit, what `solve` gives for each column alone; column `j` of
`inverse()` is what `solve` gives for the unit vector `e_j`.  For any arithmetic with the standard model of rounding (`F64` in particular).
-/

namespace LA.Props
open LA Fp
set_option linter.unusedSectionVars false

variable {α : Type} [Zero α] [One α] [Add α] [Sub α] [Neg α] [Mul α] [FloatOps α] [Fp α] {n p q : Nat}

/-- Forward substitution has one result. -/
theorem fwd_unique {G : Nat → Nat → α} {B B' Y Y' : Nat → α} (hB : ∀ i, i < n → B i = B' i)
    (h : ∀ i, i < n → Y i = facc (· - ·) (B i) (fun t => Y t * G i t) i)
    (h' : ∀ i, i < n → Y' i = facc (· - ·) (B' i) (fun t => Y' t * G i t) i) : ∀ i, i < n → Y i = Y' i := by
  intro i
  induction i using Nat.strong_induction_on with
  | _ i ih =>
    intro hi
    rw [h i hi, h' i hi, hB i hi]
    exact facc_congr fun t ht => by rw [ih t ht (by omega)]

/-- Back substitution has one result. -/
theorem bwd_unique {G : Nat → Nat → α} {B B' X X' : Nat → α} (hB : ∀ i, i < n → B i = B' i)
    (h : ∀ i, i < n → RDiv.rdiv (facc (· - ·) (B i) (fun s => X (n - 1 - s) * G i (n - 1 - s)) (n - 1 - i)) (G i i) = .ok (X i))
    (h' : ∀ i, i < n → RDiv.rdiv (facc (· - ·) (B' i) (fun s => X' (n - 1 - s) * G i (n - 1 - s)) (n - 1 - i)) (G i i) = .ok (X' i)) :
    ∀ i, i < n → X i = X' i := by
  have key : ∀ k i, i + k = n - 1 → i < n → X i = X' i := by
    intro k
    induction k using Nat.strong_induction_on with
    | _ k ih =>
      intro i hk hi
      have e : facc (· - ·) (B i) (fun s => X (n - 1 - s) * G i (n - 1 - s)) (n - 1 - i) =
          facc (· - ·) (B' i) (fun s => X' (n - 1 - s) * G i (n - 1 - s)) (n - 1 - i) := by
        rw [hB i hi]
        exact facc_congr fun s hs => by rw [ih s (by omega) (n - 1 - s) (by omega) (by omega)]
      have h1 := h i hi
      rw [e, h' i hi] at h1
      exact (Except.ok.inj h1).symm
  exact fun i hi => key (n - 1 - i) i (by omega) hi

/-- C92: solving for a selection `s` of the right-hand sides (any columns, in any order, also repeated) gives the selection of the
solutions; `None` does not depend on the right-hand sides. -/
theorem C92_select (hn : 0 < n) (hp : 0 < p) (hq : 0 < q) (A : Matrix (Fin n) (Fin n) α) (B : Matrix (Fin n) (Fin p) α) (s : Fin q → Fin p) :
    (ofM A).solve (ofM B) = .ok none ∧ (ofM A).solve (ofM (B.submatrix id s)) = .ok none ∨
    ∃ X : Matrix (Fin n) (Fin p) α, (ofM A).solve (ofM B) = .ok (some (ofM X)) ∧
      (ofM A).solve (ofM (B.submatrix id s)) = .ok (some (ofM (X.submatrix id s))) := by
  obtain ⟨G, σ, h1, -⟩ := LU.Rnd.new_ofM hn hn A
  unfold Mat.solve
  rw [h1, ok_bind, ok_bind]
  rcases LU.Rnd.solve_ok hn hp G (decide (Equiv.Perm.sign σ = 1)) σ B with ⟨a, b⟩ | ⟨a, X, Y, b, hY, hX⟩ <;>
    rcases LU.Rnd.solve_ok hn hq G (decide (Equiv.Perm.sign σ = 1)) σ (B.submatrix id s) with ⟨c, d⟩ | ⟨c, X', Y', d, hY', hX'⟩
  · exact Or.inl ⟨b, d⟩
  · obtain ⟨i, hi⟩ := a; rw [c i] at hi; cases hi
  · obtain ⟨i, hi⟩ := c; rw [a i] at hi; cases hi
  · refine Or.inr ⟨_, b, ?_⟩
    rw [d]
    congr 3
    ext i j
    have e1 := fwd_unique (n := n) (G := G) (B := fun i => if h : i < n then B (σ ⟨i, h⟩) (s j) else 0) (fun _ _ => rfl) (Y := fun i => Y i (s j)) (Y' := fun i => Y' i j)
      (fun i hi => by simp only [dif_pos hi]; exact hY ⟨i, hi⟩ (s j)) (fun i hi => by simp only [dif_pos hi]; exact hY' ⟨i, hi⟩ j)
    exact (bwd_unique (n := n) (G := G) e1 (X := fun i => X i (s j)) (X' := fun i => X' i j) (fun i hi => hX ⟨i, hi⟩ (s j))
      (fun i hi => hX' ⟨i, hi⟩ j) i i.2).symm

/-- C92: `solve(b)` and `solve(b.get_column(j))`. -/
theorem C92_column (hn : 0 < n) (hp : 0 < p) (A : Matrix (Fin n) (Fin n) α) (B X : Matrix (Fin n) (Fin p) α)
    (h : (ofM A).solve (ofM B) = .ok (some (ofM X))) (j : Fin p) :
    (do let b ← (ofM B).getColumn j; (ofM A).solve b) = (do let x ← (ofM X).getColumn j; return some x) := by
  rw [C19_getColumn hn, C19_getColumn hn, ok_bind, ok_bind]
  rcases C92_select hn hp one_pos A B (fun _ => j) with ⟨a, -⟩ | ⟨X', a, b⟩
  · rw [a] at h; simp at h
  · have : X' = X := ofM_inj (by rw [a] at h; simpa using h)
    rw [this] at b
    exact b

/-- C92: solving for `[b | c]`, `b.cr(&c)`, is solving for `b` and for `c`. -/
theorem C92_concat (hn : 0 < n) (hp : 0 < p) (hq : 0 < q) (A : Matrix (Fin n) (Fin n) α) (B : Matrix (Fin n) (Fin p) α)
    (C : Matrix (Fin n) (Fin q) α) :
    (do let bc ← (ofM B).cr (ofM C); (ofM A).solve bc) =
    (do match ← (ofM A).solve (ofM B), ← (ofM A).solve (ofM C) with
        | some x, some y => return some (← x.cr y)
        | _, _ => return none) := by
  rw [(C15_cr B C).1, ok_bind]
  have hl := C92_select hn (p := p + q) (by omega) hp A (Matrix.of fun i => Fin.append (B i) (C i)) (Fin.castAdd q)
  have hr := C92_select hn (p := p + q) (by omega) hq A (Matrix.of fun i => Fin.append (B i) (C i)) (Fin.natAdd p)
  have eB : (Matrix.of fun i => Fin.append (B i) (C i)).submatrix id (Fin.castAdd q) = B := by
    ext i j; exact Fin.append_left (B i) (C i) j
  have eC : (Matrix.of fun i => Fin.append (B i) (C i)).submatrix id (Fin.natAdd p) = C := by
    ext i j; exact Fin.append_right (B i) (C i) j
  rw [eB] at hl
  rw [eC] at hr
  rcases hl with ⟨a, b⟩ | ⟨X, a, b⟩ <;> rcases hr with ⟨c, d⟩ | ⟨X', c, d⟩
  · rw [a, b, d]; rfl
  · rw [a] at c; simp at c
  · rw [a] at c; simp at c
  · have : X' = X := ofM_inj (by rw [a] at c; simpa using c.symm)
    subst this
    rw [a, b, d, ok_bind, ok_bind]
    dsimp only
    rw [(C15_cr _ _).1, ok_bind]
    refine congrArg (fun M => Except.ok (some (ofM M))) ?_
    ext i j
    refine Fin.addCases (fun j => ?_) (fun j => ?_) j
    · rw [Matrix.of_apply]; erw [Fin.append_left]; rfl
    · rw [Matrix.of_apply]; erw [Fin.append_right]; rfl

/-- C92: column `j` of the inverse is the solution for the unit vector `e_j`. -/
theorem C92_inverse (hn : 0 < n) (A X : Matrix (Fin n) (Fin n) α) (h : (ofM A).inverse = .ok (some (ofM X))) (j : Fin n) :
    (ofM A).solve (ofM (colVec fun i => if i = j then 1 else 0)) = .ok (some (ofM (colVec fun i => X i j))) := by
  have h' : (ofM A).solve (ofM (1 : Matrix (Fin n) (Fin n) α)) = .ok (some (ofM X)) := by
    unfold Mat.inverse at h
    rw [ofM_cols A hn, ok_bind, ofM_rows, beq_self_eq_true, assert_true, ok_bind, C05_id_square] at h
    exact h
  have := C92_column hn hn A 1 X h' j
  rw [C19_getColumn hn, C19_getColumn hn, ok_bind, ok_bind] at this
  exact this

/-- C92: the same for `Cholesky::solve`. -/
theorem C92_cholesky (hn : 0 < n) (hp : 0 < p) (hq : 0 < q) (L : Matrix (Fin n) (Fin n) α) (B : Matrix (Fin n) (Fin p) α) (s : Fin q → Fin p) :
    ∃ X : Matrix (Fin n) (Fin p) α, (Cholesky.mk (ofM L)).solve (ofM B) = .ok (ofM X) ∧
      (Cholesky.mk (ofM L)).solve (ofM (B.submatrix id s)) = .ok (ofM (X.submatrix id s)) := by
  have eL : L = Matrix.of fun (i : Fin n) (j : Fin n) => ext L i j := by ext i j; exact (ext_fin L i j).symm
  obtain ⟨X, Y, a, hY, hX⟩ := Cholesky.Rnd.solve_ok hn hp (ext L) B
  obtain ⟨X', Y', b, hY', hX'⟩ := Cholesky.Rnd.solve_ok hn hq (ext L) (B.submatrix id s)
  rw [← eL] at a b
  refine ⟨_, a, ?_⟩
  rw [b]
  refine ok_ext fun i j => ?_
  have e1 : ∀ i, i < n → Y i (s j) = Y' i j := by
    intro i
    induction i using Nat.strong_induction_on with
    | _ i ih =>
      intro hi
      have h1 := hY i (s j) hi (s j).2
      have h2 := hY' i j hi j.2
      have e : facc (· - ·) (ext B i (s j)) (fun t => Y t (s j) * ext L i t) i =
          facc (· - ·) (ext (B.submatrix id s) i j) (fun t => Y' t j * ext L i t) i := by
        rw [ext_eq _ hi (s j).2, ext_eq _ hi j.2]
        exact facc_congr fun t ht => by rw [ih t ht (by omega)]
      rw [e, h2] at h1
      exact (Except.ok.inj h1).symm
  have e2 : ∀ k i, i + k = n - 1 → i < n → X i (s j) = X' i j := by
    intro k
    induction k using Nat.strong_induction_on with
    | _ k ih =>
      intro i hk hi
      have h1 := hX i (s j) hi (s j).2
      have h2 := hX' i j hi j.2
      have e : facc (· - ·) (Y i (s j)) (fun t => X (i + 1 + t) (s j) * ext L (i + 1 + t) i) (n - (i + 1)) =
          facc (· - ·) (Y' i j) (fun t => X' (i + 1 + t) j * ext L (i + 1 + t) i) (n - (i + 1)) := by
        rw [e1 i hi]
        exact facc_congr fun t ht => by rw [ih (n - 1 - (i + 1 + t)) (by omega) (i + 1 + t) (by omega) (by omega)]
      rw [e, h2] at h1
      exact (Except.ok.inj h1).symm
  exact (e2 (n - 1 - i) i (by omega) i.2).symm

/-- On doubles, with a result that is rounded: `[3, 1; 1, 2] x = [1, 2; 0, 1]`, its two columns, and the inverse. -/
example : let A := ofM !![dec 3 0, dec 1 0; dec 1 0, dec 2 0]
    ∃ X : Matrix (Fin 2) (Fin 2) F64, A.solve (ofM !![dec 1 0, dec 2 0; dec 0 0, dec 1 0]) = .ok (some (ofM X)) ∧ X 0 0 ≠ dec 4 (-1) ∧
      ∃ Y : Matrix (Fin 2) (Fin 2) F64, A.inverse = .ok (some (ofM Y)) := by
  refine ⟨!![F64.ofRat 7205759403792793 (2 ^ 54), F64.ofRat 5404319552844595 (2 ^ 53); F64.ofRat (-7205759403792793) (2 ^ 55),
      F64.ofRat 3602879701896397 (2 ^ 54)], ?_, ?_,
    !![F64.ofRat 7205759403792793 (2 ^ 54), F64.ofRat (-7205759403792793) (2 ^ 55); F64.ofRat (-7205759403792793) (2 ^ 55),
      F64.ofRat 5404319552844595 (2 ^ 53)], ?_⟩ <;> decide +kernel

end LA.Props
