import Verif.Proofs.RunsSVD
import Verif.Props.Blocks

/-! # C60: the decompositions never panic, whatever the element arithmetic

`Total α` says that division and square root return a value for all arguments, as IEEE floating point does (NaN and
infinities are values).  Nothing else is assumed: comparisons may be those of NaN, additions may round, overflow, … -/

namespace LA.Props
open LA
set_option linter.unusedSectionVars false

variable {α : Type} [Zero α] [One α] [Add α] [Sub α] [Neg α] [Mul α] [FloatOps α] [Total α] {m n : Nat}

/-- A matrix value of the given shape. -/
def Shape (m n : Nat) (a : Mat α) : Prop := ∃ A : Matrix (Fin m) (Fin n) α, a = ofM A

theorem shape_of {a : Mat α} (h1 : a.rows = m) (h2 : a.data.length = m * n) : Shape m n a := by
  obtain ⟨r, d⟩ := a
  dsimp only at h1 h2
  subst h1
  refine ⟨fun i j => d[i.1 * n + j.1]'(by rw [h2]; exact lt2 i.2 j.2), ?_⟩
  exact mk_eq_ofM _ h2 fun i j => by simp [h2, lt2 i.2 j.2]

/-- C60 (LU): `new`, `get_l`, `get_u` return on every matrix; the results have the documented shapes. -/
theorem C60_lu (hm : 0 < m) (hn : 0 < n) (A : Matrix (Fin m) (Fin n) α) :
    ∃ x, LU.new (ofM A) = .ok x ∧ Shape m n x.lu ∧ (∃ l, x.getL = .ok l ∧ Shape m (min m n) l) ∧
      (∃ u, x.getU = .ok u ∧ Shape (min m n) n u) ∧ (n ≤ m → ∃ b, x.isNonSingular = .ok b) := by
  obtain ⟨x, h, h1, h2, h3⟩ := (LU.new_runs (a := ofM A) rfl (by simp) hm hn).total
  refine ⟨x, h, shape_of h1 h2, ?_, ?_, fun hmn => ?_⟩
  · obtain ⟨l, hl, a, b⟩ := (LU.getL_runs h1 h2 hm hn).total
    exact ⟨l, hl, shape_of a b⟩
  · obtain ⟨l, hl, a, b⟩ := (LU.getU_runs h1 h2 hm hn).total
    exact ⟨l, hl, shape_of a b⟩
  · obtain ⟨b, hb, -⟩ := (LU.isNonSingular_runs h1 h2 hm hmn).total
    exact ⟨b, hb⟩

/-- C60 (square systems): `solve`, `inverse`, `det`, `is_singular`, `is_non_singular` return on every square matrix; `solve`
gives a matrix of the shape of the right-hand side, or `None`. -/
theorem C60_solve {nx : Nat} (hn : 0 < n) (hx : 0 < nx) (A : Matrix (Fin n) (Fin n) α) (B : Matrix (Fin n) (Fin nx) α) :
    (∃ o, (ofM A).solve (ofM B) = .ok o ∧ ∀ y, o = some y → Shape n nx y) ∧
    (∃ o, (ofM A).inverse = .ok o ∧ ∀ y, o = some y → Shape n n y) ∧
    (∃ d, (ofM A).det = .ok d) ∧ (∃ b, (ofM A).isNonSingular = .ok b) ∧ ∃ b, (ofM A).isSingular = .ok b := by
  obtain ⟨x, h, h1, h2, h3⟩ := (LU.new_runs (a := ofM A) rfl (by simp) hn hn).total
  have hc : (ofM A).cols = .ok n := ofM_cols A hn
  have hns : ∃ b, (ofM A).isNonSingular = .ok b := by
    obtain ⟨b, hb, -⟩ := (LU.isNonSingular_runs h1 h2 hn le_rfl).total
    exact ⟨b, by simp [Mat.isNonSingular, hc, assert, h, hb]⟩
  refine ⟨?_, ?_, ?_, hns, ?_⟩
  · obtain ⟨o, ho, hs⟩ := (LU.solve_runs (b := ofM B) h1 h2 hn h3 rfl (by simp) hx).total
    exact ⟨o, by simp [Mat.solve, h, ho], fun y hy => shape_of (hs y hy).1 (hs y hy).2⟩
  · obtain ⟨o, ho, hs⟩ := (LU.solve_runs (b := ofM (Matrix.of fun (i : Fin n) (j : Fin n) => if i.1 = j.1 then (1 : α) else 0)) h1 h2 hn h3 rfl (by simp) hn).total
    exact ⟨o, by simp [Mat.inverse, hc, assert, h, ho, C05_id], fun y hy => shape_of (hs y hy).1 (hs y hy).2⟩
  · obtain ⟨b, hb, -⟩ := (LU.det_runs h1 h2 hn).total
    exact ⟨b, by simp [Mat.det, hc, assert, h, hb]⟩
  · obtain ⟨b, hb⟩ := hns
    exact ⟨!b, by simp [Mat.isSingular, hb]⟩

/-- C60 (Cholesky): `new` returns on every matrix, and `solve` returns with every decomposition it gives. -/
theorem C60_cholesky {nx : Nat} (hm : 0 < m) (hn : 0 < n) (hx : 0 < nx) (A : Matrix (Fin m) (Fin n) α) :
    ∃ o, Cholesky.new (ofM A) = .ok o ∧ ∀ x, o = some x → m = n ∧ Shape n n x.getL ∧
      ∀ B : Matrix (Fin n) (Fin nx) α, ∃ y, x.solve (ofM B) = .ok y ∧ Shape n nx y := by
  obtain ⟨o, ho, h⟩ := (Cholesky.new_runs (a := ofM A) rfl (by simp) hm hn).total
  refine ⟨o, ho, fun x hx' => ?_⟩
  obtain ⟨e, h1, h2⟩ := h x hx'
  refine ⟨e, shape_of h1 h2, fun B => ?_⟩
  obtain ⟨y, hy, h3, h4⟩ := (Cholesky.solve_runs (b := ofM B) h1 h2 hn rfl (by simp) hx).total
  exact ⟨y, hy, shape_of h3 h4⟩

/-- C60 (QR): `new`, `get_h`, `get_r`, `get_q` return on every matrix. -/
theorem C60_qr (hm : 0 < m) (hn : 0 < n) (A : Matrix (Fin m) (Fin n) α) :
    ∃ x, QR.new (ofM A) = .ok x ∧ (∃ h, x.getH = .ok h ∧ Shape m n h) ∧ (∃ r, x.getR = .ok r ∧ Shape m n r) ∧
      ∃ q, x.getQ = .ok q ∧ Shape m m q := by
  obtain ⟨x, h, h1, h2, h3⟩ := (QR.new_runs (a := ofM A) rfl (by simp) hm hn).total
  refine ⟨x, h, ?_, ?_, ?_⟩
  · obtain ⟨l, hl, a, b⟩ := (QR.getH_runs h1 h2 hm hn).total
    exact ⟨l, hl, shape_of a b⟩
  · obtain ⟨l, hl, a, b⟩ := (QR.getR_runs h1 h2 h3 hm hn).total
    exact ⟨l, hl, shape_of a b⟩
  · obtain ⟨l, hl, a, b⟩ := (QR.getQ_runs h1 h2 h3 hm hn).total
    exact ⟨l, hl, shape_of a b⟩

/-- C60 (SVD): a run of `new` never panics and never reads uninitialised memory: after any number of steps of the main loop it
is still running (`fuel`), or it has returned matrices of the documented shapes. -/
theorem C60_svd (hm : 0 < m) (hn : 0 < n) (fuel : Nat) (A : Matrix (Fin m) (Fin n) α) :
    SVD.new fuel (ofM A) = .error .fuel ∨
    ∃ x, SVD.new fuel (ofM A) = .ok x ∧ Shape m m x.u ∧ Shape m n x.s ∧ Shape n n x.v := by
  have key : Runs (fun e => e = .fuel) (SVD.new fuel (ofM A)) fun x => Shape m m x.u ∧ Shape m n x.s ∧ Shape n n x.v := by
    unfold SVD.new
    rw [ofM_cols A hm, ok_bind]
    split
    · next h =>
      rw [C12_transpose hm, ok_bind]
      refine (SVD.newTall_runs (E := fun e => e = .fuel) (a := ofM A.transpose) fuel rfl (by simp) hm (le_of_lt h) (Or.inl rfl)).bind fun x ⟨h1, h2, h3, h4, h5, h6⟩ => ?_
      obtain ⟨S, hS⟩ := shape_of (m := n) (n := m) h3 h4
      rw [hS, C12_transpose hn, ok_bind]
      exact Runs.ok ⟨shape_of h5 h6, ⟨_, rfl⟩, shape_of h1 h2⟩
    · next h =>
      exact (SVD.newTall_runs (E := fun e => e = .fuel) (a := ofM A) fuel rfl (by simp) hn (by simpa using h) (Or.inl rfl)).mono fun x ⟨h1, h2, h3, h4, h5, h6⟩ =>
        ⟨shape_of h1 h2, shape_of h3 h4, shape_of h5 h6⟩
  cases h : SVD.new fuel (ofM A) with
  | error e => rw [h] at key; exact Or.inl (by rw [show e = .fuel from key])
  | ok x => rw [h] at key; exact Or.inr ⟨x, rfl, key⟩

/-! IEEE double precision (Lean's `Float`) is such an arithmetic. -/

instance : Zero Float := ⟨0.0⟩
instance : One Float := ⟨1.0⟩

/-- The element operations of `f64`. -/
instance : FloatOps Float where
  rdiv x y := .ok (x / y)
  sqrt x := .ok x.sqrt
  abs := Float.abs
  lt x y := decide (x < y)
  le x y := decide (x ≤ y)
  eq x y := x == y
  max x y := if x.isNaN then y else if x < y then y else x
  powf x y := .ok (x.pow y)
  cst n d := Float.ofInt n / Float.ofNat d

instance : Total Float := ⟨fun _ _ => ⟨_, rfl⟩, fun _ => ⟨_, rfl⟩⟩

/-- A matrix with a NaN entry: `inverse` returns. -/
example : ∃ o, (ofM !![(0.0 / 0.0 : Float), 1.0; 2.0, 3.0]).inverse = .ok o :=
  let ⟨o, h, _⟩ := (C60_solve (by norm_num) (by norm_num) !![(0.0 / 0.0 : Float), 1.0; 2.0, 3.0] !![(1.0 : Float); 2.0]).2.1
  ⟨o, h⟩

/-- LU and QR of a matrix with an infinity and a NaN. -/
example : (∃ x, LU.new (ofM !![(1.0 / 0.0 : Float), 1.0, 0.0 / 0.0; 0.0, 1.0, 1.0]) = .ok x ∧ Shape 2 3 x.lu) ∧
    ∃ x, QR.new (ofM !![(1.0 / 0.0 : Float), 1.0, 0.0 / 0.0; 0.0, 1.0, 1.0]) = .ok x := by
  obtain ⟨x, h1, h2, -⟩ := C60_lu (m := 2) (n := 3) (by norm_num) (by norm_num) !![(1.0 / 0.0 : Float), 1.0, 0.0 / 0.0; 0.0, 1.0, 1.0]
  obtain ⟨y, h3, -⟩ := C60_qr (m := 2) (n := 3) (by norm_num) (by norm_num) !![(1.0 / 0.0 : Float), 1.0, 0.0 / 0.0; 0.0, 1.0, 1.0]
  exact ⟨⟨x, h1, h2⟩, y, h3⟩

end LA.Props
