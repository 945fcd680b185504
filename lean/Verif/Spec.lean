import Verif.Model.Matrix
import Mathlib.Data.Matrix.Basic

/-!
# Specification vocabulary

Small, independent of the model's algorithms.  `ofM A` is the stored (row-major) form of a mathematical matrix `A`.
-/

namespace LA

/-- Row-major storage of the mathematical `m × n` matrix `A`: first all of row 0, then row 1, … -/
def ofM {α : Type} {m n : Nat} (A : Matrix (Fin m) (Fin n) α) : Mat α :=
  { rows := m, data := (List.ofFn fun i => List.ofFn fun j => A i j).flatten }

/-- A well-formed matrix: at least one row and one column, and `rows × cols` stored elements. -/
def WF {α : Type} (a : Mat α) : Prop :=
  0 < a.rows ∧ ∃ c, 0 < c ∧ a.data.length = a.rows * c

/-- Column vector as a matrix. -/
def colVec {α : Type} {n : Nat} (v : Fin n → α) : Matrix (Fin n) (Fin 1) α := fun i _ => v i

end LA
