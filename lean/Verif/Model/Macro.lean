import Verif.Model.Matrix

/-! # Model of src/macros.rs -/

namespace LA

/-- `m!( … ; … ; … )` (src/macros.rs:11-33): `_rows` counts the rows, `_cols` is the total number of items divided by
`_rows`, and the items of all rows in order are the data.  The argument is the list of rows of the literal (each
row is a list of already evaluated items).  The macro syntax itself (expansion) is not modelled. -/
def mMacro {α : Type} (rows : List (List α)) : R (Mat α) := do
  let noRows := rows.length
  let noCols ← udiv rows.flatten.length noRows
  Mat.new noRows noCols rows.flatten

end LA
