import Verif.Model.SVD
import Verif.Model.Eigen
import Verif.Model.LU

/-!
# Model of `SVD::direct` (src/decomp/svd.rs:452-500)

`fuel` is the step budget of the eigenvalue iteration.  A negative eigenvalue makes `sqrt` fail with `undef` here; in floating
point it gives NaN.
-/

namespace LA
variable {α : Type}
namespace SVD

/-- `unwrap` of an `Option`. -/
def unwrap {β : Type} : Option β → R β
  | some x => .ok x
  | none => .error .unwrap

/-- src/decomp/svd.rs:483-489: `S` and its inverse, padded with zeros. -/
def pad [Zero α] (a s sInv : Mat α) : R (Mat α × Mat α) := do
  if a.rows == (← a.cols) then return (s, sInv)
  else
    let z1 ← Mat.zero (← usub a.rows (← a.cols)) (← s.cols)
    let s2 ← s.cb z1
    let z2 ← Mat.zero sInv.rows (← usub a.rows (← a.cols))
    let i2 ← sInv.cr z2
    return (s2, i2)

/-- `SVD::direct` for `m ≥ n` (src/decomp/svd.rs:467-499). -/
def directTall [Zero α] [One α] [Add α] [Sub α] [Neg α] [Mul α] [FloatOps α] (fuel : Nat) (a : Mat α) :
    R (SVD α) := do
  let ata ← (← a.t).mul a
  let edc ← Eigen.new fuel ata
  let sv ← edc.d.mapM FloatOps.sqrt
  let s ← Mat.blockDiag sv.length sv.length sv
  let sInv ← unwrap (← s.inverse)
  let (sAug, sInvAug) ← pad a s sInv
  let u ← (← a.mul edc.v).mul sInvAug
  return ⟨u, sAug, edc.v⟩

/-- `SVD::direct` (src/decomp/svd.rs:454-500).  The recursive call is on the transpose, which is not wide, so the
recursion is unfolded once. -/
def direct [Zero α] [One α] [Add α] [Sub α] [Neg α] [Mul α] [FloatOps α] (fuel : Nat) (a : Mat α) : R (SVD α) := do
  if a.rows < (← a.cols) then
    let svd ← directTall fuel (← a.t)
    return ⟨svd.v, ← svd.s.t, svd.u⟩
  else directTall fuel a

end SVD
end LA
