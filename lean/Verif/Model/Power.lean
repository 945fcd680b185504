import Verif.Model.Norm

/-!
# Model of src/eig/powermethod.rs

The module is commented out of the crate (src/lib.rs:27-29: `//pub mod eig { ... }`) and is written in a dialect of Rust
older than the rest (`std::num`, `range`, `Vec::get` returning a reference), so it is not compiled.  It is modelled as
written: `range(1, n)` is `1..n`, `v.get(i)` on a `Vec` is `v[i]` (it failed on a bad index in that dialect), `m * v` on a borrowed
and an owned matrix is the product, and moving `v` into the product and reading it afterwards reads the unchanged value.
-/

namespace LA.Mat
variable {α : Type}

/-- `max_elem` (src/eig/powermethod.rs:85-94).  The loop reads element 1 in every iteration. -/
def maxElem [FloatOps α] (v : Mat α) : R α := do
  let m0 := FloatOps.abs (← idx v.data 0)
  loop 1 v.rows m0 fun _ cur => do
    let x := FloatOps.abs (← idx v.data 1)
    if FloatOps.lt cur x then return x else return cur

/-- The `loop` of `power_method` (src/eig/powermethod.rs:97-105), at most `fuel` iterations. -/
def powerLoop [Zero α] [One α] [Add α] [Sub α] [Mul α] [FloatOps α] (m : Mat α) (eps : α) : Nat → Mat α → R (Mat α)
  | 0, _ => .error .fuel
  | fuel + 1, v => do
    let nv ← m.mul v
    let factor ← RDiv.rdiv 1 (← maxElem nv)
    let nv ← nv.mscale factor
    let d ← nv.sub v
    if FloatOps.le (← d.length) eps then return nv
    else powerLoop m eps fuel nv

/-- `power_method` (src/eig/powermethod.rs:80-106). -/
def powerMethod [Zero α] [One α] [Add α] [Sub α] [Mul α] [FloatOps α] (fuel : Nat) (m q : Mat α) (eps : α) : R (Mat α) := do
  assert ((← m.cols) == m.rows)
  assert ((← m.cols) == q.rows)
  assert ((← q.cols) == 1)
  let v ← q.scale (← RDiv.rdiv 1 (← maxElem q))
  powerLoop m eps fuel v

end LA.Mat
