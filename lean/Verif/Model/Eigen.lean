import Verif.Model.SVD

/-!
# Model of src/decomp/eigen.rs (`EigenDecomposition`)

The unbounded loops (`loop` in `tql2`, src/decomp/eigen.rs:165; `while n >= low` in `hqr2`, src/decomp/eigen.rs:382)
are run with a step budget `fuel`; every theorem quantifies over all budgets.

The signed indices of `hqr2` (`isize`) only take values `≥ -1`: `n` runs from `nn - 1` down to `-1` and the model keeps
`c = n + 1`.  `low = 0` and `high = nn - 1` are constants of the code, so the branches guarded by `i < low || i > high`
(src/decomp/eigen.rs:371-374, 735-741) are never taken and are left out.
-/

namespace LA
variable {α : Type}

/-- `EigenDecomposition<T>` (src/decomp/eigen.rs:23-28). -/
structure Eigen (α : Type) where
  /-- `n` -/
  n : Nat
  /-- `d`: real parts of the eigenvalues -/
  d : List α
  /-- `e`: imaginary parts of the eigenvalues -/
  e : List α
  /-- `v` -/
  v : Mat α
deriving DecidableEq, Repr

namespace Eigen

/-- The three buffers `ddata`, `edata`, `vdata`. -/
structure Dev (α : Type) where
  /-- `ddata` -/
  d : Buf α
  /-- `edata` -/
  e : Buf α
  /-- `vdata` -/
  v : Buf α

/-! ## `tred2` (src/decomp/eigen.rs:33-138) -/

/-- src/decomp/eigen.rs:49-54, 104: nothing to annihilate in row `i`. -/
def tredZero [Zero α] (n i : Nat) (st : Dev α) : R (Dev α) := do
  let e ← wr st.e i (← rd st.d (← usub i 1))
  let (d, v) ← loop 0 i (st.d, st.v) fun j (d, v) => do
    let d ← wr d j (← rd v ((← usub i 1) * n + j))
    let v ← wr v (i * n + j) 0
    let v ← wr v (j * n + i) 0
    return (d, v)
  let d ← wr d i 0
  return ⟨d, e, v⟩

/-- src/decomp/eigen.rs:57-60: scale the row, sum of squares. -/
def tredScale [Zero α] [Add α] [Mul α] [FloatOps α] (i : Nat) (scale : α) (d : Buf α) : R (Buf α × α) :=
  loop 0 i (d, (0 : α)) fun k (d, h) => do
    let d ← wr d k (← RDiv.rdiv (← rd d k) scale)
    let h := h + (← rd d k) * (← rd d k)
    return (d, h)

/-- src/decomp/eigen.rs:74-83: `e = S u` for the symmetric matrix stored in the lower triangle; column `i` of `v` = `u`. -/
def tredSymv [Zero α] [Add α] [Mul α] (n i : Nat) (d e v : Buf α) : R (Buf α × Buf α) :=
  loop 0 i (e, v) fun j (e, v) => do
    let f ← rd d j
    let v ← wr v (j * n + i) f
    let g := (← rd e j) + (← rd v (j * n + j)) * f
    let (g, e) ← loop (j + 1) i (g, e) fun k (g, e) => do
      let g := g + (← rd v (k * n + j)) * (← rd d k)
      let e ← wr e k ((← rd e k) + (← rd v (k * n + j)) * f)
      return (g, e)
    let e ← wr e j g
    return (e, v)

/-- src/decomp/eigen.rs:84-92: `e = S u / h - K u`. -/
def tredQ [Zero α] [Add α] [Sub α] [Mul α] [FloatOps α] (i : Nat) (h : α) (d e : Buf α) : R (Buf α) := do
  let (e, f) ← loop 0 i (e, (0 : α)) fun j (e, f) => do
    let e ← wr e j (← RDiv.rdiv (← rd e j) h)
    let f := f + (← rd e j) * (← rd d j)
    return (e, f)
  let hh ← RDiv.rdiv f (h + h)
  loop 0 i e fun j e => do wr e j ((← rd e j) - hh * (← rd d j))

/-- src/decomp/eigen.rs:93-102: the rank-two update of the lower triangle. -/
def tredRank2 [Zero α] [Add α] [Sub α] [Mul α] (n i : Nat) (d e v : Buf α) : R (Buf α × Buf α) :=
  loop 0 i (d, v) fun j (d, v) => do
    let f ← rd d j
    let g ← rd e j
    let v ← loop j i v fun k v => do
      let orig ← rd v (k * n + j)
      wr v (k * n + j) (orig - (f * (← rd e k) + g * (← rd d k)))
    let d ← wr d j (← rd v ((← usub i 1) * n + j))
    let v ← wr v (i * n + j) 0
    return (d, v)

/-- src/decomp/eigen.rs:56-104: the Householder step of row `i`. -/
def tredHouse [Zero α] [One α] [Add α] [Sub α] [Neg α] [Mul α] [FloatOps α] (n i : Nat) (scale : α) (st : Dev α) :
    R (Dev α) := do
  let (d, h) ← tredScale i scale st.d
  let f ← rd d (← usub i 1)
  let g ← FloatOps.sqrt h
  let g := if FloatOps.lt 0 f then -g else g
  let e ← wr st.e i (scale * g)
  let h := h - f * g
  let d ← wr d (← usub i 1) (f - g)
  let e ← loop 0 i e fun j e => wr e j 0
  let (e, v) ← tredSymv n i d e st.v
  let e ← tredQ i h d e
  let (d, v) ← tredRank2 n i d e v
  let d ← wr d i h
  return ⟨d, e, v⟩

/-- src/decomp/eigen.rs:41-105: one step of the reduction. -/
def tredStep [Zero α] [One α] [Add α] [Sub α] [Neg α] [Mul α] [FloatOps α] (n i : Nat) (st : Dev α) : R (Dev α) := do
  let scale ← loop 0 i (0 : α) fun k s => do return s + FloatOps.abs (← rd st.d k)
  if FloatOps.eq scale 0 then tredZero n i st else tredHouse n i scale st

/-- src/decomp/eigen.rs:118-125: apply the reflection stored in column `i + 1` to column `j` of the leading block. -/
def tredApply [Zero α] [Add α] [Sub α] [Mul α] (n i j : Nat) (d v : Buf α) : R (Buf α) := do
  let g ← loop 0 (i + 1) (0 : α) fun k g => do return g + (← rd v (k * n + (i + 1))) * (← rd v (k * n + j))
  loop 0 (i + 1) v fun k v => do
    let orig ← rd v (k * n + j)
    wr v (k * n + j) (orig - g * (← rd d k))

/-- src/decomp/eigen.rs:109-130: one step of the accumulation. -/
def tredAcc [Zero α] [One α] [Add α] [Sub α] [Mul α] [FloatOps α] (n i : Nat) (d v : Buf α) : R (Buf α × Buf α) := do
  let v ← wr v ((← usub n 1) * n + i) (← rd v (i * n + i))
  let v ← wr v (i * n + i) 1
  let h ← rd d (i + 1)
  let (d, v) ← (do
    if !(FloatOps.eq h 0) then
      let d ← loop 0 (i + 1) d fun k d => do wr d k (← RDiv.rdiv (← rd v (k * n + (i + 1))) h)
      let v ← loop 0 (i + 1) v fun j v => tredApply n i j d v
      return (d, v)
    else return (d, v))
  let v ← loop 0 (i + 1) v fun k v => wr v (k * n + (i + 1)) 0
  return (d, v)

/-- `tred2` (src/decomp/eigen.rs:33-138). -/
def tred2 [Zero α] [One α] [Add α] [Sub α] [Neg α] [Mul α] [FloatOps α] (n : Nat) (st : Dev α) : R (Dev α) := do
  let d ← loop 0 n st.d fun j d => do wr d j (← rd st.v ((← usub n 1) * n + j))
  let st ← loopRev 1 n ⟨d, st.e, st.v⟩ fun i st => tredStep n i st
  let (d, v) ← loop 0 (← usub n 1) (st.d, st.v) fun i (d, v) => tredAcc n i d v
  let (d, v) ← loop 0 n (d, v) fun j (d, v) => do
    let d ← wr d j (← rd v ((← usub n 1) * n + j))
    let v ← wr v ((← usub n 1) * n + j) 0
    return (d, v)
  let v ← wr v ((← usub n 1) * n + (← usub n 1)) 1
  let e ← wr st.e 0 0
  return ⟨d, e, v⟩

/-! ## `tql2` (src/decomp/eigen.rs:141-246) -/

/-- src/decomp/eigen.rs:151, 356: `eps`. -/
def eps [FloatOps α] : α := FloatOps.cst 1 (2 ^ 52)

/-- src/decomp/eigen.rs:155-161: the first `m ≥ l` with a negligible `e[m]` (`n` if there is none); `k` is the number
of positions left. -/
def findM [Zero α] [Mul α] [FloatOps α] (e : Buf α) (tst1 : α) : Nat → Nat → R Nat
  | 0, m => .ok m
  | k + 1, m => do
    if FloatOps.le (FloatOps.abs (← rd e m)) (eps * tst1) then return m else findM e tst1 k (m + 1)

/-- src/decomp/eigen.rs:205-209: rotate columns `i`, `i + 1` of `v`. -/
def tqlRot [Add α] [Sub α] [Mul α] (n i : Nat) (c s : α) (v : Buf α) : R (Buf α) :=
  loop 0 n v fun k v => do
    let h ← rd v (k * n + (i + 1))
    let v ← wr v (k * n + (i + 1)) (s * (← rd v (k * n + i)) + c * h)
    wr v (k * n + i) (c * (← rd v (k * n + i)) - s * h)

/-- The variables of the sweep (src/decomp/eigen.rs:184-190). -/
structure Sweep (α : Type) where
  /-- buffers -/
  st : Dev α
  /-- `p` -/
  p : α
  /-- `c` -/
  c : α
  /-- `c2` -/
  c2 : α
  /-- `c3` -/
  c3 : α
  /-- `s` -/
  s : α
  /-- `s2` -/
  s2 : α

/-- src/decomp/eigen.rs:192-209: one rotation of the implicit QL sweep. -/
def tqlStep [Zero α] [One α] [Add α] [Sub α] [Mul α] [FloatOps α] (n i : Nat) (x : Sweep α) : R (Sweep α) := do
  let c3 := x.c2
  let c2 := x.c
  let s2 := x.s
  let ei ← rd x.st.e i
  let g := x.c * ei
  let h := x.c * x.p
  let r ← hypot x.p ei
  let e ← wr x.st.e (i + 1) (x.s * r)
  let s ← RDiv.rdiv (← rd e i) r
  let c ← RDiv.rdiv x.p r
  let p := c * (← rd x.st.d i) - s * g
  let d ← wr x.st.d (i + 1) (h + s * (c * g + s * (← rd x.st.d i)))
  let v ← tqlRot n i c s x.st.v
  return ⟨⟨d, e, v⟩, p, c, c2, c3, s, s2⟩

/-- src/decomp/eigen.rs:167-181: the shift.  Returns `d` and the new `f`. -/
def tqlShift [Zero α] [One α] [Add α] [Sub α] [Neg α] [Mul α] [FloatOps α] (n l : Nat) (d e : Buf α) (f : α) :
    R (Buf α × α) := do
  let g ← rd d l
  let el ← rd e l
  let p ← RDiv.rdiv ((← rd d (l + 1)) - g) (FloatOps.cst 2 1 * el)
  let r ← hypot p 1
  let r := if FloatOps.lt p 0 then -r else r
  let d ← wr d l (← RDiv.rdiv el (p + r))
  let d ← wr d (l + 1) (el * (p + r))
  let h := g - (← rd d l)
  let d ← loop (l + 2) n d fun i d => do wr d i ((← rd d i) - h)
  return (d, f + h)

/-- src/decomp/eigen.rs:166-213: one QL iteration on the block `l..=m`. -/
def tqlIter [Zero α] [One α] [Add α] [Sub α] [Neg α] [Mul α] [FloatOps α] (n l m : Nat) (st : Dev α) (f : α) :
    R (Dev α × α) := do
  let (d, f) ← tqlShift n l st.d st.e f
  let dl1 ← rd d (l + 1)
  let p ← rd d m
  let el1 ← rd st.e (l + 1)
  let x ← loopRev l m (⟨⟨d, st.e, st.v⟩, p, 1, 1, 1, 0, 0⟩ : Sweep α) fun i x => tqlStep n i x
  let p ← RDiv.rdiv (-x.s * x.s2 * x.c3 * el1 * (← rd x.st.e l)) dl1
  let e ← wr x.st.e l (x.s * p)
  let d ← wr x.st.d l (x.c * p)
  return (⟨d, e, x.st.v⟩, f)

/-- src/decomp/eigen.rs:165-219: `loop { … if |e[l]| <= eps * tst1 { break } }`, at most `fuel` iterations. -/
def tqlLoop [Zero α] [One α] [Add α] [Sub α] [Neg α] [Mul α] [FloatOps α] (n l m : Nat) (tst1 : α) :
    Nat → Dev α → α → R (Dev α × α)
  | 0, _, _ => .error .fuel
  | fuel + 1, st, f => do
    let (st, f) ← tqlIter n l m st f
    if FloatOps.le (FloatOps.abs (← rd st.e l)) (eps * tst1) then return (st, f)
    else tqlLoop n l m tst1 fuel st f

/-- src/decomp/eigen.rs:154-222: the `l`-th eigenvalue. -/
def tqlOne [Zero α] [One α] [Add α] [Sub α] [Neg α] [Mul α] [FloatOps α] (fuel n l : Nat) (x : Dev α × α × α) :
    R (Dev α × α × α) := do
  let (st, f, tst1) := x
  let tst1 := FloatOps.max tst1 (FloatOps.abs (← rd st.d l) + FloatOps.abs (← rd st.e l))
  let m ← findM st.e tst1 (n - l) l
  let (st, f) ← (do if l < m then tqlLoop n l m tst1 fuel st f else return (st, f))
  let d ← wr st.d l ((← rd st.d l) + f)
  let e ← wr st.e l 0
  return (⟨d, e, st.v⟩, f, tst1)

/-- src/decomp/eigen.rs:239-243: exchange columns `i` and `k` of `v`. -/
def swap2 (n i k : Nat) (v : Buf α) : R (Buf α) :=
  loop 0 n v fun j v => do
    let p ← rd v (j * n + i)
    let v ← wr v (j * n + i) (← rd v (j * n + k))
    wr v (j * n + k) p

/-- src/decomp/eigen.rs:227-244: selection of the `i`-th largest eigenvalue. -/
def tqlSort [FloatOps α] (n i : Nat) (d v : Buf α) : R (Buf α × Buf α) := do
  let (k, p) ← loop (i + 1) n (i, ← rd d i) fun j (k, p) => do
    if FloatOps.lt p (← rd d j) then return (j, ← rd d j) else return (k, p)
  if k != i then
    let d ← wr d k (← rd d i)
    let d ← wr d i p
    let v ← swap2 n i k v
    return (d, v)
  else return (d, v)

/-- `tql2` (src/decomp/eigen.rs:141-246). -/
def tql2 [Zero α] [One α] [Add α] [Sub α] [Neg α] [Mul α] [FloatOps α] (fuel n : Nat) (st : Dev α) : R (Dev α) := do
  let e ← loop 1 n st.e fun i e => do wr e (← usub i 1) (← rd e i)
  let e ← wr e (← usub n 1) 0
  let (st, _, _) ← loop 0 n ((⟨st.d, e, st.v⟩ : Dev α), (0 : α), (0 : α)) fun l x => tqlOne fuel n l x
  let (d, v) ← loop 0 (← usub n 1) (st.d, st.v) fun i (d, v) => tqlSort n i d v
  return ⟨d, st.e, v⟩

/-! ## `orthes` (src/decomp/eigen.rs:249-331) -/

/-- src/decomp/eigen.rs:266-270: the scaled column and its sum of squares. -/
def orthScale [Zero α] [Add α] [Mul α] [FloatOps α] (n m : Nat) (scale : α) (h ort : Buf α) : R (Buf α × α) :=
  loopRev m n (ort, (0 : α)) fun i (ort, s) => do
    let ort ← wr ort i (← RDiv.rdiv (← rd h (i * n + (m - 1))) scale)
    let s := s + (← rd ort i) * (← rd ort i)
    return (ort, s)

/-- src/decomp/eigen.rs:281-288: reflection of column `j`. -/
def orthCol [Zero α] [Add α] [Sub α] [Mul α] [FloatOps α] (n m j : Nat) (hn : α) (ort h : Buf α) : R (Buf α) := do
  let f ← loopRev m n (0 : α) fun i f => do return f + (← rd ort i) * (← rd h (i * n + j))
  let f ← RDiv.rdiv f hn
  loop m n h fun i h => do wr h (i * n + j) ((← rd h (i * n + j)) - f * (← rd ort i))

/-- src/decomp/eigen.rs:292-299: reflection of row `i`. -/
def orthRow [Zero α] [Add α] [Sub α] [Mul α] [FloatOps α] (n m i : Nat) (hn : α) (ort h : Buf α) : R (Buf α) := do
  let f ← loopRev m n (0 : α) fun j f => do return f + (← rd ort j) * (← rd h (i * n + j))
  let f ← RDiv.rdiv f hn
  loop m n h fun j h => do wr h (i * n + j) ((← rd h (i * n + j)) - f * (← rd ort j))

/-- src/decomp/eigen.rs:259-303: one step of the reduction (`1 ≤ m < high`; `high + 1 = n`). -/
def orthStep [Zero α] [One α] [Add α] [Sub α] [Neg α] [Mul α] [FloatOps α] (n m : Nat) (h ort : Buf α) :
    R (Buf α × Buf α) := do
  let scale ← loop m n (0 : α) fun i s => do return s + FloatOps.abs (← rd h (i * n + (m - 1)))
  if !(FloatOps.eq scale 0) then
    let (ort, hn) ← orthScale n m scale h ort
    let g ← FloatOps.sqrt hn
    let om ← rd ort m
    let g := if FloatOps.lt 0 om then -g else g
    let hn := hn - om * g
    let ort ← wr ort m (om - g)
    let h ← loop m n h fun j h => orthCol n m j hn ort h
    let h ← loop 0 n h fun i h => orthRow n m i hn ort h
    let ort ← wr ort m (scale * (← rd ort m))
    let h ← wr h (m * n + (m - 1)) (scale * g)
    return (h, ort)
  else return (h, ort)

/-- src/decomp/eigen.rs:319-327 (the accumulation for one column `j`). -/
def orthAccCol [Zero α] [Add α] [Mul α] [FloatOps α] (n m j : Nat) (h ort v : Buf α) : R (Buf α) := do
  let g ← loop m n (0 : α) fun i g => do return g + (← rd ort i) * (← rd v (i * n + j))
  let g ← RDiv.rdiv g (← rd ort m)
  let g ← RDiv.rdiv g (← rd h (m * n + (m - 1)))
  loop m n v fun i v => do wr v (i * n + j) ((← rd v (i * n + j)) + g * (← rd ort i))

/-- src/decomp/eigen.rs:314-329: one step of the accumulation. -/
def orthAcc [Zero α] [Add α] [Mul α] [FloatOps α] (n m : Nat) (h ort v : Buf α) : R (Buf α × Buf α) := do
  if !(FloatOps.eq (← rd h (m * n + (m - 1))) 0) then
    let ort ← loop (m + 1) n ort fun i ort => do wr ort i (← rd h (i * n + (m - 1)))
    let v ← loop m n v fun j v => orthAccCol n m j h ort v
    return (ort, v)
  else return (ort, v)

/-- `orthes` (src/decomp/eigen.rs:249-331).  `high = n - 1`. -/
def orthes [Zero α] [One α] [Add α] [Sub α] [Neg α] [Mul α] [FloatOps α] (n : Nat) (h v : Buf α) : R (Buf α × Buf α) := do
  let high ← usub n 1
  let (h, ort) ← loop 1 high (h, alloc α n) fun m (h, ort) => orthStep n m h ort
  let v ← loop 0 n v fun i v => loop 0 n v fun j v => wr v (i * n + j) (if i = j then 1 else 0)
  let (_, v) ← loopRev 1 high (ort, v) fun m (ort, v) => orthAcc n m h ort v
  return (h, v)

/-! ## `cdiv` (src/decomp/eigen.rs:334-344) -/

/-- `cdiv`: complex division. -/
def cdiv [Add α] [Sub α] [Mul α] [FloatOps α] (xr xi yr yi : α) : R (α × α) := do
  if FloatOps.lt (FloatOps.abs yi) (FloatOps.abs yr) then
    let r ← RDiv.rdiv yi yr
    let d := yr + r * yi
    return (← RDiv.rdiv (xr + r * xi) d, ← RDiv.rdiv (xi - r * xr) d)
  else
    let r ← RDiv.rdiv yr yi
    let d := yi + r * yr
    return (← RDiv.rdiv (r * xr + xi) d, ← RDiv.rdiv (r * xi - xr) d)

/-! ## `hqr2`, first part: reduction to quasi-triangular form (src/decomp/eigen.rs:347-608)

`h` and `v` are `nn × nn`; the variable `n` of the code is the index of the last active row. -/

/-- The mutable state of the outer loop. -/
structure Hqr (α : Type) where
  /-- `ddata` -/
  d : Buf α
  /-- `edata` -/
  e : Buf α
  /-- `hdata` -/
  h : Buf α
  /-- `vdata` -/
  v : Buf α
  /-- `exshift` -/
  ex : α
  /-- `iter` -/
  iter : Nat

/-- src/decomp/eigen.rs:369-378: the sum of the absolute values of the Hessenberg part. -/
def hqrNorm [Zero α] [Add α] [FloatOps α] (nn : Nat) (h : Buf α) : R α :=
  loop 0 nn (0 : α) fun i norm => loop (i - 1) nn norm fun j norm => do
    return norm + FloatOps.abs (← rd h (i * nn + j))

/-- src/decomp/eigen.rs:385-395: the search for a small subdiagonal element, `l = n, n-1, …, 1`. -/
def findL [Zero α] [Add α] [Mul α] [FloatOps α] (nn : Nat) (norm : α) (h : Buf α) : Nat → R Nat
  | 0 => .ok 0
  | l + 1 => do
    let s := FloatOps.abs (← rd h (l * nn + l)) + FloatOps.abs (← rd h ((l + 1) * nn + (l + 1)))
    let s := if FloatOps.eq s 0 then norm else s
    if FloatOps.lt (FloatOps.abs (← rd h ((l + 1) * nn + l))) (eps * s) then return l + 1
    else findL nn norm h l

/-- src/decomp/eigen.rs:400-404: one root. -/
def oneRoot [Zero α] [Add α] (nn n : Nat) (x : Hqr α) : R (Hqr α) := do
  let h ← wr x.h (n * nn + n) ((← rd x.h (n * nn + n)) + x.ex)
  let d ← wr x.d n (← rd h (n * nn + n))
  let e ← wr x.e n 0
  return { x with d := d, e := e, h := h, iter := 0 }

/-- src/decomp/eigen.rs:434-438: rotation of rows `n - 1`, `n`. -/
def rootRows [Add α] [Sub α] [Mul α] (nn n : Nat) (p q : α) (h : Buf α) : R (Buf α) :=
  loop (n - 1) nn h fun j h => do
    let z ← rd h ((n - 1) * nn + j)
    let h ← wr h ((n - 1) * nn + j) (q * z + p * (← rd h (n * nn + j)))
    wr h (n * nn + j) (q * (← rd h (n * nn + j)) - p * z)

/-- src/decomp/eigen.rs:441-445 (`hi = n + 1`, on `h`) and 448-452 (`hi = nn`, on `v`): rotation of columns `n - 1`,
`n`, in the rows `0..hi`. -/
def rootCols [Add α] [Sub α] [Mul α] (nn n hi : Nat) (p q : α) (h : Buf α) : R (Buf α) :=
  loop 0 hi h fun i h => do
    let z ← rd h (i * nn + (n - 1))
    let h ← wr h (i * nn + (n - 1)) (q * z + p * (← rd h (i * nn + n)))
    wr h (i * nn + n) (q * (← rd h (i * nn + n)) - p * z)

/-- src/decomp/eigen.rs:417-452: a real pair.  `x` is `h[n][n]` (shift restored), `p`, `w`, `z` as computed before. -/
def realPair [Zero α] [Add α] [Sub α] [Mul α] [FloatOps α] (nn n : Nat) (p w z x : α) (st : Hqr α) : R (Hqr α) := do
  let z := if FloatOps.le 0 p then p + z else p - z
  let d ← wr st.d (n - 1) (x + z)
  let d ← wr d n (← rd d (n - 1))
  let d ← (do if !(FloatOps.eq z 0) then wr d n (x - (← RDiv.rdiv w z)) else return d)
  let e ← wr st.e (n - 1) 0
  let e ← wr e n 0
  let x ← rd st.h (n * nn + (n - 1))
  let s := FloatOps.abs x + FloatOps.abs z
  let p ← RDiv.rdiv x s
  let q ← RDiv.rdiv z s
  let r ← FloatOps.sqrt (p * p + q * q)
  let p ← RDiv.rdiv p r
  let q ← RDiv.rdiv q r
  let h ← rootRows nn n p q st.h
  let h ← rootCols nn n (n + 1) p q h
  let v ← rootCols nn n nn p q st.v
  return { st with d := d, e := e, h := h, v := v }

/-- src/decomp/eigen.rs:405-461: two roots (rows `n - 1`, `n`; `n ≥ 1`). -/
def twoRoots [Zero α] [Add α] [Sub α] [Neg α] [Mul α] [FloatOps α] (nn n : Nat) (st : Hqr α) : R (Hqr α) := do
  let w := (← rd st.h (n * nn + (n - 1))) * (← rd st.h ((n - 1) * nn + n))
  let p ← RDiv.rdiv ((← rd st.h ((n - 1) * nn + (n - 1))) - (← rd st.h (n * nn + n))) (FloatOps.cst 2 1)
  let q := p * p + w
  let z ← FloatOps.sqrt (FloatOps.abs q)
  let h ← wr st.h (n * nn + n) ((← rd st.h (n * nn + n)) + st.ex)
  let h ← wr h ((n - 1) * nn + (n - 1)) ((← rd h ((n - 1) * nn + (n - 1))) + st.ex)
  let x ← rd h (n * nn + n)
  let st ← (do
    if FloatOps.le 0 q then realPair nn n p w z x { st with h := h }
    else
      let d ← wr st.d (n - 1) (x + p)
      let d ← wr d n (x + p)
      let e ← wr st.e (n - 1) z
      let e ← wr e n (-z)
      return { st with d := d, e := e, h := h })
  return { st with iter := 0 }

/-- src/decomp/eigen.rs:476-478, 497-499: subtract `x` from the diagonal entries `0..=n`. -/
def subDiag [Sub α] (nn n : Nat) (x : α) (h : Buf α) : R (Buf α) :=
  loop 0 (n + 1) h fun i h => do wr h (i * nn + i) ((← rd h (i * nn + i)) - x)

/-- src/decomp/eigen.rs:465-505: the shift `x`, `y`, `w`, with the exceptional shifts at iterations 10 and 30 (the test
`l < n` of the code is always true here).  Returns `h`, `exshift`, `x`, `y`, `w`. -/
def hqrShift [Zero α] [Add α] [Sub α] [Neg α] [Mul α] [FloatOps α] (nn n iter : Nat) (h : Buf α) (ex : α) :
    R (Buf α × α × α × α × α) := do
  let x ← rd h (n * nn + n)
  let y ← rd h ((n - 1) * nn + (n - 1))
  let w := (← rd h (n * nn + (n - 1))) * (← rd h ((n - 1) * nn + n))
  let (h, ex, x, y, w) ← (do
    if iter == 10 then
      let ex := ex + x
      let h ← subDiag nn n x h
      let s := FloatOps.abs (← rd h (n * nn + (n - 1))) + FloatOps.abs (← rd h ((n - 1) * nn + (n - 2)))
      let y := FloatOps.cst 3 4 * s
      return (h, ex, y, y, FloatOps.cst (-7) 16 * s * s)
    else return (h, ex, x, y, w))
  if iter == 30 then
    let s ← RDiv.rdiv (y - x) (FloatOps.cst 2 1)
    let s := s * s + w
    if FloatOps.lt 0 s then
      let s ← FloatOps.sqrt s
      let s := if FloatOps.lt y x then -s else s
      let s := x - (← RDiv.rdiv w ((← RDiv.rdiv (y - x) (FloatOps.cst 2 1)) + s))
      let h ← subDiag nn n s h
      return (h, ex + s, FloatOps.cst 241 250, FloatOps.cst 241 250, FloatOps.cst 241 250)
    else return (h, ex, x, y, w)
  else return (h, ex, x, y, w)

/-- src/decomp/eigen.rs:513-522: the first column of the double shift step started at row `m`.  Returns `p`, `q`, `r`, `z`. -/
def firstCol [Zero α] [Add α] [Sub α] [Mul α] [FloatOps α] (nn m : Nat) (x y w : α) (h : Buf α) : R (α × α × α × α) := do
  let z ← rd h (m * nn + m)
  let r := x - z
  let s := y - z
  let p := (← RDiv.rdiv (r * s - w) (← rd h ((m + 1) * nn + m))) + (← rd h (m * nn + (m + 1)))
  let q := (← rd h ((m + 1) * nn + (m + 1))) - z - r - s
  let r ← rd h ((m + 2) * nn + (m + 1))
  let s := FloatOps.abs p + FloatOps.abs q + FloatOps.abs r
  return (← RDiv.rdiv p s, ← RDiv.rdiv q s, ← RDiv.rdiv r s, z)

/-- src/decomp/eigen.rs:511-531: the search for two consecutive small subdiagonal elements, `m = l + k, …, l`. -/
def findStart [Zero α] [Add α] [Sub α] [Mul α] [FloatOps α] (nn l : Nat) (x y w : α) (h : Buf α) :
    Nat → R (Nat × α × α × α)
  | 0 => do
    let (p, q, r, _) ← firstCol nn l x y w h
    return (l, p, q, r)
  | k + 1 => do
    let m := l + k + 1
    let (p, q, r, z) ← firstCol nn m x y w h
    if FloatOps.lt (FloatOps.abs (← rd h (m * nn + (m - 1))) * (FloatOps.abs q + FloatOps.abs r))
        (eps * (FloatOps.abs p * (FloatOps.abs (← rd h ((m - 1) * nn + (m - 1))) + FloatOps.abs z +
          FloatOps.abs (← rd h ((m + 1) * nn + (m + 1)))))) then
      return (m, p, q, r)
    else findStart nn l x y w h k

/-- src/decomp/eigen.rs:533-538: clear the entries below the subdiagonal. -/
def clearSub [Zero α] (nn n m : Nat) (h : Buf α) : R (Buf α) :=
  loop (m + 2) (n + 1) h fun i h => do
    let h ← wr h (i * nn + (i - 2)) 0
    if i > m + 2 then wr h (i * nn + (i - 3)) 0 else return h

/-- src/decomp/eigen.rs:574-582: reflection of rows `k`, `k + 1` (and `k + 2`). -/
def qrRows [Zero α] [Add α] [Sub α] [Mul α] (nn k : Nat) (notlast : Bool) (q r x y z : α) (h : Buf α) : R (Buf α) :=
  loop k nn h fun j h => do
    let p := (← rd h (k * nn + j)) + q * (← rd h ((k + 1) * nn + j))
    let (p, h) ← (do
      if notlast then
        let p := p + r * (← rd h ((k + 2) * nn + j))
        let h ← wr h ((k + 2) * nn + j) ((← rd h ((k + 2) * nn + j)) - p * z)
        return (p, h)
      else return (p, h))
    let h ← wr h (k * nn + j) ((← rd h (k * nn + j)) - p * x)
    wr h ((k + 1) * nn + j) ((← rd h ((k + 1) * nn + j)) - p * y)

/-- src/decomp/eigen.rs:585-593 (on `h`) and 596-604 (on `v`): reflection of columns `k`, `k + 1` (and `k + 2`) in the
rows `0..hi`. -/
def qrCols [Zero α] [Add α] [Sub α] [Mul α] (nn k hi : Nat) (notlast : Bool) (q r x y z : α) (h : Buf α) : R (Buf α) :=
  loop 0 hi h fun i h => do
    let p := x * (← rd h (i * nn + k)) + y * (← rd h (i * nn + (k + 1)))
    let (p, h) ← (do
      if notlast then
        let p := p + z * (← rd h (i * nn + (k + 2)))
        let h ← wr h (i * nn + (k + 2)) ((← rd h (i * nn + (k + 2))) - p * r)
        return (p, h)
      else return (p, h))
    let h ← wr h (i * nn + k) ((← rd h (i * nn + k)) - p)
    wr h (i * nn + (k + 1)) ((← rd h (i * nn + (k + 1))) - p * q)

/-- src/decomp/eigen.rs:556-604: the reflection of step `k` with the column `(p, q, r)`; `x` is the scale of the column
(used only if `k ≠ m`). -/
def qrReflect [Zero α] [Add α] [Sub α] [Neg α] [Mul α] [FloatOps α] (nn n l m k : Nat) (p q r x : α) (h v : Buf α) :
    R (Buf α × Buf α) := do
  let notlast := decide (k ≠ n - 1)
  let s ← FloatOps.sqrt (p * p + q * q + r * r)
  let s := if FloatOps.lt p 0 then -s else s
  if !(FloatOps.eq s 0) then
    let h ← (do
      if k ≠ m then wr h (k * nn + (k - 1)) (-s * x)
      else if l ≠ m then wr h (k * nn + (k - 1)) (-(← rd h (k * nn + (k - 1))))
      else return h)
    let p := p + s
    let x ← RDiv.rdiv p s
    let y ← RDiv.rdiv q s
    let z ← RDiv.rdiv r s
    let q ← RDiv.rdiv q p
    let r ← RDiv.rdiv r p
    let h ← qrRows nn k notlast q r x y z h
    let h ← qrCols nn k (min n (k + 3) + 1) notlast q r x y z h
    let v ← qrCols nn k nn notlast q r x y z v
    return (h, v)
  else return (h, v)

/-- src/decomp/eigen.rs:541-606: step `k` of the double QR sweep started at row `m` with the column `(p, q, r)`.  For
`k ≠ m` the code overwrites `p`, `q`, `r`, `x` first, so only `h` and `v` are carried from step to step. -/
def qrStep [Zero α] [Add α] [Sub α] [Neg α] [Mul α] [FloatOps α] (nn n l m : Nat) (p q r : α) (k : Nat) (h v : Buf α) :
    R (Buf α × Buf α) := do
  if k ≠ m then
    let p ← rd h (k * nn + (k - 1))
    let q ← rd h ((k + 1) * nn + (k - 1))
    let r ← (do if k ≠ n - 1 then rd h ((k + 2) * nn + (k - 1)) else return 0)
    let x := FloatOps.abs p + FloatOps.abs q + FloatOps.abs r
    if FloatOps.eq x 0 then return (h, v)
    else qrReflect nn n l m k (← RDiv.rdiv p x) (← RDiv.rdiv q x) (← RDiv.rdiv r x) x h v
  else qrReflect nn n l m k p q r 0 h v

/-- src/decomp/eigen.rs:462-607: one double QR iteration on rows `l..=n` (`l + 2 ≤ n`). -/
def qrIter [Zero α] [Add α] [Sub α] [Neg α] [Mul α] [FloatOps α] (nn n l : Nat) (st : Hqr α) : R (Hqr α) := do
  let (h, ex, x, y, w) ← hqrShift nn n st.iter st.h st.ex
  let (m, p, q, r) ← findStart nn l x y w h (n - 2 - l)
  let h ← clearSub nn n m h
  let (h, v) ← loop m n (h, st.v) fun k (h, v) => qrStep nn n l m p q r k h v
  return { st with h := h, v := v, ex := ex, iter := st.iter + 1 }

/-- src/decomp/eigen.rs:382-608: the outer loop, at most `fuel` iterations; the second argument is `n + 1`. -/
def hqrLoop [Zero α] [Add α] [Sub α] [Neg α] [Mul α] [FloatOps α] (nn : Nat) (norm : α) :
    Nat → Nat → Hqr α → R (Hqr α)
  | _, 0, st => .ok st
  | 0, _ + 1, _ => .error .fuel
  | fuel + 1, n + 1, st => do
    let l ← findL nn norm st.h n
    if l = n then hqrLoop nn norm fuel n (← oneRoot nn n st)
    else if l + 1 = n then hqrLoop nn norm fuel (n - 1) (← twoRoots nn n st)
    else hqrLoop nn norm fuel (n + 1) (← qrIter nn n l st)

/-! ## `hqr2`, second part: back-substitution (src/decomp/eigen.rs:610-732)

The variables `z`, `s`, `r` of the code carry values from row `i + 1` to row `i` of a 2-by-2 block.  They are declared outside the
loop over the vectors, so each vector starts with values left over from an earlier phase of the code.  Those left-over values are
not modelled: they are a parameter (`jk n` for vector `n`), and `C70_leftover` shows that the result does not depend on it. -/

/-- The values of `z`, `r`, `s` (src/decomp/eigen.rs:359-361) at the start of a vector. -/
structure Left (α : Type) where
  /-- `z` -/
  z : α
  /-- `r` -/
  r : α
  /-- `s` -/
  s : α

/-- src/decomp/eigen.rs:657-659: divide the entries `i..=n` of column `c` by `t`. -/
def divCol [FloatOps α] (nn n i c : Nat) (t : α) (h : Buf α) : R (Buf α) :=
  loop i (n + 1) h fun j h => do wr h (j * nn + c) (← RDiv.rdiv (← rd h (j * nn + c)) t)

/-- src/decomp/eigen.rs:634-652: the component(s) of a real vector in row `i` (`e[i] ≥ 0`). -/
def realComp [Zero α] [Add α] [Sub α] [Neg α] [Mul α] [FloatOps α] (nn n i : Nat) (norm p w r ei : α)
    (z s : α) (d h : Buf α) : R (Buf α) := do
  if FloatOps.eq ei 0 then
    if !(FloatOps.eq w 0) then wr h (i * nn + n) (← RDiv.rdiv (-r) w)
    else wr h (i * nn + n) (← RDiv.rdiv (-r) (eps * norm))
  else
    let x ← rd h (i * nn + (i + 1))
    let y ← rd h ((i + 1) * nn + i)
    let di ← rd d i
    let q := (di - p) * (di - p) + ei * ei
    let t ← RDiv.rdiv (x * s - z * r) q
    let h ← wr h (i * nn + n) t
    if FloatOps.lt (FloatOps.abs z) (FloatOps.abs x) then
      wr h ((i + 1) * nn + n) (← RDiv.rdiv (-r - w * t) x)
    else wr h ((i + 1) * nn + n) (← RDiv.rdiv (-s - y * t) z)

/-- src/decomp/eigen.rs:624-661: row `i` of the back-substitution for a real vector.  State: `h`, `l`, `z`, `s`. -/
def realStep [Zero α] [One α] [Add α] [Sub α] [Neg α] [Mul α] [FloatOps α] (nn n i : Nat) (norm p : α) (d e : Buf α)
    (x : Buf α × Nat × α × α) : R (Buf α × Nat × α × α) := do
  let (h, l, z, s) := x
  let w := (← rd h (i * nn + i)) - p
  let r ← loop l (n + 1) (0 : α) fun j r => do return r + (← rd h (i * nn + j)) * (← rd h (j * nn + n))
  let ei ← rd e i
  if FloatOps.lt ei 0 then return (h, l, w, r)
  else
    let h ← realComp nn n i norm p w r ei z s d h
    let t := FloatOps.abs (← rd h (i * nn + n))
    let h ← (do if FloatOps.lt 1 ((eps * t) * t) then divCol nn n i n t h else return h)
    return (h, i, z, s)

/-- src/decomp/eigen.rs:621-662: a real vector. -/
def realVec [Zero α] [One α] [Add α] [Sub α] [Neg α] [Mul α] [FloatOps α] (jk : Left α) (nn n : Nat) (norm p : α) (d e h : Buf α) :
    R (Buf α) := do
  let h ← wr h (n * nn + n) 1
  let (h, _, _, _) ← loopRev 0 n (h, n, jk.z, jk.s) fun i x => realStep nn n i norm p d e x
  return h

/-- src/decomp/eigen.rs:668-677: the last two components of a complex vector. -/
def complexLast [Zero α] [One α] [Add α] [Sub α] [Neg α] [Mul α] [FloatOps α] (nn n : Nat) (p q : α) (h : Buf α) :
    R (Buf α) := do
  let a ← rd h (n * nn + (n - 1))
  let b ← rd h ((n - 1) * nn + n)
  let h ← (do
    if FloatOps.lt (FloatOps.abs b) (FloatOps.abs a) then
      let h ← wr h ((n - 1) * nn + (n - 1)) (← RDiv.rdiv q a)
      wr h ((n - 1) * nn + n) (← RDiv.rdiv (-((← rd h (n * nn + n)) - p)) a)
    else
      let (cr, ci) ← cdiv 0 (-b) ((← rd h ((n - 1) * nn + (n - 1))) - p) q
      let h ← wr h ((n - 1) * nn + (n - 1)) cr
      wr h ((n - 1) * nn + n) ci)
  let h ← wr h (n * nn + (n - 1)) 0
  wr h (n * nn + n) 1

/-- src/decomp/eigen.rs:695-719: the component(s) of a complex vector in row `i` (`e[i] ≥ 0`). -/
def complexComp [Zero α] [Add α] [Sub α] [Neg α] [Mul α] [FloatOps α] (nn n i : Nat) (norm p q w ra sa ei : α)
    (z r s : α) (d h : Buf α) : R (Buf α) := do
  if FloatOps.eq ei 0 then
    let (cr, ci) ← cdiv (-ra) (-sa) w q
    let h ← wr h (i * nn + (n - 1)) cr
    wr h (i * nn + n) ci
  else
    let x ← rd h (i * nn + (i + 1))
    let y ← rd h ((i + 1) * nn + i)
    let di ← rd d i
    let vr := (di - p) * (di - p) + ei * ei - q * q
    let vi := (di - p) * FloatOps.cst 2 1 * q
    let vr := if FloatOps.eq vr 0 && FloatOps.eq vi 0 then
        eps * norm * (FloatOps.abs w + FloatOps.abs q + FloatOps.abs x + FloatOps.abs y + FloatOps.abs z)
      else vr
    let (cr, ci) ← cdiv (x * r - z * ra + q * sa) (x * s - z * sa - q * ra) vr vi
    let h ← wr h (i * nn + (n - 1)) cr
    let h ← wr h (i * nn + n) ci
    if FloatOps.lt (FloatOps.abs z + FloatOps.abs q) (FloatOps.abs x) then
      let h ← wr h ((i + 1) * nn + (n - 1)) (← RDiv.rdiv
        (-ra - w * (← rd h (i * nn + (n - 1))) + q * (← rd h (i * nn + n))) x)
      wr h ((i + 1) * nn + n) (← RDiv.rdiv
        (-sa - w * (← rd h (i * nn + n)) - q * (← rd h (i * nn + (n - 1)))) x)
    else
      let (cr, ci) ← cdiv (-r - y * (← rd h (i * nn + (n - 1)))) (-s - y * (← rd h (i * nn + n))) z q
      let h ← wr h ((i + 1) * nn + (n - 1)) cr
      wr h ((i + 1) * nn + n) ci

/-- src/decomp/eigen.rs:679-729: row `i` of the back-substitution for a complex vector.  State: `h`, `l`, `z`, `r`, `s`. -/
def complexStep [Zero α] [One α] [Add α] [Sub α] [Neg α] [Mul α] [FloatOps α] (nn n i : Nat) (norm p q : α)
    (d e : Buf α) (x : Buf α × Nat × α × α × α) :
    R (Buf α × Nat × α × α × α) := do
  let (h, l, z, r, s) := x
  let (ra, sa) ← loop l (n + 1) ((0 : α), (0 : α)) fun j (ra, sa) => do
    return (ra + (← rd h (i * nn + j)) * (← rd h (j * nn + (n - 1))), sa + (← rd h (i * nn + j)) * (← rd h (j * nn + n)))
  let w := (← rd h (i * nn + i)) - p
  let ei ← rd e i
  if FloatOps.lt ei 0 then return (h, l, w, ra, sa)
  else
    let h ← complexComp nn n i norm p q w ra sa ei z r s d h
    let t := FloatOps.max (FloatOps.abs (← rd h (i * nn + (n - 1)))) (FloatOps.abs (← rd h (i * nn + n)))
    let h ← (do
      if FloatOps.lt 1 ((eps * t) * t) then
        loop i (n + 1) h fun j h => do
          let h ← wr h (j * nn + (n - 1)) (← RDiv.rdiv (← rd h (j * nn + (n - 1))) t)
          wr h (j * nn + n) (← RDiv.rdiv (← rd h (j * nn + n)) t)
      else return h)
    return (h, i, z, r, s)

/-- src/decomp/eigen.rs:664-730: a complex vector (columns `n - 1` and `n`). -/
def complexVec [Zero α] [One α] [Add α] [Sub α] [Neg α] [Mul α] [FloatOps α] (jk : Left α) (nn n : Nat) (norm p q : α) (d e h : Buf α) :
    R (Buf α) := do
  let n1 ← usub n 1
  let h ← complexLast nn n p q h
  let (h, _, _, _, _) ← loopRev 0 n1 (h, n1, jk.z, jk.r, jk.s) fun i x => complexStep nn n i norm p q d e x
  return h

/-- src/decomp/eigen.rs:616-731: the vector(s) of column `n`. -/
def vecStep [Zero α] [One α] [Add α] [Sub α] [Neg α] [Mul α] [FloatOps α] (jk : Nat → Left α) (nn : Nat) (norm : α) (d e : Buf α) (n : Nat)
    (h : Buf α) : R (Buf α) := do
  let p ← rd d n
  let q ← rd e n
  if FloatOps.eq q 0 then realVec (jk n) nn n norm p d e h
  else if FloatOps.lt q 0 then complexVec (jk n) nn n norm p q d e h
  else return h

/-- src/decomp/eigen.rs:744-752: back transformation. -/
def backTransform [Zero α] [Add α] [Mul α] (nn : Nat) (h v : Buf α) : R (Buf α) :=
  loopRev 0 nn v fun j v => loop 0 nn v fun i v => do
    let z ← loop 0 (min j (nn - 1) + 1) (0 : α) fun k z => do return z + (← rd v (i * nn + k)) * (← rd h (k * nn + j))
    wr v (i * nn + j) z

/-- `hqr2` (src/decomp/eigen.rs:347-753). -/
def hqr2 [Zero α] [One α] [Add α] [Sub α] [Neg α] [Mul α] [FloatOps α] (jk : Nat → Left α) (fuel nn : Nat) (st : Dev α) (h : Buf α) :
    R (Dev α) := do
  let norm ← hqrNorm nn h
  let x ← hqrLoop nn norm fuel nn ⟨st.d, st.e, h, st.v, 0, 0⟩
  if FloatOps.eq norm 0 then return ⟨x.d, x.e, x.v⟩
  else
    let h ← loopRev 0 nn x.h fun n h => vecStep jk nn norm x.d x.e n h
    return ⟨x.d, x.e, ← backTransform nn h x.v⟩

/-! ## `new` and the getters (src/decomp/eigen.rs:755-838) -/

/-- src/decomp/eigen.rs:762-771: the exact symmetry test (on the leading `n × n` entries), with its early exit. -/
def isSymm [FloatOps α] (n : Nat) (a : Mat α) : R Bool := do
  match ← loopF 0 n () fun j _ => do
    match ← loopF 0 n () fun i _ => do
      if FloatOps.eq (← a.get i j) (← a.get j i) then return Flow.next () else return Flow.ret false with
    | .next _ => return Flow.next ()
    | .ret b => return Flow.ret b with
  | .next _ => return true
  | .ret b => return b

/-- `EigenDecomposition::new` (src/decomp/eigen.rs:755-814), with the left-over values `jk` of the back-substitution. -/
def newWith [Zero α] [One α] [Add α] [Sub α] [Neg α] [Mul α] [FloatOps α] (jk : Nat → Left α) (fuel : Nat) (a : Mat α) : R (Eigen α) := do
  let n ← a.cols
  let vdata := alloc α (n * n)
  let ddata := alloc α n
  let edata := alloc α n
  if ← isSymm n a then
    let vdata ← loop 0 n vdata fun i v => loop 0 n v fun j v => do wr v (i * n + j) (← a.get i j)
    let st ← tred2 n ⟨ddata, edata, vdata⟩
    let st ← tql2 fuel n st
    return ⟨n, ← freeze st.d, ← freeze st.e, ← Mat.new n n (← freeze st.v)⟩
  else
    let hdata ← loop 0 n (alloc α (n * n)) fun j h => loop 0 n h fun i h => do wr h (i * n + j) (← a.get i j)
    let (hdata, vdata) ← orthes n hdata vdata
    let st ← hqr2 jk fuel n ⟨ddata, edata, vdata⟩ hdata
    return ⟨n, ← freeze st.d, ← freeze st.e, ← Mat.new n n (← freeze st.v)⟩

/-- `EigenDecomposition::new` (src/decomp/eigen.rs:755-814).  Left-over values of the back-substitution are zeros here; `C70_leftover`
shows that others give the same result. -/
def new [Zero α] [One α] [Add α] [Sub α] [Neg α] [Mul α] [FloatOps α] (fuel : Nat) (a : Mat α) : R (Eigen α) :=
  newWith (fun _ => ⟨0, 0, 0⟩) fuel a

/-- `get_d` (src/decomp/eigen.rs:822-838). -/
def getD [Zero α] [FloatOps α] (x : Eigen α) : R (Mat α) := do
  let d ← loop 0 x.n (alloc α (x.n * x.n)) fun i d => do
    let d ← loop 0 x.n d fun j d => wr d (i * x.n + j) 0
    let d ← wr d (i * x.n + i) (← idx x.d i)
    if FloatOps.lt 0 (← idx x.e i) then wr d (i * x.n + (i + 1)) (← idx x.e i)
    else if FloatOps.lt (← idx x.e i) 0 then wr d (i * x.n + (← usub i 1)) (← idx x.e i)
    else return d
  Mat.new x.n x.n (← freeze d)

end Eigen
end LA
