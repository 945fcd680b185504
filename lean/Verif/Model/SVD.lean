import Verif.Model.Norm

/-!
# Model of src/decomp/svd.rs:24-451 (`SVD`; `SVD::direct` is in `Model/Direct.lean`)

The signed loop variables `k`, `ks`, `j` of the main loop only take values `≥ -1`; the model keeps `k + 1` as a natural
number where `-1` can occur.  The main loop (`while p > 0`, src/decomp/svd.rs:228) has no iteration bound in the code;
the model runs it with a step budget `fuel`, and every theorem quantifies over all budgets.
-/

namespace LA
variable {α : Type}

/-- `SVD<T>` (src/decomp/svd.rs:23-27). -/
structure SVD (α : Type) where
  /-- `u` -/
  u : Mat α
  /-- `s` -/
  s : Mat α
  /-- `v` -/
  v : Mat α
deriving DecidableEq, Repr

namespace SVD

/-- The mutable buffers of the first phase (src/decomp/svd.rs:45, 52, 55, 58, 60, 61). -/
structure Bid (α : Type) where
  /-- `adata` -/
  a : List α
  /-- `sdata` -/
  s : Buf α
  /-- `edata` -/
  e : Buf α
  /-- `udata` -/
  u : Buf α
  /-- `vdata` -/
  v : Buf α
  /-- `workdata` -/
  w : Buf α

/-- The mutable buffers of the main loop. -/
structure Main (α : Type) where
  /-- `sdata` -/
  s : Buf α
  /-- `edata` -/
  e : Buf α
  /-- `udata` -/
  u : Buf α
  /-- `vdata` -/
  v : Buf α

/-- src/decomp/svd.rs:72-85: the transformation for the `k`-th column. -/
def colTransform [Zero α] [One α] [Add α] [Neg α] [Mul α] [FloatOps α] (m n k : Nat) (a : List α) (s : Buf α) :
    R (List α × Buf α) := do
  let s ← wr s k 0
  let s ← loop k m s fun i s => do wr s k (← hypot (← rd s k) (← idx a (i * n + k)))
  let (a, s) ← (do
    if !(FloatOps.eq (← rd s k) 0) then
      let s ← (do if FloatOps.lt (← idx a (k * n + k)) 0 then wr s k (-(← rd s k)) else return s)
      let a ← loop k m a fun i a => do setIdx a (i * n + k) (← RDiv.rdiv (← idx a (i * n + k)) (← rd s k))
      let a ← setIdx a (k * n + k) ((← idx a (k * n + k)) + 1)
      return (a, s)
    else return (a, s))
  let s ← wr s k (-(← rd s k))
  return (a, s)

/-- src/decomp/svd.rs:90-97: apply the `k`-th column transformation to column `j`. -/
def applyCol [Zero α] [Add α] [Neg α] [Mul α] [FloatOps α] (m n k j : Nat) (a : List α) : R (List α) := do
  let t ← loop k m (0 : α) fun i t => do return t + (← idx a (i * n + k)) * (← idx a (i * n + j))
  let t ← RDiv.rdiv (-t) (← idx a (k * n + k))
  loop k m a fun i a => do setIdx a (i * n + j) ((← idx a (i * n + j)) + t * (← idx a (i * n + k)))

/-- src/decomp/svd.rs:87-102: apply the `k`-th column transformation to the later columns, copy row `k` to `e`. -/
def applyCols [Zero α] [Add α] [Neg α] [Mul α] [FloatOps α] (m n nct k : Nat) (a : List α) (s e : Buf α) :
    R (List α × Buf α) :=
  loop (k + 1) n (a, e) fun j (a, e) => do
    let a ← (do
      if k < nct then
        if !(FloatOps.eq (← rd s k) 0) then applyCol m n k j a else return a
      else return a)
    let e ← wr e j (← idx a (k * n + j))
    return (a, e)

/-- src/decomp/svd.rs:114-127: the transformation for the `k`-th row. -/
def rowTransform [Zero α] [One α] [Add α] [Neg α] [Mul α] [FloatOps α] (n k : Nat) (e : Buf α) : R (Buf α) := do
  let e ← wr e k 0
  let e ← loop (k + 1) n e fun i e => do wr e k (← hypot (← rd e k) (← rd e i))
  let e ← (do
    if !(FloatOps.eq (← rd e k) 0) then
      let e ← (do if FloatOps.lt (← rd e (k + 1)) 0 then wr e k (-(← rd e k)) else return e)
      let e ← loop (k + 1) n e fun i e => do wr e i (← RDiv.rdiv (← rd e i) (← rd e k))
      wr e (k + 1) ((← rd e (k + 1)) + 1)
    else return e)
  wr e k (-(← rd e k))

/-- src/decomp/svd.rs:128-144: apply the `k`-th row transformation to the later rows. -/
def applyRow [Zero α] [Add α] [Neg α] [Mul α] [FloatOps α] (m n k : Nat) (a : List α) (e w : Buf α) :
    R (List α × Buf α) := do
  if k + 1 < m then
    if !(FloatOps.eq (← rd e k) 0) then
      let w ← loop (k + 1) m w fun i w => wr w i 0
      let w ← loop (k + 1) n w fun j w => loop (k + 1) m w fun i w => do
        wr w i ((← rd w i) + (← rd e j) * (← idx a (i * n + j)))
      let a ← loop (k + 1) n a fun j a => do
        let t ← RDiv.rdiv (-(← rd e j)) (← rd e (k + 1))
        loop (k + 1) m a fun i a => do setIdx a (i * n + j) ((← idx a (i * n + j)) + t * (← rd w i))
      return (a, w)
    else return (a, w)
  else return (a, w)

/-- src/decomp/svd.rs:68-150: one step of the reduction to bidiagonal form. -/
def bidStep [Zero α] [One α] [Add α] [Neg α] [Mul α] [FloatOps α] (m n nct nrt k : Nat) (b : Bid α) : R (Bid α) := do
  let (a, s) ← (do if k < nct then colTransform m n k b.a b.s else return (b.a, b.s))
  let (a, e) ← applyCols m n nct k a s b.e
  let u ← (do
    if k < nct then loop k m b.u fun i u => do wr u (i * m + k) (← idx a (i * n + k)) else return b.u)
  if k < nrt then
    let e ← rowTransform n k e
    let (a, w) ← applyRow m n k a e b.w
    let v ← loop (k + 1) n b.v fun i v => do wr v (i * n + k) (← rd e i)
    return ⟨a, s, e, u, v, w⟩
  else return ⟨a, s, e, u, b.v, b.w⟩

/-- src/decomp/svd.rs:154-164: the final bidiagonal matrix. -/
def finish [Zero α] (m n nct nrt p : Nat) (b : Bid α) : R (Bid α) := do
  let s ← (do if nct < n then wr b.s nct (← idx b.a (nct * n + nct)) else return b.s)
  let s ← (do if m < p then wr s (← usub p 1) 0 else return s)
  let e ← (do
    if nrt + 1 < p then wr b.e nrt (← idx b.a (nrt * n + (← usub p 1))) else return b.e)
  let e ← wr e (← usub p 1) 0
  return { b with s := s, e := e }

/-- src/decomp/svd.rs:176-183 (`U`: `N = m`, `lo = k`) and 208-215 (`V`: `N = n`, `lo = k + 1`): apply the
reflection stored in column `k`, rows `lo..`, to column `j`. -/
def reflectCol [Zero α] [Add α] [Neg α] [Mul α] [FloatOps α] (N lo k j : Nat) (d : Buf α) : R (Buf α) := do
  let t ← loop lo N (0 : α) fun i t => do return t + (← rd d (i * N + k)) * (← rd d (i * N + j))
  let t ← RDiv.rdiv (-t) (← rd d (lo * N + k))
  loop lo N d fun i d => do wr d (i * N + j) ((← rd d (i * N + j)) + t * (← rd d (i * N + k)))

/-- src/decomp/svd.rs:168-171, 197-200, 218-221: column `k` becomes the `k`-th unit vector. -/
def unitCol [Zero α] [One α] (N k : Nat) (d : Buf α) : R (Buf α) := do
  let d ← loop 0 N d fun i d => wr d (i * N + k) 0
  wr d (k * N + k) 1

/-- src/decomp/svd.rs:167-202: generate `U`. -/
def genU [Zero α] [One α] [Add α] [Neg α] [Mul α] [FloatOps α] (m nct : Nat) (s u : Buf α) : R (Buf α) := do
  let u ← loop nct m u fun j u => unitCol m j u
  loopRev 0 nct u fun k u => do
    if !(FloatOps.eq (← rd s k) 0) then
      let u ← loop (k + 1) m u fun j u => reflectCol m k k j u
      let u ← loop k m u fun i u => do wr u (i * m + k) (-(← rd u (i * m + k)))
      let u ← wr u (k * m + k) (1 + (← rd u (k * m + k)))
      loop 0 k u fun i u => wr u (i * m + k) 0
    else unitCol m k u

/-- src/decomp/svd.rs:205-222: generate `V`. -/
def genV [Zero α] [One α] [Add α] [Neg α] [Mul α] [FloatOps α] (n nrt : Nat) (e v : Buf α) : R (Buf α) :=
  loopRev 0 n v fun k v => do
    let v ← (do
      if k < nrt then
        if !(FloatOps.eq (← rd e k) 0) then loop (k + 1) n v fun j v => reflectCol n (k + 1) k j v else return v
      else return v)
    unitCol n k v

/-- src/decomp/svd.rs:226: `eps`. -/
def eps [FloatOps α] : α := FloatOps.cst 1 (2 ^ 52)

/-- src/decomp/svd.rs:227: `tiny`. -/
def tiny [FloatOps α] : α := FloatOps.cst 1 (2 ^ 966)

/-- src/decomp/svd.rs:241-248: the search for a negligible `e[k]`, `k = c-1, …, 0`.  Returns `k + 1` and `e`. -/
def findE [Zero α] [Add α] [Mul α] [FloatOps α] (s : Buf α) : Nat → Buf α → R (Nat × Buf α)
  | 0, e => .ok (0, e)
  | k + 1, e => do
    if FloatOps.le (FloatOps.abs (← rd e k))
        (tiny + eps * (FloatOps.abs (← rd s k) + FloatOps.abs (← rd s (k + 1)))) then
      return (k + 1, ← wr e k 0)
    else findE s k e

/-- src/decomp/svd.rs:253-262: the search for a negligible `s[ks]`, `ks = k1 + c - 1, …, k1` (`k1` is `k + 1`).
Returns `ks` (`none` if the loop ends with `ks == k`) and `s`. -/
def findS [Zero α] [Add α] [Mul α] [FloatOps α] (p k1 : Nat) (e : Buf α) : Nat → Buf α → R (Option Nat × Buf α)
  | 0, s => .ok (none, s)
  | c + 1, s => do
    let ks := k1 + c
    let t1 ← (do if ks != p then return FloatOps.abs (← rd e ks) else return 0)
    let t2 ← (do if ks != k1 then return FloatOps.abs (← rd e (← usub ks 1)) else return 0)
    if FloatOps.le (FloatOps.abs (← rd s ks)) (tiny + eps * (t1 + t2)) then
      return (some ks, ← wr s ks 0)
    else findS p k1 e c s

/-- src/decomp/svd.rs:290-294, 308-312, 352-356, 367-371: rotate columns `a` and `b` of an `N × N` matrix. -/
def rotCols [Add α] [Neg α] [Mul α] (N a b : Nat) (cs sn : α) (d : Buf α) : R (Buf α) :=
  loop 0 N d fun i d => do
    let t := cs * (← rd d (i * N + a)) + sn * (← rd d (i * N + b))
    let d ← wr d (i * N + b) (-sn * (← rd d (i * N + a)) + cs * (← rd d (i * N + b)))
    wr d (i * N + a) t

/-- src/decomp/svd.rs:400-404, 407-411: exchange columns `k` and `k + 1`. -/
def swapCols (N k : Nat) (d : Buf α) : R (Buf α) :=
  loop 0 N d fun i d => do
    let t ← rd d (i * N + (k + 1))
    let d ← wr d (i * N + (k + 1)) (← rd d (i * N + k))
    wr d (i * N + k) t

/-- src/decomp/svd.rs:276-296 (`kase == 1`): deflate negligible `s[p-1]`.  The loop runs `j = p-2, …, k`. -/
def kase1 [Zero α] [One α] [Add α] [Neg α] [Mul α] [FloatOps α] (n p k : Nat) (st : Main α) : R (Main α) := do
  let f ← rd st.e (← usub p 2)
  let e ← wr st.e (← usub p 2) 0
  let (s, e, v, _) ← loopRev k (← usub p 1) (st.s, e, st.v, f) fun j (s, e, v, f) => do
    let t ← hypot (← rd s j) f
    let cs ← RDiv.rdiv (← rd s j) t
    let sn ← RDiv.rdiv f t
    let s ← wr s j t
    let (e, f) ← (do
      if j != k then
        let f := -sn * (← rd e (← usub j 1))
        let e ← wr e (← usub j 1) (cs * (← rd e (← usub j 1)))
        return (e, f)
      else return (e, f))
    let v ← rotCols n j (← usub p 1) cs sn v
    return (s, e, v, f)
  return ⟨s, e, st.u, v⟩

/-- src/decomp/svd.rs:298-314 (`kase == 2`): split at negligible `s[k-1]`. -/
def kase2 [Zero α] [One α] [Add α] [Neg α] [Mul α] [FloatOps α] (m p k : Nat) (st : Main α) : R (Main α) := do
  let f ← rd st.e (← usub k 1)
  let e ← wr st.e (← usub k 1) 0
  let (s, e, u, _) ← loop k p (st.s, e, st.u, f) fun j (s, e, u, f) => do
    let t ← hypot (← rd s j) f
    let cs ← RDiv.rdiv (← rd s j) t
    let sn ← RDiv.rdiv f t
    let s ← wr s j t
    let f := -sn * (← rd e j)
    let e ← wr e j (cs * (← rd e j))
    let u ← rotCols m j (← usub k 1) cs sn u
    return (s, e, u, f)
  return ⟨s, e, u, st.v⟩

/-- src/decomp/svd.rs:319-341: the shift, and the initial `f` and `g`. -/
def shiftFG [Zero α] [Add α] [Sub α] [Neg α] [Mul α] [FloatOps α] (p k : Nat) (s e : Buf α) : R (α × α) := do
  let sp1 ← rd s (← usub p 1)
  let sp2 ← rd s (← usub p 2)
  let ep2 ← rd e (← usub p 2)
  let sk0 ← rd s k
  let ek0 ← rd e k
  let scale := FloatOps.max (FloatOps.max (FloatOps.max (FloatOps.max (FloatOps.abs sp1) (FloatOps.abs sp2))
    (FloatOps.abs ep2)) (FloatOps.abs sk0)) (FloatOps.abs ek0)
  let sp ← RDiv.rdiv sp1 scale
  let spm1 ← RDiv.rdiv sp2 scale
  let epm1 ← RDiv.rdiv ep2 scale
  let sk ← RDiv.rdiv sk0 scale
  let ek ← RDiv.rdiv ek0 scale
  let b ← RDiv.rdiv ((spm1 + sp) * (spm1 - sp) + epm1 * epm1) (FloatOps.cst 2 1)
  let c := (sp * epm1) * (sp * epm1)
  let shift ← (do
    if !(FloatOps.eq b 0) || !(FloatOps.eq c 0) then
      let r ← FloatOps.sqrt (b * b + c)
      let r := if FloatOps.lt b 0 then -r else r
      RDiv.rdiv c (b + r)
    else return 0)
  return ((sk + sp) * (sk - sp) + shift, sk * ek)

/-- src/decomp/svd.rs:345-376: one step of the chase. -/
def chase [Zero α] [One α] [Add α] [Sub α] [Neg α] [Mul α] [FloatOps α] (m n k j : Nat)
    (x : Main α × α × α) : R (Main α × α × α) := do
  let (st, f, g) := x
  let t ← hypot f g
  let cs ← RDiv.rdiv f t
  let sn ← RDiv.rdiv g t
  let e ← (do if j != k then wr st.e (← usub j 1) t else return st.e)
  let f := cs * (← rd st.s j) + sn * (← rd e j)
  let e ← wr e j (cs * (← rd e j) - sn * (← rd st.s j))
  let g := sn * (← rd st.s (j + 1))
  let s ← wr st.s (j + 1) (cs * (← rd st.s (j + 1)))
  let v ← rotCols n j (j + 1) cs sn st.v
  let t ← hypot f g
  let cs ← RDiv.rdiv f t
  let sn ← RDiv.rdiv g t
  let s ← wr s j t
  let f := cs * (← rd e j) + sn * (← rd s (j + 1))
  let s ← wr s (j + 1) (-sn * (← rd e j) + cs * (← rd s (j + 1)))
  let g := sn * (← rd e (j + 1))
  let e ← wr e (j + 1) (cs * (← rd e (j + 1)))
  let u ← (do if j + 1 < m then rotCols m j (j + 1) cs sn st.u else return st.u)
  return (⟨s, e, u, v⟩, f, g)

/-- src/decomp/svd.rs:316-379 (`kase == 3`): one QR step. -/
def kase3 [Zero α] [One α] [Add α] [Sub α] [Neg α] [Mul α] [FloatOps α] (m n p k : Nat) (st : Main α) :
    R (Main α) := do
  let (f, g) ← shiftFG p k st.s st.e
  let (st, f, _) ← loop k (← usub p 1) (st, f, g) fun j x => chase m n k j x
  return { st with e := ← wr st.e (← usub p 2) f }

/-- src/decomp/svd.rs:384-389: make the `k`-th singular value non-negative. -/
def fixSign [Zero α] [Neg α] [FloatOps α] (n pp k : Nat) (st : Main α) : R (Main α) := do
  let x ← rd st.s k
  if FloatOps.le x 0 then
    let s ← wr st.s k (if FloatOps.lt x 0 then -x else 0)
    let v ← loop 0 (pp + 1) st.v fun i v => do wr v (i * n + k) (-(← rd v (i * n + k)))
    return { st with s := s, v := v }
  else return st

/-- src/decomp/svd.rs:392-414: move the `k`-th singular value to its place. -/
def order [FloatOps α] (m n pp k : Nat) (st : Main α) : R (Main α) := do
  match ← loopF k pp st fun k st => do
    let x ← rd st.s k
    let y ← rd st.s (k + 1)
    if FloatOps.le y x then return Flow.ret st
    else
      let s ← wr st.s k y
      let s ← wr s (k + 1) x
      let v ← (do if k + 1 < n then swapCols n k st.v else return st.v)
      let u ← (do if k + 1 < m then swapCols m k st.u else return st.u)
      return Flow.next ⟨s, st.e, u, v⟩ with
  | .next st => return st
  | .ret st => return st

/-- src/decomp/svd.rs:240-417: one iteration of the main loop (`p > 0`).  Returns the new `p`. -/
def step [Zero α] [One α] [Add α] [Sub α] [Neg α] [Mul α] [FloatOps α] (m n pp p : Nat) (st : Main α) :
    R (Nat × Main α) := do
  let (k1, e) ← findE st.s (p - 1) st.e
  if k1 + 1 = p then
    let st ← fixSign n pp k1 { st with e := e }
    let st ← order m n pp k1 st
    return (p - 1, st)
  else
    let (ks, s) ← findS p k1 e (p - k1) st.s
    let st := { st with s := s, e := e }
    match ks with
    | none => return (p, ← kase3 m n p k1 st)
    | some ks =>
      if ks + 1 = p then return (p, ← kase1 n p k1 st)
      else return (p, ← kase2 m p (ks + 1) st)

/-- src/decomp/svd.rs:228-418: the main loop, at most `fuel` iterations. -/
def iterate [Zero α] [One α] [Add α] [Sub α] [Neg α] [Mul α] [FloatOps α] (m n pp : Nat) :
    Nat → Nat → Main α → R (Main α)
  | _, 0, st => .ok st
  | 0, _ + 1, _ => .error .fuel
  | fuel + 1, p + 1, st => do
    let (p', st) ← step m n pp (p + 1) st
    iterate m n pp fuel p' st

/-- src/decomp/svd.rs:62-164: reduction to bidiagonal form. -/
def bidiag [Zero α] [One α] [Add α] [Neg α] [Mul α] [FloatOps α] (m n nct nrt p : Nat) (a : List α) : R (Bid α) := do
  let b : Bid α := ⟨a, alloc α (min m n), alloc α n, alloc α (m * m), alloc α (n * n), alloc α m⟩
  let b ← loop 0 (max nct nrt) b fun k b => bidStep m n nct nrt k b
  finish m n nct nrt p b

/-- `SVD::new` for `m ≥ n` (src/decomp/svd.rs:43-424). -/
def newTall [Zero α] [One α] [Add α] [Sub α] [Neg α] [Mul α] [FloatOps α] (fuel : Nat) (a : Mat α) : R (SVD α) := do
  let m := a.rows
  let n ← a.cols
  assert (decide (m ≥ n))
  let nct := min (← usub m 1) n
  let nrt := (max 0 (min ((n : Int) - 2) (m : Int))).toNat
  let p := min n (m + 1)
  let b ← bidiag m n nct nrt p a.data
  let u ← genU m nct b.s b.u
  let v ← genV n nrt b.e b.v
  let st ← iterate m n (← usub p 1) fuel p ⟨b.s, b.e, u, v⟩
  return ⟨← Mat.new m m (← freeze st.u), ← Mat.blockDiag m n (← freeze st.s), ← Mat.new n n (← freeze st.v)⟩

/-- `SVD::new` (src/decomp/svd.rs:31-425).  The recursive call is on the transpose, which is not wide, so the
recursion is unfolded once. -/
def new [Zero α] [One α] [Add α] [Sub α] [Neg α] [Mul α] [FloatOps α] (fuel : Nat) (a : Mat α) : R (SVD α) := do
  if a.rows < (← a.cols) then
    let svd ← newTall fuel (← a.t)
    return ⟨svd.v, ← svd.s.t, svd.u⟩
  else newTall fuel a

/-- `rank` (src/decomp/svd.rs:439-450). -/
def rank [Mul α] [FloatOps α] (x : SVD α) : R Nat := do
  let tol := FloatOps.cst (max x.u.rows x.v.rows : Nat) 1 * (← x.s.get 0 0) * eps
  loop 0 x.s.rows 0 fun i r => do
    if FloatOps.lt tol (← x.s.get i i) then return r + 1 else return r

end SVD
end LA
