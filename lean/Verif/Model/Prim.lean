/-!
# Primitives of the model

How the Rust constructs used by the crate are represented.  Nothing here is specific to one
function of /repo; each later definition cites the lines it models.
-/

namespace LA

/-- Why a run of a Rust function does not produce a value.
`assert`, `oob`, `arith`, `unwrap` are panics.  `uninit`, `undef`, `fuel` are events of the model:
an uninitialised cell is read or returned (undefined behaviour in Rust), an exact-arithmetic
operation has no value (division by zero, square root of a negative), the step budget of an
unbounded loop is exhausted. -/
inductive Err where
  /-- a failed `assert!` -/
  | assert
  /-- slice index out of bounds -/
  | oob
  /-- `usize` underflow, or division / remainder by zero -/
  | arith
  /-- `Option::unwrap` on `None` -/
  | unwrap
  /-- an uninitialised cell is read or returned -/
  | uninit
  /-- exact arithmetic leaves its domain -/
  | undef
  /-- step budget exhausted -/
  | fuel
deriving DecidableEq, Repr

/-- Result of a run: a value or the reason there is none. -/
abbrev R (α : Type) := Except Err α

/-- The run ends in a Rust panic. -/
def Panics {α : Type} (r : R α) : Prop :=
  r = .error .assert ∨ r = .error .oob ∨ r = .error .arith ∨ r = .error .unwrap

/-- Rust `assert!(c)`. -/
def assert (c : Bool) : R Unit := if c then .ok () else .error .assert

/-- Rust `o.unwrap()`. -/
def unwrap {α : Type} : Option α → R α
  | some a => .ok a
  | none => .error .unwrap

/-- `usize` subtraction `a - b` (underflow panics in debug builds; every release-mode use in the crate
would be followed by an out-of-bounds index). -/
def usub (a b : Nat) : R Nat := if b ≤ a then .ok (a - b) else .error .arith

/-- `usize` division; division by zero panics. -/
def udiv (a b : Nat) : R Nat := if b = 0 then .error .arith else .ok (a / b)

/-- `usize` remainder; remainder by zero panics. -/
def umod (a b : Nat) : R Nat := if b = 0 then .error .arith else .ok (a % b)

/-- `v[i]` on an initialised `Vec<T>`. -/
def idx {α : Type} (v : List α) (i : Nat) : R α :=
  match v[i]? with
  | some x => .ok x
  | none => .error .oob

/-- `v[i] = x` on an initialised `Vec<T>`. -/
def setIdx {α : Type} (v : List α) (i : Nat) (x : α) : R (List α) :=
  if i < v.length then .ok (v.set i x) else .error .oob

/-- A buffer obtained from `alloc_dirty_vec`: `none` is a cell that has not been written yet. -/
abbrev Buf (α : Type) := List (Option α)

/-- `alloc_dirty_vec(n)` (src/internalutil.rs:7-13): `n` uninitialised cells. -/
def alloc (α : Type) (n : Nat) : Buf α := List.replicate n none

/-- `d[i]` (read) on a possibly uninitialised buffer. -/
def rd {α : Type} (d : Buf α) (i : Nat) : R α :=
  match d[i]? with
  | some (some x) => .ok x
  | some none => .error .uninit
  | none => .error .oob

/-- `d[i] = x` on a possibly uninitialised buffer. -/
def wr {α : Type} (d : Buf α) (i : Nat) (x : α) : R (Buf α) :=
  if i < d.length then .ok (d.set i (some x)) else .error .oob

/-- Handing a buffer out as the `data` of a matrix (or as a returned `Vec`): every cell must have been written. -/
def freeze {α : Type} : Buf α → R (List α)
  | [] => .ok []
  | some x :: d => do let l ← freeze d; .ok (x :: l)
  | none :: _ => .error .uninit

/-- `k` iterations of `body`, with loop index `i, i+1, …, i+k-1`. -/
def loopN {σ : Type} : Nat → Nat → σ → (Nat → σ → R σ) → R σ
  | 0, _, s, _ => .ok s
  | k + 1, i, s, body => do let s' ← body i s; loopN k (i + 1) s' body

/-- Rust `for i in lo..hi { body }` with the mutable state `s` threaded through (empty if `hi ≤ lo`). -/
def loop {σ : Type} (lo hi : Nat) (s : σ) (body : Nat → σ → R σ) : R σ := loopN (hi - lo) lo s body

/-- `k` iterations of `body`, with loop index `lo+k-1, …, lo`. -/
def loopRevN {σ : Type} : Nat → Nat → σ → (Nat → σ → R σ) → R σ
  | 0, _, s, _ => .ok s
  | k + 1, lo, s, body => do let s' ← body (lo + k) s; loopRevN k lo s' body

/-- Rust `for i in (lo..hi).rev() { body }`. -/
def loopRev {σ : Type} (lo hi : Nat) (s : σ) (body : Nat → σ → R σ) : R σ :=
  loopRevN (hi - lo) lo s body

/-- Outcome of one loop iteration that may leave the loop: continue with a new state, or stop with a value
(`break`, or `return` from inside the loop). -/
inductive Flow (σ ρ : Type) where
  /-- go on -/
  | next (s : σ)
  /-- leave the loop -/
  | ret (r : ρ)

/-- `k` iterations of a body that may leave the loop. -/
def loopFN {σ ρ : Type} : Nat → Nat → σ → (Nat → σ → R (Flow σ ρ)) → R (Flow σ ρ)
  | 0, _, s, _ => .ok (.next s)
  | k + 1, i, s, body => do
    match ← body i s with
    | .next s' => loopFN k (i + 1) s' body
    | .ret r => .ok (.ret r)

/-- Rust `for i in lo..hi { body }` whose body may `return`/`break`. -/
def loopF {σ ρ : Type} (lo hi : Nat) (s : σ) (body : Nat → σ → R (Flow σ ρ)) : R (Flow σ ρ) :=
  loopFN (hi - lo) lo s body

/-- Element division `a / b` of an element type.  Integer types panic on a zero divisor, floats never do; exact
arithmetic reports `undef`. -/
class RDiv (α : Type) where
  /-- the division -/
  rdiv : α → α → R α

/-- The non-ring part of Rust's `Float`/`Signed`/`PartialOrd` used by the crate.  No laws are assumed here; IEEE
floats, exact ordered fields, … are all instances. -/
class FloatOps (α : Type) extends RDiv α where
  /-- `x.sqrt()` -/
  sqrt : α → R α
  /-- `num::abs(x)` -/
  abs : α → α
  /-- `x < y` -/
  lt : α → α → Bool
  /-- `x <= y` -/
  le : α → α → Bool
  /-- `x == y` -/
  eq : α → α → Bool
  /-- `x.max(y)` -/
  max : α → α → α
  /-- `x.powf(y)` -/
  powf : α → α → R α
  /-- `num::cast(num/den)`, and floating literals -/
  cst : Int → Nat → α

end LA
