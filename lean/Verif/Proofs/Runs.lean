import Verif.Proofs.Safe
import Verif.Model.Direct

/-! # Panic-freedom for arbitrary element operations

`Runs E x P`: the run `x` returns a value satisfying `P`, or ends with an error in `E`. -/

namespace LA
set_option linter.unusedSectionVars false
variable {α β σ ρ : Type} {E : Err → Prop}

/-- The run returns a value satisfying `P` or ends with an error in `E`. -/
def Runs (E : Err → Prop) (x : R α) (P : α → Prop) : Prop :=
  match x with
  | .ok a => P a
  | .error e => E e

namespace Runs

theorem ok {a : α} {P : α → Prop} (h : P a) : Runs E (.ok a) P := h
theorem pure {a : α} {P : α → Prop} (h : P a) : Runs E (Pure.pure a) P := h
theorem mono {x : R α} {P Q : α → Prop} (h : Runs E x P) (h2 : ∀ a, P a → Q a) : Runs E x Q := by
  cases x with
  | ok a => exact h2 a h
  | error e => exact h

theorem bind {x : R α} {f : α → R β} {P : α → Prop} {Q : β → Prop} (h : Runs E x P) (hf : ∀ a, P a → Runs E (f a) Q) :
    Runs E (x >>= f) Q := by
  cases x with
  | ok a => exact hf a h
  | error e => exact h

theorem bindT {x : R α} {f : α → R β} {Q : β → Prop} (h : Runs E x fun _ => True) (hf : ∀ a, Runs E (f a) Q) :
    Runs E (x >>= f) Q := h.bind fun a _ => hf a

theorem weaken {E' : Err → Prop} {x : R α} {P : α → Prop} (h : Runs E x P) (hE : ∀ e, E e → E' e) : Runs E' x P := by
  cases x with
  | ok a => exact h
  | error e => exact hE e h

theorem total {x : R α} {P : α → Prop} (h : Runs (fun _ => False) x P) : ∃ a, x = .ok a ∧ P a := by
  cases x with
  | ok a => exact ⟨a, rfl, h⟩
  | error e => exact h.elim

theorem of_eq {x : R α} {a : α} {P : α → Prop} (h : x = .ok a) (hP : P a) : Runs E x P := h ▸ hP

theorem assert {c : Bool} (h : c = true) : Runs E (LA.assert c) fun _ => True := by rw [h]; exact ok trivial

theorem usub {a b : Nat} (h : b ≤ a) : Runs E (LA.usub a b) fun c => c = a - b := by
  unfold LA.usub; rw [if_pos h]; exact ok rfl

theorem udiv {a b : Nat} (h : 0 < b) : Runs E (LA.udiv a b) fun c => c = a / b := by
  unfold LA.udiv; rw [if_neg (by omega)]; exact ok rfl

theorem idx {v : List α} {i : Nat} (h : i < v.length) : Runs E (LA.idx v i) fun _ => True := by
  unfold LA.idx; rw [List.getElem?_eq_getElem h]; exact ok trivial

theorem setIdx {v : List α} {i : Nat} (x : α) (h : i < v.length) : Runs E (LA.setIdx v i x) fun w => w.length = v.length := by
  unfold LA.setIdx; rw [if_pos h]; exact ok (by simp)

theorem loop {lo hi : Nat} {s : σ} {f : Nat → σ → R σ} (Inv : Nat → σ → Prop) (hle : lo ≤ hi) (h0 : Inv lo s)
    (hstep : ∀ i s, lo ≤ i → i < hi → Inv i s → Runs E (f i s) (Inv (i + 1))) : Runs E (LA.loop lo hi s f) (Inv hi) := by
  obtain ⟨k, rfl⟩ := Nat.exists_eq_add_of_le hle
  induction k with
  | zero => rw [Nat.add_zero, loop_self]; exact ok h0
  | succ k ih =>
    rw [← Nat.add_assoc, loop_succ (by omega)]
    refine (ih (by omega) (fun i s h1 h2 => hstep i s h1 (by omega))).bind fun s hs => ?_
    exact hstep _ s (by omega) (by omega) hs

theorem loopC {lo hi : Nat} {s : σ} {f : Nat → σ → R σ} (Inv : σ → Prop) (h0 : Inv s)
    (hstep : ∀ i s, lo ≤ i → i < hi → Inv s → Runs E (f i s) Inv) : Runs E (LA.loop lo hi s f) Inv := by
  by_cases h : lo ≤ hi
  · exact loop (fun _ => Inv) h h0 hstep
  · rw [loop_empty (by omega)]; exact ok h0

theorem loopT {lo hi : Nat} {s : σ} {f : Nat → σ → R σ}
    (hstep : ∀ i s, lo ≤ i → i < hi → Runs E (f i s) fun _ => True) : Runs E (LA.loop lo hi s f) fun _ => True :=
  loopC _ trivial fun i s h1 h2 _ => hstep i s h1 h2

theorem loopRev {lo hi : Nat} {s : σ} {f : Nat → σ → R σ} (Inv : Nat → σ → Prop) (hle : lo ≤ hi) (h0 : Inv hi s)
    (hstep : ∀ i s, lo ≤ i → i < hi → Inv (i + 1) s → Runs E (f i s) (Inv i)) : Runs E (LA.loopRev lo hi s f) (Inv lo) := by
  obtain ⟨k, rfl⟩ := Nat.exists_eq_add_of_le hle
  unfold LA.loopRev
  rw [Nat.add_sub_cancel_left]
  induction k generalizing s with
  | zero => exact ok h0
  | succ k ih =>
    rw [loopRevN]
    refine (hstep (lo + k) s (by omega) (by omega) h0).bind fun s' hs' => ?_
    exact ih (by omega) hs' (fun i s h1 h2 => hstep i s h1 (by omega))

theorem loopRevC {lo hi : Nat} {s : σ} {f : Nat → σ → R σ} (Inv : σ → Prop) (h0 : Inv s)
    (hstep : ∀ i s, lo ≤ i → i < hi → Inv s → Runs E (f i s) Inv) : Runs E (LA.loopRev lo hi s f) Inv := by
  by_cases h : lo ≤ hi
  · exact loopRev (fun _ => Inv) h h0 hstep
  · unfold LA.loopRev; rw [show hi - lo = 0 by omega]; exact ok h0

theorem loopRevT {lo hi : Nat} {s : σ} {f : Nat → σ → R σ}
    (hstep : ∀ i s, lo ≤ i → i < hi → Runs E (f i s) fun _ => True) : Runs E (LA.loopRev lo hi s f) fun _ => True :=
  loopRevC _ trivial fun i s h1 h2 _ => hstep i s h1 h2

theorem loopF {lo hi : Nat} {s : σ} {f : Nat → σ → R (Flow σ ρ)} (Inv : Nat → σ → Prop) (Q : ρ → Prop) (hle : lo ≤ hi) (h0 : Inv lo s)
    (hstep : ∀ i s, lo ≤ i → i < hi → Inv i s →
      Runs E (f i s) (fun o => match o with | .next s' => Inv (i + 1) s' | .ret r => Q r)) :
    Runs E (LA.loopF lo hi s f) (fun o => match o with | .next s' => Inv hi s' | .ret r => Q r) := by
  obtain ⟨k, rfl⟩ := Nat.exists_eq_add_of_le hle
  unfold LA.loopF
  rw [Nat.add_sub_cancel_left]
  induction k generalizing lo s with
  | zero => exact ok h0
  | succ k ih =>
    rw [loopFN]
    refine (hstep lo s le_rfl (by omega) h0).bind fun o ho => ?_
    cases o with
    | ret r => exact ok ho
    | next s' =>
      have := ih (lo := lo + 1) (s := s') ho (by omega) (fun i s h1 h2 => hstep i s (by omega) (by omega))
      rwa [show lo + 1 + k = lo + (k + 1) by omega] at this

end Runs

theorem lt2 {m n i j : Nat} (hi : i < m) (hj : j < n) : i * n + j < m * n := by
  have : i * n + n ≤ m * n := by rw [← Nat.succ_mul]; exact Nat.mul_le_mul_right n hi
  omega

theorem lt2_inj {n i j i' j' : Nat} (hj : j < n) (hj' : j' < n) (h : i * n + j = i' * n + j') : i = i' ∧ j = j' := by
  have h1 : (i * n + j) / n = (i' * n + j') / n := by rw [h]
  rw [Nat.mul_comm i, Nat.mul_comm i', Nat.mul_add_div (by omega), Nat.mul_add_div (by omega), Nat.div_eq_of_lt hj, Nat.div_eq_of_lt hj'] at h1
  refine ⟨by omega, ?_⟩
  have : i = i' := by omega
  subst this; omega

/-! ## Partially written vectors and grids -/

/-- A buffer of `N` cells; the cells in `S` have been written. -/
def VB (d : Buf α) (N : Nat) (S : Nat → Prop) : Prop := d.length = N ∧ ∀ i, i < N → S i → ∃ x, d[i]? = some (some x)

/-- An `m × n` buffer; the cells in `S` have been written. -/
def GB (d : Buf α) (m n : Nat) (S : Nat → Nat → Prop) : Prop :=
  d.length = m * n ∧ ∀ i j, i < m → j < n → S i j → ∃ x, d[i * n + j]? = some (some x)

theorem VB.alloc (N : Nat) : VB (alloc α N) N fun _ => False := ⟨by simp [LA.alloc], fun _ _ h => h.elim⟩
theorem GB.alloc (m n : Nat) : GB (alloc α (m * n)) m n fun _ _ => False := ⟨by simp [LA.alloc], fun _ _ _ _ h => h.elim⟩

theorem VB.mono {d : Buf α} {N : Nat} {S S' : Nat → Prop} (h : VB d N S) (hS : ∀ i, i < N → S' i → S i) : VB d N S' :=
  ⟨h.1, fun i hi hs => h.2 i hi (hS i hi hs)⟩

theorem GB.mono {d : Buf α} {m n : Nat} {S S' : Nat → Nat → Prop} (h : GB d m n S) (hS : ∀ i j, i < m → j < n → S' i j → S i j) :
    GB d m n S' := ⟨h.1, fun i j hi hj hs => h.2 i j hi hj (hS i j hi hj hs)⟩

theorem VB.rd {d : Buf α} {N : Nat} {S : Nat → Prop} (h : VB d N S) {i : Nat} (hi : i < N) (hs : S i) :
    Runs E (LA.rd d i) fun _ => True := by
  obtain ⟨x, hx⟩ := h.2 i hi hs
  rw [rd_eq hx]; exact Runs.ok trivial

theorem GB.rd {d : Buf α} {m n : Nat} {S : Nat → Nat → Prop} (h : GB d m n S) {i j : Nat} (hi : i < m) (hj : j < n) (hs : S i j) :
    Runs E (LA.rd d (i * n + j)) fun _ => True := by
  obtain ⟨x, hx⟩ := h.2 i j hi hj hs
  rw [rd_eq hx]; exact Runs.ok trivial

theorem VB.wr {d : Buf α} {N : Nat} {S : Nat → Prop} (h : VB d N S) {i : Nat} (hi : i < N) (x : α) :
    Runs E (LA.wr d i x) fun d' => VB d' N fun k => S k ∨ k = i := by
  unfold LA.wr
  rw [if_pos (by rw [h.1]; exact hi)]
  refine Runs.ok ⟨by simp [h.1], fun k hk hs => ?_⟩
  by_cases e : i = k
  · subst e; exact ⟨x, by simp [h.1, hi]⟩
  · rw [List.getElem?_set_ne e]; exact h.2 k hk (hs.resolve_right fun h => e h.symm)

theorem GB.wr {d : Buf α} {m n : Nat} {S : Nat → Nat → Prop} (h : GB d m n S) {i j : Nat} (hi : i < m) (hj : j < n) (x : α) :
    Runs E (LA.wr d (i * n + j) x) fun d' => GB d' m n fun a b => S a b ∨ (a = i ∧ b = j) := by
  unfold LA.wr
  have hl := lt2 hi hj
  rw [if_pos (by rw [h.1]; exact hl)]
  refine Runs.ok ⟨by simp [h.1], fun a b ha hb hs => ?_⟩
  by_cases e : i * n + j = a * n + b
  · rw [← e]; exact ⟨x, by simp [h.1, hl]⟩
  · rw [List.getElem?_set_ne e]
    refine h.2 a b ha hb (hs.resolve_right ?_)
    rintro ⟨rfl, rfl⟩; exact e rfl

/-- All cells written. -/
abbrev VF (d : Buf α) (N : Nat) : Prop := VB d N fun _ => True
/-- All cells written. -/
abbrev GF (d : Buf α) (m n : Nat) : Prop := GB d m n fun _ _ => True

theorem VF.rd {d : Buf α} {N : Nat} (h : VF d N) {i : Nat} (hi : i < N) : Runs E (LA.rd d i) fun _ => True := VB.rd h hi trivial
theorem GF.rd {d : Buf α} {m n : Nat} (h : GF d m n) {i j : Nat} (hi : i < m) (hj : j < n) : Runs E (LA.rd d (i * n + j)) fun _ => True :=
  GB.rd h hi hj trivial
theorem VF.wr {d : Buf α} {N : Nat} (h : VF d N) {i : Nat} (hi : i < N) (x : α) : Runs E (LA.wr d i x) fun d' => VF d' N :=
  (VB.wr h hi x).mono fun _ h => h.mono fun _ _ _ => Or.inl trivial
theorem GF.wr {d : Buf α} {m n : Nat} (h : GF d m n) {i j : Nat} (hi : i < m) (hj : j < n) (x : α) :
    Runs E (LA.wr d (i * n + j) x) fun d' => GF d' m n :=
  (GB.wr h hi hj x).mono fun _ h => h.mono fun _ _ _ _ _ => Or.inl trivial

theorem VB.freeze {d : Buf α} {N : Nat} (h : VF d N) : Runs E (LA.freeze d) fun l => l.length = N := by
  have hp : Pre d N N := ⟨h.1, fun j hj => h.2 j hj trivial⟩
  have := hp.freeze le_rfl
  have h2 : ∃ l : List α, d = l.map some := by
    obtain ⟨h1, h2⟩ := h
    subst h1
    clear hp this
    induction d with
    | nil => exact ⟨[], rfl⟩
    | cons o d ih =>
      obtain ⟨x, hx⟩ := h2 0 (by simp) trivial
      simp only [List.getElem?_cons_zero, Option.some.injEq] at hx
      obtain ⟨l, hl⟩ := ih (fun j hj _ => by
        have := h2 (j + 1) (by simpa using hj) trivial
        simpa using this)
      exact ⟨x :: l, by rw [hx, hl]; rfl⟩
  obtain ⟨l, rfl⟩ := h2
  rw [freeze_map_some]
  exact Runs.ok (by simpa using h.1)

theorem GB.flat {d : Buf α} {m n : Nat} (h : GF d m n) : VF d (m * n) := by
  refine ⟨h.1, fun k hk _ => ?_⟩
  have hn : 0 < n := by rcases Nat.eq_zero_or_pos n with rfl | h; · simp at hk
                        · exact h
  obtain ⟨x, hx⟩ := h.2 (k / n) (k % n) (Nat.div_lt_of_lt_mul (by rwa [Nat.mul_comm])) (Nat.mod_lt _ hn) trivial
  rw [Nat.div_add_mod' k n] at hx
  exact ⟨x, hx⟩

theorem GB.freeze {d : Buf α} {m n : Nat} (h : GF d m n) : Runs E (LA.freeze d) fun l => l.length = m * n := VB.freeze h.flat

/-! ## Initialised vectors as grids -/

theorem idxG {d : List α} {m n i j : Nat} (h : d.length = m * n) (hi : i < m) (hj : j < n) : Runs E (LA.idx d (i * n + j)) fun _ => True :=
  Runs.idx (by rw [h]; exact lt2 hi hj)

theorem setG {d : List α} {m n i j : Nat} (h : d.length = m * n) (hi : i < m) (hj : j < n) (x : α) :
    Runs E (LA.setIdx d (i * n + j) x) fun d' => d'.length = m * n := (Runs.setIdx x (by rw [h]; exact lt2 hi hj)).mono fun _ h' => h'.trans h

theorem Mat.new_runs {r c : Nat} {d : List α} (h : d.length = r * c) (hr : 0 < r) (hc : 0 < c) :
    Runs E (Mat.new r c d) fun b => b.rows = r ∧ b.data.length = r * c := by
  unfold Mat.new
  refine (Runs.assert (by simp [h])).bind fun _ _ => (Runs.assert (by simp [hr, hc])).bind fun _ _ => Runs.ok ⟨rfl, h⟩

theorem Mat.cols_runs {a : Mat α} {n : Nat} (h : a.data.length = a.rows * n) (hr : 0 < a.rows) :
    Runs E a.cols fun c => c = n := (Runs.udiv hr).mono fun c hc => by rw [hc, h, Nat.mul_div_cancel_left _ hr]

/-! ## Element operations -/

/-- Division and square root always return (IEEE floating point: they may return NaN or an infinity). -/
class Total (α : Type) [FloatOps α] : Prop where
  rdiv : ∀ x y : α, ∃ z, RDiv.rdiv x y = .ok z
  sqrt : ∀ x : α, ∃ z, FloatOps.sqrt x = .ok z

/-- The errors of division and square root are in `E`. -/
class Elem (E : Err → Prop) (α : Type) [FloatOps α] : Prop where
  rdiv : ∀ x y : α, Runs E (RDiv.rdiv x y) fun _ => True
  sqrt : ∀ x : α, Runs E (FloatOps.sqrt x) fun _ => True

instance (priority := 100) [FloatOps α] [Total α] : Elem E α where
  rdiv x y := by obtain ⟨z, hz⟩ := Total.rdiv x y; exact Runs.of_eq hz trivial
  sqrt x := by obtain ⟨z, hz⟩ := Total.sqrt x; exact Runs.of_eq hz trivial

variable [FloatOps α] [Elem E α]

theorem rdivR (x y : α) : Runs E (RDiv.rdiv x y) fun _ => True := Elem.rdiv x y

theorem sqrtR (x : α) : Runs E (FloatOps.sqrt x) fun _ => True := Elem.sqrt x

theorem hypotR [Zero α] [One α] [Add α] [Mul α] (a b : α) : Runs E (hypot a b) fun _ => True := by
  unfold hypot
  split
  · exact (rdivR _ _).bind fun _ _ => (sqrtR _).bind fun _ _ => Runs.ok trivial
  · split
    · exact (rdivR _ _).bind fun _ _ => (sqrtR _).bind fun _ _ => Runs.ok trivial
    · exact Runs.ok trivial

end LA
