import Verif.Spec
import Mathlib.Tactic.Ring
import Mathlib.Algebra.BigOperators.Fin
import Mathlib.Algebra.BigOperators.Ring.Finset
import Mathlib.Algebra.BigOperators.Intervals
import Mathlib.Tactic.Linarith

/-! # Helper lemmas: result monad, loops, row-major indexing -/

namespace LA

variable {α β σ ρ : Type}

/-! ## The result monad -/

@[simp] theorem ok_bind (a : α) (f : α → R β) : ((Except.ok a : R α) >>= f) = f a := rfl
@[simp] theorem error_bind (e : Err) (f : α → R β) : ((Except.error e : R α) >>= f) = .error e := rfl
@[simp] theorem pure_eq_ok (a : α) : (pure a : R α) = .ok a := rfl
@[simp] theorem map_ok (f : α → β) (a : α) : (f <$> (Except.ok a : R α)) = .ok (f a) := rfl
@[simp] theorem map_error (f : α → β) (e : Err) : (f <$> (Except.error e : R α)) = .error e := rfl

@[simp] theorem assert_true : assert true = .ok () := rfl
@[simp] theorem assert_false : assert false = .error .assert := rfl

theorem assert_of {c : Bool} (h : c = true) : assert c = .ok () := by subst h; rfl
theorem assert_not {c : Bool} (h : c = false) : assert c = .error .assert := by subst h; rfl

theorem assert_beq_ne {a b : Nat} (h : a ≠ b) : assert (a == b) = .error .assert :=
  assert_not (by simpa using h)
theorem assert_lt {p : Prop} [Decidable p] (h : p) : assert (decide p) = .ok () := assert_of (by simpa using h)
theorem assert_not_lt {p : Prop} [Decidable p] (h : ¬ p) : assert (decide p) = .error .assert :=
  assert_not (by simpa using h)

theorem usub_ok {a b : Nat} (h : b ≤ a) : usub a b = .ok (a - b) := if_pos h
theorem udiv_ok {a b : Nat} (h : b ≠ 0) : udiv a b = .ok (a / b) := if_neg h
theorem umod_ok {a b : Nat} (h : b ≠ 0) : umod a b = .ok (a % b) := if_neg h

/-- Total correctness: the run succeeds and its value satisfies `P`. -/
def Post (x : R α) (P : α → Prop) : Prop := ∃ a, x = .ok a ∧ P a

theorem Post.bind {x : R α} {f : α → R β} {P : α → Prop} {Q : β → Prop}
    (h : Post x P) (h2 : ∀ a, P a → Post (f a) Q) : Post (x >>= f) Q := by
  obtain ⟨a, rfl, ha⟩ := h
  exact h2 a ha

theorem Post.mono {x : R α} {P Q : α → Prop} (h : Post x P) (h2 : ∀ a, P a → Q a) : Post x Q := by
  obtain ⟨a, rfl, ha⟩ := h
  exact ⟨a, rfl, h2 a ha⟩

theorem Post.ok {a : α} {P : α → Prop} (h : P a) : Post (.ok a) P := ⟨a, rfl, h⟩
theorem Post.pure {a : α} {P : α → Prop} (h : P a) : Post (pure a) P := ⟨a, rfl, h⟩

@[simp] theorem post_ok {a : α} {P : α → Prop} : Post (.ok a) P ↔ P a :=
  ⟨fun ⟨b, hb, hp⟩ => by cases hb; exact hp, Post.ok⟩

@[simp] theorem post_error {e : Err} {P : α → Prop} : Post (.error e) P ↔ False :=
  ⟨fun h => (by obtain ⟨_, hb, _⟩ := h; exact nomatch hb), False.elim⟩

theorem post_bind {x : R α} {f : α → R β} {Q : β → Prop} :
    Post (x >>= f) Q ↔ Post x (fun a => Post (f a) Q) := by
  cases x with
  | error e => simp
  | ok a => simp

theorem Post.eq_ok {x : R α} {b : α} (h : Post x (fun a => a = b)) : x = .ok b := by
  obtain ⟨a, rfl, rfl⟩ := h; rfl

theorem bind_eq_ok {x : R α} {f : α → R β} {b : β} :
    (x >>= f) = .ok b ↔ ∃ a, x = .ok a ∧ f a = .ok b := by
  cases x with
  | error e => simp
  | ok a => simp

/-! ## Loops -/

@[simp] theorem loop_self (i : Nat) (s : σ) (f : Nat → σ → R σ) : loop i i s f = .ok s := by
  simp [loop, loopN]

theorem loop_empty {lo hi : Nat} (h : hi ≤ lo) (s : σ) (f : Nat → σ → R σ) : loop lo hi s f = .ok s := by
  simp [loop, Nat.sub_eq_zero_of_le h, loopN]

theorem loop_step {lo hi : Nat} (h : lo < hi) (s : σ) (f : Nat → σ → R σ) :
    loop lo hi s f = (f lo s >>= fun s' => loop (lo + 1) hi s' f) := by
  unfold loop
  obtain ⟨k, hk⟩ : ∃ k, hi - lo = k + 1 := ⟨hi - lo - 1, by omega⟩
  rw [hk, show hi - (lo + 1) = k by omega]
  rfl

theorem loop_succ {lo hi : Nat} (h : lo ≤ hi) (s : σ) (f : Nat → σ → R σ) :
    loop lo (hi + 1) s f = (loop lo hi s f >>= fun s' => f hi s') := by
  obtain ⟨k, rfl⟩ : ∃ k, hi = lo + k := ⟨hi - lo, by omega⟩
  clear h
  induction k generalizing lo s with
  | zero =>
    rw [loop_step (by omega)]
    simp only [Nat.add_zero, loop_self, ok_bind]
    cases f lo s <;> simp
  | succ k ih =>
    rw [loop_step (by omega), loop_step (lo := lo) (hi := lo + (k + 1)) (by omega)]
    cases hx : f lo s with
    | error e => simp
    | ok s' =>
      simp only [ok_bind]
      have := ih s' (lo := lo + 1)
      rw [show lo + 1 + k = lo + (k + 1) by omega] at this
      exact this

/-- Total-correctness rule for `for i in lo..hi`. -/
theorem loop_post {lo hi : Nat} {s : σ} {f : Nat → σ → R σ} (Inv : Nat → σ → Prop) (hle : lo ≤ hi)
    (h0 : Inv lo s) (hstep : ∀ i s, lo ≤ i → i < hi → Inv i s → Post (f i s) (Inv (i + 1))) :
    Post (loop lo hi s f) (Inv hi) := by
  induction hi, hle using Nat.le_induction with
  | base => simpa using h0
  | succ k hk ih =>
    rw [loop_succ hk]
    refine Post.bind (ih fun i s h1 h2 h3 => hstep i s h1 (by omega) h3) ?_
    intro a ha
    exact hstep k a hk (by omega) ha

/-- The same rule without `lo ≤ hi`: an invariant that does not mention the index. -/
theorem loop_post_const {lo hi : Nat} {s : σ} {f : Nat → σ → R σ} (Inv : σ → Prop)
    (h0 : Inv s) (hstep : ∀ i s, lo ≤ i → i < hi → Inv s → Post (f i s) Inv) :
    Post (loop lo hi s f) Inv := by
  by_cases h : lo ≤ hi
  · exact loop_post (fun _ => Inv) h h0 hstep
  · rw [loop_empty (by omega)]; exact Post.ok h0

theorem loop_congr {lo hi : Nat} {s : σ} {f g : Nat → σ → R σ}
    (h : ∀ i s, lo ≤ i → i < hi → f i s = g i s) : loop lo hi s f = loop lo hi s g := by
  by_cases hle : lo ≤ hi
  · induction hi, hle using Nat.le_induction generalizing s with
    | base => simp
    | succ k hk ih =>
      rw [loop_succ hk, loop_succ hk, ih fun i s h1 h2 => h i s h1 (by omega)]
      congr 1; funext s'
      exact h k s' hk (by omega)
  · rw [loop_empty (by omega), loop_empty (by omega)]

/-- First failing iteration: the error is the result. -/
theorem loop_error {lo hi j : Nat} {s : σ} {f : Nat → σ → R σ} {e : Err} (Inv : Nat → σ → Prop)
    (h1 : lo ≤ j) (h2 : j < hi) (h0 : Inv lo s)
    (hstep : ∀ i s, lo ≤ i → i < j → Inv i s → Post (f i s) (Inv (i + 1)))
    (hj : ∀ s, Inv j s → f j s = .error e) : loop lo hi s f = .error e := by
  obtain ⟨s1, hs1, hi1⟩ := loop_post Inv h1 h0 hstep
  have hmid : loop lo (j + 1) s f = .error e := by
    rw [loop_succ h1, hs1]; exact hj s1 hi1
  clear hs1 hi1
  obtain ⟨k, rfl⟩ : ∃ k, hi = j + 1 + k := ⟨hi - (j + 1), by omega⟩
  clear h2
  induction k with
  | zero => exact hmid
  | succ k ih => rw [← Nat.add_assoc, loop_succ (by omega), ih]; rfl

/-- In a successful loop every iteration succeeded. -/
theorem loop_ok_step {lo hi i : Nat} {s t : σ} {f : Nat → σ → R σ} (h : loop lo hi s f = .ok t) (h1 : lo ≤ i)
    (h2 : i < hi) : ∃ a b, f i a = .ok b := by
  obtain ⟨k, rfl⟩ : ∃ k, hi = lo + k := ⟨hi - lo, by omega⟩
  induction k generalizing lo s with
  | zero => omega
  | succ k ih =>
    rw [loop_step (by omega), bind_eq_ok] at h
    obtain ⟨a, ha, h⟩ := h
    by_cases e : i = lo
    · subst e; exact ⟨s, a, ha⟩
    · refine ih (lo := lo + 1) (s := a) (by omega) ?_ (by omega)
      rw [show lo + 1 + k = lo + (k + 1) by omega]; exact h

/-- In a successful loop every iteration succeeded, from a state satisfying the invariant. -/
theorem loop_state_ok {lo hi : Nat} {s t : σ} {f : Nat → σ → R σ} (Inv : Nat → σ → Prop) (h : loop lo hi s f = .ok t)
    (h0 : Inv lo s) (hstep : ∀ i s s', Inv i s → f i s = .ok s' → Inv (i + 1) s') (i : Nat) (h1 : lo ≤ i)
    (h2 : i < hi) : ∃ a b, Inv i a ∧ f i a = .ok b := by
  obtain ⟨k, rfl⟩ : ∃ k, hi = lo + k := ⟨hi - lo, by omega⟩
  induction k generalizing lo s with
  | zero => omega
  | succ k ih =>
    rw [loop_step (by omega), bind_eq_ok] at h
    obtain ⟨a, ha, h⟩ := h
    by_cases e : i = lo
    · subst e; exact ⟨s, a, h0, ha⟩
    · refine ih (lo := lo + 1) (s := a) (hstep lo s a h0 ha) (by omega) ?_ (by omega)
      rw [show lo + 1 + k = lo + (k + 1) by omega]; exact h

/-- Partial-correctness rule for `for i in lo..hi`. -/
theorem loop_inv_ok {lo hi : Nat} {s t : σ} {f : Nat → σ → R σ} (Inv : Nat → σ → Prop) (hle : lo ≤ hi)
    (h : loop lo hi s f = .ok t)
    (h0 : Inv lo s) (hstep : ∀ i s s', lo ≤ i → i < hi → Inv i s → f i s = .ok s' → Inv (i + 1) s') : Inv hi t := by
  induction hi, hle using Nat.le_induction generalizing t with
  | base => rw [loop_self] at h; cases h; exact h0
  | succ k hk ih =>
    rw [loop_succ hk, bind_eq_ok] at h
    obtain ⟨a, ha, h⟩ := h
    exact hstep k a t hk (by omega) (ih ha fun i s s' h1 h2 => hstep i s s' h1 (by omega)) h

/-- If the run fails, the error satisfies `E`. -/
def ErrIn (E : Err → Prop) (x : R α) : Prop := ∀ e, x = .error e → E e

theorem errIn_ok {E : Err → Prop} (a : α) : ErrIn E (.ok a : R α) := fun _ h => nomatch h
theorem errIn_error {E : Err → Prop} {e : Err} (h : E e) : ErrIn E (.error e : R α) := by
  intro e' h'; cases h'; exact h

theorem ErrIn.bind {E : Err → Prop} {x : R α} {f : α → R β} (h : ErrIn E x)
    (h2 : ∀ a, x = .ok a → ErrIn E (f a)) : ErrIn E (x >>= f) := by
  cases x with
  | error e => intro e' h'; cases h'; exact h e rfl
  | ok a => exact h2 a rfl

theorem loop_errIn {E : Err → Prop} {lo hi : Nat} {s : σ} {f : Nat → σ → R σ}
    (h : ∀ i s, lo ≤ i → i < hi → ErrIn E (f i s)) : ErrIn E (loop lo hi s f) := by
  by_cases hle : lo ≤ hi
  · induction hi, hle using Nat.le_induction with
    | base => rw [loop_self]; exact errIn_ok s
    | succ k hk ih =>
      rw [loop_succ hk]
      exact (ih fun i s h1 h2 => h i s h1 (by omega)).bind fun a _ => h k a hk (by omega)
  · rw [loop_empty (by omega)]; exact errIn_ok s

@[simp] theorem loopRev_self (i : Nat) (s : σ) (f : Nat → σ → R σ) : loopRev i i s f = .ok s := by
  simp [loopRev, loopRevN]

theorem loopRev_empty {lo hi : Nat} (h : hi ≤ lo) (s : σ) (f : Nat → σ → R σ) :
    loopRev lo hi s f = .ok s := by
  simp [loopRev, Nat.sub_eq_zero_of_le h, loopRevN]

theorem loopRev_succ {lo hi : Nat} (h : lo ≤ hi) (s : σ) (f : Nat → σ → R σ) :
    loopRev lo (hi + 1) s f = (f hi s >>= fun s' => loopRev lo hi s' f) := by
  unfold loopRev
  rw [show hi + 1 - lo = (hi - lo) + 1 by omega]
  simp only [loopRevN]
  rw [show lo + (hi - lo) = hi by omega]

/-- Total-correctness rule for `for i in (lo..hi).rev()`: `Inv i` holds when indices `i..hi` are done. -/
theorem loopRev_post {lo hi : Nat} {s : σ} {f : Nat → σ → R σ} (Inv : Nat → σ → Prop) (hle : lo ≤ hi)
    (h0 : Inv hi s) (hstep : ∀ i s, lo ≤ i → i < hi → Inv (i + 1) s → Post (f i s) (Inv i)) :
    Post (loopRev lo hi s f) (Inv lo) := by
  induction hi, hle using Nat.le_induction generalizing s with
  | base => simpa using h0
  | succ k hk ih =>
    rw [loopRev_succ hk]
    refine Post.bind (hstep k s hk (by omega) h0) ?_
    intro a ha
    exact ih ha fun i s h1 h2 h3 => hstep i s h1 (by omega) h3

@[simp] theorem loopF_self (i : Nat) (s : σ) (f : Nat → σ → R (Flow σ ρ)) : loopF i i s f = .ok (.next s) := by
  simp [loopF, loopFN]

theorem loopF_empty {lo hi : Nat} (h : hi ≤ lo) (s : σ) (f : Nat → σ → R (Flow σ ρ)) :
    loopF lo hi s f = .ok (.next s) := by
  simp [loopF, Nat.sub_eq_zero_of_le h, loopFN]

theorem loopF_step {lo hi : Nat} (h : lo < hi) (s : σ) (f : Nat → σ → R (Flow σ ρ)) :
    loopF lo hi s f = (f lo s >>= fun o => match o with
      | .next s' => loopF (lo + 1) hi s' f
      | .ret r => .ok (.ret r)) := by
  unfold loopF
  obtain ⟨k, hk⟩ : ∃ k, hi - lo = k + 1 := ⟨hi - lo - 1, by omega⟩
  rw [hk, show hi - (lo + 1) = k by omega]
  rfl

/-- Rule for a loop with early exit: either it runs to the end with the invariant, or it stops with `Q`. -/
theorem loopF_split {lo mid hi : Nat} (h1 : lo ≤ mid) (h2 : mid ≤ hi) (s : σ) (f : Nat → σ → R (Flow σ ρ)) :
    loopF lo hi s f = (loopF lo mid s f >>= fun o => match o with
      | .next s' => loopF mid hi s' f
      | .ret r => .ok (.ret r)) := by
  obtain ⟨k, rfl⟩ : ∃ k, mid = lo + k := ⟨mid - lo, by omega⟩
  clear h1
  induction k generalizing lo s with
  | zero => rw [Nat.add_zero, loopF_empty (le_refl lo)]; rfl
  | succ k ih =>
    rw [loopF_step (show lo < hi by omega), loopF_step (show lo < lo + (k + 1) by omega)]
    cases hx : f lo s with
    | error e => rfl
    | ok o =>
      cases o with
      | ret r => rfl
      | next s' =>
        simp only [ok_bind]
        have := ih (lo := lo + 1) s' (by omega)
        rw [show lo + 1 + k = lo + (k + 1) by omega] at this
        exact this

theorem loopF_post {lo hi : Nat} {s : σ} {f : Nat → σ → R (Flow σ ρ)} (Inv : Nat → σ → Prop) (Q : ρ → Prop)
    (hle : lo ≤ hi) (h0 : Inv lo s)
    (hstep : ∀ i s, lo ≤ i → i < hi → Inv i s →
      Post (f i s) (fun o => match o with | .next s' => Inv (i + 1) s' | .ret r => Q r)) :
    Post (loopF lo hi s f) (fun o => match o with | .next s' => Inv hi s' | .ret r => Q r) := by
  obtain ⟨k, rfl⟩ : ∃ k, hi = lo + k := ⟨hi - lo, by omega⟩
  clear hle
  induction k generalizing lo s with
  | zero => simpa using h0
  | succ k ih =>
    rw [loopF_step (by omega)]
    refine Post.bind (hstep lo s le_rfl (by omega) h0) ?_
    intro o ho
    match o, ho with
    | .ret r, ho => simpa using ho
    | .next s', ho =>
      have := ih (lo := lo + 1) (s := s') ho fun i s h1 h2 h3 => hstep i s (by omega) (by omega) h3
      rw [show lo + 1 + k = lo + (k + 1) by omega] at this
      exact this

/-- A summation loop. -/
theorem loop_sum [AddCommMonoid α] {lo hi : Nat} (hle : lo ≤ hi) (s : α) {f : Nat → α → R α} (x : Nat → α)
    (h : ∀ i s, lo ≤ i → i < hi → f i s = .ok (s + x i)) :
    loop lo hi s f = .ok (s + ∑ i ∈ Finset.Ico lo hi, x i) := by
  refine Post.eq_ok (loop_post (fun k t => t = s + ∑ i ∈ Finset.Ico lo k, x i) hle (by simp) ?_)
  rintro i t h1 h2 rfl
  rw [h i _ h1 h2]
  simp [Finset.sum_Ico_succ_top h1, add_assoc]

/-! ## Vectors and buffers -/

theorem idx_eq {v : List α} {i : Nat} {x : α} (h : v[i]? = some x) : idx v i = .ok x := by
  simp [idx, h]

theorem idx_lt {v : List α} {i : Nat} (h : i < v.length) : idx v i = .ok v[i] :=
  idx_eq (List.getElem?_eq_getElem h)

theorem idx_oob {v : List α} {i : Nat} (h : v.length ≤ i) : idx v i = .error .oob := by
  simp [idx, List.getElem?_eq_none h]

theorem idx_eq_ok {v : List α} {i : Nat} {x : α} : idx v i = .ok x ↔ v[i]? = some x := by
  unfold idx; split <;> simp_all

theorem setIdx_lt {v : List α} {i : Nat} (h : i < v.length) (x : α) : setIdx v i x = .ok (v.set i x) := if_pos h

theorem errIn_idx (v : List α) (i : Nat) : ErrIn (· = .oob) (idx v i) := by
  intro e h; unfold idx at h; split at h
  · exact nomatch h
  · cases h; rfl

theorem errIn_setIdx (v : List α) (i : Nat) (x : α) : ErrIn (· = .oob) (setIdx v i x) := by
  intro e h; unfold setIdx at h; split at h
  · exact nomatch h
  · cases h; rfl

theorem errIn_wr (v : Buf α) (i : Nat) (x : α) : ErrIn (· = .oob) (wr v i x) := by
  intro e h; unfold wr at h; split at h
  · exact nomatch h
  · cases h; rfl

theorem idx_ok_lt {v : List α} {i : Nat} {x : α} (h : idx v i = .ok x) : i < v.length := by
  rw [idx_eq_ok] at h
  by_contra hc
  rw [List.getElem?_eq_none (by omega)] at h
  exact nomatch h

theorem rd_eq {d : Buf α} {i : Nat} {x : α} (h : d[i]? = some (some x)) : rd d i = .ok x := by
  simp [rd, h]

theorem wr_lt {d : Buf α} {i : Nat} (h : i < d.length) (x : α) : wr d i x = .ok (d.set i (some x)) := if_pos h

@[simp] theorem alloc_length (n : Nat) : (alloc α n).length = n := by simp [alloc]

theorem freeze_map_some (l : List α) : freeze (l.map some) = .ok l := by
  induction l with
  | nil => rfl
  | cons x l ih => simp [freeze, ih]

theorem freeze_eq {d : Buf α} {l : List α} (hlen : d.length = l.length)
    (h : ∀ k, k < l.length → d[k]? = some (l[k]?)) : freeze d = .ok l := by
  have : d = l.map some := by
    apply List.ext_getElem?
    intro k
    by_cases hk : k < l.length
    · rw [h k hk, List.getElem?_map, List.getElem?_eq_getElem hk]; rfl
    · rw [List.getElem?_eq_none (by omega), List.getElem?_eq_none (by simpa using hk)]
  rw [this, freeze_map_some]

/-- The ubiquitous `for i in 0..n { d[i] = g(i) }` on a fresh buffer. -/
theorem fill_ok {n : Nat} {f : Nat → R α} (g : Nat → α) (h : ∀ i, i < n → f i = .ok (g i)) :
    loop 0 n (alloc α n) (fun i d => do wr d i (← f i)) = .ok ((List.range n).map fun i => some (g i)) := by
  have key : Post (loop 0 n (alloc α n) (fun i d => do wr d i (← f i)))
      (fun d => d.length = n ∧ ∀ k, k < n → d[k]? = some (some (g k))) := by
    refine (loop_post (fun i (d : Buf α) => d.length = n ∧ ∀ k, k < i → d[k]? = some (some (g k)))
      (Nat.zero_le n) ⟨by simp, by simp⟩ ?_)
    rintro i d - hi ⟨hl, hd⟩
    rw [h i hi]
    simp only [ok_bind]
    rw [wr_lt (by omega)]
    refine Post.ok ⟨by simpa using hl, ?_⟩
    intro k hk
    by_cases hki : k = i
    · subst hki; simp [hl, hi]
    · rw [List.getElem?_set_ne (Ne.symm hki)]; exact hd k (by omega)
  obtain ⟨d, hd, hl, hk⟩ := key
  rw [hd]
  congr 1
  apply List.ext_getElem?
  intro k
  by_cases h' : k < n
  · rw [hk k h', List.getElem?_map, List.getElem?_range h']; rfl
  · rw [List.getElem?_eq_none (by omega), List.getElem?_eq_none (by simpa using h')]

/-- `for i in 0..n { v[i] = g(i, v[i]) }` in place. -/
theorem inplace_ok {v : List α} {f : Nat → α → R α} (g : Nat → α → α)
    (h : ∀ i x, v[i]? = some x → f i x = .ok (g i x)) :
    loop 0 v.length v (fun i d => do setIdx d i (← f i (← idx d i))) = .ok (v.mapIdx g) := by
  have key : Post (loop 0 v.length v (fun i d => do setIdx d i (← f i (← idx d i))))
      (fun d => d.length = v.length ∧ (∀ k, k < v.length → d[k]? = (v[k]?).map (g k)) ∧
        ∀ k, v.length ≤ k → d[k]? = v[k]?) := by
    refine (loop_post (fun i (d : List α) => d.length = v.length ∧
      (∀ k, k < i → d[k]? = (v[k]?).map (g k)) ∧ ∀ k, i ≤ k → d[k]? = v[k]?)
      (Nat.zero_le _) ⟨rfl, by simp, by simp⟩ ?_)
    rintro i d - hi ⟨hl, hd1, hd2⟩
    have hvi : v[i]? = some v[i] := List.getElem?_eq_getElem hi
    rw [idx_eq ((hd2 i le_rfl).trans hvi), ok_bind, h i _ hvi, ok_bind, setIdx_lt (by omega)]
    refine Post.ok ⟨by simpa using hl, ?_, ?_⟩
    · intro k hk
      by_cases hki : k = i
      · subst hki; simp [hl, hi]
      · rw [List.getElem?_set_ne (Ne.symm hki)]; exact hd1 k (by omega)
    · intro k hk
      rw [List.getElem?_set_ne (by omega)]; exact hd2 k (by omega)
  obtain ⟨d, hd, hl, hk, -⟩ := key
  rw [hd]
  congr 1
  apply List.ext_getElem?
  intro k
  by_cases h' : k < v.length
  · rw [hk k h', List.getElem?_mapIdx]
  · rw [List.getElem?_eq_none (by omega), List.getElem?_eq_none (by simpa using h')]

/-! ## Row-major indexing -/

theorem rm_lt {m n i j : Nat} (hi : i < m) (hj : j < n) : i * n + j < m * n :=
  calc i * n + j < i * n + n := by omega
    _ = (i + 1) * n := by ring
    _ ≤ m * n := Nat.mul_le_mul_right n hi

theorem rm_div {n i j : Nat} (hj : j < n) : (i * n + j) / n = i := by
  rw [Nat.add_comm, Nat.add_mul_div_right _ _ (by omega), Nat.div_eq_of_lt hj, Nat.zero_add]

theorem rm_mod {n i j : Nat} (hj : j < n) : (i * n + j) % n = j := by
  rw [Nat.add_comm, Nat.add_mul_mod_self_right, Nat.mod_eq_of_lt hj]

theorem rm_inj {n i j i' j' : Nat} (hj : j < n) (hj' : j' < n) (h : i * n + j = i' * n + j') :
    i = i' ∧ j = j' := by
  constructor
  · rw [← rm_div hj (i := i), h, rm_div hj']
  · rw [← rm_mod hj (i := i), h, rm_mod hj']

theorem rm_ne {n i j i' j' : Nat} (hj : j < n) (hj' : j' < n) (h : ¬(i = i' ∧ j = j')) :
    i * n + j ≠ i' * n + j' := fun e => h (rm_inj hj hj' e)

theorem rm_surj {m n k : Nat} (hk : k < m * n) : ∃ i j, i < m ∧ j < n ∧ k = i * n + j := by
  have hn : 0 < n := by
    rcases Nat.eq_zero_or_pos n with h | h
    · subst h; simp at hk
    · exact h
  refine ⟨k / n, k % n, ?_, Nat.mod_lt _ hn, ?_⟩
  · exact Nat.div_lt_of_lt_mul (by rwa [Nat.mul_comm] at hk)
  · rw [Nat.mul_comm, Nat.div_add_mod]

section ofM
variable {m n : Nat} (A : Matrix (Fin m) (Fin n) α)

@[simp] theorem ofM_rows : (ofM A).rows = m := rfl

@[simp] theorem ofM_length : (ofM A).data.length = m * n := by
  simp [ofM, List.length_flatten, Function.comp_def]

theorem flatten_getElem? {l : List (List α)} {n i j : Nat} (hl : ∀ x ∈ l, x.length = n) (hj : j < n) :
    l.flatten[i * n + j]? = (l[i]?).bind (fun r => r[j]?) := by
  induction l generalizing i with
  | nil => simp
  | cons x l ih =>
    have hx : x.length = n := hl x (by simp)
    rw [List.flatten_cons]
    cases i with
    | zero => rw [List.getElem?_append_left (by omega)]; simp
    | succ i =>
      rw [List.getElem?_append_right (by rw [hx]; nlinarith)]
      rw [hx, show (i + 1) * n + j - n = i * n + j by rw [Nat.add_mul]; omega]
      rw [ih fun y hy => hl y (by simp [hy])]
      simp

theorem ofM_getElem? (i : Fin m) (j : Fin n) : (ofM A).data[(i : Nat) * n + j]? = some (A i j) := by
  rw [ofM, flatten_getElem? (n := n) (by simp [List.mem_ofFn]) j.2]
  simp

theorem ofM_getElem?' {i j : Nat} (hi : i < m) (hj : j < n) :
    (ofM A).data[i * n + j]? = some (A ⟨i, hi⟩ ⟨j, hj⟩) := ofM_getElem? A ⟨i, hi⟩ ⟨j, hj⟩

theorem ofM_data_eq {l : List α} (hlen : l.length = m * n)
    (h : ∀ (i : Fin m) (j : Fin n), l[(i : Nat) * n + j]? = some (A i j)) : l = (ofM A).data := by
  apply List.ext_getElem?
  intro k
  by_cases hk : k < m * n
  · obtain ⟨i, j, hi, hj, rfl⟩ := rm_surj hk
    rw [h ⟨i, hi⟩ ⟨j, hj⟩, ofM_getElem?' A hi hj]
  · rw [List.getElem?_eq_none (by omega), List.getElem?_eq_none (by simpa using hk)]

theorem freeze_ofM {d : Buf α} (hlen : d.length = m * n)
    (h : ∀ (i : Fin m) (j : Fin n), d[(i : Nat) * n + j]? = some (some (A i j))) :
    freeze d = .ok (ofM A).data := by
  refine freeze_eq (by simpa using hlen) ?_
  intro k hk
  rw [ofM_length] at hk
  obtain ⟨i, j, hi, hj, rfl⟩ := rm_surj hk
  rw [h ⟨i, hi⟩ ⟨j, hj⟩, ofM_getElem?' A hi hj]

theorem mk_eq_ofM {l : List α} (hlen : l.length = m * n)
    (h : ∀ (i : Fin m) (j : Fin n), l[(i : Nat) * n + j]? = some (A i j)) : (⟨m, l⟩ : Mat α) = ofM A := by
  rw [ofM_data_eq A hlen h]; rfl

theorem mk_ofM : (⟨m, (ofM A).data⟩ : Mat α) = ofM A := rfl

@[simp] theorem ofM_cols (hm : 0 < m) : (ofM A).cols = .ok n := by
  unfold Mat.cols
  rw [ofM_length, ofM_rows, udiv_ok (by omega), Nat.mul_div_cancel_left _ hm]

theorem idx_ofM {i j : Nat} (hi : i < m) (hj : j < n) :
    idx (ofM A).data (i * n + j) = .ok (A ⟨i, hi⟩ ⟨j, hj⟩) := idx_eq (ofM_getElem?' A hi hj)

theorem ofM_get {i j : Nat} (hi : i < m) (hj : j < n) : (ofM A).get i j = .ok (A ⟨i, hi⟩ ⟨j, hj⟩) := by
  simp [Mat.get, hi, hj, ofM_cols A (by omega : 0 < m), idx_ofM A hi hj]

theorem ofM_getRef {i j : Nat} (hi : i < m) (hj : j < n) : (ofM A).getRef i j = .ok (A ⟨i, hi⟩ ⟨j, hj⟩) :=
  ofM_get A hi hj

end ofM

theorem ofM_inj {m n : Nat} {A B : Matrix (Fin m) (Fin n) α} (h : ofM A = ofM B) : A = B := by
  funext i j
  have h1 := ofM_getElem? A i j
  rw [h, ofM_getElem? B i j] at h1
  exact (Option.some.inj h1).symm

/-- Every well-formed matrix is the storage of a mathematical one. -/
theorem WF.exists_ofM {a : Mat α} (h : WF a) :
    ∃ (n : Nat) (_ : 0 < n) (A : Matrix (Fin a.rows) (Fin n) α), a = ofM A := by
  obtain ⟨hr, c, hc, hlen⟩ := h
  refine ⟨c, hc, fun i j => a.data[(i : Nat) * c + j]'(by rw [hlen]; exact rm_lt i.2 j.2), ?_⟩
  cases a with
  | mk r d =>
    simp only [ofM, Mat.mk.injEq, true_and]
    exact ofM_data_eq _ hlen fun i j => List.getElem?_eq_getElem _

theorem WF.exists_ofM' {a : Mat α} (h : WF a) :
    ∃ (m n : Nat) (_ : 0 < m) (_ : 0 < n) (A : Matrix (Fin m) (Fin n) α), a = ofM A := by
  obtain ⟨n, hn, A, hA⟩ := h.exists_ofM
  exact ⟨a.rows, n, h.1, hn, A, hA⟩

theorem ofM_WF {m n : Nat} (hm : 0 < m) (hn : 0 < n) (A : Matrix (Fin m) (Fin n) α) : WF (ofM A) :=
  ⟨hm, n, hn, by simp⟩

end LA
