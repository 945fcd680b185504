import Verif.Proofs.FuScale
import Verif.Proofs.Grid

/-! # Two runs of the same program: both fail in the same way, or both succeed with related results -/

namespace LA

def Sim2 {σ τ : Type} (x : R σ) (y : R τ) (P : σ → τ → Prop) : Prop :=
  (∃ e, x = .error e ∧ y = .error e) ∨ ∃ a b, x = .ok a ∧ y = .ok b ∧ P a b

namespace Sim2
variable {σ τ σ' τ' ρ ρ' : Type}

theorem ok {a : σ} {b : τ} {P : σ → τ → Prop} (h : P a b) : Sim2 (.ok a) (.ok b) P := Or.inr ⟨a, b, rfl, rfl, h⟩

theorem err {P : σ → τ → Prop} (e : Err) : Sim2 (.error e) (.error e) P := Or.inl ⟨e, rfl, rfl⟩

theorem mono {x : R σ} {y : R τ} {P Q : σ → τ → Prop} (h : Sim2 x y P) (h' : ∀ a b, P a b → Q a b) : Sim2 x y Q := by
  rcases h with h | ⟨a, b, h1, h2, h3⟩
  · exact Or.inl h
  · exact Or.inr ⟨a, b, h1, h2, h' a b h3⟩

theorem bind {x : R σ} {y : R τ} {f : σ → R σ'} {g : τ → R τ'} {P : σ → τ → Prop} {Q : σ' → τ' → Prop} (h : Sim2 x y P)
    (h' : ∀ a b, P a b → Sim2 (f a) (g b) Q) : Sim2 (x >>= f) (y >>= g) Q := by
  rcases h with ⟨e, rfl, rfl⟩ | ⟨a, b, rfl, rfl, h3⟩
  · exact err e
  · exact h' a b h3

theorem same {x : R σ} : Sim2 x x (· = ·) := by
  cases x with
  | error e => exact err e
  | ok a => exact ok rfl

theorem loopN {k lo hi : Nat} {s : σ} {t : τ} {f : Nat → σ → R σ} {g : Nat → τ → R τ} (Inv : σ → τ → Prop) (hk : lo + k ≤ hi)
    (h0 : Inv s t) (hstep : ∀ i s t, lo ≤ i → i < hi → Inv s t → Sim2 (f i s) (g i t) Inv) :
    Sim2 (LA.loopN k lo s f) (LA.loopN k lo t g) Inv := by
  induction k generalizing lo s t with
  | zero => exact ok h0
  | succ k ih =>
    refine bind (hstep lo s t le_rfl (by omega) h0) fun a b hab => ?_
    exact ih (lo := lo + 1) (by omega) hab fun i s t h1 h2 => hstep i s t (by omega) h2

theorem loop {lo hi : Nat} {s : σ} {t : τ} {f : Nat → σ → R σ} {g : Nat → τ → R τ} (Inv : σ → τ → Prop)
    (h0 : Inv s t) (hstep : ∀ i s t, lo ≤ i → i < hi → Inv s t → Sim2 (f i s) (g i t) Inv) :
    Sim2 (LA.loop lo hi s f) (LA.loop lo hi t g) Inv := by
  unfold LA.loop
  by_cases h : lo ≤ hi
  · exact loopN (hi := hi) Inv (by omega) h0 hstep
  · rw [Nat.sub_eq_zero_of_le (by omega)]
    exact ok h0

theorem loopRev {lo hi : Nat} {s : σ} {t : τ} {f : Nat → σ → R σ} {g : Nat → τ → R τ} (Inv : σ → τ → Prop)
    (h0 : Inv s t) (hstep : ∀ i s t, lo ≤ i → i < hi → Inv s t → Sim2 (f i s) (g i t) Inv) :
    Sim2 (LA.loopRev lo hi s f) (LA.loopRev lo hi t g) Inv := by
  unfold LA.loopRev
  have : ∀ k, k ≤ hi - lo → ∀ s t, Inv s t → Sim2 (loopRevN k lo s f) (loopRevN k lo t g) Inv := by
    intro k
    induction k with
    | zero => exact fun _ s t h => ok h
    | succ k ih =>
      intro hk s t h
      exact bind (hstep (lo + k) s t (by omega) (by omega) h) fun a b hab => ih (by omega) a b hab
  exact this _ le_rfl s t h0

theorem loop' {lo hi : Nat} {s : σ} {t : τ} {f : Nat → σ → R σ} {g : Nat → τ → R τ} (Inv : Nat → σ → τ → Prop) (hle : lo ≤ hi)
    (h0 : Inv lo s t) (hstep : ∀ i s t, lo ≤ i → i < hi → Inv i s t → Sim2 (f i s) (g i t) (Inv (i + 1))) :
    Sim2 (LA.loop lo hi s f) (LA.loop lo hi t g) (Inv hi) := by
  induction hi, hle using Nat.le_induction with
  | base => rw [loop_empty le_rfl, loop_empty le_rfl]; exact ok h0
  | succ k hk ih =>
    rw [loop_succ hk, loop_succ hk]
    exact bind (ih fun i s t h1 h2 h3 => hstep i s t h1 (by omega) h3) fun a b hab => hstep k a b hk (by omega) hab

theorem loopRev' {hi : Nat} {s : σ} {t : τ} {f : Nat → σ → R σ} {g : Nat → τ → R τ} (Inv : Nat → σ → τ → Prop)
    (h0 : Inv hi s t) (hstep : ∀ i s t, i < hi → Inv (i + 1) s t → Sim2 (f i s) (g i t) (Inv i)) :
    Sim2 (LA.loopRev 0 hi s f) (LA.loopRev 0 hi t g) (Inv 0) := by
  unfold LA.loopRev
  have : ∀ k, k ≤ hi → ∀ s t, Inv k s t → Sim2 (loopRevN k 0 s f) (loopRevN k 0 t g) (Inv 0) := by
    intro k
    induction k with
    | zero => exact fun _ s t h => ok h
    | succ k ih =>
      intro hk s t h
      unfold loopRevN
      rw [Nat.zero_add]
      exact bind (hstep k s t (by omega) h) fun a b hab => ih (by omega) a b hab
  exact this _ le_rfl s t h0

/-- Two outcomes of a loop body. -/
def FRel (Inv : σ → τ → Prop) (S : ρ → ρ' → Prop) : Flow σ ρ → Flow τ ρ' → Prop
  | .next a, .next b => Inv a b
  | .ret a, .ret b => S a b
  | _, _ => False

theorem loopF {lo hi : Nat} {s : σ} {t : τ} {f : Nat → σ → R (Flow σ ρ)} {g : Nat → τ → R (Flow τ ρ')} (Inv : σ → τ → Prop)
    (S : ρ → ρ' → Prop) (h0 : Inv s t) (hstep : ∀ i s t, lo ≤ i → i < hi → Inv s t → Sim2 (f i s) (g i t) (FRel Inv S)) :
    Sim2 (LA.loopF lo hi s f) (LA.loopF lo hi t g) (FRel Inv S) := by
  unfold LA.loopF
  have : ∀ k lo, lo + k ≤ hi → (∀ i s t, lo ≤ i → i < hi → Inv s t → Sim2 (f i s) (g i t) (FRel Inv S)) → ∀ s t, Inv s t →
      Sim2 (loopFN k lo s f) (loopFN k lo t g) (FRel Inv S) := by
    intro k
    induction k with
    | zero => exact fun _ _ _ s t h => ok h
    | succ k ih =>
      intro lo hk hs s t h
      refine bind (hs lo s t le_rfl (by omega) h) fun a b hab => ?_
      cases a <;> cases b
      · exact ih (lo + 1) (by omega) (fun i s t h1 h2 => hs i s t (by omega) h2) _ _ hab
      · exact hab.elim
      · exact hab.elim
      · exact ok hab
  by_cases h : lo ≤ hi
  · exact this _ lo (by omega) hstep s t h0
  · rw [Nat.sub_eq_zero_of_le (by omega)]
    exact ok h0

end Sim2

namespace Fu

/-- Two related optional numbers. -/
def ORel (k : ℤ) : Option Fu → Option Fu → Prop
  | none, none => True
  | some x, some y => Sc k x y
  | _, _ => False

/-- Two vectors with entry `p` scaled by `2^(e p)`. -/
def LRel (e : Nat → ℤ) (d d' : List Fu) : Prop := d.length = d'.length ∧ ∀ p, ORel (e p) d[p]? d'[p]?

/-- Two related buffers. -/
def BRel (e : Nat → ℤ) (d d' : Buf Fu) : Prop :=
  d.length = d'.length ∧ ∀ p x x', d[p]? = some x → d'[p]? = some x' → ORel (e p) x x'

theorem LRel.idx {e : Nat → ℤ} {d d' : List Fu} (h : LRel e d d') (p : Nat) {k : ℤ} (hk : e p = k) : Sim2 (LA.idx d p) (LA.idx d' p) (Sc k) := by
  subst hk
  have := h.2 p
  unfold LA.idx
  cases h1 : d[p]? <;> cases h2 : d'[p]? <;> rw [h1, h2] at this
  · exact Sim2.err _
  · exact this.elim
  · exact this.elim
  · exact Sim2.ok this

theorem LRel.setIdx {e : Nat → ℤ} {d d' : List Fu} (h : LRel e d d') (p : Nat) {x x' : Fu} {k : ℤ} (hx : Sc k x x') (hk : e p = k) :
    Sim2 (LA.setIdx d p x) (LA.setIdx d' p x') (LRel e) := by
  subst hk
  unfold LA.setIdx
  rw [← h.1]
  split
  · rename_i hp
    refine Sim2.ok ⟨by simpa using h.1, fun q => ?_⟩
    by_cases hq : p = q
    · subst hq
      rw [List.getElem?_set_self hp, List.getElem?_set_self (by rw [← h.1]; exact hp)]
      exact hx
    · rw [List.getElem?_set_ne hq, List.getElem?_set_ne hq]
      exact h.2 q
  · exact Sim2.err _

theorem LRel.setIdx' {e e' : Nat → ℤ} {d d' : List Fu} (h : LRel e d d') (p : Nat) {x x' : Fu} {k : ℤ} (hx : Sc k x x') (hk : e' p = k)
    (he : ∀ q, q ≠ p → e' q = e q) : Sim2 (LA.setIdx d p x) (LA.setIdx d' p x') (LRel e') := by
  subst hk
  unfold LA.setIdx
  rw [← h.1]
  split
  · rename_i hp
    refine Sim2.ok ⟨by simpa using h.1, fun q => ?_⟩
    by_cases hq : p = q
    · subst hq
      rw [List.getElem?_set_self hp, List.getElem?_set_self (by rw [← h.1]; exact hp)]
      exact hx
    · rw [List.getElem?_set_ne hq, List.getElem?_set_ne hq, he q (Ne.symm hq)]
      exact h.2 q
  · exact Sim2.err _

theorem LRel.congr {e e' : Nat → ℤ} {d d' : List Fu} (h : LRel e d d') (he : ∀ p, p < d.length → e' p = e p) : LRel e' d d' := by
  refine ⟨h.1, fun p => ?_⟩
  by_cases hp : p < d.length
  · rw [he p hp]; exact h.2 p
  · rw [List.getElem?_eq_none_iff.2 (by omega), List.getElem?_eq_none_iff.2 (by have := h.1; omega)]
    trivial

theorem BRel.alloc (e : Nat → ℤ) (n : Nat) : BRel e (LA.alloc Fu n) (LA.alloc Fu n) := by
  refine ⟨rfl, fun p x x' h1 h2 => ?_⟩
  rw [h1] at h2
  cases h2
  unfold LA.alloc at h1
  rw [List.getElem?_replicate] at h1
  split at h1
  · cases h1; trivial
  · cases h1

theorem BRel.rd {e : Nat → ℤ} {d d' : Buf Fu} (h : BRel e d d') (p : Nat) {k : ℤ} (hk : e p = k) : Sim2 (LA.rd d p) (LA.rd d' p) (Sc k) := by
  subst hk
  unfold LA.rd
  cases h1 : d[p]? <;> cases h2 : d'[p]?
  · exact Sim2.err _
  · rw [List.getElem?_eq_none_iff] at h1
    rw [List.getElem?_eq_some_iff] at h2
    obtain ⟨h2, -⟩ := h2
    have := h.1
    omega
  · rw [List.getElem?_eq_none_iff] at h2
    rw [List.getElem?_eq_some_iff] at h1
    obtain ⟨h1, -⟩ := h1
    have := h.1
    omega
  · rename_i a b
    have := h.2 p a b h1 h2
    cases a <;> cases b
    · exact Sim2.err _
    · exact this.elim
    · exact this.elim
    · exact Sim2.ok this

theorem BRel.wr {e : Nat → ℤ} {d d' : Buf Fu} (h : BRel e d d') (p : Nat) {x x' : Fu} {k : ℤ} (hx : Sc k x x') (hk : e p = k) :
    Sim2 (LA.wr d p x) (LA.wr d' p x') (BRel e) := by
  subst hk
  unfold LA.wr
  rw [← h.1]
  split
  · rename_i hp
    refine Sim2.ok ⟨by simpa using h.1, fun q a b => ?_⟩
    by_cases hq : p = q
    · subst hq
      rw [List.getElem?_set_self hp, List.getElem?_set_self (by rw [← h.1]; exact hp)]
      intro h1 h2
      cases h1; cases h2
      exact hx
    · rw [List.getElem?_set_ne hq, List.getElem?_set_ne hq]
      exact h.2 q a b
  · exact Sim2.err _

theorem BRel.freeze {e : Nat → ℤ} {d d' : Buf Fu} (h : BRel e d d') : Sim2 (LA.freeze d) (LA.freeze d') (LRel e) := by
  induction d generalizing e d' with
  | nil =>
    obtain rfl : d' = [] := List.length_eq_zero_iff.1 h.1.symm
    exact Sim2.ok ⟨rfl, fun p => by simp [ORel]⟩
  | cons a d ih =>
    cases d' with
    | nil => exact absurd h.1 (by simp)
    | cons b d' =>
      have h0 := h.2 0 a b rfl rfl
      have ht : BRel (fun p => e (p + 1)) d d' := ⟨by simpa using h.1, fun p x x' h1 h2 => h.2 (p + 1) x x' (by simpa using h1) (by simpa using h2)⟩
      cases a <;> cases b
      · exact Sim2.err _
      · exact h0.elim
      · exact h0.elim
      · unfold LA.freeze
        refine (ih ht).bind fun l l' hl => Sim2.ok ⟨by simpa using hl.1, fun p => ?_⟩
        cases p with
        | zero => exact h0
        | succ p => simpa using hl.2 p

theorem Sc.rdiv {k l : ℤ} {x x' y y' : Fu} (h : Sc k x x') (g : Sc l y y') : Sim2 (RDiv.rdiv x y) (RDiv.rdiv x' y') (Sc (k - l)) := by
  rcases h.div g with ⟨a, b⟩ | ⟨z, z', a, b, c⟩
  · exact Or.inl ⟨_, a, b⟩
  · exact Or.inr ⟨_, _, a, b, c⟩

theorem Sc.rsqrt {k : ℤ} {x x' : Fu} (h : Sc (2 * k) x x') : Sim2 (FloatOps.sqrt x) (FloatOps.sqrt x') (Sc k) := by
  rcases h.sqrt with ⟨a, b⟩ | ⟨z, z', a, b, c⟩
  · exact Or.inl ⟨_, a, b⟩
  · exact Or.inr ⟨_, _, a, b, c⟩

/-- Matrices with related entries have related buffers. -/
theorem lrel_ofM {m n : Nat} {A A' : Matrix (Fin m) (Fin n) Fu} {e : Nat → ℤ} (h : ∀ i j, Sc (e (i.1 * n + j.1)) (A i j) (A' i j)) :
    LRel e (ofM A).data (ofM A').data := by
  refine ⟨by simp, fun p => ?_⟩
  by_cases hp : p < m * n
  · have hn : 0 < n := Nat.pos_of_mul_pos_left (by omega : 0 < m * n)
    have hpi : p / n < m := Nat.div_lt_of_lt_mul (by rwa [Nat.mul_comm] at hp)
    have hpj : p % n < n := Nat.mod_lt _ hn
    have e1 : p = p / n * n + p % n := (Nat.div_add_mod' p n).symm
    have e2 := ofM_getElem?' A hpi hpj
    have e3 := ofM_getElem?' A' hpi hpj
    rw [← e1] at e2 e3
    rw [e2, e3]
    have := h ⟨p / n, hpi⟩ ⟨p % n, hpj⟩
    dsimp only at this
    rw [← e1] at this
    exact this
  · rw [List.getElem?_eq_none_iff.2 (by simp; omega), List.getElem?_eq_none_iff.2 (by simp; omega)]
    trivial

end Fu
end LA

namespace LA.Fu

/-- Two related matrices. -/
def MRel (m n : Nat) (e : Nat → Nat → ℤ) (a a' : Mat Fu) : Prop :=
  ∃ X X' : Matrix (Fin m) (Fin n) Fu, a = ofM X ∧ a' = ofM X' ∧ ∀ (i : Fin m) (j : Fin n), Sc (e i j) (X i j) (X' i j)

theorem exists_ofM_len {m n : Nat} (d : List Fu) (h : d.length = m * n) : ∃ X : Matrix (Fin m) (Fin n) Fu, (⟨m, d⟩ : Mat Fu) = ofM X := by
  refine ⟨fun i j => d[(i : Nat) * n + j]'(by rw [h]; exact rm_lt i.2 j.2), ?_⟩
  simp only [ofM, Mat.mk.injEq, true_and]
  refine List.ext_getElem? fun p => ?_
  by_cases hp : p < m * n
  · have hn : 0 < n := Nat.pos_of_mul_pos_left (by omega : 0 < m * n)
    have hpi : p / n < m := Nat.div_lt_of_lt_mul (by rwa [Nat.mul_comm] at hp)
    have hpj : p % n < n := Nat.mod_lt _ hn
    have e1 : p = p / n * n + p % n := (Nat.div_add_mod' p n).symm
    have e2 := ofM_getElem?' (Matrix.of fun (i : Fin m) (j : Fin n) => d[(i : Nat) * n + j]'(by rw [h]; exact rm_lt i.2 j.2)) hpi hpj
    rw [← e1] at e2
    refine Eq.trans ?_ e2.symm
    rw [List.getElem?_eq_getElem (by omega)]
    simp [← e1]
  · rw [List.getElem?_eq_none_iff.2 (by omega)]
    symm
    rw [List.getElem?_eq_none_iff]
    have := ofM_length (Matrix.of fun (i : Fin m) (j : Fin n) => d[(i : Nat) * n + j]'(by rw [h]; exact rm_lt i.2 j.2))
    exact this.le.trans (by omega)

theorem mrel_new {m n : Nat} {e : Nat → ℤ} {d d' : List Fu} (h : LRel e d d') :
    Sim2 (Mat.new m n d) (Mat.new m n d') (MRel m n fun i j => e (i * n + j)) := by
  unfold Mat.new
  rw [← h.1]
  cases hc : (m * n == d.length) with
  | false => exact Sim2.err _
  | true =>
    cases hc2 : (decide (m > 0) && decide (n > 0)) with
    | false => exact Sim2.err _
    | true =>
      have h1 : m * n = d.length := by simpa using hc
      obtain ⟨X, hX⟩ := exists_ofM_len d h1.symm
      obtain ⟨X', hX'⟩ := exists_ofM_len d' (h1.trans h.1).symm
      refine Or.inr ⟨⟨m, d⟩, ⟨m, d'⟩, rfl, rfl, X, X', hX, hX', fun i j => ?_⟩
      have := h.2 (i * n + j)
      have e1 : d = (ofM X).data := congrArg Mat.data hX
      have e2 : d' = (ofM X').data := congrArg Mat.data hX'
      rw [e1, e2, ofM_getElem?' X i.2 j.2, ofM_getElem?' X' i.2 j.2] at this
      exact this

theorem MRel.get {m n : Nat} {e : Nat → Nat → ℤ} {A A' : Matrix (Fin m) (Fin n) Fu} (h : ∀ (i : Fin m) (j : Fin n), Sc (e i j) (A i j) (A' i j)) {i j : Nat} (hi : i < m) (hj : j < n)
    {k : ℤ} (hk : e i j = k) : Sim2 ((ofM A).get i j) ((ofM A').get i j) (Sc k) := by
  subst hk
  unfold Mat.get
  rw [ofM_cols A (by omega), ofM_cols A' (by omega)]
  simp only [ofM_rows, hi, hj, decide_true, assert_true, ok_bind]
  rw [idx_ofM A hi hj, idx_ofM A' hi hj]
  exact Sim2.ok (h ⟨i, hi⟩ ⟨j, hj⟩)

theorem row_div {n i j : Nat} (hj : j < n) : (i * n + j) / n = i := by
  rw [Nat.mul_comm, Nat.mul_add_div (by omega), Nat.div_eq_of_lt hj, Nat.add_zero]

theorem col_mod {n i j : Nat} (hj : j < n) : (i * n + j) % n = j := by
  rw [Nat.mul_comm, Nat.mul_add_mod, Nat.mod_eq_of_lt hj]

end LA.Fu
