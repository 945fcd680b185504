import Verif.Proofs.RunsSVD

/-! # Runs on NaN: the main loop of the SVD does not end

`NaNs α`: an arithmetic with NaN values, which every operation propagates and every comparison rejects (IEEE 754).  `Runs Any x P`:
if the run `x` returns a value, it satisfies `P`. -/

namespace LA
set_option linter.unusedSectionVars false

/-- Arithmetic with NaN: operations on NaN give NaN, comparisons with NaN are false. -/
class NaNs (α : Type) [Add α] [Sub α] [Neg α] [Mul α] [FloatOps α] where
  /-- not a number -/
  nan : α → Prop
  add_l : ∀ x y, nan x → nan (x + y)
  add_r : ∀ x y, nan y → nan (x + y)
  sub_l : ∀ x y, nan x → nan (x - y)
  sub_r : ∀ x y, nan y → nan (x - y)
  mul_l : ∀ x y, nan x → nan (x * y)
  mul_r : ∀ x y, nan y → nan (x * y)
  neg : ∀ x, nan x → nan (-x)
  abs : ∀ x, nan x → nan (FloatOps.abs x)
  div_l : ∀ x y z : α, nan x → RDiv.rdiv x y = .ok z → nan z
  div_r : ∀ x y z : α, nan y → RDiv.rdiv x y = .ok z → nan z
  sqrt : ∀ x z : α, nan x → FloatOps.sqrt x = .ok z → nan z
  max : ∀ x y, nan x → nan y → nan (FloatOps.max x y)
  lt_l : ∀ x y : α, nan x → FloatOps.lt x y = false
  lt_r : ∀ x y : α, nan y → FloatOps.lt x y = false
  le_l : ∀ x y : α, nan x → FloatOps.le x y = false
  le_r : ∀ x y : α, nan y → FloatOps.le x y = false
  eq_l : ∀ x y : α, nan x → FloatOps.eq x y = false
  eq_r : ∀ x y : α, nan y → FloatOps.eq x y = false

/-- Any error. -/
abbrev Any : Err → Prop := fun _ => True

theorem Runs.any {α : Type} {x : R α} : Runs Any x fun _ => True := by cases x <;> trivial

theorem Runs.and {α : Type} {E : Err → Prop} {x : R α} {P Q : α → Prop} (h1 : Runs E x P) (h2 : Runs Any x Q) :
    Runs E x fun a => P a ∧ Q a := by
  cases x with
  | ok a => exact ⟨h1, h2⟩
  | error e => exact h1

theorem Runs.never {α : Type} {x : R α} {P : α → Prop} (h1 : Runs (· = Err.fuel) x P) (h2 : Runs Any x fun _ => False) :
    x = .error .fuel := by
  cases x with
  | ok a => exact h2.elim
  | error e => exact congrArg _ h1

section
variable {α : Type}

/-- Every written cell satisfies `P`. -/
def Wd (P : Nat → α → Prop) (d : Buf α) : Prop := ∀ i x, d[i]? = some (some x) → P i x

/-- Every cell satisfies `P`. -/
def Ld (P : Nat → α → Prop) (d : List α) : Prop := ∀ i x, d[i]? = some x → P i x

variable {P Q : Nat → α → Prop} {d : Buf α} {l : List α}

theorem Wd.mono (h : Wd P d) (hq : ∀ i x, P i x → Q i x) : Wd Q d := fun i x hx => hq i x (h i x hx)

theorem Wd.alloc (n : Nat) : Wd P (alloc α n) := by
  intro i x h
  unfold LA.alloc at h
  rw [List.getElem?_replicate] at h
  split at h <;> simp at h

theorem Wd.rd (h : Wd P d) (i : Nat) : Runs Any (rd d i) (P i) := by
  unfold LA.rd
  split
  · next x hx => exact h i x hx
  · trivial
  · trivial

theorem Wd.wr' (h : Wd P d) (i : Nat) {x : α} (hx : Q i x) (hq : ∀ j y, j ≠ i → P j y → Q j y) : Runs Any (wr d i x) (Wd Q) := by
  unfold LA.wr
  split
  · next hl =>
    intro j y hy
    by_cases e : i = j
    · subst e
      rw [List.getElem?_set_self hl] at hy
      have : x = y := by simpa using hy
      exact this ▸ hx
    · rw [List.getElem?_set_ne e] at hy
      exact hq j y (fun h => e h.symm) (h j y hy)
  · trivial

theorem Wd.wr (h : Wd P d) (i : Nat) {x : α} (hx : P i x) : Runs Any (wr d i x) (Wd P) := h.wr' i hx fun _ _ _ h => h

theorem Ld.idx (h : Ld P l) (i : Nat) : Runs Any (idx l i) (P i) := by
  unfold LA.idx
  split
  · next x hx => exact h i x hx
  · trivial

theorem Ld.set (h : Ld P l) (i : Nat) {x : α} (hx : P i x) : Runs Any (setIdx l i x) (Ld P) := by
  unfold LA.setIdx
  split
  · next hl =>
    intro j y hy
    by_cases e : i = j
    · subst e
      rw [List.getElem?_set_self hl] at hy
      have : x = y := by simpa using hy
      exact this ▸ hx
    · rw [List.getElem?_set_ne e] at hy
      exact h j y hy
  · trivial

end

variable {α : Type} [Zero α] [One α] [Add α] [Sub α] [Neg α] [Mul α] [FloatOps α] [NaNs α]
open NaNs

/-- NaN by propagation. -/
macro "nn" : tactic => `(tactic| (
  solve_by_elim (maxDepth := 40) [NaNs.add_l, NaNs.add_r, NaNs.sub_l, NaNs.sub_r, NaNs.mul_l, NaNs.mul_r, NaNs.neg, NaNs.abs, NaNs.max]))

theorem rdivN_l {x y : α} (h : nan x) : Runs Any (RDiv.rdiv x y) nan := by
  cases e : (RDiv.rdiv x y : R α) with
  | ok z => exact div_l x y z h e
  | error e => trivial

theorem rdivN_r {x y : α} (h : nan y) : Runs Any (RDiv.rdiv x y) nan := by
  cases e : (RDiv.rdiv x y : R α) with
  | ok z => exact div_r x y z h e
  | error e => trivial

theorem sqrtN {x : α} (h : nan x) : Runs Any (FloatOps.sqrt x) nan := by
  cases e : (FloatOps.sqrt x : R α) with
  | ok z => exact NaNs.sqrt x z h e
  | error e => trivial

/-- `hypot` with a NaN second argument (`hypot(NaN, 0)` is `0`). -/
theorem hypotN_r {x y : α} (h : nan y) : Runs Any (hypot x y) nan := by
  unfold hypot
  rw [lt_l _ _ (NaNs.abs _ h), if_neg (by simp), eq_l _ _ h, if_pos (by simp)]
  refine Runs.bindT Runs.any fun r => Runs.bindT Runs.any fun s => Runs.ok (by nn)

namespace SVD

/-- The state in which the main loop stays: NaN on the active diagonal and superdiagonal. -/
structure MainN (p : Nat) (st : Main α) : Prop where
  s : Wd (fun i x => i < p → nan x) st.s
  e : Wd (fun i x => i + 1 < p → nan x) st.e

theorem findE_nan {p : Nat} {s : Buf α} : ∀ (c : Nat) (e : Buf α), c + 1 ≤ p → Wd (fun i x => i + 1 < p → nan x) e →
    Runs Any (findE s c e) fun x => x.1 = 0 ∧ Wd (fun i x => i + 1 < p → nan x) x.2
  | 0, e, _, h => by rw [findE]; exact ⟨rfl, h⟩
  | c + 1, e, hc, h => by
    rw [findE]
    refine (h.rd c).bind fun x hx => Runs.bindT Runs.any fun _ => Runs.bindT Runs.any fun _ => ?_
    rw [le_l _ _ (NaNs.abs _ (hx (by omega))), if_neg (by simp)]
    exact findE_nan c e (by omega) h

theorem findS_nan {p : Nat} {e : Buf α} : ∀ (c : Nat) (s : Buf α), c ≤ p → Wd (fun i x => i < p → nan x) s →
    Runs Any (findS p 0 e c s) fun x => x.1 = none ∧ Wd (fun i x => i < p → nan x) x.2
  | 0, s, _, h => by rw [findS]; exact ⟨rfl, h⟩
  | c + 1, s, hc, h => by
    rw [findS]
    refine Runs.bindT Runs.any fun _ => Runs.bindT Runs.any fun _ => (h.rd _).bind fun x hx => ?_
    rw [le_l _ _ (NaNs.abs _ (hx (by omega))), if_neg (by simp)]
    exact findS_nan c s (by omega) h

theorem shiftFG_nan {p : Nat} {s e : Buf α} (hp : 2 ≤ p) (hs : Wd (fun i x => i < p → nan x) s)
    (he : Wd (fun i x => i + 1 < p → nan x) e) : Runs Any (shiftFG p 0 s e) fun x => nan x.1 ∧ nan x.2 := by
  unfold shiftFG
  have e1 : usub p 1 = .ok (p - 1) := by unfold usub; rw [if_pos (by omega)]
  have e2 : usub p 2 = .ok (p - 2) := by unfold usub; rw [if_pos (by omega)]
  rw [e1, e2]
  simp only [ok_bind]
  refine (hs.rd _).bind fun a ha => (hs.rd _).bind fun b hb => (he.rd _).bind fun c hc => (hs.rd _).bind fun d hd => (he.rd _).bind fun f hf => ?_
  have ha := ha (by omega)
  have hb := hb (by omega)
  have hc := hc (by omega)
  have hd := hd (by omega)
  have hf := hf (by omega)
  refine (rdivN_l ha).bind fun a ha => (rdivN_l hb).bind fun b hb => (rdivN_l hc).bind fun c hc => (rdivN_l hd).bind fun d hd =>
    (rdivN_l hf).bind fun f hf => Runs.bindT Runs.any fun _ => Runs.bindT Runs.any fun _ => Runs.ok ⟨by nn, by nn⟩

theorem chase_nan {m n p j : Nat} {x : Main α × α × α} (hj : j + 1 < p) (h : MainN p x.1) (hg : nan x.2.2) (hf : nan x.2.1) :
    Runs Any (chase m n 0 j x) fun x => MainN p x.1 ∧ nan x.2.1 ∧ nan x.2.2 := by
  obtain ⟨st, f, g⟩ := x
  obtain ⟨hs, he⟩ := h
  unfold chase
  dsimp only at hs he hg hf ⊢
  refine (hypotN_r hg).bind fun t ht => (rdivN_r ht).bind fun cs hcs => (rdivN_r ht).bind fun sn hsn => ?_
  refine Runs.bind (P := Wd (fun i x => i + 1 < p → nan x)) ?_ fun e he => ?_
  · split
    · exact Runs.bindT Runs.any fun i => he.wr i fun _ => ht
    · exact Runs.ok he
  refine Runs.bindT Runs.any fun a => Runs.bindT Runs.any fun b => Runs.bindT Runs.any fun c => Runs.bindT Runs.any fun d => ?_
  refine (he.wr j fun _ => by nn).bind fun e he => ?_
  refine Runs.bindT Runs.any fun a' => Runs.bindT Runs.any fun b' => ?_
  refine (hs.wr (j + 1) fun _ => by nn).bind fun s hs => Runs.bindT Runs.any fun v => ?_
  refine (hypotN_r (by nn)).bind fun t ht => (rdivN_r ht).bind fun cs hcs => (rdivN_r ht).bind fun sn hsn => ?_
  refine (hs.wr j fun _ => ht).bind fun s hs => ?_
  refine Runs.bindT Runs.any fun a => Runs.bindT Runs.any fun b => Runs.bindT Runs.any fun c => Runs.bindT Runs.any fun d => ?_
  refine (hs.wr (j + 1) fun _ => by nn).bind fun s hs => ?_
  refine Runs.bindT Runs.any fun a' => Runs.bindT Runs.any fun b' => ?_
  refine (he.wr (j + 1) fun _ => by nn).bind fun e he => Runs.bindT Runs.any fun u => Runs.ok ⟨⟨hs, he⟩, by nn, by nn⟩

theorem kase3_nan {m n p : Nat} {st : Main α} (hp : 2 ≤ p) (h : MainN p st) : Runs Any (kase3 m n p 0 st) (MainN p) := by
  unfold kase3
  refine (shiftFG_nan hp h.s h.e).bind ?_
  rintro ⟨f, g⟩ ⟨hf, hg⟩
  dsimp only at hf hg ⊢
  have e1 : usub p 1 = .ok (p - 1) := by unfold usub; rw [if_pos (by omega)]
  rw [e1, ok_bind]
  refine Runs.bind (Runs.loopC (fun x : Main α × α × α => MainN p x.1 ∧ nan x.2.1 ∧ nan x.2.2) ⟨h, hf, hg⟩ fun j x hkj hj hx =>
    chase_nan (by omega) hx.1 hx.2.2 hx.2.1) ?_
  rintro ⟨st, f, g⟩ ⟨h, hf, hg⟩
  dsimp only at hf hg ⊢
  exact Runs.bindT Runs.any fun i => (h.e.wr i fun _ => hf).bind fun e he => Runs.ok ⟨h.s, he⟩

theorem step_nan {m n pp p : Nat} {st : Main α} (hp : 2 ≤ p) (h : MainN p st) :
    Runs Any (step m n pp p st) fun x => x.1 = p ∧ MainN p x.2 := by
  unfold step
  refine (findE_nan (p - 1) st.e (by omega) h.e).bind ?_
  rintro ⟨k1, e⟩ ⟨hk, he⟩
  dsimp only at hk he ⊢
  subst hk
  rw [if_neg (by omega)]
  refine (findS_nan (p - 0) st.s (by omega) h.s).bind ?_
  rintro ⟨o, s⟩ ⟨ho, hs⟩
  dsimp only at ho hs ⊢
  subst ho
  exact (kase3_nan hp ⟨hs, he⟩).bind fun st h => Runs.ok ⟨rfl, h⟩

/-- The main loop does not leave a NaN state. -/
theorem iterate_nan {m n pp p : Nat} (hp : 2 ≤ p) : ∀ (fuel : Nat) (st : Main α), MainN p st →
    Runs Any (iterate m n pp fuel p st) fun _ => False
  | 0, st, _ => by
    obtain ⟨q, rfl⟩ : ∃ q, p = q + 1 := ⟨p - 1, by omega⟩
    rw [iterate]; trivial
  | fuel + 1, st, h => by
    obtain ⟨q, rfl⟩ : ∃ q, p = q + 1 := ⟨p - 1, by omega⟩
    rw [iterate]
    refine (step_nan hp h).bind ?_
    rintro ⟨p', st⟩ ⟨hp', h⟩
    dsimp only at hp' h ⊢
    subst hp'
    exact iterate_nan hp fuel st h

/-! ## The reduction of a NaN matrix to bidiagonal form -/

/-- Every cell is NaN. -/
abbrev LN (l : List α) : Prop := Ld (fun _ => nan) l

/-- Every written cell is NaN. -/
abbrev WN (d : Buf α) : Prop := Wd (fun _ => nan) d

theorem colTransform_nan {m n k : Nat} {a : List α} {s : Buf α} (hk : k < m) (ha : LN a) (hs : WN s) :
    Runs Any (colTransform m n k a s) fun x => LN x.1 ∧ WN x.2 := by
  unfold colTransform
  -- every written cell of `s` except the `k`-th one is NaN
  have h0 : Wd (fun i x => i ≠ k → nan x) s := hs.mono fun i x h _ => h
  refine (h0.wr k fun h => absurd rfl h).bind fun s hs => ?_
  refine Runs.bind (P := WN) ?_ fun s hs => ?_
  · refine (Runs.loop (fun i s => Wd (fun j x => j ≠ k ∨ k < i → nan x) s) hk.le (hs.mono fun i x h c => h (by omega)) ?_).mono ?_
    · intro i s _ _ hs
      refine Runs.bindT Runs.any fun y => (ha.idx _).bind fun z hz => (hypotN_r hz).bind fun t ht => ?_
      exact hs.wr' k (fun _ => ht) fun j y hj h _ => h (Or.inl hj)
    · intro s hs i x hx
      exact hs i x hx (by omega)
  · refine Runs.bind (P := fun x : List α × Buf α => LN x.1 ∧ WN x.2) ?_ ?_
    · refine Runs.bindT Runs.any fun y => ?_
      split
      · refine Runs.bind (P := WN) ?_ fun s hs => ?_
        · refine Runs.bindT Runs.any fun y => ?_
          split
          · exact (hs.rd k).bind fun y hy => hs.wr k (by nn)
          · exact Runs.ok hs
        refine Runs.bind (Runs.loopC LN ha fun i a _ _ ha => ?_) fun a ha => ?_
        · exact (ha.idx _).bind fun y hy => Runs.bindT Runs.any fun z => (rdivN_l hy).bind fun w hw => ha.set _ hw
        · exact (ha.idx _).bind fun y hy => (ha.set _ (by nn)).bind fun a ha => Runs.ok ⟨ha, hs⟩
      · exact Runs.ok ⟨ha, hs⟩
    · rintro ⟨a, s⟩ ⟨ha, hs⟩
      exact (hs.rd k).bind fun y hy => (hs.wr k (by nn)).bind fun s hs => Runs.ok ⟨ha, hs⟩

theorem applyCols_nan {m n nct k : Nat} {a : List α} {s e : Buf α} (ha : LN a) (he : WN e) :
    Runs Any (applyCols m n nct k a s e) fun x => LN x.1 ∧ WN x.2 := by
  unfold applyCols
  refine Runs.loopC (fun x : List α × Buf α => LN x.1 ∧ WN x.2) ⟨ha, he⟩ ?_
  rintro j ⟨a, e⟩ _ _ ⟨ha, he⟩
  dsimp only at ha he ⊢
  refine Runs.bind (P := LN) ?_ fun a ha => (ha.idx _).bind fun y hy => (he.wr j hy).bind fun e he => Runs.ok ⟨ha, he⟩
  split
  · refine Runs.bindT Runs.any fun y => ?_
    split
    · unfold applyCol
      refine Runs.bindT Runs.any fun t => Runs.bindT Runs.any fun t => Runs.bindT Runs.any fun t => ?_
      refine Runs.loopC LN ha fun i a _ _ ha => ?_
      exact (ha.idx _).bind fun y hy => Runs.bindT Runs.any fun z => ha.set _ (by nn)
    · exact Runs.ok ha
  · exact Runs.ok ha

theorem rowTransform_nan {n k : Nat} {e : Buf α} (hk : k + 1 < n) (he : WN e) : Runs Any (rowTransform n k e) WN := by
  unfold rowTransform
  have h0 : Wd (fun i x => i ≠ k → nan x) e := he.mono fun i x h _ => h
  refine (h0.wr k fun h => absurd rfl h).bind fun e he => ?_
  refine Runs.bind (P := WN) ?_ fun e he => ?_
  · refine (Runs.loop (fun i e => Wd (fun j x => j ≠ k ∨ k + 1 < i → nan x) e) (by omega) (he.mono fun i x h c => h (by omega)) ?_).mono ?_
    · intro i e h1 _ he
      refine Runs.bindT Runs.any fun y => (he.rd i).bind fun z hz => (hypotN_r (hz (Or.inl (by omega)))).bind fun t ht => ?_
      exact he.wr' k (fun _ => ht) fun j y hj h _ => h (Or.inl hj)
    · intro s hs i x hx
      exact hs i x hx (by omega)
  · refine Runs.bind (P := WN) ?_ fun e he => (he.rd k).bind fun y hy => he.wr k (by nn)
    refine Runs.bindT Runs.any fun y => ?_
    split
    · refine Runs.bind (P := WN) ?_ fun e he => ?_
      · refine Runs.bindT Runs.any fun y => ?_
        split
        · exact (he.rd k).bind fun y hy => he.wr k (by nn)
        · exact Runs.ok he
      refine Runs.bind (Runs.loopC WN he fun i e _ _ he => ?_) fun e he => ?_
      · exact (he.rd _).bind fun y hy => Runs.bindT Runs.any fun z => (rdivN_l hy).bind fun w hw => he.wr _ hw
      · exact (he.rd _).bind fun y hy => he.wr _ (by nn)
    · exact Runs.ok he

theorem applyRow_nan {m n k : Nat} {a : List α} {e w : Buf α} (ha : LN a) : Runs Any (applyRow m n k a e w) fun x => LN x.1 := by
  unfold applyRow
  split
  · refine Runs.bindT Runs.any fun y => ?_
    split
    · refine Runs.bindT Runs.any fun w => Runs.bindT Runs.any fun w => ?_
      refine Runs.bind (Runs.loopC LN ha fun j a _ _ ha => ?_) fun a ha => Runs.ok ha
      refine Runs.bindT Runs.any fun y => Runs.bindT Runs.any fun z => Runs.bindT Runs.any fun t => ?_
      refine Runs.loopC LN ha fun i a _ _ ha => ?_
      exact (ha.idx _).bind fun y hy => Runs.bindT Runs.any fun z => ha.set _ (by nn)
    · exact Runs.ok ha
  · exact Runs.ok ha

/-- The first phase keeps the matrix, the diagonal and the superdiagonal NaN. -/
def BidN (b : Bid α) : Prop := LN b.a ∧ WN b.s ∧ WN b.e

theorem bidStep_nan {m n nct nrt k : Nat} {b : Bid α} (h1 : nct ≤ m) (h2 : nrt + 2 ≤ n ∨ nrt = 0) (h : BidN b) :
    Runs Any (bidStep m n nct nrt k b) BidN := by
  obtain ⟨ha, hs, he⟩ := h
  unfold bidStep
  refine Runs.bind (P := fun x : List α × Buf α => LN x.1 ∧ WN x.2) ?_ ?_
  · split
    · exact colTransform_nan (by omega) ha hs
    · exact Runs.ok ⟨ha, hs⟩
  rintro ⟨a, s⟩ ⟨ha, hs⟩
  refine (applyCols_nan ha he).bind ?_
  rintro ⟨a, e⟩ ⟨ha, he⟩
  dsimp only at ha hs he ⊢
  refine Runs.bindT Runs.any fun u => ?_
  split
  · refine (rowTransform_nan (by omega) he).bind fun e he => (applyRow_nan ha).bind ?_
    rintro ⟨a, w⟩ ha
    exact Runs.bindT Runs.any fun v => Runs.ok ⟨ha, hs, he⟩
  · exact Runs.ok ⟨ha, hs, he⟩

theorem finish_nan {m n nct nrt p : Nat} {b : Bid α} (hm : p ≤ m) (h : BidN b) :
    Runs Any (finish m n nct nrt p b) fun b => MainN p (⟨b.s, b.e, b.u, b.v⟩ : Main α) := by
  obtain ⟨ha, hs, he⟩ := h
  unfold finish
  have hmp : ¬ m < p := by omega
  simp only [hmp, if_false]
  refine Runs.bind (P := WN) ?_ fun s hs => Runs.bind (P := WN) (Runs.ok hs) fun s hs => Runs.bind (P := WN) ?_ fun e he => ?_
  · split
    · exact (ha.idx _).bind fun y hy => hs.wr _ hy
    · exact Runs.ok hs
  · split
    · exact Runs.bindT Runs.any fun i => (ha.idx _).bind fun y hy => he.wr _ hy
    · exact Runs.ok he
  · unfold LA.usub
    split
    · rw [ok_bind]
      have he : Wd (fun i x => i + 1 < p → nan x) e := he.mono fun i x h _ => h
      exact (he.wr (p - 1) fun h => absurd h (by omega)).bind fun e he => Runs.ok ⟨hs.mono fun i x h _ => h, he⟩
    · trivial

theorem newTall_nan {a : Mat α} {n : Nat} (fuel : Nat) (hd : a.data.length = a.rows * n) (hn : 2 ≤ n) (hm : n ≤ a.rows)
    (ha : LN a.data) : Runs Any (newTall fuel a) fun _ => False := by
  unfold newTall
  dsimp only
  refine (Mat.cols_runs hd (by omega)).bind fun c hc => ?_
  subst hc
  refine Runs.bindT Runs.any fun _ => ?_
  unfold LA.usub
  rw [if_pos (show 1 ≤ a.rows by omega), ok_bind]
  have e1 : (max 0 (min ((c : Int) - 2) (a.rows : Int))).toNat = c - 2 := by omega
  have e2 : min c (a.rows + 1) = c := by omega
  rw [e1, e2]
  refine Runs.bind (P := fun b : Bid α => MainN c (⟨b.s, b.e, b.u, b.v⟩ : Main α)) ?_ ?_
  · unfold bidiag
    refine Runs.bind (Runs.loopC BidN ⟨ha, Wd.alloc _, Wd.alloc _⟩ fun k b _ _ hb => bidStep_nan (by omega) (by omega) hb) fun b hb =>
      finish_nan (by omega) hb
  · intro b hb
    refine Runs.bindT Runs.any fun u => Runs.bindT Runs.any fun v => ?_
    rw [if_pos (show 1 ≤ c by omega), ok_bind]
    exact (iterate_nan hn fuel ⟨b.s, b.e, u, v⟩ ⟨hb.s, hb.e⟩).bind fun st h => h.elim

end SVD
end LA
