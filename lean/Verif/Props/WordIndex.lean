import Verif.Model.WordIndex
import Verif.Props.Sizes
import Verif.Props.Blocks

/-!
# C80: index arithmetic with machine words

`w` is the number of bits of `usize`, `cap` the number of elements that can be allocated (a `Vec` is at most `isize::MAX` bytes, so
`2 * cap + 2 ≤ 2 ^ w`).  The functions with suffix `W` compute with machine words (`Verif/Model/WordIndex.lean`), the others with
unbounded numbers.
-/

namespace LA.Props
open LA
set_option linter.unusedSectionVars false
variable {α : Type}

/-- The machine computation returns what the unbounded one returns, and panics if that panics. -/
def SameOrPanics {β : Type} (machine exact : R β) : Prop :=
  (∀ x, exact = .ok x → machine = .ok x) ∧ ((∃ e, exact = .error e) → Panics machine)

/-- Two loops with the same steps in the states that are reached. -/
theorem loop_congr_inv {σ : Type} {lo hi : Nat} {s : σ} {f g : Nat → σ → R σ} (Inv : Nat → σ → Prop) (h0 : Inv lo s)
    (heq : ∀ i s, lo ≤ i → i < hi → Inv i s → f i s = g i s)
    (hstep : ∀ i s s', lo ≤ i → i < hi → Inv i s → g i s = .ok s' → Inv (i + 1) s') : loop lo hi s f = loop lo hi s g := by
  by_cases hle : lo ≤ hi
  · induction hi, hle using Nat.le_induction with
    | base => simp
    | succ k hk ih =>
      rw [loop_succ hk, loop_succ hk, ih (fun i s h1 h2 => heq i s h1 (by omega)) (fun i s s' h1 h2 => hstep i s s' h1 (by omega))]
      cases e : loop lo k s g with
      | error e => rfl
      | ok s' => exact heq k s' hk (by omega) (loop_inv_ok Inv hk e h0 fun i s s' h1 h2 => hstep i s s' h1 (by omega))
  · rw [loop_empty (by omega), loop_empty (by omega)]

theorem cols_inv {a : Mat α} {c : Nat} (h : a.cols = .ok c) : 0 < a.rows ∧ a.rows * c ≤ a.data.length ∧ c ≤ a.data.length := by
  unfold Mat.cols udiv at h
  split at h
  · cases h
  · next h0 =>
    cases h
    exact ⟨by omega, Nat.mul_div_le _ _, Nat.div_le_self _ _⟩

theorem assert_inv {c : Bool} {x : Unit} (h : assert c = .ok x) : c = true := by
  unfold assert at h; split at h
  · assumption
  · cases h

theorem idx_inv {l : List α} {i : Nat} {x : α} (h : idx l i = .ok x) : i < l.length := by
  unfold idx at h
  split at h
  · next hx => exact (List.getElem?_eq_some_iff.1 hx).1
  · cases h

/-- A run that passes a first step. -/
theorem bind_congr' {β γ : Type} {x : R β} {f g : β → R γ} (h : ∀ b, x = .ok b → f b = g b) : (x >>= f) = (x >>= g) := by
  cases x with
  | ok b => exact h b rfl
  | error e => rfl

variable {w cap : Nat} (hcap : 2 * cap + 2 ≤ 2 ^ w) (mode : Mode) (a : Mat α) (ha : a.data.length ≤ cap)
include hcap ha

/-- C80: element access: machine arithmetic does not matter. -/
theorem C80_access (row col : Nat) (x : α) :
    a.getW mode w row col = a.get row col ∧ a.setW mode w row col x = a.set row col x := by
  have key : ∀ c, a.cols = .ok c → row < a.rows → col < c → Mat.indexW mode w row c col = .ok (row * c + col) := by
    intro c hc h1 h2
    obtain ⟨-, h3, -⟩ := cols_inv hc
    have := rm_lt h1 h2
    exact indexW_fits mode (by omega)
  constructor
  · unfold Mat.getW Mat.get
    refine bind_congr' fun _ h1 => bind_congr' fun c h2 => bind_congr' fun _ h3 => ?_
    rw [key c h2 (by simpa using assert_inv h1) (by simpa using assert_inv h3), ok_bind]
  · unfold Mat.setW Mat.set
    refine bind_congr' fun _ h1 => bind_congr' fun c h2 => bind_congr' fun _ h3 => ?_
    rw [key c h2 (by simpa using assert_inv h1) (by simpa using assert_inv h3), ok_bind]

/-- C80: `trace`. -/
theorem C80_trace [Zero α] [Add α] : a.traceW mode w = a.trace := by
  unfold Mat.traceW Mat.trace
  refine bind_congr' fun c hc => ?_
  obtain ⟨h1, h2, h3⟩ := cols_inv hc
  congr 1
  refine loop_congr_inv (fun i s => s.2 = i * (c + 1)) (by simp) ?_ ?_
  · rintro i ⟨sum, k⟩ - hi (rfl : k = i * (c + 1))
    refine bind_congr' fun x _ => ?_
    have h4 : (i + 1) * (c + 1) ≤ a.rows * c + c := by
      have e1 : (i + 1) * c ≤ a.rows * c := Nat.mul_le_mul_right c (by omega)
      calc (i + 1) * (c + 1) = (i + 1) * c + (i + 1) := by ring
        _ ≤ _ := by omega
    have h5 : (i + 1) * (c + 1) = i * (c + 1) + (c + 1) := by ring
    rw [hc, ok_bind, ok_bind, addW_fits mode (by omega), ok_bind, addW_fits mode (by omega), ok_bind]
  · rintro i ⟨sum, k⟩ s' - hi (rfl : k = i * (c + 1)) h
    rw [hc] at h
    obtain ⟨x, -, h⟩ := bind_eq_ok.1 h
    rw [ok_bind] at h
    cases h
    show _ = (i + 1) * (c + 1)
    ring

/-- C80: the transpose. -/
theorem C80_t : a.tW mode w cap = a.t := by
  unfold Mat.tW Mat.t
  dsimp only
  rw [allocW_fits ha, ok_bind]
  congr 1
  refine loop_congr_inv (fun _ s => s.2 ≤ a.data.length) (by simp) ?_ ?_
  · rintro i ⟨d, k⟩ - hi (hk : k ≤ a.data.length)
    refine bind_congr' fun x _ => bind_congr' fun d _ => bind_congr' fun c hc => ?_
    obtain ⟨h1, h2, h3⟩ := cols_inv hc
    rw [addW_fits mode (by omega), ok_bind]
    split
    · rw [addW_fits mode (by omega)]; rfl
    · rfl
  · rintro i ⟨d, k⟩ s' - hi (hk : k ≤ a.data.length) h
    obtain ⟨x, hx, h⟩ := bind_eq_ok.1 h
    obtain ⟨d', -, h⟩ := bind_eq_ok.1 h
    obtain ⟨c, hc, h⟩ := bind_eq_ok.1 h
    obtain ⟨h1, h2, h3⟩ := cols_inv hc
    have := idx_inv hx
    cases h
    dsimp only
    split <;> omega

/-- C80: `get_column`. -/
theorem C80_getColumn (col : Nat) : a.getColumnW mode w cap col = a.getColumn col := by
  unfold Mat.getColumnW Mat.getColumn
  refine bind_congr' fun c hc => bind_congr' fun _ h => ?_
  have hcol : col < c := by simpa using assert_inv h
  obtain ⟨h1, h2, h3⟩ := cols_inv hc
  have hr : a.rows ≤ a.rows * c := Nat.le_mul_of_pos_right _ (by omega)
  rw [allocW_fits (by omega), ok_bind]
  congr 1
  refine loop_congr_inv (fun i s => s.2 = i * c + col) (by simp) ?_ ?_
  · rintro i ⟨d, k⟩ - hi (rfl : k = i * c + col)
    refine bind_congr' fun x _ => bind_congr' fun d _ => ?_
    have := Nat.mul_le_mul_right c hi
    rw [Nat.succ_mul] at this
    rw [hc, ok_bind, ok_bind, addW_fits mode (by omega), ok_bind]
  · rintro i ⟨d, k⟩ s' - hi (rfl : k = i * c + col) h
    obtain ⟨x, -, h⟩ := bind_eq_ok.1 h
    obtain ⟨d', -, h⟩ := bind_eq_ok.1 h
    rw [hc, ok_bind] at h
    cases h
    show i * c + col + c = (i + 1) * c + col
    ring

/-- C80: `minor`. -/
theorem C80_minor (row col : Nat) : a.minorW mode w cap row col = a.minor row col := by
  unfold Mat.minorW Mat.minor
  refine bind_congr' fun _ h => bind_congr' fun c hc => bind_congr' fun _ h' => ?_
  obtain ⟨h1, h2, h3⟩ := cols_inv hc
  have he : (c - 1) * (a.rows - 1) ≤ a.rows * c := by
    rw [Nat.mul_comm]; exact Nat.mul_le_mul (by omega) (by omega)
  rw [mulW_fits mode (by omega), ok_bind, allocW_fits (by omega), ok_bind]
  congr 1
  -- the inner loop
  have inner : ∀ i (d : Buf α) di, i < a.rows → di ≤ i * c →
      (loop 0 c (d, di) fun curCol (s : Buf α × Nat) => do
          if curCol ≠ col then
            let d ← wr s.1 s.2 (← idx a.data (← addW mode w (i * c) curCol))
            return (d, ← addW mode w s.2 1)
          else return (s.1, s.2)) =
      loop 0 c (d, di) fun curCol (s : Buf α × Nat) => do
          if curCol ≠ col then
            let d ← wr s.1 s.2 (← idx a.data (i * c + curCol))
            return (d, s.2 + 1)
          else return (s.1, s.2) := by
    intro i d di hi hdi
    have hic := Nat.mul_le_mul_right c hi
    rw [Nat.succ_mul] at hic
    refine loop_congr_inv (fun k s => s.2 ≤ i * c + k) (by simpa using hdi) ?_ ?_
    · rintro k ⟨d, di⟩ - hk (hdi : di ≤ i * c + k)
      split
      · rw [addW_fits mode (by omega), ok_bind]
        refine bind_congr' fun x _ => bind_congr' fun d _ => ?_
        rw [addW_fits mode (by omega), ok_bind]
      · rfl
    · rintro k ⟨d, di⟩ s' - hk (hdi : di ≤ i * c + k) h
      split at h
      · obtain ⟨x, -, h⟩ := bind_eq_ok.1 h
        obtain ⟨d', -, h⟩ := bind_eq_ok.1 h
        cases h
        show di + 1 ≤ _
        omega
      · cases h
        show di ≤ _
        omega
  have innerLe : ∀ i (d : Buf α) di (s' : Buf α × Nat), di ≤ i * c →
      (loop 0 c (d, di) fun curCol (s : Buf α × Nat) => do
          if curCol ≠ col then
            let d ← wr s.1 s.2 (← idx a.data (i * c + curCol))
            return (d, s.2 + 1)
          else return (s.1, s.2)) = .ok s' → s'.2 ≤ (i + 1) * c := by
    intro i d di s' hdi h
    have := loop_inv_ok (fun k s => s.2 ≤ i * c + k) (Nat.zero_le c) h (by simpa using hdi) (by
      rintro k ⟨d, di⟩ s' - hk (hdi : di ≤ i * c + k) h
      split at h
      · obtain ⟨x, -, h⟩ := bind_eq_ok.1 h
        obtain ⟨d', -, h⟩ := bind_eq_ok.1 h
        cases h
        show di + 1 ≤ _
        omega
      · cases h
        show di ≤ _
        omega)
    rw [Nat.add_mul]; omega
  refine loop_congr_inv (fun i s => s.2.1 = i * c ∧ s.2.2 ≤ i * c) (by simp) ?_ ?_
  · rintro i ⟨d, sr, di⟩ - hi ⟨h4, h5⟩
    dsimp only at h4 h5
    subst h4
    have hic := Nat.mul_le_mul_right c hi
    rw [Nat.succ_mul] at hic
    dsimp only
    split
    · have e := inner i d di hi h5
      refine Eq.trans ?_ (bind_congr' (f := fun (x : Buf α × Nat) => do return (x.1, ← addW mode w (i * c) c, x.2)) fun b _ => ?_)
      · rw [← e]
      · rw [addW_fits mode (by omega), ok_bind]
    · rw [addW_fits mode (by omega)]; rfl
  · rintro i ⟨d, sr, di⟩ s' - hi ⟨h4, h5⟩ h
    dsimp only at h4 h5
    subst h4
    dsimp only at h
    split at h
    · obtain ⟨b, hb, h⟩ := bind_eq_ok.1 h
      cases h
      exact ⟨by show i * c + c = (i + 1) * c; ring, innerLe i d di b h5 hb⟩
    · cases h
      refine ⟨by show i * c + c = (i + 1) * c; ring, ?_⟩
      show di ≤ (i + 1) * c
      rw [Nat.add_mul]; omega

omit hcap ha

theorem wr_inv {d d' : Buf α} {i : Nat} {x : α} (h : wr d i x = .ok d') : i < d.length ∧ d'.length = d.length := by
  unfold wr at h
  split at h
  · next hi => cases h; exact ⟨hi, by simp⟩
  · cases h

/-- The copying loops of `cr`. -/
theorem copy_congr (l : List α) (c E : Nat) (hl : l.length < 2 ^ w) (hE : E < 2 ^ w) (d : Buf α) (s di : Nat) (hd : d.length = E) :
    (loop 0 c (d, s, di) fun _ (x : Buf α × Nat × Nat) => do
      let d ← wr x.1 x.2.2 (← idx l x.2.1)
      return (d, ← addW mode w x.2.1 1, ← addW mode w x.2.2 1)) =
    (loop 0 c (d, s, di) fun _ (x : Buf α × Nat × Nat) => do
      let d ← wr x.1 x.2.2 (← idx l x.2.1)
      return (d, x.2.1 + 1, x.2.2 + 1)) := by
  refine loop_congr_inv (fun _ s => s.1.length = E) hd ?_ ?_
  · rintro k ⟨d, s1, di⟩ - - (hd : d.length = E)
    refine bind_congr' fun x hx => bind_congr' fun d' hd' => ?_
    have h1 := idx_inv hx
    have h2 := (wr_inv hd').1
    dsimp only at h1 h2 ⊢
    rw [addW_fits mode (by omega), ok_bind, addW_fits mode (by omega), ok_bind]
  · rintro k ⟨d, s1, di⟩ s' - - (hd : d.length = E) h
    obtain ⟨x, hx, h⟩ := bind_eq_ok.1 h
    obtain ⟨d', hd', h⟩ := bind_eq_ok.1 h
    cases h
    exact (wr_inv hd').2.trans hd

theorem copy_len (l : List α) (c : Nat) (d : Buf α) (s di : Nat) (b : Buf α × Nat × Nat)
    (h : (loop 0 c (d, s, di) fun _ (x : Buf α × Nat × Nat) => do
      let d ← wr x.1 x.2.2 (← idx l x.2.1)
      return (d, x.2.1 + 1, x.2.2 + 1)) = .ok b) : b.1.length = d.length := by
  refine loop_inv_ok (fun _ s => s.1.length = d.length) (Nat.zero_le c) h rfl ?_
  rintro k ⟨d0, s1, di⟩ s' - - (hd : d0.length = d.length) h
  obtain ⟨x, hx, h⟩ := bind_eq_ok.1 h
  obtain ⟨d', hd', h⟩ := bind_eq_ok.1 h
  cases h
  exact (wr_inv hd').2.trans hd

/-- C80: concatenation of two allocated matrices is right, or panics because the result cannot be allocated. -/
theorem C80_concat {m n p q : Nat} (hm : 0 < m) (hp : 0 < p) (hn : 0 < n) (hq : 0 < q) (A : Matrix (Fin m) (Fin n) α) (B : Matrix (Fin p) (Fin q) α)
    (ha : m * n ≤ cap) (hb : p * q ≤ cap) (hcap : 2 * cap + 2 ≤ 2 ^ w) :
    RightOrPanics w cap (m * n + p * q) ((ofM A).crW mode w cap (ofM B)) ((ofM A).cr (ofM B)) ∧
    RightOrPanics w cap (m * n + p * q) ((ofM A).cbW mode w cap (ofM B)) ((ofM A).cb (ofM B)) := by
  have hmn : m ≤ m * n := Nat.le_mul_of_pos_right _ hn
  have hpq : p ≤ p * q := Nat.le_mul_of_pos_right _ hq
  have hsum : addW mode w (ofM A).data.length (ofM B).data.length = .ok (m * n + p * q) := by
    rw [ofM_length, ofM_length]; exact addW_fits mode (by omega)
  have panAssert : ∀ (c : Bool), assert c = .error .assert ∨ assert c = .ok () := by
    intro c; cases c <;> simp [assert]
  refine ⟨⟨fun h => ?_, fun h => ?_⟩, ⟨fun h => ?_, fun h => ?_⟩⟩
  · unfold Mat.crW Mat.cr
    refine bind_congr' fun _ _ => ?_
    dsimp only
    rw [hsum, ok_bind, allocW_fits h.2, ok_bind, ofM_length, ofM_length]
    congr 1
    refine loop_congr_inv (fun _ s => s.1.length = m * n + p * q) (by simp [alloc]) ?_ ?_
    · rintro i ⟨d, s1, s2, di⟩ - hi (hd : d.length = m * n + p * q)
      dsimp only
      refine bind_congr' fun c hc => ?_
      refine (congrArg (· >>= _) (copy_congr mode (ofM A).data c (m * n + p * q) (by rw [ofM_length]; omega) (by omega) d s1 di hd)).trans
        (bind_congr' fun b hb1 => ?_)
      have hb2 := (copy_len _ _ _ _ _ _ hb1).trans hd
      refine bind_congr' fun c' hc' => ?_
      exact congrArg (· >>= _) (copy_congr mode (ofM B).data c' (m * n + p * q) (by rw [ofM_length]; omega) (by omega) b.1 s2 b.2.2 hb2)
    · rintro i ⟨d, s1, s2, di⟩ s' - hi (hd : d.length = m * n + p * q) h
      obtain ⟨c, hc, h⟩ := bind_eq_ok.1 h
      obtain ⟨b, hb1, h⟩ := bind_eq_ok.1 h
      have hb2 := (copy_len _ _ _ _ _ _ hb1).trans hd
      obtain ⟨c', hc', h⟩ := bind_eq_ok.1 h
      obtain ⟨b', hb1', h⟩ := bind_eq_ok.1 h
      have hb2' := (copy_len _ _ _ _ _ _ hb1').trans hb2
      cases h
      exact hb2'
  · unfold Mat.crW
    rcases panAssert ((ofM A).rows == (ofM B).rows) with e | e
    · rw [e]; exact Or.inl rfl
    · rw [e, ok_bind, hsum, ok_bind]
      dsimp only
      rw [allocW, if_neg (by omega)]
      exact Or.inr (Or.inr (Or.inl rfl))
  · unfold Mat.cbW Mat.cb
    refine bind_congr' fun _ _ => bind_congr' fun _ _ => bind_congr' fun _ _ => ?_
    dsimp only
    rw [hsum, ok_bind, allocW_fits h.2, ok_bind, ofM_length, ofM_length, ofM_rows, ofM_rows, addW_fits mode (by omega)]
    refine bind_congr' fun d _ => ?_
    congr 1
    refine loop_congr fun i d _ hi => ?_
    rw [addW_fits mode (by omega), ok_bind]
  · unfold Mat.cbW
    rw [ofM_cols A hm, ofM_cols B hp, ok_bind, ok_bind]
    rcases panAssert (n == q) with e | e
    · rw [e]; exact Or.inl rfl
    · rw [e, ok_bind, hsum, ok_bind]
      dsimp only
      rw [allocW, if_neg (by omega)]
      exact Or.inr (Or.inr (Or.inl rfl))

/-! ### Selections and blocks -/

/-- The machine run is the unbounded run, or both fail. -/
def Rel {β : Type} (x y : R β) : Prop := x = y ∨ (∃ e, y = .error e) ∧ Panics x

theorem Rel.rfl' {β : Type} {x : R β} : Rel x x := Or.inl rfl

theorem panics_bind {β γ : Type} {x : R β} {f : β → R γ} (h : Panics x) : Panics (x >>= f) := by
  rcases h with h | h | h | h <;> rw [h]
  · exact Or.inl rfl
  · exact Or.inr (Or.inl rfl)
  · exact Or.inr (Or.inr (Or.inl rfl))
  · exact Or.inr (Or.inr (Or.inr rfl))

theorem Rel.bind {β γ : Type} {x y : R β} {f g : β → R γ} (h : Rel x y) (hf : ∀ b, y = .ok b → Rel (f b) (g b)) : Rel (x >>= f) (y >>= g) := by
  rcases h with rfl | ⟨⟨e, rfl⟩, h⟩
  · cases x with
    | ok b => exact hf b rfl
    | error e => exact Or.inl rfl
  · exact Or.inr ⟨⟨e, rfl⟩, panics_bind h⟩

theorem loop_rel {σ : Type} {lo hi : Nat} {s : σ} {f g : Nat → σ → R σ} (Inv : Nat → σ → Prop) (h0 : Inv lo s)
    (heq : ∀ i s, lo ≤ i → i < hi → Inv i s → Rel (f i s) (g i s))
    (hstep : ∀ i s s', lo ≤ i → i < hi → Inv i s → g i s = .ok s' → Inv (i + 1) s') : Rel (loop lo hi s f) (loop lo hi s g) := by
  by_cases hle : lo ≤ hi
  · induction hi, hle using Nat.le_induction with
    | base => simp [Rel]
    | succ k hk ih =>
      rw [loop_succ hk, loop_succ hk]
      refine (ih (fun i s h1 h2 => heq i s h1 (by omega)) (fun i s s' h1 h2 => hstep i s s' h1 (by omega))).bind fun s' e => ?_
      exact heq k s' hk (by omega) (loop_inv_ok Inv hk e h0 fun i s s' h1 h2 => hstep i s s' h1 (by omega))
  · rw [loop_empty (by omega), loop_empty (by omega)]; exact Rel.rfl'

theorem Rel.same {β : Type} {x y : R β} (h : Rel x y) (hy : (∃ e, y = .error e) → Panics y) : SameOrPanics x y := by
  rcases h with rfl | ⟨⟨e, rfl⟩, h⟩
  · exact ⟨fun _ h => h, hy⟩
  · exact ⟨fun x hx => (by cases hx), fun _ => h⟩

theorem mulW_panic {a b : Nat} : (∃ x, mulW mode w a b = .ok x) ∨ Panics (mulW mode w a b) := by
  cases mode
  · unfold mulW; dsimp only; split
    · exact Or.inl ⟨_, rfl⟩
    · exact Or.inr (Or.inr (Or.inr (Or.inl rfl)))
  · exact Or.inl ⟨_, rfl⟩

theorem mulW_runs {a b : Nat} : Runs Pan (mulW mode w a b) fun _ => True := by
  unfold mulW
  cases mode
  · dsimp only; split
    · trivial
    · exact Or.inr (Or.inr (Or.inl rfl))
  · trivial

theorem addW_runs {a b : Nat} : Runs Pan (addW mode w a b) fun _ => True := by
  unfold addW
  cases mode
  · dsimp only; split
    · trivial
    · exact Or.inr (Or.inr (Or.inl rfl))
  · trivial

theorem assert_runs (c : Bool) : Runs Pan (assert c) fun _ => True := by
  cases c
  · exact Or.inl rfl
  · trivial

theorem idx_runs (l : List α) (i : Nat) : Runs Pan (idx l i) fun _ => True := by
  unfold idx; split
  · trivial
  · exact Or.inr (Or.inl rfl)

/-- A size that overflows or cannot be allocated: the call panics at once or goes on with a buffer that is too small. -/
theorem alloc_over {β : Type} {k l : Nat} {f : Buf α → R β} (h : ¬ (k * l < 2 ^ w ∧ k * l ≤ cap))
    (hf : ∀ d : Buf α, d.length < k * l → d.length < 2 ^ w → Runs Pan (f d) fun _ => False) :
    Runs Pan (do let e ← mulW mode w k l; let d ← allocW α cap e; f d) fun _ => False := by
  by_cases hw : k * l < 2 ^ w
  · rw [mulW_fits mode hw, ok_bind, allocW, if_neg (by omega)]
    exact Or.inr (Or.inr (Or.inl rfl))
  · refine mulW_over hw fun _ => ?_
    unfold allocW
    split
    · rw [ok_bind]
      have h2 : k * l % 2 ^ w < 2 ^ w := Nat.mod_lt _ (Nat.two_pow_pos w)
      refine hf _ ?_ ?_
      · rw [alloc, List.length_replicate]; omega
      · rw [alloc, List.length_replicate]; exact h2
    · exact Or.inr (Or.inr (Or.inl rfl))

/-- C80: `permute_rows` (hence `filter_rows`, `select_rows`) with any indices: the machine run returns what the unbounded run returns and
panics when it panics; if the result cannot be counted or allocated it panics. -/
theorem C80_permuteRows {m n : Nat} (hm : 0 < m) (A : Matrix (Fin m) (Fin n) α) (ha : m * n ≤ cap) (hcap : 2 * cap + 2 ≤ 2 ^ w) (p : List Nat) :
    (p.length * n < 2 ^ w ∧ p.length * n ≤ cap → SameOrPanics ((ofM A).permuteRowsW mode w cap p) ((ofM A).permuteRows p)) ∧
    (¬ (p.length * n < 2 ^ w ∧ p.length * n ≤ cap) → Panics ((ofM A).permuteRowsW mode w cap p)) := by
  constructor
  · intro h
    refine Rel.same (y := (ofM A).permuteRows p) ?_ ?_
    · unfold Mat.permuteRowsW Mat.permuteRows
      rw [ofM_cols A hm]
      dsimp only [ok_bind]
      rw [mulW_fits mode h.1, ok_bind, allocW_fits h.2, ok_bind]
      refine Rel.bind ?_ fun b _ => Rel.rfl'
      refine loop_rel (fun _ s => s.1.length = p.length * n) (by simp [alloc]) ?_ ?_
      · rintro i ⟨d, di⟩ - hi (hd : d.length = p.length * n)
        dsimp only
        refine Rel.rfl'.bind fun r hr => ?_
        by_cases hrm : r < m
        · have hrn := Nat.mul_le_mul_right n (Nat.succ_le_of_lt hrm)
          rw [Nat.succ_mul] at hrn
          rw [mulW_fits mode (by omega), ok_bind]
          refine Rel.rfl'.bind fun _ _ => Rel.rfl'.bind fun _ _ => Or.inl ?_
          refine loop_congr_inv (fun _ s => s.1.length = p.length * n) hd ?_ ?_
          · rintro k ⟨d, di⟩ - hk (hd : d.length = p.length * n)
            dsimp only
            rw [addW_fits mode (by omega), ok_bind]
            refine bind_congr' fun x _ => bind_congr' fun d' hd' => ?_
            have := (wr_inv hd').1
            rw [addW_fits mode (by omega), ok_bind]
          · rintro k ⟨d, di⟩ s' - hk (hd : d.length = p.length * n) h
            obtain ⟨x, hx, h⟩ := bind_eq_ok.1 h
            obtain ⟨d', hd', h⟩ := bind_eq_ok.1 h
            cases h
            exact (wr_inv hd').2.trans hd
        · refine Or.inr ⟨⟨.assert, ?_⟩, ?_⟩
          · rw [hr, ok_bind, assert, if_neg (by rw [ofM_rows, decide_eq_true_eq]; exact hrm)]; rfl
          · rcases mulW_panic (w := w) mode (a := r) (b := n) with ⟨x, hx⟩ | hx
            · rw [hx, ok_bind, hr, ok_bind, assert, if_neg (by rw [ofM_rows, decide_eq_true_eq]; exact hrm)]; exact Or.inl rfl
            · exact panics_bind hx
      · rintro i ⟨d, di⟩ s' - hi (hd : d.length = p.length * n) h
        obtain ⟨r, hr, h⟩ := bind_eq_ok.1 h
        obtain ⟨r', hr', h⟩ := bind_eq_ok.1 h
        obtain ⟨_, _, h⟩ := bind_eq_ok.1 h
        refine loop_inv_ok (fun _ s => s.1.length = p.length * n) (Nat.zero_le _) h hd ?_
        rintro k ⟨d, di⟩ s' - hk (hd : d.length = p.length * n) h
        obtain ⟨x, hx, h⟩ := bind_eq_ok.1 h
        obtain ⟨d', hd', h⟩ := bind_eq_ok.1 h
        cases h
        exact (wr_inv hd').2.trans hd
    · rintro ⟨e, he⟩
      by_cases hall : ∀ k (hk : k < p.length), p[k] < m
      · rw [C20_permuteRows hm A p hall] at he; cases he
      · push Not at hall
        obtain ⟨k, hk, h2⟩ := hall
        rw [C20_permuteRows_panics hm A p ⟨p[k], List.getElem_mem hk, h2⟩]
        exact Or.inl rfl
  · intro h
    refine panics_of ?_
    unfold Mat.permuteRowsW
    rw [ofM_cols A hm]
    dsimp only [ok_bind]
    refine alloc_over mode h fun d hd hE => ?_
    refine Runs.bind (P := fun s : Buf α × Nat => s.2 = p.length * n ∧ s.2 ≤ d.length) ?_ (fun s hs => absurd hs (by omega))
    refine (Runs.loop (fun i (s : Buf α × Nat) => s.1.length = d.length ∧ s.2 = i * n ∧ s.2 ≤ d.length) (Nat.zero_le _) (by simp) ?_).mono
      fun s hs => ⟨hs.2.1, hs.2.2⟩
    rintro i ⟨d0, di⟩ - hi ⟨h1, h2, h3⟩
    dsimp only at h1 h2 h3 ⊢
    refine (idx_pan hi).bindT fun r => (mulW_runs mode).bindT fun ri => (idx_pan hi).bindT fun r' => (assert_runs _).bindT fun _ => ?_
    refine (Runs.loop (fun k (s : Buf α × Nat) => s.1.length = d.length ∧ s.2 = i * n + k ∧ s.2 ≤ d.length) (Nat.zero_le _) ⟨h1, by simpa using h2, h3⟩ ?_).mono
      fun s hs => ⟨hs.1, by rw [hs.2.1]; ring, hs.2.2⟩
    rintro k ⟨d1, dj⟩ - hk ⟨h4, h5, h6⟩
    dsimp only at h4 h5 h6 ⊢
    refine (addW_runs mode).bindT fun q => (idx_runs _ _).bindT fun x => (wr_pan x).bind fun d2 hd2 => ?_
    rw [addW_fits mode (by omega), ok_bind]
    refine Runs.ok ⟨hd2.1.trans h4, by dsimp only; omega, by dsimp only; omega⟩

/-- C80: `permute_columns` (hence `filter_columns`, `select_columns`), in the same way. -/
theorem C80_permuteColumns {m n : Nat} (hm : 0 < m) (A : Matrix (Fin m) (Fin n) α) (ha : m * n ≤ cap) (hcap : 2 * cap + 2 ≤ 2 ^ w) (p : List Nat) :
    (m * p.length < 2 ^ w ∧ m * p.length ≤ cap → SameOrPanics ((ofM A).permuteColumnsW mode w cap p) ((ofM A).permuteColumns p)) ∧
    (¬ (m * p.length < 2 ^ w ∧ m * p.length ≤ cap) → Panics ((ofM A).permuteColumnsW mode w cap p)) := by
  constructor
  · intro h
    refine Rel.same (y := (ofM A).permuteColumns p) ?_ ?_
    · unfold Mat.permuteColumnsW Mat.permuteColumns
      rw [ofM_cols A hm]
      dsimp only [ok_bind]
      rw [ofM_rows, mulW_fits mode h.1, ok_bind, allocW_fits h.2, ok_bind]
      refine Rel.bind ?_ fun b _ => Rel.rfl'
      refine loop_rel (fun i s => s.1.length = m * p.length ∧ s.2.2 = i * n) (by simp [alloc]) ?_ ?_
      · rintro i ⟨d, di, ri⟩ - hi ⟨hd, hri⟩
        dsimp only at hd hri ⊢
        subst hri
        have hin := Nat.mul_le_mul_right n (Nat.succ_le_of_lt hi)
        rw [Nat.succ_mul] at hin
        refine Rel.bind ?_ fun b _ => ?_
        · refine Or.inl (loop_congr_inv (fun _ s => s.1.length = m * p.length) hd ?_ ?_)
          · rintro k ⟨d, di⟩ - hk (hd : d.length = m * p.length)
            dsimp only
            refine bind_congr' fun r hr => bind_congr' fun _ hass => ?_
            have hrn : r < n := by simpa using assert_inv hass
            rw [hr, ok_bind, ok_bind, addW_fits mode (by omega), ok_bind]
            refine bind_congr' fun x _ => bind_congr' fun d' hd' => ?_
            have := (wr_inv hd').1
            rw [addW_fits mode (by omega), ok_bind]
          · rintro k ⟨d, di⟩ s' - hk (hd : d.length = m * p.length) h
            obtain ⟨r, hr, h⟩ := bind_eq_ok.1 h
            obtain ⟨_, _, h⟩ := bind_eq_ok.1 h
            obtain ⟨r', hr', h⟩ := bind_eq_ok.1 h
            obtain ⟨x, hx, h⟩ := bind_eq_ok.1 h
            obtain ⟨d', hd', h⟩ := bind_eq_ok.1 h
            cases h
            exact (wr_inv hd').2.trans hd
        · rw [addW_fits mode (by omega)]; exact Rel.rfl'
      · rintro i ⟨d, di, ri⟩ s' - hi ⟨hd, hri⟩ h
        dsimp only at hd hri h ⊢
        obtain ⟨b, hb, h⟩ := bind_eq_ok.1 h
        cases h
        refine ⟨?_, by dsimp only; rw [hri]; ring⟩
        refine loop_inv_ok (fun _ s => s.1.length = m * p.length) (Nat.zero_le _) hb hd ?_
        rintro k ⟨d, di⟩ s' - hk (hd : d.length = m * p.length) h
        obtain ⟨r, hr, h⟩ := bind_eq_ok.1 h
        obtain ⟨_, _, h⟩ := bind_eq_ok.1 h
        obtain ⟨r', hr', h⟩ := bind_eq_ok.1 h
        obtain ⟨x, hx, h⟩ := bind_eq_ok.1 h
        obtain ⟨d', hd', h⟩ := bind_eq_ok.1 h
        cases h
        exact (wr_inv hd').2.trans hd
    · rintro ⟨e, he⟩
      by_cases hall : ∀ k (hk : k < p.length), p[k] < n
      · rw [C20_permuteColumns A p hall] at he; cases he
      · push Not at hall
        obtain ⟨k, hk, h2⟩ := hall
        rw [C20_permuteColumns_panics hm A p ⟨p[k], List.getElem_mem hk, h2⟩]
        exact Or.inl rfl
  · intro h
    refine panics_of ?_
    unfold Mat.permuteColumnsW
    rw [ofM_cols A hm]
    dsimp only [ok_bind]
    rw [ofM_rows]
    refine alloc_over mode h fun d hd hE => ?_
    refine Runs.bind (P := fun s : Buf α × Nat × Nat => s.2.1 = m * p.length ∧ s.2.1 ≤ d.length) ?_ (fun s hs => absurd hs (by omega))
    refine (Runs.loop (fun i (s : Buf α × Nat × Nat) => s.1.length = d.length ∧ s.2.1 = i * p.length ∧ s.2.1 ≤ d.length) (Nat.zero_le _) (by simp) ?_).mono
      fun s hs => ⟨hs.2.1, hs.2.2⟩
    rintro i ⟨d0, di, ri⟩ - hi ⟨h1, h2, h3⟩
    dsimp only at h1 h2 h3 ⊢
    refine Runs.bind (P := fun s : Buf α × Nat => s.1.length = d.length ∧ s.2 = (i + 1) * p.length ∧ s.2 ≤ d.length) ?_
      fun s hs => (addW_runs mode).bindT fun q => Runs.ok hs
    refine (Runs.loop (fun k (s : Buf α × Nat) => s.1.length = d.length ∧ s.2 = i * p.length + k ∧ s.2 ≤ d.length) (Nat.zero_le _) ⟨h1, by simpa using h2, h3⟩ ?_).mono
      fun s hs => ⟨hs.1, by rw [hs.2.1]; ring, hs.2.2⟩
    rintro k ⟨d1, dj⟩ - hk ⟨h4, h5, h6⟩
    dsimp only at h4 h5 h6 ⊢
    refine (idx_pan hk).bindT fun r => (assert_runs _).bindT fun _ => (idx_pan hk).bindT fun r' => ?_
    refine (addW_runs mode).bindT fun q => (idx_runs _ _).bindT fun x => (wr_pan x).bind fun d2 hd2 => ?_
    rw [addW_fits mode (by omega), ok_bind]
    refine Runs.ok ⟨hd2.1.trans h4, by dsimp only; omega, by dsimp only; omega⟩

theorem addW_debug {a b : Nat} : addW .debug w a b = if a + b < 2 ^ w then .ok (a + b) else .error .arith := rfl

theorem indexW_debug {a b c : Nat} : Mat.indexW .debug w a b c = if a * b + c < 2 ^ w then .ok (a * b + c) else .error .arith := by
  unfold Mat.indexW
  show (if a * b < 2 ^ w then (.ok (a * b) : R Nat) else .error .arith) >>= _ = _
  split
  · rw [ok_bind, addW_debug]
  · next h => rw [if_neg (by omega)]; rfl

/-- C80: `sub_matrix` with any arguments: in a debug build, and in a release build if the first index does not overflow, the machine run
returns what the unbounded run returns, and panics when it panics. -/
theorem C80_subMatrix_partial {m n : Nat} (hm : 0 < m) (A : Matrix (Fin m) (Fin n) α) (ha : m * n ≤ cap) (hcap : 2 * cap + 2 ≤ 2 ^ w)
    (sr sc er ec : Nat) (h : mode = .debug ∨ sr * n + sc + n ≤ 2 ^ w) :
    SameOrPanics ((ofM A).subMatrixW mode w cap sr sc er ec) ((ofM A).subMatrix sr sc er ec) := by
  refine Rel.same ?_ fun ⟨e, he⟩ => (C18_accepts_iff_partial hm A sr sc er ec).2 (by rintro ⟨b, hb⟩; rw [he] at hb; cases hb)
  unfold Mat.subMatrixW Mat.subMatrix
  rw [ofM_cols A hm]
  refine Rel.rfl'.bind fun _ h1 => Rel.rfl'.bind fun _ h2 => Rel.rfl'.bind fun _ h3 => ?_
  rw [ok_bind, ok_bind]
  refine Rel.rfl'.bind fun _ h4 => ?_
  replace h1 : sr < er := by simpa using assert_inv h1
  replace h2 : sc < ec := by simpa using assert_inv h2
  replace h3 : er - sr < m := of_decide_eq_true (assert_inv h3)
  replace h4 : ec - sc < n := by
    have := assert_inv h4
    simp only [Bool.and_eq_true, decide_eq_true_eq] at this
    exact this.1.1
  have hN : 2 * n ≤ m * n := Nat.mul_le_mul_right n (by omega)
  have hk : (er - sr) * (ec - sc) ≤ m * n := Nat.mul_le_mul (by omega) (by omega)
  dsimp only
  rw [mulW_fits mode (by omega), ok_bind, allocW_fits (by omega), ok_bind]
  by_cases hov : sr * n + sc < 2 ^ w
  · rw [indexW_fits mode hov, ok_bind]
    refine Rel.bind ?_ fun b _ => Rel.rfl'
    refine loop_rel (fun i s => s.1.length = (er - sr) * (ec - sc) ∧ s.2.2 = i * (ec - sc) ∧
      (mode = .debug ∨ s.2.1 + n ≤ 2 ^ w)) (by simpa [alloc] using h) ?_ ?_
    · rintro i ⟨d, src, di⟩ - hi ⟨hd, hdi, hs⟩
      dsimp only at hd hdi hs ⊢
      have hi2 := Nat.mul_le_mul_right (ec - sc) (Nat.succ_le_of_lt hi)
      rw [Nat.succ_mul] at hi2
      refine Rel.bind (y := loop 0 (ec - sc) d fun colOffset d => do wr d (di + colOffset) (← idx (ofM A).data (src + colOffset))) ?_ fun b hb => ?_
      · refine loop_rel (fun _ _ => True) trivial ?_ fun _ _ _ _ _ _ _ => trivial
        intro k d _ hk _
        rw [addW_fits mode (by omega), ok_bind]
        by_cases hov2 : src + k < 2 ^ w
        · rw [addW_fits mode hov2]; exact Rel.rfl'
        · rcases hs with rfl | hs
          · refine Or.inr ⟨⟨.oob, ?_⟩, ?_⟩
            · unfold idx
              rw [List.getElem?_eq_none (by rw [ofM_length]; omega)]; rfl
            · rw [addW_debug, if_neg hov2]; exact Or.inr (Or.inr (Or.inl rfl))
          · omega
      · obtain ⟨a0, b0, h5⟩ := loop_ok_step hb (Nat.zero_le 0) (by omega)
        obtain ⟨x, hx, -⟩ := bind_eq_ok.1 h5
        have := idx_inv hx
        rw [ofM_length] at this
        rw [addW_fits mode (by omega), addW_fits mode (by omega)]
        exact Rel.rfl'
    · rintro i ⟨d, src, di⟩ s' - hi ⟨hd, hdi, hs⟩ hst
      dsimp only at hd hdi hs hst ⊢
      obtain ⟨b, hb, hst⟩ := bind_eq_ok.1 hst
      obtain ⟨a0, b0, h5⟩ := loop_ok_step hb (Nat.zero_le 0) (by omega)
      obtain ⟨x, hx, -⟩ := bind_eq_ok.1 h5
      have := idx_inv hx
      rw [ofM_length] at this
      cases hst
      refine ⟨?_, by dsimp only; rw [hdi]; ring, Or.inr (by dsimp only; omega)⟩
      refine loop_inv_ok (fun _ d => d.length = (er - sr) * (ec - sc)) (Nat.zero_le _) hb hd ?_
      intro k d d' _ _ hd h
      obtain ⟨x, -, h⟩ := bind_eq_ok.1 h
      exact (wr_inv h).2.trans hd
  · rcases h with rfl | h
    · refine Or.inr ⟨⟨.oob, ?_⟩, ?_⟩
      · rw [loop_step (by omega)]
        dsimp only
        rw [loop_step (by omega)]
        have e : idx (ofM A).data (sr * n + sc + 0) = .error .oob := by
          unfold idx; rw [List.getElem?_eq_none (by rw [ofM_length]; omega)]
        rw [e]; rfl
      · rw [indexW_debug, if_neg hov]; exact Or.inr (Or.inr (Or.inl rfl))
    · omega

/-- C80, refuted for `sub_matrix` in release builds: the row index `2^(w-1)` of a matrix with two columns wraps to the first row.  The block
outside the matrix is accepted, and its entry is that of the first row; computed without overflow the call panics. -/
theorem C80_refuted_subMatrix (A : Matrix (Fin 2) (Fin 2) α) (hw : 3 ≤ w) (hcap : 4 ≤ cap) :
    (ofM A).subMatrixW .release w cap (2 ^ (w - 1)) 0 (2 ^ (w - 1) + 1) 1 = .ok (ofM !![A 0 0]) ∧
    Panics ((ofM A).subMatrix (2 ^ (w - 1)) 0 (2 ^ (w - 1) + 1) 1) := by
  have h8 : 2 ^ 3 ≤ 2 ^ w := Nat.pow_le_pow_right (by omega) hw
  have h4 : 2 ^ 2 ≤ 2 ^ (w - 1) := Nat.pow_le_pow_right (by omega) (by omega)
  have hp : 2 ^ (w - 1) * 2 = 2 ^ w := by rw [← pow_succ]; congr 1; omega
  constructor
  · have e1 : Mat.indexW .release w (2 ^ (w - 1)) 2 0 = .ok 0 := by
      unfold Mat.indexW
      show addW .release w (2 ^ (w - 1) * 2 % 2 ^ w) 0 = _
      rw [hp, Nat.mod_self]
      show Except.ok ((0 + 0) % 2 ^ w) = _
      simp
    have e2 : 2 ^ (w - 1) + 1 - 2 ^ (w - 1) = 1 := by omega
    have e3 : idx (ofM A).data 0 = .ok (A 0 0) := by
      rw [show (0 : Nat) = 0 * 2 + 0 from rfl]
      exact idx_ofM A (i := 0) (j := 0) (by omega) (by omega)
    unfold Mat.subMatrixW
    rw [ofM_cols A (by omega), e2, ofM_rows]
    simp only [ok_bind]
    rw [e1]
    rw [mulW_fits _ (by omega), ok_bind, allocW_fits (by omega), ok_bind]
    simp only [ok_bind]
    rw [loop_step (by omega)]
    dsimp only
    have e4 : addW .release w 0 0 = .ok 0 := addW_fits _ (by omega)
    have e5 : addW .release w 0 1 = .ok 1 := addW_fits _ (by omega)
    have e6 : addW .release w 0 2 = .ok 2 := addW_fits _ (by omega)
    rw [loop_step (by omega), e4, ok_bind, ok_bind, e3]
    rw [show (1 - 0) = 1 from rfl, e5, e6]
    have hb : (2 ^ (w - 1) != 2 ^ (w - 1) + 1) = true := by simp
    rw [hb, decide_eq_true (show 2 ^ (w - 1) < 2 ^ (w - 1) + 1 by omega)]
    rfl
  · refine (C18_accepts_iff_partial (by omega) A _ _ _ _).2 fun h => ?_
    have := ((C18_accepts_iff_partial (by omega) A _ _ _ _).1.1 h).2.2.2.2
    omega

/-! Non-trivial instances: a 64-bit machine that can allocate `2^60` elements satisfies the hypothesis; an 8-bit machine with matrices large
enough for sums and products that do not fit in it. -/
example : 2 * 2 ^ 60 + 2 ≤ 2 ^ 64 := by norm_num
example : Mat.getW .release 4 ⟨3, [1, 2, 3, 4, 5, 6]⟩ 2 1 = .ok 6 := by decide
example : Mat.getW .release 4 ⟨3, [1, 2, 3, 4, 5, 6]⟩ 16 1 = .error .assert := by decide
example : Mat.tW .release 4 7 ⟨2, [1, 2, 3, 4, 5, 6]⟩ = .ok ⟨3, [1, 4, 2, 5, 3, 6]⟩ := by decide
example : Mat.crW .release 4 7 ⟨2, [1, 2, 3, 4, 5, 6]⟩ ⟨2, [1, 2]⟩ = .error .arith := by decide
example : Mat.permuteRowsW .release 4 7 ⟨3, [1, 2, 3, 4, 5, 6]⟩ [2, 0] = .ok ⟨2, [5, 6, 1, 2]⟩ := by decide
example : Mat.permuteRowsW .release 4 7 ⟨3, [1, 2, 3, 4, 5, 6]⟩ [8] = .error .assert := by decide
example : Mat.permuteRowsW .debug 4 7 ⟨3, [1, 2, 3, 4, 5, 6]⟩ [8] = .error .arith := by decide
example : Mat.subMatrixW .debug 4 7 ⟨2, [1, 2, 3, 4]⟩ 8 0 9 1 = .error .arith := by decide
example : Mat.subMatrixW .release 4 7 ⟨2, [1, 2, 3, 4]⟩ 8 0 9 1 = .ok ⟨1, [1]⟩ := by decide
example : Mat.subMatrixW .release 4 7 ⟨3, [1, 2, 3, 4, 5, 6]⟩ 1 1 3 2 = .ok ⟨2, [4, 6]⟩ := by decide

end LA.Props
