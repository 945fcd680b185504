import Verif.Proofs.Runs
import Verif.Model.Word
import Verif.Props.Elementwise

/-!
# C71: sizes that do not fit in a machine word or in memory

`w` is the number of bits of `usize`, `cap` the number of elements that can be allocated.  The functions with suffix `W` are the models
with machine arithmetic (`Verif/Model/Word.lean`), the others compute with unbounded numbers.
-/

namespace LA.Props
open LA
set_option linter.unusedSectionVars false
variable {α : Type}

/-- A machine computation of a matrix with `k` elements is right: if `k` elements can be counted and allocated it does what the
unbounded computation does, and otherwise it panics. -/
def RightOrPanics {β : Type} (w cap k : Nat) (machine exact : R β) : Prop :=
  (k < 2 ^ w ∧ k ≤ cap → machine = exact) ∧ (¬ (k < 2 ^ w ∧ k ≤ cap) → Panics machine)

/-- The errors that are Rust panics. -/
def Pan (e : Err) : Prop := e = .assert ∨ e = .oob ∨ e = .arith ∨ e = .unwrap

theorem panics_of {β : Type} {x : R β} (h : Runs Pan x fun _ => False) : Panics x := by
  cases x with
  | ok a => exact h.elim
  | error e => rcases h with h | h | h | h <;> subst h <;> simp [Panics]

theorem mulW_fits (mode : Mode) {w a b : Nat} (h : a * b < 2 ^ w) : mulW mode w a b = .ok (a * b) := by
  cases mode
  · exact if_pos h
  · show Except.ok _ = _; rw [Nat.mod_eq_of_lt h]

theorem addW_fits (mode : Mode) {w a b : Nat} (h : a + b < 2 ^ w) : addW mode w a b = .ok (a + b) := by
  cases mode
  · exact if_pos h
  · show Except.ok _ = _; rw [Nat.mod_eq_of_lt h]

theorem indexW_fits (mode : Mode) {w i n j : Nat} (h : i * n + j < 2 ^ w) : Mat.indexW mode w i n j = .ok (i * n + j) := by
  unfold Mat.indexW
  rw [mulW_fits mode (by omega), ok_bind, addW_fits mode h]

theorem allocW_fits {cap n : Nat} (h : n ≤ cap) : allocW α cap n = .ok (alloc α n) := if_pos h

theorem zeroFillW_fits [Zero α] {cap n : Nat} (h : n ≤ cap) : Mat.zeroFillW (α := α) cap n = Mat.zeroFill n := by
  unfold Mat.zeroFillW
  rw [allocW_fits h, ok_bind]; rfl

/-- Overflow: a debug build panics, a release build goes on with the remainder. -/
theorem mulW_over {β : Type} {mode : Mode} {w a b : Nat} {f : Nat → R β} (h : ¬ a * b < 2 ^ w)
    (hf : mode = .release → Runs Pan (f (a * b % 2 ^ w)) fun _ => False) : Runs Pan (mulW mode w a b >>= f) fun _ => False := by
  cases mode
  · unfold mulW
    simp only [if_neg h]
    exact Or.inr (Or.inr (Or.inl rfl))
  · exact hf rfl

theorem zeroFillW_len [Zero α] {cap n : Nat} : Runs Pan (Mat.zeroFillW (α := α) cap n) fun d => d.length = n ∧ n ≤ cap := by
  unfold Mat.zeroFillW allocW
  split
  · next h =>
    refine (Runs.loopC (fun d : Buf α => d.length = n) (by simp [alloc]) fun i d _ hi hd => ?_).mono fun d hd => ⟨hd, h⟩
    unfold wr
    rw [if_pos (by omega)]
    exact Runs.ok (by simpa using hd)
  · exact Or.inr (Or.inr (Or.inl rfl))

/-- Writing below the end of a buffer, or panicking. -/
theorem wr_pan {d : Buf α} {i : Nat} (x : α) : Runs Pan (wr d i x) fun d' => d'.length = d.length ∧ i < d.length := by
  unfold wr
  split
  · next h => exact Runs.ok ⟨by simp, h⟩
  · exact Or.inr (Or.inl rfl)

/-- A release build that writes the diagonal of a matrix with too few elements panics, if the matrix has at most as many rows as
columns. -/
theorem diag_pan {w cap m n s : Nat} (f : Nat → R α) (hf : ∀ i, i < m → Runs Pan (f i) fun _ => True) (hmn : m ≤ n) (hm : 0 < m) (hcap : s ≤ cap) (hcw : cap + n + 1 < 2 ^ w)
    (hs : s + 2 ^ w ≤ m * n) {d : Buf α} (hd : d.length = s) :
    Runs Pan (loop 0 m d fun i d => do wr d (← Mat.indexW .release w i n i) (← f i)) fun _ => False := by
  have key := Runs.loop (E := Pan) (lo := 0) (hi := m) (s := d) (f := fun i d => do wr d (← Mat.indexW .release w i n i) (← f i))
    (fun i (d : Buf α) => d.length = s ∧ (i = 0 ∨ (i - 1) * (n + 1) < s)) (Nat.zero_le _) ⟨hd, Or.inl rfl⟩ ?_
  · refine key.mono fun d hd => ?_
    rcases hd.2 with h | h
    · omega
    · obtain ⟨m, rfl⟩ : ∃ k, m = k + 1 := ⟨m - 1, by omega⟩
      rw [Nat.add_sub_cancel] at h
      have e1 : (m + 1) * n = m * n + n := by ring
      have e2 : m * (n + 1) = m * n + m := by ring
      rw [e1] at hs
      rw [e2] at h
      omega
  · intro i d _ hi ⟨hl, hp⟩
    have hlt : i * n + i < 2 ^ w := by
      rcases hp with h | h
      · subst h; simp; 
      · rcases Nat.eq_zero_or_pos i with h0 | h0
        · subst h0; simp
        · obtain ⟨k, rfl⟩ : ∃ k, i = k + 1 := ⟨i - 1, by omega⟩
          rw [Nat.add_sub_cancel] at h
          have e1 : (k + 1) * n + (k + 1) = k * (n + 1) + n + 1 := by ring
          rw [e1]; omega
    rw [indexW_fits .release hlt, ok_bind]
    refine (hf i hi).bindT fun x => (wr_pan x).mono fun d' h => ⟨h.1.trans hl, Or.inr ?_⟩
    rw [Nat.add_sub_cancel, show i * (n + 1) = i * n + i by ring]
    omega

theorem mod_le {k W : Nat} (hW : 0 < W) (h : ¬ k < W) : k % W + W ≤ k := by
  have := Nat.div_add_mod k W
  have h1 : 1 ≤ k / W := (Nat.one_le_div_iff hW).2 (by omega)
  have : W * 1 ≤ W * (k / W) := Nat.mul_le_mul_left _ h1
  omega

theorem idx_pan {l : List α} {i : Nat} (h : i < l.length) : Runs Pan (idx l i) fun _ => True := by
  unfold idx; rw [List.getElem?_eq_getElem h]; trivial

/-! ## The product -/

theorem mulMatW_fits [Zero α] [Add α] [Mul α] (mode : Mode) {w cap m p n : Nat} (hm : 0 < m) (hp : 0 < p) (A : Matrix (Fin m) (Fin p) α)
    (B : Matrix (Fin p) (Fin n) α) (h : m * n < 2 ^ w ∧ m * n ≤ cap) : Mat.mulMatW mode w cap (ofM A) (ofM B) = (ofM A).mul (ofM B) := by
  unfold Mat.mulMatW Mat.mul
  rw [ofM_cols A hm, ofM_cols B hp]
  simp only [ok_bind, ofM_rows, beq_self_eq_true, assert_true]
  rw [mulW_fits mode h.1, ok_bind, allocW_fits h.2, ok_bind]
  congr 1
  refine loop_congr fun i d _ hi => loop_congr fun j d _ hj => ?_
  have : i * n + j < m * n := by
    calc i * n + j < i * n + n := by omega
      _ = (i + 1) * n := by ring
      _ ≤ m * n := Nat.mul_le_mul_right _ (by omega)
  rw [indexW_fits mode (by omega)]
  rfl

/-- C71 (product): in debug and release builds the product of two matrices is the right matrix, or the call panics because the
number of elements cannot be counted or allocated. -/
theorem C71_mul [Zero α] [Add α] [Mul α] (mode : Mode) (w cap : Nat) {m p n : Nat} (hm : 0 < m) (hp : 0 < p) (A : Matrix (Fin m) (Fin p) α)
    (B : Matrix (Fin p) (Fin n) α) : RightOrPanics w cap (m * n) (Mat.mulMatW mode w cap (ofM A) (ofM B)) ((ofM A).mul (ofM B)) := by
  refine ⟨mulMatW_fits mode hm hp A B, fun h => panics_of ?_⟩
  unfold Mat.mulMatW
  rw [ofM_cols A hm, ofM_cols B hp]
  simp only [ok_bind, ofM_rows, beq_self_eq_true, assert_true]
  by_cases hw : m * n < 2 ^ w
  · rw [mulW_fits mode hw, ok_bind]
    unfold allocW
    rw [if_neg (fun hc => h ⟨hw, hc⟩)]
    exact Or.inr (Or.inr (Or.inl rfl))
  · refine mulW_over hw fun hmode => ?_
    subst hmode
    have hW : 0 < 2 ^ w := Nat.two_pow_pos w
    have hs := mod_le hW hw
    have hlt := Nat.mod_lt (m * n) hW
    generalize m * n % 2 ^ w = s at hs hlt ⊢
    unfold allocW
    split
    · rw [ok_bind]
      refine Runs.bind (P := fun _ => False) ?_ fun _ h => h.elim
      have hn : 0 < n := by
        rcases Nat.eq_zero_or_pos n with h0 | h0
        · subst h0; simp at hw
        · exact h0
      refine (Runs.loop (E := Pan) (fun i (d : Buf α) => d.length = s ∧ i * n ≤ s) (Nat.zero_le _) ⟨by simp [alloc], by simp⟩ ?_).mono
        fun d hd => by omega
      intro i d _ hi ⟨hl, hi'⟩
      refine (Runs.loop (E := Pan) (fun j (d : Buf α) => d.length = s ∧ i * n + j ≤ s) (Nat.zero_le _) ⟨hl, by omega⟩ ?_).mono
        fun d hd => ⟨hd.1, by rw [show (i + 1) * n = i * n + n by ring]; exact hd.2⟩
      intro j d _ hj ⟨hl, hj'⟩
      refine Runs.bindT (Runs.loopT fun k s _ hk => ?_) fun x => ?_
      · have h1 : (ofM A).getRef i k = .ok (A ⟨i, hi⟩ ⟨k, hk⟩) := ofM_get A hi hk
        have h2 : (ofM B).getRef k j = .ok (B ⟨k, hk⟩ ⟨j, hj⟩) := ofM_get B hk hj
        rw [h1, ok_bind, h2]; trivial
      · rw [indexW_fits .release (by omega), ok_bind]
        exact (wr_pan x).mono fun d' h => ⟨h.1.trans hl, by omega⟩
    · exact Or.inr (Or.inr (Or.inl rfl))

/-! ## The constructors -/

theorem diagLoop_fits {mode : Mode} {w m n : Nat} (h : m * n < 2 ^ w) (f : Nat → R α) (d : Buf α) :
    (loop 0 (min m n) d fun i d => do wr d (← Mat.indexW mode w i n i) (← f i)) = (loop 0 (min m n) d fun i d => do wr d (i * n + i) (← f i)) := by
  refine loop_congr fun i d _ hi => ?_
  have : i * n + i < m * n := by
    calc i * n + i < i * n + n := by omega
      _ = (i + 1) * n := by ring
      _ ≤ m * n := Nat.mul_le_mul_right _ (by omega)
  rw [indexW_fits mode (by omega)]
  rfl

theorem newW_fits (mode : Mode) {w m n : Nat} (h : m * n < 2 ^ w) (d : List α) : Mat.newW mode w m n d = Mat.new m n d := by
  unfold Mat.newW Mat.new
  rw [mulW_fits mode h]
  rfl

/-- The three diagonal constructors in one. -/
theorem diagW_right [Zero α] (mode : Mode) {w cap m n : Nat} (f : Nat → R α) (hf : ∀ i, i < min m n → Runs Pan (f i) fun _ => True)
    {β : Type} (kW k : Buf α → R β) (hk : m * n < 2 ^ w → kW = k) (hmode : mode = .release → m ≤ n ∧ cap + n + 1 < 2 ^ w) :
    RightOrPanics w cap (m * n)
      (mulW mode w m n >>= fun s => Mat.zeroFillW cap s >>= fun d => (loop 0 (min m n) d fun i d => do wr d (← Mat.indexW mode w i n i) (← f i)) >>= kW)
      (Mat.zeroFill (m * n) >>= fun d => (loop 0 (min m n) d fun i d => do wr d (i * n + i) (← f i)) >>= k) := by
  refine ⟨fun h => ?_, fun h => panics_of ?_⟩
  · rw [mulW_fits mode h.1, ok_bind, zeroFillW_fits h.2, hk h.1]
    simp only [diagLoop_fits h.1 f]
  · by_cases hw : m * n < 2 ^ w
    · rw [mulW_fits mode hw, ok_bind]
      unfold Mat.zeroFillW allocW
      rw [if_neg (fun hc => h ⟨hw, hc⟩)]
      exact Or.inr (Or.inr (Or.inl rfl))
    · refine mulW_over hw fun hm => ?_
      obtain ⟨h1, h2⟩ := hmode hm
      subst hm
      have hs := mod_le (Nat.two_pow_pos w) hw
      refine zeroFillW_len.bind fun d hd => Runs.bind (P := fun _ => False) ?_ fun _ h => h.elim
      have hm0 : 0 < m := by
        rcases Nat.eq_zero_or_pos m with h0 | h0
        · subst h0; simp at hw
        · exact h0
      rw [min_eq_left h1] at hf ⊢
      exact diag_pan f hf h1 hm0 hd.2 h2 hs hd.1

theorem idW_right [Zero α] [One α] (mode : Mode) {w cap : Nat} (m n : Nat) (h : mode = .release → m ≤ n ∧ cap + n + 1 < 2 ^ w) :
    RightOrPanics w cap (m * n) (Mat.idW (α := α) mode w cap m n) (Mat.id m n) :=
  diagW_right mode (fun _ => .ok 1) (fun _ _ => trivial) (fun d => do return (⟨m, ← freeze d⟩ : Mat α)) _ (fun _ => rfl) h

theorem blockDiagW_right [Zero α] (mode : Mode) {w cap : Nat} (m n : Nat) (data : List α) (hl : data.length = min m n)
    (h : mode = .release → m ≤ n ∧ cap + n + 1 < 2 ^ w) :
    RightOrPanics w cap (m * n) (Mat.blockDiagW mode w cap m n data) (Mat.blockDiag m n data) := by
  have := diagW_right (cap := cap) mode (idx data) (fun i hi => idx_pan (by omega)) (fun d => freeze d >>= Mat.newW mode w m n)
    (fun d => freeze d >>= Mat.new m n) (fun h => by funext d; congr 1; funext l; exact newW_fits mode h l) h
  unfold Mat.blockDiagW Mat.blockDiag
  simp only [hl, beq_self_eq_true, assert_true, ok_bind]
  exact this

theorem diagW_right' [Zero α] (mode : Mode) {w cap : Nat} (data : List α) (h : mode = .release → cap + data.length + 1 < 2 ^ w) :
    RightOrPanics w cap (data.length * data.length) (Mat.diagW mode w cap data) (Mat.diag data) := by
  have := diagW_right (cap := cap) (m := data.length) (n := data.length) mode (idx data) (fun i hi => idx_pan (by omega))
    (fun d => freeze d >>= Mat.newW mode w data.length data.length)
    (fun d => freeze d >>= Mat.new data.length data.length) (fun h => by funext d; congr 1; funext l; exact newW_fits mode h l) fun hm => ⟨le_rfl, h hm⟩
  rw [min_self] at this
  exact this

/-- C71 (constructors, debug builds): `id`, `block_diag`, `diag`, `random` return the right matrix, or panic because the number of
elements cannot be counted or allocated. -/
theorem C71_debug [Zero α] [One α] (w cap m n : Nat) (data : List α) (draw : Nat → α) :
    RightOrPanics w cap (m * n) (Mat.idW (α := α) .debug w cap m n) (Mat.id m n) ∧
    (data.length = min m n → RightOrPanics w cap (m * n) (Mat.blockDiagW .debug w cap m n data) (Mat.blockDiag m n data)) ∧
    RightOrPanics w cap (data.length * data.length) (Mat.diagW .debug w cap data) (Mat.diag data) ∧
    RightOrPanics w cap (m * n) (Mat.randomW .debug w cap draw m n) (Mat.random draw m n) := by
  refine ⟨idW_right .debug m n nofun, fun h => blockDiagW_right .debug m n data h nofun, diagW_right' .debug data nofun, fun h => ?_, fun h => panics_of ?_⟩
  · unfold Mat.randomW Mat.random
    rw [mulW_fits .debug h.1, ok_bind, allocW_fits h.2, ok_bind]
  · unfold Mat.randomW
    by_cases hw : m * n < 2 ^ w
    · rw [mulW_fits .debug hw, ok_bind]
      unfold allocW
      rw [if_neg (fun hc => h ⟨hw, hc⟩)]
      exact Or.inr (Or.inr (Or.inl rfl))
    · exact mulW_over hw nofun

/-- C71 (constructors, release builds), the part that holds: `diag` is right or panics; so are `id` and `block_diag` if the matrix has
at most as many rows as columns.  Assumed: fewer than `2^w` elements can be allocated, by a margin of one row (true when memory is at
most half of the address space and a row can be allocated). -/
theorem C71_release_partial [Zero α] [One α] (w cap m n : Nat) (data : List α) (hmn : m ≤ n) (hn : cap + n + 1 < 2 ^ w)
    (hd : cap + data.length + 1 < 2 ^ w) :
    RightOrPanics w cap (m * n) (Mat.idW (α := α) .release w cap m n) (Mat.id m n) ∧
    (data.length = m → RightOrPanics w cap (m * n) (Mat.blockDiagW .release w cap m n data) (Mat.blockDiag m n data)) ∧
    RightOrPanics w cap (data.length * data.length) (Mat.diagW .release w cap data) (Mat.diag data) :=
  ⟨idW_right .release m n fun _ => ⟨hmn, hn⟩, fun h => blockDiagW_right .release m n data (by omega) fun _ => ⟨hmn, hn⟩, diagW_right' .release data fun _ => hd⟩

theorem loop_two {σ : Type} (s : σ) (f : Nat → σ → R σ) : loop 0 2 s f = (f 0 s >>= f 1) := by
  show (f 0 s >>= fun s => f 1 s >>= fun s => Except.ok s) = _
  congr 1
  funext s
  cases f 1 s <;> rfl

/-- C71 is FALSE of the release build: `id(2^(w-1) + 3, 2)` and `block_diag(2^(w-1) + 3, 2, [x, y])` return a matrix with
`2^(w-1) + 3` rows that stores 6 elements. -/
theorem C71_refuted_id [Zero α] [One α] (w cap : Nat) (hw : 3 < w) (hcap : 6 ≤ cap) (x y : α) :
    Mat.idW .release w cap (2 ^ (w - 1) + 3) 2 = .ok (⟨2 ^ (w - 1) + 3, [1, 0, 0, 1, 0, 0]⟩ : Mat α) ∧
    Mat.blockDiagW .release w cap (2 ^ (w - 1) + 3) 2 [x, y] = .ok (⟨2 ^ (w - 1) + 3, [x, 0, 0, y, 0, 0]⟩ : Mat α) := by
  obtain ⟨k, rfl⟩ : ∃ k, w = k + 1 := ⟨w - 1, by omega⟩
  have h1 : 2 ^ 3 ≤ 2 ^ k := Nat.pow_le_pow_right (by norm_num) (by omega)
  have h2 : 2 ^ (k + 1) = 2 * 2 ^ k := by rw [pow_succ]; ring
  rw [Nat.add_sub_cancel]
  have e : mulW .release (k + 1) (2 ^ k + 3) 2 = .ok 6 := by
    unfold mulW
    rw [h2, show (2 ^ k + 3) * 2 = 6 + 2 * 2 ^ k by ring, Nat.add_mod_right, Nat.mod_eq_of_lt (by omega)]
  have i0 : Mat.indexW .release (k + 1) 0 2 0 = .ok 0 := indexW_fits .release (by omega)
  have i1 : Mat.indexW .release (k + 1) 1 2 1 = .ok 3 := indexW_fits .release (by omega)
  have z : Mat.zeroFillW (α := α) cap 6 = .ok [some 0, some 0, some 0, some 0, some 0, some 0] := by
    rw [zeroFillW_fits hcap]; rfl
  have hmin : min (2 ^ k + 3) 2 = 2 := by omega
  constructor
  · unfold Mat.idW
    rw [e, ok_bind, z, ok_bind, hmin]
    rw [loop_two, i0, i1]; rfl
  · unfold Mat.blockDiagW
    simp only [hmin, List.length_cons, List.length_nil, Nat.zero_add, Nat.reduceAdd, beq_self_eq_true, assert_true, ok_bind]
    rw [e, ok_bind, z, ok_bind]
    rw [loop_two, i0, i1]
    show Mat.newW .release (k + 1) (2 ^ k + 3) 2 [x, 0, 0, y, 0, 0] = _
    unfold Mat.newW
    rw [e]
    simp

/-- C71 is FALSE of the release build: `random(2^(w-1) + 3, 2)` stores 6 elements. -/
theorem C71_refuted_random (w cap : Nat) (hw : 3 < w) (hcap : 6 ≤ cap) (draw : Nat → α) :
    Mat.randomW .release w cap draw (2 ^ (w - 1) + 3) 2 = .ok ⟨2 ^ (w - 1) + 3, [draw 0, draw 1, draw 2, draw 3, draw 4, draw 5]⟩ := by
  obtain ⟨k, rfl⟩ : ∃ k, w = k + 1 := ⟨w - 1, by omega⟩
  have h1 : 2 ^ 3 ≤ 2 ^ k := Nat.pow_le_pow_right (by norm_num) (by omega)
  have h2 : 2 ^ (k + 1) = 2 * 2 ^ k := by rw [pow_succ]; ring
  rw [Nat.add_sub_cancel]
  have e : mulW .release (k + 1) (2 ^ k + 3) 2 = .ok 6 := by
    unfold mulW
    rw [h2, show (2 ^ k + 3) * 2 = 6 + 2 * 2 ^ k by ring, Nat.add_mod_right, Nat.mod_eq_of_lt (by omega)]
  unfold Mat.randomW
  rw [e, ok_bind, allocW_fits hcap]
  rfl

example : Mat.idW (α := Int) .release 8 100 2 3 = .ok ⟨2, [1, 0, 0, 0, 1, 0]⟩ := by decide
example : Mat.idW (α := Int) .release 4 10 5 5 = .error .oob := by decide
example : Mat.diagW (α := Int) .debug 4 10 [1, 1, 1, 1] = .error .arith := by decide
example : Mat.mulMatW (α := Int) .release 4 10 ⟨4, [1, 2, 3, 4]⟩ ⟨1, [1, 2, 3, 4, 5]⟩ = .error .oob := by decide

end LA.Props
