import Verif.Proofs.Basic
import Verif.Model.History

/-! # Shapes and initialisation, for arbitrary element operations

`NU x P`: the run `x` does not read or return an uninitialised cell, and if it returns a value then `P` holds of it. -/

namespace LA
set_option linter.unusedSectionVars false
variable {α β σ ρ : Type}

/-- No uninitialised cell is observed; `P` holds of the result, if there is one. -/
def NU (x : R α) (P : α → Prop) : Prop := x ≠ .error .uninit ∧ ∀ a, x = .ok a → P a

namespace NU

theorem ok {a : α} {P : α → Prop} (h : P a) : NU (.ok a) P := ⟨nofun, fun b hb => by cases hb; exact h⟩
theorem pure {a : α} {P : α → Prop} (h : P a) : NU (Pure.pure a) P := ok h
theorem error {e : Err} {P : α → Prop} (h : e ≠ .uninit) : NU (.error e : R α) P :=
  ⟨fun h' => by cases h'; exact h rfl, nofun⟩
theorem mono {x : R α} {P Q : α → Prop} (h : NU x P) (h2 : ∀ a, P a → Q a) : NU x Q := ⟨h.1, fun a ha => h2 a (h.2 a ha)⟩
theorem and {x : R α} {P Q : α → Prop} (h : NU x P) (h2 : NU x Q) : NU x (fun a => P a ∧ Q a) :=
  ⟨h.1, fun a ha => ⟨h.2 a ha, h2.2 a ha⟩⟩

theorem bind {x : R α} {f : α → R β} {P : α → Prop} {Q : β → Prop} (h : NU x P) (hf : ∀ a, P a → NU (f a) Q) :
    NU (x >>= f) Q := by
  cases x with
  | error e =>
    refine error ?_
    rintro rfl; exact h.1 rfl
  | ok a => exact hf a (h.2 a rfl)

theorem assert (c : Bool) : NU (LA.assert c) (fun _ => c = true) := by
  cases c
  · exact error nofun
  · exact ok rfl

theorem assertD (p : Prop) [Decidable p] : NU (LA.assert (decide p)) (fun _ => p) := (assert _).mono fun _ h => by simpa using h

theorem assertEq (a b : Nat) : NU (LA.assert (a == b)) (fun _ => a = b) := (assert _).mono fun _ h => by simpa using h

theorem unwrap (o : Option α) : NU (LA.unwrap o) (fun a => o = some a) := by
  cases o
  · exact error nofun
  · exact ok rfl

theorem usub (a b : Nat) : NU (LA.usub a b) (fun c => b ≤ a ∧ c = a - b) := by
  unfold LA.usub; split
  · exact ok ⟨‹_›, rfl⟩
  · exact error nofun

theorem udiv (a b : Nat) : NU (LA.udiv a b) (fun c => 0 < b ∧ c = a / b) := by
  unfold LA.udiv; split
  · exact error nofun
  · exact ok ⟨by omega, rfl⟩

theorem umod (a b : Nat) : NU (LA.umod a b) (fun c => 0 < b ∧ c = a % b) := by
  unfold LA.umod; split
  · exact error nofun
  · exact ok ⟨by omega, rfl⟩

theorem idx (v : List α) (i : Nat) : NU (LA.idx v i) (fun x => v[i]? = some x) := by
  unfold LA.idx; split
  · next h => exact ok h
  · exact error nofun

theorem idxT (v : List α) (i : Nat) : NU (LA.idx v i) (fun _ => True) := (idx v i).mono fun _ _ => trivial

theorem setIdx (v : List α) (i : Nat) (x : α) : NU (LA.setIdx v i x) (fun w => w.length = v.length) := by
  unfold LA.setIdx; split
  · exact ok (by simp)
  · exact error nofun

theorem cols (a : Mat α) : NU a.cols (fun c => 0 < a.rows ∧ c = a.data.length / a.rows) := udiv _ _

theorem loop {lo hi : Nat} {s : σ} {f : Nat → σ → R σ} (Inv : Nat → σ → Prop) (hle : lo ≤ hi) (h0 : Inv lo s)
    (hstep : ∀ i s, lo ≤ i → i < hi → Inv i s → NU (f i s) (Inv (i + 1))) : NU (LA.loop lo hi s f) (Inv hi) := by
  obtain ⟨k, rfl⟩ := Nat.exists_eq_add_of_le hle
  induction k with
  | zero => rw [Nat.add_zero, loop_self]; exact ok h0
  | succ k ih =>
    rw [← Nat.add_assoc, loop_succ (by omega)]
    refine (ih (by omega) (fun i s h1 h2 => hstep i s h1 (by omega))).bind fun s hs => ?_
    exact hstep _ s (by omega) (by omega) hs

theorem loopC {lo hi : Nat} {s : σ} {f : Nat → σ → R σ} (Inv : σ → Prop) (h0 : Inv s)
    (hstep : ∀ i s, lo ≤ i → i < hi → Inv s → NU (f i s) Inv) : NU (LA.loop lo hi s f) Inv := by
  by_cases h : lo ≤ hi
  · exact loop (fun _ => Inv) h h0 hstep
  · rw [loop_empty (by omega)]; exact ok h0

theorem loopRevC {lo hi : Nat} {s : σ} {f : Nat → σ → R σ} (Inv : σ → Prop) (h0 : Inv s)
    (hstep : ∀ i s, lo ≤ i → i < hi → Inv s → NU (f i s) Inv) : NU (LA.loopRev lo hi s f) Inv := by
  unfold loopRev
  generalize hk : hi - lo = k
  have hk' : k ≤ hi - lo := by omega
  clear hk
  induction k generalizing s with
  | zero => exact ok h0
  | succ k ih =>
    rw [loopRevN]
    exact (hstep _ s (by omega) (by omega) h0).bind fun s' hs' => ih hs' (by omega)

theorem loopF {lo hi : Nat} {s : σ} {f : Nat → σ → R (Flow σ ρ)} (Inv : Nat → σ → Prop) (hle : lo ≤ hi) (h0 : Inv lo s)
    (hstep : ∀ i s, lo ≤ i → i < hi → Inv i s →
      NU (f i s) (fun o => ∀ s', o = .next s' → Inv (i + 1) s')) :
    NU (LA.loopF lo hi s f) (fun o => ∀ s', o = .next s' → Inv hi s') := by
  obtain ⟨k, rfl⟩ := Nat.exists_eq_add_of_le hle
  unfold LA.loopF
  rw [Nat.add_sub_cancel_left]
  induction k generalizing lo s with
  | zero => exact ok (by rintro s' hs; cases hs; exact h0)
  | succ k ih =>
    rw [loopFN]
    refine (hstep lo s le_rfl (by omega) h0).bind fun o ho => ?_
    cases o with
    | ret r => exact ok (by rintro s' hs; cases hs)
    | next s' =>
      have := ih (lo := lo + 1) (s := s') (ho s' rfl) (by omega) (fun i s h1 h2 => hstep i s (by omega) (by omega))
      rwa [show lo + 1 + k = lo + (k + 1) by omega] at this

end NU

/-! ## Prefixes of written cells -/

/-- A buffer of `N` cells of which (at least) the first `k` have been written. -/
def Pre (d : Buf α) (N k : Nat) : Prop := d.length = N ∧ ∀ j < k, ∃ x, d[j]? = some (some x)

theorem pre_alloc (N : Nat) : Pre (alloc α N) N 0 := ⟨by simp, fun _ h => absurd h (Nat.not_lt_zero _)⟩

theorem Pre.le {d : Buf α} {N k : Nat} (h : Pre d N k) : k ≤ N := by
  cases k with
  | zero => omega
  | succ k =>
    obtain ⟨x, hx⟩ := h.2 k (by omega)
    obtain ⟨hl, -⟩ := List.getElem?_eq_some_iff.1 hx
    rw [← h.1]; exact hl

/-- Writing the next cell. -/
theorem Pre.wr {d : Buf α} {N k : Nat} (h : Pre d N k) (x : α) : NU (LA.wr d k x) (fun d' => Pre d' N (k + 1)) := by
  unfold LA.wr; split
  · next hk =>
    refine NU.ok ⟨by simp [h.1], fun j hj => ?_⟩
    by_cases e : k = j
    · subst e; exact ⟨x, by simp [hk]⟩
    · rw [List.getElem?_set_ne e]
      exact h.2 j (by omega)
  · exact NU.error nofun

/-- Overwriting any cell. -/
theorem Pre.wr' {d : Buf α} {N k : Nat} (h : Pre d N k) (i : Nat) (x : α) : NU (LA.wr d i x) (fun d' => Pre d' N k) := by
  unfold LA.wr; split
  · next hk =>
    refine NU.ok ⟨by simp [h.1], fun j hj => ?_⟩
    by_cases e : i = j
    · subst e; exact ⟨x, by simp [hk]⟩
    · rw [List.getElem?_set_ne e]
      exact h.2 j hj
  · exact NU.error nofun

theorem Pre.rd {d : Buf α} {N k : Nat} (h : Pre d N k) {i : Nat} (hi : i < k) : NU (LA.rd d i) (fun _ => True) := by
  obtain ⟨x, hx⟩ := h.2 i hi
  rw [rd_eq hx]; exact NU.ok trivial

theorem Pre.freeze {d : Buf α} {N k : Nat} (h : Pre d N k) (hk : N ≤ k) : NU (LA.freeze d) (fun l => l.length = N) := by
  have : ∃ l : List α, d = l.map some := by
    obtain ⟨h1, h2⟩ := h
    subst h1
    induction d generalizing k with
    | nil => exact ⟨[], rfl⟩
    | cons o d ih =>
      obtain ⟨x, hx⟩ := h2 0 (by rw [List.length_cons] at hk; omega)
      simp only [List.getElem?_cons_zero, Option.some.injEq] at hx
      obtain ⟨l, hl⟩ := ih (k := k - 1) (fun j hj => by
        have := h2 (j + 1) (by omega)
        simpa using this) (by rw [List.length_cons] at hk; omega)
      exact ⟨x :: l, by rw [hx, hl]; rfl⟩
  obtain ⟨l, rfl⟩ := this
  rw [freeze_map_some]
  exact NU.ok (by simpa using h.1)

/-- Fills a fresh buffer from left to right. -/
theorem fill_nu {N : Nat} {f : Nat → Buf α → R (Buf α)}
    (hf : ∀ i d, i < N → Pre d N i → NU (f i d) (fun d' => Pre d' N (i + 1))) :
    NU (loop 0 N (alloc α N) f) (fun d => Pre d N N) :=
  NU.loop (fun i d => Pre d N i) (Nat.zero_le N) (pre_alloc N) fun i d _ hi hd => hf i d hi hd

/-- Fills a fresh `m × n` buffer row by row. -/
theorem fill2_nu {m n : Nat} {f : Nat → Nat → Buf α → R (Buf α)}
    (hf : ∀ i j d, i < m → j < n → Pre d (m * n) (i * n + j) → NU (f i j d) (fun d' => Pre d' (m * n) (i * n + j + 1))) :
    NU (loop 0 m (alloc α (m * n)) fun i d => loop 0 n d fun j d => f i j d) (fun d => Pre d (m * n) (m * n)) := by
  refine NU.loop (fun i d => Pre d (m * n) (i * n)) (Nat.zero_le m) (by simpa using pre_alloc (α := α) (m * n)) ?_
  intro i d _ hi hd
  refine (NU.loop (fun j d => Pre d (m * n) (i * n + j)) (Nat.zero_le n) (by simpa using hd) ?_).mono ?_
  · intro j d _ hj hd
    exact hf i j d hi hj hd
  · intro d hd; rwa [Nat.add_mul, Nat.one_mul]

/-! ## Shapes of the results -/

/-- The run observes no uninitialised cell and its result has `r` rows and `l` elements. -/
abbrev Shaped (x : R (Mat α)) (r l : Nat) : Prop := NU x fun b => b.rows = r ∧ b.data.length = l

theorem frozen_nu {d : Buf α} {N r : Nat} (h : Pre d N N) : Shaped (do return ⟨r, ← freeze d⟩) r N :=
  (h.freeze le_rfl).bind fun _ hl => NU.ok ⟨rfl, hl⟩

namespace Mat

theorem new_nu (r c : Nat) (d : List α) :
    NU (Mat.new r c d) fun b => b.rows = r ∧ b.data.length = r * c ∧ 0 < r ∧ 0 < c := by
  unfold Mat.new
  refine (NU.assertEq _ _).bind fun _ h1 => (NU.assert _).bind fun _ h2 => NU.ok ?_
  simp only [gt_iff_lt, Bool.and_eq_true, decide_eq_true_eq] at h2
  exact ⟨rfl, h1.symm, h2⟩

theorem vector_nu (d : List α) : NU (Mat.vector d) fun b => b.rows = d.length ∧ b.data.length = d.length ∧ 0 < d.length := by
  unfold Mat.vector
  exact (NU.assertD _).bind fun _ h => NU.ok ⟨rfl, rfl, h⟩

theorem rowVector_nu (d : List α) : NU (Mat.rowVector d) fun b => b.rows = 1 ∧ b.data.length = d.length ∧ 0 < d.length := by
  unfold Mat.rowVector
  exact (NU.assertD _).bind fun _ h => NU.ok ⟨rfl, rfl, h⟩

theorem zeroFill_nu [Zero α] (N : Nat) : NU (zeroFill (α := α) N) fun d => Pre d N N :=
  fill_nu fun _ _ _ hd => hd.wr 0

theorem keep_nu {N : Nat} {d : Buf α} (hd : Pre d N N) (lo hi : Nat) {f : Nat → Buf α → R (Buf α)}
    (hf : ∀ i d, Pre d N N → NU (f i d) fun d => Pre d N N) : NU (loop lo hi d f) fun d => Pre d N N :=
  NU.loopC (fun d => Pre d N N) hd fun i d _ _ hd => hf i d hd

theorem id_nu [Zero α] [One α] (m n : Nat) : Shaped (Mat.id (α := α) m n) m (m * n) := by
  unfold Mat.id
  exact (zeroFill_nu _).bind fun d hd => (keep_nu hd _ _ fun i d hd => hd.wr' _ _).bind fun d hd => frozen_nu hd

theorem zero_nu [Zero α] (m n : Nat) : Shaped (Mat.zero (α := α) m n) m (m * n) := by
  unfold Mat.zero
  exact (zeroFill_nu _).bind fun d hd => frozen_nu hd

theorem diag_nu [Zero α] (v : List α) : NU (Mat.diag v) fun b => b.rows = v.length ∧ b.data.length = v.length * v.length ∧ 0 < v.length := by
  unfold Mat.diag
  refine (zeroFill_nu _).bind fun d hd => (keep_nu hd _ _ fun i d hd => (NU.idxT _ _).bind fun x _ => hd.wr' _ _).bind fun d hd =>
    (hd.freeze le_rfl).bind fun l _ => (new_nu _ _ _).mono fun b hb => ⟨hb.1, hb.2.1, hb.2.2.1⟩

theorem blockDiag_nu [Zero α] (m n : Nat) (v : List α) :
    NU (Mat.blockDiag m n v) fun b => b.rows = m ∧ b.data.length = m * n ∧ 0 < m ∧ 0 < n := by
  unfold Mat.blockDiag
  exact (NU.assertEq _ _).bind fun _ _ => (zeroFill_nu _).bind fun d hd =>
    (keep_nu hd _ _ fun i d hd => (NU.idxT _ _).bind fun x _ => hd.wr' _ _).bind fun d hd =>
    (hd.freeze le_rfl).bind fun l _ => new_nu _ _ _

theorem zeroVector_nu [Zero α] (n : Nat) : Shaped (Mat.zeroVector (α := α) n) n n := by
  unfold Mat.zeroVector
  exact (zeroFill_nu _).bind fun d hd => frozen_nu hd

theorem oneVector_nu [One α] (n : Nat) : Shaped (Mat.oneVector (α := α) n) n n := by
  unfold Mat.oneVector
  exact (fill_nu fun _ _ _ hd => hd.wr 1).bind fun d hd => frozen_nu hd

theorem random_nu (draw : Nat → α) (m n : Nat) : Shaped (Mat.random draw m n) m (m * n) := by
  unfold Mat.random
  exact (fill_nu fun _ _ _ hd => hd.wr _).bind fun d hd => frozen_nu hd

theorem map_nu (a : Mat α) (f : α → β) : Shaped (a.map f) a.rows a.data.length :=
  (fill_nu fun i _ _ hd => (NU.idxT _ _).bind fun _ _ => hd.wr _).bind fun _ hd => frozen_nu hd

theorem mmap_nu (a : Mat α) (f : α → α) : Shaped (a.mmap f) a.rows a.data.length := by
  unfold Mat.mmap
  refine NU.bind (NU.loopC (fun d => d.length = a.data.length) rfl fun i d _ _ hd => ?_) fun d hd => NU.ok ⟨rfl, hd⟩
  exact (NU.idxT _ _).bind fun x _ => (NU.setIdx d i _).mono fun w hw => hw.trans hd

theorem assertSameShape_nu (a m : Mat α) : NU (assertSameShape a m) fun _ =>
    0 < a.rows ∧ a.rows = m.rows ∧ a.data.length / a.rows = m.data.length / m.rows := by
  unfold assertSameShape
  refine (NU.assertEq _ _).bind fun _ h1 => (NU.cols a).bind fun c hc => (NU.cols m).bind fun c' hc' =>
    (NU.assertEq _ _).mono fun _ h2 => ⟨hc.1, h1, ?_⟩
  rw [← hc.2, ← hc'.2]; exact h2

/-- The allocating binary elementwise operations. -/
theorem bin_nu (a m : Mat α) (g : α → α → R α) (hg : ∀ x y, NU (g x y) fun _ => True) :
    Shaped (do
      assertSameShape a m
      let d ← loop 0 a.data.length (alloc α a.data.length) fun i d => do
        let x ← idx a.data i
        let y ← idx m.data i
        let z ← g x y
        wr d i z
      return ⟨a.rows, ← freeze d⟩) a.rows a.data.length :=
  (assertSameShape_nu a m).bind fun _ _ =>
    (fill_nu fun i _ _ hd => (NU.idxT _ _).bind fun x _ => (NU.idxT _ _).bind fun y _ => (hg x y).bind fun _ _ => hd.wr _).bind
      fun _ hd => frozen_nu hd

/-- The in-place binary elementwise operations. -/
theorem mbin_nu (a m : Mat α) (g : α → α → R α) (hg : ∀ x y, NU (g x y) fun _ => True) :
    Shaped (do
      assertSameShape a m
      let d ← loop 0 a.data.length a.data fun i d => do
        let x ← idx d i
        let y ← idx m.data i
        let z ← g x y
        setIdx d i z
      return ⟨a.rows, d⟩) a.rows a.data.length :=
  (assertSameShape_nu a m).bind fun _ _ =>
    (NU.loopC (fun d => d.length = a.data.length) rfl fun i d _ _ hd => (NU.idxT _ _).bind fun x _ => (NU.idxT _ _).bind fun y _ =>
      (hg x y).bind fun _ _ => (NU.setIdx d i _).mono fun w hw => hw.trans hd).bind fun d hd => NU.ok ⟨rfl, hd⟩

theorem add_nu [Add α] (a m : Mat α) : Shaped (a.add m) a.rows a.data.length := bin_nu a m (fun x y => .ok (x + y)) fun _ _ => NU.ok trivial
theorem sub_nu [Sub α] (a m : Mat α) : Shaped (a.sub m) a.rows a.data.length := bin_nu a m (fun x y => .ok (x - y)) fun _ _ => NU.ok trivial
theorem elemMul_nu [Mul α] (a m : Mat α) : Shaped (a.elemMul m) a.rows a.data.length := bin_nu a m (fun x y => .ok (x * y)) fun _ _ => NU.ok trivial
theorem elemDiv_nu [RDiv α] (h : ∀ x y : α, NU (RDiv.rdiv x y) fun _ => True) (a m : Mat α) :
    Shaped (a.elemDiv m) a.rows a.data.length := bin_nu a m (fun x y => RDiv.rdiv x y) h
theorem madd_nu [Add α] (a m : Mat α) : Shaped (a.madd m) a.rows a.data.length := mbin_nu a m (fun x y => .ok (x + y)) fun _ _ => NU.ok trivial
theorem msub_nu [Sub α] (a m : Mat α) : Shaped (a.msub m) a.rows a.data.length := mbin_nu a m (fun x y => .ok (x - y)) fun _ _ => NU.ok trivial
theorem melemMul_nu [Mul α] (a m : Mat α) : Shaped (a.melemMul m) a.rows a.data.length := mbin_nu a m (fun x y => .ok (x * y)) fun _ _ => NU.ok trivial
theorem melemDiv_nu [RDiv α] (h : ∀ x y : α, NU (RDiv.rdiv x y) fun _ => True) (a m : Mat α) :
    Shaped (a.melemDiv m) a.rows a.data.length := mbin_nu a m (fun x y => RDiv.rdiv x y) h

theorem neg_nu [Neg α] (a : Mat α) : Shaped a.neg a.rows a.data.length := map_nu a fun x => -x
theorem mneg_nu [Neg α] (a : Mat α) : Shaped a.mneg a.rows a.data.length := mmap_nu a fun x => -x
theorem scale_nu [Mul α] (a : Mat α) (k : α) : Shaped (a.scale k) a.rows a.data.length := map_nu a fun x => k * x
theorem mscale_nu [Mul α] (a : Mat α) (k : α) : Shaped (a.mscale k) a.rows a.data.length := mmap_nu a fun x => k * x

theorem reduce_nu (a : Mat α) (init : List β) (f : β → α → β) :
    NU (a.reduce init f) fun b => b.rows = 1 ∧ b.data.length = a.data.length / a.rows ∧ 0 < a.rows := by
  unfold Mat.reduce
  refine (NU.cols a).bind fun c hc => (NU.assertEq _ _).bind fun _ h1 => ?_
  refine NU.bind (P := fun s : List β × Nat => s.1.length = init.length) (NU.loopC (fun s : List β × Nat => s.1.length = init.length) rfl ?_) ?_
  · rintro i ⟨d, k⟩ - - hd
    dsimp only
    refine (NU.idxT _ _).bind fun x _ => (NU.idxT _ _).bind fun y _ => (NU.setIdx _ _ _).bind fun d' hd' => (NU.umod _ _).bind fun k' _ => ?_
    exact NU.ok (hd'.trans hd)
  · rintro ⟨d, k⟩ hd
    refine NU.ok ⟨rfl, ?_, hc.1⟩
    rw [← hc.2, ← h1]; exact hd

theorem get_nu (a : Mat α) (r c : Nat) : NU (a.get r c) fun _ => True :=
  (NU.assertD _).bind fun _ _ => (NU.cols a).bind fun _ _ => (NU.assertD _).bind fun _ _ => NU.idxT _ _

theorem getRef_nu (a : Mat α) (r c : Nat) : NU (a.getRef r c) fun _ => True := get_nu a r c

theorem set_nu (a : Mat α) (r c : Nat) (v : α) : Shaped (a.set r c v) a.rows a.data.length :=
  (NU.assertD _).bind fun _ _ => (NU.cols a).bind fun _ _ => (NU.assertD _).bind fun _ _ => (NU.setIdx _ _ _).bind
    fun _ h => NU.ok ⟨rfl, h⟩

theorem mul_nu [Zero α] [Add α] [Mul α] (a m : Mat α) : NU (a.mul m) fun b =>
    b.rows = a.rows ∧ b.data.length = a.rows * (m.data.length / m.rows) ∧ 0 < a.rows ∧ 0 < m.rows := by
  unfold Mat.mul
  refine (NU.cols a).bind fun ac hac => (NU.assertEq _ _).bind fun _ _ => (NU.cols m).bind fun mc hmc => ?_
  rw [← hmc.2]
  refine NU.bind (fill2_nu fun i j d _ _ hd => ?_) fun d hd => (frozen_nu hd).mono fun b hb => ⟨hb.1, hb.2, hac.1, hmc.1⟩
  refine NU.bind (P := fun _ => True) (NU.loopC _ trivial fun k r _ _ _ => ?_) fun r _ => hd.wr r
  exact (getRef_nu _ _ _).bind fun _ _ => (getRef_nu _ _ _).bind fun _ _ => NU.ok trivial

theorem mmul_nu [Zero α] [Add α] [Mul α] (a m : Mat α) : NU (a.mmul m) fun b =>
    b.rows = a.rows ∧ b.data.length = a.rows * (m.data.length / m.rows) ∧ 0 < a.rows ∧ 0 < m.rows := mul_nu a m

/-! ## Block operations -/

theorem rect_div {r l c : Nat} (hr : 0 < r) (h : l = r * c) : l / r = c := by
  rw [h, Nat.mul_div_cancel_left _ hr]

theorem cr_nu (a m : Mat α) {c c' : Nat} (ha : a.data.length = a.rows * c) (hm : m.data.length = m.rows * c') :
    NU (a.cr m) fun b => b.rows = a.rows ∧ b.data.length = a.rows * (c + c') ∧ a.rows = m.rows := by
  unfold Mat.cr
  refine (NU.assertEq _ _).bind fun _ h1 => ?_
  have hN : a.data.length + m.data.length = a.rows * (c + c') := by rw [ha, hm, ← h1, Nat.mul_add]
  rw [hN]
  refine NU.bind (P := fun s : Buf α × Nat × Nat × Nat => Pre s.1 (a.rows * (c + c')) s.2.2.2 ∧ s.2.2.2 = a.rows * (c + c'))
    (NU.loop (fun i (s : Buf α × Nat × Nat × Nat) => Pre s.1 (a.rows * (c + c')) s.2.2.2 ∧ s.2.2.2 = i * (c + c')) (Nat.zero_le _)
      ⟨pre_alloc _, by simp⟩ ?_) ?_
  · rintro i ⟨d, s1, s2, di⟩ - hi ⟨hd, hdi⟩
    dsimp only at hd hdi ⊢
    refine (NU.cols a).bind fun ac hac => ?_
    rw [hac.2, rect_div hac.1 ha]
    refine NU.bind (P := fun s : Buf α × Nat × Nat => Pre s.1 (a.rows * (c + c')) s.2.2 ∧ s.2.2 = di + c)
      (NU.loop (fun k (s : Buf α × Nat × Nat) => Pre s.1 (a.rows * (c + c')) s.2.2 ∧ s.2.2 = di + k) (Nat.zero_le _) ⟨hd, rfl⟩ ?_) ?_
    · rintro k ⟨d, s1, di⟩ - - ⟨hd, h⟩
      exact (NU.idxT _ _).bind fun x _ => (hd.wr x).bind fun d' hd' => NU.ok ⟨hd', by dsimp only at h ⊢; omega⟩
    · rintro ⟨d, s1, di'⟩ ⟨hd, hdi'⟩
      dsimp only at hd hdi' ⊢
      refine (NU.cols m).bind fun mc hmc => ?_
      rw [hmc.2, rect_div hmc.1 hm]
      refine NU.bind (P := fun s : Buf α × Nat × Nat => Pre s.1 (a.rows * (c + c')) s.2.2 ∧ s.2.2 = di' + c')
        (NU.loop (fun k (s : Buf α × Nat × Nat) => Pre s.1 (a.rows * (c + c')) s.2.2 ∧ s.2.2 = di' + k) (Nat.zero_le _) ⟨hd, rfl⟩ ?_) ?_
      · rintro k ⟨d, s1, di⟩ - - ⟨hd, h⟩
        exact (NU.idxT _ _).bind fun x _ => (hd.wr x).bind fun d' hd' => NU.ok ⟨hd', by dsimp only at h ⊢; omega⟩
      · rintro ⟨d, s2, di''⟩ ⟨hd, hdi''⟩
        refine NU.ok ⟨hd, ?_⟩
        dsimp only at hdi'' ⊢
        rw [Nat.add_mul]; omega
  · rintro ⟨d, s1, s2, di⟩ ⟨hd, hdi⟩
    dsimp only at hd hdi ⊢
    rw [hdi] at hd
    exact (frozen_nu hd).mono fun b hb => ⟨hb.1, hb.2, h1⟩

theorem cb_nu (a m : Mat α) : NU (a.cb m) fun b => b.rows = a.rows + m.rows ∧ b.data.length = a.data.length + m.data.length ∧
    0 < a.rows ∧ 0 < m.rows ∧ a.data.length / a.rows = m.data.length / m.rows := by
  unfold Mat.cb
  refine (NU.cols a).bind fun ac hac => (NU.cols m).bind fun mc hmc => (NU.assertEq _ _).bind fun _ h1 => ?_
  set N := a.data.length + m.data.length
  refine NU.bind (P := fun d => Pre d N a.data.length) (NU.loop (fun i d => Pre d N i) (Nat.zero_le _) (pre_alloc _) ?_) fun d hd => ?_
  · intro i d _ _ hd
    exact (NU.idxT _ _).bind fun x _ => hd.wr x
  refine NU.bind (P := fun d => Pre d N N) (NU.loop (fun i d => Pre d N (a.data.length + i)) (Nat.zero_le _) hd ?_) fun d hd => ?_
  · intro i d _ _ hd
    exact (NU.idxT _ _).bind fun x _ => hd.wr x
  · exact (frozen_nu hd).mono fun b hb => ⟨hb.1, hb.2, hac.1, hmc.1, by rw [← hac.2, ← hmc.2]; exact h1⟩

theorem t_nu (a : Mat α) : NU a.t fun b => b.rows = a.data.length / a.rows ∧ b.data.length = a.data.length ∧ 0 < a.rows := by
  unfold Mat.t
  refine NU.bind (P := fun s : Buf α × Nat => Pre s.1 a.data.length a.data.length)
    (NU.loop (fun i (s : Buf α × Nat) => Pre s.1 a.data.length i) (Nat.zero_le _) (pre_alloc _) ?_) ?_
  · rintro i ⟨d, src⟩ - - hd
    exact (NU.idxT _ _).bind fun x _ => (Pre.wr hd x).bind fun d' hd' => (NU.cols a).bind fun _ _ => NU.ok hd'
  · rintro ⟨d, src⟩ hd
    refine (NU.cols a).bind fun c hc => (frozen_nu hd).mono fun b hb => ⟨hb.1.trans hc.2, hb.2, hc.1⟩

theorem mtCycle_nu (rows last ci fuel i : Nat) (prev : α) (data : List α) (visited : List Bool) :
    NU (mtCycle rows last ci fuel i prev data visited) fun s => s.1.length = data.length := by
  induction fuel generalizing i prev data visited with
  | zero => exact NU.error nofun
  | succ fuel ih =>
    rw [mtCycle]
    refine (NU.umod _ _).bind fun k _ => (NU.idxT _ _).bind fun cur _ => (NU.setIdx _ _ _).bind fun d hd => ?_
    split
    · exact NU.ok hd
    · exact (NU.setIdx _ _ _).bind fun v _ => (ih _ _ _ _).mono fun s hs => hs.trans hd

theorem mt_nu (fuel : Nat) (a : Mat α) :
    NU (a.mt fuel) fun b => b.rows = a.data.length / a.rows ∧ b.data.length = a.data.length ∧ 0 < a.rows := by
  unfold Mat.mt
  refine (NU.usub _ _).bind fun last _ => ?_
  refine NU.bind (P := fun s : List α × List Bool => s.1.length = a.data.length)
    (NU.loopC (fun (s : List α × List Bool) => s.1.length = a.data.length) rfl ?_) ?_
  · rintro i ⟨d, v⟩ - - hd
    dsimp only
    refine (NU.idxT _ _).bind fun b _ => ?_
    split
    · exact NU.ok hd
    · exact (NU.idxT _ _).bind fun x _ => (mtCycle_nu _ _ _ _ _ _ _ _).mono fun s hs => hs.trans hd
  · rintro ⟨d, v⟩ hd
    dsimp only at hd ⊢
    exact (NU.cols _).bind fun c hc => NU.ok ⟨by rw [hc.2]; simp only [hd], hd, hc.1⟩

theorem minor_nu (a : Mat α) (row col : Nat) : NU (a.minor row col) fun b =>
    b.rows = a.rows - 1 ∧ b.data.length = (a.rows - 1) * (a.data.length / a.rows - 1) ∧ 1 < a.rows ∧ 1 < a.data.length / a.rows := by
  unfold Mat.minor
  refine (NU.assertD _).bind fun _ hrow => (NU.cols a).bind fun c hc => (NU.assert _).bind fun _ h => ?_
  simp only [gt_iff_lt, Bool.and_eq_true, decide_eq_true_eq] at h
  obtain ⟨⟨hcol, hr1⟩, hc1⟩ := h
  obtain ⟨hr0, rfl⟩ := hc
  set c := a.data.length / a.rows
  set N := (c - 1) * (a.rows - 1) with hN
  refine NU.bind (P := fun s : Buf α × Nat × Nat => Pre s.1 N s.2.2 ∧ s.2.2 = N)
    (NU.loop (fun i (s : Buf α × Nat × Nat) => Pre s.1 N s.2.2 ∧ s.2.2 = (if i ≤ row then i else i - 1) * (c - 1)) (Nat.zero_le _) ⟨pre_alloc _, by simp⟩ ?_ |>.mono ?_) ?_
  · rintro i ⟨d, sr, di⟩ - hi ⟨hd, hdi⟩
    dsimp only at hd hdi ⊢
    split
    · next h =>
      refine NU.bind (P := fun s : Buf α × Nat => Pre s.1 N s.2 ∧ s.2 = di + (c - 1)) ?_ ?_
      · refine (NU.loop (fun k (s : Buf α × Nat) => Pre s.1 N s.2 ∧ s.2 = di + (if k ≤ col then k else k - 1)) (Nat.zero_le _) ⟨hd, by simp⟩ ?_).mono ?_
        · rintro k ⟨d, dk⟩ - hk ⟨hd, hdk⟩
          dsimp only at hd hdk ⊢
          split
          · next hkc =>
            refine (NU.idxT _ _).bind fun x _ => (hd.wr x).bind fun d' hd' => NU.ok ⟨hd', ?_⟩
            dsimp only
            rw [hdk]; split <;> split <;> omega
          · next hkc =>
            refine NU.ok ⟨hd, ?_⟩
            dsimp only
            rw [hdk]; split <;> split <;> omega
        · rintro ⟨d, dk⟩ ⟨hd, hdk⟩
          refine ⟨hd, ?_⟩
          dsimp only at hdk ⊢
          rw [hdk, if_neg (by omega)]
      · rintro ⟨d', di'⟩ ⟨hd', hdi'⟩
        refine NU.ok ⟨hd', ?_⟩
        dsimp only at hdi' ⊢
        rw [hdi', hdi]
        by_cases h2 : i ≤ row
        · rw [if_pos h2, if_pos (by omega), Nat.add_mul, Nat.one_mul]
        · rw [if_neg h2, if_neg (by omega), show i + 1 - 1 = (i - 1) + 1 by omega, Nat.add_mul, Nat.one_mul]
    · next h =>
      refine NU.ok ⟨hd, ?_⟩
      dsimp only
      rw [hdi, if_pos (by omega), if_neg (by omega)]; rfl
  · rintro ⟨d, sr, di⟩ ⟨hd, hdi⟩
    refine ⟨hd, ?_⟩
    dsimp only at hdi ⊢
    rw [hdi, if_neg (by omega), Nat.mul_comm]
  · rintro ⟨d, sr, di⟩ ⟨hd, hdi⟩
    dsimp only at hd hdi ⊢
    rw [hdi] at hd
    exact (frozen_nu hd).mono fun b hb => ⟨hb.1, by rw [hb.2, hN, Nat.mul_comm], hr1, hc1⟩

theorem subMatrix_nu (a : Mat α) (sr sc er ec : Nat) : NU (a.subMatrix sr sc er ec) fun b =>
    b.rows = er - sr ∧ b.data.length = (er - sr) * (ec - sc) ∧ sr < er ∧ sc < ec := by
  unfold Mat.subMatrix
  refine (NU.assertD _).bind fun _ h1 => (NU.assertD _).bind fun _ h2 => (NU.assertD _).bind fun _ _ =>
    (NU.cols a).bind fun c hc => (NU.assert _).bind fun _ _ => ?_
  dsimp only
  set N := (er - sr) * (ec - sc) with hN
  refine NU.bind (P := fun s : Buf α × Nat × Nat => Pre s.1 N s.2.2 ∧ s.2.2 = N)
    (NU.loop (fun i (s : Buf α × Nat × Nat) => Pre s.1 N s.2.2 ∧ s.2.2 = i * (ec - sc)) (Nat.zero_le _) ⟨pre_alloc _, by simp⟩ ?_) ?_
  · rintro i ⟨d, src, di⟩ - hi ⟨hd, hdi⟩
    dsimp only at hd hdi ⊢
    refine NU.bind (P := fun d => Pre d N (di + (ec - sc))) (NU.loop (fun k d => Pre d N (di + k)) (Nat.zero_le _) hd ?_) ?_
    · intro k d _ _ hd
      exact (NU.idxT _ _).bind fun x _ => hd.wr x
    · intro d hd
      exact NU.ok ⟨hd, by dsimp only; rw [hdi, Nat.add_mul, Nat.one_mul]⟩
  · rintro ⟨d, src, di⟩ ⟨hd, hdi⟩
    dsimp only at hd hdi ⊢
    rw [hdi] at hd
    exact (frozen_nu hd).mono fun b hb => ⟨hb.1, hb.2, h1, h2⟩

theorem getColumn_nu (a : Mat α) (col : Nat) : NU (a.getColumn col) fun b => b.rows = a.rows ∧ b.data.length = a.rows ∧ 0 < a.rows := by
  unfold Mat.getColumn
  refine (NU.cols a).bind fun c hc => (NU.assertD _).bind fun _ _ => ?_
  refine NU.bind (P := fun s : Buf α × Nat => Pre s.1 a.rows a.rows)
    (NU.loop (fun i (s : Buf α × Nat) => Pre s.1 a.rows i) (Nat.zero_le _) (pre_alloc _) ?_) ?_
  · rintro i ⟨d, src⟩ - - hd
    exact (NU.idxT _ _).bind fun x _ => (Pre.wr hd x).bind fun d' hd' => (NU.cols a).bind fun _ _ => NU.ok hd'
  · rintro ⟨d, src⟩ hd
    exact (frozen_nu hd).mono fun b hb => ⟨hb.1, hb.2, hc.1⟩

theorem permuteRows_nu (a : Mat α) (l : List Nat) : NU (a.permuteRows l) fun b =>
    b.rows = l.length ∧ b.data.length = l.length * (a.data.length / a.rows) ∧ 0 < a.rows := by
  unfold Mat.permuteRows
  refine (NU.cols a).bind fun c hc => ?_
  dsimp only
  rw [← hc.2]
  refine NU.bind (P := fun s : Buf α × Nat => Pre s.1 (l.length * c) s.2 ∧ s.2 = l.length * c)
    (NU.loop (fun i (s : Buf α × Nat) => Pre s.1 (l.length * c) s.2 ∧ s.2 = i * c) (Nat.zero_le _) ⟨pre_alloc _, by simp⟩ ?_) ?_
  · rintro i ⟨d, di⟩ - hi ⟨hd, hdi⟩
    dsimp only at hd hdi ⊢
    refine (NU.idxT _ _).bind fun x _ => (NU.idxT _ _).bind fun _ _ => (NU.assertD _).bind fun _ _ => ?_
    refine (NU.loop (fun k s => Pre s.1 (l.length * c) s.2 ∧ s.2 = di + k) (Nat.zero_le _) ⟨hd, rfl⟩ ?_).mono ?_
    · rintro k ⟨d, dk⟩ - - ⟨hd, h⟩
      exact (NU.idxT _ _).bind fun x _ => (hd.wr x).bind fun d' hd' => NU.ok ⟨hd', by dsimp only at h ⊢; omega⟩
    · rintro ⟨d, dk⟩ ⟨hd, h⟩
      exact ⟨hd, by dsimp only at h ⊢; rw [h, hdi, Nat.add_mul, Nat.one_mul]⟩
  · rintro ⟨d, di⟩ ⟨hd, hdi⟩
    dsimp only at hd hdi ⊢
    rw [hdi] at hd
    exact (frozen_nu hd).mono fun b hb => ⟨hb.1, hb.2, hc.1⟩

theorem permuteColumns_nu (a : Mat α) (l : List Nat) : Shaped (a.permuteColumns l) a.rows (a.rows * l.length) := by
  unfold Mat.permuteColumns
  dsimp only
  refine NU.bind (P := fun s : Buf α × Nat × Nat => Pre s.1 (a.rows * l.length) s.2.1 ∧ s.2.1 = a.rows * l.length)
    (NU.loop (fun i (s : Buf α × Nat × Nat) => Pre s.1 (a.rows * l.length) s.2.1 ∧ s.2.1 = i * l.length) (Nat.zero_le _) ⟨pre_alloc _, by simp⟩ ?_) ?_
  · rintro i ⟨d, di, ri⟩ - hi ⟨hd, hdi⟩
    dsimp only at hd hdi ⊢
    refine NU.bind (P := fun s : Buf α × Nat => Pre s.1 (a.rows * l.length) s.2 ∧ s.2 = di + l.length)
      (NU.loop (fun k (s : Buf α × Nat) => Pre s.1 (a.rows * l.length) s.2 ∧ s.2 = di + k) (Nat.zero_le _) ⟨hd, rfl⟩ ?_) ?_
    · rintro k ⟨d, dk⟩ - - ⟨hd, h⟩
      dsimp only at hd h ⊢
      refine (NU.idxT _ _).bind fun x _ => (NU.cols a).bind fun _ _ => (NU.assertD _).bind fun _ _ => (NU.idxT _ _).bind fun x _ => (NU.idxT _ _).bind fun x _ => ?_
      exact (hd.wr x).bind fun d' hd' => NU.ok ⟨hd', by dsimp only; omega⟩
    · rintro ⟨d, dk⟩ ⟨hd, h⟩
      exact (NU.cols a).bind fun _ _ => NU.ok ⟨hd, by dsimp only at h ⊢; rw [h, hdi, Nat.add_mul, Nat.one_mul]⟩
  · rintro ⟨d, di, ri⟩ ⟨hd, hdi⟩
    dsimp only at hd hdi ⊢
    rw [hdi] at hd
    exact frozen_nu hd

theorem collect_nu (n : Nat) {f : Nat → R Bool} (hf : ∀ i, i < n → NU (f i) fun _ => True) :
    NU (collect n f) fun l => (∃ i, i < n ∧ f i = .ok true) → l ≠ [] := by
  unfold collect
  refine (NU.loop (fun k l => (∃ i, i < k ∧ f i = .ok true) → l ≠ []) (Nat.zero_le _) ?_ ?_).mono fun l hl => hl
  · rintro ⟨i, hi, -⟩; omega
  · intro i l _ hi hl
    refine ((hf i hi).and (Q := fun b => f i = .ok b) ⟨(hf i hi).1, fun a h => h⟩).bind fun b hb => ?_
    cases b with
    | true => exact NU.ok fun _ => by simp
    | false =>
      refine NU.ok ?_
      rintro ⟨j, hj, hj'⟩
      refine hl ⟨j, ?_, hj'⟩
      rcases Nat.lt_succ_iff_lt_or_eq.1 hj with h | rfl
      · exact h
      · rw [hb.2] at hj'; cases hj'

theorem filterRows_nu (a : Mat α) (f : Mat α → Nat → Bool) : NU (a.filterRows f) fun b =>
    b.data.length = b.rows * (a.data.length / a.rows) ∧ 0 < a.rows ∧ ((∃ i, i < a.rows ∧ f a i = true) → 0 < b.rows) := by
  unfold Mat.filterRows
  refine (collect_nu _ fun _ _ => NU.ok trivial).bind fun l hl => (permuteRows_nu a l).mono fun b hb => ⟨by rw [hb.1, hb.2.1], hb.2.2, ?_⟩
  rintro ⟨i, hi, h⟩
  rw [hb.1]
  exact List.length_pos_of_ne_nil (hl ⟨i, hi, by rw [h]⟩)

theorem filterColumns_nu (a : Mat α) (f : Mat α → Nat → Bool) : NU (a.filterColumns f) fun b =>
    b.rows = a.rows ∧ 0 < a.rows ∧ ∃ c, b.data.length = b.rows * c ∧ ((∃ i, i < a.data.length / a.rows ∧ f a i = true) → 0 < c) := by
  unfold Mat.filterColumns
  refine (NU.cols a).bind fun c hc => (collect_nu _ fun _ _ => NU.ok trivial).bind fun l hl =>
    (permuteColumns_nu a l).mono fun b hb => ⟨hb.1, hc.1, l.length, by rw [hb.1, hb.2], ?_⟩
  rintro ⟨i, hi, h⟩
  exact List.length_pos_of_ne_nil (hl ⟨i, by rw [hc.2]; exact hi, by rw [h]⟩)

theorem idx_true {s : List Bool} (h : true ∈ s) : ∃ i, i < s.length ∧ idx s i = .ok true := by
  obtain ⟨i, hi, h⟩ := List.getElem_of_mem h
  exact ⟨i, hi, by rw [idx_lt hi, h]⟩

theorem selectRows_nu (a : Mat α) (s : List Bool) : NU (a.selectRows s) fun b =>
    b.data.length = b.rows * (a.data.length / a.rows) ∧ 0 < a.rows ∧ (true ∈ s → 0 < b.rows) := by
  unfold Mat.selectRows
  refine (NU.assertEq _ _).bind fun _ _ => (collect_nu _ fun _ _ => NU.idxT _ _).bind fun l hl => (permuteRows_nu a l).mono fun b hb => ⟨by rw [hb.1, hb.2.1], hb.2.2, ?_⟩
  intro h
  rw [hb.1]
  exact List.length_pos_of_ne_nil (hl (idx_true h))

theorem selectColumns_nu (a : Mat α) (s : List Bool) : NU (a.selectColumns s) fun b =>
    b.rows = a.rows ∧ 0 < a.rows ∧ ∃ c, b.data.length = b.rows * c ∧ (true ∈ s → 0 < c) := by
  unfold Mat.selectColumns
  refine (NU.cols a).bind fun c hc => (NU.assertEq _ _).bind fun _ _ => (collect_nu _ fun _ _ => NU.idxT _ _).bind fun l hl =>
    (permuteColumns_nu a l).mono fun b hb => ⟨hb.1, hc.1, l.length, by rw [hb.1, hb.2], ?_⟩
  exact fun h => List.length_pos_of_ne_nil (hl (idx_true h))

end Mat

theorem mMacro_nu (rows : List (List α)) : NU (mMacro rows) fun b => ∃ c, 0 < b.rows ∧ 0 < c ∧ b.data.length = b.rows * c := by
  unfold mMacro
  exact (NU.udiv _ _).bind fun c _ => (Mat.new_nu _ _ _).mono fun b hb => ⟨c, by rw [hb.1]; exact hb.2.2.1, hb.2.2.2, by rw [hb.1, hb.2.1]⟩

theorem foldlM_nu {γ : Type} {l : List γ} {f : σ → γ → R σ} (Inv : σ → Prop) {s : σ} (h0 : Inv s)
    (hf : ∀ s x, Inv s → NU (f s x) Inv) : NU (l.foldlM f s) Inv := by
  induction l generalizing s with
  | nil => exact NU.ok h0
  | cons x l ih => rw [List.foldlM_cons]; exact (hf s x h0).bind fun s' hs' => ih hs'

theorem readCsv_nu (cr : Bool) (ws : Char → Bool) (file : Option (List Char)) {p : List Char → R α}
    (hp : ∀ s, NU (p s) fun _ => True) :
    NU (readCsv cr ws file p) fun b => ∃ c, 0 < b.rows ∧ 0 < c ∧ b.data.length = b.rows * c := by
  unfold readCsv
  refine (NU.unwrap _).bind fun text _ => ?_
  refine NU.bind (P := fun _ => True) (foldlM_nu (fun _ => True) trivial ?_) ?_
  · rintro ⟨d, rc, cc⟩ line -
    unfold csvLine
    dsimp only
    refine NU.bind (P := fun _ => True) (foldlM_nu (fun _ => True) trivial ?_) fun d' _ => ?_
    · intro d x _; exact (hp _).bind fun _ _ => NU.ok trivial
    · refine (NU.usub _ _).bind fun c _ => NU.bind (P := fun _ => True) ?_ fun _ _ => NU.ok trivial
      split
      · exact NU.ok trivial
      · exact (NU.assert _).bind fun _ _ => NU.ok trivial
  · rintro ⟨d, rc, cc⟩ -
    dsimp only
    exact (NU.assert _).bind fun _ _ => (NU.unwrap _).bind fun c _ => (Mat.new_nu _ _ _).mono fun b hb => ⟨c, by rw [hb.1]; exact hb.2.2.1, hb.2.2.2, by rw [hb.1, hb.2.1]⟩

/-! ## Decompositions -/

/-- The element operations themselves do not touch uninitialised memory. -/
class Clean (α : Type) [FloatOps α] : Prop where
  rdiv : ∀ x y : α, RDiv.rdiv x y ≠ .error .uninit
  sqrt : ∀ x : α, FloatOps.sqrt x ≠ .error .uninit

theorem rdiv_nu [FloatOps α] [Clean α] (x y : α) : NU (RDiv.rdiv x y) fun _ => True := ⟨Clean.rdiv x y, fun _ _ => trivial⟩
theorem sqrt_nu [FloatOps α] [Clean α] (x : α) : NU (FloatOps.sqrt x) fun _ => True := ⟨Clean.sqrt x, fun _ _ => trivial⟩

theorem NU.loopT {lo hi : Nat} {s : σ} {f : Nat → σ → R σ} (h : ∀ i s, NU (f i s) fun _ => True) :
    NU (LA.loop lo hi s f) fun _ => True := NU.loopC _ trivial fun i s _ _ _ => h i s

theorem NU.loopRevT {lo hi : Nat} {s : σ} {f : Nat → σ → R σ} (h : ∀ i s, NU (f i s) fun _ => True) :
    NU (LA.loopRev lo hi s f) fun _ => True := NU.loopRevC _ trivial fun i s _ _ _ => h i s

theorem NU.setIdxT (v : List α) (i : Nat) (x : α) : NU (LA.setIdx v i x) (fun _ => True) := (NU.setIdx v i x).mono fun _ _ => trivial

/-- `0 < rows`, `0 < cols` and `rows × cols` elements. -/
theorem new_wf (r c : Nat) (d : List α) : NU (Mat.new r c d) fun b => b.rows = r ∧ WF b :=
  (Mat.new_nu r c d).mono fun b hb => ⟨hb.1, by rw [hb.1]; exact hb.2.2.1, c, hb.2.2.2, by rw [hb.1]; exact hb.2.1⟩

section
variable [Zero α] [One α] [Add α] [Sub α] [Neg α] [Mul α] [FloatOps α] [Clean α]

namespace LU

theorem column_nu (m n j : Nat) (d : List α) : NU (column m n j d) fun _ => True :=
  NU.loopT fun _ _ => (NU.loopT fun _ _ => (NU.idxT _ _).bind fun _ _ => (NU.idxT _ _).bind fun _ _ => NU.ok trivial).bind
    fun _ _ => (NU.idxT _ _).bind fun _ _ => NU.setIdxT _ _ _

theorem pivot_nu (m n j : Nat) (d : List α) : NU (pivot m n j d) fun _ => True :=
  NU.loopT fun _ _ => (NU.idxT _ _).bind fun _ _ => (NU.idxT _ _).bind fun _ _ => by split <;> exact NU.ok trivial

theorem swapRows_nu (n p j : Nat) (d : List α) : NU (swapRows n p j d) fun _ => True :=
  NU.loopT fun _ _ => (NU.idxT _ _).bind fun _ _ => (NU.idxT _ _).bind fun _ _ => (NU.setIdxT _ _ _).bind fun _ _ => NU.setIdxT _ _ _

theorem swapPiv_nu (p j : Nat) (piv : List Nat) : NU (swapPiv p j piv) fun v => v.length = piv.length :=
  (NU.idxT _ _).bind fun _ _ => (NU.idxT _ _).bind fun _ _ => (NU.setIdx _ _ _).bind fun _ h => (NU.setIdx _ _ _).mono fun _ h' => h'.trans h

theorem scale_nu (m n j : Nat) (d : List α) : NU (scale m n j d) fun _ => True := by
  unfold scale
  split
  · refine (NU.idxT _ _).bind fun _ _ => ?_
    split
    · exact NU.loopT fun _ _ => (NU.idxT _ _).bind fun _ _ => (NU.idxT _ _).bind fun _ _ => (rdiv_nu _ _).bind fun _ _ => NU.setIdxT _ _ _
    · exact NU.ok trivial
  · exact NU.ok trivial

theorem step_nu (m n j : Nat) (s : List α × List Nat × Bool) : NU (step m n j s) fun s' => s'.2.1.length = s.2.1.length := by
  unfold step
  refine (column_nu _ _ _ _).bind fun d _ => (pivot_nu _ _ _ _).bind fun p _ => ?_
  refine NU.bind (P := fun s' : List α × List Nat × Bool => s'.2.1.length = s.2.1.length) ?_ ?_
  · split
    · exact (swapRows_nu _ _ _ _).bind fun _ _ => (swapPiv_nu _ _ _).bind fun _ h => NU.ok h
    · exact NU.ok rfl
  · rintro ⟨d, piv, pos⟩ h
    exact (scale_nu _ _ _ _).bind fun _ _ => NU.ok h

theorem new_nu (a : Mat α) : NU (LU.new a) fun x => x.lu.rows = a.rows ∧ WF x.lu ∧ x.piv.length = a.rows := by
  unfold LU.new
  dsimp only
  refine (NU.cols a).bind fun n _ => (fill_nu fun _ _ _ hd => hd.wr _).bind fun d hd => (hd.freeze le_rfl).bind fun piv hpiv => ?_
  refine NU.bind (P := fun s : List α × List Nat × Bool => s.2.1.length = a.rows) (NU.loopC _ hpiv fun i s _ _ hs => (step_nu _ _ _ _).mono fun s' hs' => hs'.trans hs) ?_
  rintro ⟨d, piv, pos⟩ h
  exact (new_wf _ _ _).bind fun b hb => NU.ok ⟨hb.1, hb.2, h⟩

theorem isNonSingular_nu (x : LU α) : NU x.isNonSingular fun _ => True := by
  unfold isNonSingular
  refine (NU.cols _).bind fun n _ => NU.bind (P := fun _ => True) ((NU.loopF (fun _ _ => True) (Nat.zero_le n) trivial ?_).mono fun _ _ => trivial) ?_
  · intro i s _ _ _
    refine (NU.idxT _ _).bind fun _ _ => ?_
    split <;> exact NU.ok fun _ _ => trivial
  · intro o _; cases o <;> exact NU.ok trivial

theorem getL_nu (x : LU α) : NU x.getL WF := by
  unfold getL
  refine (NU.cols _).bind fun c _ => NU.bind (fill2_nu fun i j d _ _ hd => ?_) fun d hd => (hd.freeze le_rfl).bind fun l _ => (new_wf _ _ _).mono fun b hb => hb.2
  refine NU.bind (P := fun _ => True) ?_ fun v _ => hd.wr v
  split
  · exact NU.idxT _ _
  · split <;> exact NU.ok trivial

theorem getU_nu (x : LU α) : NU x.getU WF := by
  unfold getU
  refine (NU.cols _).bind fun c _ => NU.bind (fill2_nu fun i j d _ _ hd => ?_) fun d hd => (hd.freeze le_rfl).bind fun l _ => (new_wf _ _ _).mono fun b hb => hb.2
  refine NU.bind (P := fun _ => True) ?_ fun v _ => hd.wr v
  split
  · exact NU.idxT _ _
  · exact NU.ok trivial

theorem getP_nu (x : LU α) (h : 0 < x.piv.length) : NU x.getP WF := by
  unfold getP
  refine (Mat.id_nu _ _).bind fun e he => (Mat.permuteRows_nu e x.piv).mono fun b hb => ?_
  refine ⟨by rw [hb.1]; exact h, x.piv.length, h, ?_⟩
  rw [hb.2.1, hb.1, he.1, he.2, Nat.mul_div_cancel_left _ h]

theorem rhs_nu (piv : List Nat) (m nx : Nat) (b : Mat α) (h : piv.length = m) : NU (rhs piv m nx b) fun _ => True := by
  unfold rhs
  refine NU.bind (P := fun s : Buf α × Nat => Pre s.1 (m * nx) s.2 ∧ s.2 = m * nx)
    (h ▸ NU.loop (fun i (s : Buf α × Nat) => Pre s.1 (piv.length * nx) s.2 ∧ s.2 = i * nx) (Nat.zero_le piv.length) ⟨pre_alloc _, by simp⟩ ?_) ?_
  · rintro i ⟨d, di⟩ - hi ⟨hd, hdi⟩
    dsimp only at hd hdi
    refine (NU.loop (fun k (s : Buf α × Nat) => Pre s.1 (piv.length * nx) s.2 ∧ s.2 = di + k) (Nat.zero_le nx) ⟨hd, rfl⟩ ?_).mono ?_
    · rintro k ⟨d, dk⟩ - - ⟨hd, hk⟩
      dsimp only at hd hk
      exact (NU.idxT _ _).bind fun _ _ => (NU.cols _).bind fun _ _ => (NU.idxT _ _).bind fun x _ => (hd.wr x).bind fun d' hd' =>
        NU.ok ⟨hd', by dsimp only; omega⟩
    · rintro ⟨d, dk⟩ ⟨hd, hk⟩
      exact ⟨hd, by dsimp only at hk ⊢; rw [hk, hdi, Nat.add_mul, Nat.one_mul]⟩
  · rintro ⟨d, di⟩ ⟨hd, hdi⟩
    dsimp only at hd hdi ⊢
    exact (hd.freeze hdi.ge).mono fun _ _ => trivial

theorem forward_nu (lu : List α) (n c nx : Nat) (x : List α) : NU (forward lu n c nx x) fun _ => True :=
  NU.loopT fun _ _ => NU.loopT fun _ _ => NU.loopT fun _ _ => (NU.idxT _ _).bind fun _ _ => (NU.idxT _ _).bind fun _ _ =>
    (NU.idxT _ _).bind fun _ _ => NU.setIdxT _ _ _

theorem backward_nu (lu : List α) (n c nx : Nat) (x : List α) : NU (backward lu n c nx x) fun _ => True :=
  NU.loopRevT fun _ _ => (NU.loopT fun _ _ => (NU.idxT _ _).bind fun _ _ => (NU.idxT _ _).bind fun _ _ => (rdiv_nu _ _).bind fun _ _ => NU.setIdxT _ _ _).bind
    fun _ _ => NU.loopT fun _ _ => NU.loopT fun _ _ => (NU.idxT _ _).bind fun _ _ => (NU.idxT _ _).bind fun _ _ =>
    (NU.idxT _ _).bind fun _ _ => NU.setIdxT _ _ _

theorem solve_nu (x : LU α) (b : Mat α) (h : x.piv.length = x.lu.rows) : NU (x.solve b) fun o => ∀ y, o = some y → WF y := by
  unfold solve
  dsimp only
  refine (NU.cols _).bind fun n _ => (NU.assertEq _ _).bind fun _ _ => (isNonSingular_nu x).bind fun ns _ => ?_
  split
  · exact NU.ok nofun
  · refine (NU.cols _).bind fun nx _ => (rhs_nu _ _ _ _ h).bind fun xd _ => (NU.cols _).bind fun _ _ => (forward_nu _ _ _ _ _).bind fun xd _ =>
      (NU.cols _).bind fun _ _ => (backward_nu _ _ _ _ _).bind fun xd _ => (NU.cols _).bind fun _ _ => (new_wf _ _ _).bind fun y hy => NU.ok ?_
    rintro z hz; cases hz; exact hy.2

end LU

theorem Mat.solve_nu (a b : Mat α) : NU (a.solve b) fun o => ∀ y, o = some y → WF y :=
  (LU.new_nu a).bind fun x hx => x.solve_nu b (by rw [hx.2.2, hx.1])

theorem Mat.inverse_nu (a : Mat α) : NU a.inverse fun o => ∀ y, o = some y → WF y := by
  unfold Mat.inverse
  exact (NU.cols a).bind fun _ _ => (NU.assertEq _ _).bind fun _ _ => (LU.new_nu a).bind fun x hx => (Mat.id_nu _ _).bind fun e _ =>
    x.solve_nu e (by rw [hx.2.2, hx.1])

namespace Cholesky

theorem row_nu (m : Mat α) (n j : Nat) (hj : j < n) {d : Buf α} (hd : Pre d (n * n) (j * n)) :
    NU (row m n j d) fun o => ∀ s, o = .next s → Pre s.1 (n * n) (j * n + j) := by
  unfold row
  refine NU.loopF (fun k (s : Buf α × α) => Pre s.1 (n * n) (j * n + k)) (Nat.zero_le j) hd ?_
  rintro k ⟨d, acc⟩ - hk hd
  dsimp only at hd ⊢
  have hkn : k * n + k < j * n + k := by
    have : k * n + n ≤ j * n := by rw [← Nat.succ_mul]; exact Nat.mul_le_mul_right n hk
    omega
  refine NU.bind (P := fun _ => True) (NU.loopC _ trivial fun i s _ hi _ => ?_) fun s _ => ?_
  · exact (hd.rd (by omega)).bind fun _ _ => (hd.rd (by omega)).bind fun _ _ => NU.ok trivial
  · refine (Mat.get_nu _ _ _).bind fun _ _ => (hd.rd hkn).bind fun _ _ => (rdiv_nu _ _).bind fun v _ => (hd.wr v).bind fun d' hd' =>
      (Mat.get_nu _ _ _).bind fun _ _ => (Mat.get_nu _ _ _).bind fun _ _ => ?_
    split
    · exact NU.ok nofun
    · refine NU.ok ?_
      rintro s' hs'; cases hs'; exact hd'

theorem step_nu (m : Mat α) (n j : Nat) (hj : j < n) {d : Buf α} (hd : Pre d (n * n) (j * n)) :
    NU (step m n j d) fun o => ∀ s, o = .next s → Pre s (n * n) ((j + 1) * n) := by
  unfold step
  refine (row_nu m n j hj hd).bind fun o ho => ?_
  match o, ho with
  | .ret (), _ => exact NU.ok nofun
  | .next (d, acc), ho =>
    have hd := ho _ rfl
    dsimp only at hd ⊢
    refine (Mat.get_nu _ _ _).bind fun _ _ => ?_
    split
    · exact NU.ok nofun
    · refine (sqrt_nu _).bind fun v _ => (hd.wr v).bind fun d' hd' => ?_
      refine NU.bind (P := fun d => Pre d (n * n) (j * n + n)) (NU.loop (fun k d => Pre d (n * n) (j * n + k)) hj hd' fun k d _ _ hd => hd.wr _) fun d hd => NU.ok ?_
      rintro s hs; cases hs; rwa [Nat.succ_mul]

theorem new_nu (m : Mat α) : NU (Cholesky.new m) fun o => ∀ x, o = some x → WF x.l := by
  unfold Cholesky.new
  refine (NU.cols _).bind fun c _ => ?_
  split
  · exact NU.ok nofun
  · refine NU.bind (NU.loopF (fun j d => Pre d (m.rows * m.rows) (j * m.rows)) (Nat.zero_le _) (by simpa using pre_alloc _) fun j d _ hj hd => step_nu m m.rows j hj hd) fun o ho => ?_
    match o, ho with
    | .ret (), _ => exact NU.ok nofun
    | .next d, ho =>
      refine ((ho d rfl).freeze le_rfl).bind fun l _ => (new_wf _ _ _).bind fun b hb => NU.ok ?_
      rintro x hx; cases hx; exact hb.2

theorem solve_nu (c : Cholesky α) (b : Mat α) : NU (c.solve b) WF := by
  unfold solve
  refine (NU.assertEq _ _).bind fun _ _ => (NU.cols _).bind fun nx _ => NU.bind (P := fun _ => True) ?_ fun x _ => NU.bind (P := fun _ => True) ?_ fun x _ => (new_wf _ _ _).mono fun _ hb => hb.2
  · exact NU.loopT fun _ _ => NU.loopT fun _ _ => (NU.loopT fun _ _ => (NU.idxT _ _).bind fun _ _ => (NU.idxT _ _).bind fun _ _ => (NU.idxT _ _).bind fun _ _ => NU.setIdxT _ _ _).bind
      fun _ _ => (NU.idxT _ _).bind fun _ _ => (NU.idxT _ _).bind fun _ _ => (rdiv_nu _ _).bind fun _ _ => NU.setIdxT _ _ _
  · exact NU.loopRevT fun _ _ => NU.loopT fun _ _ => (NU.loopT fun _ _ => (NU.idxT _ _).bind fun _ _ => (NU.idxT _ _).bind fun _ _ => (NU.idxT _ _).bind fun _ _ => NU.setIdxT _ _ _).bind
      fun _ _ => (NU.idxT _ _).bind fun _ _ => (NU.idxT _ _).bind fun _ _ => (rdiv_nu _ _).bind fun _ _ => NU.setIdxT _ _ _

end Cholesky

namespace QR

theorem reflect_nu (minor : Nat) (q : List α) (m n N : Nat) {rdiag : Buf α} (hd : Pre rdiag N minor) :
    NU (reflect minor q m n rdiag) fun s => Pre s.2 N (minor + 1) := by
  unfold reflect
  refine NU.bind (P := fun _ => True) (NU.loopT fun _ _ => (NU.idxT _ _).bind fun _ _ => NU.ok trivial) fun nrm _ => ?_
  refine NU.bind (P := fun _ => True) ((NU.idxT _ _).bind fun _ _ => ?_) fun a _ => (hd.wr a).bind fun d hd => ?_
  · split
    · exact (sqrt_nu _).bind fun _ _ => NU.ok trivial
    · exact sqrt_nu _
  · split
    · refine (NU.idxT _ _).bind fun _ _ => (NU.setIdxT _ _ _).bind fun q _ => NU.bind (P := fun _ => True) (NU.loopT fun _ _ => ?_) fun _ _ => NU.ok hd
      exact (NU.loopT fun _ _ => (NU.idxT _ _).bind fun _ _ => (NU.idxT _ _).bind fun _ _ => NU.ok trivial).bind fun _ _ => (NU.idxT _ _).bind fun _ _ => (rdiv_nu _ _).bind fun _ _ =>
        NU.loopT fun _ _ => (NU.idxT _ _).bind fun _ _ => (NU.idxT _ _).bind fun _ _ => NU.setIdxT _ _ _
    · exact NU.ok hd

theorem new_nu (a : Mat α) : NU (QR.new a) fun x => x.qr.rows = a.rows ∧ WF x.qr := by
  unfold QR.new
  refine (NU.cols a).bind fun n _ => ?_
  refine NU.bind (P := fun s : List α × Buf α => Pre s.2 (min a.rows n) (min a.rows n))
    (NU.loop (fun i (s : List α × Buf α) => Pre s.2 (min a.rows n) i) (Nat.zero_le _) (pre_alloc _) ?_) ?_
  · rintro i ⟨q, rd⟩ - _ hd
    exact reflect_nu _ _ _ _ _ hd
  · rintro ⟨q, rd⟩ hd
    dsimp only at hd ⊢
    exact (new_wf _ _ _).bind fun b hb => (hd.freeze le_rfl).bind fun _ _ => NU.ok hb

theorem getH_nu (x : QR α) : NU x.getH WF := by
  unfold getH
  refine (NU.cols _).bind fun c _ => NU.bind (fill2_nu fun i j d _ _ hd => ?_) fun d hd => (hd.freeze le_rfl).bind fun l _ => (new_wf _ _ _).mono fun b hb => hb.2
  refine NU.bind (P := fun _ => True) ?_ fun v _ => hd.wr v
  split
  · exact NU.idxT _ _
  · exact NU.ok trivial

theorem getR_nu (x : QR α) : NU x.getR WF := by
  unfold getR
  refine (NU.cols _).bind fun c _ => NU.bind (fill2_nu fun i j d _ _ hd => ?_) fun d hd => (hd.freeze le_rfl).bind fun l _ => (new_wf _ _ _).mono fun b hb => hb.2
  refine NU.bind (P := fun _ => True) ?_ fun v _ => hd.wr v
  split
  · exact NU.idxT _ _
  · split
    · exact NU.idxT _ _
    · exact NU.ok trivial

theorem getQ_nu (x : QR α) : NU x.getQ WF := by
  unfold getQ
  refine (NU.cols _).bind fun c _ => NU.bind (P := fun _ => True) (NU.loopT fun _ _ => NU.setIdxT _ _ _) fun q _ =>
    NU.bind (P := fun _ => True) (NU.loopRevT fun _ _ => (NU.idxT _ _).bind fun _ _ => ?_) fun q _ => (new_wf _ _ _).mono fun _ hb => hb.2
  split
  · exact NU.loopT fun _ _ => (NU.loopT fun _ _ => (NU.idxT _ _).bind fun _ _ => (NU.idxT _ _).bind fun _ _ => NU.ok trivial).bind fun _ _ =>
      (NU.idxT _ _).bind fun _ _ => (NU.idxT _ _).bind fun _ _ => (rdiv_nu _ _).bind fun _ _ =>
      NU.loopT fun _ _ => (NU.idxT _ _).bind fun _ _ => (NU.idxT _ _).bind fun _ _ => NU.setIdxT _ _ _
  · exact NU.ok trivial

theorem isFullRank_nu (x : QR α) : NU x.isFullRank fun _ => True := by
  unfold isFullRank
  refine (NU.cols _).bind fun n _ => NU.bind (P := fun _ => True) ((NU.loopF (fun _ _ => True) (Nat.zero_le n) trivial ?_).mono fun _ _ => trivial) ?_
  · intro i s _ _ _
    refine (NU.idxT _ _).bind fun _ _ => ?_
    split <;> exact NU.ok fun _ _ => trivial
  · intro o _; cases o <;> exact NU.ok trivial

theorem solve_nu (x : QR α) (b : Mat α) : NU (x.solve b) fun o => ∀ y, o = some y → WF y := by
  unfold solve
  refine (NU.assertEq _ _).bind fun _ _ => (isFullRank_nu x).bind fun fr _ => ?_
  split
  · exact NU.ok nofun
  · refine (NU.cols _).bind fun nx _ => (NU.cols _).bind fun n _ => NU.bind (P := fun _ => True) (NU.loopT fun _ _ => NU.loopT fun _ _ => ?_) fun d _ =>
      NU.bind (P := fun _ => True) (NU.loopRevT fun _ _ => ?_) fun d _ => (new_wf _ _ _).bind fun y hy => NU.ok ?_
    · exact (NU.loopT fun _ _ => (NU.idxT _ _).bind fun _ _ => (NU.idxT _ _).bind fun _ _ => NU.ok trivial).bind fun _ _ =>
        (NU.idxT _ _).bind fun _ _ => (rdiv_nu _ _).bind fun _ _ => NU.loopT fun _ _ => (NU.idxT _ _).bind fun _ _ => (NU.idxT _ _).bind fun _ _ => NU.setIdxT _ _ _
    · exact (NU.loopT fun _ _ => (NU.idxT _ _).bind fun _ _ => (NU.idxT _ _).bind fun _ _ => (rdiv_nu _ _).bind fun _ _ => NU.setIdxT _ _ _).bind fun _ _ =>
        NU.loopT fun _ _ => NU.loopT fun _ _ => (NU.idxT _ _).bind fun _ _ => (NU.idxT _ _).bind fun _ _ => (NU.idxT _ _).bind fun _ _ => NU.setIdxT _ _ _
    · rintro z hz; cases hz; exact hy.2

end QR

theorem Mat.pinverse_nu (a : Mat α) {c : Nat} (ha : a.data.length = a.rows * c) :
    NU a.pinverse fun b => 0 < b.rows ∧ b.data.length = b.rows * a.rows ∧ 0 < a.rows := by
  unfold Mat.pinverse
  refine (QR.new_nu a).bind fun x _ => (QR.getR_nu x).bind fun r _ => (Mat.t_nu r).bind fun rt _ => (Mat.mul_nu rt r).bind fun p _ =>
    (Mat.inverse_nu p).bind fun o ho => (NU.unwrap o).bind fun inv hinv => (Mat.t_nu a).bind fun at' hat => (Mat.mul_nu inv at').mono fun b hb => ?_
  have hc : at'.rows = c := by rw [hat.1, Mat.rect_div hat.2.2 ha]
  refine ⟨by rw [hb.1]; exact (ho inv hinv).1, ?_, hat.2.2⟩
  rw [hb.2.1, hb.1, hat.2.1, hc, ha, Nat.mul_div_cancel _ (hc ▸ hb.2.2.2)]

end

end LA
