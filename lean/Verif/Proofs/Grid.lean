import Verif.Proofs.Basic

/-! # Two-dimensional views of buffers and vectors -/

namespace LA
variable {α β : Type}

/-- Pointwise update of a two-index function. -/
def upd (F : Nat → Nat → β) (i j : Nat) (v : β) : Nat → Nat → β :=
  fun i' j' => if i' = i ∧ j' = j then v else F i' j'

@[simp] theorem upd_same (F : Nat → Nat → β) (i j : Nat) (v : β) : upd F i j v i j = v := by simp [upd]
theorem upd_ne {F : Nat → Nat → β} {i j i' j' : Nat} {v : β} (h : ¬(i' = i ∧ j' = j)) :
    upd F i j v i' j' = F i' j' := if_neg h

/-- `l` is the row-major `m × n` table of `F`. -/
def Grid (l : List β) (m n : Nat) (F : Nat → Nat → β) : Prop :=
  l.length = m * n ∧ ∀ i j, i < m → j < n → l[i * n + j]? = some (F i j)

theorem Grid.congr {l : List β} {m n : Nat} {F G : Nat → Nat → β} (h : Grid l m n F)
    (hFG : ∀ i j, i < m → j < n → F i j = G i j) : Grid l m n G :=
  ⟨h.1, fun i j hi hj => by rw [h.2 i j hi hj, hFG i j hi hj]⟩

theorem Grid.set {l : List β} {m n : Nat} {F : Nat → Nat → β} (h : Grid l m n F) {i j : Nat}
    (hi : i < m) (hj : j < n) (v : β) : Grid (l.set (i * n + j) v) m n (upd F i j v) := by
  refine ⟨by simpa using h.1, ?_⟩
  intro i' j' hi' hj'
  by_cases e : i' = i ∧ j' = j
  · obtain ⟨rfl, rfl⟩ := e
    have := rm_lt hi hj
    simp [h.1, this]
  · rw [List.getElem?_set_ne (rm_ne hj hj' (fun e' => e ⟨e'.1.symm, e'.2.symm⟩)), h.2 i' j' hi' hj', upd_ne e]

theorem Grid.idx {l : List β} {m n : Nat} {F : Nat → Nat → β} (h : Grid l m n F) {i j : Nat}
    (hi : i < m) (hj : j < n) : idx l (i * n + j) = .ok (F i j) := idx_eq (h.2 i j hi hj)

theorem Grid.setIdx {l : List β} {m n : Nat} {F : Nat → Nat → β} (h : Grid l m n F) {i j : Nat}
    (hi : i < m) (hj : j < n) (v : β) :
    Post (LA.setIdx l (i * n + j) v) (fun l' => Grid l' m n (upd F i j v)) := by
  rw [setIdx_lt (by rw [h.1]; exact rm_lt hi hj)]
  exact Post.ok (h.set hi hj v)

theorem Grid.rd {d : Buf α} {m n : Nat} {F : Nat → Nat → Option α} (h : Grid d m n F) {i j : Nat} {x : α}
    (hi : i < m) (hj : j < n) (hF : F i j = some x) : rd d (i * n + j) = .ok x :=
  rd_eq (by rw [h.2 i j hi hj, hF])

theorem Grid.wr {d : Buf α} {m n : Nat} {F : Nat → Nat → Option α} (h : Grid d m n F) {i j : Nat}
    (hi : i < m) (hj : j < n) (v : α) :
    Post (LA.wr d (i * n + j) v) (fun d' => Grid d' m n (upd F i j (some v))) := by
  rw [wr_lt (by rw [h.1]; exact rm_lt hi hj)]
  exact Post.ok (h.set hi hj (some v))

theorem grid_alloc (m n : Nat) : Grid (alloc α (m * n)) m n (fun _ _ => none) := by
  refine ⟨by simp, ?_⟩
  intro i j hi hj
  rw [alloc, List.getElem?_replicate_of_lt (rm_lt hi hj)]

theorem Grid.freeze {d : Buf α} {m n : Nat} {F : Nat → Nat → Option α} (h : Grid d m n F)
    (A : Matrix (Fin m) (Fin n) α) (hA : ∀ (i : Fin m) (j : Fin n), F i j = some (A i j)) :
    freeze d = .ok (ofM A).data :=
  freeze_ofM A h.1 fun i j => by rw [h.2 i j i.2 j.2, hA]

theorem Grid.ofM {l : List α} {m n : Nat} {F : Nat → Nat → α} (h : Grid l m n F)
    (A : Matrix (Fin m) (Fin n) α) (hA : ∀ (i : Fin m) (j : Fin n), F i j = A i j) :
    l = (LA.ofM A).data :=
  ofM_data_eq A h.1 fun i j => by rw [h.2 i j i.2 j.2, hA]

/-- Extension of a matrix to all indices. -/
def ext {m n : Nat} [Zero α] (A : Matrix (Fin m) (Fin n) α) (i j : Nat) : α :=
  if h : i < m ∧ j < n then A ⟨i, h.1⟩ ⟨j, h.2⟩ else 0

theorem ext_eq {m n : Nat} [Zero α] (A : Matrix (Fin m) (Fin n) α) {i j : Nat} (hi : i < m) (hj : j < n) :
    ext A i j = A ⟨i, hi⟩ ⟨j, hj⟩ := dif_pos ⟨hi, hj⟩

@[simp] theorem ext_fin {m n : Nat} [Zero α] (A : Matrix (Fin m) (Fin n) α) (i : Fin m) (j : Fin n) :
    ext A i j = A i j := ext_eq A i.2 j.2

theorem grid_ofM {m n : Nat} [Zero α] (A : Matrix (Fin m) (Fin n) α) : Grid (LA.ofM A).data m n (ext A) :=
  ⟨by simp, fun i j hi hj => by rw [ofM_getElem?' A hi hj, ext_eq A hi hj]⟩

/-- Filling a fresh `m × n` buffer row by row. -/
theorem fill2_ok {m n : Nat} {f : Nat → Nat → R α} (A : Matrix (Fin m) (Fin n) α)
    (h : ∀ (i : Fin m) (j : Fin n), f i j = .ok (A i j)) :
    Post (loop 0 m (alloc α (m * n)) fun i d => loop 0 n d fun j d => do wr d (i * n + j) (← f i j))
      (fun d => freeze d = .ok (ofM A).data) := by
  refine Post.mono (loop_post (fun k d => ∃ F, Grid d m n F ∧
      ∀ (i : Fin m) (j : Fin n), i.1 < k → F i j = some (A i j)) (Nat.zero_le m)
      ⟨_, grid_alloc m n, by simp⟩ ?_) ?_
  · rintro i d - hi ⟨F, hd, hF⟩
    refine Post.mono (loop_post (fun k d => ∃ F, Grid d m n F ∧
      (∀ (i' : Fin m) (j : Fin n), i'.1 < i ∨ (i'.1 = i ∧ j.1 < k) → F i' j = some (A i' j))) (Nat.zero_le n)
      ⟨F, hd, by rintro i' j (h | h); exacts [hF i' j h, by omega]⟩ ?_) ?_
    · rintro j d - hj ⟨F, hd, hF⟩
      rw [h ⟨i, hi⟩ ⟨j, hj⟩, ok_bind]
      refine Post.mono (hd.wr hi hj _) fun d' hd' => ⟨_, hd', ?_⟩
      intro i' j' h'
      by_cases e : i'.1 = i ∧ j'.1 = j
      · obtain ⟨rfl, rfl⟩ := e; simp
      · rw [upd_ne e]; exact hF i' j' (by omega)
    · rintro d ⟨F, hd, hF⟩
      exact ⟨F, hd, fun i' j h => hF i' j (by have := j.2; omega)⟩
  · rintro d ⟨F, hd, hF⟩
    exact hd.freeze A fun i j => hF i j i.2

end LA
