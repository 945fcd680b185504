import Verif.Proofs.Grid

/-! # One-dimensional views, and loops that rewrite one row or column at a time -/

namespace LA
variable {α β : Type}

/-- Pointwise update of a one-index function. -/
def updv (f : Nat → β) (i : Nat) (v : β) : Nat → β := fun i' => if i' = i then v else f i'

@[simp] theorem updv_same (f : Nat → β) (i : Nat) (v : β) : updv f i v i = v := by simp [updv]
theorem updv_ne {f : Nat → β} {i i' : Nat} {v : β} (h : i' ≠ i) : updv f i v i' = f i' := if_neg h

/-- `l` is the table of `f` on `0..n`. -/
def Vect (l : List β) (n : Nat) (f : Nat → β) : Prop :=
  l.length = n ∧ ∀ i, i < n → l[i]? = some (f i)

theorem Vect.congr {l : List β} {n : Nat} {f g : Nat → β} (h : Vect l n f) (hfg : ∀ i, i < n → f i = g i) :
    Vect l n g := ⟨h.1, fun i hi => by rw [h.2 i hi, hfg i hi]⟩

theorem Vect.set {l : List β} {n : Nat} {f : Nat → β} (h : Vect l n f) {i : Nat} (hi : i < n) (v : β) :
    Vect (l.set i v) n (updv f i v) := by
  refine ⟨by simpa using h.1, ?_⟩
  intro i' hi'
  by_cases e : i' = i
  · subst e; simp [h.1, hi']
  · rw [List.getElem?_set_ne (Ne.symm e), h.2 i' hi', updv_ne e]

theorem Vect.idx {l : List β} {n : Nat} {f : Nat → β} (h : Vect l n f) {i : Nat} (hi : i < n) :
    idx l i = .ok (f i) := idx_eq (h.2 i hi)

theorem Vect.setIdx {l : List β} {n : Nat} {f : Nat → β} (h : Vect l n f) {i : Nat} (hi : i < n) (v : β) :
    Post (LA.setIdx l i v) (fun l' => Vect l' n (updv f i v)) := by
  rw [setIdx_lt (by rw [h.1]; exact hi)]
  exact Post.ok (h.set hi v)

theorem Vect.rd {d : Buf α} {n : Nat} {f : Nat → Option α} (h : Vect d n f) {i : Nat} {x : α} (hi : i < n)
    (hf : f i = some x) : rd d i = .ok x := rd_eq (by rw [h.2 i hi, hf])

theorem Vect.wr {d : Buf α} {n : Nat} {f : Nat → Option α} (h : Vect d n f) {i : Nat} (hi : i < n) (v : α) :
    Post (LA.wr d i v) (fun d' => Vect d' n (updv f i (some v))) := by
  rw [wr_lt (by rw [h.1]; exact hi)]
  exact Post.ok (h.set hi (some v))

theorem vect_alloc (n : Nat) : Vect (alloc α n) n (fun _ => none) := by
  refine ⟨by simp, fun i hi => by rw [alloc, List.getElem?_replicate_of_lt hi]⟩

theorem vect_replicate (n : Nat) (c : β) : Vect (List.replicate n c) n (fun _ => c) := by
  refine ⟨by simp, fun i hi => by rw [List.getElem?_replicate_of_lt hi]⟩

theorem vect_ofFn {n : Nat} (f : Nat → β) : Vect (List.ofFn fun i : Fin n => f i) n f := by
  refine ⟨by simp, fun i hi => by simp [hi]⟩

theorem Vect.eq_ofFn {l : List β} {n : Nat} {f : Nat → β} (h : Vect l n f) : l = List.ofFn fun i : Fin n => f i := by
  refine List.ext_getElem? fun i => ?_
  by_cases hi : i < n
  · rw [h.2 i hi, (vect_ofFn f).2 i hi]
  · rw [List.getElem?_eq_none (by rw [h.1]; omega), List.getElem?_eq_none (by simp; omega)]

theorem Vect.freeze {d : Buf α} {n : Nat} {F : Nat → Option α} (h : Vect d n F) (f : Nat → α)
    (hf : ∀ i, i < n → F i = some (f i)) : freeze d = .ok (List.ofFn fun i : Fin n => f i) := by
  refine freeze_eq (by rw [h.1]; simp) ?_
  intro i hi
  rw [List.length_ofFn] at hi
  rw [h.2 i hi, hf i hi, (vect_ofFn f).2 i hi]

theorem grid_replicate (m n : Nat) (c : β) : Grid (List.replicate (m * n) c) m n (fun _ _ => c) := by
  refine ⟨by simp, fun i j hi hj => by rw [List.getElem?_replicate_of_lt (rm_lt hi hj)]⟩

/-- A loop over rows that replaces row `r` by `T r`, reading only rows not yet replaced. -/
theorem loop_rows {lo hi m n : Nat} {d : List β} {G : Nat → Nat → β} {f : Nat → List β → R (List β)}
    (T : Nat → Nat → β) (hd : Grid d m n G)
    (hstep : ∀ i d' G', lo ≤ i → i < hi → Grid d' m n G' → (∀ r c, ¬(lo ≤ r ∧ r < i) → G' r c = G r c) →
      Post (f i d') fun d'' => Grid d'' m n (fun r c => if r = i then T i c else G' r c)) :
    Post (loop lo hi d f) fun d' => Grid d' m n (fun r c => if lo ≤ r ∧ r < hi then T r c else G r c) := by
  by_cases hle : lo ≤ hi
  swap
  · rw [loop_empty (by omega)]
    exact Post.ok (hd.congr fun r c _ _ => by rw [if_neg (by omega)])
  refine loop_post (fun i d' => Grid d' m n (fun r c => if lo ≤ r ∧ r < i then T r c else G r c)) hle
    (hd.congr fun r c _ _ => by rw [if_neg (by omega)]) ?_
  intro i d' h1 h2 hG
  refine (hstep i d' _ h1 h2 hG fun r c h => if_neg h).mono fun d'' hG'' => hG''.congr fun r c _ _ => ?_
  by_cases e : r = i
  · subst e; rw [if_pos rfl, if_pos (by omega)]
  · rw [if_neg e]
    by_cases h3 : lo ≤ r ∧ r < i
    · rw [if_pos h3, if_pos (by omega)]
    · rw [if_neg h3, if_neg (by omega)]

/-- A loop over columns that replaces column `c` by `T · c`, reading only columns not yet replaced. -/
theorem loop_cols {lo hi m n : Nat} {d : List β} {G : Nat → Nat → β} {f : Nat → List β → R (List β)}
    (T : Nat → Nat → β) (hd : Grid d m n G)
    (hstep : ∀ j d' G', lo ≤ j → j < hi → Grid d' m n G' → (∀ r c, ¬(lo ≤ c ∧ c < j) → G' r c = G r c) →
      Post (f j d') fun d'' => Grid d'' m n (fun r c => if c = j then T r j else G' r c)) :
    Post (loop lo hi d f) fun d' => Grid d' m n (fun r c => if lo ≤ c ∧ c < hi then T r c else G r c) := by
  by_cases hle : lo ≤ hi
  swap
  · rw [loop_empty (by omega)]
    exact Post.ok (hd.congr fun r c _ _ => by rw [if_neg (by omega)])
  refine loop_post (fun i d' => Grid d' m n (fun r c => if lo ≤ c ∧ c < i then T r c else G r c)) hle
    (hd.congr fun r c _ _ => by rw [if_neg (by omega)]) ?_
  intro i d' h1 h2 hG
  refine (hstep i d' _ h1 h2 hG fun r c h => if_neg h).mono fun d'' hG'' => hG''.congr fun r c _ _ => ?_
  by_cases e : c = i
  · subst e; rw [if_pos rfl, if_pos (by omega)]
  · rw [if_neg e]
    by_cases h3 : lo ≤ c ∧ c < i
    · rw [if_pos h3, if_pos (by omega)]
    · rw [if_neg h3, if_neg (by omega)]

/-- A loop that rewrites cells `lo..hi` of a vector, each from cells not yet rewritten. -/
theorem loop_vect {lo hi n : Nat} {d : List β} {g : Nat → β} {f : Nat → List β → R (List β)}
    (T : Nat → β) (hd : Vect d n g)
    (hstep : ∀ i d' g', lo ≤ i → i < hi → Vect d' n g' → (∀ r, ¬(lo ≤ r ∧ r < i) → g' r = g r) →
      Post (f i d') fun d'' => Vect d'' n (updv g' i (T i))) :
    Post (loop lo hi d f) fun d' => Vect d' n (fun r => if lo ≤ r ∧ r < hi then T r else g r) := by
  by_cases hle : lo ≤ hi
  swap
  · rw [loop_empty (by omega)]
    exact Post.ok (hd.congr fun r _ => by rw [if_neg (by omega)])
  refine loop_post (fun i d' => Vect d' n (fun r => if lo ≤ r ∧ r < i then T r else g r)) hle
    (hd.congr fun r _ => by rw [if_neg (by omega)]) ?_
  intro i d' h1 h2 hG
  refine (hstep i d' _ h1 h2 hG fun r h => if_neg h).mono fun d'' hG'' => hG''.congr fun r _ => ?_
  by_cases e : r = i
  · subst e; rw [updv_same, if_pos (by omega)]
  · rw [updv_ne e]
    by_cases h3 : lo ≤ r ∧ r < i
    · rw [if_pos h3, if_pos (by omega)]
    · rw [if_neg h3, if_neg (by omega)]

/-- Summation over `lo..hi`. -/
theorem loop_sum_Ico [AddCommMonoid α] {lo hi : Nat} {f : Nat → α → R α} (x : Nat → α)
    (hf : ∀ i s, lo ≤ i → i < hi → f i s = .ok (s + x i)) :
    loop lo hi (0 : α) f = .ok (∑ i ∈ Finset.Ico lo hi, x i) := by
  by_cases hle : lo ≤ hi
  swap
  · rw [loop_empty (by omega), Finset.Ico_eq_empty (by omega), Finset.sum_empty]
  refine Post.eq_ok (loop_post (fun i s => s = ∑ t ∈ Finset.Ico lo i, x t) hle (by simp) ?_)
  rintro i s h1 h2 rfl
  rw [hf i _ h1 h2]
  exact Post.ok (by rw [Finset.sum_Ico_succ_top h1])

end LA
