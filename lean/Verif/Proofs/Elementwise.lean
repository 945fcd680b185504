import Verif.Proofs.Grid
import Mathlib.Data.Matrix.Mul
import Mathlib.LinearAlgebra.Matrix.Hadamard

/-! # Helper lemmas for elementwise operations, reduce and the product -/

namespace LA
variable {α β : Type}

/-- Row-major sequence of the results of the first `k` element computations (the first error wins). -/
def mapIdxR (v : List α) (g : Nat → α → R β) : Nat → R (List β)
  | 0 => .ok []
  | k + 1 => do
    let l ← mapIdxR v g k
    let x ← idx v k
    let y ← g k x
    .ok (l ++ [y])

theorem mapIdxR_length {v : List α} {g : Nat → α → R β} {k : Nat} {l : List β} (h : mapIdxR v g k = .ok l) :
    l.length = k := by
  induction k generalizing l with
  | zero => cases h; rfl
  | succ k ih =>
    simp only [mapIdxR, bind_eq_ok] at h
    obtain ⟨l', hl', x, _, y, _, h⟩ := h
    cases h
    simp [ih hl']

theorem fill_eq (v : List α) (g : Nat → α → R β) (n k : Nat) (hk : k ≤ n) :
    loop 0 k (alloc β n) (fun i d => do wr d i (← g i (← idx v i)))
      = (mapIdxR v g k >>= fun l => .ok (l.map some ++ List.replicate (n - k) none)) := by
  induction k with
  | zero => simp [mapIdxR, alloc]
  | succ k ih =>
    rw [loop_succ (Nat.zero_le k), ih (by omega)]
    simp only [mapIdxR]
    cases hm : mapIdxR v g k with
    | error e => rfl
    | ok l =>
      simp only [ok_bind]
      cases hx : idx v k with
      | error e => rfl
      | ok x =>
        simp only [ok_bind]
        cases hy : g k x with
        | error e => rfl
        | ok y =>
          have hl := mapIdxR_length hm
          simp only [ok_bind]
          rw [wr_lt (by simp; omega)]
          congr 1
          obtain ⟨q, hq⟩ : ∃ q, n - k = q + 1 := ⟨n - k - 1, by omega⟩
          rw [hq, show n - (k + 1) = q by omega, List.replicate_succ]
          rw [List.set_append_right _ _ (by simp [hl])]
          simp [hl]

theorem inplace_eq (v : List α) (g : Nat → α → R α) (k : Nat) (hk : k ≤ v.length) :
    loop 0 k v (fun i d => do setIdx d i (← g i (← idx d i)))
      = (mapIdxR v g k >>= fun l => .ok (l ++ v.drop k)) := by
  induction k with
  | zero => simp [mapIdxR]
  | succ k ih =>
    rw [loop_succ (Nat.zero_le k), ih (by omega)]
    simp only [mapIdxR]
    cases hm : mapIdxR v g k with
    | error e => rfl
    | ok l =>
      have hl := mapIdxR_length hm
      simp only [ok_bind]
      have hk' : k < v.length := by omega
      have h1 : (l ++ v.drop k)[k]? = some v[k] := by
        rw [List.getElem?_append_right (by omega), hl]; simp
      rw [idx_eq h1, idx_lt hk']
      simp only [ok_bind]
      cases hy : g k v[k] with
      | error e => rfl
      | ok y =>
        simp only [ok_bind]
        rw [setIdx_lt (by simp [hl]; omega)]
        congr 1
        rw [List.set_append_right _ _ (by omega), hl, Nat.sub_self,
          List.drop_eq_getElem_cons hk', List.set_cons_zero, List.append_assoc]
        rfl

theorem mapIdxR_ok {v : List α} {g : Nat → α → R β} (f : Nat → β) {k : Nat} (hk : k ≤ v.length)
    (h : ∀ i (hi : i < v.length), g i v[i] = .ok (f i)) : mapIdxR v g k = .ok ((List.range k).map f) := by
  induction k with
  | zero => rfl
  | succ k ih =>
    simp [mapIdxR, ih (by omega), idx_lt (show k < v.length by omega), h k (by omega), List.range_succ]

theorem mapIdxR_ok_iff {v : List α} {g : Nat → α → R β} {k : Nat} {l : List β} (hk : k ≤ v.length) :
    mapIdxR v g k = .ok l ↔ l.length = k ∧ ∀ i (hi : i < v.length) (_ : i < k), ∃ y, g i v[i] = .ok y ∧ l[i]? = some y := by
  induction k generalizing l with
  | zero =>
    simp only [mapIdxR, Except.ok.injEq]
    constructor
    · rintro rfl; simp
    · rintro ⟨h, -⟩; exact (List.length_eq_zero_iff.mp h).symm
  | succ k ih =>
    simp only [mapIdxR, bind_eq_ok, idx_lt (show k < v.length by omega)]
    constructor
    · rintro ⟨l', hl', x, hx, y, hy, h⟩
      cases hx; cases h
      obtain ⟨h1, h2⟩ := (ih (by omega)).1 hl'
      refine ⟨by simp [h1], ?_⟩
      intro i hi hik
      by_cases e : i = k
      · subst e; exact ⟨y, hy, by simp [h1]⟩
      · obtain ⟨z, hz, hz'⟩ := h2 i hi (by omega)
        exact ⟨z, hz, by rw [List.getElem?_append_left (by omega)]; exact hz'⟩
    · rintro ⟨h1, h2⟩
      obtain ⟨y, hy, hly⟩ := h2 k (by omega) (by omega)
      refine ⟨l.take k, (ih (by omega)).2 ⟨by simp [h1], ?_⟩, v[k], rfl, y, hy, ?_⟩
      · intro i hi hik
        obtain ⟨z, hz, hz'⟩ := h2 i hi (by omega)
        exact ⟨z, hz, by rw [List.getElem?_take_of_lt hik]; exact hz'⟩
      · congr 1
        have hkl : k < l.length := by omega
        rw [List.getElem?_eq_getElem hkl] at hly
        rw [← Option.some.inj hly]
        have := List.take_concat_get' l k hkl
        rw [this, List.take_of_length_le (by omega)]

/-- In place and into a fresh buffer give the same matrix, or the same error. -/
theorem inplace_eq_fill (r : Nat) (v : List α) (g : Nat → α → R α) :
    (do let d ← loop 0 v.length v (fun i d => do setIdx d i (← g i (← idx d i)))
        pure (⟨r, d⟩ : Mat α) : R (Mat α))
      = (do let d ← loop 0 v.length (alloc α v.length) (fun i d => do wr d i (← g i (← idx v i)))
            pure ⟨r, ← freeze d⟩) := by
  rw [inplace_eq v g _ le_rfl, fill_eq v g _ _ le_rfl]
  cases mapIdxR v g v.length with
  | error e => rfl
  | ok l => simp [freeze_map_some]

/-- The generic shape of a unary/binary elementwise operation producing a new matrix. -/
theorem fill_mat (r : Nat) (v : List α) (g : Nat → α → R β) :
    (do let d ← loop 0 v.length (alloc β v.length) (fun i d => do wr d i (← g i (← idx v i)))
        pure (⟨r, ← freeze d⟩ : Mat β) : R (Mat β))
      = (mapIdxR v g v.length >>= fun l => .ok ⟨r, l⟩) := by
  rw [fill_eq v g _ _ le_rfl]
  cases mapIdxR v g v.length with
  | error e => rfl
  | ok l => simp [freeze_map_some]

/-- Elementwise result on stored matrices. -/
theorem fill_mat_ofM {m n : Nat} (A : Matrix (Fin m) (Fin n) α) (g : Nat → α → R β) (C : Matrix (Fin m) (Fin n) β)
    (h : ∀ (i : Fin m) (j : Fin n), g (i * n + j) (A i j) = .ok (C i j)) :
    (mapIdxR (ofM A).data g (ofM A).data.length >>= fun l => .ok (⟨m, l⟩ : Mat β)) = .ok (ofM C) := by
  have : mapIdxR (ofM A).data g (ofM A).data.length = .ok (ofM C).data := by
    rw [mapIdxR_ok_iff le_rfl]
    refine ⟨by simp, ?_⟩
    intro k hk _
    rw [ofM_length] at hk
    obtain ⟨i, j, hi, hj, rfl⟩ := rm_surj hk
    refine ⟨C ⟨i, hi⟩ ⟨j, hj⟩, ?_, ofM_getElem?' C hi hj⟩
    have h1 := ofM_getElem?' A hi hj
    rw [List.getElem?_eq_getElem (by simpa using hk)] at h1
    rw [Option.some.inj h1]
    exact h ⟨i, hi⟩ ⟨j, hj⟩
  rw [this]; rfl

theorem assertSameShape_ofM {m n : Nat} (A B : Matrix (Fin m) (Fin n) α) (hm : 0 < m) :
    Mat.assertSameShape (ofM A) (ofM B) = .ok () := by
  simp [Mat.assertSameShape, ofM_cols A hm, ofM_cols B hm]

theorem assertSameShape_ne {m n m' n' : Nat} (A : Matrix (Fin m) (Fin n) α) (B : Matrix (Fin m') (Fin n') α)
    (hm : 0 < m) (hm' : 0 < m') (h : ¬(m = m' ∧ n = n')) :
    Mat.assertSameShape (ofM A) (ofM B) = .error .assert := by
  unfold Mat.assertSameShape
  by_cases e : m = m'
  · rw [ofM_cols A hm, ofM_cols B hm']
    have : ¬ n = n' := fun h' => h ⟨e, h'⟩
    simp only [ofM_rows, e, BEq.rfl, assert_true, ok_bind]
    exact assert_not (by simpa using this)
  · rw [assert_not (by simpa using e)]; rfl

/-! ## General forms of the operations -/

theorem map_eq (a : Mat α) (f : α → β) :
    a.map f = (mapIdxR a.data (fun _ x => .ok (f x)) a.data.length >>= fun l => .ok ⟨a.rows, l⟩) :=
  fill_mat a.rows a.data (fun _ x => .ok (f x))

theorem mapIdxR_pure (v : List α) (f : α → β) :
    mapIdxR v (fun _ x => .ok (f x)) v.length = .ok (v.map f) := by
  rw [mapIdxR_ok_iff le_rfl]
  refine ⟨by simp, fun i hi _ => ⟨f v[i], rfl, by simp [hi]⟩⟩

theorem map_ok' (a : Mat α) (f : α → β) : a.map f = .ok ⟨a.rows, a.data.map f⟩ := by
  rw [map_eq, mapIdxR_pure]; rfl

theorem neg_eq [Neg α] (a : Mat α) : a.neg = a.map (fun x => -x) := rfl
theorem scale_eq [Mul α] (a : Mat α) (k : α) : a.scale k = a.map (fun x => k * x) := rfl

theorem add_eq [Add α] (a b : Mat α) : a.add b = (Mat.assertSameShape a b >>= fun _ =>
    mapIdxR a.data (fun i x => do return x + (← idx b.data i)) a.data.length >>= fun l => .ok ⟨a.rows, l⟩) := by
  rw [← fill_mat]
  simp only [Mat.add, bind_assoc, pure_eq_ok, ok_bind]

theorem sub_eq [Sub α] (a b : Mat α) : a.sub b = (Mat.assertSameShape a b >>= fun _ =>
    mapIdxR a.data (fun i x => do return x - (← idx b.data i)) a.data.length >>= fun l => .ok ⟨a.rows, l⟩) := by
  rw [← fill_mat]
  simp only [Mat.sub, bind_assoc, pure_eq_ok, ok_bind]

theorem elemMul_eq [Mul α] (a b : Mat α) : a.elemMul b = (Mat.assertSameShape a b >>= fun _ =>
    mapIdxR a.data (fun i x => do return x * (← idx b.data i)) a.data.length >>= fun l => .ok ⟨a.rows, l⟩) := by
  rw [← fill_mat]
  simp only [Mat.elemMul, bind_assoc, pure_eq_ok, ok_bind]

theorem elemDiv_eq [RDiv α] (a b : Mat α) : a.elemDiv b = (Mat.assertSameShape a b >>= fun _ =>
    mapIdxR a.data (fun i x => do RDiv.rdiv x (← idx b.data i)) a.data.length >>= fun l => .ok ⟨a.rows, l⟩) := by
  rw [← fill_mat]
  simp only [Mat.elemDiv, bind_assoc, pure_eq_ok]

/-! ## reduce -/

theorem reduce_loop {m n : Nat} (hn : 0 < n) (A : Matrix (Fin m) (Fin n) α) (init : List β) (hinit : init.length = n)
    (f : β → α → β) :
    Post (loop 0 (m * n) (init, 0) fun i (data, k) => do
        let data ← setIdx data k (f (← idx data k) (← idx (ofM A).data i))
        let k ← umod (k + 1) data.length
        return (data, k))
      (fun s => s.1.length = n ∧ ∀ (j : Fin n),
        s.1[j.1]? = some ((List.ofFn fun i => A i j).foldl f (init[j.1]'(by omega)))) := by
  refine Post.mono (loop_post (fun p (s : List β × Nat) => s.1.length = n ∧ s.2 = p % n ∧ ∀ (j : Fin n),
      s.1[j.1]? = some (((List.ofFn fun i => A i j).take (p / n + if j.1 < p % n then 1 else 0)).foldl f
        (init[j.1]'(by omega)))) (Nat.zero_le _) ⟨hinit, by simp, ?_⟩ ?_) ?_
  · intro j
    simp [List.getElem?_eq_getElem (show j.1 < init.length by omega)]
  · rintro p ⟨data, k⟩ - hp ⟨hl, hk, hd⟩
    simp only at hl hk hd
    obtain ⟨i, j, hi, hj, rfl⟩ := rm_surj hp
    rw [rm_mod hj] at hk
    obtain rfl := hk.symm
    have hdj := hd ⟨j, hj⟩
    simp only [rm_mod hj, rm_div hj, lt_irrefl, if_false, Nat.add_zero] at hdj
    dsimp only
    rw [idx_eq hdj, idx_ofM A hi hj]
    simp only [ok_bind]
    rw [setIdx_lt (by omega)]
    simp only [ok_bind]
    rw [umod_ok (by rw [List.length_set]; omega)]
    refine Post.ok ⟨by simpa using hl, ?_, ?_⟩
    · simp only [List.length_set, hl]
      rw [Nat.add_assoc, Nat.add_comm (i * n), Nat.add_mul_mod_self_right]
    · intro j'
      by_cases e : j'.1 = j
      · obtain rfl : j' = ⟨j, hj⟩ := Fin.ext e
        simp only [hl, hj, List.getElem?_set_self]
        congr 1
        have hq : (i * n + j + 1) / n + (if j < (i * n + j + 1) % n then 1 else 0) = i + 1 := by
          by_cases hlast : j + 1 = n
          · rw [show i * n + j + 1 = (i + 1) * n + 0 by rw [Nat.add_mul]; omega, rm_div hn, rm_mod hn]; simp
          · rw [show i * n + j + 1 = i * n + (j + 1) by omega, rm_div (by omega), rm_mod (by omega)]; simp
        rw [hq]
        rw [List.take_add_one]
        simp [hi]
      · rw [List.getElem?_set_ne (Ne.symm e), hd j']
        have hj' := j'.2
        have hq : (i * n + j + 1) / n + (if j'.1 < (i * n + j + 1) % n then 1 else 0)
            = (i * n + j) / n + (if j'.1 < (i * n + j) % n then 1 else 0) := by
          rw [rm_div hj, rm_mod hj]
          by_cases hlast : j + 1 = n
          · rw [show i * n + j + 1 = (i + 1) * n + 0 by rw [Nat.add_mul]; omega, rm_div hn, rm_mod hn]
            rw [if_neg (by omega), if_pos (by omega)]
          · rw [show i * n + j + 1 = i * n + (j + 1) by omega, rm_div (by omega), rm_mod (by omega)]
            congr 1
            by_cases h1 : j'.1 < j
            · rw [if_pos (by omega), if_pos h1]
            · rw [if_neg (by omega), if_neg h1]
        rw [hq]
  · rintro ⟨data, k⟩ ⟨hl, -, hd⟩
    refine ⟨hl, fun j => ?_⟩
    rw [hd j, Nat.mul_div_cancel _ hn, Nat.mul_mod_left]
    simp [List.take_of_length_le]

/-! ## Product -/

theorem mul_entry_loop [Zero α] [Add α] [Mul α] {m p n : Nat} (A : Matrix (Fin m) (Fin p) α)
    (B : Matrix (Fin p) (Fin n) α) (i : Fin m) (j : Fin n) :
    loop 0 p (0 : α) (fun k res => do return res + (← (ofM A).getRef i k) * (← (ofM B).getRef k j))
      = .ok ((List.finRange p).foldl (fun s k => s + A i k * B k j) 0) := by
  have : Post (loop 0 p (0 : α) (fun k res => do return res + (← (ofM A).getRef i k) * (← (ofM B).getRef k j)))
      (fun s => s = ((List.finRange p).take p).foldl (fun s k => s + A i k * B k j) 0) := by
    refine loop_post (fun q s => s = ((List.finRange p).take q).foldl (fun s k => s + A i k * B k j) 0)
      (Nat.zero_le p) (by simp) ?_
    rintro k s - hk rfl
    rw [ofM_getRef A i.2 hk, ofM_getRef B hk j.2]
    simp only [ok_bind]
    refine Post.ok ?_
    rw [List.take_add_one]
    simp [hk]
  have := this.eq_ok
  rw [this, List.take_of_length_le (by simp)]

theorem foldl_sum {ι : Type} [AddCommMonoid α] (l : List ι) (f : ι → α) (s : α) :
    l.foldl (fun s k => s + f k) s = s + (l.map f).sum := by
  induction l generalizing s with
  | nil => simp
  | cons x l ih => simp [ih, add_assoc]

theorem foldl_finRange_sum [AddCommMonoid α] {p : Nat} (f : Fin p → α) :
    (List.finRange p).foldl (fun s k => s + f k) 0 = ∑ k, f k := by
  rw [foldl_sum, zero_add, ← List.ofFn_eq_map, List.sum_ofFn]

end LA
