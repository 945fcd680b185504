import Verif.Proofs.Cholesky
import Verif.Proofs.RndSolve2

/-! # Cholesky decomposition in rounded arithmetic -/

set_option linter.unusedSectionVars false

namespace LA
open Finset
namespace Cholesky.Rnd
variable {α : Type} [Zero α] [One α] [Add α] [Sub α] [Neg α] [Mul α] [FloatOps α] [Fp α]
open Fp

/-- Solving one row: subtract the contributions of rows `lo..hi`, divide by `g`. -/
theorem row_solve {n nx k lo hi : Nat} {x : List α} {X : Nat → Nat → α} (hx : Grid x n nx X) (hk : k < n)
    (hlo : lo ≤ hi) (hhi : hi ≤ n) (hout : ∀ t, lo ≤ t → t < hi → t ≠ k) (cf : Nat → R α) (c : Nat → α)
    (hcf : ∀ t, lo ≤ t → t < hi → cf t = .ok (c t)) (gf : R α) (g : α) (hgf : gf = .ok g) :
    Post (loop 0 nx x fun j x => do
      let x ← loop lo hi x fun i x => do
        setIdx x (k * nx + j) ((← idx x (k * nx + j)) - (← idx x (i * nx + j)) * (← cf i))
      setIdx x (k * nx + j) (← RDiv.rdiv (← idx x (k * nx + j)) (← gf)))
      fun x' => ∃ X', Grid x' n nx X' ∧ (∀ r j, r ≠ k → X' r j = X r j) ∧
        ∀ j, j < nx → RDiv.rdiv (facc (· - ·) (X k j) (fun s => X (lo + s) j * c (lo + s)) (hi - lo)) g = .ok (X' k j) := by
  subst hgf
  refine (loop_post (fun q x' => ∃ X', Grid x' n nx X' ∧ (∀ r j, ¬(r = k ∧ j < q) → X' r j = X r j) ∧
      ∀ j, j < q → RDiv.rdiv (facc (· - ·) (X k j) (fun s => X (lo + s) j * c (lo + s)) (hi - lo)) g = .ok (X' k j))
    (Nat.zero_le nx) ⟨X, hx, fun _ _ _ => rfl, fun j h => by omega⟩ ?_).mono ?_
  · rintro q x' - hq ⟨X', hG, h1, h2⟩
    have hin := loop_post (s := x') (f := fun i x => do
        setIdx x (k * nx + q) ((← idx x (k * nx + q)) - (← idx x (i * nx + q)) * (← cf i)))
      (fun i x'' => Grid x'' n nx (upd X' k q (facc (· - ·) (X k q) (fun s => X (lo + s) q * c (lo + s)) (i - lo))))
      hlo (hG.congr fun r j _ _ => by
          rw [Nat.sub_self, facc]
          by_cases e : r = k ∧ j = q
          · rw [e.1, e.2, upd_same, h1 k q (by omega)]
          · rw [upd_ne e]) (by
        intro i x'' hi1 hi2 hG''
        have hne := hout i hi1 hi2
        rw [hG''.idx hk hq, hG''.idx (show i < n by omega) hq, hcf i hi1 hi2]
        simp only [ok_bind]
        rw [upd_same, upd_ne (by omega), h1 i q (by omega)]
        refine (hG''.setIdx hk hq _).mono fun x3 h3 => h3.congr fun r j _ _ => ?_
        by_cases e : r = k ∧ j = q
        · rw [e.1, e.2, upd_same, upd_same, show i + 1 - lo = (i - lo) + 1 by omega, facc, show lo + (i - lo) = i by omega]
        · rw [upd_ne e, upd_ne e, upd_ne e])
    refine hin.bind fun x'' hG'' => ?_
    obtain ⟨z, hz⟩ := Fp.div_total (facc (· - ·) (X k q) (fun s => X (lo + s) q * c (lo + s)) (hi - lo)) g
    rw [hG''.idx hk hq]
    simp only [ok_bind]
    rw [upd_same, hz, ok_bind]
    refine (hG''.setIdx hk hq _).mono fun x3 h3 => ⟨_, h3, fun r j h => ?_, fun j hj => ?_⟩
    · rw [upd_ne (by omega), upd_ne (by omega), h1 r j (by omega)]
    · by_cases e : j = q
      · subst e; rw [upd_same]; exact hz
      · rw [upd_ne (by omega), upd_ne (by omega)]; exact h2 j (by omega)
  · rintro x' ⟨X', hG, h1, h2⟩
    exact ⟨X', hG, fun r j h => h1 r j (by tauto), h2⟩

theorem forward_post {n nx : Nat} {l x : List α} {L B : Nat → Nat → α} (hl : Grid l n n L) (hx : Grid x n nx B) :
    Post (forward l n nx x) fun x' => ∃ X, Grid x' n nx X ∧
      ∀ i j, i < n → j < nx → RDiv.rdiv (facc (· - ·) (B i j) (fun t => X t j * L i t) i) (L i i) = .ok (X i j) := by
  refine (loop_post (fun k x' => ∃ X, Grid x' n nx X ∧ (∀ i j, k ≤ i → X i j = B i j) ∧
      ∀ i j, i < k → j < nx → RDiv.rdiv (facc (· - ·) (B i j) (fun t => X t j * L i t) i) (L i i) = .ok (X i j)) (Nat.zero_le n)
      ⟨B, hx, by simp, by simp⟩ ?_).mono ?_
  · rintro k x' - hk ⟨X, hX, h1, h2⟩
    refine (row_solve hX hk (Nat.zero_le k) hk.le (by omega) (fun i => idx l (k * n + i)) (fun t => L k t)
      (fun t _ ht => hl.idx hk (by omega)) _ _ (hl.idx hk hk)).mono ?_
    rintro x'' ⟨X', hG, h3, h4⟩
    refine ⟨_, hG, ?_, ?_⟩
    · intro i j hi
      rw [h3 i j (by omega), h1 i j (by omega)]
    · intro i j hi hj
      have hc : facc (· - ·) (B i j) (fun t => X' t j * L i t) i = facc (· - ·) (B i j) (fun t => X t j * L i t) i :=
        facc_congr fun t ht => by rw [h3 t j (by omega)]
      rw [hc]
      by_cases e : i = k
      · subst e
        have := h4 j hj
        simp only [Nat.zero_add, Nat.sub_zero] at this
        rw [← h1 i j le_rfl]; exact this
      · rw [h3 i j e]; exact h2 i j (by omega) hj
  · rintro x' ⟨X, hX, -, h⟩
    exact ⟨X, hX, h⟩

theorem backward_post {n nx : Nat} {l x : List α} {L B : Nat → Nat → α} (hl : Grid l n n L) (hx : Grid x n nx B) :
    Post (backward l n nx x) fun x' => ∃ X, Grid x' n nx X ∧
      ∀ i j, i < n → j < nx →
        RDiv.rdiv (facc (· - ·) (B i j) (fun s => X (i + 1 + s) j * L (i + 1 + s) i) (n - (i + 1))) (L i i) = .ok (X i j) := by
  refine (loopRev_post (fun k x' => ∃ X, Grid x' n nx X ∧ (∀ i j, i < k → X i j = B i j) ∧
      ∀ i j, k ≤ i → i < n → j < nx →
        RDiv.rdiv (facc (· - ·) (B i j) (fun s => X (i + 1 + s) j * L (i + 1 + s) i) (n - (i + 1))) (L i i) = .ok (X i j)) (Nat.zero_le n)
      ⟨B, hx, by simp, fun i j h1 h2 => by omega⟩ ?_).mono ?_
  · rintro k x' - hk ⟨X, hX, h1, h2⟩
    refine (row_solve hX hk (show k + 1 ≤ n from hk) le_rfl (by omega) (fun i => idx l (i * n + k)) (fun t => L t k)
      (fun t _ ht => hl.idx ht hk) _ _ (hl.idx hk hk)).mono ?_
    rintro x'' ⟨X', hG, h3, h4⟩
    refine ⟨_, hG, ?_, ?_⟩
    · intro i j hi
      rw [h3 i j (by omega), h1 i j (by omega)]
    · intro i j hi hin hj
      have hc : facc (· - ·) (B i j) (fun s => X' (i + 1 + s) j * L (i + 1 + s) i) (n - (i + 1)) =
          facc (· - ·) (B i j) (fun s => X (i + 1 + s) j * L (i + 1 + s) i) (n - (i + 1)) :=
        facc_congr fun t ht => by rw [h3 _ j (by omega)]
      rw [hc]
      by_cases e : i = k
      · subst e
        rw [← h1 i j (by omega)]; exact h4 j hj
      · rw [h3 i j e]; exact h2 i j (by omega) hin hj
  · rintro x' ⟨X, hX, -, h⟩
    exact ⟨X, hX, fun i j hi hj => h i j (Nat.zero_le _) hi hj⟩

/-! ## Factorisation -/

/-- The operations that gave rows `< j`. -/
structure Part (n : Nat) (A L : Nat → Nat → α) (j : Nat) : Prop where
  zero : ∀ i k, i < j → i < k → L i k = 0
  lo : ∀ i k, i < j → k < i → RDiv.rdiv (A i k - fdot (fun t => L k t) (fun t => L i t) k) (L k k) = .ok (L i k)
  dg : ∀ i, i < j → FloatOps.sqrt (A i i - fdot (fun t => L i t) (fun t => L i t) i) = .ok (L i i) ∧
    FloatOps.le (A i i - fdot (fun t => L i t) (fun t => L i t) i) 0 = false
  symm : ∀ i k, i < j → k < i → FloatOps.eq (A k i) (A i k) = true

/-- Why `new` gives up: an asymmetric pair, or a pivot that is not positive. -/
def Stop (n : Nat) (A : Nat → Nat → α) : Prop :=
  (∃ i k, i < n ∧ k < i ∧ FloatOps.eq (A k i) (A i k) = false) ∨
  ∃ (j : Nat) (L : Nat → Nat → α), j < n ∧ Part n A L j ∧
    (∀ k, k < j → RDiv.rdiv (A j k - fdot (fun t => L k t) (fun t => L j t) k) (L k k) = .ok (L j k)) ∧
    FloatOps.le (A j j - fdot (fun t => L j t) (fun t => L j t) j) 0 = true

theorem row_post {m : Mat α} {n j : Nat} {A L : Nat → Nat → α} {data : Buf α} {F : Nat → Nat → Option α}
    (hm : ∀ i k, i < n → k < n → m.get i k = .ok (A i k)) (hj : j < n) (hF : Grid data n n F)
    (hFL : ∀ i k, i < j → k < n → F i k = some (L i k)) :
    Post (row m n j data) fun o => match o with
      | .ret () => ∃ k, k < j ∧ FloatOps.eq (A k j) (A j k) = false
      | .next s => ∃ (F' : Nat → Nat → Option α) (l : Nat → α), Grid s.1 n n F' ∧
          (∀ i k, i < j → k < n → F' i k = some (L i k)) ∧ (∀ k, k < j → F' j k = some (l k)) ∧
          s.2 = fdot l l j ∧
          (∀ k, k < j → RDiv.rdiv (A j k - fdot (fun t => L k t) l k) (L k k) = .ok (l k) ∧ FloatOps.eq (A k j) (A j k) = true) := by
  unfold row
  refine (loopF_post (s := (data, (0 : α))) (fun k (s : Buf α × α) => ∃ (F' : Nat → Nat → Option α) (l : Nat → α), Grid s.1 n n F' ∧
          (∀ i k, i < j → k < n → F' i k = some (L i k)) ∧ (∀ c, c < k → F' j c = some (l c)) ∧
          s.2 = fdot l l k ∧
          (∀ c, c < k → RDiv.rdiv (A j c - fdot (fun t => L c t) l c) (L c c) = .ok (l c) ∧ FloatOps.eq (A c j) (A j c) = true))
    (fun _ : Unit => ∃ k, k < j ∧ FloatOps.eq (A k j) (A j k) = false) (Nat.zero_le j)
    ⟨F, fun _ => 0, hF, hFL, by simp, rfl, by simp⟩ ?_).mono (by
      intro o ho
      match o, ho with
      | .ret (), ho => exact ho
      | .next s, ho => exact ho)
  rintro k ⟨data, d⟩ - hk ⟨F', l, hG, h1, h2, h3, h4⟩
  dsimp only at hG h3 ⊢
  have hkn : k < n := by omega
  have hs : loop 0 k (0 : α) (fun i s => do return s + (← rd data (k * n + i)) * (← rd data (j * n + i))) =
      .ok (fdot (fun t => L k t) l k) := by
    refine loop_facc fun i s hi => ?_
    rw [hG.rd hkn (by omega) (h1 k i hk (by omega)), hG.rd hj (by omega) (h2 i hi)]; rfl
  obtain ⟨z, hz⟩ := Fp.div_total (A j k - fdot (fun t => L k t) l k) (L k k)
  rw [hs, ok_bind, hm j k hj hkn, ok_bind, hG.rd hkn hkn (h1 k k hk hkn), ok_bind, hz, ok_bind]
  refine (hG.wr hj hkn _).bind fun data' hG' => ?_
  rw [hm k j hkn hj, ok_bind, ok_bind]
  by_cases hsym : FloatOps.eq (A k j) (A j k) = true
  swap
  · rw [if_pos (by simpa using hsym)]
    exact Post.ok ⟨k, hk, by simpa using hsym⟩
  rw [if_neg (by simpa using hsym)]
  have hl : ∀ c, c ≤ k → ∀ x : Nat → α, fdot x (fun c => if c = k then z else l c) c = fdot x l c := by
    intro c hc x
    exact fdot_congr fun t ht => ⟨rfl, by rw [if_neg (by omega)]⟩
  refine Post.ok ⟨_, fun c => if c = k then z else l c, hG', ?_, ?_, ?_, ?_⟩
  · intro i c hi hc
    rw [upd_ne (by omega), h1 i c hi hc]
  · intro c hc
    by_cases e : c = k
    · subst e; simp
    · rw [upd_ne (by omega), h2 c (by omega)]; simp [e]
  · dsimp only
    have : fdot (fun c => if c = k then z else l c) (fun c => if c = k then z else l c) (k + 1) =
        fdot (fun c => if c = k then z else l c) (fun c => if c = k then z else l c) k + z * z := by
      change _ + (if k = k then z else l k) * (if k = k then z else l k) = _
      rw [if_pos rfl]; rfl
    rw [this, h3]
    congr 1
    exact fdot_congr fun t ht => by rw [if_neg (by omega)]; exact ⟨rfl, rfl⟩
  · intro c hc
    dsimp only
    rw [hl c (by omega)]
    by_cases e : c = k
    · subst e
      rw [if_pos rfl]
      exact ⟨hz, hsym⟩
    · rw [if_neg e]
      exact h4 c (by omega)

theorem step_post {m : Mat α} {n j : Nat} {A L : Nat → Nat → α} {data : Buf α} {F : Nat → Nat → Option α}
    (hm : ∀ i k, i < n → k < n → m.get i k = .ok (A i k)) (hj : j < n) (hF : Grid data n n F)
    (hFL : ∀ i k, i < j → k < n → F i k = some (L i k)) (hL : Part n A L j) :
    Post (step m n j data) fun o => match o with
      | .ret () => Stop n A
      | .next data' => ∃ (F' : Nat → Nat → Option α) (L' : Nat → Nat → α), Grid data' n n F' ∧
          (∀ i k, i < j + 1 → k < n → F' i k = some (L' i k)) ∧ Part n A L' (j + 1) := by
  unfold step
  refine (row_post hm hj hF hFL).bind ?_
  intro o ho
  match o, ho with
  | .ret (), ⟨k, hk, he⟩ => exact Post.ok (Or.inl ⟨j, k, hj, by omega, he⟩)
  | .next (data, d), ⟨F', l, hG, h1, h2, h3, h4⟩ =>
    dsimp only at h3 hG ⊢
    rw [hm j j hj hj, ok_bind]
    by_cases hd : FloatOps.le (A j j - d) 0 = true
    · rw [if_pos hd]
      let L' : Nat → Nat → α := fun i k => if i = j then l k else L i k
      have hL' : ∀ i, i ≠ j → (fun t => L' i t) = fun t => L i t := fun i h => funext fun k => if_neg h
      have hLj : (fun t => L' j t) = l := funext fun k => if_pos rfl
      have hLk : ∀ i k, i ≠ j → L' i k = L i k := fun i k h => if_neg h
      refine Post.ok (Or.inr ⟨j, L', hj, ⟨?_, ?_, ?_, hL.symm⟩, ?_, ?_⟩)
      · intro i k hi hk; rw [hLk i k (by omega)]; exact hL.zero i k hi hk
      · intro i k hi hk; rw [hL' i (by omega), hL' k (by omega), hLk k k (by omega), hLk i k (by omega)]; exact hL.lo i k hi hk
      · intro i hi; rw [hL' i (by omega), hLk i i (by omega)]; exact hL.dg i hi
      · intro k hk
        rw [hL' k (by omega), hLj, hLk k k (by omega), show L' j k = l k from if_pos rfl]
        exact (h4 k hk).1
      · rw [hLj, ← h3]; exact hd
    rw [if_neg hd]
    obtain ⟨z, hz⟩ := Fp.sqrt_total (A j j - d)
    rw [hz, ok_bind]
    refine (hG.wr hj hj _).bind fun data1 hG1 => ?_
    have hzz := loop_post (s := data1) (f := fun k data => wr data (j * n + k) (0 : α))
      (fun c data' => ∃ F'', Grid data' n n F'' ∧ (∀ i k, i < j → k < n → F'' i k = some (L i k)) ∧
        (∀ k, k < j → F'' j k = some (l k)) ∧ F'' j j = some z ∧
        ∀ k, j < k → k < c → F'' j k = some 0) (show j + 1 ≤ n from hj)
      ⟨_, hG1, fun i k hi hk => by rw [upd_ne (by omega), h1 i k hi hk],
        fun k hk => by rw [upd_ne (by omega), h2 k hk], by rw [upd_same], fun k _ _ => by omega⟩ (by
      rintro c data' hc1 hc ⟨F'', g0, g1, g2, g3, g4⟩
      refine (g0.wr hj hc _).mono fun data2 hG2 => ⟨_, hG2, ?_, ?_, ?_, ?_⟩
      · intro i k hi hk; rw [upd_ne (by omega), g1 i k hi hk]
      · intro k hk; rw [upd_ne (by omega), g2 k hk]
      · rw [upd_ne (by omega), g3]
      · intro k hk1 hk2
        by_cases e : k = c
        · rw [e, upd_same]
        · rw [upd_ne (by omega), g4 k hk1 (by omega)])
    refine hzz.bind ?_
    rintro data2 ⟨F'', g0, g1, g2, g3, g4⟩
    let L' : Nat → Nat → α := fun i k => if i = j then (if k < j then l k else if k = j then z else 0) else L i k
    have hL' : ∀ i k, i ≠ j → L' i k = L i k := fun i k h => if_neg h
    have hLj : ∀ k, k < j → L' j k = l k := fun k h => by simp [L', h]
    have hLjj : L' j j = z := by simp [L']
    have hfd : ∀ i, i ≤ j → ∀ x : Nat → α, fdot x (fun t => L' j t) i = fdot x l i := fun i hi x =>
      fdot_congr fun t ht => ⟨rfl, hLj t (by omega)⟩
    refine Post.ok ⟨F'', L', g0, ?_, ?_, ?_, ?_, ?_⟩
    · intro i k hi hk
      by_cases e : i = j
      · subst e
        rcases lt_trichotomy k i with h | h | h
        · rw [hLj k h, g2 k h]
        · rw [h, hLjj]; exact g3
        · rw [g4 k h hk]
          simp [L', show ¬ k < i by omega, show k ≠ i by omega]
      · rw [hL' i k e, g1 i k (by omega) hk]
    · intro i k hi hk
      by_cases e : i = j
      · subst e
        simp [L', show ¬ k < i by omega, show k ≠ i by omega]
      · rw [hL' i k e, hL.zero i k (by omega) hk]
    · intro i k hi hk
      rw [show (fun t => L' k t) = fun t => L k t from funext fun t => hL' k t (by omega), hL' k k (by omega)]
      by_cases e : i = j
      · subst e
        rw [hfd k (by omega), hLj k hk]
        exact (h4 k hk).1
      · rw [show (fun t => L' i t) = fun t => L i t from funext fun t => hL' i t e, hL' i k e]
        exact hL.lo i k (by omega) hk
    · intro i hi
      by_cases e : i = j
      · subst e
        have : fdot (fun t => L' i t) (fun t => L' i t) i = d := by
          rw [h3]; exact fdot_congr fun t ht => ⟨hLj t ht, hLj t ht⟩
        rw [this, hLjj]
        exact ⟨hz, by simpa using hd⟩
      · rw [show (fun t => L' i t) = fun t => L i t from funext fun t => hL' i t e, hL' i i e]
        exact hL.dg i (by omega)
    · intro i k hi hk
      by_cases e : i = j
      · subst e; exact (h4 k hk).2
      · exact hL.symm i k (by omega) hk

/-- What `new` computes on a square matrix, operation by operation. -/
theorem new_post {n : Nat} (hn : 0 < n) (A : Matrix (Fin n) (Fin n) α) :
    Post (Cholesky.new (ofM A)) fun o => match o with
      | none => Stop n (ext A)
      | some c => ∃ L : Nat → Nat → α, c = ⟨ofM (Matrix.of fun (i : Fin n) (j : Fin n) => L i j)⟩ ∧ Part n (ext A) L n := by
  unfold Cholesky.new
  simp only [ofM_rows, ofM_cols A hn, ok_bind, bne_self_eq_false, Bool.false_eq_true, if_false]
  have hm : ∀ i k, i < n → k < n → (ofM A).get i k = .ok (ext A i k) := by
    intro i k hi hk
    rw [ofM_get A hi hk, ext_eq A hi hk]
  have := loopF_post (s := alloc α (n * n)) (f := fun j data => step (ofM A) n j data)
    (fun j data => ∃ (F : Nat → Nat → Option α) (L : Nat → Nat → α), Grid data n n F ∧
      (∀ i k, i < j → k < n → F i k = some (L i k)) ∧ Part n (ext A) L j)
    (fun _ : Unit => Stop n (ext A)) (Nat.zero_le n)
    ⟨_, fun _ _ => 0, grid_alloc n n, by simp, by simp, by simp, by simp, by simp⟩ (by
      rintro j data - hj ⟨F, L, h1, h2, h3⟩
      refine (step_post hm hj h1 h2 h3).mono ?_
      intro o ho
      match o, ho with
      | .ret (), ho => exact ho
      | .next s, ho => exact ho)
  refine this.bind ?_
  intro o ho
  match o, ho with
  | .ret (), ho => exact Post.ok ho
  | .next data, ⟨F, L, h1, h2, h3⟩ =>
    dsimp only
    rw [h1.freeze (Matrix.of fun (i : Fin n) (j : Fin n) => L i j) (fun i j => h2 i j i.2 j.2), ok_bind, Props.C01_new_ofM hn hn, ok_bind]
    exact Post.ok ⟨L, rfl, h3⟩

end Cholesky.Rnd
end LA
