import Verif.Proofs.RndLU2

/-! # Triangular substitution in rounded arithmetic -/

set_option linter.unusedSectionVars false

namespace LA
open Finset
variable {α : Type} [Zero α] [One α] [Add α] [Sub α] [Neg α] [Mul α] [FloatOps α] [Fp α]
open Fp

/-! ## Errors -/

/-- Subtractions followed by a division. -/
theorem fsub_div_err {x y : Nat → α} {k : Nat} {z p g : α} (h : RDiv.rdiv (facc (· - ·) z (fun i => x i * y i) k) p = .ok g)
    (hg : fin g) (hp : fin p) :
    fin z ∧ val p ≠ 0 ∧ |val z - ((∑ i ∈ range k, val (x i) * val (y i)) + val g * val p)| ≤
      γ α (k + 1) * ((∑ i ∈ range k, |val (x i) * val (y i)|) + |val g * val p|) + θ α k + (1 + u α) ^ k * η α * |val p| := by
  obtain ⟨h1, h2, h3, -⟩ := LU.Rnd.quot_err h hg hp
  obtain ⟨h4, -, h5⟩ := fsub_err x y k z h1
  refine ⟨h4, h2, ?_⟩
  have hV : 0 ≤ ∑ i ∈ range k, |val (x i) * val (y i)| := sum_nonneg fun _ _ => abs_nonneg _
  generalize val (facc (· - ·) z (fun i => x i * y i) k) = w at *
  generalize (∑ i ∈ range k, val (x i) * val (y i)) = S at *
  generalize (∑ i ∈ range k, |val (x i) * val (y i)|) = V at *
  generalize val g * val p = e at *
  have hu := u_nonneg (α := α)
  have hη := η_nonneg (α := α)
  have hγ := γ_nonneg (α := α) k
  have a1 : |w| ≤ |e| + (u α * |e| + η α * |val p|) := by
    calc |w| = |e + (w - e)| := by ring_nf
      _ ≤ |e| + |w - e| := abs_add_le _ _
      _ ≤ _ := by linarith
  have a2 : |val z - (S + e)| ≤ |val z - S - w| + |w - e| := by
    calc |val z - (S + e)| = |(val z - S - w) + (w - e)| := by ring_nf
      _ ≤ _ := abs_add_le _ _
  have a3 : γ α k * (|w| + V) ≤ γ α k * ((|e| + (u α * |e| + η α * |val p|)) + V) :=
    mul_le_mul_of_nonneg_left (by linarith) hγ
  have a4 : γ α k * ((|e| + (u α * |e| + η α * |val p|)) + V) + (u α * |e| + η α * |val p|) =
      γ α (k + 1) * |e| + γ α k * V + (1 + u α) ^ k * η α * |val p| := by unfold γ; ring
  have a5 : γ α k * V ≤ γ α (k + 1) * V := mul_le_mul_of_nonneg_right (γ_mono (by omega)) hV
  rw [mul_add]
  linarith

namespace LU
namespace Rnd
section Solve
variable {m n nx : Nat}

omit [Fp α] in
theorem rhs_ok (hm : 0 < m) (B : Matrix (Fin m) (Fin nx) α) (σ : Equiv.Perm (Fin m)) :
    rhs (List.ofFn fun i => (σ i).1) m nx (ofM B) = .ok (ofM (B.submatrix σ _root_.id)).data := by
  unfold rhs
  have hd := (ofM_length (B.submatrix σ _root_.id)).symm
  simp only [List.length_ofFn, ofM_cols B hm, ok_bind]
  have := loop_post (s := (alloc α (m * nx), 0)) (f := fun i s => loop 0 nx s fun j (s : Buf α × Nat) => do
      let x ← wr s.1 s.2 (← idx (ofM B).data ((← idx (List.ofFn fun i => (σ i).1) i) * nx + j))
      return (x, s.2 + 1)) (fun i s => Filled s.1 (ofM (B.submatrix σ _root_.id)).data (i * nx) ∧ s.2 = i * nx)
    (Nat.zero_le m) ⟨by simpa using filled_alloc _ hd, by simp⟩ (by
      rintro i ⟨x, di⟩ - hi ⟨h1, h2⟩
      refine (loop_post (fun j s => Filled s.1 (ofM (B.submatrix σ _root_.id)).data (i * nx + j) ∧ s.2 = i * nx + j)
        (Nat.zero_le nx) ⟨h1, h2⟩ ?_).mono ?_
      · rintro j ⟨x, di⟩ - hj ⟨h1, h2⟩
        dsimp only at h1 h2 ⊢
        subst h2
        have e : idx (List.ofFn fun i => (σ i).1) i = .ok (σ ⟨i, hi⟩).1 := by
          rw [idx_lt (by simpa using hi)]; simp
        rw [e, ok_bind, idx_ofM B (σ ⟨i, hi⟩).2 hj, ok_bind]
        refine (h1.wr (x := B (σ ⟨i, hi⟩) ⟨j, hj⟩) ?_).bind fun x' h => Post.ok ⟨h, rfl⟩
        rw [ofM_getElem?' _ hi hj]; rfl
      · rintro ⟨x, di⟩ ⟨h1, h2⟩
        rw [Nat.succ_mul]; exact ⟨h1, h2⟩)
  obtain ⟨⟨x, di⟩, hs, h1, h2⟩ := this
  rw [show ∀ (y : R (Buf α × Nat)) (f : Buf α × Nat → R (List α)), y = .ok (x, di) → (y >>= f) = f (x, di) from
    fun y f h => by rw [h, ok_bind]]
  · exact h1.freeze (by simp)
  · exact hs

omit [Fp α] in
/-- One elimination step on row `i` with row `k`. -/
theorem elim_row {n i k : Nat} {x : List α} {X : Nat → Nat → α} (hx : Grid x n nx X) (hi : i < n) (hk : k < n)
    (hik : i ≠ k) (g : R α) (c : α) (hg : g = .ok c) :
    Post (loop 0 nx x fun j x => do
      setIdx x (i * nx + j) ((← idx x (i * nx + j)) - (← idx x (k * nx + j)) * (← g)))
      fun x' => Grid x' n nx (fun r j => if r = i then X i j - X k j * c else X r j) := by
  subst hg
  refine (loop_post (fun q x' => Grid x' n nx (fun r j => if r = i ∧ j < q then X i j - X k j * c else X r j))
    (Nat.zero_le nx) (by simpa using hx) ?_).mono ?_
  · intro q x' _ hq hG
    rw [hG.idx hi hq, hG.idx hk hq]
    simp only [ok_bind, lt_irrefl, and_false, if_false]
    refine (hG.setIdx hi hq _).mono fun x'' h2 => h2.congr fun r j _ _ => ?_
    by_cases e : r = i ∧ j = q
    · obtain ⟨rfl, rfl⟩ := e
      rw [upd_same, if_pos (by omega)]
    · rw [upd_ne e]
      by_cases h : r = i ∧ j < q
      · rw [if_pos h, if_pos (by omega)]
      · rw [if_neg h, if_neg (by omega)]
  · intro x' hG
    exact hG.congr fun r j _ hj => by simp [hj]

omit [Fp α] in
theorem forward_post {c : Nat} {lu x : List α} {G Y : Nat → Nat → α} (hlu : Grid lu m c G) (hc : n ≤ c)
    (hm : n ≤ m) (hx : Grid x m nx Y) :
    Post (forward lu n c nx x) fun x' => ∃ X, Grid x' m nx X ∧
      ∀ i j, i < n → j < nx → X i j = facc (· - ·) (Y i j) (fun t => X t j * G i t) i := by
  refine (loop_post (fun k x' => ∃ X, Grid x' m nx X ∧
      ∀ i j, i < n → j < nx → X i j = facc (· - ·) (Y i j) (fun t => X t j * G i t) (min i k)) (Nat.zero_le n)
      ⟨Y, hx, by simp [facc]⟩ ?_).mono ?_
  · rintro k x' - hk ⟨X, hX, h⟩
    refine (loop_post (fun i x' => Grid x' m nx (fun r j => if k < r ∧ r < i then X r j - X k j * G r k else X r j))
      (show k + 1 ≤ n from hk) (hX.congr fun r j _ _ => by rw [if_neg (by omega)]) ?_).mono ?_
    · intro i x'' hi1 hi hG
      refine (elim_row hG (by omega) (by omega) (by omega) _ (G i k) (hlu.idx (by omega) (by omega))).mono fun x3 h3 => h3.congr fun r j _ _ => ?_
      by_cases e : r = i
      · subst e
        rw [if_pos rfl, if_neg (by omega), if_neg (by omega), if_pos (by omega)]
      · rw [if_neg e]
        by_cases h : k < r ∧ r < i
        · rw [if_pos h, if_pos (by omega)]
        · rw [if_neg h, if_neg (by omega)]
    · intro x'' hG
      refine ⟨_, hG, ?_⟩
      intro i j hi hj
      have hs : ∀ q, q ≤ k + 1 → facc (· - ·) (Y i j) (fun t => (if k < t ∧ t < n then X t j - X k j * G t k else X t j) * G i t) q =
          facc (· - ·) (Y i j) (fun t => X t j * G i t) q := by
        intro q hq
        refine facc_congr fun t ht => ?_
        rw [if_neg (by omega)]
      rw [hs _ (by omega)]
      by_cases hik : k < i
      · rw [if_pos ⟨hik, hi⟩, min_eq_right (by omega), facc, h i j hi hj, min_eq_right (by omega)]
      · rw [if_neg (by omega), h i j hi hj, min_eq_left (by omega), min_eq_left (by omega)]
  · rintro x' ⟨X, hX, h⟩
    exact ⟨X, hX, fun i j hi hj => by rw [h i j hi hj, min_eq_left (by omega)]⟩

omit [Fp α] in
theorem divide_row {n k : Nat} {x : List α} {X : Nat → Nat → α} (hx : Grid x n nx X) (hk : k < n) (g : R α) (c : α)
    (hg : g = .ok c) (hdiv : ∀ x : α, ∃ z, RDiv.rdiv x c = .ok z) :
    Post (loop 0 nx x fun j x => do setIdx x (k * nx + j) (← RDiv.rdiv (← idx x (k * nx + j)) (← g)))
      fun x' => ∃ X', Grid x' n nx X' ∧ (∀ r j, r ≠ k → X' r j = X r j) ∧ ∀ j, j < nx → RDiv.rdiv (X k j) c = .ok (X' k j) := by
  subst hg
  refine (loop_post (fun q x' => ∃ X', Grid x' n nx X' ∧ (∀ r j, ¬(r = k ∧ j < q) → X' r j = X r j) ∧
      ∀ j, j < q → RDiv.rdiv (X k j) c = .ok (X' k j))
    (Nat.zero_le nx) ⟨X, hx, fun _ _ _ => rfl, fun j h => by omega⟩ ?_).mono ?_
  · rintro q x' - hq ⟨X', hG, h1, h2⟩
    obtain ⟨z, hz⟩ := hdiv (X k q)
    rw [hG.idx hk hq]
    simp only [ok_bind]
    rw [h1 k q (by omega), hz, ok_bind]
    refine (hG.setIdx hk hq _).mono fun x'' h3 => ⟨_, h3, fun r j h => ?_, fun j hj => ?_⟩
    · rw [upd_ne (by omega), h1 r j (by omega)]
    · by_cases e : j = q
      · subst e; rw [upd_same]; exact hz
      · rw [upd_ne (by omega)]; exact h2 j (by omega)
  · rintro x' ⟨X', hG, h1, h2⟩
    exact ⟨X', hG, fun r j h => h1 r j (by tauto), h2⟩

omit [Fp α] in
theorem backward_post {c : Nat} {lu x : List α} {G Y : Nat → Nat → α} (hlu : Grid lu m c G) (hc : n ≤ c)
    (hm : n ≤ m) (hx : Grid x m nx Y) (hdiv : ∀ i, i < n → ∀ x : α, ∃ z, RDiv.rdiv x (G i i) = .ok z) :
    Post (backward lu n c nx x) fun x' => ∃ X, Grid x' m nx X ∧
      ∀ i j, i < n → j < nx →
        RDiv.rdiv (facc (· - ·) (Y i j) (fun s => X (n - 1 - s) j * G i (n - 1 - s)) (n - 1 - i)) (G i i) = .ok (X i j) := by
  refine (loopRev_post (fun k x' => ∃ X, Grid x' m nx X ∧
      (∀ i j, i < n → j < nx → i < k →
        X i j = facc (· - ·) (Y i j) (fun s => X (n - 1 - s) j * G i (n - 1 - s)) (n - k)) ∧
      (∀ i j, i < n → j < nx → k ≤ i →
        RDiv.rdiv (facc (· - ·) (Y i j) (fun s => X (n - 1 - s) j * G i (n - 1 - s)) (n - 1 - i)) (G i i) = .ok (X i j)))
      (Nat.zero_le n) ⟨Y, hx, fun i j hi hj _ => by simp [facc], fun i j hi hj h => by omega⟩ ?_).mono ?_
  · rintro k x' - hk ⟨X, hX, h, h'⟩
    refine (divide_row hX (by omega) _ _ (hlu.idx (by omega) (by omega)) (hdiv k hk)).bind ?_
    rintro x1 ⟨X1, h1, h2, h3⟩
    refine (loop_post (fun i x' => Grid x' m nx (fun r j => if r < i then X1 r j - X1 k j * G r k else X1 r j))
      (Nat.zero_le k) (by simpa using h1) ?_).mono ?_
    · intro i x'' _ hi hG
      refine (elim_row hG (by omega) (by omega) (by omega) _ (G i k) (hlu.idx (by omega) (by omega))).mono
        fun x3 h3 => h3.congr fun r j _ _ => ?_
      by_cases e : r = i
      · subst e
        rw [if_pos rfl, if_neg (by omega), if_neg (by omega), if_pos (by omega)]
      · rw [if_neg e]
        by_cases h : r < i
        · rw [if_pos h, if_pos (by omega)]
        · rw [if_neg h, if_neg (by omega)]
    · intro x'' hG
      refine ⟨_, hG, ?_, ?_⟩
      · intro i j hi hj hik
        have hs : facc (· - ·) (Y i j) (fun s => (if n - 1 - s < k then X1 (n - 1 - s) j - X1 k j * G (n - 1 - s) k else X1 (n - 1 - s) j) * G i (n - 1 - s)) (n - (k + 1)) =
            facc (· - ·) (Y i j) (fun s => X (n - 1 - s) j * G i (n - 1 - s)) (n - (k + 1)) := by
          refine facc_congr fun t ht => ?_
          rw [if_neg (by omega), h2 _ _ (by omega)]
        rw [show n - k = (n - (k + 1)) + 1 by omega, facc, hs, if_pos hik, ← h i j hi hj (by omega), h2 i j (by omega),
          show n - 1 - (n - (k + 1)) = k by omega, if_neg (by omega)]
      · intro i j hi hj hik
        have hs : facc (· - ·) (Y i j) (fun s => (if n - 1 - s < k then X1 (n - 1 - s) j - X1 k j * G (n - 1 - s) k else X1 (n - 1 - s) j) * G i (n - 1 - s)) (n - 1 - i) =
            facc (· - ·) (Y i j) (fun s => X (n - 1 - s) j * G i (n - 1 - s)) (n - 1 - i) := by
          refine facc_congr fun t ht => ?_
          rw [if_neg (by omega), h2 _ _ (by omega)]
        rw [hs, if_neg (by omega)]
        by_cases e : i = k
        · subst e
          rw [show n - 1 - i = n - (i + 1) by omega, ← h i j hi hj (by omega)]
          exact h3 j hj
        · rw [h2 i j e]
          exact h' i j hi hj (by omega)
  · rintro x' ⟨X, hX, h, h'⟩
    exact ⟨X, hX, fun i j hi hj => h' i j hi hj (by omega)⟩

end Solve

/-! ## `solve` -/

omit [Fp α] in
theorem isNonSingular_ok {n : Nat} (hn : 0 < n) (G : Nat → Nat → α) (pos : Bool) (piv : List Nat) :
    isNonSingular ⟨ofM (Matrix.of fun (i : Fin n) (j : Fin n) => G i j), pos, piv⟩ =
      .ok (decide (∀ i : Fin n, FloatOps.eq (G i i) 0 = false)) := by
  unfold isNonSingular
  simp only [ofM_cols _ hn, ok_bind]
  have := loopF_all (lo := 0) (hi := n) (f := fun j _ => do
    if FloatOps.eq (← idx (ofM (Matrix.of fun (i : Fin n) (j : Fin n) => G i j)).data (j * n + j)) 0 then return Flow.ret false
    else return Flow.next ()) (fun j => FloatOps.eq (G j j) 0 = false) (by
      intro j _ hj
      rw [idx_ofM _ (by omega) (by omega), ok_bind]
      constructor
      · intro h; rw [if_neg]; · rfl
        simpa using h
      · intro h; rw [if_pos]; · rfl
        simpa using h)
  by_cases h : ∀ i : Fin n, FloatOps.eq (G i i) 0 = false
  · rw [this.1 fun i _ hi => h ⟨i, hi⟩, ok_bind]; simp [h]
  · rw [this.2 fun h' => h fun i => h' i (Nat.zero_le _) i.2, ok_bind]; simp only [h, decide_false]; rfl

omit [Fp α] in
/-- What `solve` computes, operation by operation, if numbers that are not zero are divisors. -/
theorem solve_ok' {n p : Nat} (hn : 0 < n) (hp : 0 < p) (G : Nat → Nat → α) (pos : Bool)
    (σ : Equiv.Perm (Fin n)) (B : Matrix (Fin n) (Fin p) α)
    (hdiv : ∀ x y : α, FloatOps.eq y 0 = false → ∃ z, RDiv.rdiv x y = .ok z) :
    ((∃ i : Fin n, FloatOps.eq (G i i) 0 = true) ∧
      solve ⟨ofM (Matrix.of fun (i : Fin n) (j : Fin n) => G i j), pos, List.ofFn fun i => (σ i).1⟩ (ofM B) = .ok none) ∨
    ((∀ i : Fin n, FloatOps.eq (G i i) 0 = false) ∧ ∃ X Y : Nat → Nat → α,
      solve ⟨ofM (Matrix.of fun (i : Fin n) (j : Fin n) => G i j), pos, List.ofFn fun i => (σ i).1⟩ (ofM B) =
        .ok (some (ofM (Matrix.of fun (i : Fin n) (j : Fin p) => X i j))) ∧
      (∀ (i : Fin n) (j : Fin p), Y i j = facc (· - ·) (B (σ i) j) (fun t => Y t j * G i t) i) ∧
      ∀ (i : Fin n) (j : Fin p),
        RDiv.rdiv (facc (· - ·) (Y i j) (fun s => X (n - 1 - s) j * G i (n - 1 - s)) (n - 1 - i)) (G i i) = .ok (X i j)) := by
  unfold solve
  simp only [ofM_cols _ hn, ofM_rows, ok_bind, beq_self_eq_true, assert_true, isNonSingular_ok hn G, rhs_ok hn B]
  by_cases h : ∀ i : Fin n, FloatOps.eq (G i i) 0 = false
  · right
    refine ⟨h, ?_⟩
    simp only [h, implies_true, decide_true, Bool.not_true, Bool.false_eq_true, if_false]
    have hlu : Grid (ofM (Matrix.of fun (i : Fin n) (j : Fin n) => G i j)).data n n G :=
      ⟨by simp, fun i j hi hj => by rw [ofM_getElem?' _ hi hj]; rfl⟩
    obtain ⟨y, hy, Y, hY, hY2⟩ := forward_post hlu le_rfl le_rfl (grid_ofM (B.submatrix σ _root_.id))
    obtain ⟨x, hx, X, hX, hX2⟩ := backward_post hlu le_rfl le_rfl hY fun i hi x => hdiv x _ (h ⟨i, hi⟩)
    rw [hy, ok_bind, hx, ok_bind, hX.ofM (Matrix.of fun (i : Fin n) (j : Fin p) => X i j) (fun _ _ => rfl), Props.C01_new_ofM hn hp]
    refine ⟨X, Y, rfl, fun i j => ?_, fun i j => hX2 i j i.2 j.2⟩
    rw [hY2 i j i.2 j.2, ext_fin]; rfl
  · left
    refine ⟨by simpa using h, ?_⟩
    simp only [h, decide_false, Bool.not_false, if_true]
    rfl

/-- What `solve` computes, operation by operation. -/
theorem solve_ok {n p : Nat} (hn : 0 < n) (hp : 0 < p) (G : Nat → Nat → α) (pos : Bool)
    (σ : Equiv.Perm (Fin n)) (B : Matrix (Fin n) (Fin p) α) :
    ((∃ i : Fin n, FloatOps.eq (G i i) 0 = true) ∧
      solve ⟨ofM (Matrix.of fun (i : Fin n) (j : Fin n) => G i j), pos, List.ofFn fun i => (σ i).1⟩ (ofM B) = .ok none) ∨
    ((∀ i : Fin n, FloatOps.eq (G i i) 0 = false) ∧ ∃ X Y : Nat → Nat → α,
      solve ⟨ofM (Matrix.of fun (i : Fin n) (j : Fin n) => G i j), pos, List.ofFn fun i => (σ i).1⟩ (ofM B) =
        .ok (some (ofM (Matrix.of fun (i : Fin n) (j : Fin p) => X i j))) ∧
      (∀ (i : Fin n) (j : Fin p), Y i j = facc (· - ·) (B (σ i) j) (fun t => Y t j * G i t) i) ∧
      ∀ (i : Fin n) (j : Fin p),
        RDiv.rdiv (facc (· - ·) (Y i j) (fun s => X (n - 1 - s) j * G i (n - 1 - s)) (n - 1 - i)) (G i i) = .ok (X i j)) :=
  solve_ok' hn hp G pos σ B fun x y _ => Fp.div_total x y

end Rnd
end LU
end LA
