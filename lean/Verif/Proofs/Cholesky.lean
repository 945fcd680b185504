import Verif.Model.Cholesky
import Verif.Proofs.LU
import Mathlib.LinearAlgebra.Matrix.PosDef

/-! # Lemmas about the model of CholeskyDecomposition -/

set_option linter.unusedSectionVars false

namespace LA
open Finset

namespace Cholesky

section Solve
variable {K : Type} [Field K] [LinearOrder K] [FloatOps K] [Exact K]

/-- Solving one row: subtract the contributions of rows `lo..hi`, divide by `g`. -/
theorem row_solve {n nx k lo hi : Nat} {x : List K} {X : Nat → Nat → K} (hx : Grid x n nx X) (hk : k < n)
    (hlo : lo ≤ hi) (hhi : hi ≤ n) (hout : ∀ t, lo ≤ t → t < hi → t ≠ k) (cf : Nat → R K) (c : Nat → K)
    (hcf : ∀ t, lo ≤ t → t < hi → cf t = .ok (c t)) (gf : R K) (g : K) (hgf : gf = .ok g) (hg : g ≠ 0) :
    Post (loop 0 nx x fun j x => do
      let x ← loop lo hi x fun i x => do
        setIdx x (k * nx + j) ((← idx x (k * nx + j)) - (← idx x (i * nx + j)) * (← cf i))
      setIdx x (k * nx + j) (← RDiv.rdiv (← idx x (k * nx + j)) (← gf)))
      fun x' => Grid x' n nx (fun r j => if r = k then (X k j - ∑ t ∈ Ico lo hi, X t j * c t) / g else X r j) := by
  subst hgf
  refine (loop_post (fun q x' => Grid x' n nx (fun r j => if r = k ∧ j < q then
    (X k j - ∑ t ∈ Ico lo hi, X t j * c t) / g else X r j)) (Nat.zero_le nx) (by simpa using hx) ?_).mono ?_
  · intro q x' _ hq hG
    have hin := loop_post (s := x') (f := fun i x => do
        setIdx x (k * nx + q) ((← idx x (k * nx + q)) - (← idx x (i * nx + q)) * (← cf i)))
      (fun i x'' => Grid x'' n nx (fun r j => if r = k ∧ j < q then
        (X k j - ∑ t ∈ Ico lo hi, X t j * c t) / g else if r = k ∧ j = q then X k q - ∑ t ∈ Ico lo i, X t q * c t
        else X r j)) hlo (hG.congr fun r j _ _ => by
          by_cases h1 : r = k ∧ j < q
          · rw [if_pos h1, if_pos h1]
          · rw [if_neg h1, if_neg h1]
            by_cases h2 : r = k ∧ j = q
            · rw [if_pos h2, h2.1, h2.2]; simp
            · rw [if_neg h2]) (by
        intro i x'' hi1 hi2 hG''
        rw [hG''.idx hk hq, hG''.idx (show i < n by omega) hq, hcf i hi1 hi2]
        have hne := hout i hi1 hi2
        simp only [ok_bind, lt_irrefl, and_false, if_false, and_self, if_true, hne, false_and]
        refine (hG''.setIdx hk hq _).mono fun x3 h3 => h3.congr fun r j _ _ => ?_
        by_cases e : r = k ∧ j = q
        · obtain ⟨rfl, rfl⟩ := e
          rw [upd_same, if_neg (by omega), if_pos (by omega), Finset.sum_Ico_succ_top hi1]; ring
        · rw [upd_ne e]
          by_cases h1 : r = k ∧ j < q
          · rw [if_pos h1, if_pos h1]
          · rw [if_neg h1, if_neg h1, if_neg e, if_neg e])
    refine hin.bind fun x'' hG'' => ?_
    rw [hG''.idx hk hq]
    simp only [ok_bind, lt_irrefl, and_false, if_false, and_self, if_true]
    rw [rdiv_ok hg, ok_bind]
    refine (hG''.setIdx hk hq _).mono fun x3 h3 => h3.congr fun r j _ _ => ?_
    by_cases e : r = k ∧ j = q
    · obtain ⟨rfl, rfl⟩ := e
      rw [upd_same, if_pos (by omega)]
    · rw [upd_ne e]
      by_cases h1 : r = k ∧ j < q
      · rw [if_pos h1, if_pos (by omega)]
      · rw [if_neg h1, if_neg e, if_neg (by omega)]
  · intro x' hG
    exact hG.congr fun r j _ hj => by simp [hj]

theorem forward_post {n nx : Nat} {l x : List K} {L B : Nat → Nat → K} (hl : Grid l n n L) (hx : Grid x n nx B)
    (hL : ∀ k, k < n → L k k ≠ 0) :
    Post (forward l n nx x) fun x' => ∃ X, Grid x' n nx X ∧
      ∀ i j, i < n → j < nx → B i j = ∑ t ∈ range (i + 1), L i t * X t j := by
  refine (loop_post (fun k x' => ∃ X, Grid x' n nx X ∧ (∀ i j, k ≤ i → X i j = B i j) ∧
      ∀ i j, i < k → j < nx → B i j = ∑ t ∈ range (i + 1), L i t * X t j) (Nat.zero_le n)
      ⟨B, hx, by simp, by simp⟩ ?_).mono ?_
  · rintro k x' - hk ⟨X, hX, h1, h2⟩
    refine (row_solve hX hk (Nat.zero_le k) hk.le (by omega) (fun i => idx l (k * n + i)) (fun t => L k t)
      (fun t _ ht => hl.idx hk (by omega)) _ _ (hl.idx hk hk) (hL k hk)).mono fun x'' hG => ⟨_, hG, ?_, ?_⟩
    · intro i j hi
      rw [if_neg (by omega), h1 i j (by omega)]
    · intro i j hi hj
      by_cases e : i = k
      · subst e
        rw [Finset.sum_range_succ, if_pos rfl, mul_div_cancel₀ _ (hL i hk), h1 i j le_rfl]
        have : (∑ t ∈ range i, L i t * if t = i then (B i j - ∑ t ∈ Ico 0 i, X t j * L i t) / L i i else X t j) =
            ∑ t ∈ Ico 0 i, X t j * L i t := by
          rw [Finset.range_eq_Ico]
          refine Finset.sum_congr rfl fun t ht => ?_
          rw [Finset.mem_Ico] at ht
          rw [if_neg (by omega), mul_comm]
        rw [this]; ring
      · rw [h2 i j (by omega) hj]
        refine Finset.sum_congr rfl fun t ht => ?_
        rw [Finset.mem_range] at ht
        rw [if_neg (by omega)]
  · rintro x' ⟨X, hX, -, h⟩
    exact ⟨X, hX, h⟩

theorem backward_post {n nx : Nat} {l x : List K} {L B : Nat → Nat → K} (hl : Grid l n n L) (hx : Grid x n nx B)
    (hL : ∀ k, k < n → L k k ≠ 0) :
    Post (backward l n nx x) fun x' => ∃ X, Grid x' n nx X ∧
      ∀ i j, i < n → j < nx → B i j = ∑ t ∈ Ico i n, L t i * X t j := by
  refine (loopRev_post (fun k x' => ∃ X, Grid x' n nx X ∧ (∀ i j, i < k → X i j = B i j) ∧
      ∀ i j, k ≤ i → i < n → j < nx → B i j = ∑ t ∈ Ico i n, L t i * X t j) (Nat.zero_le n)
      ⟨B, hx, by simp, fun i j h1 h2 => by omega⟩ ?_).mono ?_
  · rintro k x' - hk ⟨X, hX, h1, h2⟩
    refine (row_solve hX hk (show k + 1 ≤ n from hk) le_rfl (by omega) (fun i => idx l (i * n + k)) (fun t => L t k)
      (fun t _ ht => hl.idx ht hk) _ _ (hl.idx hk hk) (hL k hk)).mono fun x'' hG => ⟨_, hG, ?_, ?_⟩
    · intro i j hi
      rw [if_neg (by omega), h1 i j (by omega)]
    · intro i j hi hin hj
      by_cases e : i = k
      · subst e
        rw [Finset.sum_eq_sum_Ico_succ_bot hk, if_pos rfl, mul_div_cancel₀ _ (hL i hk), h1 i j (by omega)]
        have : (∑ t ∈ Ico (i + 1) n, L t i * if t = i then (B i j - ∑ t ∈ Ico (i + 1) n, X t j * L t i) / L i i else X t j) =
            ∑ t ∈ Ico (i + 1) n, X t j * L t i := by
          refine Finset.sum_congr rfl fun t ht => ?_
          rw [Finset.mem_Ico] at ht
          rw [if_neg (by omega), mul_comm]
        rw [this]; ring
      · rw [h2 i j (by omega) hin hj]
        refine Finset.sum_congr rfl fun t ht => ?_
        rw [Finset.mem_Ico] at ht
        rw [if_neg (by omega)]
  · rintro x' ⟨X, hX, -, h⟩
    exact ⟨X, hX, fun i j hi hj => h i j (Nat.zero_le _) hi hj⟩

end Solve

/-! ## Factorisation -/

/-- Rows `< j` of a Cholesky factor of `A`. -/
structure Part (n : Nat) (A L : Nat → Nat → ℝ) (j : Nat) : Prop where
  zero : ∀ i k, i < j → i < k → L i k = 0
  pos : ∀ i, i < j → 0 < L i i
  eq : ∀ i k, i < j → k ≤ i → A i k = ∑ t ∈ range (k + 1), L i t * L k t
  symm : ∀ i k, i < j → k ≤ i → A k i = A i k

theorem row_post {m : Mat ℝ} {n j : Nat} {A L : Nat → Nat → ℝ} {data : Buf ℝ} {F : Nat → Nat → Option ℝ}
    (hm : ∀ i k, i < n → k < n → m.get i k = .ok (A i k)) (hj : j < n) (hF : Grid data n n F)
    (hFL : ∀ i k, i < j → k < n → F i k = some (L i k)) (hL : Part n A L j) :
    Post (row m n j data) fun o => match o with
      | .ret () => ∃ k, k < j ∧ A k j ≠ A j k
      | .next s => ∃ (F' : Nat → Nat → Option ℝ) (l : Nat → ℝ), Grid s.1 n n F' ∧
          (∀ i k, i < j → k < n → F' i k = some (L i k)) ∧ (∀ k, k < j → F' j k = some (l k)) ∧
          s.2 = ∑ k ∈ range j, l k * l k ∧
          (∀ k, k < j → A j k = (∑ t ∈ range k, L k t * l t) + l k * L k k ∧ A k j = A j k) := by
  unfold row
  refine (loopF_post (s := (data, (0 : ℝ))) (fun k (s : Buf ℝ × ℝ) => ∃ (F' : Nat → Nat → Option ℝ) (l : Nat → ℝ), Grid s.1 n n F' ∧
          (∀ i k, i < j → k < n → F' i k = some (L i k)) ∧ (∀ c, c < k → F' j c = some (l c)) ∧
          s.2 = ∑ c ∈ range k, l c * l c ∧
          (∀ c, c < k → A j c = (∑ t ∈ range c, L c t * l t) + l c * L c c ∧ A c j = A j c))
    (fun _ : Unit => ∃ k, k < j ∧ A k j ≠ A j k) (Nat.zero_le j)
    ⟨F, fun _ => 0, hF, hFL, by simp, by simp, by simp⟩ ?_).mono (by
      intro o ho
      match o, ho with
      | .ret (), ho => exact ho
      | .next s, ho => exact ho)
  rintro k ⟨data, d⟩ - hk ⟨F', l, hG, h1, h2, h3, h4⟩
  dsimp only at hG h3 ⊢
  have hkn : k < n := by omega
  have hs : loop 0 k (0 : ℝ) (fun i s => do return s + (← rd data (k * n + i)) * (← rd data (j * n + i))) =
      .ok (∑ i ∈ range k, L k i * l i) := by
    refine loop_sum0 (fun i => L k i * l i) fun i s hi => ?_
    rw [hG.rd hkn (by omega) (h1 k i hk (by omega)), hG.rd hj (by omega) (h2 i hi)]; rfl
  rw [hs, ok_bind, hm j k hj hkn, ok_bind, hG.rd hkn hkn (h1 k k hk hkn), ok_bind, rdiv_ok (hL.pos k hk).ne', ok_bind]
  refine (hG.wr hj hkn _).bind fun data' hG' => ?_
  rw [hm k j hkn hj, ok_bind, ok_bind, eq_eq]
  by_cases hsym : A k j = A j k
  swap
  · rw [if_pos (by simpa using hsym)]
    exact Post.ok ⟨k, hk, hsym⟩
  rw [if_neg (by simpa using hsym)]
  refine Post.ok ⟨_, fun c => if c = k then (A j k - ∑ i ∈ range k, L k i * l i) / L k k else l c, hG', ?_, ?_, ?_, ?_⟩
  · intro i c hi hc
    rw [upd_ne (by omega), h1 i c hi hc]
  · intro c hc
    by_cases e : c = k
    · subst e; simp
    · rw [upd_ne (by omega), h2 c (by omega)]; simp [e]
  · dsimp only
    rw [Finset.sum_range_succ, if_pos rfl, h3]
    congr 1
    refine Finset.sum_congr rfl fun c hc => ?_
    rw [Finset.mem_range] at hc
    rw [if_neg (by omega)]
  · intro c hc
    have hsum : (∑ t ∈ range c, L c t * if t = k then (A j k - ∑ i ∈ range k, L k i * l i) / L k k else l t) =
        ∑ t ∈ range c, L c t * l t := by
      refine Finset.sum_congr rfl fun t ht => ?_
      rw [Finset.mem_range] at ht
      rw [if_neg (by omega)]
    dsimp only
    rw [hsum]
    by_cases e : c = k
    · subst e
      rw [if_pos rfl, div_mul_cancel₀ _ (hL.pos c hk).ne']
      exact ⟨by ring, hsym⟩
    · rw [if_neg e]
      exact h4 c (by omega)

/-- The Schur complement of a positive definite matrix is positive. -/
theorem schur_pos {n j : Nat} (hj : j < n) (A : Matrix (Fin n) (Fin n) ℝ) (hA : A.PosDef) {L : Nat → Nat → ℝ}
    {l : Nat → ℝ} (hL : Part n (ext A) L j)
    (hl : ∀ k, k < j → ext A j k = (∑ t ∈ range k, L k t * l t) + l k * L k k) :
    0 < ext A j j - ∑ k ∈ range j, l k * l k := by
  set d := ext A j j - ∑ k ∈ range j, l k * l k with hd
  have hsymm : ∀ i k, i < n → k < n → ext A i k = ext A k i := by
    intro i k hi hk
    rw [ext_eq A hi hk, ext_eq A hk hi]
    have := hA.1.apply ⟨i, hi⟩ ⟨k, hk⟩
    simpa using this.symm
  -- factors
  let Lm : Matrix (Fin j) (Fin j) ℝ := Matrix.of fun i t => L i t
  let y : Fin j → ℝ := (Lm.transpose)⁻¹.mulVec (fun t => - l t)
  have hdet : IsUnit Lm.transpose.det := by
    rw [Matrix.det_transpose, Matrix.det_of_lowerTriangular Lm (by
      intro a b hab
      exact hL.zero a b a.2 hab)]
    exact isUnit_iff_ne_zero.mpr (Finset.prod_ne_zero_iff.mpr fun i _ => (hL.pos i i.2).ne')
  have hy : Lm.transpose.mulVec y = fun t : Fin j => - l t := by
    simp only [y, Matrix.mulVec_mulVec, Matrix.mul_nonsing_inv _ hdet, Matrix.one_mulVec]
  let M : Matrix (Fin (j + 1)) (Fin j) ℝ := Matrix.of fun i t => if i.1 < j then L i t else l t
  let e : Fin (j + 1) → Fin n := Fin.castLE (by omega)
  let x : Fin (j + 1) → ℝ := Fin.snoc y 1
  have hA' : A.submatrix e e = M * M.transpose + Matrix.diagonal (Fin.snoc (fun _ => 0) d) := by
    -- entries in the leading block and the last row
    have hrow : ∀ i k, i < j → k ≤ i → ext A i k = ∑ t ∈ range j, L i t * L k t := by
      intro i k hi hk
      rw [hL.eq i k hi hk]
      refine Finset.sum_subset (fun t ht => ?_) fun t ht ht' => ?_
      · rw [Finset.mem_range] at *; omega
      · rw [Finset.mem_range] at *
        rw [hL.zero k t (by omega) (by omega), mul_zero]
    have hlast : ∀ k, k < j → ext A j k = ∑ t ∈ range j, l t * L k t := by
      intro k hk
      have hs : ∑ t ∈ range (k + 1), l t * L k t = ∑ t ∈ range j, l t * L k t := by
        refine Finset.sum_subset (fun t ht => ?_) fun t ht ht' => ?_
        · rw [Finset.mem_range] at *; omega
        · rw [Finset.mem_range] at *
          rw [hL.zero k t hk (by omega), mul_zero]
      rw [hl k hk, ← hs, Finset.sum_range_succ]
      congr 1
      exact Finset.sum_congr rfl fun t _ => mul_comm _ _
    have hent : ∀ i k : Fin (j + 1), (A.submatrix e e) i k = ext A i k := by
      intro i k
      rw [ext_eq A (by omega) (by omega)]; rfl
    ext i k
    rw [hent, Matrix.add_apply, Matrix.mul_apply, Matrix.diagonal_apply]
    simp only [M, Matrix.of_apply, Matrix.transpose_apply]
    rw [Finset.sum_fin_eq_sum_range]
    by_cases hi : i.1 < j
    · have hz : (if i = k then (Fin.snoc (fun _ => 0) d : Fin (j + 1) → ℝ) i else 0) = 0 := by
        split
        · rw [show i = Fin.castSucc ⟨i.1, hi⟩ from rfl, Fin.snoc_castSucc]
        · rfl
      rw [hz, add_zero]
      by_cases hk : k.1 < j
      · rcases le_total k.1 i.1 with h | h
        · rw [hrow i k hi h]
          refine Finset.sum_congr rfl fun t ht => ?_
          rw [Finset.mem_range] at ht
          simp [ht, hi, hk]
        · rw [hsymm i k (by omega) (by omega), hrow k i hk h]
          refine Finset.sum_congr rfl fun t ht => ?_
          rw [Finset.mem_range] at ht
          simp [ht, hi, hk, mul_comm]
      · have hkj : k.1 = j := by omega
        rw [hsymm i k (by omega) (by omega), hkj, hlast i hi]
        refine Finset.sum_congr rfl fun t ht => ?_
        rw [Finset.mem_range] at ht
        simp [ht, hi, mul_comm]
    · have hij : i.1 = j := by omega
      by_cases hk : k.1 < j
      · rw [if_neg (by intro h; rw [h] at hij; omega), add_zero, hij, hlast k hk]
        refine Finset.sum_congr rfl fun t ht => ?_
        rw [Finset.mem_range] at ht
        simp [ht, hk]
      · have hkj : k.1 = j := by omega
        have hik : i = k := Fin.ext (by omega)
        have hil : i = Fin.last j := Fin.ext hij
        rw [if_pos hik, hil, Fin.snoc_last, hd]
        simp only [Fin.val_last, hkj, lt_irrefl, if_false]
        have : (∑ t ∈ range j, if h : t < j then l t * l t else 0) = ∑ t ∈ range j, l t * l t := by
          refine Finset.sum_congr rfl fun t ht => ?_
          rw [Finset.mem_range] at ht
          rw [dif_pos ht]
        rw [this]; ring
  have hMx : M.transpose.mulVec x = 0 := by
    funext t
    simp only [Matrix.mulVec, dotProduct, Fin.sum_univ_castSucc, Matrix.transpose_apply, M, Matrix.of_apply, x,
      Fin.snoc_castSucc, Fin.snoc_last, Fin.val_castSucc, Fin.val_last, lt_irrefl, if_false, mul_one, Pi.zero_apply]
    have := congrFun hy t
    simp only [Matrix.mulVec, dotProduct, Matrix.transpose_apply, Lm, Matrix.of_apply] at this
    have h2 : (∑ i : Fin j, (if i.1 < j then L i t else l t) * y i) = ∑ i : Fin j, L i t * y i :=
      Finset.sum_congr rfl fun i _ => by rw [if_pos i.2]
    rw [h2, this]; ring
  have hx0 : x ≠ 0 := by
    intro h
    have := congrFun h (Fin.last j)
    simp [x] at this
  have hpos := (hA.submatrix (e := e) (Fin.castLE_injective _)).dotProduct_mulVec_pos hx0
  rw [hA', Matrix.add_mulVec, ← Matrix.mulVec_mulVec, hMx, Matrix.mulVec_zero, zero_add] at hpos
  have : star x ⬝ᵥ (Matrix.diagonal (Fin.snoc (fun _ => 0) d : Fin (j + 1) → ℝ)).mulVec x = d := by
    simp [dotProduct, Matrix.mulVec_diagonal, Fin.sum_univ_castSucc, x]
  rwa [this] at hpos

theorem step_post {m : Mat ℝ} {n j : Nat} {A L : Nat → Nat → ℝ} {data : Buf ℝ} {F : Nat → Nat → Option ℝ}
    (hm : ∀ i k, i < n → k < n → m.get i k = .ok (A i k)) (hj : j < n) (hF : Grid data n n F)
    (hFL : ∀ i k, i < j → k < n → F i k = some (L i k)) (hL : Part n A L j) :
    Post (step m n j data) fun o => match o with
      | .ret () => (∃ k, k < j ∧ A k j ≠ A j k) ∨
          ∃ l : Nat → ℝ, (∀ k, k < j → A j k = (∑ t ∈ range k, L k t * l t) + l k * L k k) ∧
            ¬ 0 < A j j - ∑ k ∈ range j, l k * l k
      | .next data' => ∃ (F' : Nat → Nat → Option ℝ) (L' : Nat → Nat → ℝ), Grid data' n n F' ∧
          (∀ i k, i < j + 1 → k < n → F' i k = some (L' i k)) ∧ Part n A L' (j + 1) := by
  unfold step
  refine (row_post hm hj hF hFL hL).bind ?_
  intro o ho
  match o, ho with
  | .ret (), ho => exact Post.ok (Or.inl ho)
  | .next (data, d), ⟨F', l, hG, h1, h2, h3, h4⟩ =>
    dsimp only at h3 hG ⊢
    rw [hm j j hj hj, ok_bind, le_eq]
    by_cases hd : A j j - d ≤ 0
    · rw [if_pos (by simpa using hd)]
      refine Post.ok (Or.inr ⟨l, fun k hk => (h4 k hk).1, ?_⟩)
      rw [← h3]; exact not_lt.mpr hd
    rw [if_neg (by simpa using hd)]
    push Not at hd
    rw [sqrt_ok hd.le, ok_bind]
    refine (hG.wr hj hj _).bind fun data1 hG1 => ?_
    have hz := loop_post (s := data1) (f := fun k data => wr data (j * n + k) (0 : ℝ))
      (fun c data' => ∃ F'', Grid data' n n F'' ∧ (∀ i k, i < j → k < n → F'' i k = some (L i k)) ∧
        (∀ k, k < j → F'' j k = some (l k)) ∧ F'' j j = some (Real.sqrt (A j j - d)) ∧
        ∀ k, j < k → k < c → F'' j k = some 0) (show j + 1 ≤ n from hj)
      ⟨_, hG1, fun i k hi hk => by rw [upd_ne (by omega), h1 i k hi hk],
        fun k hk => by rw [upd_ne (by omega), h2 k hk], by rw [upd_same], fun k _ _ => by omega⟩ (by
      rintro c data' hc1 hc ⟨F'', g0, g1, g2, g3, g4⟩
      refine (g0.wr hj hc _).mono fun data2 hG2 => ⟨_, hG2, ?_, ?_, ?_, ?_⟩
      · intro i k hi hk; rw [upd_ne (by omega), g1 i k hi hk]
      · intro k hk; rw [upd_ne (by omega), g2 k hk]
      · rw [upd_ne (by omega), g3]
      · intro k hk1 hk2
        by_cases e : k = c
        · rw [e, upd_same]
        · rw [upd_ne (by omega), g4 k hk1 (by omega)])
    refine hz.bind ?_
    rintro data2 ⟨F'', g0, g1, g2, g3, g4⟩
    refine Post.ok ⟨F'', fun i k => if i = j then (if k < j then l k else if k = j then Real.sqrt (A j j - d) else 0)
      else L i k, g0, ?_, ?_, ?_, ?_, ?_⟩
    · intro i k hi hk
      dsimp only
      by_cases e : i = j
      · subst e
        rw [if_pos rfl]
        rcases lt_trichotomy k i with h | h | h
        · rw [if_pos h, g2 k h]
        · rw [h]; simp [g3]
        · rw [if_neg (by omega), if_neg (by omega), g4 k h hk]
      · rw [if_neg e, g1 i k (by omega) hk]
    · intro i k hi hk
      by_cases e : i = j
      · subst e
        rw [if_pos rfl, if_neg (by omega), if_neg (by omega)]
      · rw [if_neg e, hL.zero i k (by omega) hk]
    · intro i hi
      by_cases e : i = j
      · subst e
        simp only [if_true, lt_irrefl, if_false]
        exact Real.sqrt_pos.mpr hd
      · rw [if_neg e]
        exact hL.pos i (by omega)
    · intro i k hi hk
      by_cases e : i = j
      · subst e
        by_cases e2 : k = i
        · subst e2
          simp only [if_true]
          rw [Finset.sum_range_succ]
          simp only [lt_irrefl, if_false, if_true]
          rw [Real.mul_self_sqrt hd.le]
          have : (∑ t ∈ range k, (if t < k then l t else if t = k then Real.sqrt (A k k - d) else 0) *
              (if t < k then l t else if t = k then Real.sqrt (A k k - d) else 0)) = d := by
            rw [h3]
            refine Finset.sum_congr rfl fun t ht => ?_
            rw [Finset.mem_range] at ht
            rw [if_pos ht]
          rw [this]; ring
        · have hki : k < i := by omega
          rw [(h4 k hki).1, Finset.sum_range_succ]
          simp only [if_true, e2, if_false]
          rw [if_pos hki]
          congr 1
          refine Finset.sum_congr rfl fun t ht => ?_
          rw [Finset.mem_range] at ht
          rw [if_pos (by omega), mul_comm]
      · rw [hL.eq i k (by omega) hk]
        refine Finset.sum_congr rfl fun t _ => ?_
        rw [if_neg e, if_neg (by omega)]
    · intro i k hi hk
      by_cases e : i = j
      · subst e
        by_cases e2 : k = i
        · rw [e2]
        · exact (h4 k (by omega)).2
      · exact hL.symm i k (by omega) hk

/-- What `new` computes on a square matrix. -/
theorem new_post {n : Nat} (hn : 0 < n) (A : Matrix (Fin n) (Fin n) ℝ) :
    Post (Cholesky.new (ofM A)) fun o => match o with
      | none => ¬ A.PosDef
      | some c => ∃ L : Matrix (Fin n) (Fin n) ℝ, c = ⟨ofM L⟩ ∧ (∀ i k, i < k → L i k = 0) ∧ (∀ i, 0 < L i i) ∧
          L * L.transpose = A := by
  unfold Cholesky.new
  simp only [ofM_rows, ofM_cols A hn, ok_bind, bne_self_eq_false, Bool.false_eq_true, if_false]
  have hm : ∀ i k, i < n → k < n → (ofM A).get i k = .ok (ext A i k) := by
    intro i k hi hk
    rw [ofM_get A hi hk, ext_eq A hi hk]
  have := loopF_post (s := alloc ℝ (n * n)) (f := fun j data => step (ofM A) n j data)
    (fun j data => ∃ (F : Nat → Nat → Option ℝ) (L : Nat → Nat → ℝ), Grid data n n F ∧
      (∀ i k, i < j → k < n → F i k = some (L i k)) ∧ Part n (ext A) L j) (fun _ => ¬ A.PosDef) (Nat.zero_le n)
    ⟨_, fun _ _ => 0, grid_alloc n n, fun i k hi => by omega, ⟨fun i k hi => by omega, fun i hi => by omega,
      fun i k hi => by omega, fun i k hi => by omega⟩⟩ (by
    rintro j data - hj ⟨F, L, hF, hFL, hL⟩
    refine (step_post hm hj hF hFL hL).mono ?_
    intro o ho
    match o, ho with
    | .ret (), ho =>
      intro hA
      rcases ho with ⟨k, hk, hne⟩ | ⟨l, hl, hnp⟩
      · apply hne
        rw [ext_eq A (show k < n by omega) hj, ext_eq A hj (show k < n by omega)]
        have := hA.1.apply ⟨j, hj⟩ ⟨k, by omega⟩
        simpa using this
      · exact hnp (schur_pos hj A hA hL hl)
    | .next data', ho => exact ho)
  refine this.bind ?_
  intro o ho
  match o, ho with
  | .ret (), ho => exact Post.ok ho
  | .next data, ⟨F, L, hF, hFL, hL⟩ =>
    dsimp only
    rw [hF.freeze (LU.packed n n L) (fun i j => hFL i j i.2 j.2), ok_bind, Props.C01_new_ofM hn hn, ok_bind]
    refine Post.ok ⟨LU.packed n n L, rfl, fun i k hik => hL.zero i k i.2 hik, fun i => hL.pos i i.2, ?_⟩
    have key : ∀ i k : Fin n, k ≤ i → (LU.packed n n L * (LU.packed n n L).transpose) i k = A i k := by
      intro i k hik
      have h1 := hL.eq i k i.2 hik
      rw [ext_fin] at h1
      rw [h1, Matrix.mul_apply, Finset.sum_fin_eq_sum_range, ← Finset.sum_subset (s₁ := range (k.1 + 1))]
      · refine Finset.sum_congr rfl fun t ht => ?_
        rw [Finset.mem_range] at ht
        have := k.2
        rw [dif_pos (by omega)]; rfl
      · intro t ht
        have := k.2
        rw [Finset.mem_range] at *; omega
      · intro t ht ht'
        rw [Finset.mem_range] at *
        rw [dif_pos ht]
        simp only [LU.packed, Matrix.of_apply, Matrix.transpose_apply]
        rw [hL.zero k t k.2 (by omega), mul_zero]
    ext i k
    rcases le_total k i with h | h
    · exact key i k h
    · have h1 := key k i h
      have h2 := hL.symm k i k.2 h
      rw [ext_fin, ext_fin] at h2
      rw [h2, ← h1, Matrix.mul_apply, Matrix.mul_apply]
      exact Finset.sum_congr rfl fun t _ => mul_comm _ _

end Cholesky
end LA
