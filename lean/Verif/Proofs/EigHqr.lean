import Verif.Proofs.EigOrth

/-! # `hqr2`: orthogonal similarity up to an error, three-row reflections -/

set_option linter.unusedSectionVars false

namespace LA
open Finset Matrix
namespace Eigen
open SVD (pk pk_congr)

/-- `A = V X V'` up to an error `E`, `V` orthogonal. -/
structure Sm (n : Nat) (A : Matrix (Fin n) (Fin n) ℝ) (V X : Nat → Nat → ℝ) (E : ℝ) : Prop where
  orth : Orth (pk n n V)
  err : frob (A - pk n n V * pk n n X * (pk n n V)ᵀ) ≤ E

theorem frob_neg {m n : Nat} (M : Matrix (Fin m) (Fin n) ℝ) : frob (-M) = frob M := by
  unfold frob
  simp only [Matrix.neg_apply, even_two, Even.neg_pow]

theorem frob_zero {m n : Nat} : frob (0 : Matrix (Fin m) (Fin n) ℝ) = 0 := by
  unfold frob; simp

theorem Sm.congr {n : Nat} {A : Matrix (Fin n) (Fin n) ℝ} {V X X' : Nat → Nat → ℝ} {E : ℝ} (h : Sm n A V X E)
    (hX : ∀ a b, a < n → b < n → X a b = X' a b) : Sm n A V X' E := by
  have := pk_congr hX
  exact ⟨h.orth, by rw [← this]; exact h.err⟩

theorem Sm.mono {n : Nat} {A : Matrix (Fin n) (Fin n) ℝ} {V X : Nat → Nat → ℝ} {E E' : ℝ} (h : Sm n A V X E) (hE : E ≤ E') :
    Sm n A V X E' := ⟨h.orth, h.err.trans hE⟩

theorem Sm.nonneg {n : Nat} {A : Matrix (Fin n) (Fin n) ℝ} {V X : Nat → Nat → ℝ} {E : ℝ} (h : Sm n A V X E) : 0 ≤ E :=
  (frob_nonneg _).trans h.err

theorem frob_conj {n : Nat} (X : Matrix (Fin n) (Fin n) ℝ) {V : Matrix (Fin n) (Fin n) ℝ} (hV : Orth V) :
    frob (V * X * Vᵀ) = frob X := by
  rw [frob_mul_right _ hV, frob_mul_left _ hV]

theorem Sm.nrm {n : Nat} {A : Matrix (Fin n) (Fin n) ℝ} {V X : Nat → Nat → ℝ} {E : ℝ} (h : Sm n A V X E) :
    frob (pk n n X) ≤ frob A + E := by
  have h1 := frob_add_le A (-(A - pk n n V * pk n n X * (pk n n V)ᵀ))
  rw [frob_neg, show A + -(A - pk n n V * pk n n X * (pk n n V)ᵀ) = pk n n V * pk n n X * (pk n n V)ᵀ by abel,
    frob_conj _ h.orth] at h1
  exact h1.trans (add_le_add le_rfl h.err)

theorem Sm.entry {n : Nat} {A : Matrix (Fin n) (Fin n) ℝ} {V X : Nat → Nat → ℝ} {E : ℝ} (h : Sm n A V X E) {a b : Nat}
    (ha : a < n) (hb : b < n) : |X a b| ≤ frob A + E := by
  have := abs_le_frob (pk n n X) ⟨a, ha⟩ ⟨b, hb⟩
  exact this.trans h.nrm

theorem Sm.pert {n : Nat} {A : Matrix (Fin n) (Fin n) ℝ} {V X X' : Nat → Nat → ℝ} {E δ : ℝ} (h : Sm n A V X E)
    (hX : frob (pk n n X - pk n n X') ≤ δ) : Sm n A V X' (E + δ) := by
  refine ⟨h.orth, ?_⟩
  have e : A - pk n n V * pk n n X' * (pk n n V)ᵀ = (A - pk n n V * pk n n X * (pk n n V)ᵀ) +
      pk n n V * (pk n n X - pk n n X') * (pk n n V)ᵀ := by
    rw [Matrix.mul_sub, Matrix.sub_mul]; abel
  rw [e]
  refine (frob_add_le _ _).trans ?_
  rw [frob_conj _ h.orth]
  exact add_le_add h.err hX

/-- Similarity by an orthogonal symmetric matrix. -/
theorem Sm.sim {n : Nat} {A : Matrix (Fin n) (Fin n) ℝ} {V X V' X' : Nat → Nat → ℝ} {E : ℝ} (h : Sm n A V X E)
    {P : Matrix (Fin n) (Fin n) ℝ} (hP : Orth P) (hV : pk n n V' = pk n n V * P) (hX : pk n n X' = Pᵀ * pk n n X * P) :
    Sm n A V' X' E := by
  have hPr := hP.right
  refine ⟨by rw [hV]; exact h.orth.mul hP, ?_⟩
  have e2 : pk n n V * P * (Pᵀ * pk n n X * P) * (Pᵀ * (pk n n V)ᵀ) = pk n n V * pk n n X * (pk n n V)ᵀ := by
    calc _ = pk n n V * (P * Pᵀ) * pk n n X * (P * Pᵀ) * (pk n n V)ᵀ := by simp only [Matrix.mul_assoc]
      _ = _ := by rw [hPr, Matrix.mul_one, Matrix.mul_one]
  rw [hV, hX, transpose_mul, e2]
  exact h.err

/-- Rows `k, k+1, k+2` reflected: `F - (x,y,z)ᵀ ((1,q,r) F)`. -/
def rfL (k : Nat) (q r x y z : ℝ) (F : Nat → Nat → ℝ) : Nat → Nat → ℝ := fun a b =>
  if a = k then F k b - (F k b + q * F (k + 1) b + r * F (k + 2) b) * x
  else if a = k + 1 then F (k + 1) b - (F k b + q * F (k + 1) b + r * F (k + 2) b) * y
  else if a = k + 2 then F (k + 2) b - (F k b + q * F (k + 1) b + r * F (k + 2) b) * z
  else F a b

/-- Columns `k, k+1, k+2` reflected: `F - (F (x,y,z)ᵀ) (1,q,r)`. -/
def rfR (k : Nat) (q r x y z : ℝ) (F : Nat → Nat → ℝ) : Nat → Nat → ℝ := fun a b =>
  if b = k then F a k - (x * F a k + y * F a (k + 1) + z * F a (k + 2))
  else if b = k + 1 then F a (k + 1) - (x * F a k + y * F a (k + 1) + z * F a (k + 2)) * q
  else if b = k + 2 then F a (k + 2) - (x * F a k + y * F a (k + 1) + z * F a (k + 2)) * r
  else F a b

/-- The vector `(1, q, r)` at position `k`. -/
def v3 (n k : Nat) (q r : ℝ) : Fin n → ℝ := fun i => if i.1 = k then 1 else if i.1 = k + 1 then q else if i.1 = k + 2 then r else 0

theorem sum_v3 {n k : Nat} (hk : k + 1 < n) {q r : ℝ} (hr : n ≤ k + 2 → r = 0) (f : Nat → ℝ) :
    ∑ t : Fin n, v3 n k q r t * f t = f k + q * f (k + 1) + r * f (k + 2) := by
  have e : ∀ t : Fin n, v3 n k q r t * f t =
      (if t.1 = k then f k else 0) + (if t.1 = k + 1 then q * f (k + 1) else 0) + (if t.1 = k + 2 then r * f (k + 2) else 0) := by
    intro t
    unfold v3
    split_ifs <;> first | omega | simp_all
  rw [Finset.sum_congr rfl fun t _ => e t, Finset.sum_add_distrib, Finset.sum_add_distrib]
  have s1 : ∀ (j : Nat) (x : ℝ), (n ≤ j → x = 0) → ∑ t : Fin n, (if t.1 = j then x else 0) = x := by
    intro j x hx
    by_cases hj : j < n
    · have : ∀ t : Fin n, (if t.1 = j then x else 0) = if t = ⟨j, hj⟩ then x else 0 := by
        intro t; simp [Fin.ext_iff]
      rw [Finset.sum_congr rfl fun t _ => this t, Finset.sum_ite_eq']
      simp
    · rw [hx (by omega)]; simp
  rw [s1 k _ (fun h => by omega), s1 (k + 1) _ (fun h => by omega), s1 (k + 2) _ (fun h => by rw [hr h]; ring)]

/-- The parameters of a reflection. -/
structure RF (q r x y z : ℝ) : Prop where
  ne : x ≠ 0
  y : y = x * q
  z : z = x * r
  n2 : x * (1 + q * q + r * r) = 2

theorem pk_rfL {n k : Nat} (hk : k + 1 < n) {q r x y z : ℝ} (hr : n ≤ k + 2 → r = 0) (h : RF q r x y z) (F : Nat → Nat → ℝ) :
    pk n n (rfL k q r x y z F) = hh (v3 n k q r) x⁻¹ * pk n n F := by
  ext i j
  rw [hh_mul_apply, show ∑ t, v3 n k q r t * pk n n F t j = _ from sum_v3 hk hr (fun t => F t j)]
  simp only [SVD.pk, LU.packed, of_apply, rfL, v3, h.y, h.z, div_inv_eq_mul]
  split_ifs with h1 h2 h3
  · rw [h1]; ring
  · rw [h2]; ring
  · rw [h3]; ring
  · ring

theorem pk_rfR {n k : Nat} (hk : k + 1 < n) {q r x y z : ℝ} (hr : n ≤ k + 2 → r = 0) (h : RF q r x y z) (F : Nat → Nat → ℝ) :
    pk n n (rfR k q r x y z F) = pk n n F * hh (v3 n k q r) x⁻¹ := by
  ext i j
  rw [mul_hh_apply, show ∑ t, v3 n k q r t * pk n n F i t = _ from sum_v3 hk hr (fun t => F i t)]
  simp only [SVD.pk, LU.packed, of_apply, rfR, v3, h.y, h.z, div_inv_eq_mul]
  split_ifs with h1 h2 h3
  · rw [h1]; ring
  · rw [h2]; ring
  · rw [h3]; ring
  · ring

theorem rf_orth {n k : Nat} (hk : k + 1 < n) {q r x y z : ℝ} (hr : n ≤ k + 2 → r = 0) (h : RF q r x y z) :
    Orth (hh (v3 n k q r) x⁻¹) := by
  refine hh_orth ?_
  have := sum_v3 (q := q) hk hr (fun t => if t = k then 1 else if t = k + 1 then q else if t = k + 2 then r else 0)
  show ∑ t, v3 n k q r t * v3 n k q r t = _
  unfold v3 at this ⊢
  rw [this, if_pos rfl, if_neg (by omega), if_pos rfl, if_neg (by omega), if_neg (by omega), if_pos rfl]
  have h2 := h.n2
  have h3 := h.ne
  field_simp
  linarith

/-- The parameters computed from a column `(p, q, r)`. -/
theorem rf_mk {p q r s : ℝ} (hs : s ≠ 0) (h2 : s * s = p * p + q * q + r * r) (hp : p + s ≠ 0) :
    RF (q / (p + s)) (r / (p + s)) ((p + s) / s) (q / s) (r / s) := by
  refine ⟨div_ne_zero hp hs, by field_simp, by field_simp, ?_⟩
  field_simp
  nlinarith

theorem FullG.wrP {d : Buf ℝ} {m n : Nat} {F : Nat → Nat → ℝ} (h : FullG d m n F) {i j : Nat} (hi : i < m) (hj : j < n) (x : ℝ) :
    Post (LA.wr d (i * n + j) x) fun d' => FullG d' m n (upd F i j x) := h.wr hi hj x

/-- Row `k, k+1, k+2` reflection of the columns `k..` (`src/decomp/eigen.rs:574-582`). -/
theorem qrRows_post {nn k : Nat} {nl : Bool} {q r x y z : ℝ} {h : Buf ℝ} {F : Nat → Nat → ℝ} (hh : FullG h nn nn F) (hk : k + 1 < nn)
    (h1 : nl = true → k + 2 < nn) (h2 : nl = false → r = 0 ∧ z = 0) :
    Post (qrRows nn k nl q r x y z h) fun h' => FullG h' nn nn (fun a b => if k ≤ b then rfL k q r x y z F a b else F a b) := by
  unfold qrRows
  refine (loopG_cols (lo := k) (hi := nn) (fun a b => rfL k q r x y z F a b) hh ?_).mono fun h' h3 => h3.congr fun a b _ hb => ?_
  swap
  · by_cases e : k ≤ b
    · rw [if_pos ⟨e, hb⟩, if_pos e]
    · rw [if_neg (by omega), if_neg e]
  intro j d' G' hj1 hj2 hG heq
  have e0 := heq k j (by omega)
  have e1 := heq (k + 1) j (by omega)
  have e2 := heq (k + 2) j (by omega)
  have e3 : ∀ a, G' a j = F a j := fun a => heq a j (by omega)
  rw [hG.rd (i := k) (j := j) (by omega) hj2, ok_bind, hG.rd (i := k + 1) (j := j) (by omega) hj2, ok_bind]
  dsimp only
  cases nl with
  | true =>
    have hk2 := h1 rfl
    obtain ⟨d1, hd1, hg1⟩ := hG.wr (i := k + 2) (j := j) hk2 hj2 (G' (k + 2) j - (G' k j + q * G' (k + 1) j + r * G' (k + 2) j) * z)
    rw [if_pos rfl, hG.rd (i := k + 2) (j := j) hk2 hj2, ok_bind, ok_bind, hd1, ok_bind]
    simp only [pure_eq_ok, ok_bind]
    rw [hg1.rd (i := k) (j := j) (by omega) hj2, ok_bind, upd_ne (by omega)]
    obtain ⟨d2, hd2, hg2⟩ := hg1.wr (i := k) (j := j) (by omega) hj2 (G' k j - (G' k j + q * G' (k + 1) j + r * G' (k + 2) j) * x)
    rw [hd2, ok_bind, hg2.rd (i := k + 1) (j := j) (by omega) hj2, ok_bind, upd_ne (by omega), upd_ne (by omega)]
    refine (FullG.wrP hg2 (i := k + 1) (j := j) (by omega) hj2 _).mono fun r h => h.congr fun a b _ _ => ?_
    clear heq hg2 hg1 hG h
    have e4 := e3 a
    clear e3
    simp only [upd, rfL]
    grind
  | false =>
    obtain ⟨rfl, rfl⟩ := h2 rfl
    rw [if_neg (by simp)]
    simp only [pure_eq_ok, ok_bind]
    rw [hG.rd (i := k) (j := j) (by omega) hj2, ok_bind]
    obtain ⟨d2, hd2, hg2⟩ := hG.wr (i := k) (j := j) (by omega) hj2 (G' k j - (G' k j + q * G' (k + 1) j) * x)
    rw [hd2, ok_bind, hg2.rd (i := k + 1) (j := j) (by omega) hj2, ok_bind, upd_ne (by omega)]
    refine (FullG.wrP hg2 (i := k + 1) (j := j) (by omega) hj2 _).mono fun r h => h.congr fun a b _ _ => ?_
    clear heq hg2 hG h
    have e4 := e3 a
    clear e3
    simp only [upd, rfL]
    grind

/-- Column reflection of the rows `0..hi` (`src/decomp/eigen.rs:585-593, 596-604`). -/
theorem qrCols_post {nn k hi : Nat} {nl : Bool} {q r x y z : ℝ} {h : Buf ℝ} {F : Nat → Nat → ℝ} (hh : FullG h nn nn F) (hk : k + 1 < nn)
    (hhi : hi ≤ nn) (h1 : nl = true → k + 2 < nn) (h2 : nl = false → r = 0 ∧ z = 0) :
    Post (qrCols nn k hi nl q r x y z h) fun h' => FullG h' nn nn (fun a b => if a < hi then rfR k q r x y z F a b else F a b) := by
  unfold qrCols
  refine (loopG_rows (lo := 0) (hi := hi) (fun a b => rfR k q r x y z F a b) hh ?_).mono fun h' h3 => h3.congr fun a b _ hb => ?_
  swap
  · by_cases e : a < hi
    · rw [if_pos ⟨by omega, e⟩, if_pos e]
    · rw [if_neg (by omega), if_neg e]
  intro j d' G' hj1 hj2 hG heq
  have hj3 : j < nn := by omega
  have e0 := heq j k (by omega)
  have e1 := heq j (k + 1) (by omega)
  have e2 := heq j (k + 2) (by omega)
  have e3 : ∀ a, G' j a = F j a := fun a => heq j a (by omega)
  rw [hG.rd (i := j) (j := k) hj3 (by omega), ok_bind, hG.rd (i := j) (j := k + 1) hj3 (by omega), ok_bind]
  dsimp only
  cases nl with
  | true =>
    have hk2 := h1 rfl
    obtain ⟨d1, hd1, hg1⟩ := hG.wr (i := j) (j := k + 2) hj3 hk2 (G' j (k + 2) - (x * G' j k + y * G' j (k + 1) + z * G' j (k + 2)) * r)
    rw [if_pos rfl, hG.rd (i := j) (j := k + 2) hj3 hk2, ok_bind, ok_bind, hd1, ok_bind]
    simp only [pure_eq_ok, ok_bind]
    rw [hg1.rd (i := j) (j := k) hj3 (by omega), ok_bind, upd_ne (by omega)]
    obtain ⟨d2, hd2, hg2⟩ := hg1.wr (i := j) (j := k) hj3 (by omega) (G' j k - (x * G' j k + y * G' j (k + 1) + z * G' j (k + 2)))
    rw [hd2, ok_bind, hg2.rd (i := j) (j := k + 1) hj3 (by omega), ok_bind, upd_ne (by omega), upd_ne (by omega)]
    refine (FullG.wrP hg2 (i := j) (j := k + 1) hj3 (by omega) _).mono fun r h => h.congr fun a b _ _ => ?_
    clear heq hg2 hg1 hG h
    have e4 := e3 b
    clear e3
    simp only [upd, rfR]
    grind
  | false =>
    obtain ⟨rfl, rfl⟩ := h2 rfl
    rw [if_neg (by simp)]
    simp only [pure_eq_ok, ok_bind]
    rw [hG.rd (i := j) (j := k) hj3 (by omega), ok_bind]
    obtain ⟨d2, hd2, hg2⟩ := hG.wr (i := j) (j := k) hj3 (by omega) (G' j k - (x * G' j k + y * G' j (k + 1)))
    rw [hd2, ok_bind, hg2.rd (i := j) (j := k + 1) hj3 (by omega), ok_bind, upd_ne (by omega)]
    refine (FullG.wrP hg2 (i := j) (j := k + 1) hj3 (by omega) _).mono fun r h => h.congr fun a b _ _ => ?_
    clear heq hg2 hG h
    have e4 := e3 b
    clear e3
    simp only [upd, rfR]
    grind

end Eigen
end LA
