import Verif.Proofs.StdBid

/-! # One step of the reduction to bidiagonal form, in rounded arithmetic -/

set_option linter.unusedSectionVars false

namespace LA
open Finset Matrix
namespace Std
open Sfp SVD

variable {α : Type} [Zero α] [One α] [Add α] [Sub α] [Neg α] [Mul α] [FloatOps α] [Sfp α]

/-- A computed reflection vector `u` (with image `s`) close to an exact one `a`. -/
structure HR (K lo N : Nat) (a : Nat → ℝ) (u : Nat → α) (s : α) : Prop where
  norm : ∑ t ∈ Ico lo N, a t * a t = 2 * a lo
  nonneg : 0 ≤ a lo
  zero : val s = 0 → ∀ i, lo ≤ i → i < N → a i = 0
  pos : val s ≠ 0 → 0 < a lo
  u : ∀ t, lo ≤ t → t < N → Rt (w α) K (val (u t)) (a t)

theorem HVr.hr {K lo N : Nat} {x a : Nat → ℝ} {g : ℝ} {u : Nat → α} {s : α} (h : HVr K lo N x a g u s) : HR K lo N a u s :=
  ⟨h.hv.norm, h.nonneg, h.zero, h.pos, h.u⟩

theorem HVr.mono {K L lo N : Nat} {x a : Nat → ℝ} {g : ℝ} {u : Nat → α} {s : α} (h : HVr K lo N x a g u s) (hKL : K ≤ L) :
    HVr L lo N x a g u s := ⟨h.hv, h.nonneg, fun t h1 h2 => (h.u t h1 h2).mono w_one hKL, h.s.mono w_one hKL⟩

theorem HR.congr {K lo N : Nat} {a a' : Nat → ℝ} {u u' : Nat → α} {s s' : α} (h : HR K lo N a u s) (hlo : lo < N)
    (ha : ∀ i, a i = a' i) (hu : ∀ i, u i = u' i) (hs : s = s') : HR K lo N a' u' s' := by
  rw [← (funext ha : a = a'), ← (funext hu : u = u'), ← hs]
  exact h

theorem HR.ne {K lo N : Nat} {a : Nat → ℝ} {u : Nat → α} {s : α} (h : HR K lo N a u s) (hlo : lo < N) (h0 : val s ≠ 0) : val (u lo) ≠ 0 :=
  (h.u lo le_rfl hlo).ne w_one (h.pos h0).ne'

/-- The error of the reflections. -/
noncomputable def kr (α : Type) [Zero α] [One α] [Add α] [Sub α] [Neg α] [Mul α] [FloatOps α] [Sfp α] (m : Nat) : ℝ :=
  w α ^ (13 * m + 10) - 1

theorem kr_nonneg (m : Nat) : 0 ≤ kr α m := sub_nonneg.2 (pw_one w_one _)

theorem pw_kr {k m : Nat} (h : k ≤ 13 * m + 10) : w α ^ k - 1 ≤ kr α m :=
  sub_le_sub_right (pow_le_pow_right₀ w_one h) 1

theorem bnd_nonneg {lo N : Nat} {a f : Nat → ℝ} (h : 0 ≤ a lo) (i : Nat) :
    0 ≤ |f i| + |a i| / a lo * ∑ t ∈ Ico lo N, |a t| * |f t| :=
  add_nonneg (abs_nonneg _) (mul_nonneg (div_nonneg (abs_nonneg _) h)
    (Finset.sum_nonneg fun _ _ => mul_nonneg (abs_nonneg _) (abs_nonneg _)))

theorem HR.appC {m lo N : Nat} {a : Nat → ℝ} {u : Nat → α} {s : α} (h : HR (4 * m + 2) lo N a u s) (hN : N ≤ m) (f : Nat → α) {i : Nat}
    (h1 : lo ≤ i) (h2 : i < N) :
    |val (appC lo N s u f i) - (val (f i) + -(∑ t ∈ Ico lo N, a t * val (f t)) / a lo * a i)| ≤
      kr α m * (|val (f i)| + |a i| / a lo * ∑ t ∈ Ico lo N, |a t| * |val (f t)|) := by
  unfold Std.appC
  have hb := bnd_nonneg (N := N) (f := fun t => val (f t)) h.nonneg i
  by_cases h0 : FloatOps.eq s 0 = true
  · rw [if_pos h0, h.zero (eq_zero_iff.1 h0) i h1 h2, mul_zero, add_zero, sub_self, abs_zero]
    rw [h.zero (eq_zero_iff.1 h0) i h1 h2, abs_zero] at hb
    exact mul_nonneg (kr_nonneg m) hb
  · rw [if_neg h0]
    have h3 := appc_err (f := f) h.u (h.pos fun hs => h0 (eq_zero_iff.2 hs)) h1 h2
    simp only [abs_mul] at h3
    exact h3.trans (mul_le_mul_of_nonneg_right (pw_kr (by omega)) hb)

theorem HR.appR {m lo N : Nat} {a : Nat → ℝ} {u : Nat → α} {s : α} (h : HR (4 * m + 2) lo N a u s) (hN : N ≤ m) (f : Nat → α) {i : Nat}
    (h1 : lo ≤ i) (h2 : i < N) :
    |val (appR lo N s u f i) - (val (f i) + -(∑ t ∈ Ico lo N, a t * val (f t)) / a lo * a i)| ≤
      kr α m * (|val (f i)| + |a i| / a lo * ∑ t ∈ Ico lo N, |a t| * |val (f t)|) := by
  unfold Std.appR
  have hb := bnd_nonneg (N := N) (f := fun t => val (f t)) h.nonneg i
  by_cases h0 : FloatOps.eq s 0 = true
  · rw [if_pos h0, h.zero (eq_zero_iff.1 h0) i h1 h2, mul_zero, add_zero, sub_self, abs_zero]
    rw [h.zero (eq_zero_iff.1 h0) i h1 h2, abs_zero] at hb
    exact mul_nonneg (kr_nonneg m) hb
  · rw [if_neg h0]
    have h3 := appr_err (f := f) h.u (h.pos fun hs => h0 (eq_zero_iff.2 hs)) h1 h2
    simp only [abs_mul] at h3
    exact h3.trans (mul_le_mul_of_nonneg_right (pw_kr (by omega)) hb)

/-- The image of the vector itself. -/
theorem HVr.own' {m lo N : Nat} {x a : Nat → ℝ} {g : ℝ} {u : Nat → α} {s : α} (h : HVr (4 * m + 2) lo N x a g u s) (hlo : lo < N) {i : Nat}
    (h1 : lo ≤ i) (h2 : i < N) :
    |(if i = lo then val s else 0) - (x i + -(∑ t ∈ Ico lo N, a t * x t) / a lo * a i)| ≤
      kr α m * (|x i| + |a i| / a lo * ∑ t ∈ Ico lo N, |a t| * |x t|) := by
  have hb := bnd_nonneg (N := N) (f := x) h.nonneg i
  rw [h.hv.refl i h1 h2]
  by_cases e : i = lo
  · subst e
    rw [if_pos rfl, if_pos rfl]
    have h3 := h.own hlo
    simp only [abs_mul] at h3
    exact h3.trans (mul_le_mul_of_nonneg_right (pw_kr (by omega)) hb)
  · rw [if_neg e, if_neg e, sub_self, abs_zero]
    exact mul_nonneg (kr_nonneg m) hb

/-- Middle factor after the `k`-th column transformation. -/
def midL (nrt k : Nat) (s e : Nat → ℝ) (sk : ℝ) (G G1 : Nat → Nat → ℝ) : Nat → Nat → ℝ := fun i j =>
  if i < k then mid nrt k s e G i j else if j < k then 0 else if j = k then (if i = k then sk else 0) else G1 i j

theorem left_err {m n nrt k : Nat} {s e a : Nat → ℝ} {g : ℝ} {u : Nat → α} {sk : α} {G G1 : Nat → Nat → α}
    (h : HVr (4 * m + 2) k m (fun i => val (G i k)) a g u sk) (hkm : k < m)
    (hG : ∀ i j, k ≤ i → i < m → k + 1 ≤ j → j < n → G1 i j = appC k m sk u (fun i => G i j) i) :
    RefErr (kr α m) k m n a (mid nrt k s e (tt G)) (midL nrt k s e (val sk) (tt G) (tt G1)) := by
  intro i j hi hj
  rw [refc_mid (n := n)]
  by_cases h1 : i < k
  · rw [if_pos h1, midL, if_pos h1, if_neg (by omega), sub_self, abs_zero, mul_zero]
  · have hb := bnd_nonneg (N := m) (f := fun t => mid nrt k s e (tt G) t j) h.nonneg i
    rw [if_neg h1, midL, if_neg h1, if_pos (not_lt.1 h1)]
    by_cases h2 : j < k
    · rw [if_pos h2, if_pos h2, sub_self, abs_zero]
      exact mul_nonneg (kr_nonneg m) hb
    · have e1 : ∀ t, k ≤ t → mid nrt k s e (tt G) t j = val (G t j) := fun t ht => by
        rw [mid, if_neg (by omega), if_neg h2, tt]
      have e2 : ∑ t ∈ Ico k m, |a t| * |mid nrt k s e (tt G) t j| = ∑ t ∈ Ico k m, |a t| * |val (G t j)| :=
        Finset.sum_congr rfl fun t ht => by rw [e1 t (Finset.mem_Ico.1 ht).1]
      rw [if_neg h2, if_neg h2, e1 i (by omega), e2, refc, if_pos (not_lt.1 h1)]
      by_cases h3 : j = k
      · rw [if_pos h3]
        subst h3
        exact h.own' hkm (not_lt.1 h1) hi
      · rw [if_neg h3]
        show |val (G1 i j) - _| ≤ _
        rw [hG i j (by omega) hi (by omega) hj]
        exact h.hr.appC le_rfl (fun i => G i j) (not_lt.1 h1) hi

theorem right_err {m n nrt k : Nat} {s e b : Nat → ℝ} {g sk : ℝ} {u : Nat → α} {ek : α} {G G1 G2 : Nat → Nat → α}
    (h : HVr (4 * m + 2) (k + 1) n (fun j => val (G1 k j)) b g u ek) (hnm : n ≤ m) (hk : k + 1 < n) (hn : k < nrt)
    (hG : ∀ i j, k + 1 ≤ i → i < m → k + 1 ≤ j → j < n → G2 i j = appR (k + 1) n ek u (fun j => G1 i j) j) :
    RefErr (kr α m) (k + 1) n m b (fun j i => midL nrt k s e sk (tt G) (tt G1) i j)
      (fun j i => mid nrt (k + 1) (updv s k sk) (updv e k (val ek)) (tt G2) i j) := by
  intro j i hj hi
  set M1 : Nat → Nat → ℝ := midL nrt k s e sk (tt G) (tt G1) with hM1
  have hb := bnd_nonneg (N := n) (f := fun t => M1 i t) h.nonneg j
  by_cases h1 : k + 1 ≤ j
  swap
  · rw [if_neg h1, refc, if_neg h1]
    have : mid nrt (k + 1) (updv s k sk) (updv e k (val ek)) (tt G2) i j = M1 i j := by
      simp only [hM1, midL, mid, updv]
      grind
    beta_reduce
    rw [this, sub_self, abs_zero, mul_zero]
  rw [if_pos h1, refc, if_pos h1]
  rcases lt_trichotomy i k with hik | hik | hik
  · have e1 : ∀ t, k + 1 ≤ t → M1 i t = 0 := fun t ht => by
      rw [hM1, midL, if_pos hik, mid, if_pos hik, if_neg (by omega), if_neg (by omega)]
    have e2 : ∑ t ∈ Ico (k + 1) n, b t * M1 i t = 0 := Finset.sum_eq_zero fun t ht => by rw [e1 t (Finset.mem_Ico.1 ht).1, mul_zero]
    beta_reduce
    rw [e2, e1 j h1, mid, if_pos (by omega), if_neg (by omega), if_neg (by omega), neg_zero, zero_div, zero_mul, add_zero, sub_self, abs_zero]
    rw [e1 j h1] at hb
    exact mul_nonneg (kr_nonneg m) (by simpa using hb)
  · subst hik
    have e1 : ∀ t, i + 1 ≤ t → M1 i t = val (G1 i t) := fun t ht => by
      rw [hM1, midL, if_neg (by omega), if_neg (by omega), if_neg (by omega), tt]
    have e2 : ∑ t ∈ Ico (i + 1) n, b t * M1 i t = ∑ t ∈ Ico (i + 1) n, b t * val (G1 i t) :=
      Finset.sum_congr rfl fun t ht => by rw [e1 t (Finset.mem_Ico.1 ht).1]
    have e3 : ∑ t ∈ Ico (i + 1) n, |b t| * |M1 i t| = ∑ t ∈ Ico (i + 1) n, |b t| * |val (G1 i t)| :=
      Finset.sum_congr rfl fun t ht => by rw [e1 t (Finset.mem_Ico.1 ht).1]
    beta_reduce
    rw [e2, e3, e1 j h1, mid, if_pos (by omega), if_neg (by omega), if_pos hn, updv_same]
    exact h.own' hk h1 hj
  · have e1 : ∀ t, k + 1 ≤ t → M1 i t = val (G1 i t) := fun t ht => by
      rw [hM1, midL, if_neg (by omega), if_neg (by omega), if_neg (by omega), tt]
    have e2 : ∑ t ∈ Ico (k + 1) n, b t * M1 i t = ∑ t ∈ Ico (k + 1) n, b t * val (G1 i t) :=
      Finset.sum_congr rfl fun t ht => by rw [e1 t (Finset.mem_Ico.1 ht).1]
    have e3 : ∑ t ∈ Ico (k + 1) n, |b t| * |M1 i t| = ∑ t ∈ Ico (k + 1) n, |b t| * |val (G1 i t)| :=
      Finset.sum_congr rfl fun t ht => by rw [e1 t (Finset.mem_Ico.1 ht).1]
    beta_reduce
    rw [e2, e3, e1 j h1, mid, if_neg (by omega), if_neg (by omega), tt, hG i j (by omega) hi h1 hj]
    exact h.hr.appR hnm (fun j => G1 i j) h1 hj

/-- One transformation of the middle factor, with its rounding errors. -/
theorem mid_step {m n r : Nat} {κ C : ℝ} {A M M' : Matrix (Fin m) (Fin n) ℝ} {P G : Matrix (Fin m) (Fin m) ℝ} {Q H : Matrix (Fin n) (Fin n) ℝ}
    (hκ : 0 ≤ κ) (hC : frob A ≤ C) (h1 : Orth P) (h2 : Orth Q) (hG : Orth G) (hH : Orth H)
    (h5 : frob (A - P * M * Qᵀ) ≤ ((1 + κ) ^ r - 1) * C) (hM : frob (M' - Gᵀ * M * H) ≤ κ * frob M) :
    frob (A - P * G * M' * (Q * H)ᵀ) ≤ ((1 + κ) ^ (r + 1) - 1) * C := by
  have e1 : P * M * Qᵀ - P * G * M' * (Q * H)ᵀ = P * G * (Gᵀ * M * H - M') * (Q * H)ᵀ := by
    rw [Matrix.mul_sub, Matrix.sub_mul, transpose_mul]
    congr 1
    simp only [Matrix.mul_assoc]
    rw [← Matrix.mul_assoc G Gᵀ, hG.right, Matrix.one_mul, ← Matrix.mul_assoc H Hᵀ, hH.right, Matrix.one_mul]
  have h6 := frob_tri A (P * M * Qᵀ) (P * G * M' * (Q * H)ᵀ)
  rw [e1, frob_mul_right _ (h2.mul hH), frob_mul_left _ (h1.mul hG), frob_sub_comm (Gᵀ * M * H)] at h6
  have h7 : frob M ≤ frob A + frob (A - P * M * Qᵀ) := by
    have := frob_sub_le A (A - P * M * Qᵀ)
    rwa [sub_sub_cancel, frob_mul_right _ h2, frob_mul_left _ h1] at this
  have h8 := mul_le_mul_of_nonneg_left h7 hκ
  have h9 := mul_le_mul_of_nonneg_left h5 (show 0 ≤ 1 + κ by linarith)
  have h10 := mul_le_mul_of_nonneg_left hC hκ
  rw [pow_succ]
  linarith

/-- Column `k` replaced. -/
def cset {β : Type} (U : Nat → Nat → β) (k : Nat) (c : Nat → β) : Nat → Nat → β := fun i t => if t = k then c i else U i t
theorem cset_same {β : Type} (U : Nat → Nat → β) (k : Nat) (c : Nat → β) (i : Nat) : cset U k c i k = c i := if_pos rfl
theorem cset_ne {β : Type} {U : Nat → Nat → β} {k t : Nat} {c : Nat → β} (h : t ≠ k) (i : Nat) : cset U k c i t = U i t := if_neg h

/-- Invariant of the reduction: the mathematics. -/
structure BM (m n nrt : Nat) (κ C : ℝ) (A : Matrix (Fin m) (Fin n) ℝ) (k : Nat) (s e : Nat → α) (U V G : Nat → Nat → α)
    (a b : Nat → Nat → ℝ) : Prop where
  u : ∀ t, t < k → HR (4 * m + 2) t m (fun i => a i t) (fun i => U i t) (s t)
  v : ∀ t, t < k → t < nrt → HR (4 * m + 2) (t + 1) n (fun i => b i t) (fun i => V i t) (e t)
  err : frob (A - prodL (lref m a) k * pk m n (mid nrt k (vv s) (vv e) (tt G)) * (prodL (rref n nrt b) k)ᵀ) ≤ ((1 + κ) ^ (2 * k) - 1) * C

/-- Invariant of the reduction: the buffers. -/
structure BB (m n nrt k : Nat) (b : Bid α) (s e : Nat → α) (U V G : Nat → Nat → α) : Prop where
  a : Grid b.a m n G
  s : ∃ S, Vect b.s n S ∧ ∀ t, t < k → S t = some (s t)
  e : ∃ E, Vect b.e n E ∧ ∀ t, t < k → t < nrt → E t = some (e t)
  u : ∃ F, Grid b.u m m F ∧ ∀ t i, t < k → t ≤ i → i < m → F i t = some (U i t)
  v : ∃ F, Grid b.v n n F ∧ ∀ t i, t < k → t < nrt → t + 1 ≤ i → i < n → F i t = some (V i t)
  w : ∃ F, Vect b.w m F

theorem BM.orthL {m n nrt k : Nat} {κ C : ℝ} {A : Matrix (Fin m) (Fin n) ℝ} {s e : Nat → α} {U V G : Nat → Nat → α} {a b : Nat → Nat → ℝ}
    (h : BM m n nrt κ C A k s e U V G a b) : Orth (prodL (lref m a) k) :=
  prodL_orth fun t ht => hhl_orth (h.u t ht).norm

theorem BM.orthR {m n nrt k : Nat} {κ C : ℝ} {A : Matrix (Fin m) (Fin n) ℝ} {s e : Nat → α} {U V G : Nat → Nat → α} {a b : Nat → Nat → ℝ}
    (h : BM m n nrt κ C A k s e U V G a b) : Orth (prodL (rref n nrt b) k) :=
  prodL_orth fun t ht => by
    unfold rref
    split
    · exact hhl_orth (h.v t ht ‹_›).norm
    · exact orth_one

theorem bm_step {m n nrt k : Nat} {κ C : ℝ} {A : Matrix (Fin m) (Fin n) ℝ} {s e cu cv : Nat → α} {U V G G1 G2 : Nat → Nat → α}
    {a b : Nat → Nat → ℝ} {ca cb : Nat → ℝ} {g h' : ℝ} {sk ek : α} (hκ : 3 * kr α m ≤ κ) (hC : frob A ≤ C)
    (h : BM m n nrt κ C A k s e U V G a b) (hkm : k < m) (hk : k < n) (hnm : n ≤ m) (hnrt : nrt ≤ k → n ≤ k + 2) (hlt : k < nrt → k + 1 < n)
    (hu : HVr (4 * m + 2) k m (fun i => val (G i k)) ca g cu sk)
    (hG1 : ∀ i j, k ≤ i → i < m → k + 1 ≤ j → j < n → G1 i j = appC k m sk cu (fun i => G i j) i)
    (hv : k < nrt → HVr (4 * m + 2) (k + 1) n (fun j => val (G1 k j)) cb h' cv ek)
    (hG2 : k < nrt → ∀ i j, k + 1 ≤ i → i < m → k + 1 ≤ j → j < n → G2 i j = appR (k + 1) n ek cv (fun j => G1 i j) j)
    (hG3 : nrt ≤ k → ∀ i j, k ≤ i → i < m → k + 1 ≤ j → j < n → G2 i j = G1 i j)
    (hG4 : ∀ i j, i < k → j < n → G2 i j = G i j) :
    BM m n nrt κ C A (k + 1) (updv s k sk) (updv e k ek) (cset U k cu) (cset V k cv) G2 (cset a k ca) (cset b k cb) := by
  have hκ0 : 0 ≤ κ := le_trans (mul_nonneg (by norm_num) (kr_nonneg m)) hκ
  have hl : lref m (cset a k ca) k = hhl m k ca := hhl_congr hkm fun i _ _ => cset_same _ _ _ _
  have hl' : ∀ t, t < k → lref m (cset a k ca) t = lref m a t := fun t ht =>
    hhl_congr (by omega) fun i _ _ => cset_ne (by omega) _
  have hr' : ∀ t, t < k → rref n nrt (cset b k cb) t = rref n nrt b t := fun t ht => by
    unfold rref
    by_cases hn : t < nrt
    · rw [if_pos hn, if_pos hn]
      exact hhl_congr (by omega) fun i _ _ => cset_ne (by omega) _
    · rw [if_neg hn, if_neg hn]
  refine ⟨?_, ?_, ?_⟩
  · intro t ht
    by_cases e : t = k
    · subst e
      exact hu.hr.congr hkm (fun i => (cset_same _ _ _ i).symm) (fun i => (cset_same _ _ _ i).symm) (updv_same _ _ _).symm
    · exact (h.u t (by omega)).congr (by omega) (fun i => (cset_ne e i).symm) (fun i => (cset_ne e i).symm) (updv_ne e).symm
  · intro t ht hn
    by_cases e : t = k
    · subst e
      exact (hv hn).hr.congr (hlt hn) (fun i => (cset_same _ _ _ i).symm) (fun i => (cset_same _ _ _ i).symm) (updv_same _ _ _).symm
    · exact (h.v t (by omega) hn).congr (by omega) (fun i => (cset_ne e i).symm) (fun i => (cset_ne e i).symm) (updv_ne e).symm
  · set M0 := mid nrt k (vv s) (vv e) (tt G) with hM0
    set M1 := midL nrt k (vv s) (vv e) (val sk) (tt G) (tt G1) with hM1
    have h1 : frob (pk m n M1 - hhl m k ca * pk m n M0) ≤ κ * frob (pk m n M0) :=
      ((left_err hu hkm hG1).frob (kr_nonneg m) hu.hv.norm hu.nonneg).trans (mul_le_mul_of_nonneg_right hκ (frob_nonneg _))
    have hol : Orth (hhl m k ca) := hhl_orth hu.hv.norm
    have h2 := mid_step (G := hhl m k ca) (H := 1) hκ0 hC h.orthL h.orthR hol orth_one h.err (M' := pk m n M1) (by
      rw [hhl_transpose, Matrix.mul_one]; exact h1)
    rw [Matrix.mul_one] at h2
    rw [prodL, prodL, hl, prodL_congr hl', prodL_congr hr', vv_updv, vv_updv]
    have hP : Orth (prodL (lref m a) k * hhl m k ca) := h.orthL.mul hol
    by_cases hn : k < nrt
    · have hor : Orth (hhl n (k + 1) cb) := hhl_orth (hv hn).hv.norm
      have hr : rref n nrt (cset b k cb) k = hhl n (k + 1) cb := by
        rw [rref, if_pos hn]
        exact hhl_congr (hlt hn) fun i _ _ => cset_same _ _ _ _
      rw [hr]
      set M2 := mid nrt (k + 1) (updv (vv s) k (val sk)) (updv (vv e) k (val ek)) (tt G2) with hM2
      have h3 := ((right_err (s := vv s) (e := vv e) (sk := val sk) (G := G) (hv hn) hnm (hlt hn) hn (hG2 hn)).frob (kr_nonneg m)
        (hv hn).hv.norm (hv hn).nonneg).trans (mul_le_mul_of_nonneg_right hκ (frob_nonneg _))
      have t1 : pk n m (fun j i => M1 i j) = (pk m n M1)ᵀ := rfl
      have t2 : pk n m (fun j i => M2 i j) = (pk m n M2)ᵀ := rfl
      rw [t1, t2, ← frob_transpose, transpose_sub, transpose_mul, transpose_transpose, transpose_transpose, hhl_transpose,
        frob_transpose] at h3
      have h4 := mid_step (G := 1) (H := hhl n (k + 1) cb) hκ0 hC hP h.orthR orth_one hor h2 (M' := pk m n M2) (by
        rw [transpose_one, Matrix.one_mul]; exact h3)
      rw [Matrix.mul_one] at h4
      exact h4
    · have hr : rref n nrt (cset b k cb) k = 1 := by rw [rref, if_neg hn]
      rw [hr, Matrix.mul_one]
      have e1 : pk m n (mid nrt (k + 1) (updv (vv s) k (val sk)) (updv (vv e) k (val ek)) (tt G2)) = pk m n M1 := by
        refine pk_congr fun i j hi hj => ?_
        have q1 := hnrt (not_lt.1 hn)
        have q2 : k ≤ i → k + 1 ≤ j → tt G2 i j = tt G1 i j := fun h1 h2 => congrArg Sfp.val (hG3 (not_lt.1 hn) i j h1 hi h2 hj)
        have q3 : i < k → tt G2 i j = tt G i j := fun h1 => congrArg Sfp.val (hG4 i j h1 hj)
        rw [hM1]
        generalize tt G2 = X2 at *
        generalize tt G1 = X1 at *
        generalize tt G = X at *
        simp only [midL, mid, updv]
        grind
      rw [e1]
      refine h2.trans (mul_le_mul_of_nonneg_right ?_ ((frob_nonneg A).trans hC))
      have : (1 + κ) ^ (2 * k + 1) ≤ (1 + κ) ^ (2 * (k + 1)) := pow_le_pow_right₀ (by linarith) (by omega)
      linarith

theorem bidStep_post {m n nct nrt k : Nat} {κ C : ℝ} {A : Matrix (Fin m) (Fin n) ℝ} {b : Bid α} {s e : Nat → α} {U V G : Nat → Nat → α}
    {ta tb : Nat → Nat → ℝ} (hκ : 3 * kr α m ≤ κ) (hC : frob A ≤ C)
    (hm : BM m n nrt κ C A k s e U V G ta tb) (hb : BB m n nrt k b s e U V G) (hkm : k < m) (hk : k < n) (hkc : k < nct)
    (hnm : n ≤ m) (hnrt : nrt ≤ k → n ≤ k + 2) (hlt : k < nrt → k + 2 < n) :
    Post (bidStep m n nct nrt k b) fun b' => ∃ s' e' U' V' G' ta' tb', BM m n nrt κ C A (k + 1) s' e' U' V' G' ta' tb' ∧
      BB m n nrt (k + 1) b' s' e' U' V' G' := by
  obtain ⟨S, hS, hSk⟩ := hb.s
  obtain ⟨E, hE, hEk⟩ := hb.e
  obtain ⟨FU, hFU, hFUk⟩ := hb.u
  obtain ⟨FV, hFV, hFVk⟩ := hb.v
  obtain ⟨Wo, hWo⟩ := hb.w
  unfold bidStep
  rw [if_pos hkc]
  obtain ⟨⟨a1, s1⟩, hr1, ha1, hs1⟩ := colTransform_post hb.a hS hk hkm
  rw [hr1, ok_bind]
  dsimp only at ha1 hs1 ⊢
  obtain ⟨ca, g, hu⟩ := hvec_ok (fun i => G i k) hkm
  set cu : Nat → α := hvec k m (fun i => G i k) with hcu
  set sk : α := himg k m (fun i => G i k) with hsk
  set G1 : Nat → Nat → α := fun i j => if j = k ∧ k ≤ i then cu i else G i j with hG1
  have hG1k : ∀ i, k ≤ i → G1 i k = cu i := fun i hi => if_pos ⟨rfl, hi⟩
  have hG1n : ∀ i j, j ≠ k → G1 i j = G i j := fun i j hj => if_neg (by tauto)
  have hG1u : ∀ i j, i < k → G1 i j = G i j := fun i j hj => if_neg (by omega)
  have happ : ∀ i j, i < m → k + 1 ≤ j → appC k m sk (fun i => G1 i k) (fun i => G1 i j) i = appC k m sk cu (fun i => G i j) i := by
    intro i j hi hj
    exact appC_congr hkm (fun t h1 _ => hG1k t h1) (fun t _ => hG1n t j (by omega)) hi
  obtain ⟨⟨a2, e2⟩, hr2, ha2, he2⟩ := applyCols_post (nct := nct) ha1 hs1 hE hk hkm hkc (updv_same _ _ _)
    (fun h => by rw [hG1k k le_rfl]; exact hu.hr.ne hkm h)
  rw [hr2, ok_bind]
  dsimp only at ha2 he2 ⊢
  rw [if_pos hkc]
  obtain ⟨u3, hr3, hu3⟩ := loop_rows (lo := k) (hi := m) (f := fun i u => do wr u (i * m + k) (← idx a2 (i * n + k)))
    (fun i j => if j = k then some (cu i) else FU i j) hFU (by
      intro i d' F' h1 h2 hF' hsame
      rw [ha2.idx h2 hk, ok_bind, if_neg (by omega), hG1k i h1]
      refine (hF'.wr h2 hkm _).mono fun d'' h => h.congr fun r c _ _ => ?_
      simp only [upd]
      have := hsame i c (by omega)
      grind)
  rw [hr3, ok_bind]
  set G2 : Nat → Nat → α := fun i j => if k + 1 ≤ j then appC k m sk (fun i => G1 i k) (fun i => G1 i j) i else G1 i j with hG2
  have hG2u : ∀ i j, i < k → j < n → G2 i j = G i j := by
    intro i j hi _
    simp only [hG2]
    by_cases hj : k + 1 ≤ j
    · rw [if_pos hj, happ i j (by omega) hj, appC, appc, if_neg (show ¬ k ≤ i by omega), ite_self]
    · rw [if_neg hj, hG1u i j hi]
  have hG2c : ∀ i j, i < m → k + 1 ≤ j → G2 i j = appC k m sk cu (fun i => G i j) i := by
    intro i j hi hj
    simp only [hG2]
    rw [if_pos hj, happ i j hi hj]
  have hbs : ∃ S', Vect s1 n S' ∧ ∀ t, t < k + 1 → S' t = some (updv s k sk t) := ⟨_, hs1, fun t ht => by
    by_cases e : t = k
    · rw [e, updv_same, updv_same]
    · rw [updv_ne e, updv_ne e, hSk t (by omega)]⟩
  have hbu : ∃ F, Grid u3 m m F ∧ ∀ t i, t < k + 1 → t ≤ i → i < m → F i t = some (cset U k cu i t) := ⟨_, hu3, fun t i h1 h2 h3 => by
    by_cases e : t = k
    · subst e
      rw [if_pos ⟨h2, h3⟩, if_pos rfl, cset_same]
    · rw [cset_ne e]
      have := hFUk t i (by omega) h2 h3
      grind⟩
  by_cases hn : k < nrt
  · rw [if_pos hn]
    obtain ⟨e4, hr4, he4⟩ := rowTransform_post he2 (k := k) (x := fun j => G2 k j) (by omega) (fun j h1 h2 => by
      rw [if_pos h1, hG2]
      beta_reduce
      rw [if_pos h1])
    obtain ⟨cb, h', hv⟩ := hvec_ok (lo := k + 1) (N := n) (fun j => G2 k j) (by have := hlt hn; omega)
    set cv : Nat → α := hvec (k + 1) n (fun j => G2 k j) with hcv
    set ek : α := himg (k + 1) n (fun j => G2 k j) with hek
    rw [hr4, ok_bind]
    obtain ⟨⟨a5, w5⟩, hr5, ha5, W', hw5⟩ := applyRow_post (x := cv) (ek := ek) ha2 he4 hWo (k := k) (by omega) (by omega)
      (by rw [if_neg (by omega), if_pos rfl]) (fun i h1 h2 => by rw [if_pos h1]) (hv.hr.ne (by have := hlt hn; omega))
    rw [hr5, ok_bind]
    dsimp only at ha5 hw5 ⊢
    obtain ⟨v6, hr6, hv6⟩ := loop_rows (lo := k + 1) (hi := n) (f := fun i v => do wr v (i * n + k) (← rd e4 i))
      (fun i j => if j = k then some (cv i) else FV i j) hFV (by
        intro i d' F' h1 h2 hF' hsame
        rw [he4.rd h2 (by rw [if_pos h1]), ok_bind]
        refine (hF'.wr h2 hk _).mono fun d'' h => h.congr fun r c _ _ => ?_
        simp only [upd]
        have := hsame i c (by omega)
        grind)
    rw [hr6, ok_bind]
    refine Post.pure ⟨updv s k sk, updv e k ek, cset U k cu, cset V k cv, _, cset ta k ca, cset tb k cb,
      bm_step (G1 := G2) hκ hC hm hkm hk hnm hnrt (fun _ => by omega) hu (fun i j _ h2 h3 _ => hG2c i j h2 h3)
        (fun _ => hv.mono (by omega)) ?_ (fun h => by omega) ?_,
      ⟨ha5, hbs, ⟨_, he4, ?_⟩, hbu, ⟨_, hv6, ?_⟩, ⟨_, hw5⟩⟩⟩
    · intro _ i j h1 _ h3 _
      rw [if_pos h1]
    · intro i j h1 h2
      rw [if_neg (by omega)]
      exact hG2u i j h1 h2
    · intro t h1 h2
      by_cases e : t = k
      · rw [e, if_neg (by omega), if_pos rfl, updv_same]
      · rw [if_neg (by omega), if_neg e, if_neg (by omega), updv_ne e, hEk t (by omega) h2]
    · intro t i h1 h2 h3 h4
      by_cases e : t = k
      · subst e
        rw [if_pos ⟨h3, h4⟩, if_pos rfl, cset_same]
      · rw [cset_ne e]
        have := hFVk t i (by omega) h2 h3 h4
        grind
  · rw [if_neg hn]
    refine Post.pure ⟨updv s k sk, updv e k 0, cset U k cu, cset V k (fun _ => 0), G2, cset ta k ca, cset tb k (fun _ => 0),
      bm_step (G1 := G2) (h' := 0) hκ hC hm hkm hk hnm hnrt (fun h => by omega) hu (fun i j _ h2 h3 _ => hG2c i j h2 h3)
        (fun h => absurd h hn) (fun h => absurd h hn) (fun _ _ _ _ _ _ _ => rfl) hG2u,
      ⟨ha2, hbs, ⟨_, he2, ?_⟩, hbu, ⟨_, hFV, ?_⟩, ⟨_, hWo⟩⟩⟩
    · intro t h1 h2
      rw [if_neg (by omega), updv_ne (by omega), hEk t (by omega) h2]
    · intro t i h1 h2 h3 h4
      rw [cset_ne (by omega)]
      exact hFVk t i (by omega) h2 h3 h4

end Std
end LA
