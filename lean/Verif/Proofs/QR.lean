import Verif.Model.QR
import Verif.Proofs.LU
import Verif.Proofs.Vec

/-! # Lemmas about the model of QRDecomposition -/

set_option linter.unusedSectionVars false

namespace LA
open Finset

/-- `column c += f · u`, rows `lo..m`. -/
theorem axpy_col {K : Type} [Add K] [Mul K] {m n lo c : Nat} {q : List K} {G : Nat → Nat → K} (hq : Grid q m n G) (hc : c < n)
    (f : K) (uf : Nat → List K → R K) (u : Nat → K)
    (hu : ∀ r q' G', lo ≤ r → r < m → Grid q' m n G' → (∀ r j, j ≠ c → G' r j = G r j) → uf r q' = .ok (u r)) :
    Post (loop lo m q fun row q => do
      setIdx q (row * n + c) ((← idx q (row * n + c)) + f * (← uf row q)))
      fun q' => Grid q' m n (fun r j => if j = c ∧ lo ≤ r then G r c + f * u r else G r j) := by
  have := loop_post (lo := lo) (hi := m) (s := q) (f := fun row q => do
      setIdx q (row * n + c) ((← idx q (row * n + c)) + f * (← uf row q)))
    (fun i q' => Grid q' m n (fun r j => if j = c ∧ lo ≤ r ∧ r < i then G r c + f * u r else G r j))
  by_cases hle : lo ≤ m
  swap
  · rw [loop_empty (by omega)]
    exact Post.ok (hq.congr fun r j hr _ => by rw [if_neg (by omega)])
  refine (this hle (hq.congr fun r j _ _ => by rw [if_neg (by omega)]) ?_).mono fun q' h => h.congr fun r j hr _ => ?_
  · intro i q' h1 h2 hG
    rw [hG.idx h2 hc, hu i q' _ h1 h2 hG (fun r j hj => if_neg (by tauto)), ok_bind, ok_bind]
    rw [if_neg (by omega)]
    refine (hG.setIdx h2 hc _).mono fun q'' h => h.congr fun r j _ _ => ?_
    by_cases e : r = i ∧ j = c
    · obtain ⟨rfl, rfl⟩ := e
      rw [upd_same, if_pos (by omega)]
    · rw [upd_ne e]
      by_cases h3 : j = c ∧ lo ≤ r ∧ r < i
      · rw [if_pos h3, if_pos (by omega)]
      · rw [if_neg h3, if_neg (by omega)]
  · by_cases h : j = c ∧ lo ≤ r
    · rw [if_pos (by omega), if_pos h]
    · rw [if_neg (by omega), if_neg h]

namespace QR

/-- The `k`-th reflection vector, extended by zeros. -/
def hv (m : Nat) (G : Nat → Nat → ℝ) (k : Nat) : Fin m → ℝ := fun i => if k ≤ i.1 then G i k else 0

/-- The `k`-th Householder reflection. -/
noncomputable def refl (m : Nat) (G : Nat → Nat → ℝ) (d : Nat → ℝ) (k : Nat) : Matrix (Fin m) (Fin m) ℝ :=
  if G k k = 0 then 1 else 1 + (d k * G k k)⁻¹ • Matrix.vecMulVec (hv m G k) (hv m G k)

/-- `H_0 · H_1 ⋯ H_{k-1}`. -/
noncomputable def qp (m : Nat) (G : Nat → Nat → ℝ) (d : Nat → ℝ) : Nat → Matrix (Fin m) (Fin m) ℝ
  | 0 => 1
  | k + 1 => qp m G d k * refl m G d k

/-- The matrix that is stored when the first `k` columns have been processed. -/
def rm (m n : Nat) (G : Nat → Nat → ℝ) (d : Nat → ℝ) (k : Nat) : Matrix (Fin m) (Fin n) ℝ := Matrix.of fun i j =>
  if j.1 < k then (if i.1 < j.1 then G i j else if i.1 = j.1 then d j else 0) else G i j

theorem sum_hv {m k : Nat} (G : Nat → Nat → ℝ) (v : Nat → ℝ) :
    ∑ t : Fin m, hv m G k t * v t = ∑ t ∈ Ico k m, G t k * v t := by
  rw [Finset.sum_fin_eq_sum_range]
  symm
  refine Finset.sum_subset_zero_on_sdiff (fun t ht => ?_) (fun t ht => ?_) (fun t ht => ?_)
  · rw [Finset.mem_Ico] at ht
    rw [Finset.mem_range]; omega
  · rw [Finset.mem_sdiff, Finset.mem_range, Finset.mem_Ico] at ht
    rw [dif_pos ht.1]
    simp only [hv]
    rw [if_neg (by omega), zero_mul]
  · rw [Finset.mem_Ico] at ht
    rw [dif_pos ht.2]
    simp only [hv]
    rw [if_pos ht.1]

theorem refl_transpose (m : Nat) (G : Nat → Nat → ℝ) (d : Nat → ℝ) (k : Nat) :
    (refl m G d k).transpose = refl m G d k := by
  unfold refl
  split
  · simp
  · rw [Matrix.transpose_add, Matrix.transpose_one, Matrix.transpose_smul, Matrix.transpose_vecMulVec]

/-- `H v`, entrywise. -/
theorem refl_mul_apply {m p k : Nat} (G : Nat → Nat → ℝ) (d : Nat → ℝ) (F : Nat → Nat → ℝ) (hG : G k k ≠ 0) (i : Fin m)
    (j : Fin p) :
    (refl m G d k * LU.packed m p F) i j =
      F i j + (if k ≤ i.1 then (∑ t ∈ Ico k m, G t k * F t j) / (d k * G k k) * G i k else 0) := by
  rw [refl, if_neg hG, Matrix.add_mul, Matrix.one_mul, Matrix.add_apply, Matrix.smul_mul, Matrix.smul_apply,
    Matrix.mul_apply]
  simp only [Matrix.vecMulVec_apply, smul_eq_mul]
  have : ∑ t : Fin m, hv m G k i * hv m G k t * LU.packed m p F t j =
      hv m G k i * ∑ t ∈ Ico k m, G t k * F t j := by
    rw [← sum_hv G (fun t => F t j), Finset.mul_sum]
    exact Finset.sum_congr rfl fun t _ => by simp only [LU.packed, Matrix.of_apply]; ring
  rw [this]
  congr 1
  simp only [hv]
  split
  · rw [div_eq_mul_inv]; ring
  · ring

theorem refl_sq {m k : Nat} {G : Nat → Nat → ℝ} {d : Nat → ℝ} (h : ∑ t ∈ Ico k m, G t k * G t k = -2 * (d k * G k k))
    (hd : G k k ≠ 0 → d k ≠ 0) : refl m G d k * refl m G d k = 1 := by
  by_cases hG : G k k = 0
  · simp [refl, hG]
  have hc : d k * G k k ≠ 0 := mul_ne_zero (hd hG) hG
  have hvv : hv m G k ⬝ᵥ hv m G k = -2 * (d k * G k k) := by
    rw [← h, ← sum_hv G (fun t => G t k), dotProduct]
    refine Finset.sum_congr rfl fun t _ => ?_
    simp only [hv]; split <;> simp
  rw [refl, if_neg hG]
  have hsq : Matrix.vecMulVec (hv m G k) (hv m G k) * Matrix.vecMulVec (hv m G k) (hv m G k) =
      (-2 * (d k * G k k)) • Matrix.vecMulVec (hv m G k) (hv m G k) := by
    ext i j
    rw [Matrix.mul_apply, Matrix.smul_apply, ← hvv]
    simp only [Matrix.vecMulVec_apply, dotProduct, smul_eq_mul, Finset.sum_mul]
    exact Finset.sum_congr rfl fun t _ => by ring
  rw [Matrix.add_mul, Matrix.mul_add, Matrix.mul_add, Matrix.one_mul, Matrix.one_mul, Matrix.mul_one,
    Matrix.smul_mul, Matrix.mul_smul, hsq, smul_smul, smul_smul]
  have : (d k * G k k)⁻¹ * (d k * G k k)⁻¹ * (-2 * (d k * G k k)) = -(d k * G k k)⁻¹ + -(d k * G k k)⁻¹ := by
    field_simp; ring
  rw [this, add_smul, neg_smul]
  abel

theorem refl_congr {m k : Nat} {G G' : Nat → Nat → ℝ} {d d' : Nat → ℝ} (hk : k < m) (h : ∀ i, k ≤ i → i < m → G i k = G' i k)
    (hd : d k = d' k) : refl m G d k = refl m G' d' k := by
  have hh : hv m G k = hv m G' k := by
    funext i
    simp only [hv]
    split
    · rw [h i ‹_› i.2]
    · rfl
  unfold refl
  rw [hh, hd, h k le_rfl hk]

theorem qp_congr {m : Nat} {G G' : Nat → Nat → ℝ} {d d' : Nat → ℝ} {k : Nat} (hk : k ≤ m)
    (h : ∀ t i, t < k → t ≤ i → i < m → G i t = G' i t) (hd : ∀ t, t < k → d t = d' t) : qp m G d k = qp m G' d' k := by
  induction k with
  | zero => rfl
  | succ k ih =>
    rw [qp, qp, ih (by omega) (fun t i ht => h t i (by omega)) (fun t ht => hd t (by omega)),
      refl_congr (by omega) (fun i => h k i (by omega)) (hd k (by omega))]

/-- State of the factorisation after `k` columns. -/
structure Inv (m n : Nat) (A : Matrix (Fin m) (Fin n) ℝ) (k : Nat) (G : Nat → Nat → ℝ) (d : Nat → ℝ) : Prop where
  norm : ∀ t, t < k → ∑ i ∈ Ico t m, G i t * G i t = -2 * (d t * G t t)
  nz : ∀ t, t < k → (G t t ≠ 0 ↔ d t ≠ 0)
  eq : A = qp m G d k * rm m n G d k

theorem reflectColumn_post {m n k c : Nat} {q : List ℝ} {G : Nat → Nat → ℝ} (hq : Grid q m n G) (hk : k < m) (hkc : k < c)
    (hc : c < n) {a : ℝ} (ha : a * G k k ≠ 0) :
    Post (reflectColumn k m n a c q) fun q' => Grid q' m n (fun r j => if j = c then
      (if k ≤ r then G r c + (∑ t ∈ Ico k m, G t k * G t c) / (a * G k k) * G r k else G r c) else G r j) := by
  unfold reflectColumn
  rw [loop_sum_Ico (fun t => G t k * G t c) (fun t s h1 h2 => by
    rw [hq.idx h2 (by omega), hq.idx h2 hc]; rfl), ok_bind, hq.idx hk (by omega), ok_bind, rdiv_ok ha, ok_bind]
  refine (axpy_col hq hc _ (fun r q => idx q (r * n + k)) (fun r => G r k) ?_).mono fun q' h => h.congr fun r j _ _ => ?_
  · intro r q' G' _ hr hG' hcol
    rw [hG'.idx hr (by omega), hcol r k (by omega)]
  · by_cases e : j = c
    · subst e
      by_cases h : k ≤ r <;> simp [h]
    · simp [e]

theorem reflect_post {m n k : Nat} {q : List ℝ} {rd : Buf ℝ} {G : Nat → Nat → ℝ} {D : Nat → Option ℝ} {d : Nat → ℝ}
    {A : Matrix (Fin m) (Fin n) ℝ} (hq : Grid q m n G) (hr : Vect rd (min m n) D) (hk : k < min m n)
    (hD : ∀ t, t < k → D t = some (d t)) (hI : Inv m n A k G d) :
    Post (reflect k q m n rd) fun s => ∃ G' D' d', Grid s.1 m n G' ∧ Vect s.2 (min m n) D' ∧
      (∀ t, t < k + 1 → D' t = some (d' t)) ∧ Inv m n A (k + 1) G' d' := by
  have hkm : k < m := by omega
  have hkn : k < n := by omega
  unfold reflect
  set nrm : ℝ := ∑ i ∈ Ico k m, G i k * G i k with hnrm
  have hnn : 0 ≤ nrm := Finset.sum_nonneg fun i _ => mul_self_nonneg _
  rw [loop_sum_Ico (fun i => G i k * G i k) (fun i s h1 h2 => by rw [hq.idx h2 hkn]; rfl), ok_bind, hq.idx hkm hkn]
  simp only [ok_bind, lt_eq, decide_eq_true_eq, ← hnrm, sqrt_ok hnn]
  have hxk : G k k * G k k ≤ nrm :=
    Finset.single_le_sum (f := fun i => G i k * G i k) (fun i _ => mul_self_nonneg _) (Finset.mem_Ico.2 ⟨le_rfl, hkm⟩)
  obtain ⟨a, ha, haa, hsign⟩ : ∃ a : ℝ, (if 0 < G k k then (Except.ok (-Real.sqrt nrm) : R ℝ) else .ok (Real.sqrt nrm)) = .ok a ∧
      a * a = nrm ∧ (a = 0 ∨ (a < 0 ∧ 0 < G k k) ∨ (0 < a ∧ G k k ≤ 0)) := by
    by_cases h : 0 < G k k
    · refine ⟨_, if_pos h, by rw [neg_mul_neg, Real.mul_self_sqrt hnn], Or.inr (Or.inl ⟨?_, h⟩)⟩
      have : 0 < nrm := lt_of_lt_of_le (mul_pos h h) hxk
      have := Real.sqrt_pos.2 this
      linarith
    · refine ⟨_, if_neg h, Real.mul_self_sqrt hnn, ?_⟩
      rcases (Real.sqrt_nonneg nrm).eq_or_lt with e | e
      · exact Or.inl e.symm
      · exact Or.inr (Or.inr ⟨e, not_lt.1 h⟩)
  simp only [pure_eq_ok, ok_bind]
  rw [ha, ok_bind]
  refine (hr.wr hk a).bind fun rd' hr' => ?_
  rw [eq_eq]
  have hD' : ∀ t, t < k + 1 → updv D k (some a) t = some (updv d k a t) := by
    intro t ht
    by_cases e : t = k
    · subst e; simp
    · rw [updv_ne e, updv_ne e, hD t (by omega)]
  by_cases h0 : a = 0
  · rw [if_neg (by simpa using h0)]
    have hzero : ∀ i, k ≤ i → i < m → G i k = 0 := by
      intro i h1 h2
      have hn0 : nrm = 0 := by rw [← haa, h0, mul_zero]
      have := (Finset.sum_eq_zero_iff_of_nonneg (fun i _ => mul_self_nonneg (G i k))).1 hn0 i (Finset.mem_Ico.2 ⟨h1, h2⟩)
      exact mul_self_eq_zero.1 this
    refine Post.ok ⟨G, _, updv d k a, hq, hr', hD', ⟨?_, ?_, ?_⟩⟩
    · intro t ht
      by_cases e : t = k
      · subst e
        rw [updv_same, h0, zero_mul, mul_zero]
        rw [← hnrm, ← haa, h0, mul_zero]
      · rw [updv_ne e]; exact hI.norm t (by omega)
    · intro t ht
      by_cases e : t = k
      · subst e
        rw [updv_same, h0, hzero t le_rfl hkm]
      · rw [updv_ne e]; exact hI.nz t (by omega)
    · rw [qp, refl, if_pos (hzero k le_rfl hkm), Matrix.mul_one,
        qp_congr (G' := G) (d' := d) hkm.le (fun _ _ _ _ _ => rfl) (fun t ht => updv_ne (by omega)), hI.eq]
      congr 1
      ext i j
      simp only [rm, Matrix.of_apply]
      rcases lt_trichotomy j.1 k with h | h | h
      · rw [if_pos h, if_pos (show j.1 < k + 1 by omega), updv_ne (show j.1 ≠ k by omega)]
      · rw [if_neg (by omega), if_pos (show j.1 < k + 1 by omega), h]
        by_cases h1 : i.1 < k
        · rw [if_pos h1]
        · rw [if_neg h1, updv_same, hzero i (by omega) i.2, h0]; simp
      · rw [if_neg (by omega), if_neg (by omega)]
  · rw [if_pos (by simpa using h0)]
    have hu : G k k - a ≠ 0 := by
      rcases hsign with h | ⟨h1, h2⟩ | ⟨h1, h2⟩
      · exact absurd h h0
      · exact ne_of_gt (by linarith)
      · exact ne_of_lt (by linarith)
    refine (hq.setIdx hkm hkn _).bind fun q1 hq1 => ?_
    set G1 := upd G k k (G k k - a) with hG1
    have hkk : G1 k k = G k k - a := upd_same _ _ _ _
    have hne : ∀ i j, ¬(i = k ∧ j = k) → G1 i j = G i j := fun i j h => upd_ne h
    have hcol := loop_cols (lo := k + 1) (hi := n) (f := fun column q => reflectColumn k m n a column q)
      (fun r c => if k ≤ r then G1 r c + (∑ t ∈ Ico k m, G1 t k * G1 t c) / (a * G1 k k) * G1 r k else G1 r c) hq1 (by
      intro c q' G' h1 h2 hG' hsame
      have hkk' : G' k k = G1 k k := hsame k k (by omega)
      refine (reflectColumn_post hG' hkm (by omega) h2 (a := a) (by rw [hkk', hkk]; exact mul_ne_zero h0 hu)).mono
        fun q'' h => h.congr fun r j hr hj => ?_
      by_cases e : j = c
      · subst e
        simp only [if_true]
        rw [hkk', hsame r j (by omega), hsame r k (by omega),
          Finset.sum_congr rfl (fun t _ => by rw [hsame t k (by omega), hsame t j (by omega)])]
      · rw [if_neg e, if_neg e])
    refine hcol.bind fun q2 hq2 => ?_
    have hsum1 : ∀ v : Nat → ℝ, ∑ t ∈ Ico k m, G1 t k * v t = (∑ t ∈ Ico k m, G t k * v t) - a * v k := by
      intro v
      rw [Finset.sum_eq_sum_Ico_succ_bot hkm, Finset.sum_eq_sum_Ico_succ_bot hkm, hkk]
      have : ∑ t ∈ Ico (k + 1) m, G1 t k * v t = ∑ t ∈ Ico (k + 1) m, G t k * v t := by
        refine Finset.sum_congr rfl fun t ht => ?_
        rw [Finset.mem_Ico] at ht
        rw [hne t k (by omega)]
      rw [this]; ring
    set G2 : Nat → Nat → ℝ := fun r c => if k + 1 ≤ c ∧ c < n then
      (if k ≤ r then G1 r c + (∑ t ∈ Ico k m, G1 t k * G1 t c) / (a * G1 k k) * G1 r k else G1 r c) else G1 r c with hG2
    have hlow : ∀ r c, c ≤ k → G2 r c = G1 r c := fun r c h => if_neg (by omega)
    have hnormk : ∑ i ∈ Ico k m, G2 i k * G2 i k = -2 * (a * G2 k k) := by
      rw [Finset.sum_congr rfl (fun t _ => by rw [hlow t k le_rfl]), hsum1, hlow k k le_rfl, hkk]
      have := hsum1 (fun t => G t k)
      rw [Finset.sum_congr rfl (fun t _ => mul_comm (G t k) (G1 t k)), this, ← hnrm, ← haa]
      ring
    have hIe := hI.eq
    refine Post.ok ⟨G2, _, updv d k a, hq2, hr', hD', ⟨?_, ?_, ?_⟩⟩
    · intro t ht
      by_cases e : t = k
      · subst e
        rw [updv_same]; exact hnormk
      · rw [updv_ne e, hlow t t (by omega), hne t t (by omega), ← hI.norm t (by omega)]
        refine Finset.sum_congr rfl fun i _ => ?_
        rw [hlow i t (by omega), hne i t (by omega)]
    · intro t ht
      by_cases e : t = k
      · subst e
        rw [updv_same, hlow t t le_rfl, hkk]
        exact ⟨fun _ => h0, fun _ => hu⟩
      · rw [updv_ne e, hlow t t (by omega), hne t t (by omega)]; exact hI.nz t (by omega)
    · have hG2k : G2 k k ≠ 0 := by rw [hlow k k le_rfl, hkk]; exact hu
      have hsq : refl m G2 (updv d k a) k * refl m G2 (updv d k a) k = 1 :=
        refl_sq (by rw [updv_same]; exact hnormk) (by rw [updv_same]; exact fun _ => h0)
      have hstep : refl m G2 (updv d k a) k * rm m n G d k = rm m n G2 (updv d k a) (k + 1) := by
        have hrm : rm m n G d k = LU.packed m n (fun i j => if j < k then (if i < j then G i j else if i = j then d j else 0)
          else G i j) := rfl
        rw [hrm]
        ext i j
        rw [refl_mul_apply G2 _ _ hG2k, updv_same]
        simp only [rm, Matrix.of_apply]
        rcases lt_trichotomy j.1 k with h | h | h
        · have hs : (∑ t ∈ Ico k m, G2 t k * if j.1 < k then (if t < j.1 then G t j else if t = j.1 then d j else 0) else G t j) = 0 := by
            refine Finset.sum_eq_zero fun t ht => ?_
            rw [Finset.mem_Ico] at ht
            rw [if_pos h, if_neg (by omega), if_neg (by omega), mul_zero]
          rw [hs, if_pos h, if_pos (show j.1 < k + 1 by omega)]
          rw [zero_div, zero_mul, ite_self, add_zero, updv_ne (show j.1 ≠ k by omega), hlow i j (by omega),
            hne i j (by omega)]
        · have hs : (∑ t ∈ Ico k m, G2 t k * if j.1 < k then (if t < j.1 then G t j else if t = j.1 then d j else 0) else G t j) =
              -(a * G2 k k) := by
            rw [hlow k k le_rfl, hkk]
            have : (∑ t ∈ Ico k m, G2 t k * if j.1 < k then (if t < j.1 then G t j else if t = j.1 then d j else 0) else G t j) =
                ∑ t ∈ Ico k m, G1 t k * G t k := by
              refine Finset.sum_congr rfl fun t _ => ?_
              rw [hlow t k le_rfl, if_neg (by omega), h]
            rw [this, hsum1 (fun t => G t k), ← hnrm, ← haa]; ring
          rw [hs, neg_div, div_self (mul_ne_zero h0 hG2k), h, updv_same, if_neg (lt_irrefl k),
            if_pos (Nat.lt_succ_self k), hlow i k le_rfl]
          by_cases h1 : i.1 < k
          · rw [if_neg (show ¬ k ≤ i.1 by omega), if_pos h1, hne i k (by omega), add_zero]
          · rw [if_pos (show k ≤ i.1 by omega), if_neg h1]
            by_cases h2 : i.1 = k
            · rw [if_pos h2, h2, hkk]; ring
            · rw [if_neg h2, hne i k (by omega)]; ring
        · have hs : (∑ t ∈ Ico k m, G2 t k * if j.1 < k then (if t < j.1 then G t j else if t = j.1 then d j else 0) else G t j) =
              ∑ t ∈ Ico k m, G1 t k * G1 t j := by
            refine Finset.sum_congr rfl fun t ht => ?_
            rw [if_neg (by omega), hlow t k le_rfl, hne t j (by omega)]
          have hG2ij : G2 i j = if k ≤ i.1 then G1 i j + (∑ t ∈ Ico k m, G1 t k * G1 t j) / (a * G1 k k) * G1 i k
              else G1 i j := by
            simp only [hG2]
            rw [if_pos ⟨by omega, j.2⟩]
          rw [hs, if_neg (show ¬ j.1 < k by omega), if_neg (show ¬ j.1 < k + 1 by omega), hG2ij, hlow k k le_rfl,
            hlow i k le_rfl, hne i j (by omega)]
          by_cases h1 : k ≤ i.1
          · rw [if_pos h1, if_pos h1]
          · rw [if_neg h1, if_neg h1, add_zero]
      rw [qp, ← hstep, Matrix.mul_assoc, ← Matrix.mul_assoc (refl m G2 (updv d k a) k), hsq, Matrix.one_mul,
        qp_congr (G' := G) (d' := d) hkm.le (fun t i h1 _ _ => by rw [hlow i t (by omega), hne i t (by omega)])
        (fun t ht => updv_ne (by omega))]
      exact hIe

/-- What `QRDecomposition::new` computes. -/
theorem new_ofM {m n : Nat} (hm : 0 < m) (hn : 0 < n) (A : Matrix (Fin m) (Fin n) ℝ) :
    ∃ G d, QR.new (ofM A) = .ok ⟨ofM (LU.packed m n G), List.ofFn fun i : Fin (min m n) => d i⟩ ∧
      Inv m n A (min m n) G d := by
  have h := loop_post (s := ((ofM A).data, alloc ℝ (min m n)))
    (f := fun minor (s : List ℝ × Buf ℝ) => reflect minor s.1 m n s.2)
    (fun k s => ∃ G D d, Grid s.1 m n G ∧ Vect s.2 (min m n) D ∧ (∀ t, t < k → D t = some (d t)) ∧ Inv m n A k G d)
    (Nat.zero_le (min m n)) ⟨ext A, _, fun _ => 0, grid_ofM A, vect_alloc _, by simp,
      ⟨by simp, by simp, by rw [qp, Matrix.one_mul]; ext i j; simp [rm]⟩⟩ (by
    rintro k s - hk ⟨G, D, d, h1, h2, h3, h4⟩
    exact reflect_post h1 h2 hk h3 h4)
  obtain ⟨⟨q, rd⟩, hrun, G, D, d, h1, h2, h3, h4⟩ := h
  refine ⟨G, d, ?_, h4⟩
  unfold QR.new
  simp only [ofM_rows, ofM_cols A hm, ok_bind]
  rw [show (loop 0 (min m n) ((ofM A).data, alloc ℝ (min m n)) fun minor (x : List ℝ × Buf ℝ) =>
    match x with | (q, rdiag) => reflect minor q m n rdiag) = .ok (q, rd) from hrun, ok_bind]
  dsimp only at h1 h2 ⊢
  rw [h1.ofM (LU.packed m n G) (fun _ _ => rfl), Props.C01_new_ofM hm hn, ok_bind, h2.freeze d h3]; rfl

theorem qp_orth {m n : Nat} {A : Matrix (Fin m) (Fin n) ℝ} {k : Nat} {G : Nat → Nat → ℝ} {d : Nat → ℝ}
    (h : Inv m n A k G d) {t : Nat} (ht : t ≤ k) :
    (qp m G d t).transpose * qp m G d t = 1 ∧ qp m G d t * (qp m G d t).transpose = 1 := by
  induction t with
  | zero => simp [qp]
  | succ t ih =>
    have hs : refl m G d t * refl m G d t = 1 := refl_sq (h.norm t (by omega)) (h.nz t (by omega)).1
    obtain ⟨h1, h2⟩ := ih (by omega)
    rw [qp, Matrix.transpose_mul, refl_transpose]
    constructor
    · rw [Matrix.mul_assoc, ← Matrix.mul_assoc _ (qp m G d t), h1, Matrix.one_mul, hs]
    · rw [Matrix.mul_assoc, ← Matrix.mul_assoc (refl m G d t), hs, Matrix.one_mul, h2]

section Access
variable {m n : Nat} (G : Nat → Nat → ℝ) (d : Nat → ℝ)

/-- The decomposition object with the given contents. -/
def obj (m n : Nat) (G : Nat → Nat → ℝ) (d : Nat → ℝ) : QR ℝ :=
  ⟨ofM (LU.packed m n G), List.ofFn fun i : Fin (min m n) => d i⟩

theorem obj_grid : Grid (obj m n G d).qr.data m n G := by
  refine (grid_ofM (LU.packed m n G)).congr fun i j hi hj => ?_
  rw [ext_eq _ hi hj]; rfl

theorem obj_vect : Vect (obj m n G d).rdiag (min m n) d := vect_ofFn d

theorem obj_cols (hm : 0 < m) : (obj m n G d).qr.cols = .ok n := ofM_cols _ hm

theorem getR_ok (hm : 0 < m) (hn : 0 < n) : (obj m n G d).getR = .ok (ofM (rm m n G d (min m n))) := by
  unfold getR
  rw [obj_cols G d hm, ok_bind]
  have hr : (obj m n G d).qr.rows = m := rfl
  simp only [hr]
  obtain ⟨b, hb, hf⟩ := fill2_ok (m := m) (n := n) (f := fun i j => if i < j then idx (obj m n G d).qr.data (i * n + j)
      else if i = j then idx (obj m n G d).rdiag i else pure 0) (rm m n G d (min m n)) (by
    intro i j
    simp only [rm, Matrix.of_apply]
    by_cases h1 : i.1 < j.1
    · rw [if_pos h1, (obj_grid G d).idx i.2 j.2, if_pos h1]; split <;> rfl
    · have hi := i.2
      have hj := j.2
      have hjm : j.1 < min m n := by rw [Nat.lt_min]; exact ⟨lt_of_le_of_lt (not_lt.1 h1) hi, hj⟩
      by_cases h2 : i.1 = j.1
      · simp only [h1, h2, hjm, if_true, if_false, lt_irrefl, (obj_vect G d).idx hjm]
      · simp only [h1, h2, hjm, if_true, if_false]; rfl)
  rw [hb, ok_bind, hf, ok_bind, Props.C01_new_ofM hm hn]

theorem getH_ok (hm : 0 < m) (hn : 0 < n) :
    (obj m n G d).getH = .ok (ofM (Matrix.of fun (i : Fin m) (j : Fin n) => if j.1 ≤ i.1 then G i j else 0)) := by
  unfold getH
  rw [obj_cols G d hm, ok_bind]
  have hr : (obj m n G d).qr.rows = m := rfl
  simp only [hr]
  obtain ⟨b, hb, hf⟩ := fill2_ok (m := m) (n := n) (f := fun i j => if i ≥ j then idx (obj m n G d).qr.data (i * n + j)
      else pure 0) (Matrix.of fun (i : Fin m) (j : Fin n) => if j.1 ≤ i.1 then G i j else 0) (by
    intro i j
    simp only [Matrix.of_apply]
    by_cases h1 : j.1 ≤ i.1
    · rw [if_pos h1, (obj_grid G d).idx i.2 j.2, if_pos h1]
    · rw [if_neg h1, if_neg h1]; rfl)
  rw [hb, ok_bind, hf, ok_bind, Props.C01_new_ofM hm hn]

theorem unreflectColumn_post {k c : Nat} {q : List ℝ} {Z : Nat → Nat → ℝ} (hq : Grid q m m Z) (hk : k < min m n)
    (hc : c < m) (hkk : d k * G k k ≠ 0) :
    Post (unreflectColumn (obj m n G d) k m n c q) fun q' => Grid q' m m (fun r j => if j = c then
      (if k ≤ r then Z r c + (∑ t ∈ Ico k m, G t k * Z t c) / (d k * G k k) * G r k else Z r c) else Z r j) := by
  unfold unreflectColumn
  have hg := obj_grid (m := m) (n := n) G d
  rw [loop_sum_Ico (fun t => G t k * Z t c) (fun t s h1 h2 => by
    rw [hg.idx h2 (by omega), hq.idx h2 hc]; rfl), ok_bind, (obj_vect G d).idx hk, ok_bind,
    hg.idx (by omega) (by omega), ok_bind, rdiv_ok hkk, ok_bind]
  refine (axpy_col hq hc _ (fun r q => idx (obj m n G d).qr.data (r * n + k)) (fun r => G r k) ?_).mono
    fun q' h => h.congr fun r j _ _ => ?_
  · intro r q' G' _ hr _ _
    exact hg.idx hr (by omega)
  · by_cases e : j = c
    · subst e
      by_cases h : k ≤ r <;> simp [h]
    · simp [e]

/-- The identity with the last `m - k` diagonal entries replaced by zero. -/
def eye (m k : Nat) : Matrix (Fin m) (Fin m) ℝ := Matrix.diagonal fun i => if i.1 < k then 1 else 0

theorem getQ_ok (hm : 0 < m) (hnz : ∀ t, t < min m n → (G t t ≠ 0 ↔ d t ≠ 0)) :
    (obj m n G d).getQ = .ok (ofM (qp m G d (min m n) * eye m (min m n))) := by
  unfold getQ
  rw [obj_cols G d hm, ok_bind]
  have hr : (obj m n G d).qr.rows = m := rfl
  simp only [hr]
  have h1 := loop_post (s := List.replicate (m * m) (0 : ℝ)) (f := fun minor q => setIdx q (minor * m + minor) (1 : ℝ))
    (fun k q => Grid q m m (fun i j => if i = j ∧ i < k then 1 else 0)) (Nat.zero_le (min m n))
    ((grid_replicate m m 0).congr fun i j _ _ => by simp) (by
    intro k q _ hk hq
    refine (hq.setIdx (show k < m by omega) (by omega) _).mono fun q' h => h.congr fun i j _ _ => ?_
    by_cases e : i = k ∧ j = k
    · obtain ⟨rfl, rfl⟩ := e
      rw [upd_same, if_pos (by omega)]
    · rw [upd_ne e]
      by_cases h' : i = j ∧ i < k
      · rw [if_pos h', if_pos (by omega)]
      · rw [if_neg h', if_neg (by omega)])
  obtain ⟨q0, hq0, hG0⟩ := h1
  rw [hq0, ok_bind]
  have h2 := loopRev_post (s := q0) (f := fun minor q => do
      if !(FloatOps.eq (← idx (obj m n G d).qr.data (minor * n + minor)) 0) then
        loop minor m q fun column q => unreflectColumn (obj m n G d) minor m n column q
      else return q)
    (fun k q => ∃ Z, Grid q m m Z ∧ (∀ r c, c < k → r < m → Z r c = if r = c then 1 else 0) ∧
      qp m G d k * LU.packed m m Z = qp m G d (min m n) * eye m (min m n)) (Nat.zero_le (min m n))
    ⟨_, hG0, fun r c hc hr => by
      by_cases h : r = c
      · rw [if_pos ⟨h, by omega⟩, if_pos h]
      · rw [if_neg (by omega), if_neg h], by
      congr 1
      ext i j
      simp only [LU.packed, eye, Matrix.of_apply, Matrix.diagonal_apply]
      by_cases h : i = j
      · subst h; simp
      · rw [if_neg h, if_neg (fun h' => h (Fin.ext h'.1))]⟩ (by
    rintro k q - hk ⟨Z, hZ, hδ, heq⟩
    have hkm : k < m := by omega
    rw [(obj_grid G d).idx hkm (by omega), ok_bind, eq_eq]
    by_cases h0 : G k k = 0
    · rw [if_neg (by simpa using h0)]
      refine Post.ok ⟨Z, hZ, fun r c hc hr => hδ r c (by omega) hr, ?_⟩
      rw [← heq, qp, refl, if_pos h0, Matrix.mul_one]
    · rw [if_pos (by simpa using h0)]
      have hdk := (hnz k hk).1 h0
      have hcol := loop_cols (lo := k) (hi := m) (f := fun column q => unreflectColumn (obj m n G d) k m n column q)
        (fun r c => if k ≤ r then Z r c + (∑ t ∈ Ico k m, G t k * Z t c) / (d k * G k k) * G r k else Z r c) hZ (by
        intro c q' G' h1 h2 hG' hsame
        refine (unreflectColumn_post G d hG' hk h2 (mul_ne_zero hdk h0)).mono
          fun q'' h => h.congr fun r j hr hj => ?_
        by_cases e : j = c
        · subst e
          simp only [if_true]
          rw [hsame r j (by omega), Finset.sum_congr rfl (fun t _ => by rw [hsame t j (by omega)])]
        · rw [if_neg e, if_neg e])
      refine hcol.mono fun q' hq' => ⟨_, hq', ?_, ?_⟩
      · intro r c hc hr
        rw [if_neg (by omega), hδ r c (by omega) hr]
      · rw [← heq, qp, Matrix.mul_assoc]
        congr 1
        ext i j
        rw [refl_mul_apply G d Z h0]
        simp only [LU.packed, Matrix.of_apply]
        by_cases hj : k ≤ j.1
        · rw [if_pos ⟨hj, j.2⟩]
          by_cases hi : k ≤ i.1
          · rw [if_pos hi, if_pos hi]
          · rw [if_neg hi, if_neg hi, add_zero]
        · rw [if_neg (by omega)]
          have hs : ∑ t ∈ Ico k m, G t k * Z t j = 0 := by
            refine Finset.sum_eq_zero fun t ht => ?_
            rw [Finset.mem_Ico] at ht
            rw [hδ t j (by omega) ht.2, if_neg (by omega), mul_zero]
          rw [hs, zero_div, zero_mul, ite_self, add_zero])
  obtain ⟨q1, hq1, Z, hZ, -, heq⟩ := h2
  rw [hq1, ok_bind, hZ.ofM (LU.packed m m Z) (fun _ _ => rfl), Props.C01_new_ofM hm hm, ← heq, qp, Matrix.one_mul]

end Access

end QR
end LA
