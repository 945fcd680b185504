import Verif.Proofs.SVDStep

/-! # End of the reduction, and accumulation of `U` and `V` -/

set_option linter.unusedSectionVars false

namespace LA
open Finset Matrix
namespace SVD

theorem prodL_tail {N : Nat} {H : Nat → Matrix (Fin N) (Fin N) ℝ} {a b : Nat} (hab : a ≤ b) (h : ∀ t, a ≤ t → H t = 1) :
    prodL H b = prodL H a := by
  induction b, hab using Nat.le_induction with
  | base => rfl
  | succ b hb ih => rw [prodL, ih, h b hb, Matrix.mul_one]

/-- The result of the reduction. -/
structure BDone (m n nct nrt : Nat) (A : Matrix (Fin m) (Fin n) ℝ) (b : Bid ℝ) (s e : Nat → ℝ) (U V : Nat → Nat → ℝ) : Prop where
  bs : Full b.s n s
  be : Full b.e n e
  bu : ∃ F, Grid b.u m m F ∧ ∀ t i, t < nct → t ≤ i → i < m → F i t = some (U i t)
  bv : ∃ F, Grid b.v n n F ∧ ∀ t i, t < nrt → t + 1 ≤ i → i < n → F i t = some (V i t)
  un : ∀ t, t < nct → ∑ i ∈ Ico t m, U i t * U i t = 2 * U t t
  uz : ∀ t, t < nct → s t = 0 → ∀ i, t ≤ i → i < m → U i t = 0
  unz : ∀ t, t < nct → s t ≠ 0 → U t t ≠ 0
  vn : ∀ t, t < nrt → ∑ i ∈ Ico (t + 1) n, V i t * V i t = 2 * V (t + 1) t
  vz : ∀ t, t < nrt → e t = 0 → ∀ i, t + 1 ≤ i → i < n → V i t = 0
  vnz : ∀ t, t < nrt → e t ≠ 0 → V (t + 1) t ≠ 0
  ez : ∀ j, n ≤ j + 1 → e j = 0
  eq : A = prodL (lref m U) nct * pk m n (bid s e) * (prodL (rref n nrt V) n)ᵀ

theorem bidiag_post {m n : Nat} (hn : 0 < n) (hnm : n ≤ m) (A : Matrix (Fin m) (Fin n) ℝ) :
    Post (bidiag m n (min (m - 1) n) (n - 2) n (ofM A).data) fun b => ∃ s e U V,
      BDone m n (min (m - 1) n) (n - 2) A b s e U V := by
  have hmin : min m n = n := by omega
  unfold bidiag
  rw [hmin, show max (min (m - 1) n) (n - 2) = min (m - 1) n by omega]
  set nct := min (m - 1) n with hnct
  have hloop := loop_post (lo := 0) (hi := nct)
    (s := (⟨(ofM A).data, alloc ℝ n, alloc ℝ n, alloc ℝ (m * m), alloc ℝ (n * n), alloc ℝ m⟩ : Bid ℝ))
    (f := fun k b => bidStep m n nct (n - 2) k b)
    (fun k b => ∃ s e U V G, BMath m n (n - 2) A k s e U V G ∧ BBuf m n (n - 2) k b s e U V G) (Nat.zero_le _) ?_ ?_
  · refine hloop.bind ?_
    rintro b ⟨s, e, U, V, G, hM, hB⟩
    obtain ⟨S, hS, hSk⟩ := hB.s
    obtain ⟨E, hE, hEk⟩ := hB.e
    obtain ⟨FV, hFV, hFVk⟩ := hB.v
    unfold finish
    set s' : Nat → ℝ := fun t => if t < nct then s t else G nct nct with hs'
    set e' : Nat → ℝ := fun t => if t < n - 2 then e t else if t + 1 < n then G (n - 2) (n - 1) else 0 with he'
    obtain ⟨s1, hr1, hs1⟩ : Post (if nct < n then (do wr b.s nct (← idx b.a (nct * n + nct))) else (.ok b.s : R (Buf ℝ)))
        (fun s1 => Full s1 n s') := by
      by_cases h : nct < n
      · rw [if_pos h, hB.a.idx (by omega) h, ok_bind]
        refine (hS.wr h _).mono fun s1 h1 => h1.congr fun t ht => ?_
        by_cases e : t = nct
        · rw [e, updv_same]; simp only [hs', lt_irrefl, if_false]
        · rw [updv_ne e, hSk t (by omega)]
          simp only [hs']
          rw [if_pos (by omega)]
      · rw [if_neg h]
        refine Post.ok (hS.congr fun t ht => ?_)
        rw [hSk t (by omega)]
        simp only [hs']
        rw [if_pos (by omega)]
    obtain ⟨e1, hr2, E1, he1, hE1⟩ : Post (if n - 2 + 1 < n then (do wr b.e (n - 2) (← idx b.a ((n - 2) * n + (← usub n 1))))
        else (.ok b.e : R (Buf ℝ))) (fun e1 => ∃ E1, Vect e1 n E1 ∧ ∀ t, t + 1 < n → E1 t = some (e' t)) := by
      by_cases h : n - 2 + 1 < n
      · rw [if_pos h, usub_ok (by omega), ok_bind, hB.a.idx (by omega) (by omega), ok_bind]
        refine (hE.wr (i := n - 2) (by omega) _).mono fun e1 h1 => ⟨_, h1, fun t ht => ?_⟩
        by_cases e : t = n - 2
        · rw [e, updv_same]; simp only [he', lt_irrefl, if_false]; rw [if_pos (by omega)]
        · rw [updv_ne e, hEk t (by omega) (by omega)]
          simp only [he']
          rw [if_pos (by omega)]
      · rw [if_neg h]
        exact Post.ok ⟨_, hE, fun t ht => by omega⟩
    simp only [pure_eq_ok]
    rw [hr1]
    simp only [ok_bind]
    rw [if_neg (by omega)]
    simp only [ok_bind]
    rw [hr2, ok_bind, usub_ok (by omega), ok_bind]
    refine (he1.wr (i := n - 1) (by omega) 0).bind fun e2 he2 => Post.ok ⟨s', e', U, V, ?_⟩
    have hs't : ∀ t, t < nct → s' t = s t := fun t ht => if_pos ht
    have he't : ∀ t, t < n - 2 → e' t = e t := fun t ht => if_pos ht
    refine ⟨hs1, he2.congr ?_, hB.u, ⟨FV, hFV, fun t i h1 h2 h3 => hFVk t i (by omega) h1 h2 h3⟩, hM.un, ?_, ?_,
      fun t ht => hM.vn t (by omega) ht, ?_, ?_, ?_, ?_⟩
    · intro t ht
      by_cases e : t = n - 1
      · rw [e, updv_same]
        simp only [he']
        rw [if_neg (by omega), if_neg (by omega)]
      · rw [updv_ne e, hE1 t (by omega)]
    · intro t ht h0
      exact hM.uz t ht (by rw [← hs't t ht]; exact h0)
    · intro t ht h0
      exact hM.unz t ht (by rw [← hs't t ht]; exact h0)
    · intro t ht h0
      exact hM.vz t (by omega) ht (by rw [← he't t ht]; exact h0)
    · intro t ht h0
      exact hM.vnz t (by omega) ht (by rw [← he't t ht]; exact h0)
    · intro j hj
      simp only [he']
      rw [if_neg (by omega), if_neg (by omega)]
    · have hR : prodL (rref n (n - 2) V) n = prodL (rref n (n - 2) V) nct := by
        have h1 : ∀ t, n - 2 ≤ t → rref n (n - 2) V t = 1 := fun t ht => if_neg (by omega)
        rw [prodL_tail (a := n - 2) (b := n) (by omega) h1, prodL_tail (a := n - 2) (b := nct) (by omega) h1]
      rw [hR, hM.eq]
      congr 2
      refine pk_congr fun i j hi hj => ?_
      simp only [mid, bid, hs', he']
      by_cases h1 : i < nct
      · rw [if_pos h1]
        by_cases h2 : j = i
        · rw [if_pos h2, if_pos h2, if_pos h1]
        · rw [if_neg h2, if_neg h2]
          by_cases h3 : j = i + 1
          · rw [if_pos h3, if_pos h3]
            by_cases h4 : i < n - 2
            · rw [if_pos h4, if_pos h4]
            · rw [if_neg h4, if_neg h4, if_pos (by omega), show i = n - 2 by omega, show j = n - 1 by omega]
          · rw [if_neg h3, if_neg h3]
      · rw [if_neg h1]
        by_cases h2 : j < nct
        · rw [if_pos h2, if_neg (by omega), if_neg (by omega)]
        · have h3 : m = n := by omega
          rw [if_neg h2, if_pos (by omega), if_neg h1, show i = nct by omega, show j = nct by omega]
  · refine ⟨fun _ => 0, fun _ => 0, fun _ _ => 0, fun _ _ => 0, ext A, ⟨?_, ?_, ?_, ?_, ?_, ?_, ?_⟩,
      ⟨grid_ofM A, ⟨_, vect_alloc n, by simp⟩, ⟨_, vect_alloc n, by simp⟩, ⟨_, grid_alloc m m, by simp⟩,
        ⟨_, grid_alloc n n, by simp⟩, ⟨_, vect_alloc m⟩⟩⟩
    all_goals try (intros; omega)
    rw [prodL, prodL, transpose_one, Matrix.one_mul, Matrix.mul_one]
    ext i j
    simp [mid, LU.packed]
  · rintro k b - hk ⟨s, e, U, V, G, hM, hB⟩
    exact bidStep_post hM hB (by omega) (by omega) hk hnm (fun h => by omega) (fun h => by omega)

theorem unitCol_post {N k : Nat} {d : Buf ℝ} {F : Nat → Nat → Option ℝ} (hd : Grid d N N F) (hk : k < N) :
    Post (unitCol N k d) fun d' => Grid d' N N (fun i j => if j = k then some (if i = k then 1 else 0) else F i j) := by
  unfold unitCol
  refine (loop_rows (lo := 0) (hi := N) (fun i j => if j = k then some 0 else F i j) hd ?_).bind fun d1 hd1 => ?_
  · intro i d' F' h1 h2 hF' hsame
    refine (hF'.wr h2 hk 0).mono fun d'' h => h.congr fun r c _ _ => ?_
    simp only [upd]
    have := hsame i c (by omega)
    grind
  · refine (hd1.wr hk hk 1).mono fun d2 hd2 => hd2.congr fun r c hr hc => ?_
    simp only [upd]
    grind

theorem reflectCols_post {N lo k : Nat} {d : Buf ℝ} {F : Nat → Nat → Option ℝ} {Z : Nat → Nat → ℝ} {u : Nat → ℝ}
    (hd : Grid d N N F) (hk : k < N) (hlo : lo < N) (hu : ∀ i, lo ≤ i → i < N → F i k = some (u i))
    (hZ : ∀ i j, i < N → k + 1 ≤ j → j < N → F i j = some (Z i j)) (h0 : u lo ≠ 0) :
    Post (loop (k + 1) N d fun j d => reflectCol N lo k j d) fun d' =>
      Grid d' N N (fun i j => if k + 1 ≤ j then some (refc lo N u Z i j) else F i j) := by
  refine (loop_cols (lo := k + 1) (hi := N) (fun i j => some (refc lo N u Z i j)) hd ?_).mono fun d' h => h.congr fun i j _ hj => ?_
  swap
  · by_cases h : k + 1 ≤ j
    · rw [if_pos ⟨h, hj⟩, if_pos h]
    · rw [if_neg (by omega), if_neg h]
  intro j d' F' h1 h2 hF' hsame
  have hu' : ∀ i, lo ≤ i → i < N → F' i k = some (u i) := fun i h3 h4 => by rw [hsame i k (by omega), hu i h3 h4]
  have hz' : ∀ i, i < N → F' i j = some (Z i j) := fun i h3 => by rw [hsame i j (by omega), hZ i j h3 h1 h2]
  unfold reflectCol
  rw [loop_sum_Ico (fun t => u t * Z t j) (fun t s h3 h4 => by
    rw [hF'.rd h4 hk (hu' t h3 h4), hF'.rd h4 h2 (hz' t h4)]; rfl), ok_bind, hF'.rd hlo hk (hu' lo le_rfl hlo), ok_bind, rdiv_ok h0,
    ok_bind]
  refine (loop_rows (lo := lo) (hi := N) (fun i c => if c = j then some (refc lo N u Z i j) else F' i c) hF' ?_).mono
    fun d'' h => h.congr fun r c hr _ => ?_
  · intro i e' F'' h3 h4 hF'' hsame'
    rw [hF''.rd h4 h2 (by rw [hsame' i j (by omega), hz' i h4]), ok_bind, hF''.rd h4 hk (by rw [hsame' i k (by omega), hu' i h3 h4]),
      ok_bind]
    refine (hF''.wr h4 h2 _).mono fun d'' h => h.congr fun r c _ _ => ?_
    by_cases e : r = i
    · subst e
      rw [if_pos rfl]
      by_cases e2 : c = j
      · subst e2
        rw [upd_same, if_pos rfl, refc, if_pos h3]
      · rw [upd_ne (by tauto), if_neg e2, hsame' r c (by omega)]
    · rw [upd_ne (by tauto), if_neg e]
  · by_cases e : c = j
    · subst e
      rw [if_pos rfl]
      by_cases h : lo ≤ r
      · rw [if_pos ⟨h, hr⟩]
      · rw [if_neg (by tauto), refc, if_neg h, hz' r hr]
    · rw [if_neg e, ite_self]

theorem pk_unit {N : Nat} {Z : Nat → Nat → ℝ} (h : ∀ i j, i < N → j < N → Z i j = if i = j then 1 else 0) : pk N N Z = 1 := by
  ext i j
  rw [Matrix.one_apply]
  simp only [Fin.ext_iff]
  exact h i j i.2 j.2

theorem genU_post {m n nct nrt : Nat} {A : Matrix (Fin m) (Fin n) ℝ} {b : Bid ℝ} {s e : Nat → ℝ} {U V : Nat → Nat → ℝ}
    (h : BDone m n nct nrt A b s e U V) (hcm : nct ≤ m) (hcn : nct ≤ n) :
    Post (genU m nct b.s b.u) fun d => ∃ Z, FullG d m m Z ∧ pk m m Z = prodL (lref m U) nct := by
  obtain ⟨F, hF, hFU⟩ := h.bu
  unfold genU
  refine (loop_cols (lo := nct) (hi := m) (fun i j => some (if i = j then (1 : ℝ) else 0)) hF ?_).bind fun d1 hd1 => ?_
  · intro j d' F' _ h2 hF' _
    exact (unitCol_post hF' h2).mono fun d'' h => h.congr fun r c _ _ => rfl
  refine (loopRev_post (lo := 0) (hi := nct)
    (fun k d => ∃ F Z, Grid d m m F ∧ (∀ i j, i < m → k ≤ j → j < m → F i j = some (Z i j)) ∧
      (∀ t i, t < k → t ≤ i → i < m → F i t = some (U i t)) ∧ (∀ i j, i < m → j < k → Z i j = if i = j then 1 else 0) ∧
      pk m m Z = prodR (lref m U) k (nct - k)) (Nat.zero_le _) ?_ ?_).mono ?_
  · refine ⟨_, fun i j => if i = j then 1 else 0, hd1, ?_, ?_, fun _ _ _ _ => rfl, ?_⟩
    · intro i j _ h2 h3
      rw [if_pos ⟨h2, h3⟩]
    · intro t i h1 h2 h3
      rw [if_neg (by omega), hFU t i h1 h2 h3]
    · rw [Nat.sub_self, prodR]
      exact pk_unit fun _ _ _ _ => rfl
  · rintro k d - hk ⟨F1, Z, g1, g2, g3, g4, g5⟩
    have hsub : nct - k = (nct - (k + 1)) + 1 := by omega
    rw [h.bs.rd (i := k) (by omega)]
    simp only [ok_bind, eq_eq]
    by_cases h0 : s k = 0
    · rw [if_neg (by simpa using h0)]
      have hone : lref m U k = 1 := hhl_zero (by omega) (h.uz k hk h0)
      refine (unitCol_post g1 (k := k) (by omega)).mono fun d' hd' => ⟨_, Z, hd', ?_, ?_, fun i j h1 h2 => g4 i j h1 (by omega), ?_⟩
      · intro i j h1 h2 h3
        by_cases e : j = k
        · rw [if_pos e, g4 i j h1 (by omega), e]
        · rw [if_neg e, g2 i j h1 (by omega) h3]
      · intro t i h1 h2 h3
        rw [if_neg (by omega), g3 t i (by omega) h2 h3]
      · rw [hsub, prodR, hone, Matrix.one_mul, g5]
    · rw [if_pos (by simpa using h0)]
      have hukk := h.unz k hk h0
      refine (reflectCols_post (Z := Z) (u := fun i => U i k) g1 (k := k) (lo := k) (by omega) (by omega) (fun i h1 h2 => g3 k i (by omega) h1 h2)
        (fun i j h1 h2 h3 => g2 i j h1 h2 h3) hukk).bind fun d2 hd2 => ?_
      refine (loop_rows (lo := k) (hi := m) (fun i j => if j = k then some (-(U i k)) else if k + 1 ≤ j then
        some (refc k m (fun i => U i k) Z i j) else F1 i j) hd2 ?_).bind fun d3 hd3 => ?_
      · intro i d' F' h1 h2 hF' hsame
        rw [hF'.rd (x := U i k) h2 (by omega) (by rw [hsame i k (by omega), if_neg (by omega), g3 k i (by omega) h1 h2]), ok_bind]
        refine (hF'.wr h2 (by omega) _).mono fun d'' h => h.congr fun r c _ _ => ?_
        have := hsame i c (by omega)
        by_cases e : r = i
        · subst e
          by_cases e2 : c = k
          · rw [e2, upd_same, if_pos rfl, if_pos rfl]
          · rw [upd_ne (by tauto), if_pos rfl, if_neg e2, this]
        · rw [upd_ne (by tauto), if_neg e]
      rw [hd3.rd (i := k) (j := k) (x := -(U k k)) (by omega) (by omega) (by rw [if_pos ⟨le_rfl, by omega⟩, if_pos rfl]), ok_bind]
      refine (hd3.wr (i := k) (j := k) (by omega) (by omega) _).bind fun d4 hd4 => ?_
      refine (loop_rows (lo := 0) (hi := k) (fun i j => if j = k then some 0 else if k + 1 ≤ j then
        some (refc k m (fun i => U i k) Z i j) else F1 i j) hd4 ?_).mono fun d5 hd5 => ?_
      · intro i d' F' h1 h2 hF' hsame
        refine (hF'.wr (show i < m by omega) (show k < m by omega) 0).mono fun d'' h => h.congr fun r c _ _ => ?_
        have := hsame i c (by omega)
        by_cases e : r = i
        · subst e
          by_cases e2 : c = k
          · rw [e2, upd_same, if_pos rfl, if_pos rfl]
          · rw [upd_ne (by tauto), if_pos rfl, if_neg e2, this, upd_ne (by omega), if_neg (by omega)]
        · rw [upd_ne (by tauto), if_neg e]
      have hcol : ∀ i, i < m → refc k m (fun i => U i k) Z i k = if k ≤ i then (if i = k then 1 + -(U k k) else -(U i k)) else 0 := by
        intro i hi
        have hs : ∑ t ∈ Ico k m, U t k * Z t k = U k k := by
          rw [Finset.sum_eq_single_of_mem k (Finset.mem_Ico.2 ⟨le_rfl, by omega⟩)]
          · rw [g4 k k (by omega) (by omega), if_pos rfl, mul_one]
          · intro t ht hne
            rw [Finset.mem_Ico] at ht
            rw [g4 t k ht.2 (by omega), if_neg hne, mul_zero]
        unfold refc
        dsimp only
        rw [hs, neg_div, div_self hukk, g4 i k hi (by omega)]
        by_cases h1 : k ≤ i
        · rw [if_pos h1, if_pos h1]
          by_cases h2 : i = k
          · rw [if_pos h2, if_pos h2, h2]; ring
          · rw [if_neg h2, if_neg h2]; ring
        · rw [if_neg h1, if_neg h1, if_neg (by omega)]
      refine ⟨_, refc k m (fun i => U i k) Z, hd5, ?_, ?_, ?_, ?_⟩
      · intro i j h1 h2 h3
        by_cases e : j = k
        · subst e
          rw [hcol i h1]
          by_cases e1 : i < j
          · rw [if_pos (by omega), if_pos rfl, if_neg (by omega)]
          · rw [if_neg (by omega), if_pos (by omega)]
            by_cases e2 : i = j
            · rw [e2, upd_same, if_pos rfl]
            · rw [upd_ne (by tauto), if_pos ⟨by omega, h1⟩, if_pos rfl, if_neg e2]
        · by_cases e1 : i < k
          · rw [if_pos (by omega), if_neg e, if_pos (by omega)]
          · rw [if_neg (by omega), upd_ne (by tauto), if_pos ⟨by omega, h1⟩, if_neg e, if_pos (by omega)]
      · intro t i h1 h2 h3
        have e0 : t ≠ k := by omega
        by_cases e1 : i < k
        · rw [if_pos (by omega), if_neg e0, if_neg (by omega), g3 t i (by omega) h2 h3]
        · rw [if_neg (by omega), upd_ne (by tauto), if_pos ⟨by omega, h3⟩, if_neg e0, if_neg (by omega), g3 t i (by omega) h2 h3]
      · intro i j h1 h2
        have hs : ∑ t ∈ Ico k m, U t k * Z t j = 0 := by
          refine Finset.sum_eq_zero fun t ht => ?_
          rw [Finset.mem_Ico] at ht
          rw [g4 t j ht.2 (by omega), if_neg (by omega), mul_zero]
        unfold refc
        dsimp only
        rw [hs, neg_zero, zero_div, zero_mul, add_zero, ite_self, g4 i j h1 (by omega)]
      · rw [pk_refc, g5, hsub, prodR]
        rfl
  · rintro d ⟨F1, Z, g1, g2, -, -, g5⟩
    refine ⟨Z, g1.congr fun i j hi hj => g2 i j hi (Nat.zero_le _) hj, ?_⟩
    rw [g5, ← Matrix.one_mul (prodR _ _ _), show (1 : Matrix (Fin m) (Fin m) ℝ) = prodL (lref m U) 0 from rfl, prodL_mul_prodR]
    congr 1
    omega

theorem genV_post {m n nct nrt : Nat} {A : Matrix (Fin m) (Fin n) ℝ} {b : Bid ℝ} {s e : Nat → ℝ} {U V : Nat → Nat → ℝ}
    (h : BDone m n nct nrt A b s e U V) (hrn : ∀ k, k < nrt → k + 1 < n) :
    Post (genV n nrt b.e b.v) fun d => ∃ Z, FullG d n n Z ∧ pk n n Z = prodL (rref n nrt V) n := by
  obtain ⟨F, hF, hFV⟩ := h.bv
  unfold genV
  refine (loopRev_post (lo := 0) (hi := n)
    (fun k d => ∃ F Z, Grid d n n F ∧ (∀ i j, i < n → k ≤ j → j < n → F i j = some (Z i j)) ∧
      (∀ t i, t < k → t < nrt → t + 1 ≤ i → i < n → F i t = some (V i t)) ∧
      (∀ i j, i < n → j < k → Z i j = if i = j then 1 else 0) ∧
      pk n n Z = prodR (rref n nrt V) k (n - k)) (Nat.zero_le _) ?_ ?_).mono ?_
  · refine ⟨_, fun i j => if i = j then 1 else 0, hF, fun i j _ h1 h2 => by omega, fun t i _ h1 => hFV t i h1, fun _ _ _ _ => rfl, ?_⟩
    rw [Nat.sub_self, prodR]
    exact pk_unit fun _ _ _ _ => rfl
  · rintro k d - hk ⟨F1, Z, g1, g2, g3, g4, g5⟩
    have hsub : n - k = (n - (k + 1)) + 1 := by omega
    obtain ⟨d2, hr2, F2, Z2, q1, q2, q3, q4, q5⟩ : Post (if k < nrt then
          (do if !(FloatOps.eq (← rd b.e k) 0) then loop (k + 1) n d fun j v => reflectCol n (k + 1) k j v else return d)
          else (pure d : R (Buf ℝ)))
        (fun d' => ∃ F2 Z2, Grid d' n n F2 ∧ (∀ i j, i < n → k + 1 ≤ j → j < n → F2 i j = some (Z2 i j)) ∧
          (∀ t i, t < k → t < nrt → t + 1 ≤ i → i < n → F2 i t = some (V i t)) ∧
          (∀ i j, i < n → j < k + 1 → Z2 i j = if i = j then 1 else 0) ∧
          pk n n Z2 = prodR (rref n nrt V) k (n - k)) := by
      by_cases hn : k < nrt
      · rw [if_pos hn, h.be.rd (i := k) hk]
        simp only [ok_bind, eq_eq]
        by_cases h0 : e k = 0
        · rw [if_neg (by simpa using h0)]
          have hone : rref n nrt V k = 1 := by
            rw [rref, if_pos hn]; exact hhl_zero (hrn k hn) (h.vz k hn h0)
          refine Post.pure ⟨F1, Z, g1, g2, fun t i h1 => g3 t i (by omega), g4, ?_⟩
          rw [hsub, prodR, hone, Matrix.one_mul, g5]
        · rw [if_pos (by simpa using h0)]
          refine (reflectCols_post (Z := Z) (u := fun i => V i k) g1 hk (hrn k hn) (fun i h1 h2 => g3 k i (by omega) hn h1 h2)
            (fun i j h1 h2 h3 => g2 i j h1 h2 h3) (h.vnz k hn h0)).mono fun d2 hd2 =>
            ⟨_, refc (k + 1) n (fun i => V i k) Z, hd2, ?_, ?_, ?_, ?_⟩
          · intro i j _ h2 _
            rw [if_pos h2]
          · intro t i h1 h2 h3 h4
            rw [if_neg (by omega), g3 t i (by omega) h2 h3 h4]
          · intro i j h1 h2
            have hs : ∑ t ∈ Ico (k + 1) n, V t k * Z t j = 0 := by
              refine Finset.sum_eq_zero fun t ht => ?_
              rw [Finset.mem_Ico] at ht
              rw [g4 t j ht.2 (by omega), if_neg (by omega), mul_zero]
            unfold refc
            dsimp only
            rw [hs, neg_zero, zero_div, zero_mul, add_zero, ite_self, g4 i j h1 (by omega)]
          · rw [pk_refc, g5, hsub, prodR]
            congr 1
            rw [rref, if_pos hn]
      · rw [if_neg hn]
        refine Post.pure ⟨F1, Z, g1, g2, fun t i h1 => g3 t i (by omega), g4, ?_⟩
        rw [hsub, prodR, rref, if_neg hn, Matrix.one_mul, g5]
    rw [hr2, ok_bind]
    refine (unitCol_post q1 hk).mono fun d' hd' => ⟨_, Z2, hd', ?_, ?_, fun i j h1 h2 => q4 i j h1 (by omega), q5⟩
    · intro i j h1 h2 h3
      by_cases e : j = k
      · rw [if_pos e, q4 i j h1 (by omega), e]
      · rw [if_neg e, q2 i j h1 (by omega) h3]
    · intro t i h1 h2 h3 h4
      rw [if_neg (by omega), q3 t i h1 h2 h3 h4]
  · rintro d ⟨F1, Z, g1, g2, -, -, g5⟩
    refine ⟨Z, g1.congr fun i j hi hj => g2 i j hi (Nat.zero_le _) hj, ?_⟩
    rw [g5, ← Matrix.one_mul (prodR _ _ _), show (1 : Matrix (Fin n) (Fin n) ℝ) = prodL (rref n nrt V) 0 from rfl, prodL_mul_prodR]
    congr 1
    omega

end SVD
end LA
