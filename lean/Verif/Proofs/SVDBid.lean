import Verif.Proofs.House

/-! # The reduction to bidiagonal form in `SVD::new` -/

set_option linter.unusedSectionVars false

namespace LA
open Finset Matrix
namespace SVD

theorem sum_sq_nonneg (lo hi : Nat) (x : Nat → ℝ) : 0 ≤ ∑ t ∈ Ico lo hi, x t ^ 2 := Finset.sum_nonneg fun _ _ => sq_nonneg _

/-- The signed norm. -/
theorem sgn_facts {x : Nat → ℝ} {lo N : Nat} (hr : Real.sqrt (∑ t ∈ Ico lo N, x t ^ 2) ≠ 0) {g : ℝ}
    (hg : g = if x lo < 0 then -Real.sqrt (∑ t ∈ Ico lo N, x t ^ 2) else Real.sqrt (∑ t ∈ Ico lo N, x t ^ 2)) :
    g ≠ 0 ∧ g ^ 2 = ∑ t ∈ Ico lo N, x t ^ 2 ∧ 0 ≤ x lo / g := by
  have h2 := Real.sq_sqrt (sum_sq_nonneg lo N x)
  have h3 := Real.sqrt_nonneg (∑ t ∈ Ico lo N, x t ^ 2)
  generalize Real.sqrt (∑ t ∈ Ico lo N, x t ^ 2) = r at *
  by_cases h : x lo < 0
  · rw [if_pos h] at hg
    subst hg
    refine ⟨neg_ne_zero.2 hr, by rw [neg_sq, h2], ?_⟩
    rw [div_neg, ← neg_div]
    exact div_nonneg (by linarith) h3
  · rw [if_neg h] at hg
    subst hg
    exact ⟨hr, h2, div_nonneg (not_lt.1 h) h3⟩

theorem colTransform_post {m n k : Nat} {a : List ℝ} {s : Buf ℝ} {G : Nat → Nat → ℝ} {S : Nat → Option ℝ} (ha : Grid a m n G)
    (hs : Vect s n S) (hk : k < n) (hkm : k < m) :
    Post (colTransform m n k a s) fun r => ∃ u sk, Grid r.1 m n (fun i j => if j = k ∧ k ≤ i then u i else G i j) ∧
      Vect r.2 n (updv S k (some sk)) ∧ HV k m (fun i => G i k) u sk := by
  unfold colTransform
  refine (hs.wr hk 0).bind fun s1 hs1 => ?_
  have hloop := loop_post (lo := k) (hi := m) (s := s1)
    (f := fun i s => do wr s k (← hypot (← rd s k) (← idx a (i * n + k))))
    (fun i s => Vect s n (updv S k (some (Real.sqrt (∑ t ∈ Ico k i, G t k ^ 2))))) hkm.le (by simpa using hs1) (by
      intro i s' h1 h2 hs'
      rw [hs'.rd hk (updv_same _ _ _), ok_bind, ha.idx h2 hk, ok_bind, hypot_acc (sum_sq_nonneg k i fun t => G t k), ok_bind]
      refine (hs'.wr hk _).mono fun s'' h => h.congr fun j _ => ?_
      rw [Finset.sum_Ico_succ_top h1]
      by_cases e : j = k
      · rw [e, updv_same, updv_same]
      · rw [updv_ne e, updv_ne e, updv_ne e])
  refine hloop.bind fun s2 hs2 => ?_
  rw [hs2.rd hk (updv_same _ _ _)]
  simp only [ok_bind, eq_eq, pure_eq_ok]
  by_cases h0 : Real.sqrt (∑ t ∈ Ico k m, G t k ^ 2) = 0
  · simp only [h0, decide_true, Bool.not_true, Bool.false_eq_true, if_false, ok_bind]
    rw [hs2.rd hk (by rw [updv_same, h0]), ok_bind]
    refine (hs2.wr hk _).bind fun s3 hs3 => Post.ok ⟨fun i => G i k, 0, ha.congr ?_, hs3.congr ?_, ?_⟩
    · intro i j _ _
      by_cases e : j = k ∧ k ≤ i
      · rw [if_pos e, e.1]
      · rw [if_neg e]
    · intro j _
      by_cases e : j = k
      · rw [e, updv_same, updv_same, neg_zero]
      · rw [updv_ne e, updv_ne e, updv_ne e]
    · exact house_zero hkm ((Real.sqrt_eq_zero (sum_sq_nonneg k m fun t => G t k)).1 h0)
  · simp only [h0, decide_false, Bool.not_false, if_true]
    rw [ha.idx hkm hk]
    simp only [ok_bind, lt_eq, decide_eq_true_eq]
    obtain ⟨g0, g2, g3⟩ := sgn_facts (x := fun t => G t k) h0 rfl
    obtain ⟨s3, hs3r, hs3⟩ : Post (if G k k < 0 then wr s2 k (-Real.sqrt (∑ t ∈ Ico k m, G t k ^ 2)) else (.ok s2 : R (Buf ℝ)))
        (fun s3 => Vect s3 n (updv S k (some (if G k k < 0 then -Real.sqrt (∑ t ∈ Ico k m, G t k ^ 2)
          else Real.sqrt (∑ t ∈ Ico k m, G t k ^ 2))))) := by
      split
      · refine (hs2.wr hk _).mono fun s3 h => h.congr fun j _ => ?_
        by_cases e : j = k
        · rw [e, updv_same, updv_same]
        · rw [updv_ne e, updv_ne e, updv_ne e]
      · exact Post.ok hs2
    rw [hs3r, ok_bind]
    generalize (if G k k < 0 then -Real.sqrt (∑ t ∈ Ico k m, G t k ^ 2) else Real.sqrt (∑ t ∈ Ico k m, G t k ^ 2)) = g at *
    have hdiv := loop_rows (lo := k) (hi := m)
      (f := fun i a => do setIdx a (i * n + k) (← RDiv.rdiv (← idx a (i * n + k)) (← rd s3 k)))
      (fun i j => if j = k then G i k / g else G i j) ha (by
        intro i a' G' h1 h2 hG' hsame
        rw [hG'.idx h2 hk, ok_bind, hs3.rd hk (updv_same _ _ _), ok_bind, rdiv_ok g0, ok_bind]
        refine (hG'.setIdx h2 hk _).mono fun a'' h => h.congr fun r c _ _ => ?_
        have e1 := hsame i k (by omega)
        by_cases e : r = i
        · subst e
          by_cases e2 : c = k
          · subst e2
            rw [upd_same, if_pos rfl, if_pos rfl, e1]
          · rw [upd_ne (by tauto), if_pos rfl, if_neg e2, hsame r c (by omega)]
        · rw [upd_ne (by tauto), if_neg e])
    obtain ⟨a1, ha1r, ha1⟩ := hdiv
    rw [ha1r, ok_bind, ha1.idx hkm hk, ok_bind]
    obtain ⟨a2, ha2r, ha2⟩ := ha1.setIdx hkm hk ((if k ≤ k ∧ k < m then if k = k then G k k / g else G k k else G k k) + 1)
    rw [ha2r]
    simp only [ok_bind]
    rw [hs3.rd hk (updv_same _ _ _), ok_bind]
    refine (hs3.wr hk _).bind fun s4 hs4 => Post.ok
      ⟨fun i => if i = k then G i k / g + 1 else G i k / g, -g, ha2.congr ?_, hs4.congr ?_, house hkm g2 g0 g3 fun _ => rfl⟩
    · intro i j hi _
      simp only [upd]
      grind
    · intro j _
      by_cases e : j = k
      · rw [e, updv_same, updv_same]
      · rw [updv_ne e, updv_ne e, updv_ne e]

theorem applyCol_post {m n k j : Nat} {a : List ℝ} {G : Nat → Nat → ℝ} (ha : Grid a m n G) (hk : k < n) (hkm : k < m) (hj : j < n)
    (hkj : k ≠ j) (h0 : G k k ≠ 0) :
    Post (applyCol m n k j a) fun a' => Grid a' m n (fun r c => if c = j then refc k m (fun i => G i k) G r c else G r c) := by
  unfold applyCol
  rw [loop_sum_Ico (fun t => G t k * G t j) (fun t s h1 h2 => by
    rw [ha.idx h2 hk, ha.idx h2 hj]; rfl), ok_bind, ha.idx hkm hk, ok_bind, rdiv_ok h0, ok_bind]
  refine (axpy_col ha hj _ (fun r q => idx q (r * n + k)) (fun r => G r k) ?_).mono fun q' h => h.congr fun r c _ _ => ?_
  · intro r q' G' _ hr hG' hcol
    rw [hG'.idx hr hk, hcol r k hkj]
  · unfold refc
    by_cases e : c = j
    · subst e
      by_cases h : k ≤ r <;> simp [h]
    · simp [e]

theorem applyCols_post {m n nct k : Nat} {a : List ℝ} {s e : Buf ℝ} {G : Nat → Nat → ℝ} {S E : Nat → Option ℝ} {sk : ℝ}
    (ha : Grid a m n G) (hs : Vect s n S) (he : Vect e n E) (hk : k < n) (hkm : k < m) (hkc : k < nct) (hS : S k = some sk)
    (hz : sk = 0 → ∀ i, k ≤ i → i < m → G i k = 0) (hnz : sk ≠ 0 → G k k ≠ 0) :
    Post (applyCols m n nct k a s e) fun r =>
      Grid r.1 m n (fun i j => if k + 1 ≤ j then refc k m (fun i => G i k) G i j else G i j) ∧
      Vect r.2 n (fun j => if k + 1 ≤ j then some (refc k m (fun i => G i k) G k j) else E j) := by
  unfold applyCols
  have := loop_post (lo := k + 1) (hi := n) (s := (a, e)) (f := fun j (x : List ℝ × Buf ℝ) => (do
      let (a, e) := x
      let a ← (do
        if k < nct then
          if !(FloatOps.eq (← rd s k) 0) then applyCol m n k j a else return a
        else return a)
      let e ← wr e j (← idx a (k * n + j))
      return (a, e) : R (List ℝ × Buf ℝ)))
    (fun j x => Grid x.1 m n (fun r c => if k + 1 ≤ c ∧ c < j then refc k m (fun i => G i k) G r c else G r c) ∧
      Vect x.2 n (fun c => if k + 1 ≤ c ∧ c < j then some (refc k m (fun i => G i k) G k c) else E c)) (by omega) ?_ ?_
  · obtain ⟨⟨a', e'⟩, hr, h1, h2⟩ := this
    refine ⟨(a', e'), hr, h1.congr ?_, h2.congr ?_⟩
    · intro i j _ hj
      by_cases h : k + 1 ≤ j
      · rw [if_pos ⟨h, hj⟩, if_pos h]
      · rw [if_neg (by omega), if_neg h]
    · intro j hj
      by_cases h : k + 1 ≤ j
      · rw [if_pos ⟨h, hj⟩, if_pos h]
      · rw [if_neg (by omega), if_neg h]
  · refine ⟨ha.congr fun i j _ _ => ?_, he.congr fun j _ => ?_⟩
    · rw [if_neg (by omega)]
    · rw [if_neg (by omega)]
  · rintro j ⟨a1, e1⟩ h1 h2 ⟨ha1, he1⟩
    dsimp only at ha1 he1 ⊢
    rw [if_pos hkc, hs.rd hk hS]
    simp only [ok_bind, eq_eq, pure_eq_ok]
    obtain ⟨a2, hr2, ha2⟩ : Post (if (!decide (sk = 0)) = true then applyCol m n k j a1 else (.ok a1 : R (List ℝ)))
        (fun a2 => Grid a2 m n (fun r c => if k + 1 ≤ c ∧ c < j + 1 then refc k m (fun i => G i k) G r c else G r c)) := by
      by_cases h0 : sk = 0
      · rw [if_neg (by simpa using h0)]
        refine Post.ok (ha1.congr fun r c hr _ => ?_)
        rw [refc_zero (hz h0) G hr, ite_self, ite_self]
      · rw [if_pos (by simpa using h0)]
        refine (applyCol_post ha1 hk hkm h2 (by omega) (by rw [if_neg (by omega)]; exact hnz h0)).mono fun a2 h => h.congr fun r c hr hc => ?_
        by_cases e : c = j
        · subst e
          rw [if_pos rfl, if_pos (by omega)]
          unfold refc
          simp only [show ¬(k + 1 ≤ k ∧ k < c) by omega, show ¬(k + 1 ≤ c ∧ c < c) by omega, if_false]
        · rw [if_neg e]
          by_cases h3 : k + 1 ≤ c ∧ c < j
          · rw [if_pos h3, if_pos (by omega)]
          · rw [if_neg h3, if_neg (by omega)]
    rw [hr2]
    simp only [ok_bind]
    rw [ha2.idx hkm h2, ok_bind]
    refine (he1.wr h2 _).bind fun e2 he2 => Post.ok ⟨ha2, he2.congr fun c _ => ?_⟩
    by_cases e : c = j
    · subst e
      rw [updv_same, if_pos (by omega), if_pos (by omega)]
    · rw [updv_ne e]
      by_cases h3 : k + 1 ≤ c ∧ c < j
      · rw [if_pos h3, if_pos (by omega)]
      · rw [if_neg h3, if_neg (by omega)]

theorem rowTransform_post {n k : Nat} {e : Buf ℝ} {E : Nat → Option ℝ} {x : Nat → ℝ} (he : Vect e n E) (hk : k + 1 < n)
    (hx : ∀ i, k + 1 ≤ i → i < n → E i = some (x i)) :
    Post (rowTransform n k e) fun e' => ∃ w ek, Vect e' n (fun i => if k + 1 ≤ i then some (w i) else if i = k then some ek else E i) ∧
      HV (k + 1) n x w ek := by
  unfold rowTransform
  refine (he.wr (i := k) (by omega) 0).bind fun e1 he1 => ?_
  have hloop := loop_post (lo := k + 1) (hi := n) (s := e1) (f := fun i e => do wr e k (← hypot (← rd e k) (← rd e i)))
    (fun i e => Vect e n (updv E k (some (Real.sqrt (∑ t ∈ Ico (k + 1) i, x t ^ 2))))) hk.le (by simpa using he1) (by
      intro i e' h1 h2 he'
      rw [he'.rd (i := k) (by omega) (updv_same _ _ _), ok_bind, he'.rd h2 (by rw [updv_ne (by omega), hx i h1 h2]), ok_bind,
        hypot_acc (sum_sq_nonneg (k + 1) i x), ok_bind]
      refine (he'.wr (i := k) (by omega) _).mono fun s'' h => h.congr fun j _ => ?_
      rw [Finset.sum_Ico_succ_top h1]
      by_cases e : j = k
      · rw [e, updv_same, updv_same]
      · rw [updv_ne e, updv_ne e, updv_ne e])
  refine hloop.bind fun e2 he2 => ?_
  rw [he2.rd (i := k) (by omega) (updv_same _ _ _)]
  simp only [ok_bind, eq_eq, pure_eq_ok]
  by_cases h0 : Real.sqrt (∑ t ∈ Ico (k + 1) n, x t ^ 2) = 0
  · simp only [h0, decide_true, Bool.not_true, Bool.false_eq_true, if_false, ok_bind]
    rw [he2.rd (i := k) (by omega) (by rw [updv_same, h0]), ok_bind]
    refine (he2.wr (i := k) (by omega) _).mono fun e3 he3 => ⟨x, 0, he3.congr ?_, ?_⟩
    · intro j hj
      by_cases e : j = k
      · rw [e, updv_same, if_neg (by omega), if_pos rfl, neg_zero]
      · rw [updv_ne e, updv_ne e, if_neg e]
        split
        · exact hx j ‹_› hj
        · rfl
    · exact house_zero hk ((Real.sqrt_eq_zero (sum_sq_nonneg (k + 1) n x)).1 h0)
  · simp only [h0, decide_false, Bool.not_false, if_true]
    rw [he2.rd hk (by rw [updv_ne (by omega), hx _ le_rfl hk])]
    simp only [ok_bind, lt_eq, decide_eq_true_eq]
    obtain ⟨g0, g2, g3⟩ := sgn_facts (x := x) h0 rfl
    obtain ⟨e3, he3r, he3⟩ : Post (if x (k + 1) < 0 then wr e2 k (-Real.sqrt (∑ t ∈ Ico (k + 1) n, x t ^ 2)) else (.ok e2 : R (Buf ℝ)))
        (fun s3 => Vect s3 n (updv E k (some (if x (k + 1) < 0 then -Real.sqrt (∑ t ∈ Ico (k + 1) n, x t ^ 2)
          else Real.sqrt (∑ t ∈ Ico (k + 1) n, x t ^ 2))))) := by
      split
      · refine (he2.wr (i := k) (by omega) _).mono fun s3 h => h.congr fun j _ => ?_
        by_cases e : j = k
        · rw [e, updv_same, updv_same]
        · rw [updv_ne e, updv_ne e, updv_ne e]
      · exact Post.ok he2
    rw [he3r, ok_bind]
    generalize (if x (k + 1) < 0 then -Real.sqrt (∑ t ∈ Ico (k + 1) n, x t ^ 2)
      else Real.sqrt (∑ t ∈ Ico (k + 1) n, x t ^ 2)) = g at *
    have hdiv := loop_vect (lo := k + 1) (hi := n) (f := fun i e => do wr e i (← RDiv.rdiv (← rd e i) (← rd e k)))
      (fun i => some (x i / g)) he3 (by
        intro i e' g' h1 h2 hg' hsame
        rw [hg'.rd h2 (by rw [hsame i (by omega), updv_ne (by omega), hx i h1 h2]), ok_bind,
          hg'.rd (i := k) (by omega) (by rw [hsame k (by omega), updv_same]), ok_bind, rdiv_ok g0, ok_bind]
        exact hg'.wr h2 _)
    obtain ⟨e4, he4r, he4⟩ := hdiv
    rw [he4r, ok_bind, he4.rd (i := k + 1) hk (by rw [if_pos ⟨le_rfl, hk⟩]), ok_bind]
    obtain ⟨e5, he5r, he5⟩ := he4.wr hk (x (k + 1) / g + 1)
    rw [he5r, ok_bind, he5.rd (i := k) (by omega) (by rw [updv_ne (by omega), if_neg (by omega), updv_same]), ok_bind]
    refine (he5.wr (i := k) (by omega) _).mono fun e6 he6 =>
      ⟨fun i => if i = k + 1 then x i / g + 1 else x i / g, -g, he6.congr ?_, house hk g2 g0 g3 fun _ => rfl⟩
    intro j hj
    simp only [updv]
    grind

theorem applyRow_post {m n k : Nat} {a : List ℝ} {e w : Buf ℝ} {G : Nat → Nat → ℝ} {E Wo : Nat → Option ℝ} {x : Nat → ℝ} {ek : ℝ}
    (ha : Grid a m n G) (he : Vect e n E) (hw : Vect w m Wo) (hk : k + 1 < n) (hkm : k + 1 < m) (hE : E k = some ek)
    (hx : ∀ i, k + 1 ≤ i → i < n → E i = some (x i))
    (hz : ek = 0 → ∀ i, k + 1 ≤ i → i < n → x i = 0) (hnz : ek ≠ 0 → x (k + 1) ≠ 0) :
    Post (applyRow m n k a e w) fun r =>
      Grid r.1 m n (fun i j => if k + 1 ≤ i then refr (k + 1) n x G i j else G i j) ∧ ∃ W', Vect r.2 m W' := by
  unfold applyRow
  rw [if_pos hkm, he.rd (i := k) (by omega) hE]
  simp only [ok_bind, eq_eq, pure_eq_ok]
  by_cases h0 : ek = 0
  · rw [if_neg (by simpa using h0)]
    refine Post.ok ⟨ha.congr fun i j _ hj => ?_, _, hw⟩
    rw [refr_zero (hz h0) G hj, ite_self]
  rw [if_pos (by simpa using h0)]
  have h1 := loop_vect (lo := k + 1) (hi := m) (f := fun i w => wr w i 0) (fun _ => some (0 : ℝ)) hw
    (fun i d' g' h1 h2 hg' _ => hg'.wr h2 0)
  refine h1.bind fun w1 hw1 => ?_
  have h2 := loop_post (lo := k + 1) (hi := n) (s := w1) (f := fun j w => loop (k + 1) m w fun i w => do
        wr w i ((← rd w i) + (← rd e j) * (← idx a (i * n + j))))
    (fun j w => Vect w m (fun i => if k + 1 ≤ i ∧ i < m then some (∑ t ∈ Ico (k + 1) j, x t * G i t) else Wo i)) hk.le
    (hw1.congr fun i _ => by simp) (by
      intro j w' h3 h4 hw'
      refine (loop_vect (lo := k + 1) (hi := m) (fun i => some (∑ t ∈ Ico (k + 1) (j + 1), x t * G i t)) hw' ?_).mono
        fun w'' h => h.congr fun i _ => ?_
      · intro i d' g' h5 h6 hg' hsame
        rw [hg'.rd h6 (by rw [hsame i (by omega), if_pos ⟨h5, h6⟩]), ok_bind, he.rd h4 (hx j h3 h4), ok_bind, ha.idx h6 h4, ok_bind,
          Finset.sum_Ico_succ_top h3]
        exact hg'.wr h6 _
      · split <;> rfl)
  refine h2.bind fun w2 hw2 => ?_
  have h3 := loop_cols (lo := k + 1) (hi := n) (f := fun j a => do
        let t ← RDiv.rdiv (-(← rd e j)) (← rd e (k + 1))
        loop (k + 1) m a fun i a => do setIdx a (i * n + j) ((← idx a (i * n + j)) + t * (← rd w2 i)))
    (fun r c => if k + 1 ≤ r then refr (k + 1) n x G r c else G r c) ha (by
      intro j a' G' h3 h4 hG' hsame
      rw [he.rd h4 (hx j h3 h4), ok_bind, he.rd hk (hx _ le_rfl hk), ok_bind, rdiv_ok (hnz h0), ok_bind]
      refine (axpy_col hG' h4 _ (fun r _ => rd w2 r) (fun r => ∑ t ∈ Ico (k + 1) n, x t * G r t) ?_).mono
        fun q' h => h.congr fun r c _ _ => ?_
      · intro r q' G'' h5 h6 _ _
        exact hw2.rd h6 (by rw [if_pos ⟨h5, h6⟩])
      · by_cases e : c = j
        · subst e
          rw [if_pos rfl, hsame r c (by omega)]
          unfold refr
          by_cases h : k + 1 ≤ r
          · rw [if_pos ⟨rfl, h⟩, if_pos h, if_pos h3]
          · rw [if_neg (by tauto), if_neg h]
        · rw [if_neg e, if_neg (by tauto)])
  refine h3.bind fun a1 ha1 => Post.ok ⟨ha1.congr fun i j _ hj => ?_, _, hw2⟩
  by_cases h : k + 1 ≤ j
  · rw [if_pos ⟨h, hj⟩]
  · rw [if_neg (by omega)]
    unfold refr
    rw [if_neg h, ite_self]

/-- Middle factor after `k` steps. -/
def mid (nrt k : Nat) (s e : Nat → ℝ) (G : Nat → Nat → ℝ) : Nat → Nat → ℝ := fun i j =>
  if i < k then (if j = i then s i else if j = i + 1 then (if i < nrt then e i else G i j) else 0)
  else if j < k then 0 else G i j

/-- The left reflections. -/
noncomputable def lref (m : Nat) (U : Nat → Nat → ℝ) (t : Nat) : Matrix (Fin m) (Fin m) ℝ := hhl m t (fun i => U i t)

/-- The right reflections. -/
noncomputable def rref (n nrt : Nat) (V : Nat → Nat → ℝ) (t : Nat) : Matrix (Fin n) (Fin n) ℝ :=
  if t < nrt then hhl n (t + 1) (fun i => V i t) else 1

/-- Invariant of the reduction: the mathematics. -/
structure BMath (m n nrt : Nat) (A : Matrix (Fin m) (Fin n) ℝ) (k : Nat) (s e : Nat → ℝ) (U V G : Nat → Nat → ℝ) : Prop where
  un : ∀ t, t < k → ∑ i ∈ Ico t m, U i t * U i t = 2 * U t t
  uz : ∀ t, t < k → s t = 0 → ∀ i, t ≤ i → i < m → U i t = 0
  unz : ∀ t, t < k → s t ≠ 0 → U t t ≠ 0
  vn : ∀ t, t < k → t < nrt → ∑ i ∈ Ico (t + 1) n, V i t * V i t = 2 * V (t + 1) t
  vz : ∀ t, t < k → t < nrt → e t = 0 → ∀ i, t + 1 ≤ i → i < n → V i t = 0
  vnz : ∀ t, t < k → t < nrt → e t ≠ 0 → V (t + 1) t ≠ 0
  eq : A = prodL (lref m U) k * pk m n (mid nrt k s e G) * (prodL (rref n nrt V) k)ᵀ

/-- Invariant of the reduction: the buffers. -/
structure BBuf (m n nrt k : Nat) (b : Bid ℝ) (s e : Nat → ℝ) (U V G : Nat → Nat → ℝ) : Prop where
  a : Grid b.a m n G
  s : ∃ S, Vect b.s n S ∧ ∀ t, t < k → S t = some (s t)
  e : ∃ E, Vect b.e n E ∧ ∀ t, t < k → t < nrt → E t = some (e t)
  u : ∃ F, Grid b.u m m F ∧ ∀ t i, t < k → t ≤ i → i < m → F i t = some (U i t)
  v : ∃ F, Grid b.v n n F ∧ ∀ t i, t < k → t < nrt → t + 1 ≤ i → i < n → F i t = some (V i t)
  w : ∃ F, Vect b.w m F

end SVD
end LA
