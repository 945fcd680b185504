import Verif.Proofs.SVDBid

/-! # One step of the reduction to bidiagonal form -/

set_option linter.unusedSectionVars false

namespace LA
open Finset Matrix
namespace SVD

/-- Column `k` replaced. -/
def colset (U : Nat → Nat → ℝ) (k : Nat) (u : Nat → ℝ) : Nat → Nat → ℝ := fun i t => if t = k then u i else U i t

theorem colset_same (U : Nat → Nat → ℝ) (k : Nat) (u : Nat → ℝ) (i : Nat) : colset U k u i k = u i := if_pos rfl
theorem colset_ne {U : Nat → Nat → ℝ} {k t : Nat} {u : Nat → ℝ} (h : t ≠ k) (i : Nat) : colset U k u i t = U i t := if_neg h

theorem refc_mid {m n nrt k : Nat} {s e u : Nat → ℝ} {G : Nat → Nat → ℝ} {i j : Nat} :
    refc k m u (mid nrt k s e G) i j = if i < k then mid nrt k s e G i j else if j < k then 0 else refc k m u G i j := by
  by_cases h1 : i < k
  · rw [if_pos h1, refc, if_neg (by omega)]
  · rw [if_neg h1]
    by_cases h2 : j < k
    · rw [if_pos h2, refc, if_pos (by omega)]
      have e1 : ∀ t, k ≤ t → mid nrt k s e G t j = 0 := fun t ht => by
        rw [mid, if_neg (by omega), if_pos h2]
      have e2 : ∑ t ∈ Ico k m, u t * mid nrt k s e G t j = 0 := by
        refine Finset.sum_eq_zero fun t ht => ?_
        rw [Finset.mem_Ico] at ht
        rw [e1 t ht.1, mul_zero]
      rw [e1 i (by omega), e2]; simp
    · rw [if_neg h2]
      have e1 : ∀ t, k ≤ t → mid nrt k s e G t j = G t j := fun t ht => by
        rw [mid, if_neg (by omega), if_neg h2]
      have e2 : ∑ t ∈ Ico k m, u t * mid nrt k s e G t j = ∑ t ∈ Ico k m, u t * G t j := by
        refine Finset.sum_congr rfl fun t ht => ?_
        rw [Finset.mem_Ico] at ht
        rw [e1 t ht.1]
      rw [refc, if_pos (by omega), refc, if_pos (by omega), e1 i (by omega), e2]

theorem bmath_step {m n nrt k : Nat} {A : Matrix (Fin m) (Fin n) ℝ} {s e u w : Nat → ℝ} {U V G G' : Nat → Nat → ℝ} {sk ek : ℝ}
    (h : BMath m n nrt A k s e U V G) (hkm : k < m) (hk : k < n) (hnrt : nrt ≤ k → n ≤ k + 2) (hlt : k < nrt → k + 1 < n)
    (hu : HV k m (fun i => G i k) u sk) (hw : k < nrt → HV (k + 1) n (fun j => refc k m u G k j) w ek)
    (hw0 : nrt ≤ k → ∀ i, w i = 0)
    (hG1 : ∀ i j, k + 1 ≤ i → i < m → k + 1 ≤ j → j < n → G' i j = refr (k + 1) n w (refc k m u G) i j)
    (hG2 : ∀ i j, i < k → j < n → G' i j = G i j)
    (hG3 : nrt ≤ k → ∀ j, k + 1 ≤ j → j < n → G' k j = refc k m u G k j) :
    BMath m n nrt A (k + 1) (updv s k sk) (updv e k ek) (colset U k u) (colset V k w) G' := by
  have hl : lref m (colset U k u) k = hhl m k u := hhl_congr hkm fun i _ _ => colset_same _ _ _ _
  have hl' : ∀ t, t < k → lref m (colset U k u) t = lref m U t := fun t ht =>
    hhl_congr (by omega) fun i _ _ => colset_ne (by omega) _
  have hr : rref n nrt (colset V k w) k = hhl n (k + 1) w := by
    unfold rref
    by_cases hn : k < nrt
    · rw [if_pos hn]
      exact hhl_congr (hlt hn) fun i _ _ => colset_same _ _ _ _
    · rw [if_neg hn, hhl, hw0 (by omega), hh_zero]
  have hr' : ∀ t, t < k → rref n nrt (colset V k w) t = rref n nrt V t := fun t ht => by
    unfold rref
    by_cases hn : t < nrt
    · rw [if_pos hn, if_pos hn]
      exact hhl_congr (by omega) fun i _ _ => colset_ne (by omega) _
    · rw [if_neg hn, if_neg hn]
  have hus : ∀ t, t < k → ∀ i, colset U k u i t = U i t := fun t ht i => colset_ne (by omega) i
  have hvs : ∀ t, t < k → ∀ i, colset V k w i t = V i t := fun t ht i => colset_ne (by omega) i
  have hwn : ∑ t ∈ Ico (k + 1) n, w t * w t = 2 * w (k + 1) := by
    by_cases hn : k < nrt
    · exact (hw hn).norm
    · rw [hw0 (by omega), mul_zero]
      exact Finset.sum_eq_zero fun t _ => by rw [hw0 (by omega), mul_zero]
  refine ⟨?_, ?_, ?_, ?_, ?_, ?_, ?_⟩
  · intro t ht
    by_cases e : t = k
    · subst e; simp only [colset_same]; exact hu.norm
    · simp only [hus t (by omega)]; exact h.un t (by omega)
  · intro t ht
    by_cases e : t = k
    · subst e; simp only [colset_same, updv_same]; exact hu.zero
    · simp only [hus t (by omega), updv_ne e]; exact h.uz t (by omega)
  · intro t ht
    by_cases e : t = k
    · subst e; simp only [colset_same, updv_same]; exact hu.nz
    · simp only [hus t (by omega), updv_ne e]; exact h.unz t (by omega)
  · intro t ht hn
    by_cases e : t = k
    · subst e; simp only [colset_same]; exact (hw hn).norm
    · simp only [hvs t (by omega)]; exact h.vn t (by omega) hn
  · intro t ht hn
    by_cases e : t = k
    · subst e; simp only [colset_same, updv_same]; exact (hw hn).zero
    · simp only [hvs t (by omega), updv_ne e]; exact h.vz t (by omega) hn
  · intro t ht hn
    by_cases e : t = k
    · subst e; simp only [colset_same, updv_same]; exact (hw hn).nz
    · simp only [hvs t (by omega), updv_ne e]; exact h.vnz t (by omega) hn
  · have key : pk m n (mid nrt (k + 1) (updv s k sk) (updv e k ek) G') =
        hhl m k u * pk m n (mid nrt k s e G) * hhl n (k + 1) w := by
      rw [← pk_refc, ← pk_refr]
      refine pk_congr fun i j hi hj => ?_
      rcases lt_trichotomy i k with hik | hik | hik
      · -- rows above `k`
        have hrow : ∀ t, k + 1 ≤ t → refc k m u (mid nrt k s e G) i t = 0 := by
          intro t ht
          rw [refc_mid (n := n), if_pos hik, mid, if_pos hik, if_neg (by omega), if_neg (by omega)]
        have hs : ∑ t ∈ Ico (k + 1) n, w t * refc k m u (mid nrt k s e G) i t = 0 := by
          refine Finset.sum_eq_zero fun t ht => ?_
          rw [Finset.mem_Ico] at ht
          rw [hrow t ht.1, mul_zero]
        have e1 : refr (k + 1) n w (refc k m u (mid nrt k s e G)) i j = mid nrt k s e G i j := by
          unfold refr
          rw [hs, mul_zero, add_zero, ite_self, refc_mid (n := n), if_pos hik]
        rw [e1, mid, mid, if_pos (show i < k + 1 by omega), if_pos hik, updv_ne (show i ≠ k by omega), updv_ne (show i ≠ k by omega),
          hG2 i j hik hj]
      · subst hik
        have hM : ∀ t, i ≤ t → refc i m u (mid nrt i s e G) i t = refc i m u G i t := fun t ht => by
          rw [refc_mid (n := n), if_neg (by omega), if_neg (by omega)]
        have hx := hu.refl i le_rfl hkm
        rw [if_pos rfl] at hx
        have hMi : refc i m u G i i = sk := by rw [refc, if_pos le_rfl]; exact hx
        have hs : ∑ t ∈ Ico (i + 1) n, w t * refc i m u (mid nrt i s e G) i t = ∑ t ∈ Ico (i + 1) n, w t * refc i m u G i t := by
          refine Finset.sum_congr rfl fun t ht => ?_
          rw [Finset.mem_Ico] at ht
          rw [hM t (by omega)]
        unfold refr
        rw [hs]
        rw [mid, if_pos (show i < i + 1 by omega), updv_same, updv_same]
        rcases lt_trichotomy j i with hji | hji | hji
        · rw [if_neg (show ¬ i + 1 ≤ j by omega), refc_mid (n := n), if_neg (by omega), if_pos hji, if_neg (by omega), if_neg (by omega)]
        · rw [if_neg (show ¬ i + 1 ≤ j by omega), if_pos hji, hji, hM i le_rfl, hMi]
        · rw [if_pos (show i + 1 ≤ j by omega), if_neg (show ¬ j = i by omega), hM j (by omega)]
          by_cases hn : i < nrt
          · have := (hw hn).refl j (by omega) hj
            rw [if_pos hn]
            have e2 : refc i m u G i j + -w j / w (i + 1) * ∑ t ∈ Ico (i + 1) n, w t * refc i m u G i t = if j = i + 1 then ek else 0 := by
              rw [← this]
              ring
            rw [e2]
          · rw [if_neg hn, if_pos (by have := hnrt (by omega); omega), hG3 (by omega) j (by omega) hj, hw0 (by omega)]
            simp
      · have hM : ∀ t, k ≤ t → refc k m u (mid nrt k s e G) i t = refc k m u G i t := fun t ht => by
          rw [refc_mid (n := n), if_neg (by omega), if_neg (by omega)]
        have hs : ∑ t ∈ Ico (k + 1) n, w t * refc k m u (mid nrt k s e G) i t = ∑ t ∈ Ico (k + 1) n, w t * refc k m u G i t := by
          refine Finset.sum_congr rfl fun t ht => ?_
          rw [Finset.mem_Ico] at ht
          rw [hM t (by omega)]
        have hx := hu.refl i (by omega) hi
        rw [if_neg (by omega)] at hx
        rw [mid, if_neg (show ¬ i < k + 1 by omega)]
        by_cases hj1 : k + 1 ≤ j
        · rw [if_neg (by omega), hG1 i j (by omega) hi hj1 hj]
          unfold refr
          rw [if_pos hj1, if_pos hj1, hs, hM j (by omega)]
        · rw [if_pos (by omega)]
          unfold refr
          rw [if_neg hj1]
          by_cases hjk : j = k
          · rw [hjk, hM k le_rfl, refc, if_pos (by omega)]
            exact hx.symm
          · rw [refc_mid (n := n), if_neg (by omega), if_pos (by omega)]
    rw [key, prodL, prodL, hl, hr, prodL_congr hl', prodL_congr hr', h.eq, transpose_mul, hhl_transpose]
    have hu2 := hhl_sq hu.norm
    have hw2 := hhl_sq hwn
    simp only [Matrix.mul_assoc]
    rw [← Matrix.mul_assoc (hhl n (k + 1) w) (hhl n (k + 1) w), hw2, Matrix.one_mul,
      ← Matrix.mul_assoc (hhl m k u) (hhl m k u), hu2, Matrix.one_mul]

theorem bidStep_post {m n nct nrt k : Nat} {A : Matrix (Fin m) (Fin n) ℝ} {b : Bid ℝ} {s e : Nat → ℝ} {U V G : Nat → Nat → ℝ}
    (hm : BMath m n nrt A k s e U V G) (hb : BBuf m n nrt k b s e U V G) (hkm : k < m) (hk : k < n) (hkc : k < nct)
    (hnm : n ≤ m) (hnrt : nrt ≤ k → n ≤ k + 2) (hlt : k < nrt → k + 2 < n) :
    Post (bidStep m n nct nrt k b) fun b' => ∃ s' e' U' V' G', BMath m n nrt A (k + 1) s' e' U' V' G' ∧
      BBuf m n nrt (k + 1) b' s' e' U' V' G' := by
  obtain ⟨S, hS, hSk⟩ := hb.s
  obtain ⟨E, hE, hEk⟩ := hb.e
  obtain ⟨FU, hFU, hFUk⟩ := hb.u
  obtain ⟨FV, hFV, hFVk⟩ := hb.v
  obtain ⟨Wo, hWo⟩ := hb.w
  unfold bidStep
  rw [if_pos hkc]
  obtain ⟨⟨a1, s1⟩, hr1, u, sk, ha1, hs1, hu⟩ := colTransform_post hb.a hS hk hkm
  rw [hr1, ok_bind]
  dsimp only at ha1 hs1 ⊢
  set G1 : Nat → Nat → ℝ := fun i j => if j = k ∧ k ≤ i then u i else G i j with hG1
  have hG1k : ∀ i, k ≤ i → G1 i k = u i := fun i hi => if_pos ⟨rfl, hi⟩
  have hG1n : ∀ i j, j ≠ k → G1 i j = G i j := fun i j hj => if_neg (by tauto)
  have hG1u : ∀ i j, i < k → G1 i j = G i j := fun i j hj => if_neg (by omega)
  have hrefc : ∀ i j, k + 1 ≤ j → refc k m (fun i => G1 i k) G1 i j = refc k m u G i j := by
    intro i j hj
    unfold refc
    have : ∑ t ∈ Ico k m, G1 t k * G1 t j = ∑ t ∈ Ico k m, u t * G t j := by
      refine Finset.sum_congr rfl fun t ht => ?_
      rw [Finset.mem_Ico] at ht
      rw [hG1k t ht.1, hG1n t j (by omega)]
    by_cases hi : k ≤ i
    · rw [if_pos hi, if_pos hi, this]
      dsimp only
      rw [hG1k k le_rfl, hG1k i hi, hG1n i j (by omega)]
    · rw [if_neg hi, if_neg hi, hG1n i j (by omega)]
  obtain ⟨⟨a2, e2⟩, hr2, ha2, he2⟩ := applyCols_post (nct := nct) ha1 hs1 hE hk hkm hkc (updv_same _ _ _)
    (fun h i h1 h2 => by rw [hG1k i h1]; exact hu.zero h i h1 h2) (fun h => by rw [hG1k k le_rfl]; exact hu.nz h)
  rw [hr2, ok_bind]
  dsimp only at ha2 he2 ⊢
  rw [if_pos hkc]
  obtain ⟨u3, hr3, hu3⟩ := loop_rows (lo := k) (hi := m) (f := fun i u => do wr u (i * m + k) (← idx a2 (i * n + k)))
    (fun i j => if j = k then some (u i) else FU i j) hFU (by
      intro i d' F' h1 h2 hF' hsame
      rw [ha2.idx h2 hk, ok_bind, if_neg (by omega), hG1k i h1]
      refine (hF'.wr h2 hkm _).mono fun d'' h => h.congr fun r c _ _ => ?_
      simp only [upd]
      have := hsame i c (by omega)
      grind)
  rw [hr3, ok_bind]
  set G2 : Nat → Nat → ℝ := fun i j => if k + 1 ≤ j then refc k m (fun i => G1 i k) G1 i j else G1 i j with hG2
  have hG2u : ∀ i j, i < k → G2 i j = G i j := by
    intro i j hi
    simp only [hG2]
    by_cases hj : k + 1 ≤ j
    · rw [if_pos hj, hrefc i j hj, refc, if_neg (by omega)]
    · rw [if_neg hj, hG1u i j hi]
  have hG2c : ∀ i j, k + 1 ≤ j → G2 i j = refc k m u G i j := by
    intro i j hj
    simp only [hG2]
    rw [if_pos hj, hrefc i j hj]
  have hbs : ∃ S', Vect s1 n S' ∧ ∀ t, t < k + 1 → S' t = some (updv s k sk t) := ⟨_, hs1, fun t ht => by
    by_cases e : t = k
    · rw [e, updv_same, updv_same]
    · rw [updv_ne e, updv_ne e, hSk t (by omega)]⟩
  have hbu : ∃ F, Grid u3 m m F ∧ ∀ t i, t < k + 1 → t ≤ i → i < m → F i t = some (colset U k u i t) := ⟨_, hu3, fun t i h1 h2 h3 => by
    by_cases e : t = k
    · subst e
      rw [if_pos ⟨h2, h3⟩, if_pos rfl, colset_same]
    · rw [colset_ne e]
      have := hFUk t i (by omega) h2 h3
      grind⟩
  by_cases hn : k < nrt
  · rw [if_pos hn]
    obtain ⟨e4, hr4, w, ek, he4, hw⟩ := rowTransform_post he2 (k := k) (x := fun j => refc k m u G k j) (by omega) (fun j h1 h2 => by
      rw [if_pos h1, hrefc k j h1])
    rw [hr4, ok_bind]
    obtain ⟨⟨a5, w5⟩, hr5, ha5, W', hw5⟩ := applyRow_post (x := w) (ek := ek) ha2 he4 hWo (k := k) (by omega) (by omega)
      (by rw [if_neg (by omega), if_pos rfl]) (fun i h1 h2 => by rw [if_pos h1]) hw.zero hw.nz
    rw [hr5, ok_bind]
    dsimp only at ha5 hw5 ⊢
    obtain ⟨v6, hr6, hv6⟩ := loop_rows (lo := k + 1) (hi := n) (f := fun i v => do wr v (i * n + k) (← rd e4 i))
      (fun i j => if j = k then some (w i) else FV i j) hFV (by
        intro i d' F' h1 h2 hF' hsame
        rw [he4.rd h2 (by rw [if_pos h1]), ok_bind]
        refine (hF'.wr h2 hk _).mono fun d'' h => h.congr fun r c _ _ => ?_
        simp only [upd]
        have := hsame i c (by omega)
        grind)
    rw [hr6, ok_bind]
    refine Post.pure ⟨updv s k sk, updv e k ek, colset U k u, colset V k w, _,
      bmath_step hm hkm hk hnrt (fun _ => by omega) hu (fun _ => hw) (fun h => by omega) ?_ ?_ (fun h => by omega),
      ⟨ha5, hbs, ⟨_, he4, ?_⟩, hbu, ⟨_, hv6, ?_⟩, ⟨_, hw5⟩⟩⟩
    · intro i j h1 _ h3 _
      rw [if_pos h1]
      unfold refr
      have : ∑ t ∈ Ico (k + 1) n, w t * G2 i t = ∑ t ∈ Ico (k + 1) n, w t * refc k m u G i t := by
        refine Finset.sum_congr rfl fun t ht => ?_
        rw [Finset.mem_Ico] at ht
        rw [hG2c i t ht.1]
      rw [if_pos h3, if_pos h3, this, hG2c i j h3]
    · intro i j h1 _
      rw [if_neg (by omega), hG2u i j h1]
    · intro t h1 h2
      by_cases e : t = k
      · rw [e, if_neg (by omega), if_pos rfl, updv_same]
      · rw [if_neg (by omega), if_neg e, if_neg (by omega), updv_ne e, hEk t (by omega) h2]
    · intro t i h1 h2 h3 h4
      by_cases e : t = k
      · subst e
        rw [if_pos ⟨h3, h4⟩, if_pos rfl, colset_same]
      · rw [colset_ne e]
        have := hFVk t i (by omega) h2 h3 h4
        grind
  · rw [if_neg hn]
    refine Post.pure ⟨updv s k sk, updv e k 0, colset U k u, colset V k (fun _ => 0), G2,
      bmath_step hm hkm hk hnrt (fun h => by omega) hu (fun h => absurd h hn) (fun _ _ => rfl) ?_ ?_ ?_,
      ⟨ha2, hbs, ⟨_, he2, ?_⟩, hbu, ⟨_, hFV, ?_⟩, ⟨_, hWo⟩⟩⟩
    · intro i j h1 _ h3 _
      rw [hG2c i j h3]
      unfold refr
      simp
    · intro i j h1 _
      exact hG2u i j h1
    · intro _ j h1 _
      exact hG2c k j h1
    · intro t h1 h2
      rw [if_neg (by omega), updv_ne (by omega), hEk t (by omega) h2]
    · intro t i h1 h2 h3 h4
      rw [colset_ne (by omega)]
      exact hFVk t i (by omega) h2 h3 h4

end SVD
end LA
