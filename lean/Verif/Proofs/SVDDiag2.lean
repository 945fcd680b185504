import Verif.Proofs.SVDDiag

/-! # `SVD::new` on a diagonal `f64` matrix: the bidiagonal form, `U` and `V` before the main loop -/

set_option linter.unusedSectionVars false

namespace LA
open F64 Props
namespace SVD.Dg

theorem agree_of_zeros {x y : F64} (hx : F64.isZero x) (hy : F64.isZero y) : Agree x y := Or.inr ⟨hx, hy⟩

/-- The bidiagonal form of a diagonal matrix. -/
theorem bidiag_diag {m n : Nat} (hn : 0 < n) (hnm : n ≤ m) {A : Matrix (Fin m) (Fin n) F64} {D : Nat → F64} (hD : ∀ j, j < n → (D j).isFin)
    (hA : ∀ i j, i.1 ≠ j.1 → F64.isZero (A i j)) (hAD : ∀ i j, i.1 = j.1 → A i j = D j) :
    Post (bidiag m n (min (m - 1) n) (n - 2) n (ofM A).data) fun b =>
      (∃ s : Nat → F64, Vect b.s n (fun j => some (s j)) ∧ ∀ j, j < n → Agree (s j) (if j < min (m - 1) n then -(D j) else D j)) ∧
      (∃ e : Nat → F64, Vect b.e n (fun j => some (e j)) ∧ ∀ j, j < n → F64.isZero (e j)) ∧
      (∃ U, Grid b.u m m U ∧ ∀ j, j < min (m - 1) n → ¬ F64.isZero (D j) → ∀ i, j ≤ i → i < m → ∃ x, U i j = some x ∧ (i = j → x = dec 2 0) ∧ (i ≠ j → F64.isZero x)) ∧
      ∃ V, Grid b.v n n V := by
  have hmin : min m n = n := by omega
  unfold bidiag
  rw [hmin, show max (min (m - 1) n) (n - 2) = min (m - 1) n by omega]
  set nct := min (m - 1) n with hnct
  have hloop := loop_post (lo := 0) (hi := nct)
    (s := (⟨(ofM A).data, alloc F64 n, alloc F64 n, alloc F64 (m * m), alloc F64 (n * n), alloc F64 m⟩ : Bid F64))
    (f := fun k b => bidStep m n nct (n - 2) k b) (fun k b => k ≤ nct ∧ (Inv m n (n - 2) D k b)) (Nat.zero_le _) ?_ ?_
  · refine hloop.bind ?_
    rintro b ⟨-, ⟨G, g1, g2, g3⟩, ⟨S, hS, hSk⟩, ⟨E, hE, hEk⟩, hU, hV, -⟩
    unfold finish
    obtain ⟨s1, hr1, hs1⟩ : Post (if nct < n then (do wr b.s nct (← idx b.a (nct * n + nct))) else (.ok b.s : R (Buf F64)))
        (fun s1 => ∃ s : Nat → F64, Vect s1 n (fun j => some (s j)) ∧ ∀ j, j < n → Agree (s j) (if j < nct then -(D j) else D j)) := by
      choose! sf hsf using hSk
      by_cases h : nct < n
      · rw [if_pos h, g1.idx (by omega) h, ok_bind]
        refine (hS.wr h _).mono fun s1 h1 => ⟨fun t => if t = nct then G nct nct else sf t, h1.congr fun t ht => ?_, fun t ht => ?_⟩
        · beta_reduce
          by_cases e : t = nct
          · rw [e, updv_same, if_pos rfl]
          · rw [updv_ne e, if_neg e, (hsf t (by omega)).1]
        · beta_reduce
          by_cases e : t = nct
          · subst e; rw [if_pos rfl, if_neg (lt_irrefl _)]; exact g3 nct le_rfl h
          · rw [if_neg e, if_pos (by omega)]; exact (hsf t (by omega)).2
      · rw [if_neg h]
        refine Post.ok ⟨sf, hS.congr fun t ht => (hsf t (by omega)).1, fun t ht => ?_⟩
        rw [if_pos (by omega)]; exact (hsf t (by omega)).2
    obtain ⟨e1, hr2, E1, he1, hE1⟩ : Post (if n - 2 + 1 < n then (do wr b.e (n - 2) (← idx b.a ((n - 2) * n + (← usub n 1))))
        else (.ok b.e : R (Buf F64))) (fun e1 => ∃ E1, Vect e1 n E1 ∧ ∀ t, t + 1 < n → ∃ x, E1 t = some x ∧ F64.isZero x) := by
      by_cases h : n - 2 + 1 < n
      · rw [if_pos h, usub_ok (by omega), ok_bind, g1.idx (by omega) (by omega), ok_bind]
        refine (hE.wr (i := n - 2) (by omega) _).mono fun e1 h1 => ⟨_, h1, fun t ht => ?_⟩
        by_cases e : t = n - 2
        · rw [e, updv_same]
          exact ⟨_, rfl, g2 _ _ (by omega) (by omega) (by omega) (by omega)⟩
        · rw [updv_ne e]; exact hEk t (by omega) (by omega)
      · rw [if_neg h]
        exact Post.ok ⟨_, hE, fun t ht => by omega⟩
    simp only [pure_eq_ok]
    rw [hr1]
    simp only [ok_bind]
    rw [if_neg (by omega)]
    simp only [ok_bind]
    rw [hr2, ok_bind, usub_ok (by omega), ok_bind]
    choose! ef hef using hE1
    refine (he1.wr (i := n - 1) (by omega) 0).bind fun e2 he2 => Post.ok ⟨hs1, ⟨fun t => if t = n - 1 then 0 else ef t, he2.congr fun t ht => ?_, fun t ht => ?_⟩, hU, hV⟩
    · beta_reduce
      by_cases e : t = n - 1
      · rw [e, updv_same, if_pos rfl]
      · rw [updv_ne e, if_neg e, (hef t (by omega)).1]
    · beta_reduce
      by_cases e : t = n - 1
      · rw [if_pos e]; exact (show F64.isZero (0 : F64) from rfl)
      · rw [if_neg e]; exact (hef t (by omega)).2
  · refine ⟨Nat.zero_le _, ⟨_, grid_ofM A, fun i j hi _ hj hij => ?_, fun j _ hj => ?_⟩, ⟨_, vect_alloc n, fun j hj => by omega⟩, ⟨_, vect_alloc n, fun j hj => by omega⟩,
      ⟨_, grid_alloc m m, fun j hj => by omega⟩, ⟨_, grid_alloc n n⟩, ⟨_, vect_alloc m⟩⟩
    · rw [ext_eq A hi hj]
      exact hA ⟨i, hi⟩ ⟨j, hj⟩ hij
    · rw [ext_eq A (by omega) hj, hAD ⟨j, by omega⟩ ⟨j, hj⟩ rfl]
      exact Agree.refl _
  · rintro k b - hk ⟨-, hI⟩
    exact (bidStep_diag hD hI hk (by omega) (by omega) hnm (by omega)).mono fun b' h => ⟨hk, h⟩

theorem unitCol_f64 {N k : Nat} {d : Buf F64} {F : Nat → Nat → Option F64} (hd : Grid d N N F) (hk : k < N) :
    Post (unitCol N k d) fun d' => Grid d' N N (fun i j => if j = k then some (if i = k then 1 else 0) else F i j) := by
  unfold unitCol
  refine (loop_rows (lo := 0) (hi := N) (fun i j => if j = k then some 0 else F i j) hd ?_).bind fun d1 hd1 => ?_
  · intro i d' F' h1 h2 hF' hsame
    refine (hF'.wr h2 hk 0).mono fun d'' h => h.congr fun r c _ _ => ?_
    simp only [upd]
    have := hsame i c (by omega)
    grind
  · refine (hd1.wr hk hk 1).mono fun d2 hd2 => hd2.congr fun r c hr hc => ?_
    simp only [upd]
    grind

/-- The diagonal of `U` before the main loop. -/
def du (nct : Nat) (D : Nat → F64) [DecidablePred fun j => F64.isZero (D j)] (j : Nat) : F64 := if j < nct ∧ ¬ F64.isZero (D j) then -1 else 1

theorem du_fin {nct : Nat} {D : Nat → F64} [DecidablePred fun j => F64.isZero (D j)] (j : Nat) : (du nct D j).isFin := by
  unfold du
  split
  · exact (by decide +kernel)
  · exact (by decide +kernel)

/-- One column of the reflection with vector `2 e_k`. -/
theorem reflectCol_diag {m k j : Nat} {d : Buf F64} {F : Nat → Nat → Option F64} {u z : Nat → F64} (hd : Grid d m m F) (hk : k < m) (hj : j < m) (hkj : k < j)
    (hu : ∀ i, k ≤ i → i < m → F i k = some (u i)) (h2 : u k = dec 2 0) (hoff : ∀ i, k < i → i < m → F64.isZero (u i))
    (hz : ∀ i, i < m → F i j = some (z i)) (hzo : ∀ i, i < m → i ≠ j → F64.isZero (z i)) (hzf : (z j).isFin) :
    Post (reflectCol m k k j d) fun d' => ∃ F', Grid d' m m F' ∧ (∀ i c, c ≠ j → F' i c = F i c) ∧ ∀ i, i < m → ∃ x, F' i j = some x ∧ Agree x (z i) := by
  unfold reflectCol
  have hf : ∀ i, k ≤ i → i < m → F64.isZero (u i * z i) := by
    intro i h1 h3
    by_cases e : i = k
    · subst e
      rw [h2, mul_comm]
      exact zero_mul_fin (hzo i h3 (by omega)) two_fin
    · by_cases e2 : i = j
      · subst e2; exact zero_mul_fin (hoff i (by omega) h3) hzf
      · exact zero_mul_fin (hoff i (by omega) h3) (fin_zero (hzo i h3 e2))
  refine (loop_zeros hk.le (x := fun i => u i * z i) (fun t s h1 h3 => by rw [hd.rd h3 hk (hu t h1 h3), hd.rd h3 hj (hz t h3)]; rfl) hf).bind fun t ht => ?_
  rw [hd.rd hk hk (hu k le_rfl hk), ok_bind, h2]
  show Post (loop k m d fun i d => _) _
  have ht2 : F64.isZero (F64.div (-t) (dec 2 0)) := zero_div_fin (isZero_neg.2 ht) two_fin two_ne
  have hgk : ∀ i, k ≤ i → i < m → (u i).isFin := by
    intro i h1 h3
    by_cases e : i = k
    · subst e; rw [h2]; exact two_fin
    · exact fin_zero (hoff i (by omega) h3)
  refine (loop_rows (fun i c => if c = j then some (z i + F64.div (-t) (dec 2 0) * u i) else F i c) hd fun i d' F' h1 h3 hF' hsame => ?_).mono
    fun d' hd' => ⟨_, hd', fun i c hc => ?_, fun i hi => ?_⟩
  · rw [hF'.rd h3 hj (by rw [hsame i j (by omega), hz i h3]), ok_bind, hF'.rd h3 hk (by rw [hsame i k (by omega), hu i h1 h3]), ok_bind]
    refine (hF'.wr h3 hj _).mono fun d'' h => h.congr fun r c _ _ => ?_
    have := hsame i c (by omega)
    unfold upd
    grind
  · grind
  · by_cases h1 : k ≤ i
    · rw [if_pos ⟨h1, hi⟩, if_pos rfl]
      exact ⟨_, rfl, add_zero_agree _ (zero_mul_fin ht2 (hgk i h1 hi))⟩
    · rw [if_neg (by omega)]; exact ⟨_, hz i hi, Agree.refl _⟩

theorem one_sub_two : (1 : F64) + -(dec 2 0) = -1 := by decide +kernel

theorem genU_diag {m n nct : Nat} {D : Nat → F64} [DecidablePred fun j => F64.isZero (D j)] {sb ub : Buf F64} {s : Nat → F64} {U : Nat → Nat → Option F64}
    (hs : Vect sb n fun j => some (s j)) (hn : nct ≤ n) (hm : nct ≤ m) (hsz : ∀ j, j < nct → (F64.isZero (s j) ↔ F64.isZero (D j)))
    (hU : Grid ub m m U)
    (hUD : ∀ j, j < nct → ¬ F64.isZero (D j) → ∀ i, j ≤ i → i < m → ∃ x, U i j = some x ∧ (i = j → x = dec 2 0) ∧ (i ≠ j → F64.isZero x)) :
    Post (genU m nct sb ub) fun u => ∃ Z : Nat → Nat → F64, Grid u m m (fun i j => some (Z i j)) ∧ ∀ i j, i < m → j < m → Agree (Z i j) (if i = j then du nct D j else 0) := by
  unfold genU
  refine (loop_cols (lo := nct) (hi := m) (fun i j => some (if i = j then (1 : F64) else 0)) hU ?_).bind fun d1 hd1 => ?_
  · intro j d' F' h1 h2 hF' hsame
    refine (unitCol_f64 hF' h2).mono fun d'' h => h.congr fun r c _ _ => ?_
    grind
  refine (loopRev_post (lo := 0) (hi := nct)
    (fun k d => ∃ F, Grid d m m F ∧ (∀ i j, i < m → k ≤ j → j < m → ∃ x, F i j = some x ∧ Agree x (if i = j then du nct D j else 0)) ∧
      (∀ i j, j < k → F i j = U i j)) (Nat.zero_le _) ?_ ?_).mono ?_
  · refine ⟨_, hd1, fun i j _ h2 h3 => ⟨_, if_pos ⟨h2, h3⟩, ?_⟩, fun i j h1 => if_neg (by omega)⟩
    have : du nct D j = 1 := if_neg (by omega)
    rw [this]; exact Agree.refl _
  · rintro k d - hk ⟨F1, g1, g2, g3⟩
    rw [hs.rd (i := k) (by omega) rfl]
    simp only [ok_bind]
    by_cases h0 : F64.isZero (s k)
    · rw [eq_zero_iff.2 h0]
      simp only [Bool.not_true, Bool.false_eq_true, if_false]
      have hdu : du nct D k = 1 := if_neg fun h => h.2 ((hsz k hk).1 h0)
      refine (unitCol_f64 g1 (k := k) (by omega)).mono fun d' hd' => ⟨_, hd', fun i j h1 h2 h3 => ?_, fun i j h1 => ?_⟩
      · by_cases e : j = k
        · subst e
          rw [if_pos rfl, hdu]; exact ⟨_, rfl, Agree.refl _⟩
        · rw [if_neg e]; exact g2 i j h1 (by omega) h3
      · rw [if_neg (by omega), g3 i j (by omega)]
    · rw [not_zero.2 h0]
      simp only [Bool.not_false, if_true]
      have hDk : ¬ F64.isZero (D k) := fun h => h0 ((hsz k hk).2 h)
      have hdu : du nct D k = -1 := if_pos ⟨hk, hDk⟩
      have hUk := hUD k hk hDk
      choose! u hu using hUk
      have hrefl : Post (loop (k + 1) m d fun j u => reflectCol m k k j u) fun d' => ∃ F, Grid d' m m F ∧
          (∀ i j, i < m → k + 1 ≤ j → j < m → ∃ x, F i j = some x ∧ Agree x (if i = j then du nct D j else 0)) ∧ (∀ i j, j < k + 1 → F i j = U i j) := by
        refine loop_post_const (fun d => ∃ F, Grid d m m F ∧
          (∀ i j, i < m → k + 1 ≤ j → j < m → ∃ x, F i j = some x ∧ Agree x (if i = j then du nct D j else 0)) ∧ (∀ i j, j < k + 1 → F i j = U i j))
          ⟨F1, g1, g2, g3⟩ fun j d' hj1 hj2 ⟨F2, k1, k2, k3⟩ => ?_
        have hzz := fun i (hi : i < m) => k2 i j hi hj1 hj2
        choose! z hz using hzz
        refine (reflectCol_diag (u := u) (z := z) k1 (by omega) hj2 hj1 (fun i h1 h2 => by rw [k3 i k (by omega), (hu i h1 h2).1]) ((hu k le_rfl (by omega)).2.1 rfl)
          (fun i h1 h2 => (hu i h1.le h2).2.2 (by omega)) (fun i hi => (hz i hi).1)
          (fun i hi hij => by have := (hz i hi).2; rw [if_neg hij] at this; exact (agree_zero this).2 (show F64.isZero (0 : F64) from rfl))
          (by have := (hz j hj2).2; rw [if_pos rfl] at this; exact agree_fin this (du_fin j))).mono fun d'' ⟨F3, e1, e2, e3⟩ => ⟨F3, e1, fun i c hi hc1 hc2 => ?_, fun i c hc => ?_⟩
        · by_cases e : c = j
          · subst e
            obtain ⟨x, hx, hx2⟩ := e3 i hi
            exact ⟨x, hx, hx2.trans (hz i hi).2⟩
          · rw [e2 i c e]; exact k2 i c hi hc1 hc2
        · rw [e2 i c (by omega), k3 i c hc]
      refine hrefl.bind fun d2 ⟨F2, k1, k2, k3⟩ => ?_
      refine (loop_rows (lo := k) (hi := m) (fun i j => if j = k then some (-(u i)) else F2 i j) k1 ?_).bind fun d3 hd3 => ?_
      · intro i d' F' h1 h2 hF' hsame
        rw [hF'.rd (x := u i) h2 (by omega) (by rw [hsame i k (by omega), k3 i k (by omega), (hu i h1 h2).1]), ok_bind]
        refine (hF'.wr h2 (by omega) _).mono fun d'' h => h.congr fun r c _ _ => ?_
        have := hsame i c (by omega)
        unfold upd
        grind
      rw [hd3.rd (i := k) (j := k) (x := -(u k)) (by omega) (by omega) (by rw [if_pos ⟨le_rfl, by omega⟩, if_pos rfl]), ok_bind]
      refine (hd3.wr (i := k) (j := k) (by omega) (by omega) _).bind fun d4 hd4 => ?_
      refine (loop_rows (lo := 0) (hi := k) (fun i j => if j = k then some 0 else F2 i j) hd4 ?_).mono fun d5 hd5 => ?_
      · intro i d' F' h1 h2 hF' hsame
        refine (hF'.wr (show i < m by omega) (show k < m by omega) 0).mono fun d'' h => h.congr fun r c _ _ => ?_
        have := hsame i c (by omega)
        unfold upd at *
        grind
      refine ⟨_, hd5, fun i j h1 h2 h3 => ?_, fun i j h1 => ?_⟩
      · by_cases e : j = k
        · subst e
          by_cases e1 : i < j
          · rw [if_pos (by omega), if_pos rfl, if_neg (by omega)]
            exact ⟨_, rfl, Agree.refl _⟩
          · rw [if_neg (by omega)]
            by_cases e2 : i = j
            · subst e2
              rw [upd_same, if_pos rfl, (hu i le_rfl h1).2.1 rfl, one_sub_two, hdu]
              exact ⟨_, rfl, Agree.refl _⟩
            · rw [upd_ne (by tauto), if_pos ⟨by omega, h1⟩, if_pos rfl, if_neg e2]
              exact ⟨_, rfl, agree_of_zeros (isZero_neg.2 ((hu i (by omega) h1).2.2 e2)) (show F64.isZero (0 : F64) from rfl)⟩
        · have := k2 i j h1 (by omega) h3
          by_cases e1 : i < k
          · rw [if_pos (by omega), if_neg e]; exact this
          · rw [if_neg (by omega), upd_ne (by tauto), if_pos ⟨by omega, h1⟩, if_neg e]; exact this
      · have e0 : j ≠ k := by omega
        have := k3 i j (by omega)
        unfold upd
        grind
  · rintro d ⟨F1, g1, g2, -⟩
    choose! Z hZ using g2
    refine ⟨Z, g1.congr fun i j hi hj => (hZ i j hi (Nat.zero_le _) hj).1, fun i j hi hj => (hZ i j hi (Nat.zero_le _) hj).2⟩

theorem genV_diag {n nrt : Nat} {eb vb : Buf F64} {e : Nat → F64} {V : Nat → Nat → Option F64} (he : Vect eb n fun j => some (e j))
    (h0 : ∀ j, j < n → F64.isZero (e j)) (hV : Grid vb n n V) :
    Post (genV n nrt eb vb) fun v => Grid v n n (fun i j => some (if i = j then (1 : F64) else 0)) := by
  unfold genV
  refine (loopRev_post (lo := 0) (hi := n) (fun k d => ∃ F, Grid d n n F ∧ ∀ i j, i < n → k ≤ j → j < n → F i j = some (if i = j then 1 else 0)) (Nat.zero_le _)
    ⟨V, hV, fun i j _ h1 h2 => by omega⟩ ?_).mono fun d ⟨F, g1, g2⟩ => g1.congr fun i j hi hj => g2 i j hi (Nat.zero_le _) hj
  rintro k d - hk ⟨F, g1, g2⟩
  have : (do
      if k < nrt then
        if !(FloatOps.eq (← rd eb k) 0) then loop (k + 1) n d fun j v => reflectCol n (k + 1) k j v else return d
      else return d : R (Buf F64)) = .ok d := by
    split
    · rw [he.rd hk rfl, ok_bind, eq_zero_iff.2 (h0 k hk)]; rfl
    · rfl
  rw [this, ok_bind]
  refine (unitCol_f64 g1 hk).mono fun d' hd' => ⟨_, hd', fun i j hi h1 h2 => ?_⟩
  by_cases e : j = k
  · subst e; rw [if_pos rfl]
  · rw [if_neg e]; exact g2 i j hi (by omega) h2

end SVD.Dg
end LA
