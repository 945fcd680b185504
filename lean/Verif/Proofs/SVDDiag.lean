import Verif.Props.QRSigns
import Verif.Proofs.SVDNew

/-! # `SVD::new` on a diagonal `f64` matrix: the reduction to bidiagonal form finds nothing to do -/

set_option linter.unusedSectionVars false

namespace LA
open F64 Props
namespace SVD.Dg

theorem add_zero_agree (a : F64) {z : F64} (hz : F64.isZero z) : Agree (a + z) a := by
  have := sub_zero_agree a (isZero_neg.2 hz)
  change Agree (a + - -z) a at this
  rwa [neg_neg] at this

theorem add_zeros {a b : F64} (ha : F64.isZero a) (hb : F64.isZero b) : F64.isZero (a + b) := (agree_zero (add_zero_agree a hb)).2 ha

theorem fin_zero {z : F64} (h : F64.isZero z) : z.isFin := (fin_of_zero h).1

theorem zero_div_fin {z y : F64} (hz : F64.isZero z) (hy : y.isFin) (h0 : ¬ F64.isZero y) : F64.isZero (F64.div z y) := by
  obtain ⟨s, rfl⟩ := isZero_iff.1 hz
  rcases y with _ | t | ⟨t, b, hb⟩
  · exact absurd hy (by simp [F64.isFin])
  · exact absurd hy (by simp [F64.isFin])
  · have h0 : b ≠ 0 := h0
    unfold F64.zero
    rw [div_fin, if_neg h0, Nat.zero_mul, mk_zero _ (Nat.pos_of_ne_zero h0)]
    rfl

theorem div_self' {x : F64} (hx : x.isFin) (h0 : ¬ F64.isZero x) : F64.div x x = 1 := by
  rcases x with _ | t | ⟨t, b, hb⟩
  · exact absurd hx (by simp [F64.isFin])
  · exact absurd hx (by simp [F64.isFin])
  · have h0 : b ≠ 0 := h0
    rw [div_fin, if_neg h0, Nat.mul_comm]
    have : (t != t) = false := by cases t <;> rfl
    rw [this]
    exact mk_exact (Nat.pos_of_ne_zero h0) (by decide +kernel)

theorem sqrt_one' {r : F64} (h : F64.isZero r) : F64.sqrt (1 + r * r) = 1 := by
  obtain ⟨s, rfl⟩ := isZero_iff.1 h
  cases s <;> decide +kernel

theorem hyp_left {z x : F64} (hz : F64.isZero z) (hx : x.isFin) : hypot z x = .ok (F64.abs x) := by
  unfold hypot
  have h1 : (FloatOps.lt (FloatOps.abs x) (FloatOps.abs z) : Bool) = false := by
    obtain ⟨s, rfl⟩ := isZero_iff.1 hz
    rcases x with _ | t | ⟨t, b, hb⟩
    · rfl
    · rfl
    · show decide (sgn false b < sgn false 0) = false
      rw [decide_eq_false]
      simp [sgn]
  rw [h1]
  by_cases h0 : F64.isZero x
  · rw [eq_zero_iff.2 h0]
    obtain ⟨s, rfl⟩ := isZero_iff.1 h0
    cases s <;> rfl
  · rw [not_zero.2 h0]
    show (Except.ok (F64.abs x * F64.sqrt (1 + F64.div z x * F64.div z x)) : R F64) = _
    rw [sqrt_one' (zero_div_fin hz hx h0), mul_one]

theorem hyp_right {x z : F64} (hz : F64.isZero z) (hx : x.isFin) : hypot x z = .ok (F64.abs x) := by
  by_cases h0 : F64.isZero x
  · rw [hyp_left h0 (fin_zero hz)]
    obtain ⟨s, rfl⟩ := isZero_iff.1 h0
    obtain ⟨t, rfl⟩ := isZero_iff.1 hz
    cases s <;> cases t <;> rfl
  · unfold hypot
    have h1 : (FloatOps.lt (FloatOps.abs z) (FloatOps.abs x) : Bool) = true := by
      obtain ⟨s, rfl⟩ := isZero_iff.1 hz
      rcases x with _ | t | ⟨t, b, hb⟩
      · exact absurd hx (by simp [F64.isFin])
      · rfl
      · have h0 : b ≠ 0 := h0
        show decide (sgn false 0 < sgn false b) = true
        rw [decide_eq_true]
        simp [sgn]; omega
    rw [h1]
    show (Except.ok (F64.abs x * F64.sqrt (1 + F64.div z x * F64.div z x)) : R F64) = _
    rw [sqrt_one' (zero_div_fin hz hx h0), mul_one]

theorem abs_abs' (x : F64) : F64.abs (F64.abs x) = F64.abs x := by rcases x with _ | s | ⟨s, a, ha⟩ <;> rfl
theorem abs_fin {x : F64} (h : x.isFin) : (F64.abs x).isFin := ((Fp.abs x).1).2 h
theorem abs_zero {x : F64} : F64.isZero (F64.abs x) ↔ F64.isZero x := by rcases x with _ | s | ⟨s, a, ha⟩ <;> exact Iff.rfl
theorem neg_fin' {x : F64} (h : x.isFin) : (-x).isFin := (Fp.neg x h).1

/-- The sign of a nonzero finite number and its absolute value. -/
theorem signed_abs {x : F64} (hx : x.isFin) (h0 : ¬ F64.isZero x) : (if FloatOps.lt x 0 then -F64.abs x else F64.abs x) = x := by
  rcases x with _ | t | ⟨t, b, hb⟩
  · exact absurd hx (by simp [F64.isFin])
  · exact absurd hx (by simp [F64.isFin])
  · have h0 : b ≠ 0 := h0
    have e : (FloatOps.lt (F64.fin t b hb) 0 : Bool) = decide (sgn t b < 0) := rfl
    rw [e]
    cases t
    · rw [decide_eq_false (by simp [sgn])]; rfl
    · rw [decide_eq_true (by simp [sgn]; omega)]; rfl

theorem one_one : (1 : F64) + 1 = dec 2 0 := by decide +kernel
theorem two_ne : ¬ F64.isZero (dec 2 0) := by rw [← not_zero]; decide +kernel
theorem two_fin : (dec 2 0).isFin := by decide +kernel

/-- A sum of zeros. -/
theorem loop_zeros {lo hi : Nat} (hle : lo ≤ hi) {x : Nat → F64} {f : Nat → F64 → R F64} (hf : ∀ t s, lo ≤ t → t < hi → f t s = .ok (s + x t))
    (hx : ∀ t, lo ≤ t → t < hi → F64.isZero (x t)) : Post (loop lo hi (0 : F64) f) fun s => F64.isZero s := by
  refine loop_post (fun _ s => F64.isZero s) hle rfl fun t s h1 h2 hs => ?_
  rw [hf t s h1 h2]
  exact Post.ok (add_zeros hs (hx t h1 h2))

/-- The `k`-th column from the diagonal down. -/
theorem colTransform_diag {m n k : Nat} {a : List F64} {s : Buf F64} {G : Nat → Nat → F64} {S : Nat → Option F64} (ha : Grid a m n G)
    (hs : Vect s n S) (hk : k < n) (hkm : k < m) (hoff : ∀ i, k < i → i < m → F64.isZero (G i k)) (hfin : (G k k).isFin) :
    Post (colTransform m n k a s) fun x => ∃ G' z, Grid x.1 m n G' ∧ Vect x.2 n (updv S k (some z)) ∧ Agree z (-(G k k)) ∧
      (∀ i j, j ≠ k ∨ i < k → G' i j = G i j) ∧ (∀ i, k < i → i < m → F64.isZero (G' i k)) ∧ (¬ F64.isZero (G k k) → G' k k = dec 2 0) := by
  unfold colTransform
  obtain ⟨s0, hs0, hv0⟩ := hs.wr hk 0
  rw [hs0, ok_bind]
  have hl : Post (loop k m s0 fun i s => do wr s k (← hypot (← rd s k) (← idx a (i * n + k)))) fun s => Vect s n (updv S k (some (F64.abs (G k k)))) := by
    refine (loop_post (fun i s => Vect s n (updv S k (some (if i = k then 0 else F64.abs (G k k))))) hkm.le (by rw [if_pos rfl]; exact hv0)
      fun i s h1 h2 hv => ?_).mono fun s hv => by rwa [if_neg (by omega)] at hv
    rw [hv.rd hk (updv_same _ _ _), ok_bind, ha.idx h2 hk, ok_bind]
    have hh : hypot (if i = k then 0 else F64.abs (G k k)) (G i k) = .ok (F64.abs (G k k)) := by
      by_cases e : i = k
      · subst e
        rw [if_pos rfl, hyp_left (show F64.isZero (0 : F64) from rfl) hfin]
      · rw [if_neg e, hyp_right (hoff i (by omega) h2) (abs_fin hfin), abs_abs']
    rw [hh, ok_bind]
    refine (hv.wr hk _).mono fun s' h => h.congr fun j _ => ?_
    rw [if_neg (show ¬ i + 1 = k by omega)]
    unfold updv
    split <;> rfl
  obtain ⟨s1, hs1, hv1⟩ := hl
  rw [hs1, ok_bind]
  simp only [hv1.rd hk (updv_same _ _ _), ok_bind]
  by_cases h0 : F64.isZero (G k k)
  · rw [eq_zero_iff.2 (abs_zero.2 h0)]
    simp only [Bool.not_true, Bool.false_eq_true, if_false, pure_eq_ok, ok_bind]
    rw [hv1.rd hk (updv_same _ _ _), ok_bind]
    refine (hv1.wr hk _).bind fun s2 hv2 => Post.ok ⟨G, -F64.abs (G k k), ha, hv2.congr fun j _ => ?_, ?_, fun _ _ _ => rfl, hoff, fun h => absurd h0 h⟩
    · unfold updv; split <;> rfl
    · exact Or.inr ⟨isZero_neg.2 (abs_zero.2 h0), isZero_neg.2 h0⟩
  · rw [not_zero.2 (fun h => h0 (abs_zero.1 h))]
    simp only [Bool.not_false, if_true, ha.idx hkm hk, ok_bind]
    have hsg : Post (do if FloatOps.lt (G k k) 0 then wr s1 k (-(F64.abs (G k k))) else return s1) fun s => Vect s n (updv S k (some (G k k))) := by
      have hsa := signed_abs hfin h0
      split
      · rename_i h
        rw [if_pos h] at hsa
        refine (hv1.wr hk _).mono fun s hv => hv.congr fun j _ => ?_
        rw [hsa]; unfold updv; split <;> rfl
      · rename_i h
        rw [if_neg h] at hsa
        rw [hsa] at hv1
        exact Post.ok hv1
    obtain ⟨s2, hs2, hv2⟩ := hsg
    rw [hs2, ok_bind]
    have hcol : Post (loop k m a fun i a => do setIdx a (i * n + k) (← RDiv.rdiv (← idx a (i * n + k)) (← rd s2 k))) fun a' => Grid a' m n
        fun i j => if k ≤ i ∧ i < m then (if j = k then F64.div (G i k) (G k k) else G i j) else G i j := by
      refine loop_rows (fun i j => if j = k then F64.div (G i k) (G k k) else G i j) ha fun i d' G' h1 h2 hG' hsame => ?_
      rw [hG'.idx h2 hk, ok_bind, hv2.rd hk (updv_same _ _ _), ok_bind]
      show Post (setIdx d' (i * n + k) (F64.div (G' i k) (G k k))) _
      refine (hG'.setIdx h2 hk _).mono fun d'' h => h.congr fun r c _ _ => ?_
      have := hsame i c (by omega)
      have := hsame i k (by omega)
      unfold upd
      grind
    obtain ⟨a1, ha1, hg1⟩ := hcol
    rw [ha1, ok_bind, hg1.idx hkm hk, ok_bind]
    obtain ⟨a2, ha2, hg2⟩ := hg1.setIdx hkm hk ((if k ≤ k ∧ k < m then (if k = k then F64.div (G k k) (G k k) else G k k) else G k k) + 1)
    rw [ha2]
    simp only [pure_eq_ok, ok_bind]
    rw [hv2.rd hk (updv_same _ _ _), ok_bind]
    refine (hv2.wr hk _).bind fun s3 hv3 => Post.ok ⟨_, -(G k k), hg2, hv3.congr fun j _ => ?_, Agree.refl _, fun i j hj => ?_, fun i h1 h2 => ?_, fun _ => ?_⟩
    · unfold updv; split <;> rfl
    · unfold upd; grind
    · rw [upd_ne (by omega), if_pos ⟨h1.le, h2⟩, if_pos rfl]
      exact zero_div_fin (hoff i h1 h2) hfin h0
    · rw [upd_same, if_pos ⟨le_rfl, hkm⟩, if_pos rfl, div_self' hfin h0, one_one]

/-- The reflection of a later column changes nothing (but signs of zeros). -/
theorem applyCol_diag {m n k j : Nat} {a : List F64} {G : Nat → Nat → F64} (ha : Grid a m n G) (hk : k < n) (hkm : k < m) (hj : j < n) (hkj : k < j)
    (h2 : G k k = dec 2 0) (hoff : ∀ i, k < i → i < m → F64.isZero (G i k)) (hoffj : ∀ i, i < m → i ≠ j → F64.isZero (G i j))
    (hfin : j < m → (G j j).isFin) :
    Post (applyCol m n k j a) fun a' => ∃ G', Grid a' m n G' ∧ (∀ i c, c ≠ j → G' i c = G i c) ∧ ∀ i, i < m → Agree (G' i j) (G i j) := by
  unfold applyCol
  have hf : ∀ i, k ≤ i → i < m → F64.isZero (G i k * G i j) := by
    intro i h1 h3
    by_cases e : i = k
    · subst e
      rw [h2, mul_comm]
      exact zero_mul_fin (hoffj i h3 (by omega)) two_fin
    · by_cases e2 : i = j
      · subst e2; exact zero_mul_fin (hoff i (by omega) h3) (hfin h3)
      · exact zero_mul_fin (hoff i (by omega) h3) (fin_zero (hoffj i h3 e2))
  refine (loop_zeros hkm.le (x := fun i => G i k * G i j) (fun t s h1 h3 => by rw [ha.idx h3 hk, ha.idx h3 hj]; rfl) hf).bind fun t ht => ?_
  rw [ha.idx hkm hk, ok_bind, h2]
  show Post (loop k m a fun i a => _) _
  have ht2 : F64.isZero (F64.div (-t) (dec 2 0)) := zero_div_fin (isZero_neg.2 ht) two_fin two_ne
  have hgk : ∀ i, k ≤ i → i < m → (G i k).isFin := by
    intro i h1 h3
    by_cases e : i = k
    · subst e; rw [h2]; exact two_fin
    · exact fin_zero (hoff i (by omega) h3)
  refine (loop_rows (fun i c => if c = j then G i j + F64.div (-t) (dec 2 0) * G i k else G i c) ha fun i d' G' h1 h3 hG' hsame => ?_).mono
    fun d' hd' => ⟨_, hd', fun i c hc => ?_, fun i hi => ?_⟩
  · rw [hG'.idx h3 hj, ok_bind, hG'.idx h3 hk, ok_bind]
    refine (hG'.setIdx h3 hj _).mono fun d'' h => h.congr fun r c _ _ => ?_
    have := hsame i c (by omega)
    have := hsame i k (by omega)
    have := hsame i j (by omega)
    unfold upd
    grind
  · grind
  · by_cases h1 : k ≤ i
    · rw [if_pos ⟨h1, hi⟩, if_pos rfl]
      exact add_zero_agree _ (zero_mul_fin ht2 (hgk i h1 hi))
    · rw [if_neg (by omega)]; exact Agree.refl _

/-- The later columns; row `k` is copied to `e`. -/
theorem applyCols_diag {m n nct k : Nat} {a : List F64} {s e : Buf F64} {G : Nat → Nat → F64} {S E : Nat → Option F64} {z : F64} (ha : Grid a m n G)
    (hs : Vect s n S) (he : Vect e n E) (hk : k < n) (hkm : k < m) (hz : S k = some z) (h2 : ¬ F64.isZero z → G k k = dec 2 0)
    (hoff : ∀ i, k < i → i < m → F64.isZero (G i k)) (hoffj : ∀ i j, i < m → k < j → j < n → i ≠ j → F64.isZero (G i j))
    (hfin : ∀ j, k < j → j < m → j < n → (G j j).isFin) :
    Post (applyCols m n nct k a s e) fun x => ∃ G' E', Grid x.1 m n G' ∧ Vect x.2 n E' ∧ (∀ i j, j ≤ k → G' i j = G i j) ∧
      (∀ i j, i < m → j < n → Agree (G' i j) (G i j)) ∧ (∀ j, j ≤ k → E' j = E j) ∧ ∀ j, k < j → j < n → ∃ y, E' j = some y ∧ F64.isZero y := by
  unfold applyCols
  refine (loop_post (s := (a, e)) (fun c (x : List F64 × Buf F64) => ∃ G' E', Grid x.1 m n G' ∧ Vect x.2 n E' ∧ (∀ i j, j ≤ k → G' i j = G i j) ∧
      (∀ i j, i < m → j < n → Agree (G' i j) (G i j)) ∧ (∀ j, j ≤ k → E' j = E j) ∧ ∀ j, k < j → j < c → ∃ y, E' j = some y ∧ F64.isZero y)
      (show k + 1 ≤ n from hk) ⟨G, E, ha, he, fun _ _ _ => rfl, fun _ _ _ _ => Agree.refl _, fun _ _ => rfl, fun j h1 h2 => by omega⟩ ?_)
  rintro j ⟨a', e'⟩ h1 hj ⟨G', E', g1, g2, g3, g4, g5, g6⟩
  dsimp only at g1 g2 ⊢
  have key : Post (do
      if k < nct then
        if !(FloatOps.eq (← rd s k) 0) then applyCol m n k j a' else return a'
      else return a') fun a'' => ∃ H, Grid a'' m n H ∧ (∀ i j, j ≤ k → H i j = G i j) ∧ ∀ i j, i < m → j < n → Agree (H i j) (G i j) := by
    split
    · rw [hs.rd hk hz, ok_bind]
      by_cases h0 : F64.isZero z
      · rw [eq_zero_iff.2 h0]; exact Post.ok ⟨G', g1, g3, g4⟩
      · rw [not_zero.2 h0]
        refine (applyCol_diag g1 hk hkm hj (by omega) (by rw [g3 k k le_rfl, h2 h0]) (fun i h3 h4 => by rw [g3 i k le_rfl]; exact hoff i h3 h4)
          (fun i h3 h4 => (agree_zero (g4 i j h3 hj)).2 (hoffj i j h3 (by omega) hj h4))
          (fun h3 => agree_fin (g4 j j h3 hj) (hfin j (by omega) h3 hj))).mono fun a'' ⟨H, k1, k2, k3⟩ => ⟨H, k1, fun i c hc => ?_, fun i c hi hc => ?_⟩
        · rw [k2 i c (by omega), g3 i c hc]
        · by_cases e : c = j
          · subst e; exact (k3 i hi).trans (g4 i c hi hc)
          · rw [k2 i c e]; exact g4 i c hi hc
    · exact Post.ok ⟨G', g1, g3, g4⟩
  refine key.bind fun a'' ⟨H, k1, k2, k3⟩ => ?_
  rw [k1.idx hkm hj, ok_bind]
  refine (g2.wr hj _).bind fun e'' he'' => Post.ok ⟨H, _, k1, he'', k2, k3, fun c hc => ?_, fun c h3 h4 => ?_⟩
  · rw [updv_ne (by omega), g5 c hc]
  · by_cases e : c = j
    · subst e
      exact ⟨_, updv_same _ _ _, (agree_zero (k3 k c hkm hj)).2 (hoffj k c hkm h3 hj (by omega))⟩
    · rw [updv_ne e]; exact g6 c h3 (by omega)

/-- The row transformation of a row of zeros. -/
theorem rowTransform_diag {n k : Nat} {e : Buf F64} {E : Nat → Option F64} (he : Vect e n E) (hk : k < n)
    (h0 : ∀ j, k < j → j < n → ∃ y, E j = some y ∧ F64.isZero y) :
    Post (rowTransform n k e) fun e' => ∃ z, F64.isZero z ∧ Vect e' n (updv E k (some z)) := by
  unfold rowTransform
  obtain ⟨e0, he0, hv0⟩ := he.wr hk 0
  rw [he0, ok_bind]
  have hl : Post (loop (k + 1) n e0 fun i e => do wr e k (← hypot (← rd e k) (← rd e i))) fun e => Vect e n (updv E k (some 0)) := by
    refine loop_post_const (fun e => Vect e n (updv E k (some 0))) hv0 fun i e h1 h2 hv => ?_
    obtain ⟨y, hy, hy0⟩ := h0 i (by omega) h2
    rw [hv.rd hk (updv_same _ _ _), ok_bind, hv.rd h2 (by rw [updv_ne (by omega), hy]), ok_bind, hyp_left (show F64.isZero (0 : F64) from rfl) (fin_zero hy0),
      ok_bind]
    refine (hv.wr hk _).mono fun e' h => h.congr fun j _ => ?_
    obtain ⟨s, rfl⟩ := isZero_iff.1 hy0
    have : F64.abs (F64.zero s) = 0 := by cases s <;> rfl
    rw [this]
    unfold updv
    split <;> rfl
  obtain ⟨e1, he1, hv1⟩ := hl
  rw [he1, ok_bind, hv1.rd hk (updv_same _ _ _), ok_bind]
  have : (FloatOps.eq (0 : F64) 0 : Bool) = true := by decide
  rw [this]
  simp only [Bool.not_true, Bool.false_eq_true, if_false, pure_eq_ok, ok_bind]
  rw [hv1.rd hk (updv_same _ _ _), ok_bind]
  refine (hv1.wr hk _).mono fun e2 h => ⟨-(0 : F64), (show F64.isZero (-(0 : F64)) from rfl), h.congr fun j _ => ?_⟩
  unfold updv
  split <;> rfl

/-- The state after `k` steps. -/
structure Inv (m n nrt : Nat) (D : Nat → F64) (k : Nat) (b : Bid F64) : Prop where
  a : ∃ G, Grid b.a m n G ∧ (∀ i j, i < m → k ≤ j ∨ i < j → j < n → i ≠ j → F64.isZero (G i j)) ∧ ∀ j, k ≤ j → j < n → Agree (G j j) (D j)
  s : ∃ S, Vect b.s n S ∧ ∀ j, j < k → ∃ x, S j = some x ∧ Agree x (-(D j))
  e : ∃ E, Vect b.e n E ∧ ∀ j, j < k → j < nrt → ∃ x, E j = some x ∧ F64.isZero x
  u : ∃ U, Grid b.u m m U ∧ ∀ j, j < k → ¬ F64.isZero (D j) → ∀ i, j ≤ i → i < m → ∃ x, U i j = some x ∧ (i = j → x = dec 2 0) ∧ (i ≠ j → F64.isZero x)
  v : ∃ V, Grid b.v n n V
  w : ∃ W, Vect b.w m W

theorem bidStep_diag {m n nct nrt k : Nat} {D : Nat → F64} (hD : ∀ j, j < n → (D j).isFin) {b : Bid F64} (hb : Inv m n nrt D k b) (hk : k < nct)
    (hn : nct ≤ n) (hm : nct ≤ m) (hnm : n ≤ m) (hr : nrt + 1 ≤ n) : Post (bidStep m n nct nrt k b) (Inv m n nrt D (k + 1)) := by
  obtain ⟨⟨G, g1, g2, g3⟩, ⟨S, s1, s2⟩, ⟨E, e1, e2⟩, ⟨U, u1, u2⟩, ⟨V, v1⟩, ⟨W, w1⟩⟩ := hb
  have hkn : k < n := by omega
  have hkm : k < m := by omega
  unfold bidStep
  rw [if_pos hk]
  refine (colTransform_diag g1 s1 hkn hkm (fun i h1 h2 => g2 i k h2 (Or.inl le_rfl) hkn (by omega)) (agree_fin (g3 k le_rfl hkn) (hD k hkn))).bind ?_
  rintro ⟨a, s⟩ ⟨H, z, h1, h2, h3, h4, h5, h6⟩
  dsimp only at h1 h2 ⊢
  have hz : Agree z (-(D k)) := h3.trans (g3 k le_rfl hkn).neg
  have hz0 : F64.isZero z ↔ F64.isZero (D k) := (agree_zero hz).trans isZero_neg
  have hg0 : F64.isZero (G k k) ↔ F64.isZero (D k) := agree_zero (g3 k le_rfl hkn)
  refine (applyCols_diag (nct := nct) h1 h2 e1 hkn hkm (updv_same _ _ _) (fun h => h6 fun h' => h (hz0.2 (hg0.1 h'))) h5
    (fun i j hi hj hjn hij => by rw [h4 i j (by omega)]; exact g2 i j hi (by omega) hjn hij)
    (fun j hj hjm hjn => by rw [h4 j j (by omega)]; exact agree_fin (g3 j (by omega) hjn) (hD j hjn))).bind ?_
  rintro ⟨a', e'⟩ ⟨H', E', k1, k2, k3, k4, k5, k6⟩
  dsimp only at k1 k2 ⊢
  rw [if_pos hk]
  have hu : Post (loop k m b.u fun i u => do wr u (i * m + k) (← idx a' (i * n + k))) fun u => Grid u m m
      fun i j => if k ≤ i ∧ i < m then (if j = k then some (H' i k) else U i j) else U i j := by
    refine loop_rows (fun i j => if j = k then some (H' i k) else U i j) u1 fun i d' F' h1 h2 hF' hsame => ?_
    rw [k1.idx h2 hkn, ok_bind]
    refine (hF'.wr h2 hkm _).mono fun d'' h => h.congr fun r c _ _ => ?_
    have := hsame i c (by omega)
    unfold upd
    grind
  refine hu.bind fun u hu => ?_
  have fin' : ∀ {b' : Bid F64} {E' : Nat → Option F64} {V' : Nat → Nat → Option F64}, b'.a = a' → b'.s = s → b'.u = u → Vect b'.e n E' →
      (∀ j, j < k + 1 → j < nrt → ∃ x, E' j = some x ∧ F64.isZero x) → Grid b'.v n n V' → b'.w = b.w → Inv m n nrt D (k + 1) b' := by
    intro b' E'' V' ba bs bu be be' bv bw
    refine ⟨⟨H', by rw [ba]; exact k1, fun i j hi hj hjn hij => ?_, fun j hj hjn => ?_⟩, ⟨_, by rw [bs]; exact h2, fun j hj => ?_⟩, ⟨E'', be, be'⟩,
      ⟨_, by rw [bu]; exact hu, fun j hj hj0 i hi him => ?_⟩, ⟨V', bv⟩, ⟨W, by rw [bw]; exact w1⟩⟩
    · rw [agree_zero (k4 i j hi hjn), h4 i j (by omega)]
      exact g2 i j hi (by omega) hjn hij
    · have := k4 j j (by omega) hjn
      rw [h4 j j (by omega)] at this
      exact this.trans (g3 j (by omega) hjn)
    · by_cases e : j = k
      · subst e; exact ⟨z, updv_same _ _ _, hz⟩
      · rw [updv_ne e]; exact s2 j (by omega)
    · by_cases e : j = k
      · subst e
        refine ⟨H' i j, by rw [if_pos ⟨hi, him⟩, if_pos rfl], fun h => ?_, fun h => ?_⟩
        · subst h
          rw [k3 i i le_rfl]
          exact h6 fun h' => hj0 (hg0.1 h')
        · rw [k3 i j le_rfl]
          exact h5 i (by omega) him
      · obtain ⟨x, hx⟩ := u2 j (by omega) hj0 i hi him
        refine ⟨x, ?_, hx.2⟩
        rw [if_neg e, ite_self]
        exact hx.1
  by_cases hkr : k < nrt
  · rw [if_pos hkr]
    refine (rowTransform_diag k2 hkn k6).bind fun e3 ⟨z3, hz3, hv3⟩ => ?_
    have hrow : applyRow m n k a' e3 b.w = .ok (a', b.w) := by
      unfold applyRow
      split
      · rw [hv3.rd hkn (updv_same _ _ _), ok_bind, eq_zero_iff.2 hz3]; rfl
      · rfl
    rw [hrow, ok_bind]
    have hv : Post (loop (k + 1) n b.v fun i v => do wr v (i * n + k) (← rd e3 i)) fun v => ∃ V', Grid v n n V' := by
      refine loop_post_const (fun v => ∃ V', Grid v n n V') ⟨V, v1⟩ fun i v hi hi' ⟨V', hV'⟩ => ?_
      obtain ⟨y, hy, -⟩ := k6 i (by omega) hi'
      rw [hv3.rd hi' (by rw [updv_ne (by omega), hy]), ok_bind]
      exact (hV'.wr hi' hkn _).mono fun v' h => ⟨_, h⟩
    refine hv.bind fun v ⟨V', hV'⟩ => Post.ok (fin' rfl rfl rfl hv3 (fun j hj hjr => ?_) hV' rfl)
    by_cases e : j = k
    · subst e; exact ⟨z3, updv_same _ _ _, hz3⟩
    · rw [updv_ne e, k5 j (by omega)]; exact e2 j (by omega) hjr
  · rw [if_neg hkr]
    exact Post.ok (fin' rfl rfl rfl k2 (fun j hj hjr => by rw [k5 j (by omega)]; exact e2 j (by omega) hjr) v1 rfl)

end SVD.Dg
end LA
