import Verif.Proofs.StdHouse

/-! # The reduction to bidiagonal form in `SVD::new`, in rounded arithmetic: the transformations -/

set_option linter.unusedSectionVars false

namespace LA
open Finset Matrix
namespace Std
open Sfp SVD

variable {α : Type} [Zero α] [One α] [Add α] [Sub α] [Neg α] [Mul α] [FloatOps α] [Sfp α]

/-- The computed hypotenuse. -/
def hyp (a b : α) : α := match hypot a b with
  | .ok t => t
  | .error _ => a

theorem hyp_ok (a b : α) : hypot a b = .ok (hyp a b) ∧ Rt (w α) 4 (val (hyp a b)) (Real.sqrt (val a ^ 2 + val b ^ 2)) := by
  obtain ⟨t, h1, h2⟩ := hypot_rt a b
  unfold hyp
  rw [h1]
  exact ⟨rfl, h2⟩

/-- The computed norm of `x` on `lo..i`. -/
def nrm (lo : Nat) (x : Nat → α) (i : Nat) : α := facc hyp 0 (fun t => x (lo + t)) (i - lo)

theorem nrm_succ {lo i : Nat} (x : Nat → α) (h : lo ≤ i) : nrm lo x (i + 1) = hyp (nrm lo x i) (x i) := by
  unfold nrm
  rw [show i + 1 - lo = (i - lo) + 1 by omega, facc, show lo + (i - lo) = i by omega]

theorem nrm_self (lo : Nat) (x : Nat → α) : nrm lo x lo = 0 := by rw [nrm, Nat.sub_self, facc]

theorem nrm_rt {lo : Nat} (x : Nat → α) : ∀ i, lo ≤ i →
    Rt (w α) (4 * (i - lo)) (val (nrm lo x i)) (Real.sqrt (∑ t ∈ Ico lo i, val (x t) ^ 2)) := by
  intro i hi
  have hw : 1 ≤ w α := w_one
  induction i, hi using Nat.le_induction with
  | base => rw [nrm_self, Sfp.zero, Finset.Ico_self, Finset.sum_empty, Real.sqrt_zero]; exact (Rt.refl 0).mono hw (by omega)
  | succ i hi ih =>
    rw [nrm_succ x hi, Finset.sum_Ico_succ_top hi]
    have h1 := (hyp_ok (nrm lo x i) (x i)).2
    have h2 : Rt (w α) (2 * (4 * (i - lo))) (val (nrm lo x i) ^ 2 + val (x i) ^ 2) (∑ t ∈ Ico lo i, val (x t) ^ 2 + val (x i) ^ 2) := by
      refine Rt.add hw ?_ ((Rt.refl (val (x i) ^ 2)).mono hw (by omega)) (sum_sq_nonneg lo i fun t => val (x t)) (sq_nonneg _)
      have := ih.mul hw ih
      rw [Real.mul_self_sqrt (sum_sq_nonneg lo i fun t => val (x t)), ← sq] at this
      exact this.mono hw (by omega)
    exact (h1.trans hw (h2.sqrt hw)).mono hw (by omega)

/-- The computed signed norm. -/
def sgnm (lo N : Nat) (x : Nat → α) : α := if FloatOps.lt (x lo) 0 then -(nrm lo x N) else nrm lo x N

/-- The computed reflection vector. -/
def hvec (lo N : Nat) (x : Nat → α) (i : Nat) : α :=
  if FloatOps.eq (nrm lo x N) 0 then x i else if i = lo then dv (x i) (sgnm lo N x) + 1 else dv (x i) (sgnm lo N x)

/-- The computed image. -/
def himg (lo N : Nat) (x : Nat → α) : α := if FloatOps.eq (nrm lo x N) 0 then -(nrm lo x N) else -(sgnm lo N x)

theorem eq_zero_iff {x : α} : FloatOps.eq x 0 = true ↔ val x = 0 := by rw [Sfp.eq, Sfp.zero]

theorem sgnm_ne {lo N : Nat} {x : Nat → α} (h : val (nrm lo x N) ≠ 0) : val (sgnm lo N x) ≠ 0 := by
  unfold sgnm
  split
  · rw [Sfp.neg]; exact neg_ne_zero.2 h
  · exact h

theorem hvec_ok {lo N : Nat} (x : Nat → α) (hlo : lo < N) :
    ∃ a g, HVr (4 * N + 2) lo N (fun i => val (x i)) a g (hvec lo N x) (himg lo N x) := by
  have hw : 1 ≤ w α := w_one
  have hn := nrm_rt x N hlo.le
  by_cases h0 : val (nrm lo x N) = 0
  · have h1 : Real.sqrt (∑ t ∈ Ico lo N, val (x t) ^ 2) = 0 := (hn.zero_iff hw).1 h0
    have hz := (Real.sqrt_eq_zero (sum_sq_nonneg lo N fun t => val (x t))).1 h1
    have hv := house_zero hlo hz
    refine ⟨fun i => val (x i), 0, hv, (hv.zero rfl lo le_rfl hlo).ge, fun t _ _ => ?_, ?_⟩
    · unfold hvec
      rw [if_pos (eq_zero_iff.2 h0)]
      exact (Rt.refl _).mono hw (by omega)
    · unfold himg
      rw [if_pos (eq_zero_iff.2 h0), Sfp.neg, h0, neg_zero]
      exact (Rt.refl _).mono hw (by omega)
  · have hr : Real.sqrt (∑ t ∈ Ico lo N, val (x t) ^ 2) ≠ 0 := fun h => h0 ((hn.zero_iff hw).2 h)
    obtain ⟨g0, g2, g3⟩ := sgn_facts (x := fun t => val (x t)) hr rfl
    set g : ℝ := if val (x lo) < 0 then -Real.sqrt (∑ t ∈ Ico lo N, val (x t) ^ 2) else Real.sqrt (∑ t ∈ Ico lo N, val (x t) ^ 2) with hg
    have hs : Rt (w α) (4 * N) (val (sgnm lo N x)) g := by
      unfold sgnm
      by_cases h : val (x lo) < 0
      · rw [if_pos ((Sfp.lt _ _).2 (by rw [Sfp.zero]; exact h)), hg, if_pos h, Sfp.neg]
        exact (hn.neg).mono hw (by omega)
      · rw [if_neg (by rw [Sfp.lt, Sfp.zero]; exact h), hg, if_neg h]
        exact hn.mono hw (by omega)
    have hd : ∀ t, Rt (w α) (4 * N + 1) (val (dv (x t) (sgnm lo N x))) (val (x t) / g) := fun t => by
      have h1 := (dv_ok (x t) (sgnm_ne h0)).2
      exact (h1.trans hw ((Rt.refl (val (x t))).div hw hs)).mono hw (by omega)
    have hnz : ¬ (FloatOps.eq (nrm lo x N) 0 = true) := fun h => h0 (eq_zero_iff.1 h)
    refine ⟨fun i => if i = lo then val (x i) / g + 1 else val (x i) / g, -g, house hlo g2 g0 g3 fun _ => rfl, ?_, fun t _ _ => ?_, ?_⟩
    · rw [if_pos rfl]
      have : 0 ≤ val (x lo) / g := g3
      linarith
    · unfold hvec
      rw [if_neg hnz]
      beta_reduce
      by_cases e : t = lo
      · rw [if_pos e, if_pos e]
        have h2 := add_rt (dv (x t) (sgnm lo N x)) 1
        have h3 := (hd t).add hw (x' := Sfp.val (1 : α)) (y' := 1) ((by rw [Sfp.one]; exact (Rt.refl 1).mono hw (by omega))) (by rw [e]; exact g3) zero_le_one
        exact (h2.trans hw h3).mono hw (by omega)
      · rw [if_neg e, if_neg e]
        exact (hd t).mono hw (by omega)
    · unfold himg
      rw [if_neg hnz, Sfp.neg]
      exact hs.neg.mono hw (by omega)

theorem colTransform_post {m n k : Nat} {a : List α} {s : Buf α} {G : Nat → Nat → α} {S : Nat → Option α} (ha : Grid a m n G)
    (hs : Vect s n S) (hk : k < n) (hkm : k < m) :
    Post (colTransform m n k a s) fun r => Grid r.1 m n (fun i j => if j = k ∧ k ≤ i then hvec k m (fun i => G i k) i else G i j) ∧
      Vect r.2 n (updv S k (some (himg k m fun i => G i k))) := by
  unfold colTransform
  set x : Nat → α := fun i => G i k with hx
  refine (hs.wr hk 0).bind fun s1 hs1 => ?_
  have hloop := loop_post (lo := k) (hi := m) (s := s1)
    (f := fun i s => do wr s k (← hypot (← rd s k) (← idx a (i * n + k))))
    (fun i s => Vect s n (updv S k (some (nrm k x i)))) hkm.le (by rw [nrm_self]; exact hs1) (by
      intro i s' h1 h2 hs'
      rw [hs'.rd hk (updv_same _ _ _), ok_bind, ha.idx h2 hk, ok_bind, (hyp_ok _ _).1, ok_bind]
      refine (hs'.wr hk _).mono fun s'' h => h.congr fun j _ => ?_
      rw [nrm_succ x h1]
      by_cases e : j = k
      · rw [e, updv_same, updv_same]
      · rw [updv_ne e, updv_ne e, updv_ne e])
  refine hloop.bind fun s2 hs2 => ?_
  rw [hs2.rd hk (updv_same _ _ _)]
  simp only [ok_bind, pure_eq_ok]
  by_cases h0 : FloatOps.eq (nrm k x m) 0 = true
  · rw [if_neg (by simpa using h0)]
    simp only [ok_bind]
    rw [hs2.rd hk (updv_same _ _ _), ok_bind]
    refine (hs2.wr hk _).bind fun s3 hs3 => Post.ok ⟨ha.congr ?_, hs3.congr ?_⟩
    · intro i j _ _
      by_cases e : j = k ∧ k ≤ i
      · rw [if_pos e, hvec, if_pos h0, e.1]
      · rw [if_neg e]
    · intro j _
      rw [himg, if_pos h0]
      by_cases e : j = k
      · rw [e, updv_same, updv_same]
      · rw [updv_ne e, updv_ne e, updv_ne e]
  · rw [if_pos (by simpa using h0)]
    have hne : val (sgnm k m x) ≠ 0 := sgnm_ne fun h => h0 (eq_zero_iff.2 h)
    rw [ha.idx hkm hk]
    simp only [ok_bind]
    obtain ⟨s3, hs3r, hs3⟩ : Post (if FloatOps.lt (G k k) 0 = true then wr s2 k (-(nrm k x m)) else (.ok s2 : R (Buf α)))
        (fun s3 => Vect s3 n (updv S k (some (sgnm k m x)))) := by
      unfold sgnm
      by_cases h : FloatOps.lt (G k k) 0 = true
      · rw [if_pos h, if_pos h]
        refine (hs2.wr hk _).mono fun s3 h => h.congr fun j _ => ?_
        by_cases e : j = k
        · rw [e, updv_same, updv_same]
        · rw [updv_ne e, updv_ne e, updv_ne e]
      · rw [if_neg h, if_neg h]
        exact Post.ok hs2
    rw [hs3r, ok_bind]
    have hdiv := loop_rows (lo := k) (hi := m)
      (f := fun i a => do setIdx a (i * n + k) (← RDiv.rdiv (← idx a (i * n + k)) (← rd s3 k)))
      (fun i j => if j = k then dv (x i) (sgnm k m x) else G i j) ha (by
        intro i a' G' h1 h2 hG' hsame
        rw [hG'.idx h2 hk, ok_bind, hs3.rd hk (updv_same _ _ _), ok_bind, (dv_ok _ hne).1, ok_bind]
        refine (hG'.setIdx h2 hk _).mono fun a'' h => h.congr fun r c _ _ => ?_
        have e1 := hsame i k (by omega)
        by_cases e : r = i
        · subst e
          by_cases e2 : c = k
          · subst e2
            rw [upd_same, if_pos rfl, if_pos rfl, e1]
          · rw [upd_ne (by tauto), if_pos rfl, if_neg e2, hsame r c (by omega)]
        · rw [upd_ne (by tauto), if_neg e])
    obtain ⟨a1, ha1r, ha1⟩ := hdiv
    rw [ha1r, ok_bind, ha1.idx hkm hk, ok_bind]
    obtain ⟨a2, ha2r, ha2⟩ := ha1.setIdx hkm hk ((if k ≤ k ∧ k < m then if k = k then dv (x k) (sgnm k m x) else G k k else G k k) + 1)
    rw [ha2r]
    simp only [ok_bind]
    rw [hs3.rd hk (updv_same _ _ _), ok_bind]
    refine (hs3.wr hk _).bind fun s4 hs4 => Post.ok ⟨ha2.congr ?_, hs4.congr ?_⟩
    · intro i j hi _
      simp only [upd, hvec, if_neg h0]
      grind
    · intro j _
      rw [himg, if_neg h0]
      by_cases e : j = k
      · rw [e, updv_same, updv_same]
      · rw [updv_ne e, updv_ne e, updv_ne e]

/-- What the code turns the column `f` into (nothing happens if the image `s` is zero). -/
def appC (lo N : Nat) (s : α) (x f : Nat → α) (i : Nat) : α := if FloatOps.eq s 0 then f i else appc lo N x f i

/-- What the code turns the row `f` into (nothing happens if the image `s` is zero). -/
def appR (lo N : Nat) (s : α) (x f : Nat → α) (j : Nat) : α := if FloatOps.eq s 0 then f j else appr lo N x f j

theorem appc_congr {lo N : Nat} {x x' f f' : Nat → α} (hlo : lo < N) (hx : ∀ i, lo ≤ i → i < N → x i = x' i)
    (hf : ∀ i, i < N → f i = f' i) {i : Nat} (hi : i < N) : appc lo N x f i = appc lo N x' f' i := by
  unfold appc
  rw [dotI_congr (x' := x') (y' := f') fun t h1 h2 => ⟨hx t h1 h2, hf t h2⟩, hf i hi, hx lo le_rfl hlo]
  by_cases h : lo ≤ i
  · rw [if_pos h, if_pos h, hx i h hi]
  · rw [if_neg h, if_neg h]

theorem appC_congr {lo N : Nat} {s : α} {x x' f f' : Nat → α} (hlo : lo < N) (hx : ∀ i, lo ≤ i → i < N → x i = x' i)
    (hf : ∀ i, i < N → f i = f' i) {i : Nat} (hi : i < N) : appC lo N s x f i = appC lo N s x' f' i := by
  unfold appC
  rw [appc_congr hlo hx hf hi, hf i hi]

theorem applyCol_post {m n k j : Nat} {a : List α} {G : Nat → Nat → α} (ha : Grid a m n G) (hk : k < n) (hkm : k < m) (hj : j < n)
    (hkj : k ≠ j) (h0 : val (G k k) ≠ 0) :
    Post (applyCol m n k j a) fun a' =>
      Grid a' m n (fun r c => if c = j then appc k m (fun i => G i k) (fun i => G i j) r else G r c) := by
  unfold applyCol
  rw [loop_dotI (x := fun t => G t k) (y := fun t => G t j) hkm.le (fun t s h1 h2 => by
    rw [ha.idx h2 hk, ha.idx h2 hj]; rfl), ok_bind, ha.idx hkm hk, ok_bind, (dv_ok _ h0).1, ok_bind]
  refine (axpy_col ha hj _ (fun r q => idx q (r * n + k)) (fun r => G r k) ?_).mono fun q' h => h.congr fun r c _ _ => ?_
  · intro r q' G' _ hr hG' hcol
    rw [hG'.idx hr hk, hcol r k hkj]
  · unfold appc
    by_cases e : c = j
    · subst e
      by_cases h : k ≤ r <;> simp [h]
    · simp [e]

theorem applyCols_post {m n nct k : Nat} {a : List α} {s e : Buf α} {G : Nat → Nat → α} {S E : Nat → Option α} {sk : α}
    (ha : Grid a m n G) (hs : Vect s n S) (he : Vect e n E) (hk : k < n) (hkm : k < m) (hkc : k < nct) (hS : S k = some sk)
    (hnz : val sk ≠ 0 → val (G k k) ≠ 0) :
    Post (applyCols m n nct k a s e) fun r =>
      Grid r.1 m n (fun i j => if k + 1 ≤ j then appC k m sk (fun i => G i k) (fun i => G i j) i else G i j) ∧
      Vect r.2 n (fun j => if k + 1 ≤ j then some (appC k m sk (fun i => G i k) (fun i => G i j) k) else E j) := by
  unfold applyCols
  have := loop_post (lo := k + 1) (hi := n) (s := (a, e)) (f := fun j (x : List α × Buf α) => (do
      let (a, e) := x
      let a ← (do
        if k < nct then
          if !(FloatOps.eq (← rd s k) 0) then applyCol m n k j a else return a
        else return a)
      let e ← wr e j (← idx a (k * n + j))
      return (a, e) : R (List α × Buf α)))
    (fun j x => Grid x.1 m n (fun r c => if k + 1 ≤ c ∧ c < j then appC k m sk (fun i => G i k) (fun i => G i c) r else G r c) ∧
      Vect x.2 n (fun c => if k + 1 ≤ c ∧ c < j then some (appC k m sk (fun i => G i k) (fun i => G i c) k) else E c)) (by omega) ?_ ?_
  · obtain ⟨⟨a', e'⟩, hr, h1, h2⟩ := this
    refine ⟨(a', e'), hr, h1.congr ?_, h2.congr ?_⟩
    · intro i j _ hj
      by_cases h : k + 1 ≤ j
      · rw [if_pos ⟨h, hj⟩, if_pos h]
      · rw [if_neg (by omega), if_neg h]
    · intro j hj
      by_cases h : k + 1 ≤ j
      · rw [if_pos ⟨h, hj⟩, if_pos h]
      · rw [if_neg (by omega), if_neg h]
  · refine ⟨ha.congr fun i j _ _ => ?_, he.congr fun j _ => ?_⟩
    · rw [if_neg (by omega)]
    · rw [if_neg (by omega)]
  · rintro j ⟨a1, e1⟩ h1 h2 ⟨ha1, he1⟩
    dsimp only at ha1 he1 ⊢
    rw [if_pos hkc, hs.rd hk hS]
    simp only [ok_bind, pure_eq_ok]
    obtain ⟨a2, hr2, ha2⟩ : Post (if (!FloatOps.eq sk 0) = true then applyCol m n k j a1 else (.ok a1 : R (List α)))
        (fun a2 => Grid a2 m n (fun r c => if k + 1 ≤ c ∧ c < j + 1 then appC k m sk (fun i => G i k) (fun i => G i c) r else G r c)) := by
      by_cases h0 : FloatOps.eq sk 0 = true
      · rw [if_neg (by simpa using h0)]
        refine Post.ok (ha1.congr fun r c hr _ => ?_)
        simp only [appC, if_pos h0, ite_self]
      · rw [if_pos (by simpa using h0)]
        refine (applyCol_post ha1 hk hkm h2 (by omega) (by rw [if_neg (by omega)]; exact hnz fun h => h0 (eq_zero_iff.2 h))).mono
          fun a2 h => h.congr fun r c hr hc => ?_
        by_cases e : c = j
        · subst e
          rw [if_pos rfl, if_pos (by omega)]
          unfold appC
          rw [if_neg h0]
          simp only [show ¬(k + 1 ≤ k ∧ k < c) by omega, show ¬(k + 1 ≤ c ∧ c < c) by omega, if_false]
        · rw [if_neg e]
          by_cases h3 : k + 1 ≤ c ∧ c < j
          · rw [if_pos h3, if_pos (by omega)]
          · rw [if_neg h3, if_neg (by omega)]
    rw [hr2]
    simp only [ok_bind]
    rw [ha2.idx hkm h2, ok_bind]
    refine (he1.wr h2 _).bind fun e2 he2 => Post.ok ⟨ha2, he2.congr fun c _ => ?_⟩
    by_cases e : c = j
    · subst e
      rw [updv_same, if_pos (by omega), if_pos (by omega)]
    · rw [updv_ne e]
      by_cases h3 : k + 1 ≤ c ∧ c < j
      · rw [if_pos h3, if_pos (by omega)]
      · rw [if_neg h3, if_neg (by omega)]

theorem rowTransform_post {n k : Nat} {e : Buf α} {E : Nat → Option α} {x : Nat → α} (he : Vect e n E) (hk : k + 1 < n)
    (hx : ∀ i, k + 1 ≤ i → i < n → E i = some (x i)) :
    Post (rowTransform n k e) fun e' =>
      Vect e' n (fun i => if k + 1 ≤ i then some (hvec (k + 1) n x i) else if i = k then some (himg (k + 1) n x) else E i) := by
  unfold rowTransform
  refine (he.wr (i := k) (by omega) 0).bind fun e1 he1 => ?_
  have hloop := loop_post (lo := k + 1) (hi := n) (s := e1) (f := fun i e => do wr e k (← hypot (← rd e k) (← rd e i)))
    (fun i e => Vect e n (updv E k (some (nrm (k + 1) x i)))) hk.le (by rw [nrm_self]; exact he1) (by
      intro i e' h1 h2 he'
      rw [he'.rd (i := k) (by omega) (updv_same _ _ _), ok_bind, he'.rd h2 (by rw [updv_ne (by omega), hx i h1 h2]), ok_bind,
        (hyp_ok _ _).1, ok_bind]
      refine (he'.wr (i := k) (by omega) _).mono fun s'' h => h.congr fun j _ => ?_
      rw [nrm_succ x h1]
      by_cases e : j = k
      · rw [e, updv_same, updv_same]
      · rw [updv_ne e, updv_ne e, updv_ne e])
  refine hloop.bind fun e2 he2 => ?_
  rw [he2.rd (i := k) (by omega) (updv_same _ _ _)]
  simp only [ok_bind, pure_eq_ok]
  by_cases h0 : FloatOps.eq (nrm (k + 1) x n) 0 = true
  · rw [if_neg (by simpa using h0)]
    simp only [ok_bind]
    rw [he2.rd (i := k) (by omega) (updv_same _ _ _), ok_bind]
    refine (he2.wr (i := k) (by omega) _).mono fun e3 he3 => he3.congr ?_
    intro j hj
    by_cases e : j = k
    · rw [e, updv_same, if_neg (by omega), if_pos rfl, himg, if_pos h0]
    · rw [updv_ne e, updv_ne e, if_neg e]
      split
      · rw [hvec, if_pos h0]; exact hx j ‹_› hj
      · rfl
  · rw [if_pos (by simpa using h0)]
    have hne : val (sgnm (k + 1) n x) ≠ 0 := sgnm_ne fun h => h0 (eq_zero_iff.2 h)
    rw [he2.rd hk (by rw [updv_ne (by omega), hx _ le_rfl hk])]
    simp only [ok_bind]
    obtain ⟨e3, he3r, he3⟩ : Post (if FloatOps.lt (x (k + 1)) 0 = true then wr e2 k (-(nrm (k + 1) x n)) else (.ok e2 : R (Buf α)))
        (fun s3 => Vect s3 n (updv E k (some (sgnm (k + 1) n x)))) := by
      unfold sgnm
      by_cases h : FloatOps.lt (x (k + 1)) 0 = true
      · rw [if_pos h, if_pos h]
        refine (he2.wr (i := k) (by omega) _).mono fun s3 h => h.congr fun j _ => ?_
        by_cases e : j = k
        · rw [e, updv_same, updv_same]
        · rw [updv_ne e, updv_ne e, updv_ne e]
      · rw [if_neg h, if_neg h]
        exact Post.ok he2
    rw [he3r, ok_bind]
    have hdiv := loop_vect (lo := k + 1) (hi := n) (f := fun i e => do wr e i (← RDiv.rdiv (← rd e i) (← rd e k)))
      (fun i => some (dv (x i) (sgnm (k + 1) n x))) he3 (by
        intro i e' g' h1 h2 hg' hsame
        rw [hg'.rd h2 (by rw [hsame i (by omega), updv_ne (by omega), hx i h1 h2]), ok_bind,
          hg'.rd (i := k) (by omega) (by rw [hsame k (by omega), updv_same]), ok_bind, (dv_ok _ hne).1, ok_bind]
        exact hg'.wr h2 _)
    obtain ⟨e4, he4r, he4⟩ := hdiv
    rw [he4r, ok_bind, he4.rd (i := k + 1) hk (by rw [if_pos ⟨le_rfl, hk⟩]), ok_bind]
    obtain ⟨e5, he5r, he5⟩ := he4.wr hk (dv (x (k + 1)) (sgnm (k + 1) n x) + 1)
    rw [he5r, ok_bind, he5.rd (i := k) (by omega) (by rw [updv_ne (by omega), if_neg (by omega), updv_same]), ok_bind]
    refine (he5.wr (i := k) (by omega) _).mono fun e6 he6 => he6.congr ?_
    intro j hj
    simp only [updv, hvec, himg, if_neg h0]
    grind

theorem applyRow_post {m n k : Nat} {a : List α} {e w : Buf α} {G : Nat → Nat → α} {E Wo : Nat → Option α} {x : Nat → α} {ek : α}
    (ha : Grid a m n G) (he : Vect e n E) (hw : Vect w m Wo) (hk : k + 1 < n) (hkm : k + 1 < m) (hE : E k = some ek)
    (hx : ∀ i, k + 1 ≤ i → i < n → E i = some (x i)) (hnz : val ek ≠ 0 → val (x (k + 1)) ≠ 0) :
    Post (applyRow m n k a e w) fun r =>
      Grid r.1 m n (fun i j => if k + 1 ≤ i then appR (k + 1) n ek x (fun j => G i j) j else G i j) ∧ ∃ W', Vect r.2 m W' := by
  unfold applyRow
  rw [if_pos hkm, he.rd (i := k) (by omega) hE]
  simp only [ok_bind, pure_eq_ok]
  by_cases h0 : FloatOps.eq ek 0 = true
  · rw [if_neg (by simpa using h0)]
    refine Post.ok ⟨ha.congr fun i j _ hj => ?_, _, hw⟩
    rw [appR, if_pos h0, ite_self]
  rw [if_pos (by simpa using h0)]
  have h1 := loop_vect (lo := k + 1) (hi := m) (f := fun i w => wr w i 0) (fun _ => some (0 : α)) hw
    (fun i d' g' h1 h2 hg' _ => hg'.wr h2 0)
  refine h1.bind fun w1 hw1 => ?_
  have h2 := loop_post (lo := k + 1) (hi := n) (s := w1) (f := fun j w => loop (k + 1) m w fun i w => do
        wr w i ((← rd w i) + (← rd e j) * (← idx a (i * n + j))))
    (fun j w => Vect w m (fun i => if k + 1 ≤ i ∧ i < m then some (dotI (k + 1) j x (fun j => G i j)) else Wo i)) hk.le
    (hw1.congr fun i _ => by simp [dotI, facc]) (by
      intro j w' h3 h4 hw'
      refine (loop_vect (lo := k + 1) (hi := m) (fun i => some (dotI (k + 1) (j + 1) x (fun j => G i j))) hw' ?_).mono
        fun w'' h => h.congr fun i _ => ?_
      · intro i d' g' h5 h6 hg' hsame
        have hs : dotI (k + 1) (j + 1) x (fun j => G i j) = dotI (k + 1) j x (fun j => G i j) + x j * G i j := by
          unfold dotI
          rw [show j + 1 - (k + 1) = (j - (k + 1)) + 1 by omega, facc, show k + 1 + (j - (k + 1)) = j by omega]
        rw [hg'.rd h6 (by rw [hsame i (by omega), if_pos ⟨h5, h6⟩]), ok_bind, he.rd h4 (hx j h3 h4), ok_bind, ha.idx h6 h4, ok_bind, hs]
        exact hg'.wr h6 _
      · split <;> rfl)
  refine h2.bind fun w2 hw2 => ?_
  have h3 := loop_cols (lo := k + 1) (hi := n) (f := fun j a => do
        let t ← RDiv.rdiv (-(← rd e j)) (← rd e (k + 1))
        loop (k + 1) m a fun i a => do setIdx a (i * n + j) ((← idx a (i * n + j)) + t * (← rd w2 i)))
    (fun r c => if k + 1 ≤ r then appR (k + 1) n ek x (fun j => G r j) c else G r c) ha (by
      intro j a' G' h3 h4 hG' hsame
      rw [he.rd h4 (hx j h3 h4), ok_bind, he.rd hk (hx _ le_rfl hk), ok_bind,
        (dv_ok _ (hnz fun h => h0 (eq_zero_iff.2 h))).1, ok_bind]
      refine (axpy_col hG' h4 _ (fun r _ => rd w2 r) (fun r => dotI (k + 1) n x (fun j => G r j)) ?_).mono
        fun q' h => h.congr fun r c _ _ => ?_
      · intro r q' G'' h5 h6 _ _
        exact hw2.rd h6 (by rw [if_pos ⟨h5, h6⟩])
      · by_cases e : c = j
        · subst e
          rw [if_pos rfl, hsame r c (by omega)]
          unfold appR appr
          by_cases h : k + 1 ≤ r
          · rw [if_pos ⟨rfl, h⟩, if_pos h, if_neg h0, if_pos h3]
          · rw [if_neg (by tauto), if_neg h]
        · rw [if_neg e, if_neg (by tauto)])
  refine h3.bind fun a1 ha1 => Post.ok ⟨ha1.congr fun i j _ hj => ?_, _, hw2⟩
  by_cases h : k + 1 ≤ j
  · rw [if_pos ⟨h, hj⟩]
  · rw [if_neg (by omega)]
    unfold appR appr
    rw [if_neg h, ite_self, ite_self]

end Std
end LA
