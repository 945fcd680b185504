import Verif.Proofs.StdStep

/-! # End of the reduction, and accumulation of `U` and `V`, in rounded arithmetic -/

set_option linter.unusedSectionVars false

namespace LA
open Finset Matrix
namespace Std
open Sfp SVD

variable {α : Type} [Zero α] [One α] [Add α] [Sub α] [Neg α] [Mul α] [FloatOps α] [Sfp α]

/-- The real matrix a matrix of numbers stands for. -/
noncomputable def vm {m n : Nat} (A : Matrix (Fin m) (Fin n) α) : Matrix (Fin m) (Fin n) ℝ := Matrix.of fun i j => val (A i j)

/-- The result of the reduction. -/
structure BD (m n nct nrt : Nat) (κ C : ℝ) (A : Matrix (Fin m) (Fin n) ℝ) (b : Bid α) (s e : Nat → α) (U V : Nat → Nat → α)
    (ta tb : Nat → Nat → ℝ) : Prop where
  bs : Full b.s n s
  be : Full b.e n e
  bu : ∃ F, Grid b.u m m F ∧ ∀ t i, t < nct → t ≤ i → i < m → F i t = some (U i t)
  bv : ∃ F, Grid b.v n n F ∧ ∀ t i, t < nrt → t + 1 ≤ i → i < n → F i t = some (V i t)
  u : ∀ t, t < nct → HR (4 * m + 2) t m (fun i => ta i t) (fun i => U i t) (s t)
  v : ∀ t, t < nrt → HR (4 * m + 2) (t + 1) n (fun i => tb i t) (fun i => V i t) (e t)
  ez : ∀ j, n ≤ j + 1 → val (e j) = 0
  err : frob (A - prodL (lref m ta) nct * pk m n (bid (vv s) (vv e)) * (prodL (rref n nrt tb) n)ᵀ) ≤ ((1 + κ) ^ (2 * nct) - 1) * C

theorem bidiag_post {m n : Nat} {κ C : ℝ} (hn : 0 < n) (hnm : n ≤ m) (A : Matrix (Fin m) (Fin n) α) (hκ : 3 * kr α m ≤ κ)
    (hC : frob (vm A) ≤ C) :
    Post (bidiag m n (min (m - 1) n) (n - 2) n (ofM A).data) fun b => ∃ s e U V ta tb,
      BD m n (min (m - 1) n) (n - 2) κ C (vm A) b s e U V ta tb := by
  have hmin : min m n = n := by omega
  unfold bidiag
  rw [hmin, show max (min (m - 1) n) (n - 2) = min (m - 1) n by omega]
  set nct := min (m - 1) n with hnct
  have hloop := loop_post (lo := 0) (hi := nct)
    (s := (⟨(ofM A).data, alloc α n, alloc α n, alloc α (m * m), alloc α (n * n), alloc α m⟩ : Bid α))
    (f := fun k b => bidStep m n nct (n - 2) k b)
    (fun k b => ∃ s e U V G ta tb, BM m n (n - 2) κ C (vm A) k s e U V G ta tb ∧ BB m n (n - 2) k b s e U V G) (Nat.zero_le _) ?_ ?_
  · refine hloop.bind ?_
    rintro b ⟨s, e, U, V, G, ta, tb, hM, hB⟩
    obtain ⟨S, hS, hSk⟩ := hB.s
    obtain ⟨E, hE, hEk⟩ := hB.e
    obtain ⟨FV, hFV, hFVk⟩ := hB.v
    unfold finish
    set s' : Nat → α := fun t => if t < nct then s t else G nct nct with hs'
    set e' : Nat → α := fun t => if t < n - 2 then e t else if t + 1 < n then G (n - 2) (n - 1) else 0 with he'
    obtain ⟨s1, hr1, hs1⟩ : Post (if nct < n then (do wr b.s nct (← idx b.a (nct * n + nct))) else (.ok b.s : R (Buf α)))
        (fun s1 => Full s1 n s') := by
      by_cases h : nct < n
      · rw [if_pos h, hB.a.idx (by omega) h, ok_bind]
        refine (hS.wr h _).mono fun s1 h1 => h1.congr fun t ht => ?_
        by_cases e : t = nct
        · rw [e, updv_same]; simp only [hs', lt_irrefl, if_false]
        · rw [updv_ne e, hSk t (by omega)]
          simp only [hs']
          rw [if_pos (by omega)]
      · rw [if_neg h]
        refine Post.ok (hS.congr fun t ht => ?_)
        rw [hSk t (by omega)]
        simp only [hs']
        rw [if_pos (by omega)]
    obtain ⟨e1, hr2, E1, he1, hE1⟩ : Post (if n - 2 + 1 < n then (do wr b.e (n - 2) (← idx b.a ((n - 2) * n + (← usub n 1))))
        else (.ok b.e : R (Buf α))) (fun e1 => ∃ E1, Vect e1 n E1 ∧ ∀ t, t + 1 < n → E1 t = some (e' t)) := by
      by_cases h : n - 2 + 1 < n
      · rw [if_pos h, usub_ok (by omega), ok_bind, hB.a.idx (by omega) (by omega), ok_bind]
        refine (hE.wr (i := n - 2) (by omega) _).mono fun e1 h1 => ⟨_, h1, fun t ht => ?_⟩
        by_cases e : t = n - 2
        · rw [e, updv_same]; simp only [he', lt_irrefl, if_false]; rw [if_pos (by omega)]
        · rw [updv_ne e, hEk t (by omega) (by omega)]
          simp only [he']
          rw [if_pos (by omega)]
      · rw [if_neg h]
        exact Post.ok ⟨_, hE, fun t ht => by omega⟩
    simp only [pure_eq_ok]
    rw [hr1]
    simp only [ok_bind]
    rw [if_neg (by omega)]
    simp only [ok_bind]
    rw [hr2, ok_bind, usub_ok (by omega), ok_bind]
    refine (he1.wr (i := n - 1) (by omega) 0).bind fun e2 he2 => Post.ok ⟨s', e', U, V, ta, tb, ?_⟩
    have hs't : ∀ t, t < nct → s' t = s t := fun t ht => if_pos ht
    have he't : ∀ t, t < n - 2 → e' t = e t := fun t ht => if_pos ht
    refine ⟨hs1, he2.congr ?_, hB.u, ⟨FV, hFV, fun t i h1 h2 h3 => hFVk t i (by omega) h1 h2 h3⟩, ?_, ?_, ?_, ?_⟩
    · intro t ht
      by_cases e : t = n - 1
      · rw [e, updv_same]
        simp only [he']
        rw [if_neg (by omega), if_neg (by omega)]
      · rw [updv_ne e, hE1 t (by omega)]
    · intro t ht
      rw [hs't t ht]; exact hM.u t ht
    · intro t ht
      rw [he't t ht]; exact hM.v t (by omega) ht
    · intro j hj
      simp only [he']
      rw [if_neg (by omega), if_neg (by omega), Sfp.zero]
    · have hR : prodL (rref n (n - 2) tb) n = prodL (rref n (n - 2) tb) nct := by
        have h1 : ∀ t, n - 2 ≤ t → rref n (n - 2) tb t = 1 := fun t ht => if_neg (by omega)
        rw [prodL_tail (a := n - 2) (b := n) (by omega) h1, prodL_tail (a := n - 2) (b := nct) (by omega) h1]
      have hmid : pk m n (mid (n - 2) nct (vv s) (vv e) (tt G)) = pk m n (bid (vv s') (vv e')) := by
        refine pk_congr fun i j hi hj => ?_
        simp only [mid, bid, hs', he', vv, tt]
        by_cases h1 : i < nct
        · rw [if_pos h1]
          by_cases h2 : j = i
          · rw [if_pos h2, if_pos h2, if_pos h1]
          · rw [if_neg h2, if_neg h2]
            by_cases h3 : j = i + 1
            · rw [if_pos h3, if_pos h3]
              by_cases h4 : i < n - 2
              · rw [if_pos h4, if_pos h4]
              · rw [if_neg h4, if_neg h4, if_pos (by omega), show i = n - 2 by omega, show j = n - 1 by omega]
            · rw [if_neg h3, if_neg h3]
        · rw [if_neg h1]
          by_cases h2 : j < nct
          · rw [if_pos h2, if_neg (by omega), if_neg (by omega)]
          · have h3 : m = n := by omega
            rw [if_neg h2, if_pos (by omega), if_neg h1, show i = nct by omega, show j = nct by omega]
      rw [hR, ← hmid]
      exact hM.err
  · refine ⟨fun _ => 0, fun _ => 0, fun _ _ => 0, fun _ _ => 0, ext A, fun _ _ => 0, fun _ _ => 0,
      ⟨fun t ht => absurd ht (Nat.not_lt_zero _), fun t ht => absurd ht (Nat.not_lt_zero _), ?_⟩,
      ⟨grid_ofM A, ⟨_, vect_alloc n, by simp⟩, ⟨_, vect_alloc n, by simp⟩, ⟨_, grid_alloc m m, by simp⟩,
        ⟨_, grid_alloc n n, by simp⟩, ⟨_, vect_alloc m⟩⟩⟩
    have : pk m n (mid (n - 2) 0 (vv fun _ => (0 : α)) (vv fun _ => (0 : α)) (tt (ext A))) = vm A := by
      ext i j
      simp [mid, LU.packed, tt, vm]
    rw [prodL, prodL, transpose_one, Matrix.one_mul, Matrix.mul_one, this, sub_self, mul_zero, pow_zero, sub_self, zero_mul]
    simp [frob]
  · rintro k b - hk ⟨s, e, U, V, G, ta, tb, hM, hB⟩
    exact bidStep_post hκ hC hM hB (by omega) (by omega) hk hnm (fun h => by omega) (fun h => by omega)

theorem unitCol_post {N k : Nat} {d : Buf α} {F : Nat → Nat → Option α} (hd : Grid d N N F) (hk : k < N) :
    Post (unitCol N k d) fun d' => Grid d' N N (fun i j => if j = k then some (if i = k then 1 else 0) else F i j) := by
  unfold unitCol
  refine (loop_rows (lo := 0) (hi := N) (fun i j => if j = k then some 0 else F i j) hd ?_).bind fun d1 hd1 => ?_
  · intro i d' F' h1 h2 hF' hsame
    refine (hF'.wr h2 hk 0).mono fun d'' h => h.congr fun r c _ _ => ?_
    simp only [upd]
    have := hsame i c (by omega)
    grind
  · refine (hd1.wr hk hk 1).mono fun d2 hd2 => hd2.congr fun r c hr hc => ?_
    simp only [upd]
    grind

theorem reflectCols_post {N lo k : Nat} {d : Buf α} {F : Nat → Nat → Option α} {Z : Nat → Nat → α} {x : Nat → α}
    (hd : Grid d N N F) (hk : k < N) (hlo : lo < N) (hu : ∀ i, lo ≤ i → i < N → F i k = some (x i))
    (hZ : ∀ i j, i < N → k + 1 ≤ j → j < N → F i j = some (Z i j)) (h0 : val (x lo) ≠ 0) :
    Post (loop (k + 1) N d fun j d => reflectCol N lo k j d) fun d' =>
      Grid d' N N (fun i j => if k + 1 ≤ j then some (appc lo N x (fun i => Z i j) i) else F i j) := by
  refine (loop_cols (lo := k + 1) (hi := N) (fun i j => some (appc lo N x (fun i => Z i j) i)) hd ?_).mono fun d' h => h.congr fun i j _ hj => ?_
  swap
  · by_cases h : k + 1 ≤ j
    · rw [if_pos ⟨h, hj⟩, if_pos h]
    · rw [if_neg (by omega), if_neg h]
  intro j d' F' h1 h2 hF' hsame
  have hu' : ∀ i, lo ≤ i → i < N → F' i k = some (x i) := fun i h3 h4 => by rw [hsame i k (by omega), hu i h3 h4]
  have hz' : ∀ i, i < N → F' i j = some (Z i j) := fun i h3 => by rw [hsame i j (by omega), hZ i j h3 h1 h2]
  unfold reflectCol
  rw [loop_dotI (x := x) (y := fun t => Z t j) hlo.le (fun t s h3 h4 => by
    rw [hF'.rd h4 hk (hu' t h3 h4), hF'.rd h4 h2 (hz' t h4)]; rfl), ok_bind, hF'.rd hlo hk (hu' lo le_rfl hlo), ok_bind, (dv_ok _ h0).1,
    ok_bind]
  refine (loop_rows (lo := lo) (hi := N) (fun i c => if c = j then some (appc lo N x (fun i => Z i j) i) else F' i c) hF' ?_).mono
    fun d'' h => h.congr fun r c hr _ => ?_
  · intro i e' F'' h3 h4 hF'' hsame'
    rw [hF''.rd h4 h2 (by rw [hsame' i j (by omega), hz' i h4]), ok_bind, hF''.rd h4 hk (by rw [hsame' i k (by omega), hu' i h3 h4]),
      ok_bind]
    refine (hF''.wr h4 h2 _).mono fun d'' h => h.congr fun r c _ _ => ?_
    by_cases e : r = i
    · subst e
      rw [if_pos rfl]
      by_cases e2 : c = j
      · subst e2
        rw [upd_same, if_pos rfl, appc, if_pos h3]
      · rw [upd_ne (by tauto), if_neg e2, hsame' r c (by omega)]
    · rw [upd_ne (by tauto), if_neg e]
  · by_cases e : c = j
    · subst e
      rw [if_pos rfl]
      by_cases h : lo ≤ r
      · rw [if_pos ⟨h, hr⟩]
      · rw [if_neg (by tauto), appc, if_neg h, hz' r hr]
    · rw [if_neg e, ite_self]

theorem lside_step {N r : Nat} {κ : ℝ} {U U' P G : Matrix (Fin N) (Fin N) ℝ} (hκ : 0 ≤ κ) (hP : Orth P) (hG : Orth G)
    (h : frob (U - P) ≤ ((1 + κ) ^ r - 1) * Real.sqrt N) (hs : frob (U' - G * U) ≤ κ * frob U) :
    frob (U' - G * P) ≤ ((1 + κ) ^ (r + 1) - 1) * Real.sqrt N := by
  have h1 := frob_tri U' (G * U) (G * P)
  rw [← Matrix.mul_sub, frob_mul_left _ hG] at h1
  have h2 : frob U ≤ frob (U - P) + frob P := by
    have := frob_add_le (U - P) P
    rwa [sub_add_cancel] at this
  rw [hP.frob] at h2
  have h3 := mul_le_mul_of_nonneg_left h2 hκ
  have h4 := mul_le_mul_of_nonneg_left h (show 0 ≤ 1 + κ by linarith)
  rw [pow_succ]
  nlinarith

theorem prodR_orth {N : Nat} {H : Nat → Matrix (Fin N) (Fin N) ℝ} : ∀ c k, (∀ t, t < k + c → Orth (H t)) → Orth (prodR H k c) := by
  intro c
  induction c with
  | zero => intro k _; exact orth_one
  | succ c ih => intro k h; exact (h k (by omega)).mul (ih (k + 1) fun t ht => h t (by omega))

/-- Column `k` of the factor being generated, from the reflection vector itself. -/
theorem own_col {m k : Nat} {a : Nat → ℝ} {x : Nat → α} {sk : α} (h : HR (4 * m + 2) k m a x sk) (h0 : val sk ≠ 0) (hk : k < m) {i : Nat}
    (h1 : k ≤ i) (h2 : i < m) :
    |Sfp.val (if i = k then 1 + -(x k) else -(x i)) - ((if i = k then 1 else 0) + -(a i))| ≤
      kr α m * ((if i = k then 1 else 0) + |a i|) := by
  have hw : 1 ≤ w α := w_one
  by_cases e : i = k
  · subst e
    rw [if_pos rfl, if_pos rfl]
    have r1 : Rt (w α) (4 * m + 2) (Sfp.val (1 : α)) 1 := by rw [Sfp.one]; exact (Rt.refl 1).mono hw (by omega)
    have r2 : Rt (w α) (4 * m + 2) (Sfp.val (-(x i))) (-(a i)) := by rw [Sfp.neg]; exact (h.u i h1 h2).neg
    obtain ⟨σ, τ, s1, s2, s3⟩ := add_wt r1 r2
    have := comb_err hw s1 s2 s3
    rw [abs_neg, abs_one] at this
    exact this.trans (mul_le_mul_of_nonneg_right (pw_kr (by omega)) (by positivity))
  · rw [if_neg e, if_neg e, zero_add, zero_add, Sfp.neg]
    have := ((h.u i h1 h2).neg.sub hw)
    rw [abs_neg] at this
    exact this.trans (mul_le_mul_of_nonneg_right (pw_kr (by omega)) (abs_nonneg _))

theorem genU_err {m k : Nat} {a : Nat → ℝ} {x : Nat → α} {sk : α} {Z : Nat → Nat → α} (h : HR (4 * m + 2) k m a x sk) (h0 : val sk ≠ 0)
    (hk : k < m) (hZ : ∀ i j, i < m → j < k + 1 → Z i j = if i = j then 1 else 0) :
    RefErr (kr α m) k m m a (tt Z) (tt fun i j => if j < k then Z i j else if j = k then (if i < k then 0 else
      if i = k then 1 + -(x k) else -(x i)) else appc k m x (fun i => Z i j) i) := by
  intro i j hi hj
  have hb := bnd_nonneg (N := m) (f := fun t => tt Z t j) h.nonneg i
  by_cases h1 : k ≤ i
  swap
  · rw [if_neg h1, mul_zero, refc, if_neg h1]
    have : (if j < k then Z i j else if j = k then (if i < k then 0 else
      if i = k then 1 + -(x k) else -(x i)) else appc k m x (fun i => Z i j) i) = Z i j := by
      by_cases e1 : j < k
      · rw [if_pos e1]
      · rw [if_neg e1]
        by_cases e2 : j = k
        · rw [if_pos e2, if_pos (by omega), hZ i j hi (by omega), if_neg (by omega)]
        · rw [if_neg e2, appc, if_neg h1]
    simp only [tt]
    rw [this, sub_self, abs_zero]
  rw [if_pos h1, refc, if_pos h1]
  rcases lt_trichotomy j k with hjk | hjk | hjk
  · have hs : ∑ t ∈ Ico k m, a t * tt Z t j = 0 := by
      refine Finset.sum_eq_zero fun t ht => ?_
      rw [Finset.mem_Ico] at ht
      rw [tt, hZ t j ht.2 (by omega), if_neg (by omega), Sfp.zero, mul_zero]
    have e1 : tt (fun i j => if j < k then Z i j else if j = k then (if i < k then 0 else
      if i = k then 1 + -(x k) else -(x i)) else appc k m x (fun i => Z i j) i) i j = tt Z i j := by
      simp only [tt]; rw [if_pos hjk]
    rw [hs, neg_zero, zero_div, zero_mul, add_zero, e1, sub_self, abs_zero]
    exact mul_nonneg (kr_nonneg m) hb
  · subst hjk
    have hu : ∀ t, t < m → tt Z t j = if t = j then 1 else 0 := fun t ht => by
      rw [tt, hZ t j ht (by omega)]
      split
      · exact Sfp.one
      · exact Sfp.zero
    have hs : ∑ t ∈ Ico j m, a t * tt Z t j = a j := by
      rw [Finset.sum_eq_single_of_mem j (Finset.mem_Ico.2 ⟨le_rfl, by omega⟩)]
      · rw [hu j hk, if_pos rfl, mul_one]
      · intro t ht hne
        rw [Finset.mem_Ico] at ht
        rw [hu t ht.2, if_neg hne, mul_zero]
    have hs' : ∑ t ∈ Ico j m, |a t| * |tt Z t j| = |a j| := by
      rw [Finset.sum_eq_single_of_mem j (Finset.mem_Ico.2 ⟨le_rfl, by omega⟩)]
      · rw [hu j hk, if_pos rfl, abs_one, mul_one]
      · intro t ht hne
        rw [Finset.mem_Ico] at ht
        rw [hu t ht.2, if_neg hne, abs_zero, mul_zero]
    have hp := h.pos h0
    have e1 : tt (fun i j' => if j' < j then Z i j' else if j' = j then (if i < j then 0 else
      if i = j then 1 + -(x j) else -(x i)) else appc j m x (fun i => Z i j') i) i j = Sfp.val (if i = j then 1 + -(x j) else -(x i)) := by
      simp only [tt]; rw [if_neg (by omega), if_neg (show ¬ i < j by omega)]; simp only [if_true]
    have e2 : -(a j) / a j * a i = -(a i) := by rw [neg_div, div_self hp.ne']; ring
    have e3 : |a i| / a j * |a j| = |a i| := by rw [abs_of_pos hp]; field_simp
    have e4 : |tt Z i j| = if i = j then 1 else 0 := by rw [hu i hi]; split <;> simp
    rw [hs, hs', e1, e2, e3, e4, hu i hi]
    exact own_col h h0 hk h1 hi
  · have e1 : tt (fun i j => if j < k then Z i j else if j = k then (if i < k then 0 else
      if i = k then 1 + -(x k) else -(x i)) else appc k m x (fun i => Z i j) i) i j = val (appC k m sk x (fun i => Z i j) i) := by
      simp only [tt]; rw [if_neg (by omega), if_neg (by omega), appC, if_neg fun hh => h0 (eq_zero_iff.1 hh)]
    rw [e1]
    exact h.appC le_rfl (fun i => Z i j) h1 hi

theorem pk_unit' {N : Nat} {Z : Nat → Nat → α} (h : ∀ i j, i < N → j < N → Z i j = if i = j then 1 else 0) : pk N N (tt Z) = 1 :=
  pk_unit fun i j hi hj => by
    rw [tt, h i j hi hj]
    split
    · exact Sfp.one
    · exact Sfp.zero

theorem frob_zero_le {N r : Nat} {κ : ℝ} (hκ : 0 ≤ κ) {X Y : Matrix (Fin N) (Fin N) ℝ} (h : X = Y) :
    frob (X - Y) ≤ ((1 + κ) ^ r - 1) * Real.sqrt N := by
  rw [h, sub_self]
  have : frob (0 : Matrix (Fin N) (Fin N) ℝ) = 0 := by simp [frob]
  rw [this]
  exact mul_nonneg (sub_nonneg.2 (one_le_pow₀ (by linarith))) (Real.sqrt_nonneg _)

theorem pw_mono {r r' N : Nat} {κ : ℝ} (hκ : 0 ≤ κ) (h : r ≤ r') : ((1 + κ) ^ r - 1) * Real.sqrt N ≤ ((1 + κ) ^ r' - 1) * Real.sqrt N :=
  mul_le_mul_of_nonneg_right (sub_le_sub_right (pow_le_pow_right₀ (by linarith) h) 1) (Real.sqrt_nonneg _)

theorem genU_post {m n nct nrt : Nat} {κ C : ℝ} {A : Matrix (Fin m) (Fin n) ℝ} {b : Bid α} {s e : Nat → α} {U V : Nat → Nat → α}
    {ta tb : Nat → Nat → ℝ} (hκ : 3 * kr α m ≤ κ) (h : BD m n nct nrt κ C A b s e U V ta tb) (hcm : nct ≤ m) (hcn : nct ≤ n) :
    Post (genU m nct b.s b.u) fun d => ∃ Z, FullG d m m Z ∧
      frob (pk m m (tt Z) - prodL (lref m ta) nct) ≤ ((1 + κ) ^ nct - 1) * Real.sqrt m := by
  have hκ0 : 0 ≤ κ := le_trans (mul_nonneg (by norm_num) (kr_nonneg m)) hκ
  have hor : ∀ t, t < nct → Orth (lref m ta t) := fun t ht => hhl_orth (h.u t ht).norm
  obtain ⟨F, hF, hFU⟩ := h.bu
  unfold genU
  refine (loop_cols (lo := nct) (hi := m) (fun i j => some (if i = j then (1 : α) else 0)) hF ?_).bind fun d1 hd1 => ?_
  · intro j d' F' _ h2 hF' _
    exact (unitCol_post hF' h2).mono fun d'' h => h.congr fun r c _ _ => rfl
  refine (loopRev_post (lo := 0) (hi := nct)
    (fun k d => ∃ F Z, Grid d m m F ∧ (∀ i j, i < m → k ≤ j → j < m → F i j = some (Z i j)) ∧
      (∀ t i, t < k → t ≤ i → i < m → F i t = some (U i t)) ∧ (∀ i j, i < m → j < k → Z i j = if i = j then 1 else 0) ∧
      frob (pk m m (tt Z) - prodR (lref m ta) k (nct - k)) ≤ ((1 + κ) ^ (nct - k) - 1) * Real.sqrt m) (Nat.zero_le _) ?_ ?_).mono ?_
  · refine ⟨_, fun i j => if i = j then 1 else 0, hd1, ?_, ?_, fun _ _ _ _ => rfl, ?_⟩
    · intro i j _ h2 h3
      rw [if_pos ⟨h2, h3⟩]
    · intro t i h1 h2 h3
      rw [if_neg (by omega), hFU t i h1 h2 h3]
    · refine frob_zero_le hκ0 ?_
      rw [Nat.sub_self, prodR]
      exact pk_unit' fun _ _ _ _ => rfl
  · rintro k d - hk ⟨F1, Z, g1, g2, g3, g4, g5⟩
    have hsub : nct - k = (nct - (k + 1)) + 1 := by omega
    rw [h.bs.rd (i := k) (by omega)]
    simp only [ok_bind]
    by_cases h0 : FloatOps.eq (s k) 0 = true
    · rw [if_neg (by simpa using h0)]
      have hone : lref m ta k = 1 := hhl_zero (by omega) ((h.u k hk).zero (eq_zero_iff.1 h0))
      refine (unitCol_post g1 (k := k) (by omega)).mono fun d' hd' => ⟨_, Z, hd', ?_, ?_, fun i j h1 h2 => g4 i j h1 (by omega), ?_⟩
      · intro i j h1 h2 h3
        by_cases e : j = k
        · rw [if_pos e, g4 i j h1 (by omega), e]
        · rw [if_neg e, g2 i j h1 (by omega) h3]
      · intro t i h1 h2 h3
        rw [if_neg (by omega), g3 t i (by omega) h2 h3]
      · rw [hsub, prodR, hone, Matrix.one_mul]
        exact g5.trans (pw_mono hκ0 (by omega))
    · rw [if_pos (by simpa using h0)]
      have h0' : val (s k) ≠ 0 := fun hh => h0 (eq_zero_iff.2 hh)
      have hukk := (h.u k hk).ne (by omega) h0'
      refine (reflectCols_post (Z := Z) (x := fun i => U i k) g1 (k := k) (lo := k) (by omega) (by omega) (fun i h1 h2 => g3 k i (by omega) h1 h2)
        (fun i j h1 h2 h3 => g2 i j h1 h2 h3) hukk).bind fun d2 hd2 => ?_
      refine (loop_rows (lo := k) (hi := m) (fun i j => if j = k then some (-(U i k)) else if k + 1 ≤ j then
        some (appc k m (fun i => U i k) (fun i => Z i j) i) else F1 i j) hd2 ?_).bind fun d3 hd3 => ?_
      · intro i d' F' h1 h2 hF' hsame
        rw [hF'.rd (x := U i k) h2 (by omega) (by rw [hsame i k (by omega), if_neg (by omega), g3 k i (by omega) h1 h2]), ok_bind]
        refine (hF'.wr h2 (by omega) _).mono fun d'' h => h.congr fun r c _ _ => ?_
        have := hsame i c (by omega)
        by_cases e : r = i
        · subst e
          by_cases e2 : c = k
          · rw [e2, upd_same, if_pos rfl, if_pos rfl]
          · rw [upd_ne (by tauto), if_pos rfl, if_neg e2, this]
        · rw [upd_ne (by tauto), if_neg e]
      rw [hd3.rd (i := k) (j := k) (x := -(U k k)) (by omega) (by omega) (by rw [if_pos ⟨le_rfl, by omega⟩, if_pos rfl]), ok_bind]
      refine (hd3.wr (i := k) (j := k) (by omega) (by omega) _).bind fun d4 hd4 => ?_
      refine (loop_rows (lo := 0) (hi := k) (fun i j => if j = k then some 0 else if k + 1 ≤ j then
        some (appc k m (fun i => U i k) (fun i => Z i j) i) else F1 i j) hd4 ?_).mono fun d5 hd5 => ?_
      · intro i d' F' h1 h2 hF' hsame
        refine (hF'.wr (show i < m by omega) (show k < m by omega) 0).mono fun d'' h => h.congr fun r c _ _ => ?_
        have := hsame i c (by omega)
        by_cases e : r = i
        · subst e
          by_cases e2 : c = k
          · rw [e2, upd_same, if_pos rfl, if_pos rfl]
          · rw [upd_ne (by tauto), if_pos rfl, if_neg e2, this, upd_ne (by omega), if_neg (by omega)]
        · rw [upd_ne (by tauto), if_neg e]
      set Z' : Nat → Nat → α := fun i j => if j < k then Z i j else if j = k then (if i < k then 0 else
        if i = k then 1 + -(U k k) else -(U i k)) else appc k m (fun i => U i k) (fun i => Z i j) i with hZ'
      refine ⟨_, Z', hd5, ?_, ?_, ?_, ?_⟩
      · intro i j h1 h2 h3
        simp only [hZ']
        rw [if_neg (show ¬ j < k by omega)]
        by_cases e : j = k
        · subst e
          by_cases e1 : i < j
          · rw [if_pos (by omega), if_pos rfl, if_pos rfl, if_pos e1]
          · rw [if_neg (by omega), if_pos rfl, if_neg e1]
            by_cases e2 : i = j
            · rw [e2, upd_same, if_pos rfl]
            · rw [upd_ne (by tauto), if_pos ⟨by omega, h1⟩, if_pos rfl, if_neg e2]
        · by_cases e1 : i < k
          · rw [if_pos (by omega), if_neg e, if_pos (by omega), if_neg e]
          · rw [if_neg (by omega), upd_ne (by tauto), if_pos ⟨by omega, h1⟩, if_neg e, if_pos (by omega), if_neg e]
      · intro t i h1 h2 h3
        have e0 : t ≠ k := by omega
        by_cases e1 : i < k
        · rw [if_pos (by omega), if_neg e0, if_neg (by omega), g3 t i (by omega) h2 h3]
        · rw [if_neg (by omega), upd_ne (by tauto), if_pos ⟨by omega, h3⟩, if_neg e0, if_neg (by omega), g3 t i (by omega) h2 h3]
      · intro i j h1 h2
        simp only [hZ']
        rw [if_pos h2, g4 i j h1 (by omega)]
      · have hre := ((genU_err (Z := Z) (h.u k hk) h0' (by omega) g4).frob (kr_nonneg m) (h.u k hk).norm (h.u k hk).nonneg).trans
          (mul_le_mul_of_nonneg_right hκ (frob_nonneg _))
        rw [hsub, prodR]
        exact lside_step hκ0 (prodR_orth _ _ fun t ht => hor t (by omega)) (hor k hk) g5 hre
  · rintro d ⟨F1, Z, g1, g2, -, -, g5⟩
    refine ⟨Z, g1.congr fun i j hi hj => g2 i j hi (Nat.zero_le _) hj, ?_⟩
    have e1 : prodL (lref m ta) nct = prodR (lref m ta) 0 (nct - 0) := by
      rw [← Matrix.one_mul (prodR _ _ _), show (1 : Matrix (Fin m) (Fin m) ℝ) = prodL (lref m ta) 0 from rfl, prodL_mul_prodR]
      congr 1
      omega
    rw [e1]
    exact g5

theorem genV_err {m n k : Nat} {a : Nat → ℝ} {x : Nat → α} {ek : α} {Z : Nat → Nat → α} (h : HR (4 * m + 2) (k + 1) n a x ek) (h0 : val ek ≠ 0)
    (hnm : n ≤ m) (hZ : ∀ i j, i < n → j < k + 1 → Z i j = if i = j then 1 else 0) :
    RefErr (kr α m) (k + 1) n n a (tt Z) (tt fun i j => if j < k + 1 then Z i j else appc (k + 1) n x (fun i => Z i j) i) := by
  intro i j hi hj
  have hb := bnd_nonneg (N := n) (f := fun t => tt Z t j) h.nonneg i
  by_cases h1 : k + 1 ≤ i
  swap
  · rw [if_neg h1, mul_zero, refc, if_neg h1]
    simp only [tt]
    rw [appc, if_neg h1, ite_self, sub_self, abs_zero]
  rw [if_pos h1, refc, if_pos h1]
  by_cases hjk : j < k + 1
  · have hs : ∑ t ∈ Ico (k + 1) n, a t * tt Z t j = 0 := by
      refine Finset.sum_eq_zero fun t ht => ?_
      rw [Finset.mem_Ico] at ht
      rw [tt, hZ t j ht.2 (by omega), if_neg (by omega), Sfp.zero, mul_zero]
    have e1 : tt (fun i j => if j < k + 1 then Z i j else appc (k + 1) n x (fun i => Z i j) i) i j = tt Z i j := by
      simp only [tt]; rw [if_pos hjk]
    rw [hs, neg_zero, zero_div, zero_mul, add_zero, e1, sub_self, abs_zero]
    exact mul_nonneg (kr_nonneg m) hb
  · have e1 : tt (fun i j => if j < k + 1 then Z i j else appc (k + 1) n x (fun i => Z i j) i) i j =
        val (appC (k + 1) n ek x (fun i => Z i j) i) := by
      simp only [tt]; rw [if_neg hjk, appC, if_neg fun hh => h0 (eq_zero_iff.1 hh)]
    rw [e1]
    exact h.appC hnm (fun i => Z i j) h1 hi

theorem genV_post {m n nct nrt : Nat} {κ C : ℝ} {A : Matrix (Fin m) (Fin n) ℝ} {b : Bid α} {s e : Nat → α} {U V : Nat → Nat → α}
    {ta tb : Nat → Nat → ℝ} (hκ : 3 * kr α m ≤ κ) (h : BD m n nct nrt κ C A b s e U V ta tb) (hnm : n ≤ m) (hrn : ∀ k, k < nrt → k + 1 < n) :
    Post (genV n nrt b.e b.v) fun d => ∃ Z, FullG d n n Z ∧
      frob (pk n n (tt Z) - prodL (rref n nrt tb) n) ≤ ((1 + κ) ^ n - 1) * Real.sqrt n := by
  have hκ0 : 0 ≤ κ := le_trans (mul_nonneg (by norm_num) (kr_nonneg m)) hκ
  have hor : ∀ t, Orth (rref n nrt tb t) := fun t => by
    unfold rref
    split
    · exact hhl_orth (h.v t ‹_›).norm
    · exact orth_one
  obtain ⟨F, hF, hFV⟩ := h.bv
  unfold genV
  refine (loopRev_post (lo := 0) (hi := n)
    (fun k d => ∃ F Z, Grid d n n F ∧ (∀ i j, i < n → k ≤ j → j < n → F i j = some (Z i j)) ∧
      (∀ t i, t < k → t < nrt → t + 1 ≤ i → i < n → F i t = some (V i t)) ∧
      (∀ i j, i < n → j < k → Z i j = if i = j then 1 else 0) ∧
      frob (pk n n (tt Z) - prodR (rref n nrt tb) k (n - k)) ≤ ((1 + κ) ^ (n - k) - 1) * Real.sqrt n) (Nat.zero_le _) ?_ ?_).mono ?_
  · refine ⟨_, fun i j => if i = j then 1 else 0, hF, fun i j _ h1 h2 => by omega, fun t i _ h1 => hFV t i h1, fun _ _ _ _ => rfl, ?_⟩
    refine frob_zero_le hκ0 ?_
    rw [Nat.sub_self, prodR]
    exact pk_unit' fun _ _ _ _ => rfl
  · rintro k d - hk ⟨F1, Z, g1, g2, g3, g4, g5⟩
    have hsub : n - k = (n - (k + 1)) + 1 := by omega
    obtain ⟨d2, hr2, F2, Z2, q1, q2, q3, q4, q5⟩ : Post (if k < nrt then
          (do if !(FloatOps.eq (← rd b.e k) 0) then loop (k + 1) n d fun j v => reflectCol n (k + 1) k j v else return d)
          else (pure d : R (Buf α)))
        (fun d' => ∃ F2 Z2, Grid d' n n F2 ∧ (∀ i j, i < n → k + 1 ≤ j → j < n → F2 i j = some (Z2 i j)) ∧
          (∀ t i, t < k → t < nrt → t + 1 ≤ i → i < n → F2 i t = some (V i t)) ∧
          (∀ i j, i < n → j < k + 1 → Z2 i j = if i = j then 1 else 0) ∧
          frob (pk n n (tt Z2) - prodR (rref n nrt tb) k (n - k)) ≤ ((1 + κ) ^ (n - k) - 1) * Real.sqrt n) := by
      by_cases hn : k < nrt
      · rw [if_pos hn, h.be.rd (i := k) hk]
        simp only [ok_bind]
        by_cases h0 : FloatOps.eq (e k) 0 = true
        · rw [if_neg (by simpa using h0)]
          have hone : rref n nrt tb k = 1 := by
            rw [rref, if_pos hn]; exact hhl_zero (hrn k hn) ((h.v k hn).zero (eq_zero_iff.1 h0))
          refine Post.pure ⟨F1, Z, g1, g2, fun t i h1 => g3 t i (by omega), g4, ?_⟩
          rw [hsub, prodR, hone, Matrix.one_mul]
          exact g5.trans (pw_mono hκ0 (by omega))
        · rw [if_pos (by simpa using h0)]
          have h0' : val (e k) ≠ 0 := fun hh => h0 (eq_zero_iff.2 hh)
          refine (reflectCols_post (Z := Z) (x := fun i => V i k) g1 hk (hrn k hn) (fun i h1 h2 => g3 k i (by omega) hn h1 h2)
            (fun i j h1 h2 h3 => g2 i j h1 h2 h3) ((h.v k hn).ne (hrn k hn) h0')).mono fun d2 hd2 =>
            ⟨_, fun i j => if j < k + 1 then Z i j else appc (k + 1) n (fun i => V i k) (fun i => Z i j) i, hd2, ?_, ?_, ?_, ?_⟩
          · intro i j _ h2 _
            beta_reduce
            rw [if_pos h2, if_neg (by omega)]
          · intro t i h1 h2 h3 h4
            rw [if_neg (by omega), g3 t i (by omega) h2 h3 h4]
          · intro i j h1 h2
            beta_reduce
            rw [if_pos h2, g4 i j h1 (by omega)]
          · have hre := ((genV_err (Z := Z) (h.v k hn) h0' hnm g4).frob (kr_nonneg m) (h.v k hn).norm (h.v k hn).nonneg).trans
              (mul_le_mul_of_nonneg_right hκ (frob_nonneg _))
            have hrr : rref n nrt tb k = hhl n (k + 1) (fun i => tb i k) := by rw [rref, if_pos hn]
            rw [hsub, prodR]
            exact lside_step hκ0 (prodR_orth _ _ fun t _ => hor t) (hor k) g5 (by rw [hrr]; exact hre)
      · rw [if_neg hn]
        refine Post.pure ⟨F1, Z, g1, g2, fun t i h1 => g3 t i (by omega), g4, ?_⟩
        rw [hsub, prodR, rref, if_neg hn, Matrix.one_mul]
        exact g5.trans (pw_mono hκ0 (by omega))
    rw [hr2, ok_bind]
    refine (unitCol_post q1 hk).mono fun d' hd' => ⟨_, Z2, hd', ?_, ?_, fun i j h1 h2 => q4 i j h1 (by omega), q5⟩
    · intro i j h1 h2 h3
      by_cases e : j = k
      · rw [if_pos e, q4 i j h1 (by omega), e]
      · rw [if_neg e, q2 i j h1 (by omega) h3]
    · intro t i h1 h2 h3 h4
      rw [if_neg (by omega), q3 t i h1 h2 h3 h4]
  · rintro d ⟨F1, Z, g1, g2, -, -, g5⟩
    refine ⟨Z, g1.congr fun i j hi hj => g2 i j hi (Nat.zero_le _) hj, ?_⟩
    have e1 : prodL (rref n nrt tb) n = prodR (rref n nrt tb) 0 (n - 0) := by
      rw [← Matrix.one_mul (prodR _ _ _), show (1 : Matrix (Fin n) (Fin n) ℝ) = prodL (rref n nrt tb) 0 from rfl, prodL_mul_prodR]
      congr 1
      omega
    rw [e1]
    exact g5

end Std
end LA
