import Verif.Proofs.StdOrth2
import Verif.Proofs.StdEigNew
import Verif.Proofs.EigNonsym

/-! # `EigenDecomposition::new` on matrices that are not symmetric, in rounded arithmetic: the eigenvalues -/

set_option linter.unusedSectionVars false

namespace LA
open Finset Matrix
namespace Std
open Sfp SVD
open Eigen (Sm hz hess orthes orthAcc orthAccCol orthStep tmk Tt tadd exd Blk Hqr hqrLoop hqrNorm hqr2 isSymm PostF)

variable {α : Type} [Zero α] [One α] [Add α] [Sub α] [Neg α] [Mul α] [FloatOps α] [Sfp α]

theorem loopRev_inv_ok {σ : Type} {lo hi : Nat} {s t : σ} {f : Nat → σ → R σ} (I : σ → Prop) (h : loopRev lo hi s f = .ok t)
    (h0 : I s) (hstep : ∀ i s s', lo ≤ i → i < hi → I s → f i s = .ok s' → I s') : I t := by
  by_cases hle : lo ≤ hi
  · induction hi, hle using Nat.le_induction generalizing s with
    | base => rw [loopRev_empty le_rfl] at h; cases h; exact h0
    | succ k hk ih =>
      rw [loopRev_succ hk, bind_eq_ok] at h
      obtain ⟨s', h1, h2⟩ := h
      exact ih h2 (hstep k s s' hk (by omega) h0 h1) fun i a b h3 h4 => hstep i a b h3 (by omega)
  · rw [loopRev_empty (by omega)] at h; cases h; exact h0

/-- All entries are initialised. -/
def Init (n : Nat) (v : Buf α) : Prop := ∃ W : Nat → Nat → α, FullG v n n W

theorem Init.wr {n : Nat} {v v' : Buf α} (h : Init n v) {i j : Nat} (hi : i < n) (hj : j < n) {x : α} (hw : LA.wr v (i * n + j) x = .ok v') :
    Init n v' := by
  obtain ⟨W, hW⟩ := h
  obtain ⟨d, h1, h2⟩ := hW.wr hi hj x
  rw [hw] at h1
  cases h1
  exact ⟨_, h2⟩

theorem orthAcc_init {n m : Nat} {h ort v : Buf α} {r : Buf α × Buf α} (hv : Init n v) (hr : orthAcc n m h ort v = .ok r) : Init n r.2 := by
  unfold orthAcc at hr
  rw [bind_eq_ok] at hr
  obtain ⟨p, -, hr⟩ := hr
  split at hr
  · rw [bind_eq_ok] at hr
    obtain ⟨ort1, -, hr⟩ := hr
    rw [bind_eq_ok] at hr
    obtain ⟨v1, h1, hr⟩ := hr
    cases hr
    by_cases hle : m ≤ n
    · refine loop_inv_ok (fun _ v => Init n v) hle h1 hv ?_
      intro j v2 v3 _ hj hv2 h2
      unfold orthAccCol at h2
      rw [bind_eq_ok] at h2
      obtain ⟨g, -, h2⟩ := h2
      rw [bind_eq_ok] at h2
      obtain ⟨om, -, h2⟩ := h2
      rw [bind_eq_ok] at h2
      obtain ⟨g1, -, h2⟩ := h2
      rw [bind_eq_ok] at h2
      obtain ⟨hm, -, h2⟩ := h2
      rw [bind_eq_ok] at h2
      obtain ⟨g2, -, h2⟩ := h2
      refine loop_inv_ok (fun _ v => Init n v) hle h2 hv2 ?_
      intro i v4 v5 _ hi hv4 h3
      rw [bind_eq_ok] at h3
      obtain ⟨a, -, h3⟩ := h3
      rw [bind_eq_ok] at h3
      obtain ⟨b, -, h3⟩ := h3
      exact hv4.wr hi hj h3
    · rw [loop_empty (by omega)] at h1
      cases h1
      exact hv
  · cases hr
    exact hv

theorem fillI_post {n : Nat} {v : Buf α} {G : Nat → Nat → Option α} (hv : Grid v n n G) :
    Post (loop 0 n v fun i v => loop 0 n v fun j v => LA.wr v (i * n + j) (if i = j then (1 : α) else 0)) fun r => Init n r := by
  suffices h : Post (loop 0 n v fun i v => loop 0 n v fun j v => LA.wr v (i * n + j) (if i = j then (1 : α) else 0)) fun r =>
      FullG r n n (fun a b => if a = b then (1 : α) else 0) from h.mono fun r hr => ⟨_, hr⟩
  refine (loop_rows (lo := 0) (hi := n) (fun a b => some (if a = b then (1 : α) else 0)) hv ?_).mono fun r h =>
    h.congr fun a b ha _ => by rw [if_pos ⟨by omega, ha⟩]
  intro i d' G' _ hi hG _
  refine (loop_cols (lo := 0) (hi := n) (fun a b => if a = i then some (if a = b then (1 : α) else 0) else G' a b) hG ?_).mono
    fun r h => h.congr fun a b _ hb => by
      by_cases e : a = i
      · subst e; rw [if_pos ⟨by omega, hb⟩]
      · rw [if_pos ⟨by omega, hb⟩, if_neg e, if_neg e]
  intro j d2 G2 _ hj hG2 h2
  refine (hG2.wr hi hj _).mono fun r h => h.congr fun a b ha hb => ?_
  have h3 := h2 a b
  clear h2
  by_cases e : b = j
  · subst e
    rw [if_pos rfl]
    by_cases e2 : a = i
    · subst e2; simp
    · rw [upd_ne (by omega), if_neg e2, h3 (by omega)]
  · rw [upd_ne (by omega), if_neg e]

theorem orthes_ok {n : Nat} {h v : Buf α} {F0 : Nat → Nat → α} {G : Nat → Nat → Option α} (hn : 2 ≤ n) (hh : FullG h n n F0)
    (hv : Grid v n n G) {r : Buf α × Buf α} (hr : orthes n h v = .ok r) :
    ∃ F V E, FullG r.1 n n F ∧ Init n r.2 ∧ Sm n (pk n n (tt F0)) V (hess (tt F)) E ∧
      frob (pk n n (tt F0)) + E ≤ (1 + 3 * ko α n) ^ (2 * n) * frob (pk n n (tt F0)) := by
  have hk := ko_nonneg (α := α) (n := n)
  set A := pk n n (tt F0) with hA
  have hFA := frob_nonneg A
  unfold orthes at hr
  rw [usub_ok (show 1 ≤ n by omega), ok_bind] at hr
  obtain ⟨⟨h1, ort1⟩, hr1, F, V, E, hI, hE⟩ : Post (loop 1 (n - 1) (h, alloc α n) fun m (x : Buf α × Buf α) => (do let (h, ort) := x; orthStep n m h ort : LA.R (Buf α × Buf α)))
      fun r => ∃ F V E, OI n (n - 1) A E r.1 r.2 F V ∧ frob A + E ≤ (1 + 3 * ko α n) ^ (2 * (n - 1 - 1)) * frob A := by
    refine loop_post (lo := 1) (hi := n - 1) (fun c (r : Buf α × Buf α) => ∃ F V E, OI n c A E r.1 r.2 F V ∧
      frob A + E ≤ (1 + 3 * ko α n) ^ (2 * (c - 1)) * frob A) (by omega) ⟨F0, fun a b => if a = b then 1 else 0, 0, ⟨hh, ⟨fun _ => 0, part_alloc n _⟩, ?_, ?_⟩, by simp⟩ ?_
    · have : pk n n (fun a b => if a = b then (1 : ℝ) else 0) = 1 := by
        ext a b
        rw [Matrix.one_apply]
        show (if a.1 = b.1 then (1 : ℝ) else 0) = _
        simp [Fin.ext_iff]
      rw [this]
      exact orth_one
    · have : pk n n (fun a b => if a = b then (1 : ℝ) else 0) = 1 := by
        ext a b
        rw [Matrix.one_apply]
        show (if a.1 = b.1 then (1 : ℝ) else 0) = _
        simp [Fin.ext_iff]
      rw [this, Matrix.one_mul, transpose_one, Matrix.mul_one]
      have e2 : pk n n (hz 1 (tt F0)) = A := pk_congr fun a b _ _ => by unfold hz; rw [if_neg (by omega)]
      rw [e2, sub_self, Eigen.frob_zero]
    · rintro m ⟨h2, ort2⟩ k1 k2 ⟨F, V, E, k3, k4⟩
      refine (orthStep_ok k3 k1 (by omega)).mono ?_
      rintro r ⟨F', V', E', q1, q2⟩
      refine ⟨F', V', E', q1, q2.trans ?_⟩
      rw [show 2 * (m + 1 - 1) = 2 + 2 * (m - 1) by omega, pow_add, mul_assoc]
      exact mul_le_mul_of_nonneg_left k4 (by positivity)
  erw [hr1] at hr
  rw [ok_bind] at hr
  dsimp only at hr hI
  obtain ⟨v1, hr2, hv1⟩ := fillI_post hv
  rw [hr2, ok_bind, bind_eq_ok] at hr
  obtain ⟨⟨ort3, v3⟩, hr3, hr⟩ := hr
  cases hr
  refine ⟨F, V, E, hI.h, ?_, hI.sm.congr fun a b ha hb => ?_, hE.trans (mul_le_mul_of_nonneg_right (pow_le_pow_right₀ (by linarith) (by omega)) hFA)⟩
  · refine loopRev_inv_ok (s := (ort1, v1)) (t := (ort3, v3)) (fun x : Buf α × Buf α => Init n x.2) hr3 hv1 ?_
    rintro m ⟨o4, v4⟩ s' _ _ h5 h6
    exact orthAcc_init h5 h6
  · unfold hz hess
    by_cases h5 : b + 1 < a
    · rw [if_pos h5, if_pos (by omega)]
    · rw [if_neg h5, if_neg (by omega)]

theorem isSymm_false {n : Nat} {A : Matrix (Fin n) (Fin n) α} (hA : ¬ (vm A).IsSymm) : isSymm n (ofM A) = .ok false := by
  have hin : ∀ j, j < n → Post (loopF 0 n () fun i _ => (do
      if FloatOps.eq (← (ofM A).get i j) (← (ofM A).get j i) then return Flow.next () else return Flow.ret false : LA.R (Flow Unit Bool))) fun o =>
        match o with
        | .next _ => ∀ i, i < n → val (ext A i j) = val (ext A j i)
        | .ret r => r = false := by
    intro j hj
    refine (loopF_post (fun k _ => ∀ i, i < k → val (ext A i j) = val (ext A j i)) (fun r => r = false) (Nat.zero_le _) (fun i hi => absurd hi (by omega)) ?_).mono fun o ho => ?_
    · intro i _ _ hi hI
      rw [ofM_get A hi hj, ok_bind, ofM_get A hj hi, ok_bind]
      by_cases h : val (A ⟨i, hi⟩ ⟨j, hj⟩) = val (A ⟨j, hj⟩ ⟨i, hi⟩)
      · rw [if_pos ((Sfp.eq _ _).2 h)]
        refine Post.ok fun a ha => ?_
        by_cases hai : a = i
        · subst hai; rw [ext_eq A hi hj, ext_eq A hj hi]; exact h
        · exact hI a (by omega)
      · rw [if_neg fun h' => h ((Sfp.eq _ _).1 h')]
        exact Post.ok rfl
    · cases o <;> exact ho
  unfold isSymm
  have hout := loopF_post (lo := 0) (hi := n) (s := ()) (f := fun j _ => (do
      match ← loopF 0 n () fun i _ => (do
        if FloatOps.eq (← (ofM A).get i j) (← (ofM A).get j i) then return Flow.next () else return Flow.ret false : LA.R (Flow Unit Bool)) with
      | .next _ => return Flow.next ()
      | .ret b => return Flow.ret b : LA.R (Flow Unit Bool))) (fun k _ => ∀ j, j < k → ∀ i, i < n → val (ext A i j) = val (ext A j i)) (fun r => r = false) (Nat.zero_le _)
      (fun i hi => absurd hi (by omega)) (by
    intro j _ _ hj hI
    obtain ⟨o, hro, ho⟩ := hin j hj
    rw [hro, ok_bind]
    cases o with
    | next _ =>
      refine Post.ok fun a ha => ?_
      by_cases haj : a = j
      · subst haj; exact ho
      · exact hI a (by omega)
    | ret r => exact Post.ok ho)
  obtain ⟨o, hro, ho⟩ := hout
  erw [hro]
  rw [ok_bind]
  cases o with
  | next _ =>
    exfalso
    refine hA (Matrix.IsSymm.ext fun i j => ?_)
    have := ho i i.2 j j.2
    rwa [ext_fin, ext_fin] at this
  | ret r => dsimp only at ho; rw [ho]; rfl

theorem fillH_post {n : Nat} (A : Matrix (Fin n) (Fin n) α) :
    Post (loop 0 n (alloc α (n * n)) fun j h => loop 0 n h fun i h => do LA.wr h (i * n + j) (← (ofM A).get i j)) fun v =>
      FullG v n n (ext A) := by
  refine (loop_cols (lo := 0) (hi := n) (fun a b => some (ext A a b)) (grid_alloc n n) ?_).mono fun r h =>
    h.congr fun a b _ hb => by rw [if_pos ⟨by omega, hb⟩]
  intro j d' G' _ hj hG _
  refine (loop_rows (lo := 0) (hi := n) (fun a b => if b = j then some (ext A a b) else G' a b) hG ?_).mono fun r h =>
    h.congr fun a b ha _ => by
      by_cases e : b = j
      · subst e; rw [if_pos ⟨by omega, ha⟩, if_pos rfl]
      · rw [if_pos ⟨by omega, ha⟩, if_neg e, if_neg e]
  intro i d2 G2 _ hi hG2 h2
  rw [ofM_get A hi hj, ok_bind]
  refine (hG2.wr hi hj _).mono fun r h => h.congr fun a b ha hb => ?_
  have h3 := h2 a b
  have h4 := ext_eq A hi hj
  clear h2
  by_cases e : a = i
  · subst e
    rw [if_pos rfl]
    by_cases e2 : b = j
    · subst e2; simp [h4]
    · rw [upd_ne (by omega), if_neg e2, h3 (by omega)]
  · rw [upd_ne (by omega), if_neg e]

/-- The bound of the computed norm. -/
noncomputable def nrmB (α : Type) [Zero α] [One α] [Add α] [Sub α] [Neg α] [Mul α] [FloatOps α] [Sfp α] (n : Nat) : ℝ :=
  w α ^ (n * n) * n * (1 + 3 * ko α n) ^ (2 * n)

theorem new_gen {n : Nat} {A : Matrix (Fin n) (Fin n) α} (hA : ¬ (vm A).IsSymm) (hkh : kh α ≤ 1) (hko : (1 + 3 * ko α n) ^ (2 * n) < 2)
    {fuel : Nat} {x : Eigen α} (hx : Eigen.new fuel (ofM A) = .ok x) :
    ∃ (d e : Nat → α) (X V : Nat → Nat → ℝ) (E : ℝ), x.n = n ∧ (x.d = List.ofFn fun i : Fin n => d i) ∧ (x.e = List.ofFn fun i : Fin n => e i) ∧
      Sm n (vm A) V (tmk 0 (vv e) X) E ∧ Blk n 0 (vv d) (vv e) X ∧
      frob (vm A) + E ≤ phi α n (nrmB α n) ^ fuel * (1 + 3 * ko α n) ^ (2 * n) * frob (vm A) := by
  have hw : 1 ≤ w α := w_one
  have hk := ko_nonneg (α := α) (n := n)
  have hn : 2 ≤ n := by
    by_contra h
    refine hA (Matrix.IsSymm.ext fun i j => ?_)
    have h1 := i.2
    have h2 := j.2
    have : i = j := Fin.ext (by omega)
    rw [this]
  have hA0 : vm A ≠ 0 := by intro h0; rw [h0] at hA; exact hA (Matrix.isSymm_zero)
  have hFA : 0 < frob (vm A) := by
    refine lt_of_le_of_ne (frob_nonneg _) fun h0 => hA0 ?_
    ext i j
    have := abs_le_frob (vm A) i j
    rw [← h0] at this
    exact abs_nonpos_iff.1 this
  unfold Eigen.new Eigen.newWith at hx
  obtain ⟨h, hh, hg⟩ := fillH_post A
  rw [ofM_cols A (by omega), ok_bind] at hx
  dsimp only at hx
  rw [isSymm_false hA, ok_bind, if_neg (by simp), hh, ok_bind, bind_eq_ok] at hx
  obtain ⟨⟨h1, v1⟩, hr1, hx⟩ := hx
  dsimp only at hx
  obtain ⟨F, V, E, g1, g2, g3, g4⟩ := orthes_ok hn hg (grid_alloc n n) hr1
  have e1 : pk n n (tt (ext A)) = vm A := by ext a b; show val (ext A a b) = _; rw [ext_fin]; rfl
  rw [e1] at g3 g4
  dsimp only at g1 g2
  rw [bind_eq_ok] at hx
  obtain ⟨st, hst, hx⟩ := hx
  unfold hqr2 at hst
  obtain ⟨norm, hnr, k, hk1, hnorm⟩ := hqrNorm_ok g1
  rw [hnr, ok_bind, bind_eq_ok] at hst
  obtain ⟨o, hro, hst⟩ := hst
  have hE0 := g3.nonneg
  have hs1 : ∑ i ∈ range n, ∑ j ∈ Ico (i - 1) n, |val (F i j)| = ∑ i : Fin n, ∑ j : Fin n, |pk n n (hess (tt F)) i j| := by
    rw [Finset.range_eq_Ico]
    exact Eigen.norm_eq (H := tt F)
  have hlow : 0 < frob (pk n n (hess (tt F))) := by
    have h5 := frob_add_le (vm A - pk n n V * pk n n (hess (tt F)) * (pk n n V)ᵀ) (pk n n V * pk n n (hess (tt F)) * (pk n n V)ᵀ)
    rw [sub_add_cancel, Eigen.frob_conj _ g3.orth] at h5
    have h6 := g3.err
    have h7 := mul_lt_mul_of_pos_right hko hFA
    linarith
  have hsp : 0 < ∑ i : Fin n, ∑ j : Fin n, |pk n n (hess (tt F)) i j| := by
    refine lt_of_le_of_ne (Finset.sum_nonneg fun i _ => Finset.sum_nonneg fun j _ => abs_nonneg _) fun h0 => ?_
    have h5 : pk n n (hess (tt F)) = 0 := by
      ext i j
      have h6 := (Finset.sum_eq_zero_iff_of_nonneg (fun i _ => Finset.sum_nonneg fun j _ => abs_nonneg _)).1 h0.symm i (Finset.mem_univ _)
      have h7 := (Finset.sum_eq_zero_iff_of_nonneg (fun j _ => abs_nonneg _)).1 h6 j (Finset.mem_univ _)
      exact abs_eq_zero.1 h7
    rw [h5, Eigen.frob_zero] at hlow
    exact lt_irrefl _ hlow
  rw [hs1] at hnorm
  have hnp : 0 < val norm := hnorm.pos hw hsp
  have hN0 : 0 ≤ nrmB α n := by
    unfold nrmB
    have := pw_pos hw (n * n)
    positivity
  have hnle : val norm ≤ nrmB α n * frob (vm A) := by
    have h5 := (hnorm.mono hw hk1).le hw hsp.le
    have h6 := Eigen.sum_abs_le (pk n n (hess (tt F)))
    have h7 := g3.nrm.trans g4
    have hp := pw_pos hw (n * n)
    refine h5.trans ((mul_le_mul_of_nonneg_left (h6.trans (mul_le_mul_of_nonneg_left h7 (Nat.cast_nonneg _))) hp.le).trans (le_of_eq ?_))
    unfold nrmB
    ring
  have hI : HI n n (vm A) E ⟨alloc α n, alloc α n, h1, v1, 0, 0⟩ F (tt F) V (fun _ => 0) (fun _ => 0) := by
    refine ⟨g1, g2, (part_alloc n (fun _ => (0 : α))).mono fun i hi h => by omega, (part_alloc n (fun _ => (0 : α))).mono fun i hi h => by omega, fun _ _ _ => rfl, ?_, ?_, ?_⟩
    · refine g3.congr fun a b ha hb => ?_
      unfold hess Tt tadd tmk exd
      rw [Sfp.zero]
      by_cases h5 : b + 1 < a
      · rw [if_pos h5, if_pos h5, if_neg (by omega), add_zero]
      · rw [if_neg h5, if_neg h5, if_neg (by omega), ite_self, add_zero]
    · show |val (0 : α)| ≤ _
      rw [Sfp.zero, abs_zero]
      linarith
    · refine ⟨fun i h1 h2 => by omega, fun i h1 h2 => by omega, fun i _ h3 => ?_⟩
      exfalso
      have : val (0 : α) < 0 := h3
      rw [Sfp.zero] at this
      exact lt_irrefl _ this
  rcases hqrLoop_ok hkh hN0 hnp hnle fuel n _ E F (tt F) V _ _ le_rfl hI with h5 | ⟨o', h5, E', F', X, V', d, e, hI', hE'⟩
  · rw [hro] at h5; cases h5
  rw [hro] at h5
  cases h5
  have hde : st.d = o.d ∧ st.e = o.e := by
    split at hst
    · cases hst; exact ⟨rfl, rfl⟩
    · rw [bind_eq_ok] at hst
      obtain ⟨h6, -, hst⟩ := hst
      rw [bind_eq_ok] at hst
      obtain ⟨v6, -, hst⟩ := hst
      cases hst; exact ⟨rfl, rfl⟩
  have fd : Full o.d n d := hI'.dd.full fun i _ => Nat.zero_le _
  have fe : Full o.e n e := hI'.ee.full fun i _ => Nat.zero_le _
  rw [hde.1, hde.2, Vect.freeze fd d (fun i _ => rfl), ok_bind, Vect.freeze fe e (fun i _ => rfl), ok_bind, bind_eq_ok] at hx
  obtain ⟨vl, -, hx⟩ := hx
  rw [bind_eq_ok] at hx
  obtain ⟨vm', -, hx⟩ := hx
  cases hx
  refine ⟨d, e, X, V', E', rfl, rfl, rfl, hI'.sm.congr fun a b _ _ => ?_, hI'.blk, ?_⟩
  · unfold Tt tadd exd
    rw [if_neg (by omega), add_zero]
  · refine hE'.trans ?_
    rw [mul_assoc]
    refine mul_le_mul_of_nonneg_left g4 ?_
    have h1 : 0 ≤ phi α n (nrmB α n) := by
      unfold phi
      have := ks_nonneg (α := α) (nn := n)
      have := kh_nonneg (α := α)
      have := ep_pos
      positivity
    positivity

end Std
end LA
