import Verif.Proofs.EigVecs
import Verif.Proofs.EigNew
import Mathlib.LinearAlgebra.Matrix.Charpoly.Basic
import Mathlib.LinearAlgebra.Matrix.Charpoly.Coeff
import Mathlib.Data.Complex.BigOperators

/-! # `EigenDecomposition::new` on a matrix that is not symmetric -/

set_option linter.unusedSectionVars false

namespace LA
open Finset Matrix
namespace Eigen
open SVD (pk pk_congr)

theorem isSymm_false {n : Nat} {A : Matrix (Fin n) (Fin n) ℝ} (hA : ¬ A.IsSymm) : isSymm n (ofM A) = .ok false := by
  have hin : ∀ j, j < n → Post (loopF 0 n () fun i _ => (do
      if FloatOps.eq (← (ofM A).get i j) (← (ofM A).get j i) then return Flow.next () else return Flow.ret false : R (Flow Unit Bool))) fun o =>
        match o with
        | .next _ => ∀ i, i < n → ext A i j = ext A j i
        | .ret r => r = false := by
    intro j hj
    refine (loopF_post (fun k _ => ∀ i, i < k → ext A i j = ext A j i) (fun r => r = false) (Nat.zero_le _) (fun i hi => absurd hi (by omega)) ?_).mono fun o ho => ?_
    · intro i _ _ hi hI
      rw [ofM_get A hi hj, ok_bind, ofM_get A hj hi, ok_bind, eq_eq]
      by_cases h : A ⟨i, hi⟩ ⟨j, hj⟩ = A ⟨j, hj⟩ ⟨i, hi⟩
      · rw [if_pos (by simpa using h)]
        refine Post.ok fun a ha => ?_
        by_cases hai : a = i
        · subst hai; rw [ext_eq A hi hj, ext_eq A hj hi]; exact h
        · exact hI a (by omega)
      · rw [if_neg (by simpa using h)]
        exact Post.ok rfl
    · cases o <;> exact ho
  unfold isSymm
  have hout := loopF_post (lo := 0) (hi := n) (s := ()) (f := fun j _ => (do
      match ← loopF 0 n () fun i _ => (do
        if FloatOps.eq (← (ofM A).get i j) (← (ofM A).get j i) then return Flow.next () else return Flow.ret false : R (Flow Unit Bool)) with
      | .next _ => return Flow.next ()
      | .ret b => return Flow.ret b : R (Flow Unit Bool))) (fun k _ => ∀ j, j < k → ∀ i, i < n → ext A i j = ext A j i) (fun r => r = false) (Nat.zero_le _)
      (fun i hi => absurd hi (by omega)) (by
    intro j _ _ hj hI
    obtain ⟨o, hro, ho⟩ := hin j hj
    rw [hro, ok_bind]
    cases o with
    | next _ =>
      refine Post.ok fun a ha => ?_
      by_cases haj : a = j
      · subst haj; exact ho
      · exact hI a (by omega)
    | ret r => exact Post.ok ho)
  obtain ⟨o, hro, ho⟩ := hout
  erw [hro]
  rw [ok_bind]
  cases o with
  | next _ =>
    exfalso
    refine hA (Matrix.IsSymm.ext fun i j => ?_)
    have := ho i i.2 j j.2
    rwa [ext_fin, ext_fin] at this
  | ret r => dsimp only at ho; rw [ho]; rfl

theorem fillH_post {n : Nat} (A : Matrix (Fin n) (Fin n) ℝ) :
    Post (loop 0 n (alloc ℝ (n * n)) fun j h => loop 0 n h fun i h => do wr h (i * n + j) (← (ofM A).get i j)) fun v =>
      FullG v n n (ext A) := by
  refine (loop_cols (lo := 0) (hi := n) (fun a b => some (ext A a b)) (grid_alloc n n) ?_).mono fun r h =>
    h.congr fun a b _ hb => by rw [if_pos ⟨by omega, hb⟩]
  intro j d' G' _ hj hG _
  refine (loop_rows (lo := 0) (hi := n) (fun a b => if b = j then some (ext A a b) else G' a b) hG ?_).mono fun r h =>
    h.congr fun a b ha _ => by
      by_cases e : b = j
      · subst e; rw [if_pos ⟨by omega, ha⟩, if_pos rfl]
      · rw [if_pos ⟨by omega, ha⟩, if_neg e, if_neg e]
  intro i d2 G2 _ hi hG2 h2
  rw [ofM_get A hi hj, ok_bind]
  refine (hG2.wr hi hj _).mono fun r h => h.congr fun a b ha hb => ?_
  have h3 := h2 a b
  have h4 := ext_eq A hi hj
  clear h2
  by_cases e : a = i
  · subst e
    rw [if_pos rfl]
    by_cases e2 : b = j
    · subst e2; simp [h4]
    · rw [upd_ne (by omega), if_neg e2, h3 (by omega)]
  · rw [upd_ne (by omega), if_neg e]

theorem new_nonsym {n : Nat} {A : Matrix (Fin n) (Fin n) ℝ} (hn : 0 < n) (hA : ¬ A.IsSymm) (fuel : Nat) :
    PostF (new fuel (ofM A)) (fun x => ∃ E d e W V H X norm,
      x = ⟨n, List.ofFn fun i : Fin n => d i, List.ofFn fun i : Fin n => e i, ofM (pk n n W)⟩ ∧
      HqGood n A E (eps * norm) d e W V H X ∧ frob A + E ≤ (1 + (4 * n + 24) * eps) ^ fuel * frob A ∧ norm ≤ n * frob A ∧ 0 < norm) ∧
    (n ≤ 2 → n ≤ fuel → new fuel (ofM A) ≠ .error .fuel) := by
  have hA0 : A ≠ 0 := by rintro rfl; exact hA (Matrix.isSymm_zero)
  unfold new newWith
  obtain ⟨h, hh, hg⟩ := fillH_post A
  obtain ⟨⟨h1, v1⟩, hr1, F, V, g1, g2, g3, g4⟩ := orthes_post hn hg (grid_alloc n n)
  have e1 : pk n n (ext A) = A := by ext a b; exact ext_fin A a b
  rw [e1] at g4
  dsimp only at g1 g2
  obtain ⟨hq, hf⟩ := hqr2_post (st := (⟨alloc ℝ n, alloc ℝ n, v1⟩ : Dev ℝ)) hA0 (by simp [alloc]) (by simp [alloc]) g2 g1 g3 g4 fuel
  rw [ofM_cols A hn, ok_bind]
  dsimp only
  rw [isSymm_false hA, ok_bind, if_neg (by simp), hh, ok_bind, hr1, ok_bind]
  dsimp only
  rcases hq with hq | ⟨o, hro, E, d, e, W, V', H', X, norm, k1, k2, k3, k4, k5, k6, k7⟩
  · rw [hq]
    refine ⟨Or.inl rfl, fun h2 h3 => absurd hq (hf h2 h3)⟩
  · rw [hro, ok_bind, Vect.freeze k1 d (fun i _ => rfl), ok_bind, Vect.freeze k2 e (fun i _ => rfl), ok_bind,
      Grid.freeze k3 (pk n n W) (fun i j => rfl), ok_bind, Props.C01_new_ofM hn hn, ok_bind]
    exact ⟨Or.inr (Post.ok ⟨E, d, e, W, V', H', X, norm, rfl, k4, k5, k6, k7⟩), fun _ _ h4 => by cases h4⟩

/-! ## the eigenvectors -/

section
variable {nn : Nat} {d e : Nat → ℝ} {H X : Nat → Nat → ℝ} {ε : ℝ}

theorem Blk.nxt (hb : Blk nn 0 d e H) {b : Nat} (h : e (b + 1) < 0) : 0 < e b := (hb.neg (b + 1) (Nat.zero_le _) h).2.2

/-- Column `b` of `X D`. -/
theorem mulD (hb : Blk nn 0 d e H) (Y : Nat → Nat → ℝ) (a b : Fin nn) :
    (pk nn nn Y * pk nn nn (dTab d e)) a b = Y a b * d b + (if 0 < e b then Y a (b + 1) * e (b + 1) else if e b < 0 then Y a (b - 1) * e (b - 1) else 0) := by
  rw [Matrix.mul_apply]
  show ∑ k : Fin nn, Y a k * dTab d e k b = _
  rw [Finset.sum_eq_add_sum_sdiff_singleton_of_mem (Finset.mem_univ b)]
  congr 1
  · unfold dTab; rw [if_pos rfl]
  have hoff : ∀ k : Fin nn, k ≠ b → dTab d e k b = if 0 < e k ∧ b.1 = k + 1 then e k else if e k < 0 ∧ b.1 + 1 = k then e k else 0 := fun k hk => by
    unfold dTab; rw [if_neg (by simpa [Fin.ext_iff] using hk)]
  by_cases h1 : 0 < e b
  · obtain ⟨p1, p2, p3, _⟩ := hb.pos b (Nat.zero_le _) b.2 h1
    rw [if_pos h1, Finset.sum_eq_single ⟨b + 1, p1⟩]
    · rw [hoff _ (by simp [Fin.ext_iff])]
      dsimp only
      rw [if_neg (by omega), if_pos ⟨by rw [p2]; linarith, rfl⟩]
    · intro k hk hk2
      simp only [Finset.mem_sdiff, Finset.mem_univ, Finset.mem_singleton, true_and] at hk
      rw [hoff k hk, if_neg, if_neg, mul_zero]
      · rintro ⟨_, h3⟩; exact hk2 (Fin.ext h3.symm)
      · rintro ⟨h3, h4⟩
        have := (hb.pos k (Nat.zero_le _) k.2 h3).2.1
        rw [← h4] at this; linarith
    · intro h3
      exfalso; apply h3; simp [Fin.ext_iff]
  · rw [if_neg h1]
    by_cases h2 : e b < 0
    · obtain ⟨p1, p2, p3⟩ := hb.neg b (Nat.zero_le _) h2
      rw [if_pos h2, Finset.sum_eq_single ⟨b - 1, by omega⟩]
      · rw [hoff _ (by simp [Fin.ext_iff]; omega)]
        dsimp only
        rw [if_pos ⟨p3, by omega⟩]
      · intro k hk hk2
        simp only [Finset.mem_sdiff, Finset.mem_univ, Finset.mem_singleton, true_and] at hk
        rw [hoff k hk, if_neg, if_neg, mul_zero]
        · rintro ⟨h3, h4⟩
          rw [← h4] at h3; linarith [hb.nxt h3]
        · rintro ⟨_, h4⟩; exact hk2 (Fin.ext (by dsimp only; omega))
      · intro h3
        exfalso; apply h3; simp [Fin.ext_iff]; omega
    · rw [if_neg h2]
      refine Finset.sum_eq_zero fun k hk => ?_
      simp only [Finset.mem_sdiff, Finset.mem_univ, Finset.mem_singleton, true_and] at hk
      rw [hoff k hk, if_neg, if_neg, mul_zero]
      · rintro ⟨h3, h4⟩
        rw [← h4] at h3; exact h1 (hb.nxt h3)
      · rintro ⟨h3, h4⟩
        have := (hb.pos k (Nat.zero_le _) k.2 h3).2.1
        rw [← h4] at this
        exact h2 (by linarith)

/-- Row `a` of `T Y`, for a column that ends at row `n`. -/
theorem mulT {n : Nat} (hn : n < nn) (hl : ¬ e (n + 1) < 0) (Y : Nat → ℝ) (hY : ∀ k, n < k → Y k = 0) (a : Fin nn) :
    ∑ k : Fin nn, Tf e H a k * Y k = if a.1 ≤ n then rowS (Tf e H) n 0 Y a else 0 := by
  rw [← Finset.sum_range (fun k => Tf e H a k * Y k), Finset.range_eq_Ico, ← Finset.sum_Ico_consecutive _ (Nat.zero_le _) (show n + 1 ≤ nn by omega)]
  have h2 : ∑ k ∈ Ico (n + 1) nn, Tf e H a k * Y k = 0 := Finset.sum_eq_zero fun k hk => by
    rw [Finset.mem_Ico] at hk
    rw [hY k (by omega), mul_zero]
  rw [h2, add_zero]
  by_cases h : a.1 ≤ n
  · rw [if_pos h]; rfl
  · rw [if_neg h]
    refine Finset.sum_eq_zero fun k hk => ?_
    rw [Finset.mem_Ico] at hk
    rw [Tf_low hl (by omega) (by omega), zero_mul]

theorem Vecs.col_real (hX : Vecs nn 0 d e H ε X) (hb : Blk nn 0 d e H) (hε : 0 ≤ ε) (b : Fin nn) (h0 : e b = 0) (a : Fin nn) :
    |(pk nn nn (Tf e H) * pk nn nn (trunc X) - pk nn nn (trunc X) * pk nn nn (dTab d e)) a b| ≤ ε * |trunc X a b| := by
  have hr := hX.real b (Nat.zero_le _) b.2 h0
  rw [Matrix.sub_apply, mulD hb, if_neg (by rw [h0]; exact lt_irrefl _), if_neg (by rw [h0]; exact lt_irrefl _), add_zero, Matrix.mul_apply]
  show |(∑ k : Fin nn, Tf e H a k * trunc X k b) - _| ≤ _
  rw [mulT (n := b) b.2 (fun h => by linarith [hb.nxt h]) (fun k => trunc X k b) (fun k hk => by unfold trunc; rw [if_neg (by omega)]) a]
  have hc : rowS (Tf e H) b 0 (fun k => trunc X k b) a = rowS (Tf e H) b 0 (fun k => X k b) a := rowS_congr fun j _ hj => by
    unfold trunc; rw [if_pos hj]
  by_cases h : a.1 ≤ b.1
  · have := hr.res a (Nat.zero_le _) h
    rw [if_pos h, hc]
    unfold trunc
    rw [if_pos h, mul_comm (X a b)]
    exact this
  · have h3 : trunc X a b = 0 := by unfold trunc; rw [if_neg h]
    rw [if_neg h, h3, zero_mul, sub_zero, abs_zero]
    positivity

/-- The two columns of a pair that is not repeated above it. -/
theorem Vecs.col_cplx (hX : Vecs nn 0 d e H ε X) (hb : Blk nn 0 d e H) {m : Nat} (hm : m + 1 < nn) (h0 : e (m + 1) < 0)
    (hN : NRep (m + 1) d e (d (m + 1)) (e (m + 1))) (a : Fin nn) :
    (pk nn nn (Tf e H) * pk nn nn (trunc X) - pk nn nn (trunc X) * pk nn nn (dTab d e)) a ⟨m, by omega⟩ = 0 ∧
    (pk nn nn (Tf e H) * pk nn nn (trunc X) - pk nn nn (trunc X) * pk nn nn (dTab d e)) a ⟨m + 1, hm⟩ = 0 := by
  have hr := hX.cplx (m + 1) (Nat.zero_le _) hm h0
  rw [Nat.add_sub_cancel] at hr
  have hpos := hb.nxt h0
  obtain ⟨p1, p2, p3, _⟩ := hb.pos m (Nat.zero_le _) (by omega) hpos
  have hl : ¬ e (m + 1 + 1) < 0 := fun h => by linarith [hb.nxt h]
  have hz : trunc X (m + 1) m = X (m + 1) m := by
    unfold trunc; rw [if_neg (by omega)]; exact hr.z.symm
  have hc1 : rowS (Tf e H) (m + 1) 0 (fun k => trunc X k m) a = rowS (Tf e H) (m + 1) 0 (fun k => X k m) a := rowS_congr fun j _ hj => by
    by_cases h : j = m + 1
    · subst h; rw [hz]
    · unfold trunc; rw [if_pos (by omega)]
  have hc2 : rowS (Tf e H) (m + 1) 0 (fun k => trunc X k (m + 1)) a = rowS (Tf e H) (m + 1) 0 (fun k => X k (m + 1)) a := rowS_congr fun j _ hj => by
    unfold trunc; rw [if_pos hj]
  have hv : ∀ k, k ≤ m + 1 → trunc X k m = X k m := fun k hk => by
    by_cases h : k = m + 1
    · subst h; exact hz
    · unfold trunc; rw [if_pos (by omega)]
  have hw : ∀ k, k ≤ m + 1 → trunc X k (m + 1) = X k (m + 1) := fun k hk => by unfold trunc; rw [if_pos hk]
  constructor
  · rw [Matrix.sub_apply, mulD hb, if_pos hpos, Matrix.mul_apply]
    show (∑ k : Fin nn, Tf e H a k * trunc X k m) - _ = 0
    rw [mulT hm hl (fun k => trunc X k m) (fun k hk => by unfold trunc; rw [if_neg (by omega)]) a]
    dsimp only
    by_cases h : a.1 ≤ m + 1
    · rw [if_pos h, hc1, hr.re hN a (Nat.zero_le _) h, hv a h, hw a h, ← p3]
      ring
    · rw [if_neg h]
      unfold trunc
      rw [if_neg (by omega), if_neg (by omega)]; ring
  · rw [Matrix.sub_apply, mulD hb]
    dsimp only
    rw [if_neg (by linarith), if_pos h0, Matrix.mul_apply]
    show (∑ k : Fin nn, Tf e H a k * trunc X k (m + 1)) - _ = 0
    rw [mulT hm hl (fun k => trunc X k (m + 1)) (fun k hk => by unfold trunc; rw [if_neg (by omega)]) a, Nat.add_sub_cancel]
    by_cases h : a.1 ≤ m + 1
    · rw [if_pos h, hc2, hr.im hN a (Nat.zero_le _) h, hv a h, hw a h, show e m = -e (m + 1) by linarith]
      ring
    · rw [if_neg h]
      unfold trunc
      rw [if_neg (by omega), if_neg (by omega)]; ring

theorem Vecs.diag_ne (hX : Vecs nn 0 d e H ε X) {b : Nat} (hbn : b < nn) (h : e b ≤ 0) : trunc X b b ≠ 0 := by
  unfold trunc
  rw [if_pos le_rfl]
  rcases lt_or_eq_of_le h with h | h
  · exact (hX.cplx b (Nat.zero_le _) hbn h).ne
  · exact (hX.real b (Nat.zero_le _) hbn h).ne

/-! ## the eigenvalues -/

open Polynomial in
theorem charpoly_Tf (hb : Blk nn 0 d e H) : ∀ n, n ≤ nn → ¬ e n < 0 →
    (pk n n (Tf e H)).charpoly.map Complex.ofRealHom = ∏ i : Fin n, (Polynomial.X - Polynomial.C (⟨d i, e i⟩ : ℂ)) := by
  intro n
  induction n using Nat.strong_induction_on with
  | _ n ih =>
    intro hn hl
    rcases n with _ | m
    · simp [Matrix.charpoly, Matrix.charmatrix]
    by_cases h1 : e m < 0
    · -- a 2-by-2 block
      obtain ⟨k, rfl⟩ : ∃ k, m = k + 1 := ⟨m - 1, by have := (hb.neg m (Nat.zero_le _) h1).1; omega⟩
      have hpos := hb.nxt h1
      obtain ⟨p1, p2, p3, p4, p5⟩ := hb.pos k (Nat.zero_le _) (by omega) hpos
      have hsplit : pk (k + 2) (k + 2) (Tf e H) = Matrix.reindex finSumFinEquiv finSumFinEquiv (Matrix.fromBlocks (pk k k (Tf e H))
          (Matrix.of fun (i : Fin k) (j : Fin 2) => Tf e H i (k + j)) 0 (Matrix.of fun (i j : Fin 2) => Tf e H (k + i) (k + j))) := by
        ext i j
        obtain ⟨i, rfl⟩ := finSumFinEquiv.surjective i
        obtain ⟨j, rfl⟩ := finSumFinEquiv.surjective j
        rw [Matrix.reindex_apply, Matrix.submatrix_apply, Equiv.symm_apply_apply, Equiv.symm_apply_apply]
        rcases i with i | i <;> rcases j with j | j
        · rfl
        · rfl
        · show Tf e H (k + i) j = 0
          exact Tf_low (l := k) (not_lt.2 hpos.le) j.2 (by omega)
        · rfl
      rw [hsplit, Matrix.charpoly_reindex, Matrix.charpoly_fromBlocks_zero₂₁, Polynomial.map_mul, ih k (by omega) (by omega) (not_lt.2 hpos.le),
        Fin.prod_univ_castSucc, Fin.prod_univ_castSucc, mul_assoc]
      congr 1
      rw [Matrix.charpoly_fin_two, Matrix.trace_fin_two, Matrix.det_fin_two]
      simp only [Matrix.of_apply, Fin.val_zero, Fin.val_one, add_zero, Fin.val_castSucc, Fin.val_last]
      rw [Tf_up le_rfl, Tf_up le_rfl, Tf_up (show k ≤ k + 1 by omega), Tf_sub h1, p2, p3]
      have e1 : H k k + H (k + 1) (k + 1) = 2 * d k := by rw [p4]; ring
      have e2 : H k k * H (k + 1) (k + 1) - H k (k + 1) * H (k + 1) k = d k * d k + e k * e k := by rw [p5, p4]; ring
      rw [e1, e2]
      simp only [Polynomial.map_sub, Polynomial.map_add, Polynomial.map_mul, Polynomial.map_pow, Polynomial.map_X, Polynomial.map_C]
      have c1 : (Complex.ofRealHom (2 * d k)) = (⟨d k, e k⟩ : ℂ) + ⟨d k, -e k⟩ := by
        apply Complex.ext <;> simp; ring
      have c2 : (Complex.ofRealHom (d k * d k + e k * e k)) = (⟨d k, e k⟩ : ℂ) * ⟨d k, -e k⟩ := by
        apply Complex.ext <;> simp; ring
      rw [c1, c2, Polynomial.C_add, Polynomial.C_mul]
      ring
    · have h2 : e m = 0 := by
        by_contra h3
        have hpos : 0 < e m := lt_of_le_of_ne (not_lt.1 h1) (Ne.symm h3)
        have := (hb.pos m (Nat.zero_le _) (by omega) hpos).2.1
        exact hl (by rw [this]; linarith)
      have hsplit : pk (m + 1) (m + 1) (Tf e H) = Matrix.reindex finSumFinEquiv finSumFinEquiv (Matrix.fromBlocks (pk m m (Tf e H))
          (Matrix.of fun (i : Fin m) (j : Fin 1) => Tf e H i (m + j)) 0 (Matrix.of fun (i j : Fin 1) => Tf e H (m + i) (m + j))) := by
        ext i j
        obtain ⟨i, rfl⟩ := finSumFinEquiv.surjective i
        obtain ⟨j, rfl⟩ := finSumFinEquiv.surjective j
        rw [Matrix.reindex_apply, Matrix.submatrix_apply, Equiv.symm_apply_apply, Equiv.symm_apply_apply]
        rcases i with i | i <;> rcases j with j | j
        · rfl
        · rfl
        · show Tf e H (m + i) j = 0
          exact Tf_low (l := m) h1 j.2 (by omega)
        · rfl
      rw [hsplit, Matrix.charpoly_reindex, Matrix.charpoly_fromBlocks_zero₂₁, Polynomial.map_mul, ih m (by omega) (by omega) h1,
        Fin.prod_univ_castSucc]
      congr 1
      rw [Matrix.charpoly, Matrix.det_fin_one, Matrix.charmatrix_apply_eq]
      simp only [Matrix.of_apply, Fin.val_zero, add_zero, Fin.val_last, Polynomial.map_sub, Polynomial.map_X, Polynomial.map_C]
      rw [Tf_up le_rfl, ← hb.zer m (Nat.zero_le _) (by omega) h2, h2]
      rfl

theorem charpoly_conj {n : Nat} (T : Matrix (Fin n) (Fin n) ℝ) {V : Matrix (Fin n) (Fin n) ℝ} (hV : Orth V) : (V * T * Vᵀ).charpoly = T.charpoly := by
  rw [Matrix.charpoly_mul_comm, ← Matrix.mul_assoc, show Vᵀ * V = 1 from hV, Matrix.one_mul]

end

end Eigen
end LA
