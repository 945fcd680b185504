import Verif.Proofs.EigTql3

/-! # `tql2` and `EigenDecomposition::new` on symmetric matrices -/

set_option linter.unusedSectionVars false

namespace LA
open Finset Matrix
namespace Eigen
open SVD (pk pk_rotc pk_rotr pk_congr)

theorem tql2_post {n : Nat} {A : Matrix (Fin n) (Fin n) ℝ} {st : Dev ℝ} {δ ε : Nat → ℝ} {V : Nat → Nat → ℝ} (hn : 0 < n)
    (hd : Full st.d n δ) (he : Full st.e n ε) (hv : FullG st.v n n V) (hV : Orth (pk n n V))
    (hA : A = pk n n V * pk n n (trid δ ε) * (pk n n V)ᵀ) :
    PostE (fun fuel => tql2 fuel n st) fun r => ∃ δ' V', Full r.d n δ' ∧ Full r.e n (fun _ => 0) ∧ FullG r.v n n V' ∧
      Ap n A V' (tri δ' fun _ => 0) (n * (9 * eps * frob A)) ∧ ∀ a b, a < b → b < n → δ' b ≤ δ' a := by
  unfold tql2
  have hu1 : usub n 1 = .ok (n - 1) := usub_ok (by omega)
  obtain ⟨e1, hr1, hf1⟩ := loop_post (lo := 1) (hi := n) (s := st.e) (f := fun i e => do wr e (← usub i 1) (← rd e i))
    (fun c e => Full e n (fun a => if a + 1 < c then ε (a + 1) else ε a)) (by omega)
    (he.congr fun a _ => by rw [if_neg (by omega)]) (by
    intro i e h1 h2 h3
    obtain ⟨e2, hr2, hf2⟩ := h3.wr (i := i - 1) (by omega) (ε i)
    rw [usub_ok (by omega), ok_bind, h3.rd (i := i) h2, ok_bind, if_neg (by omega), hr2]
    refine Post.ok (hf2.congr fun a _ => ?_)
    by_cases e : a = i - 1
    · rw [e, updv_same, if_pos (by omega), show i - 1 + 1 = i by omega]
    · rw [updv_ne e]
      by_cases e2 : a + 1 < i
      · rw [if_pos e2, if_pos (by omega)]
      · rw [if_neg e2, if_neg (by omega)])
  obtain ⟨e2, hr2, hf2⟩ := hf1.wr (i := n - 1) (by omega) 0
  simp only [hu1, hr1, hr2, ok_bind]
  have h0 : OneInv n A 0 ((⟨st.d, e2, st.v⟩ : Dev ℝ), (0 : ℝ), (0 : ℝ)) δ
      (updv (fun a => if a + 1 < n then ε (a + 1) else ε a) (n - 1) 0) V := by
    refine ⟨hd, hf2, hv, fun a h => by omega, by rw [updv_same], by simpa using frob_nonneg A, le_rfl,
      by have := frob_nonneg A; dsimp only; linarith, ?_⟩
    have e : pk n n (tri (fun a => δ a + phi 0 (0 : ℝ) a) (updv (fun a => if a + 1 < n then ε (a + 1) else ε a) (n - 1) 0)) =
        pk n n (trid δ ε) := by
      refine pk_congr fun a b ha hb => ?_
      unfold tri trid phi updv
      grind
    refine ⟨hV, ?_, ?_⟩
    · dsimp only
      rw [e, ← hA, sub_self]
      unfold frob
      simp
    · dsimp only
      rw [e, hA, frob_mul_right _ hV, frob_mul_left _ hV]
  refine PostE.bind (loop_postE (f := fun fuel l x => tqlOne fuel n l x) (fun l x => ∃ δ ε V, OneInv n A l x δ ε V) (Nat.zero_le n) ⟨_, _, _, h0⟩
    (fun i x _ hi ⟨δ, ε, V, h⟩ => tqlOne_post h hi)) ?_
  rintro ⟨st1, f1, t1⟩ ⟨δ1, ε1, V1, h1⟩
  refine Post.toE ?_
  dsimp only
  have hs := loop_post (lo := 0) (hi := n - 1) (s := (st1.d, st1.v))
    (f := fun i (x : Buf ℝ × Buf ℝ) => (do let (d, v) := x; tqlSort n i d v : R (Buf ℝ × Buf ℝ)))
    (fun i x => ∃ δ V, SortInv n A (n * (9 * eps * frob A)) i x.1 x.2 δ V) (by omega)
    ⟨δ1, V1, h1.d, h1.v, fun a b h => by omega, h1.ap.congr fun a b ha hb => by
      have e1 := h1.lo a
      have e2 := h1.lo b
      unfold tri phi
      clear h0 h1
      grind⟩ (by
    rintro i ⟨d, v⟩ - hi ⟨δ, V, h⟩
    exact tqlSort_post h (by omega))
  obtain ⟨⟨d2, v2⟩, hr3, δ2, V2, h2⟩ := hs
  erw [hr3]
  rw [ok_bind]
  refine Post.ok ⟨δ2, V2, h2.d, h1.e.congr fun a ha => h1.lo a ha, h2.v, h2.ap, fun a b hab hb => h2.ord a b (by omega) hab hb⟩

theorem loopF_next {σ ρ : Type} {lo hi : Nat} {s : σ} {f : Nat → σ → R (Flow σ ρ)}
    (h : ∀ i, lo ≤ i → i < hi → f i s = .ok (.next s)) : loopF lo hi s f = .ok (.next s) := by
  by_cases hle : lo ≤ hi
  swap
  · exact loopF_empty (by omega) _ _
  obtain ⟨k, rfl⟩ : ∃ k, hi = lo + k := ⟨hi - lo, by omega⟩
  clear hle
  induction k generalizing lo with
  | zero => exact loopF_self _ _ _
  | succ k ih =>
    rw [loopF_step (by omega), h lo le_rfl (by omega), ok_bind]
    dsimp only
    have := ih (lo := lo + 1) fun i h1 h2 => h i (by omega) (by omega)
    rw [show lo + 1 + k = lo + (k + 1) by omega] at this
    exact this

theorem isSymm_true {n : Nat} {A : Matrix (Fin n) (Fin n) ℝ} (hA : A.IsSymm) : isSymm n (ofM A) = .ok true := by
  unfold isSymm
  rw [loopF_next]
  · rfl
  intro j _ hj
  rw [loopF_next]
  · rfl
  intro i _ hi
  rw [ofM_get A hi hj, ok_bind, ofM_get A hj hi, ok_bind, eq_eq, if_pos]
  · rfl
  · simpa using hA.apply ⟨j, hj⟩ ⟨i, hi⟩

/-- What `new` returns for a symmetric matrix. -/
structure SymGood {n : Nat} (A V : Matrix (Fin n) (Fin n) ℝ) (δ : Nat → ℝ) : Prop where
  orth : Orth V
  ord : ∀ a b, a < b → b < n → δ b ≤ δ a
  close : frob (A - V * Matrix.diagonal (fun i : Fin n => δ i) * Vᵀ) ≤ n * (9 * eps * frob A)

theorem fillV_post {n : Nat} (A : Matrix (Fin n) (Fin n) ℝ) :
    Post (loop 0 n (alloc ℝ (n * n)) fun i v => loop 0 n v fun j v => do wr v (i * n + j) (← (ofM A).get i j)) fun v =>
      FullG v n n (ext A) := by
  refine (loop_rows (lo := 0) (hi := n) (fun a b => some (ext A a b)) (grid_alloc n n) ?_).mono fun r h =>
    h.congr fun a b ha _ => by rw [if_pos ⟨by omega, ha⟩]
  intro i d' G' _ hi hG _
  refine (loop_cols (lo := 0) (hi := n) (fun a b => if a = i then some (ext A a b) else G' a b) hG ?_).mono fun r h =>
    h.congr fun a b _ hb => by
      by_cases e : a = i
      · subst e; rw [if_pos ⟨by omega, hb⟩, if_pos rfl]
      · rw [if_pos ⟨by omega, hb⟩, if_neg e, if_neg e]
  intro j d2 G2 _ hj hG2 h2
  rw [ofM_get A hi hj, ok_bind]
  refine (hG2.wr hi hj _).mono fun r h => h.congr fun a b ha hb => ?_
  have h3 := h2 a b
  have h4 := ext_eq A hi hj
  clear h2
  by_cases e : b = j
  · subst e
    rw [if_pos rfl]
    by_cases e2 : a = i
    · subst e2; simp [h4]
    · rw [upd_ne (by omega), if_neg e2, h3 (by omega)]
  · rw [upd_ne (by omega), if_neg e]

theorem new_symm {n : Nat} (hn : 0 < n) {A : Matrix (Fin n) (Fin n) ℝ} (hA : A.IsSymm) :
    PostE (fun fuel => new fuel (ofM A)) fun x => ∃ V δ, x = ⟨n, List.ofFn fun i : Fin n => δ i, List.replicate n 0, ofM V⟩ ∧
      SymGood A V δ := by
  unfold new newWith
  obtain ⟨v, hv, hg⟩ := fillV_post A
  obtain ⟨st, hst, δ, ε, V, h1, h2, h3, -, h4, h5⟩ := tred2_post (st := (⟨alloc ℝ n, alloc ℝ n, v⟩ : Dev ℝ)) hn (by simp [alloc])
    (by simp [alloc]) hg
  have hsym : pk n n (sym (ext A)) = A := by
    ext a b
    show sym (ext A) a b = A a b
    unfold sym
    split
    · exact ext_fin A _ _
    · rw [ext_fin A]; exact hA.apply _ _
  rw [hsym] at h5
  simp only [ofM_cols A hn, ok_bind, isSymm_true hA, if_true, hv, hst]
  refine PostE.bind (tql2_post hn h1 h2 h3 h4 h5) ?_
  rintro st' ⟨δ', V', k1, k2, k3, k4, k5⟩
  refine Post.toE ?_
  rw [Vect.freeze k1 δ' (fun i _ => rfl), ok_bind, Vect.freeze k2 (fun _ => (0 : ℝ)) (fun i _ => rfl), ok_bind,
    Grid.freeze k3 (pk n n V') (fun i j => rfl), ok_bind, Props.C01_new_ofM hn hn, ok_bind]
  refine Post.ok ⟨pk n n V', δ', by simp, k4.orth, k5, ?_⟩
  have e : pk n n (tri δ' fun _ => 0) = Matrix.diagonal fun i : Fin n => δ' i := by
    ext a b
    show tri δ' (fun _ => 0) a b = _
    unfold tri
    rw [Matrix.diagonal_apply]
    by_cases h : a = b
    · rw [if_pos (by rw [h]), if_pos h]
    · rw [if_neg (by simpa [Fin.ext_iff] using h), if_neg h]; simp
  rw [← e]
  exact k4.err

end Eigen
end LA
