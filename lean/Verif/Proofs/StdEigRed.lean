import Verif.Proofs.StdEigStep

/-! # `tred2` in rounded arithmetic: the reduction -/

set_option linter.unusedSectionVars false

namespace LA
open Finset Matrix
namespace Std
open Sfp SVD
open Eigen (Dev tredScale tredSymv tredQ tredRank2 tredZero tredHouse tredStep tredApply tredAcc tred2 vhi tredTab qvec pvec tab TredHV Hm prodR_congr)

variable {α : Type} [Zero α] [One α] [Add α] [Sub α] [Neg α] [Mul α] [FloatOps α] [Sfp α]

/-- What one step of the reduction does. -/
structure TS (n i : Nat) (F F' : Nat → Nat → α) (f f' ε ε' : Nat → α) (a : Nat → ℝ) (h : ℝ) : Prop where
  row : ∀ k, k < i → f' k = F' (i - 1) k
  fk : ∀ k, i < k → f' k = f k
  u : ∀ t, t < i → Rt (w α) (n + 6) (val (F' t i)) (a t)
  hr : Rt (w α) (n + 6) (val (f' i)) h
  nonneg : 0 ≤ h
  sq : ∑ t ∈ range i, a t * a t = 2 * h
  zero : ∀ b, b < i → F' i b = 0
  low : ∀ r c, i < r → F' r c = F r c
  right : ∀ r c, i < c → F' r c = F r c
  err : frob (pk n n (tab (i - 1) (tt F') (vv ε')) - hh (vhi n i a) h * pk n n (tab i (tt F) (vv ε)) * hh (vhi n i a) h) ≤
    10 * kt α n * frob (pk n n (tab i (tt F) (vv ε)))

theorem tredStep_post {n i : Nat} {st : Dev α} {f ε : Nat → α} {P : Nat → Prop} {F : Nat → Nat → α}
    (hd : Full st.d n f) (he : Part st.e n P ε) (hv : FullG st.v n n F) (hi : i < n) (hi0 : 0 < i)
    (hf : ∀ k, k < i → f k = F i k) :
    Post (tredStep n i st) fun r => ∃ F' f' ε' a h, TS n i F F' f f' ε ε' a h ∧ Full r.d n f' ∧
      Part r.e n (fun k => i < k ∧ P k ∨ k = i) ε' ∧ FullG r.v n n F' := by
  have hw : 1 ≤ w α := w_one
  unfold tredStep
  have hsum : loop 0 i (0 : α) (fun k s => do return s + FloatOps.abs (← rd st.d k)) =
      .ok (facc (· + ·) 0 (fun k => FloatOps.abs (f k)) i) :=
    loop_facc (fun k s hk => by rw [hd.rd (i := k) (by omega), ok_bind]; rfl)
  have hsc : Rt (w α) (0 + i) (val (facc (· + ·) 0 (fun k => FloatOps.abs (f k)) i)) (∑ k ∈ range i, |val (f k)|) :=
    rt_facc (K := 0) (fun t => abs_nonneg _) i fun t _ => by rw [Sfp.abs]; exact Rt.refl _
  rw [hsum, ok_bind]
  generalize facc (· + ·) 0 (fun k => FloatOps.abs (f k)) i = scale at *
  have hnn : 0 ≤ ∑ k ∈ range i, |val (f k)| := Finset.sum_nonneg fun t _ => abs_nonneg _
  by_cases h0 : val scale = 0
  · rw [if_pos (eq_zero_iff.2 h0)]
    have hz : ∀ k, k < i → val (f k) = 0 := fun k hk =>
      abs_eq_zero.1 ((Finset.sum_eq_zero_iff_of_nonneg (fun t _ => abs_nonneg (val (f t)))).1 ((hsc.zero_iff hw).1 h0) k (by simpa using hk))
    refine (tredZero_post hd he hv hi hi0).mono ?_
    rintro r ⟨h1, h2, h3⟩
    have hk := kt_nonneg (α := α) n
    refine ⟨_, _, _, fun _ => 0, 0, ⟨?_, ?_, ?_, ?_, le_rfl, by simp, ?_, ?_, ?_, ?_⟩, h1, h2.mono fun k _ hk => ⟨?_, rfl⟩, h3⟩
    · intro k hk
      rw [if_pos hk, if_neg (by omega)]
    · intro k hk
      rw [if_neg (by omega), if_neg (by omega)]
    · intro t ht
      rw [if_pos (by omega), Sfp.zero]
      exact (Rt.refl 0).mono hw (by omega)
    · rw [if_neg (by omega), if_pos rfl, Sfp.zero]
      exact (Rt.refl 0).mono hw (by omega)
    · intro b hb; rw [if_pos (by omega)]
    · intro r c hr; rw [if_neg (by omega)]
    · intro r c hr; rw [if_neg (by omega)]
    · have e1 : pk n n (tab (i - 1) (tt fun a b => if a = i ∧ b < i ∨ b = i ∧ a < i then 0 else F a b) (vv (updv ε i (f (i - 1))))) =
          pk n n (tab i (tt F) (vv ε)) := by
        refine pk_congr fun r c hr hc => ?_
        have hfi : ∀ k, k < i → val (F i k) = 0 := fun k hk => by rw [← hf k hk]; exact hz k hk
        have hzi := hz (i - 1) (by omega)
        clear hsum hsc hnn h1 h2 h3 hd he hv hk hf hz
        have key : ∀ r c, c ≤ r → tab (i - 1) (tt fun a b => if a = i ∧ b < i ∨ b = i ∧ a < i then 0 else F a b) (vv (updv ε i (f (i - 1)))) r c =
            tab i (tt F) (vv ε) r c := by
          intro r c hrc
          by_cases a1 : r < i
          · rw [Eigen.tab_lo hrc (by omega), Eigen.tab_lo hrc (by omega)]
            unfold tt
            beta_reduce
            rw [if_neg (by omega)]
          · by_cases a2 : r = c
            · subst a2
              rw [Eigen.tab_dg (by omega)]
              by_cases a3 : r = i
              · rw [Eigen.tab_lo le_rfl (by omega)]
                unfold tt
                beta_reduce
                rw [if_neg (by omega)]
              · rw [Eigen.tab_dg (by omega)]
                unfold tt
                beta_reduce
                rw [if_neg (by omega)]
            · by_cases a3 : r = i
              · subst a3
                rw [Eigen.tab_lo (i := r) hrc (by omega), show tt F r c = 0 from hfi c (by omega)]
                by_cases a4 : r = c + 1
                · rw [Eigen.tab_sub a4 (by omega), vv, updv_same, hzi]
                · rw [Eigen.tab_far (by omega) (by omega)]
              · by_cases a4 : r = c + 1
                · rw [Eigen.tab_sub a4 (by omega), Eigen.tab_sub a4 (by omega), vv, vv, updv_ne a3]
                · rw [Eigen.tab_far (by omega) (by omega), Eigen.tab_far (by omega) (by omega)]
        rcases Nat.le_total c r with h5 | h5
        · exact key r c h5
        · rw [Eigen.tab_comm, Eigen.tab_comm i]
          exact key c r h5
      rw [e1, hh_zero, Matrix.one_mul, Matrix.mul_one, sub_self, Eigen.frob_zero]
      exact mul_nonneg (by linarith) (frob_nonneg _)
    · tauto
  · rw [if_neg (fun h => h0 (eq_zero_iff.1 h))]
    have hpos : 0 < val scale := lt_of_le_of_ne (hsc.nonneg hw hnn) (Ne.symm h0)
    have hex : ∃ k, k < i ∧ val (f k) ≠ 0 := by
      by_contra hc
      push Not at hc
      apply h0
      rw [hsc.zero_iff hw]
      exact Finset.sum_eq_zero fun k hk => by rw [hc k (Finset.mem_range.1 hk), abs_zero]
    refine (tredHouse_post hd he hv hi hi0 hpos hex).mono ?_
    rintro r ⟨x, y, z, a, h, η, H, h1, h2, h3⟩
    have h2' : Part r.e n (fun k => i < k ∧ P k ∨ k = i) (fun k => if k = i then z else ε k) :=
      h2.mono fun k _ hk => ⟨by tauto, by
        by_cases h5 : k = i
        · rw [if_pos h5, if_pos h5]
        · rw [if_neg h5, if_neg h5, if_neg (by omega)]⟩
    refine ⟨_, _, _, a, h, ⟨?_, ?_, ?_, ?_, H.pos.le, H.sq, ?_, ?_, ?_, ?_⟩, h1, h2', h3⟩
    · intro k hk; rw [if_pos hk]
    · intro k hk; rw [if_neg (by omega), if_neg (by omega)]
    · intro t ht
      unfold cTab
      rw [if_neg (by omega), if_neg (by omega), if_pos (by omega)]
      exact (H.u t ht).mono hw (by omega)
    · rw [if_neg (by omega), if_pos rfl]
      exact H.h.mono hw (by omega)
    · intro b hb; unfold cTab; rw [if_neg (by omega), if_pos (by omega)]
    · intro r c hr; unfold cTab; rw [if_neg (by omega), if_neg (by omega), if_neg (by omega)]
    · intro r c hr; unfold cTab; rw [if_neg (by omega), if_neg (by omega), if_neg (by omega)]
    · have e1 : vv (fun k => if k = i then z else ε k) = fun k => if k = i then val z else vv ε k := by
        funext k; unfold vv; beta_reduce; split <;> rfl
      rw [e1]
      refine tab_close hi hi0 (kt_nonneg n) H.pos.le (η := η) ⟨H.sq, fun k hk => ?_⟩ (fun r c h5 h6 => H.cTab_err hi.le h5 h6) ?_ ?_
      · have := H.row k hk
        beta_reduce at this
        rw [hf k hk] at this
        rw [← this]
        show tt F i k - (∑ t ∈ range i, a t * tt F i t) / h * a k = tt F i k - (∑ t ∈ range i, a t * val (f t)) / h * a k
        congr 3
        exact Finset.sum_congr rfl fun t ht => by rw [hf t (Finset.mem_range.1 ht)]; rfl
      · intro r hr
        unfold tt cTab
        rw [if_neg (by omega), if_neg (by omega), if_neg (by omega)]
      · refine (H.e.sub hw).trans (mul_le_mul_of_nonneg_right (pw_kt (by omega)) (abs_nonneg _))

/-- Invariant of the reduction (rows `c..` are done). -/
structure RI (n : Nat) (κ : ℝ) (A : Matrix (Fin n) (Fin n) ℝ) (c : Nat) (st : Dev α) (F : Nat → Nat → α) (f ε : Nat → α)
    (U : Nat → Nat → ℝ) (hs : Nat → ℝ) : Prop where
  v : FullG st.v n n F
  d : Full st.d n f
  e : Part st.e n (fun k => c ≤ k) ε
  row : ∀ k, k < c → f k = F (c - 1) k
  u : ∀ k, c ≤ k → k < n → ∀ t, t < k → Rt (w α) (n + 6) (val (F t k)) (U t k)
  h : ∀ k, c ≤ k → k < n → Rt (w α) (n + 6) (val (f k)) (hs k)
  nonneg : ∀ k, c ≤ k → k < n → 0 ≤ hs k
  sq : ∀ k, c ≤ k → k < n → ∑ t ∈ range k, U t k * U t k = 2 * hs k
  zero : ∀ a b, c ≤ a → a < n → b < a → F a b = 0
  err : frob (A - (prodR (Hm n U hs) (c - 1) (n - c))ᵀ * pk n n (tab (c - 1) (tt F) (vv ε)) * prodR (Hm n U hs) (c - 1) (n - c)) ≤
    ((1 + κ) ^ (n - c) - 1) * frob A

theorem prodR_orth' {N : Nat} {H : Nat → Matrix (Fin N) (Fin N) ℝ} {k c : Nat} (h : ∀ t, k ≤ t → t < k + c → Orth (H t)) :
    Orth (prodR H k c) := by
  induction c generalizing k with
  | zero => exact orth_one
  | succ c ih =>
    rw [prodR]
    exact (h k le_rfl (by omega)).mul (ih fun t h1 h2 => h t (by omega) (by omega))

theorem redStep {n i : Nat} {κ : ℝ} (hκ : 10 * kt α n ≤ κ) {A : Matrix (Fin n) (Fin n) ℝ} {F : Nat → Nat → α} {st : Dev α} {f ε : Nat → α}
    {U : Nat → Nat → ℝ} {hs : Nat → ℝ} (hI : RI n κ A (i + 1) st F f ε U hs) (hi0 : 1 ≤ i) (hi : i < n) :
    Post (tredStep n i st) fun st' => ∃ F' f' ε' U' hs', RI n κ A i st' F' f' ε' U' hs' := by
  have hk0 : 0 ≤ κ := le_trans (by have := kt_nonneg (α := α) n; linarith) hκ
  refine (tredStep_post hI.d hI.e hI.v hi hi0 (fun k hk => by simpa using hI.row k (by omega))).mono ?_
  rintro st' ⟨F', f', ε', a, h, T, hd, he, hv⟩
  refine ⟨F', f', ε', fun t k => if k = i then a t else U t k, fun k => if k = i then h else hs k, hv, hd,
    he.mono (fun k _ hk => ⟨?_, rfl⟩), T.row, ?_, ?_, ?_, ?_, ?_, ?_⟩
  · rcases Nat.eq_or_lt_of_le hk with h | h
    · exact Or.inr h.symm
    · exact Or.inl ⟨h, h⟩
  · intro k hk hkn t ht
    beta_reduce
    by_cases e : k = i
    · subst e; rw [if_pos rfl]; exact T.u t ht
    · rw [if_neg e, T.right t k (by omega)]; exact hI.u k (by omega) hkn t ht
  · intro k hk hkn
    beta_reduce
    by_cases e : k = i
    · subst e; rw [if_pos rfl]; exact T.hr
    · rw [if_neg e, T.fk k (by omega)]; exact hI.h k (by omega) hkn
  · intro k hk hkn
    beta_reduce
    by_cases e : k = i
    · subst e; rw [if_pos rfl]; exact T.nonneg
    · rw [if_neg e]; exact hI.nonneg k (by omega) hkn
  · intro k hk hkn
    beta_reduce
    by_cases e : k = i
    · subst e; simp only [if_true]; exact T.sq
    · simp only [if_neg e]; exact hI.sq k (by omega) hkn
  · intro r c h1 h2 h3
    by_cases e : r = i
    · subst e; exact T.zero c h3
    · rw [T.low r c (by omega), hI.zero r c (by omega) h2 h3]
  · set U' : Nat → Nat → ℝ := fun t k => if k = i then a t else U t k with hU'
    set hs' : Nat → ℝ := fun k => if k = i then h else hs k with hhs'
    rw [show n - i = (n - (i + 1)) + 1 by omega, prodR, show i - 1 + 1 = i by omega]
    have e1 : prodR (Hm n U' hs') i (n - (i + 1)) = prodR (Hm n U hs) i (n - (i + 1)) := by
      refine prodR_congr fun t h1 h2 => ?_
      unfold Hm
      have : ∀ r, U' r (t + 1) = U r (t + 1) := fun r => by simp only [hU']; rw [if_neg (by omega)]
      have h3 : hs' (t + 1) = hs (t + 1) := by simp only [hhs']; rw [if_neg (by omega)]
      rw [h3]
      simp only [this]
    have e2 : Hm n U' hs' (i - 1) = hh (vhi n i a) h := by
      unfold Hm
      rw [show i - 1 + 1 = i by omega]
      have h3 : hs' i = h := by simp [hhs']
      have h4 : (fun r => U' r i) = a := by funext r; simp [hU']
      rw [h3, h4]
    rw [e1, e2]
    have herr := hI.err
    rw [show i + 1 - 1 = i by omega] at herr
    have hW : Orth (prodR (Hm n U hs) i (n - (i + 1))) := by
      refine prodR_orth' fun t h1 h2 => ?_
      exact Eigen.vhi_orth (by omega) (hI.sq (t + 1) (by omega) (by omega))
    have hP : Orth (hh (vhi n i a) h) := Eigen.vhi_orth hi.le T.sq
    have hPt : (hh (vhi n i a) h)ᵀ = hh (vhi n i a) h := hh_transpose _ _
    have hT := T.err
    generalize prodR (Hm n U hs) i (n - (i + 1)) = W at *
    generalize hh (vhi n i a) h = P at *
    generalize pk n n (tab i (tt F) (vv ε)) = X at *
    generalize pk n n (tab (i - 1) (tt F') (vv ε')) = X' at *
    have hsq : P * P = 1 := by have := hP; unfold Orth at this; rwa [hPt] at this
    have h6 := frob_tri A (Wᵀ * X * W) ((P * W)ᵀ * X' * (P * W))
    have e3 : Wᵀ * X * W - (P * W)ᵀ * X' * (P * W) = (P * W)ᵀ * (P * X * P - X') * (P * W) := by
      rw [Matrix.mul_sub, Matrix.sub_mul, transpose_mul, hPt]
      congr 1
      calc Wᵀ * X * W = Wᵀ * (P * P) * X * (P * P) * W := by rw [hsq, Matrix.mul_one, Matrix.mul_one]
        _ = _ := by simp only [Matrix.mul_assoc]
    have hPW : Orth (P * W) := hP.mul hW
    rw [e3, frob_mul_orth _ hPW, frob_mul_left _ hPW.transpose, frob_sub_comm (P * X * P)] at h6
    have h7 : frob X ≤ frob A + frob (A - Wᵀ * X * W) := by
      have := frob_sub_le A (A - Wᵀ * X * W)
      rwa [sub_sub_cancel, frob_mul_orth _ hW, frob_mul_left _ hW.transpose] at this
    have h8 : 10 * kt α n * frob X ≤ κ * frob X := mul_le_mul_of_nonneg_right hκ (frob_nonneg _)
    have h9 := mul_le_mul_of_nonneg_left (h7.trans (add_le_add le_rfl herr)) hk0
    rw [pow_succ]
    linarith

end Std
end LA
