import Verif.Proofs.EigTred2

/-! # `tred2`: accumulation, and the whole procedure -/

set_option linter.unusedSectionVars false

namespace LA
open Finset Matrix
namespace Eigen

theorem tredApply_post {n i j : Nat} {d v : Buf ℝ} {f : Nat → ℝ} {G : Nat → Nat → ℝ} (hd : Full d n f) (hv : FullG v n n G)
    (hi : i + 1 < n) (hj : j ≤ i) :
    Post (tredApply n i j d v) fun r => FullG r n n (fun a b => if b = j then
      (if a < i + 1 then G a j - (∑ k ∈ range (i + 1), G k (i + 1) * G k j) * f a else G a j) else G a b) := by
  unfold tredApply
  have hsum : loop 0 (i + 1) (0 : ℝ) (fun k g => do return g + (← rd v (k * n + (i + 1))) * (← rd v (k * n + j))) =
      .ok (∑ k ∈ Ico 0 (i + 1), G k (i + 1) * G k j) :=
    loop_sum_Ico (fun k => G k (i + 1) * G k j) (fun k s _ hk => by
      rw [hv.rd (i := k) (j := i + 1) (by omega) (by omega), ok_bind, hv.rd (i := k) (j := j) (by omega) (by omega), ok_bind]; rfl)
  rw [hsum, ok_bind, ← Finset.range_eq_Ico]
  set g := ∑ k ∈ range (i + 1), G k (i + 1) * G k j
  refine (loop_post (lo := 0) (hi := i + 1) (fun c v => FullG v n n (fun a b => if b = j then
      (if a < c then G a j - g * f a else G a j) else G a b)) (by omega) (hv.congr fun a b _ _ => by
        by_cases h : b = j
        · rw [if_pos h, if_neg (by omega), h]
        · rw [if_neg h]) ?_)
  intro c v' _ hc h1
  rw [h1.rd (i := c) (j := j) (by omega) (by omega), ok_bind, hd.rd (i := c) (by omega), ok_bind]
  obtain ⟨v2, hv2, hg2⟩ := h1.wr (i := c) (j := j) (by omega) (by omega) (G c j - g * f c)
  rw [if_pos rfl, if_neg (by omega), hv2]
  refine Post.ok (hg2.congr fun a b _ _ => ?_)
  simp only [upd]
  clear hd hv h1 hg2 hsum
  grind

/-- The reflection of stage `t + 1` read from the table and the vector. -/
noncomputable def Hm (n : Nat) (F : Nat → Nat → ℝ) (f : Nat → ℝ) (t : Nat) : Matrix (Fin n) (Fin n) ℝ :=
  hh (vhi n (t + 1) (fun a => F a (t + 1))) (f (t + 1))

/-- `P_c ⋯ P_1`. -/
noncomputable def Wm (n : Nat) (F : Nat → Nat → ℝ) (f : Nat → ℝ) : Nat → Matrix (Fin n) (Fin n) ℝ
  | 0 => 1
  | c + 1 => Hm n F f c * Wm n F f c

theorem Wm_eq (n : Nat) (F : Nat → Nat → ℝ) (f : Nat → ℝ) (c : Nat) : Wm n F f c = (prodL (Hm n F f) c)ᵀ := by
  induction c with
  | zero => simp [Wm, prodL]
  | succ c ih => rw [Wm, prodL, transpose_mul, ih, Hm, hh_transpose]

theorem ext_Wm_succ {n c : Nat} (F : Nat → Nat → ℝ) (f : Nat → ℝ) (hc : c + 1 < n) {a b : Nat} (ha : a < n) (hb : b < n) :
    ext (Wm n F f (c + 1)) a b = ext (Wm n F f c) a b -
      (∑ k ∈ range (c + 1), F k (c + 1) * ext (Wm n F f c) k b) * (if a < c + 1 then F a (c + 1) / f (c + 1) else 0) := by
  rw [ext_eq _ ha hb, Wm, Hm, hh_mul_apply]
  have : ∑ t, vhi n (c + 1) (fun a => F a (c + 1)) t * Wm n F f c t ⟨b, hb⟩ =
      ∑ k ∈ range (c + 1), F k (c + 1) * ext (Wm n F f c) k b := by
    rw [← sum_vhi (N := n) (by omega)]
    refine Finset.sum_congr rfl fun t _ => ?_
    rw [ext_eq _ t.2 hb]
  rw [this, ext_eq _ ha hb]
  simp only [vhi]
  split <;> ring

theorem ext_Wm_out {n : Nat} (F : Nat → Nat → ℝ) (f : Nat → ℝ) (c : Nat) (hc : c < n) {a b : Nat} (ha : a < n) (hb : b < n)
    (h : c ≤ a ∨ c ≤ b) : ext (Wm n F f c) a b = if a = b then 1 else 0 := by
  induction c generalizing a b with
  | zero => rw [ext_eq _ ha hb, Wm, Matrix.one_apply]; simp
  | succ c ih =>
    rw [ext_Wm_succ F f hc ha hb]
    by_cases h1 : a < c + 1
    · have h2 : c + 1 ≤ b := h.resolve_left (by omega)
      rw [Finset.sum_eq_zero, zero_mul, sub_zero, ih (by omega) ha hb (Or.inr (by omega))]
      intro k hk
      rw [Finset.mem_range] at hk
      rw [ih (by omega) (by omega) hb (Or.inr (by omega)), if_neg (by omega), mul_zero]
    · rw [if_neg h1, mul_zero, sub_zero, ih (by omega) ha hb (Or.inl (by omega))]

/-- The table before step `c` of the accumulation. -/
noncomputable def accTab (n c : Nat) (F : Nat → Nat → ℝ) (f : Nat → ℝ) : Nat → Nat → ℝ := fun a b =>
  if a = n - 1 ∧ b < c then F b b else if a < c ∧ b < c then ext (Wm n F f c) a b else if b = c ∧ a < c then 0 else F a b

theorem tredAcc_post {n i : Nat} {d v : Buf ℝ} {f f0 : Nat → ℝ} {F : Nat → Nat → ℝ} (hd : Full d n f)
    (hv : FullG v n n (accTab n i F f0)) (hi : i + 1 < n) (hz : ∀ a b, a < n → 0 < a → b < a → F a b = 0)
    (hf : ∀ k, i < k → f k = f0 k) :
    Post (tredAcc n i d v) fun r => (∃ f', Full r.1 n f' ∧ ∀ k, i + 1 < k → f' k = f0 k) ∧
      FullG r.2 n n (accTab n (i + 1) F f0) := by
  unfold tredAcc
  have hu1 : usub n 1 = .ok (n - 1) := usub_ok (by omega)
  rw [hu1, ok_bind, hv.rd (i := i) (j := i) (by omega) (by omega), ok_bind]
  obtain ⟨v1, hv1, hg1⟩ := hv.wr (i := n - 1) (j := i) (by omega) (by omega) (accTab n i F f0 i i)
  obtain ⟨v2, hv2, hg2⟩ := hg1.wr (i := i) (j := i) (by omega) (by omega) 1
  rw [hv1, ok_bind, hv2, ok_bind, hd.rd (i := i + 1) (by omega), ok_bind, eq_eq, hf _ (by omega)]
  have e0 : accTab n i F f0 i i = F i i := by
    simp only [accTab]
    rw [if_neg (by omega), if_neg (by omega), if_neg (by omega)]
  rw [e0] at hg2
  set G : Nat → Nat → ℝ := fun a b => if a = n - 1 ∧ b < i + 1 then F b b else if a < i + 1 ∧ b < i + 1 then ext (Wm n F f0 i) a b
    else F a b with hG
  have hg3 : FullG v2 n n G := by
    refine hg2.congr fun a b ha hb => ?_
    simp only [hG, upd]
    by_cases h1 : a = i ∧ b = i
    · rw [if_pos h1, if_neg (by omega), if_pos (by omega), ext_Wm_out F f0 i (by omega) ha hb (by omega), if_pos (by omega)]
    · rw [if_neg h1]
      by_cases h2 : a = n - 1 ∧ b = i
      · rw [if_pos h2, if_pos (by omega), h2.2]
      · rw [if_neg h2]
        simp only [accTab]
        by_cases h3 : a = n - 1 ∧ b < i
        · rw [if_pos h3, if_pos (by omega)]
        · rw [if_neg h3, if_neg (show ¬ (a = n - 1 ∧ b < i + 1) by omega)]
          by_cases h4 : a < i ∧ b < i
          · rw [if_pos h4, if_pos (by omega)]
          · rw [if_neg h4]
            by_cases h5 : b = i ∧ a < i
            · rw [if_pos h5, if_pos (by omega), ext_Wm_out F f0 i (by omega) ha hb (by omega), if_neg (by omega)]
            · rw [if_neg h5]
              by_cases h6 : a < i + 1 ∧ b < i + 1
              · rw [if_pos h6, ext_Wm_out F f0 i (by omega) ha hb (by omega), if_neg (by omega), hz a b ha (by omega) (by omega)]
              · rw [if_neg h6]
  have hmid : Post (do
      if !(decide (f0 (i + 1) = 0)) then
        let d ← loop 0 (i + 1) d fun k d => do wr d k (← RDiv.rdiv (← rd v2 (k * n + (i + 1))) (f0 (i + 1)))
        let v ← loop 0 (i + 1) v2 fun j v => tredApply n i j d v
        return (d, v)
      else return (d, v2) : R (Buf ℝ × Buf ℝ)) fun r => (∃ f', Full r.1 n f' ∧ ∀ k, i + 1 < k → f' k = f0 k) ∧
        FullG r.2 n n (fun a b => if a = n - 1 ∧ b < i + 1 then F b b else if a < i + 1 ∧ b < i + 1 then ext (Wm n F f0 (i + 1)) a b
    else F a b) := by
    have hW : ∀ a b, a < i + 1 → b < i + 1 → ext (Wm n F f0 (i + 1)) a b = ext (Wm n F f0 i) a b -
      (∑ k ∈ range (i + 1), F k (i + 1) * ext (Wm n F f0 i) k b) * (F a (i + 1) / f0 (i + 1)) := by
      intro a b h1 h2
      rw [ext_Wm_succ F f0 hi (by omega) (by omega), if_pos h1]
    by_cases h0 : f0 (i + 1) = 0
    · rw [if_neg (by simpa using h0)]
      refine Post.ok ⟨⟨f, hd, fun k hk => hf k (by omega)⟩, hg3.congr fun a b ha hb => ?_⟩
      simp only [hG]
      by_cases h1 : a = n - 1 ∧ b < i + 1
      · rw [if_pos h1, if_pos h1]
      · rw [if_neg h1, if_neg h1]
        by_cases h2 : a < i + 1 ∧ b < i + 1
        · rw [if_pos h2, if_pos h2, hW a b h2.1 h2.2, h0, div_zero, mul_zero, sub_zero]
        · rw [if_neg h2, if_neg h2]
    · rw [if_pos (by simpa using h0)]
      have hGc : ∀ k, k < i + 1 → G k (i + 1) = F k (i + 1) := by
        intro k hk
        simp only [hG]
        rw [if_neg (by omega), if_neg (by omega)]
      obtain ⟨d2, hr2, hd2⟩ := loop_part (lo := 0) (hi := i + 1) (body := fun k d => do
          wr d k (← RDiv.rdiv (← rd v2 (k * n + (i + 1))) (f0 (i + 1)))) (fun k => F k (i + 1) / f0 (i + 1)) hd.part
        (fun k d' _ hk _ => ⟨_, by rw [hg3.rd (i := k) (j := i + 1) (by omega) (by omega), ok_bind, rdiv_ok h0, ok_bind], by rw [hGc k hk]⟩)
        (by omega)
      rw [hr2, ok_bind]
      have hd3 := hd2.full (fun _ _ => Or.inl trivial)
      obtain ⟨v3, hr3, hg4⟩ := loopG_cols (lo := 0) (hi := i + 1) (m := n) (n := n) (f := fun j v => tredApply n i j d2 v)
        (fun a b => if a < i + 1 then G a b - (∑ k ∈ range (i + 1), G k (i + 1) * G k b) * (F a (i + 1) / f0 (i + 1)) else G a b) hg3
        (by
          intro j d' G' _ hj hG' heq
          refine (tredApply_post hd3 hG' hi (by omega)).mono fun r hr => hr.congr fun a b _ _ => ?_
          by_cases e : b = j
          · rw [if_pos e, if_pos e, heq a j (by omega)]
            by_cases h1 : a < i + 1
            · rw [if_pos h1, if_pos h1, if_pos ⟨by omega, h1⟩]
              congr 2
              exact Finset.sum_congr rfl fun k _ => by rw [heq k j (by omega), heq k (i + 1) (by omega)]
            · rw [if_neg h1, if_neg h1]
          · rw [if_neg e, if_neg e])
      rw [hr3, ok_bind]
      refine Post.ok ⟨⟨_, hd3, fun k hk => ?_⟩, hg4.congr fun a b ha hb => ?_⟩
      · rw [if_neg (by omega), hf k (by omega)]
      · by_cases h1 : a = n - 1 ∧ b < i + 1
        · rw [if_pos h1, if_pos ⟨by omega, h1.2⟩, if_neg (by omega)]
          simp only [hG]
          rw [if_pos h1]
        · rw [if_neg h1]
          by_cases h2 : a < i + 1 ∧ b < i + 1
          · rw [if_pos h2, if_pos ⟨by omega, h2.2⟩, if_pos h2.1, hW a b h2.1 h2.2]
            have hin : ∀ k, k < i + 1 → G k b = ext (Wm n F f0 i) k b := by
              intro k hk
              simp only [hG]
              rw [if_neg (by omega), if_pos ⟨hk, h2.2⟩]
            rw [hin a h2.1]
            congr 2
            refine Finset.sum_congr rfl fun k hk => ?_
            rw [Finset.mem_range] at hk
            rw [hGc k hk, hin k hk]
          · rw [if_neg h2]
            have e1 : G a b = F a b := by
              simp only [hG]
              rw [if_neg h1, if_neg h2]
            by_cases h3 : b < i + 1
            · rw [if_pos ⟨by omega, h3⟩, if_neg (by omega), e1]
            · rw [if_neg (by omega), e1]
  obtain ⟨⟨d3, v3⟩, hr3, hd3, hg4⟩ := hmid
  dsimp only at hd3 hg4
  erw [hr3]
  rw [ok_bind]
  dsimp only
  obtain ⟨v4, hr4, hg5⟩ := loopG_rows (lo := 0) (hi := i + 1) (f := fun k v => wr v (k * n + (i + 1)) 0)
    (fun a b => if b = i + 1 then 0 else (fun a b => if a = n - 1 ∧ b < i + 1 then F b b else if a < i + 1 ∧ b < i + 1 then ext (Wm n F f0 (i + 1)) a b
    else F a b) a b) hg4 (by
      intro k d' G' _ hk hG' heq
      obtain ⟨d2, hr, hg⟩ := hG'.wr (i := k) (j := i + 1) (by omega) (by omega) 0
      rw [hr]
      refine Post.ok (hg.congr fun a b _ _ => ?_)
      simp only [upd]
      by_cases e : a = k
      · subst e
        rw [if_pos rfl]
        by_cases e2 : b = i + 1
        · rw [if_pos ⟨rfl, e2⟩, if_pos e2]
        · rw [if_neg (by omega), if_neg e2, heq a b (by omega)]
      · rw [if_neg (by omega), if_neg e])
  rw [hr4, ok_bind]
  refine Post.ok ⟨hd3, hg5.congr fun a b ha hb => ?_⟩
  simp only [accTab]
  clear hd hv hz hf hd3 hg4 hg5 hg3 hg2 hg1 e0 hG hr3 hr4
  generalize ext (Wm n F f0 (i + 1)) = W
  grind

theorem prodR_congr {N : Nat} {H H' : Nat → Matrix (Fin N) (Fin N) ℝ} {k c : Nat} (h : ∀ t, k ≤ t → t < k + c → H t = H' t) :
    prodR H k c = prodR H' k c := by
  induction c generalizing k with
  | zero => rfl
  | succ c ih => rw [prodR, prodR, h k le_rfl (by omega), ih fun t h1 h2 => h t (by omega) (by omega)]

/-- The symmetric tridiagonal table with diagonal `δ` and off-diagonal entries `ε a` at `(a, a - 1)` and `(a - 1, a)`. -/
def trid (δ ε : Nat → ℝ) : Nat → Nat → ℝ := fun a b =>
  if a = b then δ a else if a = b + 1 then ε a else if b = a + 1 then ε b else 0

/-- Invariant of the reduction (rows `c..` are done). -/
structure RedInv (n : Nat) (F0 : Nat → Nat → ℝ) (c : Nat) (st : Dev ℝ) (F : Nat → Nat → ℝ) (f ε : Nat → ℝ) : Prop where
  v : FullG st.v n n F
  d : Full st.d n f
  e : Part st.e n (fun k => c ≤ k) ε
  row : ∀ k, k < c → f k = F (c - 1) k
  sq : ∀ k, c ≤ k → k < n → ∑ t ∈ range k, F t k * F t k = 2 * f k
  zero : ∀ a b, c ≤ a → a < n → b < a → F a b = 0
  eq : SVD.pk n n (sym F0) = (prodR (Hm n F f) (c - 1) (n - c))ᵀ * SVD.pk n n (tab (c - 1) F ε) * prodR (Hm n F f) (c - 1) (n - c)

theorem redStep {n i : Nat} {F0 F : Nat → Nat → ℝ} {st : Dev ℝ} {f ε : Nat → ℝ} (hI : RedInv n F0 (i + 1) st F f ε)
    (hi0 : 1 ≤ i) (hi : i < n) : Post (tredStep n i st) fun st' => ∃ F' f' ε', RedInv n F0 i st' F' f' ε' := by
  refine (tredStep_post hI.d hI.e hI.v hi hi0 (fun k hk => by simpa using hI.row k (by omega))).mono ?_
  rintro st' ⟨u, h, η, H, hd, he, hv⟩
  refine ⟨_, _, _, hv, hd, he.mono (fun k _ hk => ⟨?_, rfl⟩), ?_, ?_, ?_, ?_⟩
  · rcases Nat.eq_or_lt_of_le hk with h | h
    · exact Or.inr h.symm
    · exact Or.inl ⟨h, h⟩
  · intro k hk
    rw [if_pos hk]
  · intro k hk hkn
    rw [if_neg (by omega)]
    by_cases e : k = i
    · subst e
      rw [if_pos rfl, ← H.sq]
      refine Finset.sum_congr rfl fun t ht => ?_
      rw [tredTab_col (by simpa using ht)]
    · rw [if_neg e, ← hI.sq k (by omega) hkn]
      exact Finset.sum_congr rfl fun t ht => by rw [tredTab_col' (by omega)]
  · intro a b h1 h2 h3
    by_cases e : a = i
    · subst e; exact tredTab_row h3
    · rw [tredTab_row' (by omega), hI.zero a b (by omega) h2 h3]
  · rw [show n - i = (n - (i + 1)) + 1 by omega, prodR, show i - 1 + 1 = i by omega]
    have e1 : prodR (Hm n (tredTab i F u h) (fun k => if k < i then tredTab i F u h (i - 1) k else if k = i then h else f k)) i
        (n - (i + 1)) = prodR (Hm n F f) i (n - (i + 1)) := by
      refine prodR_congr fun t h1 h2 => ?_
      unfold Hm
      dsimp only
      rw [if_neg (by omega), if_neg (by omega)]
      congr 2
      funext a
      rw [tredTab_col' (by omega)]
    have e2 : Hm n (tredTab i F u h) (fun k => if k < i then tredTab i F u h (i - 1) k else if k = i then h else f k) (i - 1) =
        hh (vhi n i u) h := by
      unfold Hm
      rw [show i - 1 + 1 = i by omega]
      dsimp only
      rw [if_neg (lt_irrefl i), if_pos rfl]
      congr 1
      funext a
      simp only [vhi]
      by_cases h3 : a.1 < i
      · rw [if_pos h3, if_pos h3, tredTab_col h3]
      · rw [if_neg h3, if_neg h3]
    rw [e1, e2, tab_step hi hi0 H, transpose_mul, hh_transpose]
    have hsq : hh (vhi n i u) h * hh (vhi n i u) h = 1 := by
      have := vhi_orth hi.le H.sq
      unfold Orth at this
      rwa [hh_transpose] at this
    have h4 := hI.eq
    rw [show i + 1 - 1 = i by omega] at h4
    rw [h4]
    generalize prodR (Hm n F f) i (n - (i + 1)) = W
    generalize hh (vhi n i u) h = P at hsq
    generalize SVD.pk n n (tab i F ε) = T
    calc Wᵀ * T * W = Wᵀ * (P * P) * T * (P * P) * W := by rw [hsq, Matrix.mul_one, Matrix.mul_one]
      _ = _ := by simp only [Matrix.mul_assoc]

theorem tred2_post {n : Nat} {st : Dev ℝ} {F0 : Nat → Nat → ℝ} (hn : 0 < n) (hd : st.d.length = n) (he : st.e.length = n)
    (hv : FullG st.v n n F0) :
    Post (tred2 n st) fun r => ∃ δ ε V, Full r.d n δ ∧ Full r.e n ε ∧ FullG r.v n n V ∧ ε 0 = 0 ∧ Orth (SVD.pk n n V) ∧
      SVD.pk n n (sym F0) = SVD.pk n n V * SVD.pk n n (trid δ ε) * (SVD.pk n n V)ᵀ := by
  unfold tred2
  have hu1 : usub n 1 = .ok (n - 1) := usub_ok (by omega)
  obtain ⟨d1, hr1, hd1⟩ := loop_part (lo := 0) (hi := n) (P := fun _ => False) (f := fun _ => 0)
    (body := fun j d => do wr d j (← rd st.v ((← usub n 1) * n + j))) (fun k => F0 (n - 1) k) (d := st.d)
    ⟨hd, fun _ _ h => h.elim⟩ (fun k d' _ hk _ => ⟨_, by rw [hu1, ok_bind, hv.rd (i := n - 1) (j := k) (by omega) hk, ok_bind], rfl⟩) le_rfl
  have hd1' : Full d1 n (fun k => F0 (n - 1) k) := (hd1.mono (Q := fun _ => True) (fun i hi _ =>
    ⟨Or.inr ⟨by omega, hi⟩, if_pos ⟨by omega, hi⟩⟩)).full fun _ _ => trivial
  rw [hr1, ok_bind]
  have hred := loopRev_post (lo := 1) (hi := n) (s := (⟨d1, st.e, st.v⟩ : Dev ℝ)) (f := fun i st => tredStep n i st)
    (fun c st => ∃ F f ε, RedInv n F0 c st F f ε) (by omega)
    ⟨F0, _, fun _ => 0, ⟨hv, hd1', ⟨he, fun i h1 h2 => by omega⟩, fun k _ => rfl, fun k h1 h2 => by omega,
      fun a b h1 h2 => by omega, by
        rw [Nat.sub_self, prodR, transpose_one, Matrix.one_mul, Matrix.mul_one]
        ext a b
        show sym F0 a b = tab (n - 1) F0 (fun _ => 0) a b
        unfold tab
        rw [if_pos (by omega)]⟩⟩
    (fun i st h1 h2 ⟨F, f, ε, hI⟩ => redStep hI h1 h2)
  obtain ⟨st2, hr2, F, f, ε, hI⟩ := hred
  rw [hr2, ok_bind, hu1, ok_bind]
  have hacc := loop_post (lo := 0) (hi := n - 1) (s := (st2.d, st2.v))
    (f := fun i (x : Buf ℝ × Buf ℝ) => (do let (d, v) := x; tredAcc n i d v : R (Buf ℝ × Buf ℝ)))
    (fun c r => (∃ f', Full r.1 n f' ∧ ∀ k, c < k → f' k = f k) ∧ FullG r.2 n n (accTab n c F f)) (by omega)
    ⟨⟨f, hI.d, fun _ _ => rfl⟩, hI.v.congr fun a b _ _ => by
      simp only [accTab]; rw [if_neg (by omega), if_neg (by omega), if_neg (by omega)]⟩ (by
    rintro i ⟨d, v⟩ - hi ⟨⟨f', h1, h2⟩, h3⟩
    exact tredAcc_post h1 h3 (by omega) (fun a b h4 h5 h6 => hI.zero a b h5 h4 h6) h2)
  obtain ⟨⟨d3, v3⟩, hr3, ⟨f3, hd3, -⟩, hg3⟩ := hacc
  dsimp only at hd3 hg3
  erw [hr3]
  rw [ok_bind]
  dsimp only
  have hlast := loop_post (lo := 0) (hi := n) (s := (d3, v3))
    (f := fun j (x : Buf ℝ × Buf ℝ) => (do
      let (d, v) := x
      let d ← wr d j (← rd v ((← (Except.ok (n - 1) : R Nat)) * n + j))
      let v ← wr v ((← (Except.ok (n - 1) : R Nat)) * n + j) 0
      return (d, v) : R (Buf ℝ × Buf ℝ)))
    (fun c r => Full r.1 n (fun k => if k < c then accTab n (n - 1) F f (n - 1) k else f3 k) ∧
      FullG r.2 n n (fun a b => if a = n - 1 ∧ b < c then 0 else accTab n (n - 1) F f a b)) (by omega)
    ⟨hd3.congr fun k _ => by rw [if_neg (by omega)], hg3.congr fun a b _ _ => by rw [if_neg (by omega)]⟩ (by
    rintro j ⟨d, v⟩ - hj ⟨h1, h2⟩
    dsimp only at h1 h2 ⊢
    obtain ⟨d4, hr4, hd4⟩ := h1.wr (i := j) hj (accTab n (n - 1) F f (n - 1) j)
    obtain ⟨v4, hr5, hv4⟩ := h2.wr (i := n - 1) (j := j) (by omega) hj 0
    rw [ok_bind, h2.rd (i := n - 1) (j := j) (by omega) hj, ok_bind, if_neg (by omega), hr4, ok_bind, ok_bind, hr5, ok_bind]
    refine Post.ok ⟨hd4.congr fun k _ => ?_, hv4.congr fun a b _ _ => ?_⟩
    · simp only [updv]; grind
    · simp only [upd]; grind)
  obtain ⟨⟨d4, v4⟩, hr4, hd4, hg4⟩ := hlast
  dsimp only at hd4 hg4
  erw [hr4]
  rw [ok_bind]
  dsimp only
  obtain ⟨v5, hr5, hg5⟩ := hg4.wr (i := n - 1) (j := n - 1) (by omega) (by omega) 1
  obtain ⟨e5, hr6, he5⟩ := hI.e.wr (i := 0) hn 0
  rw [ok_bind, ok_bind, hr5, ok_bind, hr6, ok_bind]
  have hWt : ∀ a b, a < n → b < n → (upd (fun a b => if a = n - 1 ∧ b < n then 0 else accTab n (n - 1) F f a b) (n - 1) (n - 1) 1) a b =
      ext (Wm n F f (n - 1)) a b := by
    intro a b ha hb
    simp only [upd, accTab]
    by_cases h1 : a = n - 1 ∨ b = n - 1
    · rw [ext_Wm_out F f (n - 1) (by omega) ha hb (by omega)]
      clear hd hv he hd1 hd1' hd3 hg3 hd4 hg4 hg5 he5 hI
      generalize ext (Wm n F f (n - 1)) = W
      grind
    · generalize ext (Wm n F f (n - 1)) = W
      clear hd hv he hd1 hd1' hd3 hg3 hd4 hg4 hg5 he5 hI
      grind
  have hpk : SVD.pk n n (upd (fun a b => if a = n - 1 ∧ b < n then 0 else accTab n (n - 1) F f a b) (n - 1) (n - 1) 1) = Wm n F f (n - 1) := by
    ext a b
    exact (hWt a b a.2 b.2).trans (ext_fin _ a b)
  refine Post.ok ⟨fun k => F k k, updv ε 0 0, _, hd4.congr fun k hk => ?_, he5.full fun i _ => by omega, hg5, by simp, ?_, ?_⟩
  · rw [if_pos hk]
    simp only [accTab]
    by_cases h1 : k < n - 1
    · rw [if_pos (by simpa using h1)]
    · rw [if_neg (by omega), if_neg (by omega), if_neg (by omega), show k = n - 1 by omega]
  · rw [hpk, Wm_eq]
    refine (prodL_orth fun t ht => ?_).transpose
    exact vhi_orth (by omega) (hI.sq (t + 1) (by omega) (by omega))
  · rw [hpk, Wm_eq, transpose_transpose]
    have h5 := hI.eq
    have h6 := prodL_mul_prodR (Hm n F f) 0 (n - 1)
    rw [prodL, Matrix.one_mul, Nat.zero_add] at h6
    rw [show (1 : Nat) - 1 = 0 from rfl, h6] at h5
    rw [h5]
    congr 2
    ext a b
    show tab 0 F ε a b = trid _ _ a b
    unfold trid tab sym updv
    clear hd hv he hd1 hd1' hd3 hg3 hd4 hg4 hg5 he5 hI h5 h6 hpk hWt
    obtain ⟨a, ha⟩ := a
    obtain ⟨b, hb⟩ := b
    dsimp only
    grind

end Eigen
end LA
