import Verif.Proofs.EigTred

/-! # `tred2`: one step of the reduction -/

set_option linter.unusedSectionVars false

namespace LA
open Finset Matrix
namespace Eigen

/-- `S u / h` for the symmetric table `S` with lower triangle `F`, restricted to the first `i` indices. -/
noncomputable def pvec (i : Nat) (F : Nat → Nat → ℝ) (u : Nat → ℝ) (h : ℝ) : Nat → ℝ := fun k => (∑ b ∈ range i, sym F k b * u b) / h

/-- `p - (u·p / 2h) u`. -/
noncomputable def qvec (i : Nat) (F : Nat → Nat → ℝ) (u : Nat → ℝ) (h : ℝ) : Nat → ℝ := fun k =>
  pvec i F u h k - (∑ t ∈ range i, pvec i F u h t * u t) / (h + h) * u k

/-- The table after step `i`. -/
noncomputable def tredTab (i : Nat) (F : Nat → Nat → ℝ) (u : Nat → ℝ) (h : ℝ) : Nat → Nat → ℝ := fun a b =>
  if b ≤ a ∧ a < i then F a b - (u b * qvec i F u h a + qvec i F u h b * u a)
  else if a = i ∧ b < i then 0 else if b = i ∧ a < i then u a else F a b

/-- The reflection vector `u`, `h` annihilates row `i` except for the entry `η`. -/
structure TredHV (i : Nat) (F : Nat → Nat → ℝ) (u : Nat → ℝ) (h η : ℝ) : Prop where
  sq : ∑ t ∈ range i, u t * u t = 2 * h
  row : ∀ k, k < i → F i k - (∑ t ∈ range i, u t * F i t) / h * u k = if k = i - 1 then η else 0

theorem tredHouse_post {n i : Nat} {st : Dev ℝ} {f ε : Nat → ℝ} {P : Nat → Prop} {F : Nat → Nat → ℝ}
    (hd : Full st.d n f) (he : Part st.e n P ε) (hv : FullG st.v n n F) (hi : i < n) (hi0 : 0 < i)
    (hf : ∀ k, k < i → f k = F i k) {scale : ℝ} (hsc : scale = ∑ k ∈ range i, |f k|) (hs0 : scale ≠ 0) :
    Post (tredHouse n i scale st) fun r => ∃ u h η, TredHV i F u h η ∧
      Full r.d n (fun k => if k < i then tredTab i F u h (i - 1) k else if k = i then h else f k) ∧
      Part r.e n (fun k => P k ∨ k = i) (fun k => if k = i then η else if k < i then qvec i F u h k else ε k) ∧
      FullG r.v n n (tredTab i F u h) := by
  unfold tredHouse
  obtain ⟨⟨d1, h1⟩, hr1, hd1, hh1⟩ := tredScale_post hd (i := i) (by omega) hs0
  dsimp only at hd1 hh1
  rw [hr1, ok_bind]
  dsimp only
  have hu1 : usub i 1 = .ok (i - 1) := usub_ok (by omega)
  have hp0 : 0 ≤ h1 := by rw [hh1]; exact Finset.sum_nonneg fun t _ => mul_self_nonneg _
  rw [hu1, ok_bind, hd1.rd (i := i - 1) (by omega), ok_bind, sqrt_ok hp0, ok_bind, if_pos (show i - 1 < i by omega), lt_eq]
  set x : Nat → ℝ := fun k => f k / scale with hx
  have hh1' : h1 = ∑ t ∈ range i, x t * x t := hh1
  have hpos : 0 < h1 := by
    rcases hp0.eq_or_lt with e | e
    · exfalso
      apply hs0
      rw [hsc]
      refine Finset.sum_eq_zero fun k hk => ?_
      have := (Finset.sum_eq_zero_iff_of_nonneg (fun t _ => mul_self_nonneg (x t))).1 (by rw [← hh1', ← e]) k hk
      have h3 : f k / scale = 0 := mul_self_eq_zero.1 this
      rcases div_eq_zero_iff.1 h3 with h4 | h4
      · rw [h4, abs_zero]
      · exact (hs0 h4).elim
    · exact e
  set g : ℝ := if decide (0 < f (i - 1) / scale) = true then -Real.sqrt h1 else Real.sqrt h1 with hg
  have hg2 : g ^ 2 = h1 := by
    rw [hg]; split <;> simp [Real.sq_sqrt hp0]
  have hgs : x (i - 1) * g ≤ 0 := by
    have := Real.sqrt_nonneg h1
    simp only [hg, hx]
    by_cases h3 : 0 < f (i - 1) / scale
    · rw [if_pos (by simpa using h3)]
      nlinarith
    · rw [if_neg (by simpa using h3)]
      push Not at h3
      nlinarith
  have hgne : g ≠ 0 := by
    intro h0
    rw [h0] at hg2
    have : h1 = 0 := by rw [← hg2]; ring
    linarith
  obtain ⟨e1, he1, hpe1⟩ := he.wr (i := i) hi (scale * g)
  obtain ⟨d2, hd2, hf2⟩ := hd1.wr (i := i - 1) (by omega) (f (i - 1) / scale - g)
  rw [he1, ok_bind, ok_bind, hd2, ok_bind]
  set h : ℝ := h1 - f (i - 1) / scale * g with hh
  set u : Nat → ℝ := updv (fun k => if k < i then f k / scale else f k) (i - 1) (f (i - 1) / scale - g) with hu
  have hux : ∀ t ∈ range i, u t = if t = i - 1 then x t - g else x t := by
    intro t ht
    rw [Finset.mem_range] at ht
    simp only [hu, updv, hx]
    by_cases h3 : t = i - 1
    · rw [if_pos h3, if_pos h3, h3]
    · rw [if_neg h3, if_neg h3, if_pos ht]
  obtain ⟨hhpos, hsq, hdot, -, -⟩ := house2 (s := range i) (π := i - 1) (by simp; omega) (x := x) (u := u) (g := g) (h := h)
    (by rw [hg2, hh1']) hgs hgne hux (by rw [hh, hh1'])
  obtain ⟨e2, he2, hpe2⟩ := loop_part (lo := 0) (hi := i) (body := fun j e => wr e j 0) (fun _ => 0) hpe1
    (fun k d' _ hk _ => ⟨0, rfl, rfl⟩) hi.le
  rw [he2, ok_bind]
  obtain ⟨⟨e3, v3⟩, hr3, hpe3, hg3⟩ := tredSymv_post hf2 hpe2 (i := i) (fun k hk => Or.inr ⟨by omega, hk⟩)
    (fun k hk => if_pos ⟨by omega, hk⟩) hv hi
  dsimp only at hpe3 hg3
  rw [hr3, ok_bind]
  dsimp only
  obtain ⟨e4, hr4, hpe4⟩ := tredQ_post hf2 hpe3 (i := i) (fun k hk => Or.inr ⟨by omega, hk⟩) hhpos hi.le
  rw [hr4, ok_bind]
  replace hpe4 : Part e4 n (fun k => P k ∨ k = i ∨ k < i) (fun k => if k = i then scale * g else if k < i then qvec i F u h k else ε k) := by
    refine hpe4.mono fun k _ hk => ⟨by rcases hk with h | h | h
                                       · exact Or.inl (Or.inl h)
                                       · exact Or.inl (Or.inr h)
                                       · exact Or.inr ⟨by omega, h⟩, ?_⟩
    by_cases h4 : k < i
    · rw [if_pos h4, if_pos h4, if_neg (show ¬ k = i by omega), if_pos h4, qvec, pvec]
      congr 2
      congr 1
      refine Finset.sum_congr rfl fun t ht => ?_
      rw [Finset.mem_range] at ht
      rw [if_pos ht, pvec]
    · rw [if_neg h4, if_neg h4, if_neg (by omega), if_neg h4, updv]
  obtain ⟨⟨d5, v5⟩, hr5, hd5, hv5⟩ := tredRank2_post hf2 hpe4 (i := i) (fun k hk => Or.inr (Or.inr hk)) hg3 hi hi0
  dsimp only at hd5 hv5
  rw [hr5, ok_bind]
  dsimp only
  obtain ⟨d6, hd6, hf6⟩ := hd5.wr (i := i) hi h
  rw [hd6, ok_bind]
  have htab : ∀ a b, (if b ≤ a ∧ a < i then (if b = i ∧ a < i then u a else F a b) - (u b * qvec i F u h a + qvec i F u h b * u a)
      else if a = i ∧ b < i then 0 else if b = i ∧ a < i then u a else F a b) = tredTab i F u h a b := by
    intro a b
    simp only [tredTab]
    by_cases h3 : b ≤ a ∧ a < i
    · rw [if_pos h3, if_pos h3, if_neg (show ¬ (b = i ∧ a < i) by omega)]
    · rw [if_neg h3, if_neg h3]
  refine Post.ok ⟨u, h, scale * g, ⟨hsq, ?_⟩, ?_, ?_, ?_⟩
  · intro k hk
    have e1 : ∑ t ∈ range i, u t * F i t = scale * h := by
      rw [← hdot, Finset.mul_sum]
      refine Finset.sum_congr rfl fun t ht => ?_
      rw [Finset.mem_range] at ht
      rw [← hf t ht]
      simp only [hx]
      field_simp
    rw [e1, ← hf k hk, hux k (by simpa using hk), mul_div_assoc, div_self hhpos.ne', mul_one]
    have e2 : f k = scale * x k := by simp only [hx]; field_simp
    rw [e2]
    split <;> ring
  · refine hf6.congr fun k _ => ?_
    simp only [updv]
    by_cases h3 : k = i
    · rw [if_pos h3, if_neg (by omega), if_pos h3]
    · rw [if_neg h3]
      by_cases h4 : k < i
      · rw [if_pos h4, if_pos h4, if_neg (show ¬ i - 1 = i by omega), if_pos (show i - 1 < i by omega), if_neg h3, if_pos h4,
          ← htab, if_pos (show k ≤ i - 1 ∧ i - 1 < i by omega)]
      · rw [if_neg h4, if_neg h4, if_neg h3]
        simp only [hu, updv]
        rw [if_neg (by omega), if_neg h4]
  · exact hpe4.mono fun k _ hk => ⟨by tauto, rfl⟩
  · refine hv5.congr fun a b _ _ => ?_
    rw [← htab]
    by_cases h3 : b ≤ a ∧ a < i
    · rw [if_pos h3, if_pos h3, if_neg (show ¬ a = i by omega), if_pos (show a < i by omega), if_neg (show ¬ b = i by omega), if_pos (show b < i by omega)]
    · rw [if_neg h3, if_neg h3]

theorem tredStep_post {n i : Nat} {st : Dev ℝ} {f ε : Nat → ℝ} {P : Nat → Prop} {F : Nat → Nat → ℝ}
    (hd : Full st.d n f) (he : Part st.e n P ε) (hv : FullG st.v n n F) (hi : i < n) (hi0 : 0 < i)
    (hf : ∀ k, k < i → f k = F i k) :
    Post (tredStep n i st) fun r => ∃ u h η, TredHV i F u h η ∧
      Full r.d n (fun k => if k < i then tredTab i F u h (i - 1) k else if k = i then h else f k) ∧
      Part r.e n (fun k => i < k ∧ P k ∨ k = i) (fun k => if k = i then η else ε k) ∧
      FullG r.v n n (tredTab i F u h) := by
  unfold tredStep
  have hsum : loop 0 i (0 : ℝ) (fun k s => do return s + FloatOps.abs (← rd st.d k)) = .ok (∑ k ∈ Ico 0 i, |f k|) :=
    loop_sum_Ico (fun k => |f k|) (fun k s _ hk => by rw [hd.rd (i := k) (by omega), ok_bind, Exact.abs_eq]; rfl)
  rw [hsum, ok_bind, eq_eq, ← Finset.range_eq_Ico]
  by_cases h0 : ∑ k ∈ range i, |f k| = 0
  · rw [if_pos (by simpa using h0)]
    have hz : ∀ k, k < i → f k = 0 := fun k hk =>
      abs_eq_zero.1 ((Finset.sum_eq_zero_iff_of_nonneg (fun t _ => abs_nonneg (f t))).1 h0 k (by simpa using hk))
    have htab : ∀ a b, (if (a = i ∧ b < i) ∨ (b = i ∧ a < i) then 0 else F a b) = tredTab i F (fun _ => 0) 0 a b := by
      intro a b
      simp only [tredTab, qvec, pvec]
      clear hf hd he hv hz
      grind
    refine (tredZero_post hd he hv hi hi0).mono ?_
    rintro r ⟨h1, h2, h3⟩
    refine ⟨fun _ => 0, 0, 0, ⟨by simp, fun k hk => ?_⟩, h1.congr fun k _ => ?_, h2.mono fun k _ hk => ?_, h3.congr fun a b _ _ => htab a b⟩
    · rw [← hf k hk, hz k hk]; simp
    · by_cases h4 : k < i
      · rw [if_pos h4, if_pos h4, ← htab, if_neg (by omega)]
      · rw [if_neg h4, if_neg h4]
    · refine ⟨by tauto, ?_⟩
      simp only [updv]
      rw [hz (i - 1) (by omega)]
  · rw [if_neg (by simpa using h0)]
    refine (tredHouse_post hd he hv hi hi0 hf rfl h0).mono ?_
    rintro r ⟨u, h, η, h1, h2, h3, h4⟩
    refine ⟨u, h, η, h1, h2, h3.mono fun k _ hk => ⟨by tauto, ?_⟩, h4⟩
    by_cases h5 : k = i
    · rw [if_pos h5, if_pos h5]
    · rw [if_neg h5, if_neg h5, if_neg (by omega)]

/-- `u` restricted to the first `i` indices. -/
def vhi (N i : Nat) (u : Nat → ℝ) : Fin N → ℝ := fun t => if t.1 < i then u t else 0

theorem sum_vhi {N i : Nat} (hi : i ≤ N) (u f : Nat → ℝ) : ∑ t : Fin N, vhi N i u t * f t = ∑ t ∈ range i, u t * f t := by
  unfold vhi
  rw [Fin.sum_univ_eq_sum_range (fun t => (if t < i then u t else 0) * f t) N, Finset.range_eq_Ico, Finset.range_eq_Ico,
    ← Finset.sum_Ico_consecutive _ (Nat.zero_le i) hi]
  have e1 : ∑ t ∈ Ico i N, (if t < i then u t else 0) * f t = 0 := by
    refine Finset.sum_eq_zero fun t ht => ?_
    rw [Finset.mem_Ico] at ht
    rw [if_neg (by omega), zero_mul]
  rw [e1, add_zero]
  refine Finset.sum_congr rfl fun t ht => ?_
  rw [Finset.mem_Ico] at ht
  rw [if_pos ht.2]

theorem vhi_orth {N i : Nat} (hi : i ≤ N) {u : Nat → ℝ} {h : ℝ} (hs : ∑ t ∈ range i, u t * u t = 2 * h) :
    Orth (hh (vhi N i u) h) := by
  refine hh_orth ?_
  rw [← hs, ← sum_vhi hi, dotProduct]
  refine Finset.sum_congr rfl fun t _ => ?_
  simp only [vhi]
  split <;> simp

/-- A symmetric matrix reflected from both sides. -/
theorem hh_both {N : Nat} (v : Fin N → ℝ) (c : ℝ) (M : Matrix (Fin N) (Fin N) ℝ) (hM : Mᵀ = M) (a b : Fin N) (p : Fin N → ℝ)
    (hp : ∀ a, p a = (∑ t, v t * M a t) / c) :
    (hh v c * M * hh v c) a b = M a b - v a * (p b - (∑ t, p t * v t) / (c + c) * v b) -
      (p a - (∑ t, p t * v t) / (c + c) * v a) * v b := by
  have hs : ∀ a b, M a b = M b a := fun a b => by rw [← transpose_apply M, hM]
  have h1 : ∀ a b, (M * hh v c) a b = M a b - v b * p a := by
    intro a b
    rw [mul_hh_apply, hp]; ring
  rw [Matrix.mul_assoc, hh_mul_apply]
  simp only [h1]
  have e1 : ∑ t, v t * (M t b - v b * p t) = (∑ t, v t * M b t) - v b * ∑ t, p t * v t := by
    rw [Finset.mul_sum, ← Finset.sum_sub_distrib]
    exact Finset.sum_congr rfl fun t _ => by rw [hs t b]; ring
  rw [e1]
  have e2 : (∑ t, v t * M b t) = p b * c ∨ c = 0 := by
    by_cases hc : c = 0
    · exact Or.inr hc
    · left; rw [hp]; field_simp
  by_cases hc : c = 0
  · simp only [hp, hc]; simp
  · rw [e2.resolve_right hc]
    field_simp
    ring

/-- The symmetric matrix represented at stage `i`. -/
def tab (i : Nat) (F : Nat → Nat → ℝ) (ε : Nat → ℝ) : Nat → Nat → ℝ := fun a b =>
  if a ≤ i ∧ b ≤ i then sym F a b else if a = b then F a a else if a = b + 1 then ε a else if b = a + 1 then ε b else 0

theorem tab_comm (i : Nat) (F : Nat → Nat → ℝ) (ε : Nat → ℝ) (a b : Nat) : tab i F ε a b = tab i F ε b a := by
  unfold tab
  rw [sym_comm F a b]
  grind

theorem pk_tab_symm (n i : Nat) (F : Nat → Nat → ℝ) (ε : Nat → ℝ) : (SVD.pk n n (tab i F ε))ᵀ = SVD.pk n n (tab i F ε) := by
  ext a b
  exact tab_comm i F ε b a

section
variable {i : Nat} {F : Nat → Nat → ℝ} {ε u : Nat → ℝ} {h : ℝ} {a b : Nat}

theorem tab_lo (h1 : b ≤ a) (h2 : a ≤ i) : tab i F ε a b = F a b := by unfold tab sym; grind
theorem tab_up (h1 : a ≤ b) (h2 : b ≤ i) : tab i F ε a b = F b a := by unfold tab sym; grind
theorem tab_dg (h1 : i < a) : tab i F ε a a = F a a := by unfold tab sym; grind
theorem tab_sub (h1 : a = b + 1) (h2 : i < a) : tab i F ε a b = ε a := by unfold tab sym; grind
theorem tab_sup (h1 : b = a + 1) (h2 : i < b) : tab i F ε a b = ε b := by unfold tab sym; grind
theorem tab_far (h1 : a + 1 < b ∨ b + 1 < a) (h2 : i < a ∨ i < b) : tab i F ε a b = 0 := by unfold tab sym; grind
theorem tredTab_lo (h1 : b ≤ a) (h2 : a < i) : tredTab i F u h a b = F a b - (u b * qvec i F u h a + qvec i F u h b * u a) := by
  unfold tredTab; rw [if_pos ⟨h1, h2⟩]
theorem tredTab_hi (h1 : ¬ a < i) (h2 : ¬ b < i) : tredTab i F u h a b = F a b := by
  unfold tredTab; rw [if_neg (by omega), if_neg (by omega), if_neg (by omega)]
theorem tredTab_row (h2 : b < i) : tredTab i F u h i b = 0 := by
  unfold tredTab; rw [if_neg (by omega), if_pos (by omega)]
theorem tredTab_col (h2 : a < i) : tredTab i F u h a i = u a := by
  unfold tredTab; rw [if_neg (by omega), if_neg (by omega), if_pos (by omega)]
theorem tredTab_row' (h2 : i < a) : tredTab i F u h a b = F a b := by
  unfold tredTab; rw [if_neg (by omega), if_neg (by omega), if_neg (by omega)]
theorem tredTab_col' (h2 : i < b) : tredTab i F u h a b = F a b := by
  unfold tredTab; rw [if_neg (by omega), if_neg (by omega), if_neg (by omega)]
end

/-- One step of the reduction. -/
theorem tab_step {n i : Nat} (hi : i < n) (hi0 : 0 < i) {F : Nat → Nat → ℝ} {u ε : Nat → ℝ} {h η : ℝ} (H : TredHV i F u h η) :
    SVD.pk n n (tab (i - 1) (tredTab i F u h) (fun k => if k = i then η else ε k)) =
      hh (vhi n i u) h * SVD.pk n n (tab i F ε) * hh (vhi n i u) h := by
  have hp : ∀ a : Fin n, (fun a : Fin n => if a.1 ≤ i then pvec i F u h a else 0) a =
      (∑ t, vhi n i u t * SVD.pk n n (tab i F ε) a t) / h := by
    intro a
    have : ∑ t, vhi n i u t * SVD.pk n n (tab i F ε) a t = ∑ t ∈ range i, u t * tab i F ε a t := sum_vhi hi.le u (fun t => tab i F ε a t)
    rw [this]
    by_cases h3 : a.1 ≤ i
    · simp only [h3, if_true, pvec]
      congr 1
      refine Finset.sum_congr rfl fun t ht => ?_
      rw [Finset.mem_range] at ht
      simp only [tab]
      rw [if_pos (by omega), mul_comm]
    · simp only [h3, if_false]
      rw [Finset.sum_eq_zero, zero_div]
      intro t ht
      rw [Finset.mem_range] at ht
      simp only [tab]
      rw [if_neg (by omega), if_neg (by omega), if_neg (by omega), if_neg (by omega), mul_zero]
  ext a b
  rw [hh_both _ _ _ (pk_tab_symm n i F ε) a b _ hp]
  have hK : ∑ t : Fin n, (fun a : Fin n => if a.1 ≤ i then pvec i F u h a else 0) t * vhi n i u t = ∑ t ∈ range i, pvec i F u h t * u t := by
    have := sum_vhi hi.le u (fun t => pvec i F u h t)
    rw [Finset.sum_congr rfl fun t _ => mul_comm (pvec i F u h t) (u t), ← this]
    refine Finset.sum_congr rfl fun t _ => ?_
    simp only [vhi]
    by_cases h3 : t.1 < i
    · rw [if_pos h3, if_pos h3.le, mul_comm]
    · rw [if_neg h3]; ring
  rw [hK]
  have hpi : pvec i F u h i = (∑ t ∈ range i, u t * F i t) / h := by
    simp only [pvec]
    congr 1
    refine Finset.sum_congr rfl fun t ht => ?_
    rw [Finset.mem_range] at ht
    simp only [sym]
    rw [if_pos ht.le, mul_comm]
  have hrow := H.row
  rw [← hpi] at hrow
  have hqv : ∀ k, pvec i F u h k - (∑ t ∈ range i, pvec i F u h t * u t) / (h + h) * u k = qvec i F u h k := fun k => rfl
  show tab (i - 1) (tredTab i F u h) (fun k => if k = i then η else ε k) a b = tab i F ε a b - _ - _
  obtain ⟨a, ha⟩ := a
  obtain ⟨b, hb⟩ := b
  simp only [vhi]
  have hrow1 := hrow a
  have hrow2 := hrow b
  clear hrow hp hK hpi H
  by_cases a1 : a < i
  · by_cases b1 : b < i
    · rw [if_pos a1, if_pos b1, if_pos a1.le, if_pos b1.le, hqv, hqv]
      by_cases c1 : b ≤ a
      · rw [tab_lo c1 (by omega), tab_lo c1 (by omega), tredTab_lo c1 a1]; ring
      · rw [tab_up (by omega) (by omega), tab_up (by omega) (by omega), tredTab_lo (by omega) b1]; ring
    · rw [if_pos a1, if_neg b1, if_pos a1.le]
      by_cases b2 : b = i
      · subst b2
        rw [if_pos le_rfl, tab_up a1.le le_rfl]
        have := hrow1 a1
        by_cases c1 : a = b - 1
        · rw [if_pos c1] at this
          rw [tab_sup (by omega) (by omega), if_pos rfl]
          linarith
        · rw [if_neg c1] at this
          rw [tab_far (by omega) (by omega)]
          linarith
      · rw [if_neg (by omega), tab_far (by omega) (by omega), tab_far (by omega) (by omega)]
        ring
  · rw [if_neg a1]
    by_cases b1 : b < i
    · rw [if_pos b1, if_pos b1.le]
      by_cases a2 : a = i
      · subst a2
        rw [if_pos le_rfl, tab_lo b1.le le_rfl]
        have := hrow2 b1
        by_cases c1 : b = a - 1
        · rw [if_pos c1] at this
          rw [tab_sub (by omega) (by omega), if_pos rfl]
          linarith
        · rw [if_neg c1] at this
          rw [tab_far (by omega) (by omega)]
          linarith
      · rw [if_neg (by omega), tab_far (by omega) (by omega), tab_far (by omega) (by omega)]
        ring
    · rw [if_neg b1]
      clear hrow1 hrow2 hqv
      by_cases c1 : a = b
      · subst c1
        rw [tab_dg (by omega), tredTab_hi a1 a1]
        by_cases c2 : a = i
        · rw [tab_lo le_rfl (by omega)]; ring
        · rw [tab_dg (by omega)]; ring
      · by_cases c2 : a = b + 1
        · rw [tab_sub c2 (by omega), tab_sub c2 (by omega), if_neg (by omega)]; ring
        · by_cases c3 : b = a + 1
          · rw [tab_sup c3 (by omega), tab_sup c3 (by omega), if_neg (by omega)]; ring
          · rw [tab_far (by omega) (by omega), tab_far (by omega) (by omega)]; ring

end Eigen
end LA
