import Verif.Proofs.SVDLoop
import Verif.Proofs.Fuel

/-! # The main loop of `SVD::new`: the invariant, with the accumulated deflation error -/

set_option linter.unusedSectionVars false

namespace LA
open Finset Matrix
namespace SVD

theorem Fac.frob_eq {m n : Nat} {X : Matrix (Fin m) (Fin n) ℝ} {U V M : Nat → Nat → ℝ} (h : Fac m n X U V M) :
    frob (pk m n M) = frob X := by
  rw [h.eq, frob_mul_right _ h.v, frob_mul_left _ h.u]

theorem Fac.abs_le {m n : Nat} {X : Matrix (Fin m) (Fin n) ℝ} {U V M : Nat → Nat → ℝ} (h : Fac m n X U V M) {i j : Nat}
    (hi : i < m) (hj : j < n) : |M i j| ≤ frob X := by
  rw [← h.frob_eq]
  exact abs_le_frob (pk m n M) ⟨i, hi⟩ ⟨j, hj⟩

theorem frob_single {m n : Nat} {M : Matrix (Fin m) (Fin n) ℝ} {i0 : Fin m} {j0 : Fin n}
    (h : ∀ i j, ¬(i = i0 ∧ j = j0) → M i j = 0) : frob M = |M i0 j0| := by
  unfold frob
  rw [Finset.sum_eq_single i0, Finset.sum_eq_single j0, Real.sqrt_sq_eq_abs]
  · intro j _ hj; rw [h i0 j (by tauto)]; norm_num
  · simp
  · intro i _ hi
    exact Finset.sum_eq_zero fun j _ => by rw [h i j (by tauto)]; norm_num
  · simp

theorem frob_le {m n : Nat} {M N : Matrix (Fin m) (Fin n) ℝ} (h : ∀ i j, N i j = M i j ∨ N i j = 0) :
    frob N ≤ frob M := by
  refine Real.sqrt_le_sqrt (Finset.sum_le_sum fun i _ => Finset.sum_le_sum fun j _ => ?_)
  rcases h i j with e | e
  · rw [e]
  · rw [e]; nlinarith [sq_nonneg (M i j)]

/-- Replacing one entry of the middle factor by zero. -/
theorem Fac.deflate {m n i0 j0 : Nat} {X : Matrix (Fin m) (Fin n) ℝ} {U V M M' : Nat → Nat → ℝ} (h : Fac m n X U V M)
    (hi : i0 < m) (hj : j0 < n) (h0 : M' i0 j0 = 0) (hne : ∀ i j, ¬(i = i0 ∧ j = j0) → M' i j = M i j) :
    ∃ X', Fac m n X' U V M' ∧ frob (X' - X) = |M i0 j0| ∧ frob X' ≤ frob X := by
  have hF : Fac m n (pk m m U * pk m n M' * (pk n n V)ᵀ) U V M' := ⟨h.u, h.v, rfl⟩
  refine ⟨_, hF, ?_, ?_⟩
  · have : pk m m U * pk m n M' * (pk n n V)ᵀ - X = pk m m U * (pk m n M' - pk m n M) * (pk n n V)ᵀ := by
      rw [h.eq, Matrix.mul_sub, Matrix.sub_mul]
    rw [this, frob_mul_right _ h.v, frob_mul_left _ h.u, frob_single (i0 := ⟨i0, hi⟩) (j0 := ⟨j0, hj⟩)]
    · rw [Matrix.sub_apply, show pk m n M' ⟨i0, hi⟩ ⟨j0, hj⟩ = 0 from h0, zero_sub, abs_neg]
      rfl
    · intro i j hij
      rw [Matrix.sub_apply, sub_eq_zero]
      exact hne i j (by simpa [Fin.ext_iff] using hij)
  · rw [← hF.frob_eq, ← h.frob_eq]
    refine frob_le fun i j => ?_
    by_cases hij : i.1 = i0 ∧ j.1 = j0
    · right
      simp only [pk, LU.packed, of_apply, hij.1, hij.2, h0]
    · left
      exact hne i j hij

/-- Number of nonzero entries among the first `n`. -/
noncomputable def cnt (n : Nat) (e : Nat → ℝ) : Nat := ((range n).filter fun i => e i ≠ 0).card

theorem cnt_le {n : Nat} {e e' : Nat → ℝ} (h : ∀ i, i < n → e i = 0 → e' i = 0) : cnt n e' ≤ cnt n e := by
  refine Finset.card_le_card fun i hi => ?_
  rw [mem_filter, mem_range] at hi ⊢
  exact ⟨hi.1, fun h0 => hi.2 (h i hi.1 h0)⟩

theorem cnt_lt {n : Nat} {e e' : Nat → ℝ} (h : ∀ i, i < n → e i = 0 → e' i = 0) {i0 : Nat} (hi : i0 < n) (h1 : e i0 ≠ 0)
    (h2 : e' i0 = 0) : cnt n e' + 1 ≤ cnt n e := by
  refine Finset.card_lt_card ⟨fun i hi => ?_, fun hs => ?_⟩
  · rw [mem_filter, mem_range] at hi ⊢
    exact ⟨hi.1, fun h0 => hi.2 (h i hi.1 h0)⟩
  · have := hs (mem_filter.2 ⟨mem_range.2 hi, h1⟩)
    exact (mem_filter.1 this).2 h2

theorem cnt_init {n : Nat} {e : Nat → ℝ} (hn : 0 < n) (h : e (n - 1) = 0) : cnt n e ≤ n - 1 := by
  have h1 : (range n).filter (fun i => e i ≠ 0) ⊆ (range n).erase (n - 1) := by
    intro i hi
    rw [mem_filter] at hi
    rw [mem_erase]
    exact ⟨fun h0 => hi.2 (h0 ▸ h), hi.1⟩
  have := Finset.card_le_card h1
  rwa [card_erase_of_mem (mem_range.2 (by omega)), card_range] at this

/-- The largest perturbation a single deflation can cause. -/
noncomputable def delta {m n : Nat} (A : Matrix (Fin m) (Fin n) ℝ) : ℝ := tiny + 2 * eps * frob A

theorem delta_nonneg {m n : Nat} (A : Matrix (Fin m) (Fin n) ℝ) : 0 ≤ delta A := by
  unfold delta
  exact add_nonneg tiny_pos.le (mul_nonneg (mul_nonneg zero_le_two eps_pos.le) (frob_nonneg A))

/-- `X` is close to `A`: the error plus the cost of `c` further deflations is within the budget of `n - 1`. -/
def Near {m n : Nat} (A X : Matrix (Fin m) (Fin n) ℝ) (c : Nat) : Prop :=
  frob X ≤ frob A ∧ frob (X - A) + c * delta A ≤ ((n - 1 : Nat) : ℝ) * delta A

theorem Near.mono {m n : Nat} {A X : Matrix (Fin m) (Fin n) ℝ} {c d : Nat} (h : Near A X c) (hd : d ≤ c) : Near A X d := by
  refine ⟨h.1, le_trans ?_ h.2⟩
  have : (d : ℝ) ≤ c := by exact_mod_cast hd
  nlinarith [delta_nonneg A]

theorem Near.step {m n : Nat} {A X X' : Matrix (Fin m) (Fin n) ℝ} {c : Nat} (h : Near A X (c + 1))
    (h1 : frob (X' - X) ≤ delta A) (h2 : frob X' ≤ frob X) : Near A X' c := by
  refine ⟨h2.trans h.1, le_trans ?_ h.2⟩
  have : frob (X' - A) ≤ frob (X' - X) + frob (X - A) := by
    rw [show X' - A = (X' - X) + (X - A) by abel]
    exact frob_add_le _ _
  push_cast
  linarith

/-- Invariant of the main loop. -/
structure MI (m n : Nat) (A : Matrix (Fin m) (Fin n) ℝ) (p : Nat) (st : Main ℝ) (s e : Nat → ℝ) (U V : Nat → Nat → ℝ)
    (X : Matrix (Fin m) (Fin n) ℝ) : Prop where
  view : View m n st s e U V
  fac : Fac m n X U V (bid s e)
  ez : ∀ j, p ≤ j + 1 → e j = 0
  sorted : ∀ i j, p ≤ i → i ≤ j → j < n → s j ≤ s i
  pos : ∀ i, p ≤ i → i < n → 0 ≤ s i
  near : Near A X (cnt n e)

theorem defl_bound {m n : Nat} {A X : Matrix (Fin m) (Fin n) ℝ} (hX : frob X ≤ frob A) {x a b : ℝ}
    (h : |x| ≤ tiny + eps * (a + b)) (ha : a ≤ frob X) (hb : b ≤ frob X) : |x| ≤ delta A := by
  unfold delta
  have := eps_pos
  nlinarith

/-- Zeroing a negligible superdiagonal entry. -/
theorem defl_e {m n p k : Nat} {A : Matrix (Fin m) (Fin n) ℝ} {st : Main ℝ} {s e : Nat → ℝ} {U V : Nat → Nat → ℝ}
    {X : Matrix (Fin m) (Fin n) ℝ} (h : MI m n A p st s e U V X) (hnm : n ≤ m) (hk : k + 1 < p) (hp : p ≤ n) {eb : Buf ℝ}
    (he : Full eb n (updv e k 0)) (hb : |e k| ≤ tiny + eps * (|s k| + |s (k + 1)|)) :
    ∃ X', MI m n A p { st with e := eb } s (updv e k 0) U V X' := by
  by_cases h0 : e k = 0
  · have : updv e k 0 = e := by
      funext i
      by_cases hi : i = k
      · rw [hi, updv_same, h0]
      · rw [updv_ne hi]
    rw [this] at he ⊢
    exact ⟨X, ⟨h.view.s, he, h.view.u, h.view.v⟩, h.fac, h.ez, h.sorted, h.pos, h.near⟩
  · obtain ⟨X', hF, hd, hle⟩ := h.fac.deflate (i0 := k) (j0 := k + 1) (M' := bid s (updv e k 0)) (by omega) (by omega)
      (by simp [bid]) (by
        intro i j hij
        simp only [bid, updv]
        grind)
    have e1 : bid s e k (k + 1) = e k := by simp [bid]
    have b1 : |s k| ≤ frob X := by
      have := h.fac.abs_le (i := k) (j := k) (by omega) (by omega)
      simpa [bid] using this
    have b2 : |s (k + 1)| ≤ frob X := by
      have := h.fac.abs_le (i := k + 1) (j := k + 1) (by omega) (by omega)
      simpa [bid] using this
    have hc : cnt n (updv e k 0) + 1 ≤ cnt n e := cnt_lt (fun i _ hi => by
      by_cases hik : i = k
      · rw [hik, updv_same]
      · rw [updv_ne hik, hi]) (i0 := k) (by omega) h0 (updv_same _ _ _)
    refine ⟨X', ⟨h.view.s, he, h.view.u, h.view.v⟩, hF, ?_, h.sorted, h.pos, ?_⟩
    · intro j hj
      rw [updv_ne (by omega), h.ez j hj]
    · refine (h.near.mono hc).step ?_ hle
      rw [hd, e1]
      exact defl_bound h.near.1 hb b1 b2

/-- Zeroing a negligible diagonal entry. -/
theorem defl_s {m n p k1 ks : Nat} {A : Matrix (Fin m) (Fin n) ℝ} {st : Main ℝ} {s e : Nat → ℝ} {U V : Nat → Nat → ℝ}
    {X : Matrix (Fin m) (Fin n) ℝ} (h : MI m n A p st s e U V X) (hnm : n ≤ m) (hk : ks < p) (hp : p ≤ n)
    (hb : |s ks| ≤ tiny + eps * (|e ks| + if ks ≠ k1 then |e (ks - 1)| else 0)) {c : Nat} (hc : cnt n e = c + 1) :
    ∃ X', Fac m n X' U V (bid (updv s ks 0) e) ∧ Near A X' c := by
  obtain ⟨X', hF, hd, hle⟩ := h.fac.deflate (i0 := ks) (j0 := ks) (M' := bid (updv s ks 0) e) (by omega) (by omega)
      (by simp [bid]) (by
        intro i j hij
        simp only [bid, updv]
        grind)
  have e1 : bid s e ks ks = s ks := by simp [bid]
  have b0 := frob_nonneg X
  have b1 : ∀ i, |e i| ≤ frob X := by
    intro i
    by_cases hi : i + 1 < p
    · have := h.fac.abs_le (i := i) (j := i + 1) (by omega) (by omega)
      simpa [bid] using this
    · rw [h.ez i (by omega), abs_zero]; exact b0
  refine ⟨X', hF, ?_⟩
  have hn := h.near
  rw [hc] at hn
  refine hn.step ?_ hle
  rw [hd, e1]
  refine defl_bound h.near.1 hb (b1 _) ?_
  split
  · exact b1 _
  · exact b0

/-- Measure of the last two off-diagonal entries of `B·Bᵀ`. -/
def meas (p : Nat) (s e : Nat → ℝ) : ℝ := (e (p - 2) * s (p - 1)) ^ 2 * |e (p - 3) * s (p - 2)|

theorem meas_lower {t a b c d : ℝ} (ht : 0 < t) (ha : t < |a|) (hb : t < |b|) (hc : t < |c|) (hd : t < |d|) :
    t ^ 6 < (a * b) ^ 2 * |c * d| := by
  have h1 : t * t < |a| * |b| := mul_lt_mul'' ha hb ht.le ht.le
  have h2 : t * t < |c| * |d| := mul_lt_mul'' hc hd ht.le ht.le
  have h3 : (t * t) ^ 2 < (|a| * |b|) ^ 2 := pow_lt_pow_left₀ h1 (by positivity) two_ne_zero
  rw [← sq_abs (a * b), abs_mul, abs_mul]
  calc t ^ 6 = (t * t) ^ 2 * (t * t) := by ring
    _ < _ := mul_lt_mul'' h3 h2 (by positivity) (by positivity)

/-- Progress of one iteration of the main loop. -/
def Prog (n p p' : Nat) (s e s' e' : Nat → ℝ) : Prop :=
  p' + 1 = p ∨ (p' = p ∧ cnt n e' < cnt n e) ∨
  (p' = p ∧ cnt n e' ≤ cnt n e ∧ e (p - 2) * s (p - 1) ≠ 0 ∧
    ((e' (p - 2) * s' (p - 1) = 0) ∨ (tiny ^ 6 < meas p s e ∧ meas p s' e' ≤ 4 / 5 * meas p s e)))

/-- One iteration of the main loop preserves the invariant, never fails and makes progress. -/
theorem step_post {m n p : Nat} {A : Matrix (Fin m) (Fin n) ℝ} {st : Main ℝ} {s e : Nat → ℝ} {U V : Nat → Nat → ℝ}
    {X : Matrix (Fin m) (Fin n) ℝ} (h : MI m n A p st s e U V X) (hp0 : 0 < p) (hp : p ≤ n) (hnm : n ≤ m) :
    ∃ p' st', step m n (n - 1) p st = .ok (p', st') ∧ p' ≤ n ∧ ∃ s' e' U' V' X', MI m n A p' st' s' e' U' V' X' ∧
      Prog n p p' s e s' e' := by
  obtain ⟨k1, eb, hrun, hk1, hnz, hcase⟩ := findE_ok h.view.s h.view.e (p - 1) (by omega)
  -- state after the first search
  obtain ⟨e1, X1, hM, hz, hsame, hzero⟩ : ∃ e1 X1, MI m n A p { st with e := eb } s e1 U V X1 ∧
      (∀ i, i + 1 = k1 → e1 i = 0) ∧ (∀ i, k1 ≤ i → e1 i = e i) ∧ (∀ i, e i = 0 → e1 i = 0) := by
    rcases hcase with ⟨rfl, rfl⟩ | ⟨k, rfl, hb1, hb2⟩
    · exact ⟨e, X, h, fun i hi => by omega, fun _ _ => rfl, fun _ h => h⟩
    · obtain ⟨X', hX'⟩ := defl_e h hnm (by omega) hp hb1 hb2
      exact ⟨_, X', hX', fun i hi => by rw [show i = k by omega, updv_same], fun i hi => updv_ne (by omega),
        fun i hi => by
          by_cases hik : i = k
          · rw [hik, updv_same]
          · rw [updv_ne hik, hi]⟩
  have hc1 : cnt n e1 ≤ cnt n e := cnt_le fun i _ hi => hzero i hi
  clear hcase
  have hnz1 : ∀ j, k1 ≤ j → j + 1 < p → e1 j ≠ 0 := fun j h1 h2 => by
    rw [hsame j h1]; exact (hnz j h1 (by omega)).1
  unfold step
  rw [hrun, ok_bind]
  dsimp only
  by_cases hk : k1 + 1 = p
  · rw [if_pos hk]
    obtain ⟨st2, hr2, s2, V2, w2, f2, q1, q2⟩ := fixSign_post hM.view hM.fac (q := k1) (by omega) hz
    rw [hr2, ok_bind]
    obtain ⟨st3, hr3, s3, U3, V3, w3, f3, q3, q4⟩ := order_post w2 f2 (q := k1) (by omega) hnm
      (fun i hi => by
        by_cases h5 : p ≤ i + 1
        · exact hM.ez i h5
        · exact hz i (by omega))
      (fun i j h1 h2 h3 => by
        rw [q2 i (by omega), q2 j (by omega)]
        exact hM.sorted i j (by omega) h2 h3)
      (fun i h1 h2 => by
        by_cases hi : i = k1
        · rw [hi, q1]; exact abs_nonneg _
        · rw [q2 i hi]; exact hM.pos i (by omega) h2)
    rw [hr3, ok_bind]
    have hpk : p - 1 = k1 := by omega
    refine ⟨p - 1, st3, rfl, by omega, s3, e1, U3, V3, X1, ⟨w3, f3, ?_, ?_, ?_, hM.near⟩, Or.inl (by omega)⟩
    · intro j hj
      by_cases h5 : p ≤ j + 1
      · exact hM.ez j h5
      · exact hz j (by omega)
    · rw [hpk]; exact q3
    · rw [hpk]; exact q4
  · rw [if_neg hk]
    obtain ⟨o, sb, hrs, hres⟩ := findS_ok (k1 := k1) hM.view.e hM.view.s hp (p - k1) (by omega)
    rw [hrs, ok_bind]
    dsimp only
    rcases hres with ⟨rfl, rfl, hs0⟩ | ⟨ks, rfl, hks1, hks2, hvs, hb⟩
    · obtain ⟨st2, hr2, s2, e2, U2, V2, w2, f2, q1, q2, q3⟩ := kase3_post hM.view hM.fac (k := k1) (p := p) (by omega) hp hnm
        (fun j h1 h2 => abs_pos.1 (tiny_pos.trans (hs0 j h1 (by omega)))) hnz1 hz (hM.ez _ (by omega))
      dsimp only
      rw [hr2]
      refine ⟨p, st2, rfl, hp, s2, e2, U2, V2, X1, ⟨w2, f2, fun j hj => q1 j (hM.ez j hj), ?_, ?_, ?_⟩, ?_⟩
      · intro i j h1 h2 h3
        rw [q2 i h1, q2 j (by omega)]; exact hM.sorted i j h1 h2 h3
      · intro i h1 h2
        rw [q2 i h1]; exact hM.pos i h1 h2
      · exact hM.near.mono (cnt_le fun i _ hi => q1 i hi)
      · have hs3 : ∀ j, k1 ≤ j → j < p → tiny < |s j| := fun j h1 h2 => hs0 j h1 (by omega)
        have he3 : ∀ j, k1 ≤ j → j + 1 < p → tiny < |e j| := fun j h1 h2 => by
          have h5 := (hnz j h1 (by omega)).2
          have := eps_pos
          have : 0 ≤ eps * (|s j| + |s (j + 1)|) := by positivity
          linarith
        refine Or.inr (Or.inr ⟨rfl, le_trans (cnt_le fun i _ hi => q1 i hi) hc1, ?_, ?_⟩)
        · exact mul_ne_zero (abs_pos.1 (tiny_pos.trans (he3 _ (by omega) (by omega))))
            (abs_pos.1 (tiny_pos.trans (hs3 _ (by omega) (by omega))))
        · by_cases h2p : k1 + 2 = p
          · exact Or.inl (q3.1 h2p)
          · have h3 := q3.2 (by omega)
            rw [hsame _ (by omega), hsame _ (by omega)] at h3
            refine Or.inr ⟨?_, h3⟩
            have a1 := he3 (p - 2) (by omega) (by omega)
            have a2 := hs3 (p - 1) (by omega) (by omega)
            have a3 := he3 (p - 3) (by omega) (by omega)
            have a4 := hs3 (p - 2) (by omega) (by omega)
            exact meas_lower tiny_pos a1 a2 a3 a4
    · dsimp only
      have hvw : View m n { s := sb, e := eb, u := st.u, v := st.v } (updv s ks 0) e1 U V :=
        ⟨hvs, hM.view.e, hM.view.u, hM.view.v⟩
      -- a nonzero superdiagonal entry that the following case removes
      have hcpos : ∀ i0, k1 ≤ i0 → i0 + 1 < p → ∃ c, cnt n e1 = c + 1 := by
        intro i0 h1 h2
        have : cnt n (updv e1 i0 0) + 1 ≤ cnt n e1 := cnt_lt (fun i _ hi => by
          by_cases hik : i = i0
          · rw [hik, updv_same]
          · rw [updv_ne hik, hi]) (i0 := i0) (by omega) (hnz1 i0 h1 h2) (updv_same _ _ _)
        exact ⟨cnt n e1 - 1, by omega⟩
      by_cases hkp : ks + 1 = p
      · rw [if_pos hkp]
        have hks3 : ks < p := by omega
        have hks4 : p - 1 = ks := by omega
        have hc' : ∃ c, cnt n e1 = c + 1 := hcpos (p - 2) (by omega) (by omega)
        obtain ⟨c, hc⟩ := hc'
        obtain ⟨X2, f2, n2⟩ := defl_s hM hnm hks3 hp hb hc
        obtain ⟨st2, hr2, s2, e2, V2, w2, g2, q1, q2, q3⟩ := kase1_post hvw f2 (k := k1) (p := p) (by omega) hp
          (by rw [hks4, updv_same]) hnz1 hz
        rw [hr2]
        have hc2 := cnt_lt (fun i _ hi => q2 i hi) (i0 := p - 2) (show p - 2 < n by omega) (hnz1 _ (by omega) (by omega)) q1
        refine ⟨p, st2, rfl, hp, s2, e2, U, V2, X2, ⟨w2, g2, fun j hj => q2 j (hM.ez j hj), ?_, ?_, ?_⟩,
          Or.inr (Or.inl ⟨rfl, by omega⟩)⟩
        · intro i j h1 h2 h3
          rw [q3 i h1, q3 j (by omega), updv_ne (by omega), updv_ne (by omega)]; exact hM.sorted i j h1 h2 h3
        · intro i h1 h2
          rw [q3 i h1, updv_ne (by omega)]; exact hM.pos i h1 h2
        · exact n2.mono (by omega)
      · rw [if_neg hkp]
        have hks3 : ks < p := by omega
        have hks4 : ks + 1 - 1 = ks := by omega
        have hc' : ∃ c, cnt n e1 = c + 1 := hcpos ks (by omega) (by omega)
        obtain ⟨c, hc⟩ := hc'
        obtain ⟨X2, f2, n2⟩ := defl_s hM hnm hks3 hp hb hc
        obtain ⟨st2, hr2, s2, e2, U2, w2, g2, q1, q2, q3⟩ := kase2_post hvw f2 (k := ks + 1) (p := p) (by omega) (by omega) hp
          hnm (by rw [hks4, updv_same]) (fun j h1 h2 => hnz1 j (by omega) h2) (hM.ez _ (by omega))
        rw [hr2]
        have hc2 := cnt_lt (fun i _ hi => q2 i hi) (i0 := ks) (show ks < n by omega) (hnz1 _ (by omega) (by omega)) q1
        refine ⟨p, st2, rfl, hp, s2, e2, U2, V, X2, ⟨w2, g2, fun j hj => q2 j (hM.ez j hj), ?_, ?_, ?_⟩,
          Or.inr (Or.inl ⟨rfl, by omega⟩)⟩
        · intro i j h1 h2 h3
          rw [q3 i h1, q3 j (by omega), updv_ne (by omega), updv_ne (by omega)]; exact hM.sorted i j h1 h2 h3
        · intro i h1 h2
          rw [q3 i h1, updv_ne (by omega)]; exact hM.pos i h1 h2
        · exact n2.mono (by omega)

/-- The main loop ends, with a diagonal middle factor. -/
def Ends (m n : Nat) (A : Matrix (Fin m) (Fin n) ℝ) (p : Nat) (st : Main ℝ) : Prop :=
  PostE (fun fuel => iterate m n (n - 1) fuel p st) fun st' => ∃ s' e' U' V' X', MI m n A 0 st' s' e' U' V' X'

theorem Ends.zero {m n : Nat} {A : Matrix (Fin m) (Fin n) ℝ} {st : Main ℝ} {s e : Nat → ℝ} {U V : Nat → Nat → ℝ}
    {X : Matrix (Fin m) (Fin n) ℝ} (h : MI m n A 0 st s e U V X) : Ends m n A 0 st :=
  ⟨0, st, ⟨s, e, U, V, X, h⟩, fun fuel => Or.inl (by cases fuel <;> rfl)⟩

theorem Ends.step {m n p p' : Nat} {A : Matrix (Fin m) (Fin n) ℝ} {st st' : Main ℝ} (hp : 0 < p)
    (hr : SVD.step m n (n - 1) p st = .ok (p', st')) (h : Ends m n A p' st') : Ends m n A p st := by
  obtain ⟨N, r, h1, h2⟩ := h
  refine ⟨N + 1, r, h1, fun fuel => ?_⟩
  obtain ⟨p, rfl⟩ : ∃ q, p = q + 1 := ⟨p - 1, by omega⟩
  cases fuel with
  | zero => exact Or.inr ⟨by omega, rfl⟩
  | succ fuel =>
    have : iterate m n (n - 1) (fuel + 1) (p + 1) st = iterate m n (n - 1) fuel p' st' := by
      show (SVD.step m n (n - 1) (p + 1) st >>= _) = _
      rw [hr]; rfl
    dsimp only at h2 ⊢
    rw [this]
    rcases h2 fuel with h | ⟨h, h'⟩
    · exact Or.inl h
    · exact Or.inr ⟨by omega, h'⟩

theorem ends_aux {m n : Nat} {A : Matrix (Fin m) (Fin n) ℝ} (hnm : n ≤ m) : ∀ p c : Nat,
    ∀ {st : Main ℝ} {s e : Nat → ℝ} {U V : Nat → Nat → ℝ} {X : Matrix (Fin m) (Fin n) ℝ},
      MI m n A p st s e U V X → p ≤ n → cnt n e ≤ c → Ends m n A p st := by
  intro p
  induction p with
  | zero => intro c st s e U V X h _ _; exact Ends.zero h
  | succ p ihp =>
    intro c
    induction c using Nat.strong_induction_on with
    | _ c ihc =>
      -- a state whose last off-diagonal entry is zero
      have hz : ∀ {st : Main ℝ} {s e : Nat → ℝ} {U V : Nat → Nat → ℝ} {X : Matrix (Fin m) (Fin n) ℝ},
          MI m n A (p + 1) st s e U V X → p + 1 ≤ n → cnt n e ≤ c → e (p + 1 - 2) * s (p + 1 - 1) = 0 →
          Ends m n A (p + 1) st := by
        intro st s e U V X h hp hc h0
        obtain ⟨p', st', hr, hp', s', e', U', V', X', h', hP⟩ := step_post h (by omega) hp hnm
        refine Ends.step (by omega) hr ?_
        rcases hP with h1 | ⟨h1, h2⟩ | ⟨-, -, h3, -⟩
        · obtain rfl : p' = p := by omega
          exact ihp _ h' hp' le_rfl
        · subst h1
          exact ihc (cnt n e') (by omega) h' hp' le_rfl
        · exact absurd h0 h3
      have ht : ∀ t : Nat, ∀ {st : Main ℝ} {s e : Nat → ℝ} {U V : Nat → Nat → ℝ} {X : Matrix (Fin m) (Fin n) ℝ},
          MI m n A (p + 1) st s e U V X → p + 1 ≤ n → cnt n e ≤ c → meas (p + 1) s e ≤ (5 / 4) ^ t * tiny ^ 6 →
          Ends m n A (p + 1) st := by
        intro t
        induction t with
        | zero =>
          intro st s e U V X h hp hc h0
          obtain ⟨p', st', hr, hp', s', e', U', V', X', h', hP⟩ := step_post h (by omega) hp hnm
          refine Ends.step (by omega) hr ?_
          rcases hP with h1 | ⟨h1, h2⟩ | ⟨h1, h2, h3, h4 | ⟨h4, -⟩⟩
          · obtain rfl : p' = p := by omega
            exact ihp _ h' hp' le_rfl
          · subst h1
            exact ihc (cnt n e') (by omega) h' hp' le_rfl
          · subst h1
            exact hz h' hp' (by omega) h4
          · rw [pow_zero, one_mul] at h0
            exact absurd h4 (not_lt.2 h0)
        | succ t iht =>
          intro st s e U V X h hp hc h0
          obtain ⟨p', st', hr, hp', s', e', U', V', X', h', hP⟩ := step_post h (by omega) hp hnm
          refine Ends.step (by omega) hr ?_
          rcases hP with h1 | ⟨h1, h2⟩ | ⟨h1, h2, h3, h4 | ⟨-, h4⟩⟩
          · obtain rfl : p' = p := by omega
            exact ihp _ h' hp' le_rfl
          · subst h1
            exact ihc (cnt n e') (by omega) h' hp' le_rfl
          · subst h1
            exact hz h' hp' (by omega) h4
          · subst h1
            refine iht h' hp' (by omega) (h4.trans ?_)
            rw [pow_succ] at h0
            linarith
      intro st s e U V X h hp hc
      obtain ⟨t, ht'⟩ : ∃ t : Nat, meas (p + 1) s e ≤ (5 / 4) ^ t * tiny ^ 6 := by
        have h6 : (0 : ℝ) < tiny ^ 6 := pow_pos tiny_pos 6
        obtain ⟨t, h7⟩ := pow_unbounded_of_one_lt (meas (p + 1) s e / tiny ^ 6) (show (1 : ℝ) < 5 / 4 by norm_num)
        exact ⟨t, ((div_lt_iff₀ h6).1 h7).le⟩
      exact ht t h hp hc ht'

theorem iterate_post {m n p : Nat} {A : Matrix (Fin m) (Fin n) ℝ} (hnm : n ≤ m) {st : Main ℝ} {s e : Nat → ℝ}
    {U V : Nat → Nat → ℝ} {X : Matrix (Fin m) (Fin n) ℝ} (h : MI m n A p st s e U V X) (hp : p ≤ n) : Ends m n A p st :=
  ends_aux hnm p _ h hp le_rfl

end SVD
end LA
