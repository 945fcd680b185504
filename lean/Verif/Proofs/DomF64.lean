import Verif.Proofs.TriF64

/-! # The LU decomposition of a column dominant matrix of doubles: no exchanges, no overflow, no growth -/

set_option linter.unusedSectionVars false

namespace LA
open Finset Fp

namespace LU.Dom

/-- What is left of a column after `k` steps. -/
def left (a : Nat → ℝ) (l : Nat → Nat → ℝ) (v : Nat → ℝ) (k i : Nat) : ℝ := a i - ∑ t ∈ range k, l i t * v t

theorem left_succ (a : Nat → ℝ) (l : Nat → Nat → ℝ) (v : Nat → ℝ) (k i : Nat) : left a l v (k + 1) i = left a l v k i - l i k * v k := by
  unfold left
  rw [sum_range_succ]
  ring

/-- Elimination with multipliers whose columns add up to at most one, each step being wrong by `ε`: the sum of a column does not grow,
and a dominant entry remains dominant. -/
theorem sweep {n c r : Nat} (hcr : c ≤ r) (hr : r < n) {a v : Nat → ℝ} {l : Nat → Nat → ℝ} {δ ε : ℝ} (hε : 0 ≤ ε)
    (hd : δ + ∑ i ∈ range n, |a i| ≤ 2 * |a r|) (hcδ : c * ε < δ)
    (hl : ∀ t, t < c → ∑ i ∈ Ico (t + 1) n, |l i t| ≤ 1) (hv : ∀ k, k < c → |v k - left a l v k k| ≤ ε) (k : Nat) (hk : k ≤ c) :
    ∑ i ∈ Ico k n, |left a l v k i| ≤ (∑ i ∈ range n, |a i|) + k * ε ∧
    δ + ∑ i ∈ Ico k n, |left a l v k i| ≤ 2 * |left a l v k r| + k * ε ∧ 0 < a r * left a l v k r := by
  induction k with
  | zero =>
    have e : ∀ i, left a l v 0 i = a i := fun i => by simp [left]
    simp only [e, Nat.cast_zero, zero_mul, add_zero, Nat.Ico_zero_eq_range]
    refine ⟨le_rfl, hd, ?_⟩
    have h0 : 0 < δ := lt_of_le_of_lt (by positivity) hcδ
    have h1 : 0 ≤ ∑ i ∈ range n, |a i| := sum_nonneg fun _ _ => abs_nonneg _
    have h2 : 0 < |a r| := by linarith
    exact mul_self_pos.2 (abs_pos.1 h2)
  | succ k ih =>
    obtain ⟨i1, i2, i3⟩ := ih (by omega)
    have hl := hl k (by omega)
    have hv := hv k (by omega)
    have hkr : k ≠ r := by omega
    have hmem : r ∈ Ico (k + 1) n := mem_Ico.2 ⟨by omega, hr⟩
    rw [sum_eq_sum_Ico_succ_bot (by omega)] at i1 i2
    have hvk : |v k| ≤ |left a l v k k| + ε := by
      have := abs_sub_abs_le_abs_sub (v k) (left a l v k k)
      linarith
    have hv0 := abs_nonneg (v k)
    set z := |left a l v k k|
    have hstep : ∀ i, |left a l v (k + 1) i| ≤ |left a l v k i| + |l i k| * |v k| := fun i => by
      rw [left_succ, ← abs_mul]; exact abs_sub _ _
    have hr' : |left a l v k r| - |l r k| * |v k| ≤ |left a l v (k + 1) r| := by
      rw [left_succ, ← abs_mul]; exact abs_sub_abs_le_abs_sub _ _
    have e1 : ∑ i ∈ Ico (k + 1) n, |l i k| * |v k| ≤ |v k| := by
      rw [← sum_mul]; exact mul_le_of_le_one_left hv0 hl
    have s1 : ∑ i ∈ Ico (k + 1) n, |left a l v (k + 1) i| ≤ (∑ i ∈ Ico (k + 1) n, |left a l v k i|) + |v k| := by
      refine (sum_le_sum fun i _ => hstep i).trans ?_
      rw [sum_add_distrib]; linarith
    have s2 : (∑ i ∈ Ico (k + 1) n, |left a l v (k + 1) i|) - 2 * |left a l v (k + 1) r| ≤
        (∑ i ∈ Ico (k + 1) n, |left a l v k i|) - 2 * |left a l v k r| + |v k| := by
      have b1 : ∑ i ∈ (Ico (k + 1) n).erase r, |left a l v (k + 1) i| ≤
          (∑ i ∈ (Ico (k + 1) n).erase r, |left a l v k i|) + ∑ i ∈ (Ico (k + 1) n).erase r, |l i k| * |v k| := by
        rw [← sum_add_distrib]; exact sum_le_sum fun i _ => hstep i
      rw [← add_sum_erase _ _ hmem] at e1
      rw [← add_sum_erase _ (fun i => |left a l v (k + 1) i|) hmem, ← add_sum_erase _ (fun i => |left a l v k i|) hmem]
      linarith
    have hlr : |l r k| ≤ 1 := (single_le_sum (f := fun i => |l i k|) (fun i _ => abs_nonneg _) hmem).trans hl
    have hnn : 0 ≤ ∑ i ∈ Ico (k + 1) n, |left a l v k i| := sum_nonneg fun _ _ => abs_nonneg _
    have hkc : ((k : ℝ) + 1) ≤ c := by exact_mod_cast hk
    have hkε : (k + 1) * ε < δ := lt_of_le_of_lt (mul_le_mul_of_nonneg_right hkc hε) hcδ
    push_cast
    refine ⟨by linarith, by linarith, ?_⟩
    have b0 : |left a l v k r| ≤ ∑ i ∈ Ico (k + 1) n, |left a l v k i| := single_le_sum (f := fun i => |left a l v k i|) (fun i _ => abs_nonneg _) hmem
    have b1 : |l r k * v k| < |left a l v k r| := by
      rw [abs_mul]
      have := mul_le_of_le_one_left hv0 hlr
      linarith
    rw [left_succ, mul_sub]
    have b2 : |a r * (l r k * v k)| < |a r * left a l v k r| := by
      rw [abs_mul (a r), abs_mul (a r)]
      exact mul_lt_mul_of_pos_left b1 (abs_pos.2 fun (h : a r = 0) => by rw [h, zero_mul] at i3; exact lt_irrefl _ i3)
    rw [abs_of_pos i3] at b2
    have := (abs_lt.1 b2).2
    linarith

open LU.Rnd Props

/-- What is known of a column of the packed factors. -/
structure Column (n : Nat) (A G : Nat → Nat → F64) (σ : Equiv.Perm (Fin n)) (c : Nat) : Prop where
  fix : ∀ h : c < n, σ ⟨c, h⟩ = ⟨c, h⟩
  fin : ∀ i, i < n → (G i c).isFin
  up : ∀ i, i ≤ c → |(G i c).toReal| ≤ 2 * |(A c c).toReal|
  low : ∑ i ∈ Ico (c + 1) n, |(G i c).toReal| ≤ 1
  sign : 0 < (A c c).toReal * (G c c).toReal

set_option maxHeartbeats 4000000 in
theorem columns {n : Nat} {A G : Nat → Nat → F64} {σ : Equiv.Perm (Fin n)} (h : ∀ c, c < n → Col n A G σ c) {M δ : ℝ}
    (hA : ∀ i c, i < n → c < n → (A i c).isFin ∧ |(A i c).toReal| ≤ M) (hM1 : tiny ≤ M) (hM2 : M ≤ 2 ^ 800) (hδ : 0 < δ)
    (hdom : ∀ c, c < n → δ + ∑ i ∈ range n, |(A i c).toReal| ≤ 2 * |(A c c).toReal|) (hcond : n ^ 3 * M ≤ 2 ^ 46 * δ)
    (c : Nat) (hc : c < n) : Column n A G σ c := by
  have hM0 : 0 < M := lt_of_lt_of_le tiny_pos hM1
  have hu : u F64 = 1 / 2 ^ 53 := rfl
  have hη0 := η_nonneg (α := F64)
  have hη := eta_le
  have hn1 : (1 : ℝ) ≤ n := by
    have : 1 ≤ n := by omega
    exact_mod_cast this
  have hδM : ∀ c, c < n → δ ≤ |(A c c).toReal| := fun c hc => by
    have h1 := hdom c hc
    have h2 : |(A c c).toReal| ≤ ∑ i ∈ range n, |(A i c).toReal| :=
      single_le_sum (f := fun i => |(A i c).toReal|) (fun i _ => abs_nonneg _) (mem_range.2 hc)
    linarith
  have hδM' : δ ≤ M := (hδM c hc).trans (hA c c hc hc).2
  have hn16 : n ≤ 65536 := by
    by_contra hlt
    have h1 : (65537 : ℝ) ≤ n := by
      have : 65537 ≤ n := by omega
      exact_mod_cast this
    have h2 := mul_le_mul_of_nonneg_right (pow_le_pow_left₀ (by norm_num) h1 3) hM0.le
    norm_num at h2 hcond
    linarith
  have hnr : (n : ℝ) ≤ 65536 := by exact_mod_cast hn16
  have hθ := theta_f64 (n := n) (by omega)
  have hθ0 := θ_nonneg (α := F64) n
  have hθM : θ F64 n ≤ M * (1 / 2 ^ 154) := hθ.trans (mul_le_mul_of_nonneg_right hM1 (by norm_num))
  obtain ⟨ε, hεd⟩ : ∃ ε : ℝ, ε = 8 * n ^ 2 / 2 ^ 52 * M := ⟨_, rfl⟩
  have hε : 0 ≤ ε := by rw [hεd]; positivity
  have hnε : n * ε ≤ δ / 8 := by
    have : n * ε = (n ^ 3 * M) * (8 / 2 ^ 52) := by rw [hεd]; ring
    rw [this]
    norm_num at hcond ⊢
    linarith
  induction c using Nat.strong_induction_on with
  | _ c ih =>
    have hcol := h c hc
    have ih := fun t (ht : t < c) => ih t ht (by omega)
    have hcn : (c : ℝ) + 1 ≤ n := by exact_mod_cast hc
    have hcε : c * ε ≤ n * ε := mul_le_mul_of_nonneg_right (by linarith) hε
    -- the row of the matrix that belongs on the diagonal
    obtain ⟨r, hr⟩ : ∃ r : Fin n, r = σ.symm ⟨c, hc⟩ := ⟨_, rfl⟩
    have hσr : σ r = ⟨c, hc⟩ := by rw [hr, Equiv.apply_symm_apply]
    have hcr : c ≤ r.1 := by
      by_contra hlt
      have := (ih r.1 (by omega)).fix r.2
      rw [hσr] at this
      have := congrArg Fin.val this
      dsimp only at this
      omega
    obtain ⟨a, had⟩ : ∃ a : Nat → ℝ, a = fun i => if hi : i < n then (A (σ ⟨i, hi⟩) c).toReal else 0 := ⟨_, rfl⟩
    have ha : ∀ i : Fin n, a i = (A (σ i) c).toReal := fun i => by rw [had]; simp only [dif_pos i.2]
    have har : a r.1 = (A c c).toReal := by rw [ha, hσr]
    have hsum : ∑ i ∈ range n, |a i| = ∑ i ∈ range n, |(A i c).toReal| := by
      rw [← Fin.sum_univ_eq_sum_range (fun i => |a i|), ← Fin.sum_univ_eq_sum_range (fun i => |(A i c).toReal|)]
      simp only [ha]
      exact Equiv.sum_comp σ fun i : Fin n => |(A i c).toReal|
    have hd : δ + ∑ i ∈ range n, |a i| ≤ 2 * |a r.1| := by rw [hsum, har]; exact hdom c hc
    obtain ⟨l, hld⟩ : ∃ l : Nat → Nat → ℝ, l = fun i t => (G i t).toReal := ⟨_, rfl⟩
    obtain ⟨v, hvd⟩ : ∃ v : Nat → ℝ, v = fun t => (G t c).toReal := ⟨_, rfl⟩
    have hl : ∀ t, t < c → ∑ i ∈ Ico (t + 1) n, |l i t| ≤ 1 := fun t ht => by rw [hld]; exact (ih t ht).low
    have hl1 : ∀ i t, t < c → t < i → i < n → |(G i t).toReal| ≤ 1 := fun i t ht hti hi =>
      (single_le_sum (f := fun i => |(G i t).toReal|) (fun i _ => abs_nonneg _) (mem_Ico.2 ⟨hti, hi⟩)).trans (ih t ht).low
    have hAcc : 2 * |(A c c).toReal| ≤ 2 * M := by have := (hA c c hc hc).2; linarith
    -- one element
    have row : ∀ i : Fin n, (∀ t, t < min i.1 c → (G t c).isFin ∧ |(G t c).toReal| ≤ 2 * |(A c c).toReal|) →
        Fp.fin (W (A (σ i) c) G i c) ∧ |val (W (A (σ i) c) G i c) - left a l v (min i.1 c) i| ≤ ε := by
      intro i ht
      have hs : ∑ t ∈ range (min i.1 c), |val (G i t)| * |val (G t c)| ≤ n * (2 * M) := by
        calc _ ≤ ∑ _t ∈ range (min i.1 c), 2 * M := sum_le_sum fun t ht' => by
              rw [mem_range] at ht'
              have h1 : |val (G i t)| ≤ 1 := hl1 i t (by omega) (by omega) i.2
              have h2 : |val (G t c)| ≤ 2 * M := (ht t ht').2.trans hAcc
              exact (mul_le_of_le_one_left (abs_nonneg _) h1).trans h2
          _ = (min i.1 c : ℕ) * (2 * M) := by rw [sum_const, card_range, nsmul_eq_mul]
          _ ≤ _ := by
            refine mul_le_mul_of_nonneg_right ?_ (by positivity)
            have : min i.1 c ≤ n := by omega
            exact_mod_cast this
      have hAi : |val (A (σ i) c)| ≤ M := (hA (σ i) c (σ i).2 hc).2
      have hnM : M ≤ n * M := le_mul_of_one_le_left hM0.le hn1
      have hs2 : |val (A (σ i) c)| + ∑ t ∈ range (min i.1 c), |val (G i t)| * |val (G t c)| ≤ 3 * (n * M) := by linarith
      have hq : (1 + u F64) ^ (n + 2) ≤ 1 + 1 / 2 ^ 30 := by
        have hg := gamma_f64 (k := n + 2) (by omega)
        unfold γ at hg
        push_cast at hg
        have : ((n : ℝ) + 2) / 2 ^ 52 ≤ 1 / 2 ^ 30 := by norm_num; linarith
        linarith
      have hbig : (1 + u F64) ^ (n + 2) * (3 * (n * M)) + (1 + u F64) * θ F64 n ≤ 4 * (n * M) := by
        have b1 := mul_le_mul_of_nonneg_right hq (show 0 ≤ 3 * (n * M) by positivity)
        have b2 : (1 + u F64) * θ F64 n ≤ 2 * (M * (1 / 2 ^ 154)) := mul_le_mul (by rw [hu]; norm_num) hθM hθ0 (by norm_num)
        norm_num at b1 b2 ⊢
        linarith
      have hΩ : 4 * (n * M) ≤ Ω F64 := by
        calc 4 * (n * M) ≤ 4 * (65536 * 2 ^ 800) := mul_le_mul_of_nonneg_left (mul_le_mul hnr hM2 hM0.le (by norm_num)) (by norm_num)
          _ ≤ 2 ^ 1000 * 2 ^ 23 := by
            rw [← pow_add, show (4 : ℝ) * (65536 * 2 ^ 800) = 2 ^ 18 * 2 ^ 800 by rw [show (2 : ℝ) ^ 18 = 4 * 65536 by norm_num]; ring, ← pow_add]
            exact pow_le_pow_right₀ (by norm_num) (by norm_num)
          _ ≤ _ := big_f64
      obtain ⟨f1, f2⟩ := W_bound (α := F64) (G := G) (i := i) (c := c) (r := n) (hA (σ i) c (σ i).2 hc).1 (by omega)
        (fun t ht' => ⟨(ih t (by omega)).fin i i.2, (ht t ht').1⟩) hs2 (hbig.trans hΩ)
      refine ⟨f1, ?_⟩
      have h3 := (W_err (α := F64) (a := A (σ i) c) (x := fun k => G i k) (y := fun k => G k c) (k := min i.1 c) f1).2.2
      have e1 : left a l v (min i.1 c) i = val (A (σ i) c) - ∑ t ∈ range (min i.1 c), val (G i t) * val (G t c) := by
        unfold left
        rw [ha, hld, hvd]
        rfl
      rw [e1, abs_sub_comm]
      refine h3.trans ?_
      have e2 : (∑ t ∈ range (min i.1 c), |val (G i t) * val (G t c)|) = ∑ t ∈ range (min i.1 c), |val (G i t)| * |val (G t c)| :=
        sum_congr rfl fun t _ => abs_mul _ _
      rw [e2]
      have b1 : u F64 * |val (A (σ i) c - fdot (fun k => G i k) (fun k => G k c) (min i.1 c))| ≤ 1 / 2 ^ 53 * (4 * (n * M)) := by
        rw [hu]; exact mul_le_mul_of_nonneg_left (f2.trans hbig) (by norm_num)
      have hγ : γ F64 (min i.1 c + 1) ≤ (n + 1) / 2 ^ 52 := by
        refine (gamma_f64 (by omega)).trans (div_le_div_of_nonneg_right ?_ (by norm_num))
        have : min i.1 c + 1 ≤ n + 1 := by omega
        exact_mod_cast this
      have b2 := mul_le_mul hγ hs (sum_nonneg fun _ _ => by positivity) (by positivity)
      have b3 : θ F64 (min i.1 c) ≤ M * (1 / 2 ^ 154) := (θ_mono (by omega)).trans hθM
      refine (add_le_add (add_le_add b1 b2) b3).trans ?_
      have e3 : ((n : ℝ) + 1) / 2 ^ 52 * (n * (2 * M)) = n ^ 2 * M * (2 / 2 ^ 52) + n * M * (2 / 2 ^ 52) := by ring
      have e4 : ε = n ^ 2 * M * (8 / 2 ^ 52) := by rw [hεd]; ring
      have e5 : n * M ≤ n ^ 2 * M := mul_le_mul_of_nonneg_right (by nlinarith) hM0.le
      rw [e3, e4]
      generalize (n : ℝ) ^ 2 * M = x at *
      generalize (n : ℝ) * M = y at *
      norm_num
      linarith
    have hcδ : ∀ k : Nat, k ≤ c → k * ε < δ := fun k hk => by
      have h1 : (k : ℝ) ≤ c := by exact_mod_cast hk
      have := mul_le_mul_of_nonneg_right h1 hε
      linarith
    -- above the diagonal
    have habove : ∀ k, k < c → (G k c).isFin ∧ |(G k c).toReal| ≤ 2 * |(A c c).toReal| ∧ |v k - left a l v k k| ≤ ε := by
      intro k
      induction k using Nat.strong_induction_on with
      | _ k ihk =>
        intro hkc
        have hkn : k < n := by omega
        have hm : min k c = k := by omega
        have hup := hcol.up ⟨k, hkn⟩ hkc.le
        dsimp only at hup
        obtain ⟨f1, f2⟩ := row ⟨k, hkn⟩ fun t ht => by
          have ht' : t < k := by dsimp only at ht; omega
          exact ⟨(ihk t ht' (by omega)).1, (ihk t ht' (by omega)).2.1⟩
        dsimp only at f1 f2
        rw [← hup] at f1 f2
        rw [hm] at f2
        have hv : |v k - left a l v k k| ≤ ε := by rw [hvd]; rw [hvd] at f2; exact f2
        refine ⟨f1, ?_, hv⟩
        obtain ⟨s1, -, -⟩ := sweep (n := n) (c := k) (r := r) (by omega) r.2 hε hd (hcδ k hkc.le) (fun t ht => hl t (by omega))
          (fun t ht => (ihk t ht (by omega)).2.2) k le_rfl
        have s2 : |left a l v k k| ≤ ∑ i ∈ Ico k n, |left a l v k i| :=
          single_le_sum (f := fun i => |left a l v k i|) (fun i _ => abs_nonneg _) (mem_Ico.2 ⟨le_rfl, hkn⟩)
        have s3 := abs_sub_abs_le_abs_sub (v k) (left a l v k k)
        have e : v k = (G k c).toReal := by rw [hvd]
        rw [e] at s3 hv
        have hk1 : (k : ℝ) + 1 ≤ n := by exact_mod_cast hkn
        have := mul_le_mul_of_nonneg_right hk1 hε
        rw [har] at hd
        linarith
    obtain ⟨s1, s2, s3⟩ := sweep (n := n) (c := c) (r := r) hcr r.2 hε hd (hcδ c le_rfl) hl (fun k hk => (habove k hk).2.2) c le_rfl
    have hW : ∀ i : Fin n, c ≤ i.1 → Fp.fin (W (A (σ i) c) G i c) ∧ |val (W (A (σ i) c) G i c) - left a l v c i| ≤ ε := fun i hi => by
      have := row i fun t ht => ⟨(habove t (by omega)).1, (habove t (by omega)).2.1⟩
      rwa [show min i.1 c = c by omega] at this
    have hup := hcol.up ⟨c, hc⟩ le_rfl
    dsimp only at hup
    obtain ⟨hcf, hcw⟩ := hW ⟨c, hc⟩ le_rfl
    dsimp only at hcf hcw
    rw [← hup] at hcf hcw
    -- the pivot
    have hrc : r.1 = c := by
      by_contra hne
      have h1 := hcol.piv (fun i hi => (hW i hi).1) r hcr
      have h2 := (hW r hcr).2
      have h3 := abs_sub_abs_le_abs_sub (left a l v c r) (val (W (A (σ r) c) G r c))
      rw [abs_sub_comm] at h3
      have h4 := abs_sub_abs_le_abs_sub (val (G c c)) (left a l v c c)
      have h5 : |left a l v c c| + |left a l v c r| ≤ ∑ i ∈ Ico c n, |left a l v c i| := by
        have := sum_le_sum_of_subset_of_nonneg (f := fun i => |left a l v c i|) (s := {c, r.1}) (t := Ico c n) (by
          intro x hx
          rw [mem_insert, mem_singleton] at hx
          rw [mem_Ico]
          have := r.2
          omega) fun _ _ _ => abs_nonneg _
        rwa [sum_pair (Ne.symm hne)] at this
      have h6 := mul_le_mul_of_nonneg_right hn1 hε
      linarith
    have hfix : σ ⟨c, hc⟩ = ⟨c, hc⟩ := by
      have e : r = ⟨c, hc⟩ := Fin.ext hrc
      rw [← e]
      rw [e] at hσr
      rw [e]; exact hσr
    rw [hrc] at s2 s3 har
    have hsplit := s2
    rw [sum_eq_sum_Ico_succ_bot hc] at hsplit
    have hε1 : ε ≤ n * ε := le_mul_of_one_le_left hε hn1
    have hnn : 0 ≤ ∑ i ∈ Ico (c + 1) n, |left a l v c i| := sum_nonneg fun _ _ => abs_nonneg _
    have hcε1 : c * ε + ε ≤ n * ε := by
      have := mul_le_mul_of_nonneg_right hcn hε
      linarith
    have g1 := abs_sub_abs_le_abs_sub (left a l v c c) (val (G c c))
    rw [abs_sub_comm] at g1
    have g2 := abs_sub_abs_le_abs_sub (val (G c c)) (left a l v c c)
    have hG1 : 7 / 8 * δ ≤ |val (G c c)| := by linarith
    have hG0 : 0 < |val (G c c)| := by linarith
    have hG2 : |val (G c c)| ≤ 2 * |(A c c).toReal| := by
      have b1 : |left a l v c c| ≤ ∑ i ∈ Ico c n, |left a l v c i| :=
        single_le_sum (f := fun i => |left a l v c i|) (fun i _ => abs_nonneg _) (mem_Ico.2 ⟨le_rfl, hc⟩)
      rw [hsum] at s1
      have := hdom c hc
      linarith
    have hGz : val (G c c) ≠ 0 := abs_pos.1 hG0
    have hneq : ¬ FloatOps.eq (G c c) 0 = true := fun h0 => hGz (by
      have := (Fp.eq _ _ hcf Fp.zero.1).mp h0
      rw [this, Fp.zero.2])
    have hbelow : ∀ i : Fin n, c < i.1 → (G i c).isFin ∧ |(G i c).toReal| ≤ (1 + u F64) * ((|left a l v c i| + ε) / |val (G c c)|) + η F64 := by
      intro i hi
      have hq := hcol.lo i hi
      obtain ⟨w1, w2⟩ := hW i hi.le
      have hp := hcol.piv (fun i hi => (hW i hi).1) i hi.le
      unfold Rnd.Quot at hq
      rw [if_neg hneq] at hq
      have h1 : |val (W (A (σ i) c) G i c) / val (G c c)| ≤ 1 := by
        rw [abs_div]; exact div_le_one_of_le₀ hp (abs_nonneg _)
      have hf : Fp.fin (G i c) := Fp.div_fin _ _ _ hq w1 hcf hGz (by
        have h1000 : (1 : ℝ) ≤ 2 ^ 1000 := one_le_pow₀ (by norm_num)
        refine le_trans ?_ big_f64
        rw [hu]
        generalize (2 : ℝ) ^ 1000 = P at *
        norm_num at hη h1 ⊢
        linarith)
      refine ⟨hf, ?_⟩
      obtain ⟨-, -, -, h4⟩ := quot_err hq hf hcf
      refine h4.trans (add_le_add (mul_le_mul_of_nonneg_left ?_ (by rw [hu]; norm_num)) le_rfl)
      rw [abs_div]
      refine div_le_div_of_nonneg_right ?_ hG0.le
      have := abs_sub_abs_le_abs_sub (val (W (A (σ i) c) G i c)) (left a l v c i)
      linarith
    refine ⟨fun _ => hfix, fun i hi => ?_, fun i hi => ?_, ?_, ?_⟩
    · rcases Nat.lt_trichotomy i c with h1 | h1 | h1
      · exact (habove i h1).1
      · rw [h1]; exact hcf
      · exact (hbelow ⟨i, hi⟩ h1).1
    · rcases Nat.lt_or_eq_of_le hi with h1 | h1
      · exact (habove i h1).2.1
      · rw [h1]; exact hG2
    · have b1 : ∑ i ∈ Ico (c + 1) n, |(G i c).toReal| ≤
          ∑ i ∈ Ico (c + 1) n, ((1 + u F64) * ((|left a l v c i| + ε) / |val (G c c)|) + η F64) := sum_le_sum fun i hi => by
        rw [mem_Ico] at hi
        exact (hbelow ⟨i, hi.2⟩ (by dsimp only; omega)).2
      refine b1.trans ?_
      rw [sum_add_distrib, ← mul_sum, ← sum_div, sum_add_distrib, sum_const, sum_const, nsmul_eq_mul, nsmul_eq_mul, Nat.card_Ico]
      have hcard : ((n - (c + 1) : ℕ) : ℝ) ≤ n - c - 1 := by
        rw [Nat.cast_sub (by omega)]; push_cast; linarith
      have hcard0 : (0 : ℝ) ≤ ((n - (c + 1) : ℕ) : ℝ) := Nat.cast_nonneg _
      have b2 : ((n - (c + 1) : ℕ) : ℝ) * ε ≤ n * ε - c * ε - ε := by
        have := mul_le_mul_of_nonneg_right hcard hε
        linarith
      have b3 : ((n - (c + 1) : ℕ) : ℝ) * η F64 ≤ 65536 * (1 / 2 ^ 175) :=
        mul_le_mul (hcard.trans (by linarith [Nat.cast_nonneg (α := ℝ) c])) hη hη0 (by norm_num)
      have b4 : (∑ i ∈ Ico (c + 1) n, |left a l v c i|) + ((n - (c + 1) : ℕ) : ℝ) * ε ≤ |val (G c c)| - 7 / 8 * δ := by linarith
      have b5 : ((∑ i ∈ Ico (c + 1) n, |left a l v c i|) + ((n - (c + 1) : ℕ) : ℝ) * ε) / |val (G c c)| ≤ 1 - 1 / 2 ^ 48 := by
        rw [div_le_iff₀ hG0]
        have c1 : |val (G c c)| ≤ 2 * M := hG2.trans hAcc
        have c2 : M ≤ n ^ 3 * M := le_mul_of_one_le_left hM0.le (one_le_pow₀ hn1)
        norm_num at hcond ⊢
        linarith
      have b6 := mul_le_mul_of_nonneg_left b5 (show 0 ≤ 1 + u F64 by rw [hu]; norm_num)
      refine (add_le_add b6 b3).trans ?_
      rw [hu]
      norm_num
    · rw [har] at s3
      have e : (A c c).toReal * (G c c).toReal = (A c c).toReal * left a l v c c + (A c c).toReal * (val (G c c) - left a l v c c) := by
        have : val (G c c) = (G c c).toReal := rfl
        rw [this]; ring
      have hA0 : 0 < |(A c c).toReal| := lt_of_lt_of_le hδ (hδM c hc)
      have b1 : |(A c c).toReal * (val (G c c) - left a l v c c)| ≤ |(A c c).toReal| * ε := by
        rw [abs_mul]; exact mul_le_mul_of_nonneg_left hcw (abs_nonneg _)
      have b2 : |(A c c).toReal| * ε < (A c c).toReal * left a l v c c := by
        rw [← abs_of_pos s3, abs_mul]
        exact mul_lt_mul_of_pos_left (by linarith) hA0
      have := (abs_le.1 b1).1
      rw [e]
      linarith

end LU.Dom
end LA
