import Verif.Props.Band
import Verif.Props.LUBounds

/-! # The LU decomposition of a tridiagonal matrix of doubles: no overflow, no growth -/

set_option linter.unusedSectionVars false

namespace LA
open Finset Fp

namespace LU.Rnd
variable {α : Type} [Zero α] [One α] [Add α] [Sub α] [Neg α] [Mul α] [FloatOps α] [Fp α]

/-- An element minus a sum of products, in terms of the absolute values. -/
theorem W_bound {G : Nat → Nat → α} {i c r : Nat} {a : α} {s : ℝ} (ha : fin a) (hr : min i c ≤ r)
    (hG : ∀ t, t < min i c → fin (G i t) ∧ fin (G t c)) (hs : |val a| + ∑ t ∈ range (min i c), |val (G i t)| * |val (G t c)| ≤ s)
    (hΩ : (1 + u α) ^ (r + 2) * s + (1 + u α) * θ α r ≤ Ω α) :
    fin (W a G i c) ∧ |val (W a G i c)| ≤ (1 + u α) ^ (r + 2) * s + (1 + u α) * θ α r := by
  unfold W
  generalize hk : min i c = k at *
  have hu := u_nonneg (α := α)
  have h1u := one_u (α := α)
  have hθ1 := θ_mono (α := α) hr
  have hθ0 := θ_nonneg (α := α) k
  have e0 : (∑ t ∈ range k, |val (G i t) * val (G t c)|) = ∑ t ∈ range k, |val (G i t)| * |val (G t c)| :=
    sum_congr rfl fun t _ => abs_mul _ _
  rw [← e0] at hs
  set S := ∑ t ∈ range k, |val (G i t) * val (G t c)| with hS
  have hS0 : 0 ≤ S := sum_nonneg fun _ _ => abs_nonneg _
  have ha0 := abs_nonneg (val a)
  have hp : (1 + u α) ^ (k + 1) ≤ (1 + u α) ^ (r + 1) := pow_le_pow_right₀ h1u (by omega)
  have hp1 : 1 ≤ (1 + u α) ^ (r + 1) := one_le_pow₀ h1u
  have e1 : (1 + u α) ^ (r + 2) = (1 + u α) * (1 + u α) ^ (r + 1) := by ring
  have hq : |val a| + ((1 + u α) ^ (k + 1) * S + θ α k) ≤ (1 + u α) ^ (r + 1) * s + θ α r := by
    have a1 : (1 + u α) ^ (k + 1) * S ≤ (1 + u α) ^ (r + 1) * S := mul_le_mul_of_nonneg_right hp hS0
    have a2 : |val a| ≤ (1 + u α) ^ (r + 1) * |val a| := le_mul_of_one_le_left ha0 hp1
    have a3 : (1 + u α) ^ (r + 1) * (|val a| + S) ≤ (1 + u α) ^ (r + 1) * s := mul_le_mul_of_nonneg_left hs (zero_le_one.trans hp1)
    rw [mul_add] at a3
    linarith
  have hP0 : 0 ≤ (1 + u α) ^ (k + 1) * S + θ α k := add_nonneg (mul_nonneg (by positivity) hS0) hθ0
  have hq2 : (1 + u α) * (|val a| + ((1 + u α) ^ (k + 1) * S + θ α k)) ≤ (1 + u α) ^ (r + 2) * s + (1 + u α) * θ α r := by
    have := mul_le_mul_of_nonneg_left hq (show 0 ≤ 1 + u α by linarith)
    rw [e1]
    linarith
  have hq3 : |val a| + ((1 + u α) ^ (k + 1) * S + θ α k) ≤ (1 + u α) * (|val a| + ((1 + u α) ^ (k + 1) * S + θ α k)) :=
    le_mul_of_one_le_left (by linarith) h1u
  have f1 : fin (fdot (fun t => G i t) (fun t => G t c) k) :=
    fdot_fin _ _ _ (fun t ht => hG t ht) (by linarith)
  have b1 := fdot_abs _ _ _ f1
  have h4 : |val a - val (fdot (fun t => G i t) (fun t => G t c) k)| ≤ |val a| + ((1 + u α) ^ (k + 1) * S + θ α k) := by
    have := abs_sub (val a) (val (fdot (fun t => G i t) (fun t => G t c) k))
    linarith
  have h5 := mul_le_mul_of_nonneg_left h4 (show 0 ≤ 1 + u α by linarith)
  have f2 : fin (a - fdot (fun t => G i t) (fun t => G t c) k) := Fp.sub_fin _ _ ha f1 (by linarith)
  refine ⟨f2, ?_⟩
  have b2 := (Fp.sub _ _ f2).2.2.1
  have b3 := abs_sub_abs_le_abs_sub (val (a - fdot (fun t => G i t) (fun t => G t c) k))
    (val a - val (fdot (fun t => G i t) (fun t => G t c) k))
  linarith

end LU.Rnd

namespace LU.Tri
open LU.Rnd Props

theorem zero_val {x : F64} (h : F64.isZero x) : x.toReal = 0 := by
  have hf : x.isFin := by obtain ⟨s, rfl⟩ := F64.isZero_iff.1 h; trivial
  exact (zero_iff_val hf).2 h

/-- What is known of an entry of the packed factors. -/
structure Entry (G : Nat → Nat → F64) (τ : Nat → Nat) (M : ℝ) (i c : Nat) : Prop where
  fin : (G i c).isFin
  low : c < i → |(G i c).toReal| ≤ 1 + 1 / 2 ^ 52
  off : i < c → |(G i c).toReal| ≤ (1 + 1 / 2 ^ 29) * M
  diag : i = c → |(G i c).toReal| ≤ (2 + 1 / 2 ^ 27) * M
  new : i < c → τ i = i + 1 → |(G i c).toReal| ≤ (1 + 1 / 2 ^ 30) * M
  far : i + 2 < c → (G i c).toReal = 0

theorem room {n : Nat} (hn : n ≤ 2 ^ 20) {M s w : ℝ} (hM1 : tiny ≤ M) (hM2 : M ≤ 2 ^ 800) (hs : s ≤ w * M) (hw0 : 0 ≤ w) (hw : w ≤ 8) :
    (1 + u F64) ^ (n + 2) * s + (1 + u F64) * θ F64 n ≤ (w + w / 2 ^ 31 + 1 / 2 ^ 100) * M ∧
    (1 + u F64) ^ (n + 2) * s + (1 + u F64) * θ F64 n ≤ Ω F64 := by
  have hM0 : 0 < M := lt_of_lt_of_le tiny_pos hM1
  have hg := gamma_f64 (k := n + 2) (by omega)
  have hu : u F64 = 1 / 2 ^ 53 := rfl
  have hnr : (n : ℝ) ≤ 1048576 := by exact_mod_cast hn
  have hk : (1 + u F64) ^ (n + 2) ≤ 1 + 1 / 2 ^ 31 := by
    unfold γ at hg
    push_cast at hg
    have : ((n : ℝ) + 2) / 2 ^ 52 ≤ 1 / 2 ^ 31 := by norm_num; linarith
    linarith
  have hk0 : 0 ≤ (1 + u F64) ^ (n + 2) := by rw [hu]; positivity
  have hθ := theta_f64 hn
  have hθ0 := θ_nonneg (α := F64) n
  have h1 : (1 + u F64) ^ (n + 2) * s ≤ (1 + 1 / 2 ^ 31) * (w * M) :=
    (mul_le_mul_of_nonneg_left hs hk0).trans (mul_le_mul_of_nonneg_right hk (by positivity))
  have h2 : (1 + u F64) * θ F64 n ≤ 1 / 2 ^ 100 * M := by
    have : θ F64 n ≤ M * (1 / 2 ^ 154) := hθ.trans (mul_le_mul_of_nonneg_right hM1 (by norm_num))
    rw [hu]
    norm_num at this ⊢
    linarith
  have h3 : (1 + u F64) ^ (n + 2) * s + (1 + u F64) * θ F64 n ≤ (w + w / 2 ^ 31 + 1 / 2 ^ 100) * M := by
    have : (w + w / 2 ^ 31 + 1 / 2 ^ 100) * M = (1 + 1 / 2 ^ 31) * (w * M) + 1 / 2 ^ 100 * M := by ring
    rw [this]; linarith
  refine ⟨h3, h3.trans ?_⟩
  calc (w + w / 2 ^ 31 + 1 / 2 ^ 100) * M ≤ 10 * 2 ^ 800 :=
        mul_le_mul (by norm_num; linarith) hM2 hM0.le (by norm_num)
    _ ≤ 2 ^ 1000 * 2 ^ 23 := by
        rw [← pow_add]
        calc (10 : ℝ) * 2 ^ 800 ≤ 2 ^ 4 * 2 ^ 800 := mul_le_mul_of_nonneg_right (by norm_num) (by positivity)
          _ = 2 ^ 804 := by rw [← pow_add]
          _ ≤ _ := pow_le_pow_right₀ (by norm_num) (by norm_num)
    _ ≤ _ := big_f64

set_option maxHeartbeats 1000000 in
theorem columns {n : Nat} (hn : n ≤ 2 ^ 20) {A G : Nat → Nat → F64} {σ : Equiv.Perm (Fin n)} {τ : Nat → Nat} (hσ : ∀ i : Fin n, τ i = (σ i).1)
    (h : ∀ c, c < n → Col n A G σ c)
    (hpart : ∀ j, j ≤ n → (∀ i c, i < n → c < j → (G i c).isFin) → Band.Part F64.isZero n n 1 1 j G τ) {M : ℝ}
    (hA : ∀ i c, i < n → c < n → (A i c).isFin ∧ |(A i c).toReal| ≤ M) (hband : ∀ i c, i < n → c < n → i + 1 < c → F64.isZero (A i c))
    (hM1 : tiny ≤ M) (hM2 : M ≤ 2 ^ 800) (c : Nat) (hc : c < n) : ∀ i, i < n → Entry G τ M i c := by
  have hM0 : 0 < M := lt_of_lt_of_le tiny_pos hM1
  have hu : u F64 = 1 / 2 ^ 53 := rfl
  have hη0 := η_nonneg (α := F64)
  have hη := eta_le
  induction c using Nat.strong_induction_on with
  | _ c ihc =>
    have hcol := h c hc
    have hF : ∀ i t, i < n → t < c → (G i t).isFin := fun i t hi ht => (ihc t ht (by omega) i hi).fin
    have hP := hpart c hc.le hF
    -- zeros of the column
    have hz : ∀ i, i < c → (∀ k, k ≤ i → τ k + 1 < c) → F64.isZero (G i c) := by
      intro i
      induction i using Nat.strong_induction_on with
      | _ i ihi =>
        intro hi hk
        have hup := hcol.up ⟨i, by omega⟩ hi.le
        dsimp only at hup
        have e1 := hσ ⟨i, by omega⟩
        dsimp only at e1
        rw [hup]
        unfold W
        refine zeros_f64.sub _ _ ?_ (Band.fdot_zero zeros_f64 fun t ht => Or.inr ⟨hF i t (by omega) (by omega), ihi t (by omega) (by omega) fun k hk' => hk k (by omega)⟩)
        have := hk i le_rfl
        rw [← e1]
        exact hband _ _ (by rw [e1]; exact (σ _).2) hc (by omega)
    have hfar : ∀ i, i + 2 < c → (G i c).toReal = 0 := fun i hi => zero_val (hz i (by omega) fun k hk => by
      have := hP.past k (by omega) (by omega)
      omega)
    -- the sizes, for the rows whose position is known
    have step : ∀ k, k ≤ c → k < n → (∀ t, t ≤ k → τ t ≤ t + 1) → (∀ t, t < k → Entry G τ M t c) →
        (τ k = k + 1 → |(A (τ k) c).toReal| + ∑ t ∈ range k, |(G k t).toReal| * |(G t c).toReal| ≤ M) ∧
        (k < c → |(A (τ k) c).toReal| + ∑ t ∈ range k, |(G k t).toReal| * |(G t c).toReal| ≤ (1 + 1 / 2 ^ 52) * ((1 + 1 / 2 ^ 30) * M)) ∧
        |(A (τ k) c).toReal| + ∑ t ∈ range k, |(G k t).toReal| * |(G t c).toReal| ≤
          (1 + 1 / 2 ^ 52) * ((1 + 1 / 2 ^ 30) * M + (1 + 1 / 2 ^ 29) * M) := by
      intro k hkc hkn hτ ih
      have hτk : τ k < n := by
        have e1 := hσ ⟨k, hkn⟩
        dsimp only at e1
        rw [e1]; exact (σ _).2
      have := Band.tri_step (a := fun i c => if i < n then (A i c).toReal else 0) (g := fun i c => (G i c).toReal) (τ := τ) (k := k) (c := c)
        (M := M) (B2 := (1 + 1 / 2 ^ 30) * M) (B1 := (1 + 1 / 2 ^ 29) * M) (l := 1 + 1 / 2 ^ 52) hkc
        (fun i => by
          split
          · next hi => exact (hA i c hi hc).2
          · rw [abs_zero]; exact hM0.le)
        (fun i hi => by
          split
          · next hi' => exact zero_val (hband i c hi' hc hi)
          · rfl) hτ
        (fun t t' ht ht' e => by
          have e1 := hσ ⟨t, by omega⟩
          have e2 := hσ ⟨t', by omega⟩
          dsimp only at e1 e2
          have := σ.injective (Fin.ext (by rw [← e1, ← e2, e] : (σ ⟨t, by omega⟩).1 = (σ ⟨t', by omega⟩).1))
          exact congrArg Fin.val this)
        (fun t ht hl => zero_val (hP.low k t hkn (by omega) (by omega) (by omega) hl))
        (fun t ht hl => zero_val (hz t (by omega) hl))
        (fun t ht => (ihc t (by omega) (by omega) k hkn).low ht)
        (fun t ht => (ih t ht).off (by omega))
        (fun t ht h' => (ih t ht).new (by omega) h')
        (by norm_num) (by norm_num; linarith) (by norm_num; linarith)
      simpa only [if_pos hτk] using this
    have hWk : ∀ (i : Fin n), A (τ i) c = A (σ i) c := fun i => by rw [hσ i]
    -- above the diagonal
    have habove : ∀ k, k < c → Entry G τ M k c := by
      intro k
      induction k using Nat.strong_induction_on with
      | _ k ihk =>
        intro hkc
        have hkn : k < n := by omega
        have hup := hcol.up ⟨k, hkn⟩ hkc.le
        dsimp only at hup
        obtain ⟨s1, s2, -⟩ := step k hkc.le hkn (fun t ht => hP.past t (by omega) (by omega)) fun t ht => ihk t ht (by omega)
        rw [hWk ⟨k, hkn⟩] at s1 s2
        have hm : min k c = k := by omega
        have s2 := s2 hkc
        have hG : ∀ t, t < min k c → Fp.fin (G k t) ∧ Fp.fin (G t c) := fun t ht => ⟨hF k t hkn (by omega), (ihk t (by omega) (by omega)).fin⟩
        have ha := (hA (σ ⟨k, hkn⟩) c (σ ⟨k, hkn⟩).2 hc).1
        obtain ⟨r1, r2⟩ := room (w := (1 + 1 / 2 ^ 52) * (1 + 1 / 2 ^ 30)) hn hM1 hM2 (s := (1 + 1 / 2 ^ 52) * ((1 + 1 / 2 ^ 30) * M)) (le_of_eq (by ring)) (by norm_num) (by norm_num)
        obtain ⟨f1, f2⟩ := W_bound (α := F64) (G := G) (i := k) (c := c) (r := n) ha (by omega) hG (by rw [hm]; exact s2) r2
        refine ⟨by rw [hup]; exact f1, fun h => by omega, fun _ => ?_, fun h => by omega, fun _ h1 => ?_, hfar k⟩
        · rw [hup]
          refine (f2.trans r1).trans (mul_le_mul_of_nonneg_right (by norm_num) hM0.le)
        · obtain ⟨r1, r2⟩ := room (w := 1) hn hM1 hM2 (s := M) (by rw [one_mul]) (by norm_num) (by norm_num)
          obtain ⟨f1, f2⟩ := W_bound (α := F64) (G := G) (i := k) (c := c) (r := n) ha (by omega) hG (by rw [hm]; exact s1 h1) r2
          rw [hup]
          refine (f2.trans r1).trans (mul_le_mul_of_nonneg_right (by norm_num) hM0.le)
    -- the rest of the column, roughly
    have hW : ∀ i : Fin n, c ≤ i.1 → Fp.fin (W (A (σ i) c) G i c) := by
      intro i hi
      have hm : min i.1 c = c := by omega
      obtain ⟨r1, r2⟩ := room (w := 4) hn hM1 hM2 (s := 4 * M) le_rfl (by norm_num) (by norm_num)
      refine (W_bound (α := F64) (G := G) (i := i) (c := c) (r := n) (hA (σ i) c (σ i).2 hc).1 (by omega)
        (fun t ht => ⟨hF i t i.2 (by omega), (habove t (by omega)).fin⟩) ?_ r2).1
      rw [hm, Band.sum_last_two _ c fun t ht => by
        have : val (G t c) = 0 := hfar t ht
        rw [this, abs_zero, mul_zero]]
      have hT : ∀ t, t < c → |val (G i t)| * |val (G t c)| ≤ 3 / 2 * M := fun t ht => by
        have a1 : |val (G i t)| ≤ 1 + 1 / 2 ^ 52 := (ihc t ht (by omega) i i.2).low (by omega)
        have a2 : |val (G t c)| ≤ (1 + 1 / 2 ^ 29) * M := (habove t ht).off ht
        refine (mul_le_mul a1 a2 (abs_nonneg _) (by positivity)).trans ?_
        rw [← mul_assoc]
        exact mul_le_mul_of_nonneg_right (by norm_num) hM0.le
      have b0 : |val (A (σ i) c)| ≤ M := (hA (σ i) c (σ i).2 hc).2
      have b1 : (if 2 ≤ c then |val (G i (c - 2))| * |val (G (c - 2) c)| else 0) ≤ 3 / 2 * M := by
        split
        · exact hT _ (by omega)
        · positivity
      have b2 : (if 1 ≤ c then |val (G i (c - 1))| * |val (G (c - 1) c)| else 0) ≤ 3 / 2 * M := by
        split
        · exact hT _ (by omega)
        · positivity
      linarith
    have hccf : (G c c).isFin := by
      have hup := hcol.up ⟨c, hc⟩ le_rfl
      dsimp only at hup
      rw [hup]
      exact hW ⟨c, hc⟩ le_rfl
    have hbelow : ∀ i, i < n → c < i → (G i c).isFin ∧ |(G i c).toReal| ≤ 1 + 1 / 2 ^ 52 := by
      intro i hi hci
      have hw := hcol.piv hW ⟨i, hi⟩ hci.le
      have hq := hcol.lo ⟨i, hi⟩ hci
      have hWi := hW ⟨i, hi⟩ hci.le
      unfold Rnd.Quot at hq
      dsimp only at hw hq hWi
      by_cases h0 : FloatOps.eq (G c c) 0 = true
      · rw [if_pos h0] at hq
        have hzz : val (G c c) = 0 := by
          have := (Fp.eq _ _ hccf Fp.zero.1).mp h0
          rw [this, Fp.zero.2]
        rw [hzz, abs_zero, abs_nonpos_iff, ← hq] at hw
        refine ⟨by rw [hq]; exact hWi, ?_⟩
        have hw : (G i c).toReal = 0 := hw
        rw [hw, abs_zero]; norm_num
      · rw [if_neg h0] at hq
        have hzz : val (G c c) ≠ 0 := fun hz => h0 ((Fp.eq _ _ hccf Fp.zero.1).mpr (by rw [hz, Fp.zero.2]))
        have h1 : |val (W (A (σ ⟨i, hi⟩) c) G i c) / val (G c c)| ≤ 1 := by
          rw [abs_div]; exact div_le_one_of_le₀ hw (abs_nonneg _)
        have hf : Fp.fin (G i c) := Fp.div_fin _ _ _ hq hWi hccf hzz (by
          have h1000 : (1 : ℝ) ≤ 2 ^ 1000 := one_le_pow₀ (by norm_num)
          refine le_trans ?_ big_f64
          rw [hu]
          generalize (2 : ℝ) ^ 1000 = P at *
          norm_num at hη h1 ⊢
          linarith)
        refine ⟨hf, ?_⟩
        obtain ⟨-, h2, -, h4⟩ := quot_err hq hf hccf
        have h5 : |(G i c).toReal| ≤ (1 + u F64) * 1 + η F64 := h4.trans (add_le_add (mul_le_mul_of_nonneg_left h1 (by rw [hu]; norm_num)) le_rfl)
        refine h5.trans ?_
        rw [hu]
        norm_num at hη ⊢
        linarith
    -- the diagonal
    have hF' : ∀ i t, i < n → t < c + 1 → (G i t).isFin := by
      intro i t hi ht
      by_cases e : t = c
      · subst e
        rcases Nat.lt_trichotomy i t with h1 | rfl | h1
        · exact (habove i h1).fin
        · exact hccf
        · exact (hbelow i hi h1).1
      · exact hF i t hi (by omega)
    have hP' := hpart (c + 1) hc hF'
    have hdiag : |(G c c).toReal| ≤ (2 + 1 / 2 ^ 27) * M := by
      have hup := hcol.up ⟨c, hc⟩ le_rfl
      dsimp only at hup
      obtain ⟨-, -, s3⟩ := step c le_rfl hc (fun t ht => hP'.past t (by omega) (by omega)) fun t ht => habove t ht
      rw [hWk ⟨c, hc⟩] at s3
      obtain ⟨r1, r2⟩ := room (w := (1 + 1 / 2 ^ 52) * ((1 + 1 / 2 ^ 30) + (1 + 1 / 2 ^ 29))) hn hM1 hM2
        (s := (1 + 1 / 2 ^ 52) * ((1 + 1 / 2 ^ 30) * M + (1 + 1 / 2 ^ 29) * M)) (le_of_eq (by ring)) (by norm_num) (by norm_num)
      obtain ⟨f1, f2⟩ := W_bound (α := F64) (G := G) (i := c) (c := c) (r := n) (hA (σ ⟨c, hc⟩) c (σ ⟨c, hc⟩).2 hc).1 (by omega)
        (fun t ht => ⟨hF c t hc (by omega), (habove t (by omega)).fin⟩) (by rw [Nat.min_self]; exact s3) r2
      rw [hup]
      refine (f2.trans r1).trans (mul_le_mul_of_nonneg_right (by norm_num) hM0.le)
    intro i hi
    rcases Nat.lt_trichotomy i c with h1 | rfl | h1
    · exact habove i h1
    · exact ⟨hccf, fun h => by omega, fun h => by omega, fun _ => hdiag, fun h => by omega, fun h => by omega⟩
    · exact ⟨(hbelow i hi h1).1, fun _ => (hbelow i hi h1).2, fun h => by omega, fun h => by omega, fun h => by omega, fun h => by omega⟩

end LU.Tri
end LA
