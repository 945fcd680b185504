import Verif.Proofs.EigHqr7

/-! # `hqr2`: a pair of roots -/

set_option linter.unusedSectionVars false

namespace LA
open Finset Matrix
namespace Eigen
open SVD (pk pk_congr pk_rotc pk_rotr)

/-- The memory after the rotation of a real pair. -/
def rotMem (n : Nat) (cs sn : ℝ) (H : Nat → Nat → ℝ) : Nat → Nat → ℝ :=
  let H2 : Nat → Nat → ℝ := fun a b => if n - 1 ≤ b then rotr H (n - 1) n cs sn a b else H a b
  fun a b => if a < n + 1 then rotc H2 (n - 1) n cs sn a b else H2 a b

theorem rot_tab {n : Nat} {e : Nat → ℝ} {H : Nat → Nat → ℝ} {ex cs sn : ℝ} (h0 : 0 < n) (he0 : e (n - 1) = 0) (he1 : e n = 0)
    (he2 : ¬ e (n + 1) < 0)
    (hz : -sn * (cs * H (n - 1) (n - 1) + sn * H (n - 1) n) + cs * (cs * H n (n - 1) + sn * H n n) = 0) (a b : Nat) :
    rotc (rotr (fun a b => if a = n ∧ b + 1 = n then H n (n - 1) else Tt (n - 1) e H ex a b) (n - 1) n cs sn) (n - 1) n cs sn a b =
      Tt (n - 1) e (rotMem n cs sn H) ex a b := by
  obtain ⟨k, rfl⟩ : ∃ k, n = k + 1 := ⟨n - 1, by omega⟩
  simp only [Nat.add_sub_cancel] at *
  set X : Nat → Nat → ℝ := (fun a b => if a = k + 1 ∧ b + 1 = k + 1 then H (k + 1) k else Tt k e H ex a b) with hX
  have f1 : ∀ b, b < k → X k b = 0 := fun b hb => by
    simp only [hX, Tt, tadd, tmk, exd]; rw [if_neg (by omega)]
    by_cases h : b + 1 < k
    · rw [if_pos h, if_neg (by omega), add_zero]
    · rw [if_neg h, if_pos ⟨by omega, le_rfl, by rw [he0]; simp⟩, if_neg (by omega), add_zero]
  have f1' : ∀ b, b < k → X (k + 1) b = 0 := fun b hb => by
    simp only [hX, Tt, tadd, tmk, exd]; rw [if_neg (by omega), if_pos (by omega), if_neg (by omega), add_zero]
  have f2 : ∀ b, k ≤ b → X k b = H k b := fun b hb => by
    simp only [hX, Tt, tadd, tmk, exd]; rw [if_neg (by omega), if_neg (by omega), if_neg (by omega), if_neg (by omega), add_zero]
  have f2' : ∀ b, k ≤ b → X (k + 1) b = H (k + 1) b := fun b hb => by
    simp only [hX, Tt, tadd, tmk, exd]
    by_cases h : b = k
    · subst h; simp
    · rw [if_neg (by omega), if_neg (by omega), if_neg (by omega), if_neg (by omega), add_zero]
  have f3 : ∀ a, k + 1 < a → X a k = 0 := fun a ha => by
    simp only [hX, Tt, tadd, tmk, exd]; rw [if_neg (by omega), if_pos (by omega), if_neg (by omega), add_zero]
  have f3' : ∀ a, k + 1 < a → X a (k + 1) = 0 := fun a ha => by
    simp only [hX, Tt, tadd, tmk, exd]; rw [if_neg (by omega)]
    by_cases h : k + 1 + 1 < a
    · rw [if_pos h, if_neg (by omega), add_zero]
    · rw [if_neg h, if_pos ⟨by omega, by omega, by rw [show a = k + 1 + 1 by omega]; exact he2⟩, if_neg (by omega), add_zero]
  have f4 : ∀ a, a < k → X a k = H a k := fun a ha => by
    simp only [hX, Tt, tadd, tmk, exd]; rw [if_neg (by omega), if_neg (by omega), if_neg (by omega), if_neg (by omega), add_zero]
  have f4' : ∀ a, a < k → X a (k + 1) = H a (k + 1) := fun a ha => by
    simp only [hX, Tt, tadd, tmk, exd]; rw [if_neg (by omega), if_neg (by omega), if_neg (by omega), if_neg (by omega), add_zero]
  have f5 : ∀ a b, a ≠ k → a ≠ k + 1 → X a b = Tt k e H ex a b := fun a b h1 h2 => by
    simp only [hX]; rw [if_neg (by omega)]
  clear_value X
  -- the rows `k`, `k + 1` of the memory
  have g1 : ∀ b, k ≤ b → rotr X k (k + 1) cs sn k b = cs * H k b + sn * H (k + 1) b := fun b hb => by
    unfold rotr; rw [if_pos rfl, f2 b hb, f2' b hb]
  have g1' : ∀ b, k ≤ b → rotr X k (k + 1) cs sn (k + 1) b = -sn * H k b + cs * H (k + 1) b := fun b hb => by
    unfold rotr; rw [if_neg (by omega), if_pos rfl, f2 b hb, f2' b hb]
  have g2 : ∀ b, b < k → rotr X k (k + 1) cs sn k b = 0 := fun b hb => by
    unfold rotr; rw [if_pos rfl, f1 b hb, f1' b hb]; ring
  have g2' : ∀ b, b < k → rotr X k (k + 1) cs sn (k + 1) b = 0 := fun b hb => by
    unfold rotr; rw [if_neg (by omega), if_pos rfl, f1 b hb, f1' b hb]; ring
  have g3 : ∀ a b, a ≠ k → a ≠ k + 1 → rotr X k (k + 1) cs sn a b = X a b := fun a b h1 h2 => by
    unfold rotr; rw [if_neg h1, if_neg h2]
  set Y := rotr X k (k + 1) cs sn with hY
  clear_value Y
  have m1 : ∀ b, k ≤ b → (if k ≤ b then rotr H k (k + 1) cs sn k b else H k b) = cs * H k b + sn * H (k + 1) b := fun b hb => by
    rw [if_pos hb]; unfold rotr; rw [if_pos rfl]
  have m1' : ∀ b, k ≤ b → (if k ≤ b then rotr H k (k + 1) cs sn (k + 1) b else H (k + 1) b) = -sn * H k b + cs * H (k + 1) b := fun b hb => by
    rw [if_pos hb]; unfold rotr; rw [if_neg (by omega), if_pos rfl]
  have m3 : ∀ a b, a ≠ k → a ≠ k + 1 → (if k ≤ b then rotr H k (k + 1) cs sn a b else H a b) = H a b := fun a b h1 h2 => by
    by_cases hb : k ≤ b
    · rw [if_pos hb]; unfold rotr; rw [if_neg h1, if_neg h2]
    · rw [if_neg hb]
  have hmem : ∀ a b, rotMem (k + 1) cs sn H a b = if a < k + 2 then rotc (fun a b => if k ≤ b then rotr H k (k + 1) cs sn a b else H a b) k (k + 1) cs sn a b
    else (if k ≤ b then rotr H k (k + 1) cs sn a b else H a b) := fun a b => rfl
  generalize hW : (fun a b => if k ≤ b then rotr H k (k + 1) cs sn a b else H a b) = W at hmem
  have w1 : ∀ b, k ≤ b → W k b = cs * H k b + sn * H (k + 1) b := fun b hb => by rw [← hW]; exact m1 b hb
  have w1' : ∀ b, k ≤ b → W (k + 1) b = -sn * H k b + cs * H (k + 1) b := fun b hb => by rw [← hW]; exact m1' b hb
  have w3 : ∀ a b, a ≠ k → a ≠ k + 1 → W a b = H a b := fun a b h1 h2 => by rw [← hW]; exact m3 a b h1 h2
  have hmem2 : ∀ a b, rotMem (k + 1) cs sn H a b = if a < k + 2 then rotc W k (k + 1) cs sn a b else W a b := fun a b => by
    rw [hmem a b, ← hW]
  clear hmem hW m1 m1' m3 hX hY f1 f1' f2 f2'
  by_cases ha : a = k
  · subst ha
    by_cases hb : b < a
    · unfold rotc; rw [if_neg (by omega), if_neg (by omega), g2 b hb]
      unfold Tt tadd tmk exd
      by_cases h : b + 1 < a
      · rw [if_pos h, if_neg (by omega), add_zero]
      · rw [if_neg h, if_pos ⟨by omega, le_rfl, by rw [he0]; simp⟩, if_neg (by omega), add_zero]
    · unfold Tt tadd tmk exd
      rw [if_neg (by omega), if_neg (by omega), if_neg (by omega), add_zero, hmem2, if_pos (by omega)]
      unfold rotc
      rw [g1 a le_rfl, g1 (a + 1) (by omega), g1 b (by omega), w1 a le_rfl, w1 (a + 1) (by omega), w1 b (by omega)]
  · by_cases ha1 : a = k + 1
    · subst ha1
      by_cases hb : b < k
      · unfold rotc; rw [if_neg (by omega), if_neg (by omega), g2' b hb]
        unfold Tt tadd tmk exd
        rw [if_pos (by omega), if_neg (by omega), add_zero]
      · unfold Tt tadd tmk exd
        rw [if_neg (by omega), if_neg (show ¬(k + 1 = b ∧ k + 1 < k) by omega), add_zero]
        by_cases hb1 : b = k
        · subst hb1
          rw [if_pos ⟨rfl, by omega, by rw [he1]; simp⟩]
          unfold rotc
          rw [if_pos rfl, g1' b le_rfl, g1' (b + 1) (by omega)]
          linarith
        · rw [if_neg (by omega), hmem2, if_pos (by omega)]
          unfold rotc
          rw [g1' k le_rfl, g1' (k + 1) (by omega), g1' b (by omega), w1' k le_rfl, w1' (k + 1) (by omega), w1' b (by omega)]
    · by_cases ha2 : a < k
      · by_cases hb : b < k
        · unfold rotc; rw [if_neg (by omega), if_neg (by omega), g3 a b ha ha1, f5 a b ha ha1]
          have hm : rotMem (k + 1) cs sn H a b = H a b := by
            rw [hmem2, if_pos (by omega)]
            unfold rotc
            rw [if_neg (show ¬ b = k by omega), if_neg (show ¬ b = k + 1 by omega), w3 a b ha ha1]
          unfold Tt tadd tmk
          rw [hm]
        · have : Tt k e (rotMem (k + 1) cs sn H) ex a b = rotMem (k + 1) cs sn H a b := by
            unfold Tt tadd tmk exd
            rw [if_neg (by omega), if_neg (by omega), if_neg (by omega), add_zero]
          rw [this, hmem2, if_pos (by omega)]
          have hx : X a b = H a b := by
            rw [f5 a b ha ha1]
            unfold Tt tadd tmk exd
            rw [if_neg (by omega), if_neg (by omega), if_neg (by omega), add_zero]
          unfold rotc
          rw [g3 a k ha ha1, g3 a (k + 1) ha ha1, g3 a b ha ha1, f4 a ha2, f4' a ha2, w3 a k ha ha1, w3 a (k + 1) ha ha1, w3 a b ha ha1, hx]
      · have ha3 : k + 1 < a := by omega
        have hT : Tt k e (rotMem (k + 1) cs sn H) ex a b = Tt k e H ex a b := by
          have hm : rotMem (k + 1) cs sn H a b = H a b := by rw [hmem2, if_neg (by omega), w3 a b ha ha1]
          unfold Tt tadd tmk
          rw [hm]
        rw [hT, ← f5 a b ha ha1]
        unfold rotc
        rw [g3 a k ha ha1, g3 a (k + 1) ha ha1, g3 a b ha ha1, f3 a ha3, f3' a ha3]
        split_ifs with h1 h2
        · rw [h1, f3 a ha3]; ring
        · rw [h2, f3' a ha3]; ring
        · rfl

theorem twoRoots_post {nn n : Nat} {A : Matrix (Fin nn) (Fin nn) ℝ} {E norm : ℝ} {st : Hqr ℝ} {H V : Nat → Nat → ℝ} {d e : Nat → ℝ}
    (hI : HqInv nn (n + 1) A E st H V d e) (hn : n < nn) (h0 : 0 < n) (hnorm : norm ≤ nn * (frob A + E))
    (hl : n - 1 ≠ 0 → |H (n - 1) (n - 1 - 1)| ≤ eps * (|H (n - 1 - 1) (n - 1 - 1)| + |H (n - 1) (n - 1)| + norm)) (hne : H n (n - 1) ≠ 0) :
    Post (twoRoots nn n st) fun o => ∃ H' V' d' e', HqInv nn (n - 1) A (E + (4 * nn + 24) * eps * (frob A + E)) o H' V' d' e' := by
  have hep := eps_pos
  have hexE : |st.ex| ≤ 2 * (frob A + (E + (4 * nn + 24) * eps * (frob A + E))) := by
    have h2 := hI.ex
    have : 0 ≤ frob A + E := by linarith [abs_nonneg st.ex]
    have : 0 ≤ (4 * (nn : ℝ) + 24) * eps * (frob A + E) := by positivity
    linarith
  unfold twoRoots
  rw [hI.hh.rd (by omega) (by omega), ok_bind, hI.hh.rd (by omega) (by omega), ok_bind, hI.hh.rd (by omega) (by omega), ok_bind, hI.hh.rd (by omega) (by omega),
    ok_bind]
  dsimp only
  have h2c : (FloatOps.cst 2 1 : ℝ) = 2 := by rw [Exact.cst_eq]; norm_num
  rw [h2c, rdiv_ok two_ne_zero, ok_bind, Exact.abs_eq, sqrt_ok (abs_nonneg _), ok_bind, ok_bind]
  obtain ⟨h1, hr1, hg1⟩ := FullG.wrP hI.hh (i := n) (j := n) hn hn (H n n + st.ex)
  rw [hr1, ok_bind, hg1.rd (by omega) (by omega), ok_bind, upd_ne (by omega)]
  obtain ⟨h2, hr2, hg2⟩ := FullG.wrP hg1 (i := n - 1) (j := n - 1) (by omega) (by omega) (H (n - 1) (n - 1) + st.ex)
  rw [hr2, ok_bind, hg2.rd hn hn, ok_bind, upd_ne (by omega), upd_same, le_eq]
  have tt : ∀ e' : Nat → ℝ, (∀ a, n < a → e' a = e a) → ¬ e' (n - 1) < 0 → Sm nn A V
    (fun a b => if a = n ∧ b + 1 = n then H n (n - 1) else Tt (n - 1) e' (upd (upd H n n (H n n + st.ex)) (n - 1) (n - 1) (H (n - 1) (n - 1) + st.ex)) st.ex a b)
    (E + (4 * nn + 24) * eps * (frob A + E)) := fun e' he he1 =>
      drop_small hI hn (show n - 1 ≤ n by omega) hnorm hl fun a b _ _ => two_tab h0 he he1 a b
  set H1 := upd (upd H n n (H n n + st.ex)) (n - 1) (n - 1) (H (n - 1) (n - 1) + st.ex) with hH1
  have v1 : H1 n n = H n n + st.ex := by rw [hH1, upd_ne (by omega), upd_same]
  have v2 : H1 (n - 1) (n - 1) = H (n - 1) (n - 1) + st.ex := by rw [hH1, upd_same]
  have v3 : H1 n (n - 1) = H n (n - 1) := by rw [hH1, upd_ne (by omega), upd_ne (by omega)]
  have v4 : H1 (n - 1) n = H (n - 1) n := by rw [hH1, upd_ne (by omega), upd_ne (by omega)]
  have v5 : ∀ a b, n < a → H1 a b = H a b := fun a b h => by rw [hH1, upd_ne (by omega), upd_ne (by omega)]
  clear_value H1
  set p := (H (n - 1) (n - 1) - H n n) / 2 with hp
  set w := H n (n - 1) * H (n - 1) n with hw
  have hpv : p = (H1 (n - 1) (n - 1) - H1 n n) / 2 := by rw [hp, v1, v2]; ring
  by_cases hq : 0 ≤ p * p + w
  · rw [if_pos (by simpa using hq), abs_of_nonneg hq]
    set z0 := Real.sqrt (p * p + w) with hz0
    have hz02 : z0 * z0 = p * p + w := Real.mul_self_sqrt hq
    have hz0n : 0 ≤ z0 := Real.sqrt_nonneg _
    unfold realPair
    dsimp only
    rw [le_eq]
    obtain ⟨z, hz, hz1, hz2⟩ : ∃ z, (if decide (0 ≤ p) = true then p + z0 else p - z0) = z ∧ (z - p) * (z - p) = p * p + w ∧ (z = 0 → p = 0) := by
      refine ⟨_, rfl, ?_, ?_⟩
      · split_ifs <;> linarith
      · split_ifs with h
        · have : 0 ≤ p := by simpa using h
          intro h; linarith
        · have : ¬ 0 ≤ p := by simpa using h
          intro h; linarith
    rw [hz]
    obtain ⟨d1, hrd1, hd1⟩ := hI.dd.wr (show n - 1 < nn by omega) (H n n + st.ex + z)
    rw [hrd1, ok_bind, hd1.rd (show n - 1 < nn by omega) (Or.inr rfl), ok_bind, updv_same]
    obtain ⟨d2, hrd2, hd2⟩ := hd1.wr hn (H n n + st.ex + z)
    rw [hrd2, ok_bind, eq_eq]
    have hd3 : Post (do if !decide (z = 0) then wr d2 n (H n n + st.ex - (← RDiv.rdiv w z)) else return d2 : R (Buf ℝ)) fun d3 =>
        Part d3 nn (fun i => n - 1 ≤ i) (updv (updv d (n - 1) (H n n + st.ex + z)) n (H1 (n - 1) (n - 1) - z)) := by
      by_cases hz0 : z = 0
      · have hp0 := hz2 hz0
        have : H1 (n - 1) (n - 1) - z = H n n + st.ex + z := by rw [hz0, v2, hp] at *; linarith
        rw [if_neg (by simpa using hz0), this]
        exact Post.ok (hd2.mono fun i _ h => ⟨by omega, rfl⟩)
      · rw [if_pos (by simpa using hz0), rdiv_ok hz0, ok_bind]
        obtain ⟨d3, hrd3, hd3⟩ := hd2.wr hn (H n n + st.ex - w / z)
        rw [hrd3]
        refine Post.ok (hd3.mono fun i _ h => ⟨by omega, ?_⟩)
        have : H n n + st.ex - w / z = H1 (n - 1) (n - 1) - z := by
          rw [v2]
          have : w / z = z - 2 * p := by rw [div_eq_iff hz0]; linarith
          rw [this, hp]; ring
        rw [this]
        by_cases hi : i = n
        · subst hi; rw [updv_same, updv_same]
        · rw [updv_ne hi, updv_ne hi, updv_ne hi]
    obtain ⟨d3, hrd3, hd3⟩ := hd3
    rw [hrd3, ok_bind]
    obtain ⟨e1, hre1, he1⟩ := hI.ee.wr (show n - 1 < nn by omega) 0
    obtain ⟨e2, hre2, he2⟩ := he1.wr hn 0
    rw [hre1, ok_bind, hre2, ok_bind, hg2.rd (by omega) (by omega), ok_bind, v3, Exact.abs_eq, Exact.abs_eq]
    have hs : 0 < |H n (n - 1)| + |z| := by have := abs_pos.2 hne; positivity
    set s := |H n (n - 1)| + |z| with hsd
    clear_value s
    rw [rdiv_ok hs.ne', ok_bind, rdiv_ok hs.ne', ok_bind]
    have hrp : 0 < H n (n - 1) / s * (H n (n - 1) / s) + z / s * (z / s) := by
      have : H n (n - 1) / s ≠ 0 := div_ne_zero hne hs.ne'
      have := mul_self_pos.2 this
      nlinarith [mul_self_nonneg (z / s)]
    rw [sqrt_ok hrp.le, ok_bind]
    set r := Real.sqrt (H n (n - 1) / s * (H n (n - 1) / s) + z / s * (z / s)) with hr
    have hr0 : 0 < r := Real.sqrt_pos.2 hrp
    have hr2 : r * r = H n (n - 1) / s * (H n (n - 1) / s) + z / s * (z / s) := Real.mul_self_sqrt hrp.le
    clear_value r
    rw [rdiv_ok hr0.ne', ok_bind, rdiv_ok hr0.ne', ok_bind]
    set cs := z / s / r with hcs
    set sn := H n (n - 1) / s / r with hsn
    obtain ⟨a1, a2, a3, a4⟩ := pair_alg (a := H1 (n - 1) (n - 1)) (b := H1 (n - 1) n) (c := H1 n (n - 1)) (x := H1 n n) (p := p) (w := w) (z := z)
      (r := s * r) (cs := cs) (sn := sn) hpv (by rw [hw, v3, v4]) hz1 (by positivity)
      (by rw [v3]; have : s * r * (s * r) = s * s * (r * r) := by ring
          rw [this, hr2]; field_simp)
      (by rw [hcs, div_div]) (by rw [hsn, div_div, v3])
    obtain ⟨h3, hr3, hg3⟩ := rootRows_post (p := sn) (q := cs) hg2 hn h0
    obtain ⟨h4, hr4, hg4⟩ := rootCols_post (p := sn) (q := cs) (hi := n + 1) hg3 hn h0 (by omega)
    obtain ⟨v5', hr5, hg5⟩ := rootCols_post (p := sn) (q := cs) (hi := nn) hI.vv hn h0 le_rfl
    rw [hr3, ok_bind, hr4, ok_bind, hr5, ok_bind]
    have hgM : FullG h4 nn nn (rotMem n cs sn H1) := hg4
    have hrow : ∀ a b, n < a → rotMem n cs sn H1 a b = H1 a b := fun a b ha => by
      unfold rotMem rotr
      dsimp only
      rw [if_neg (show ¬ a < n + 1 by omega), if_neg (show ¬ a = n - 1 by omega), if_neg (show ¬ a = n by omega), ite_self]
    have hT := tt (updv (updv e (n - 1) 0) n 0) (fun a ha => by rw [updv_ne (by omega), updv_ne (by omega)])
      (by rw [updv_ne (by omega), updv_same]; simp)
    rw [← v3] at hT
    have hT2 := hT.sim (V' := rotc V (n - 1) n cs sn)
      (X' := Tt (n - 1) (updv (updv e (n - 1) 0) n 0) (rotMem n cs sn H1) st.ex)
      (giv_orth (show n - 1 < nn by omega) hn (by omega) a1)
      (pk_rotc V (by omega) hn (by omega) cs sn) (by
        rw [← pk_rotr _ (by omega) hn (by omega), ← pk_rotc _ (by omega) hn (by omega)]
        refine pk_congr fun a b _ _ => (rot_tab h0 (by rw [updv_ne (by omega), updv_same]) (updv_same _ _ _) ?_ a2 a b).symm
        rw [updv_ne (by omega), updv_ne (by omega)]
        exact hI.blk.last)
    refine Post.ok ⟨_, _, _, _, hgM, hg5.congr (G := rotc V (n - 1) n cs sn) fun a b ha _ => by rw [if_pos ha], hd3,
      he2.mono fun i _ h => ⟨by omega, rfl⟩, hT2, hexE, ?_⟩
    have k1 : n - 1 ≤ n - 1 := le_rfl
    refine hI.blk.two h0 hn (fun a ha => by rw [updv_ne (by omega), updv_ne (by omega)]) (fun a ha => by rw [updv_ne (by omega), updv_ne (by omega)])
      (fun a b ha => by rw [hrow a b ha, v5 a b ha]) (Or.inl ⟨by rw [updv_ne (by omega), updv_same], updv_same _ _ _, ?_, ?_⟩)
    · rw [updv_ne (by omega), updv_same]
      unfold rotMem rotc rotr
      dsimp only
      rw [if_pos (show n - 1 < n + 1 by omega), if_pos rfl, if_pos le_rfl, if_pos rfl, if_pos (show n - 1 ≤ n by omega), if_pos rfl, ← v1, ← a3]
      ring
    · rw [updv_same]
      unfold rotMem rotc rotr
      dsimp only
      rw [if_pos (show n < n + 1 by omega), if_neg (by omega), if_pos rfl, if_pos le_rfl, if_neg (by omega), if_pos rfl,
        if_pos (show n - 1 ≤ n by omega), if_neg (by omega), if_pos rfl, ← a4]
      ring
  · rw [if_neg (by simpa using hq)]
    have hq' : p * p + w < 0 := not_le.1 hq
    rw [abs_of_neg hq']
    set z := Real.sqrt (-(p * p + w)) with hz
    have hz0 : 0 < z := Real.sqrt_pos.2 (by linarith)
    have hz2 : z * z = -(p * p + w) := Real.mul_self_sqrt (by linarith)
    obtain ⟨d1, hrd1, hd1⟩ := hI.dd.wr (show n - 1 < nn by omega) (H n n + st.ex + p)
    obtain ⟨d2, hrd2, hd2⟩ := hd1.wr hn (H n n + st.ex + p)
    obtain ⟨e1, hre1, he1⟩ := hI.ee.wr (show n - 1 < nn by omega) z
    obtain ⟨e2, hre2, he2⟩ := he1.wr hn (-z)
    rw [hrd1, ok_bind, hrd2, ok_bind, hre1, ok_bind, hre2, ok_bind]
    have hT := tt (updv (updv e (n - 1) z) n (-z)) (fun a ha => by rw [updv_ne (by omega), updv_ne (by omega)])
      (by rw [updv_ne (by omega), updv_same]; linarith)
    refine Post.ok ⟨H1, V, _, _, hg2, hI.vv, hd2.mono fun i _ h => ⟨by omega, rfl⟩, he2.mono fun i _ h => ⟨by omega, rfl⟩, ?_, hexE, ?_⟩
    · refine hT.congr fun a b _ _ => ?_
      beta_reduce
      by_cases h5 : a = n ∧ b + 1 = n
      · rw [if_pos h5]
        unfold Tt tadd tmk exd
        rw [if_neg (by omega), if_neg (by rintro ⟨_, _, h⟩; rw [h5.1, updv_same] at h; exact h (by linarith)), if_neg (by omega), add_zero, h5.1,
          show b = n - 1 by omega, v3]
      · rw [if_neg h5]
    · refine hI.blk.two h0 hn (fun a ha => by rw [updv_ne (by omega), updv_ne (by omega)]) (fun a ha => by rw [updv_ne (by omega), updv_ne (by omega)])
        v5 (Or.inr ⟨?_, ?_, ?_, ?_, ?_⟩)
      · rw [updv_ne (by omega), updv_same]; exact hz0
      · rw [updv_same, updv_ne (by omega), updv_same]
      · rw [updv_same, updv_ne (by omega), updv_same]
      · rw [updv_ne (by omega), updv_same, v1, v2, hp]; ring
      · rw [updv_ne (by omega), updv_same, hz2, ← hpv, v3, v4]

end Eigen
end LA
