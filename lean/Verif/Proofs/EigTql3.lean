import Verif.Proofs.EigTql2
import Verif.Proofs.Fuel

/-! # `tql2`: convergence, deflation, sorting -/

set_option linter.unusedSectionVars false

namespace LA
open Finset Matrix
namespace Eigen
open SVD (pk pk_rotc pk_rotr pk_congr)

theorem eps_val : (eps : ℝ) = 1 / 2 ^ 52 := by unfold eps; rw [Exact.cst_eq]; norm_num
theorem eps_pos : (0 : ℝ) < eps := by rw [eps_val]; positivity

/-- The loop of one eigenvalue ends after at most `K + 1` iterations when `2 (4/5) ^ K M ≤ θ³`. -/
theorem tqlLoop_post {n l m : Nat} {A : Matrix (Fin n) (Fin n) ℝ} {E tst1 : ℝ} (hl : l < m) (hm : m < n)
    (ht : 0 ≤ (eps : ℝ) * tst1) (K : Nat) : ∀ {st : Dev ℝ} {f : ℝ} {δ ε : Nat → ℝ} {V : Nat → Nat → ℝ},
    QlInv n l m A E st f δ ε V → ε l ≠ 0 → 2 * ((4 / 5) ^ K * (ε l ^ 2 * |ε (l + 1)|)) ≤ (eps * tst1) ^ 3 →
    PostE (fun fuel => tqlLoop n l m tst1 fuel st f) fun r => ∃ δ' ε' V', QlInv n l m A E r.1 r.2 δ' ε' V' ∧ ε' m = 0 ∧
      (∀ a, m < a → ε' a = ε a) ∧ |r.2| ≤ frob A ∧ |ε' l| ≤ eps * tst1 := by
  induction K with
  | zero =>
    intro st f δ ε V h hne hK
    obtain ⟨⟨st1, f1⟩, hr1, δ', ε', V', hI, g1, g2, g3, g4, g5⟩ := tqlIter_post h hl hm hne
    dsimp only at hI g3
    have hle : |ε' l| ≤ eps * tst1 := by
      by_contra hc
      push Not at hc
      have := pow_lt_pow_left₀ hc ht (n := 3) (by norm_num)
      rw [pow_zero, one_mul] at hK
      linarith
    refine ⟨1, (st1, f1), ⟨δ', ε', V', hI, g1, g2, g3, hle⟩, fun fuel => ?_⟩
    cases fuel with
    | zero => exact Or.inr ⟨by omega, rfl⟩
    | succ fuel =>
      left
      simp only [tqlLoop]
      rw [hr1, ok_bind]
      dsimp only
      rw [hI.e.rd (i := l) (by omega), ok_bind, le_eq, Exact.abs_eq, if_pos (by simpa using hle)]
      rfl
  | succ K ih =>
    intro st f δ ε V h hne hK
    obtain ⟨⟨st1, f1⟩, hr1, δ', ε', V', hI, g1, g2, g3, g4, g5⟩ := tqlIter_post h hl hm hne
    dsimp only at hI g3
    by_cases hle : |ε' l| ≤ eps * tst1
    · refine ⟨1, (st1, f1), ⟨δ', ε', V', hI, g1, g2, g3, hle⟩, fun fuel => ?_⟩
      cases fuel with
      | zero => exact Or.inr ⟨by omega, rfl⟩
      | succ fuel =>
        left
        simp only [tqlLoop]
        rw [hr1, ok_bind]
        dsimp only
        rw [hI.e.rd (i := l) (by omega), ok_bind, le_eq, Exact.abs_eq, if_pos (by simpa using hle)]
        rfl
    · have hne' : ε' l ≠ 0 := by
        intro h0; rw [h0, abs_zero] at hle; exact hle ht
      have hK' : 2 * ((4 / 5) ^ K * (ε' l ^ 2 * |ε' (l + 1)|)) ≤ (eps * tst1) ^ 3 := by
        refine le_trans ?_ hK
        have h4 : (0 : ℝ) < (4 / 5) ^ K := by positivity
        have h6 := mul_le_mul_of_nonneg_left g5 h4.le
        have h7 : (4 / 5 : ℝ) ^ (K + 1) * (ε l ^ 2 * |ε (l + 1)|) = (4 / 5) ^ K * (4 / 5 * (ε l ^ 2 * |ε (l + 1)|)) := by
          rw [pow_succ]; ring
        rw [h7]
        linarith
      obtain ⟨N, r, ⟨δ2, ε2, V2, k1, k2, k3, k4, k5⟩, hr⟩ := ih hI hne' hK'
      refine ⟨N + 1, r, ⟨δ2, ε2, V2, k1, k2, fun a ha => by rw [k3 a ha, g2 a ha], k4, k5⟩, fun fuel => ?_⟩
      cases fuel with
      | zero => exact Or.inr ⟨by omega, rfl⟩
      | succ fuel =>
        have he : tqlLoop n l m tst1 (fuel + 1) st f = tqlLoop n l m tst1 fuel st1 f1 := by
          simp only [tqlLoop]
          rw [hr1, ok_bind]
          dsimp only
          rw [hI.e.rd (i := l) (by omega), ok_bind, le_eq, Exact.abs_eq, if_neg (by simpa using hle)]
        rcases hr fuel with h | ⟨h, h'⟩
        · exact Or.inl (he.trans h)
        · exact Or.inr ⟨by omega, he.trans h'⟩

theorem findM_post {n : Nat} {e : Buf ℝ} {ε : Nat → ℝ} (he : Full e n ε) {tst1 : ℝ} (ht : 0 ≤ (eps : ℝ) * tst1) (hz : ε (n - 1) = 0) :
    ∀ k l : Nat, l + k = n → 0 < k → Post (findM e tst1 k l) fun m => l ≤ m ∧ m < n ∧ |ε m| ≤ eps * tst1 ∧
      ∀ a, l ≤ a → a < m → eps * tst1 < |ε a| := by
  intro k
  induction k with
  | zero => intro l _ h; omega
  | succ k ih =>
    intro l hl _
    simp only [findM]
    rw [he.rd (i := l) (by omega), ok_bind, le_eq, Exact.abs_eq]
    by_cases h : |ε l| ≤ eps * tst1
    · rw [if_pos (by simpa using h)]
      exact Post.ok ⟨le_rfl, by omega, h, fun a h1 h2 => by omega⟩
    · rw [if_neg (by simpa using h)]
      have hk : 0 < k := by
        rcases Nat.eq_zero_or_pos k with h0 | h0
        · exfalso; apply h
          rw [show l = n - 1 by omega, hz, abs_zero]; exact ht
        · exact h0
      refine (ih (l + 1) (by omega) hk).mono fun m ⟨h1, h2, h3, h4⟩ => ⟨by omega, h2, h3, fun a h5 h6 => ?_⟩
      by_cases e : a = l
      · rw [e]; exact not_le.1 h
      · exact h4 a (by omega) h6

/-- State before the `l`-th eigenvalue. -/
structure OneInv (n : Nat) (A : Matrix (Fin n) (Fin n) ℝ) (l : Nat) (x : Dev ℝ × ℝ × ℝ) (δ ε : Nat → ℝ) (V : Nat → Nat → ℝ) :
    Prop where
  d : Full x.1.d n δ
  e : Full x.1.e n ε
  v : FullG x.1.v n n V
  lo : ∀ a, a < l → ε a = 0
  last : ε (n - 1) = 0
  f : |x.2.1| ≤ frob A
  t0 : 0 ≤ x.2.2
  t1 : x.2.2 ≤ 3 * frob A
  ap : Ap n A V (tri (fun a => δ a + phi l x.2.1 a) ε) (l * (9 * eps * frob A))

theorem sqrt2_le : Real.sqrt 2 ≤ 3 / 2 := by
  rw [Real.sqrt_le_left (by norm_num)]; norm_num

theorem tqlOne_post {n l : Nat} {A : Matrix (Fin n) (Fin n) ℝ} {x : Dev ℝ × ℝ × ℝ} {δ ε : Nat → ℝ} {V : Nat → Nat → ℝ}
    (h : OneInv n A l x δ ε V) (hl : l < n) :
    PostE (fun fuel => tqlOne fuel n l x) fun x' => ∃ δ ε V, OneInv n A (l + 1) x' δ ε V := by
  obtain ⟨st, f, tst⟩ := x
  have hd := h.d
  have he := h.e
  have hf := h.f
  have ht0 := h.t0
  have ht1 := h.t1
  have hap := h.ap
  dsimp only at hd he hf ht0 ht1 hap
  have hF := frob_nonneg A
  set T := max tst (|δ l| + |ε l|) with hT
  have hdl : |δ l| ≤ 2 * frob A := by
    have h1 := (abs_le_frob (pk n n (tri (fun a => δ a + phi l f a) ε)) ⟨l, hl⟩ ⟨l, hl⟩).trans hap.nrm
    have h2 : pk n n (tri (fun a => δ a + phi l f a) ε) ⟨l, hl⟩ ⟨l, hl⟩ = δ l + f := by
      show tri (fun a => δ a + phi l f a) ε l l = _
      unfold tri phi; rw [if_pos rfl]; dsimp only; rw [if_neg (lt_irrefl l)]
    rw [h2] at h1
    have h3 : δ l = (δ l + f) - f := by ring
    rw [h3]
    refine (abs_sub _ _).trans ?_
    linarith
  have hel : |ε l| ≤ frob A := by
    by_cases e : l + 1 < n
    · have h1 := (abs_le_frob (pk n n (tri (fun a => δ a + phi l f a) ε)) ⟨l + 1, e⟩ ⟨l, hl⟩).trans hap.nrm
      have h2 : pk n n (tri (fun a => δ a + phi l f a) ε) ⟨l + 1, e⟩ ⟨l, hl⟩ = ε l := by
        show tri (fun a => δ a + phi l f a) ε (l + 1) l = _
        unfold tri; rw [if_neg (by omega), if_pos rfl]
      rw [h2] at h1; exact h1
    · rw [show l = n - 1 by omega, h.last, abs_zero]; exact hF
  have hT0 : 0 ≤ T := ht0.trans (le_max_left _ _)
  have hT1 : T ≤ 3 * frob A := max_le ht1 (by linarith)
  have hep := eps_pos
  have hθ : 0 ≤ (eps : ℝ) * T := mul_nonneg hep.le hT0
  have hs2 : Real.sqrt 2 * (eps * T) * 2 ≤ 9 * eps * frob A := by
    have h1 : (eps : ℝ) * T ≤ eps * (3 * frob A) := mul_le_mul_of_nonneg_left hT1 hep.le
    nlinarith [sqrt2_le, Real.sqrt_nonneg 2]
  have hs1 : Real.sqrt 2 * (eps * T) ≤ 9 * eps * frob A := by
    have : 0 ≤ Real.sqrt 2 * (eps * T) := mul_nonneg (Real.sqrt_nonneg _) hθ
    linarith
  obtain ⟨m, hrm, hm1, hm2, hm3, hm4⟩ := findM_post he hθ h.last (n - l) l (by omega) (by omega)
  -- the end of the step
  have hend : ∀ (st' : Dev ℝ) (f' : ℝ) (δ' ε' : Nat → ℝ) (V' : Nat → Nat → ℝ), Full st'.d n δ' → Full st'.e n ε' →
      FullG st'.v n n V' → (∀ a, a < l → ε' a = 0) → ε' (n - 1) = 0 → |f'| ≤ frob A →
      Ap n A V' (tri (fun a => δ' a + phi l f' a) (updv ε' l 0)) ((l + 1 : Nat) * (9 * eps * frob A)) →
      Post (do
        let d ← wr st'.d l ((← rd st'.d l) + f')
        let e ← wr st'.e l 0
        return ((⟨d, e, st'.v⟩, f', T) : Dev ℝ × ℝ × ℝ)) fun x' => ∃ δ ε V, OneInv n A (l + 1) x' δ ε V := by
    intro st' f' δ' ε' V' k1 k2 k3 k4 k5 k6 k7
    obtain ⟨d1, hd1, hg1⟩ := k1.wr (i := l) hl (δ' l + f')
    obtain ⟨e1, he1, hg2⟩ := k2.wr (i := l) hl 0
    rw [k1.rd (i := l) hl, ok_bind, hd1, ok_bind, he1, ok_bind]
    refine Post.ok ⟨_, _, V', hg1, hg2, k3, ?_, ?_, k6, hT0, hT1, ?_⟩
    · intro a ha
      by_cases e : a = l
      · rw [e, updv_same]
      · rw [updv_ne e, k4 a (by omega)]
    · by_cases e : n - 1 = l
      · rw [e, updv_same]
      · rw [updv_ne e, k5]
    · refine k7.congr fun a b _ _ => ?_
      congr 1
      funext a
      simp only [updv, phi]
      by_cases e : a = l
      · rw [if_pos e, if_neg (by omega), if_pos (by omega), e, add_zero]
      · rw [if_neg e]
        by_cases e2 : a < l
        · rw [if_pos e2, if_pos (by omega)]
        · rw [if_neg e2, if_neg (by omega)]
  have hpre : ∀ fuel, tqlOne fuel n l (st, f, tst) = ((do if l < m then tqlLoop n l m T fuel st f else return (st, f)) >>=
      fun x : Dev ℝ × ℝ => (do
        let d ← wr x.1.d l ((← rd x.1.d l) + x.2)
        let e ← wr x.1.e l 0
        return ((⟨d, e, x.1.v⟩, x.2, T) : Dev ℝ × ℝ × ℝ))) := by
    intro fuel
    unfold tqlOne
    dsimp only
    rw [hd.rd hl, ok_bind, he.rd hl, ok_bind, Exact.max_eq, Exact.abs_eq, Exact.abs_eq, ← hT, hrm, ok_bind]
  refine PostE.congr ?_ hpre
  have hcast : ((l + 1 : Nat) : ℝ) * (9 * eps * frob A) = l * (9 * eps * frob A) + 9 * eps * frob A := by push_cast; ring
  by_cases hlm : l < m
  · have hne : ε l ≠ 0 := by
      intro h0
      have := hm4 l le_rfl hlm
      rw [h0, abs_zero] at this
      linarith
    have hTp : 0 < T := lt_of_lt_of_le (abs_pos.2 hne) ((le_add_of_nonneg_left (abs_nonneg (δ l))).trans (le_max_right _ _))
    have hθp : 0 < (eps : ℝ) * T := mul_pos hep hTp
    have hQ : QlInv n l m A (l * (9 * eps * frob A) + Real.sqrt 2 * (eps * T)) st f δ ε V := by
      refine ⟨hd, he, h.v, h.lo, fun a h1 h2 => ?_, hap.deflate hm3⟩
      intro h0
      have := hm4 a (by omega) h2
      rw [h0, abs_zero] at this
      linarith
    have hK : ∃ K : Nat, 2 * ((4 / 5) ^ K * (ε l ^ 2 * |ε (l + 1)|)) ≤ ((eps : ℝ) * T) ^ 3 := by
      set M := ε l ^ 2 * |ε (l + 1)| with hM
      have hM0 : 0 ≤ M := by positivity
      obtain ⟨K, hK⟩ := exists_pow_lt_of_lt_one (show 0 < ((eps : ℝ) * T) ^ 3 / (2 * M + 1) by positivity)
        (show (4 / 5 : ℝ) < 1 by norm_num)
      refine ⟨K, ?_⟩
      rw [lt_div_iff₀ (by positivity)] at hK
      have : (0 : ℝ) < (4 / 5) ^ K := by positivity
      nlinarith
    obtain ⟨K, hK⟩ := hK
    refine PostE.bind ((tqlLoop_post hlm hm2 hθ K hQ hne hK).congr fun fuel => if_pos hlm) ?_
    rintro ⟨st1, f1⟩ ⟨δ', ε', V', k1, k2, k3, k4, k5⟩
    dsimp only at k1 k4
    refine (hend st1 f1 δ' ε' V' k1.d k1.e k1.v k1.lo ?_ k4 ?_).toE
    · by_cases e : n - 1 = m
      · rw [e, k2]
      · rw [k3 (n - 1) (by omega), h.last]
    · have h1 : Ap n A V' (tri (fun a => δ' a + phi l f1 a) ε') (l * (9 * eps * frob A) + Real.sqrt 2 * (eps * T)) := by
        refine k1.ap.congr fun a b _ _ => ?_
        congr 1
        funext a
        by_cases e : a = m
        · rw [e, updv_same, k2]
        · rw [updv_ne e]
      refine (h1.deflate k5).mono ?_
      rw [hcast]
      linarith
  · refine PostE.bind (P := fun r => r = (st, f)) ((Post.ok (P := fun r => r = (st, f)) rfl).toE.congr fun fuel => if_neg hlm) ?_
    rintro _ rfl
    refine (hend st f δ ε V hd he h.v h.lo h.last hf ?_).toE
    have hml : m = l := by omega
    rw [hml] at hm3
    refine (hap.deflate hm3).mono ?_
    rw [hcast]
    linarith

/-- Exchanging columns of `V` and diagonal entries. -/
theorem Ap.perm {n : Nat} {A : Matrix (Fin n) (Fin n) ℝ} {V X V' X' : Nat → Nat → ℝ} {E : ℝ} (h : Ap n A V X E)
    (σ : Equiv.Perm (Fin n)) (hV : ∀ i j : Fin n, V' i j = V i (σ j)) (hX : ∀ i j : Fin n, X' i j = X (σ i) (σ j)) :
    Ap n A V' X' E := by
  have e1 : pk n n V' = (pk n n V).submatrix id σ := by ext i j; exact hV i j
  have e2 : pk n n X' = (pk n n X).submatrix σ σ := by ext i j; exact hX i j
  refine ⟨?_, ?_, ?_⟩
  · unfold Orth
    have h1 := Matrix.submatrix_mul_equiv (pk n n V)ᵀ (pk n n V) σ (Equiv.refl _) σ
    rw [h.orth, Matrix.submatrix_one_equiv] at h1
    rw [e1, transpose_submatrix]
    exact h1
  · rw [e1, e2, transpose_submatrix, Matrix.submatrix_mul_equiv, Matrix.submatrix_mul_equiv, Matrix.submatrix_id_id]
    exact h.err
  · refine le_trans (le_of_eq ?_) h.nrm
    rw [e2]
    unfold frob
    congr 1
    simp only [Matrix.submatrix_apply]
    rw [Equiv.sum_comp σ (fun i => ∑ j, pk n n X i (σ j) ^ 2)]
    refine Finset.sum_congr rfl fun i _ => ?_
    exact Equiv.sum_comp σ (fun j => pk n n X i j ^ 2)

theorem swap2_post {n i k : Nat} {v : Buf ℝ} {V : Nat → Nat → ℝ} (hv : FullG v n n V) (hi : i < n) (hk : k < n) :
    Post (swap2 n i k v) fun r => FullG r n n (fun a b => V a (if b = i then k else if b = k then i else b)) := by
  unfold swap2
  refine (loopG_rows (lo := 0) (hi := n) (fun a b => V a (if b = i then k else if b = k then i else b)) hv ?_).mono
    fun r h => h.congr fun a b ha _ => by rw [if_pos ⟨by omega, ha⟩]
  intro j d' G' _ hj hG heq
  obtain ⟨v1, hr1, hg1⟩ := hG.wr (i := j) (j := i) hj hi (G' j k)
  obtain ⟨v2, hr2, hg2⟩ := hg1.wr (i := j) (j := k) hj hk (G' j i)
  rw [hG.rd (i := j) (j := i) hj hi, ok_bind, hG.rd (i := j) (j := k) hj hk, ok_bind, hr1, ok_bind, hr2]
  refine Post.ok (hg2.congr fun a b _ _ => ?_)
  have h1 := heq j i (by omega)
  have h2 := heq j k (by omega)
  have h3 := heq j b (by omega)
  clear heq
  simp only [upd]
  grind

/-- State of the sort. -/
structure SortInv (n : Nat) (A : Matrix (Fin n) (Fin n) ℝ) (E : ℝ) (i : Nat) (d v : Buf ℝ) (δ : Nat → ℝ) (V : Nat → Nat → ℝ) :
    Prop where
  d : Full d n δ
  v : FullG v n n V
  ord : ∀ a b, a < i → a < b → b < n → δ b ≤ δ a
  ap : Ap n A V (tri δ fun _ => 0) E

theorem tqlSort_post {n i : Nat} {A : Matrix (Fin n) (Fin n) ℝ} {E : ℝ} {d v : Buf ℝ} {δ : Nat → ℝ} {V : Nat → Nat → ℝ}
    (h : SortInv n A E i d v δ V) (hi : i < n) :
    Post (tqlSort n i d v) fun r => ∃ δ V, SortInv n A E (i + 1) r.1 r.2 δ V := by
  unfold tqlSort
  rw [h.d.rd (i := i) hi, ok_bind]
  have hl := loop_post (lo := i + 1) (hi := n) (s := (i, δ i)) (f := fun j (x : Nat × ℝ) => (do
      let (k, p) := x
      if FloatOps.lt p (← rd d j) then return (j, ← rd d j) else return (k, p) : R (Nat × ℝ)))
    (fun c x => i ≤ x.1 ∧ x.1 < n ∧ x.2 = δ x.1 ∧ ∀ a, i ≤ a → a < c → δ a ≤ x.2) (by omega)
    ⟨le_rfl, hi, rfl, fun a h1 h2 => by rw [show a = i by omega]⟩ (by
    rintro j ⟨k, p⟩ hj1 hj2 ⟨h1, h2, h3, h4⟩
    dsimp only at h1 h2 h3 h4 ⊢
    rw [h.d.rd (i := j) hj2, ok_bind, lt_eq]
    by_cases hc : p < δ j
    · rw [if_pos (by simpa using hc), ok_bind]
      refine Post.ok ⟨by show i ≤ j; omega, hj2, rfl, fun a h5 h6 => ?_⟩
      show δ a ≤ δ j
      by_cases e : a = j
      · rw [e]
      · exact (h4 a h5 (by omega)).trans hc.le
    · rw [if_neg (by simpa using hc)]
      refine Post.ok ⟨h1, h2, h3, fun a h5 h6 => ?_⟩
      show δ a ≤ p
      by_cases e : a = j
      · rw [e]; exact not_lt.1 hc
      · exact h4 a h5 (by omega))
  obtain ⟨⟨k, p⟩, hr, h1, h2, h3, h4⟩ := hl
  dsimp only at h1 h2 h3 h4
  erw [hr]
  rw [ok_bind]
  dsimp only
  by_cases hk : k = i
  · rw [if_neg (by simpa using hk)]
    refine Post.ok ⟨δ, V, h.d, h.v, fun a b ha hab hb => ?_, h.ap⟩
    by_cases e : a = i
    · rw [e]
      rw [hk] at h3
      rw [← h3]
      exact h4 b (by omega) hb
    · exact h.ord a b (by omega) hab hb
  · rw [if_pos (by simpa using hk)]
    obtain ⟨d1, hd1, hf1⟩ := h.d.wr (i := k) h2 (δ i)
    obtain ⟨d2, hd2, hf2⟩ := hf1.wr (i := i) hi p
    obtain ⟨v1, hv1, hg1⟩ := swap2_post (i := i) (k := k) h.v hi h2
    rw [ok_bind, hd1, ok_bind, hd2, ok_bind, hv1, ok_bind]
    have hval : ∀ a, updv (updv δ k (δ i)) i p a = δ (if a = i then k else if a = k then i else a) := by
      intro a
      simp only [updv]
      by_cases e : a = i
      · rw [if_pos e, if_pos e, h3]
      · rw [if_neg e, if_neg e]
        by_cases e2 : a = k
        · rw [if_pos e2, if_pos e2]
        · rw [if_neg e2, if_neg e2]
    refine Post.ok ⟨_, _, hf2, hg1, fun a b ha hab hb => ?_, ?_⟩
    · rw [hval, hval]
      by_cases e : a = i
      · rw [if_pos e, ← h3, if_neg (show ¬ b = i by omega)]
        split
        · exact h4 i le_rfl hi
        · exact h4 b (by omega) hb
      · rw [if_neg e, if_neg (show ¬ a = k by omega)]
        split
        · exact h.ord a k (by omega) (by omega) h2
        · split
          · exact h.ord a i (by omega) (by omega) hi
          · exact h.ord a b (by omega) hab hb
    · have hsw : ∀ j : Fin n, ((Equiv.swap (⟨i, hi⟩ : Fin n) ⟨k, h2⟩ j : Fin n) : Nat) =
          if j.1 = i then k else if j.1 = k then i else j.1 := by
        intro j
        rw [Equiv.swap_apply_def]
        simp only [Fin.ext_iff]
        split
        · rfl
        · split <;> rfl
      refine h.ap.perm (Equiv.swap ⟨i, hi⟩ ⟨k, h2⟩) (fun a b => ?_) (fun a b => ?_)
      · rw [hsw]
      · show tri (updv (updv δ k (δ i)) i p) (fun _ => 0) a b = tri δ (fun _ => 0) _ _
        have : ((Equiv.swap (⟨i, hi⟩ : Fin n) ⟨k, h2⟩ a : Fin n) : Nat) = ((Equiv.swap (⟨i, hi⟩ : Fin n) ⟨k, h2⟩ b : Fin n) : Nat) ↔ a.1 = b.1 := by
          rw [← Fin.ext_iff, ← Fin.ext_iff]; exact (Equiv.swap _ _).injective.eq_iff
        simp only [tri, this, ite_self]
        rw [hval, hsw]

end Eigen
end LA
