import Verif.Proofs.SVDMain

/-! # The main loop of `SVD::new`: convergence case, searches, invariant -/

set_option linter.unusedSectionVars false

namespace LA
open Finset Matrix

/-- Column `k` negated. -/
def flipc (F : Nat → Nat → ℝ) (k : Nat) : Nat → Nat → ℝ := fun i j => if j = k then -F i j else F i j
/-- Row `k` negated. -/
def flipr (F : Nat → Nat → ℝ) (k : Nat) : Nat → Nat → ℝ := fun i j => if i = k then -F i j else F i j

namespace SVD

/-- The diagonal matrix that negates coordinate `k`. -/
def flipD (n k : Nat) : Matrix (Fin n) (Fin n) ℝ := Matrix.diagonal fun i => if i.1 = k then -1 else 1

theorem flipD_orth {n k : Nat} : Orth (flipD n k) := by
  unfold Orth flipD
  rw [diagonal_transpose, diagonal_mul_diagonal, ← diagonal_one]
  congr 1
  funext i
  split <;> norm_num

theorem pk_flipc {m n k : Nat} (F : Nat → Nat → ℝ) : pk m n (flipc F k) = pk m n F * flipD n k := by
  ext i j
  rw [flipD, mul_diagonal]
  simp only [pk, LU.packed, of_apply, flipc]
  split <;> simp

theorem pk_flipr {m n k : Nat} (F : Nat → Nat → ℝ) : pk m n (flipr F k) = (flipD m k)ᵀ * pk m n F := by
  have : pk m n (flipr F k) = (pk n m (flipc (fun i j => F j i) k))ᵀ := rfl
  rw [this, pk_flipc, transpose_mul]; rfl

theorem Fac.flipV {m n : Nat} {X : Matrix (Fin m) (Fin n) ℝ} {U V M : Nat → Nat → ℝ} (h : Fac m n X U V M) (k : Nat) :
    Fac m n X U (flipc V k) (flipc M k) := by
  refine ⟨h.u, ?_, ?_⟩
  · rw [pk_flipc]; exact h.v.mul flipD_orth
  · rw [pk_flipc, pk_flipc, transpose_mul, h.eq, Matrix.mul_assoc, Matrix.mul_assoc, Matrix.mul_assoc (pk m n M),
      ← Matrix.mul_assoc (flipD n k), (flipD_orth (n := n) (k := k)).right, Matrix.one_mul]

theorem Fac.flipU {m n : Nat} {X : Matrix (Fin m) (Fin n) ℝ} {U V M : Nat → Nat → ℝ} (h : Fac m n X U V M) (k : Nat) :
    Fac m n X (flipc U k) V (flipr M k) := by
  refine ⟨?_, h.v, ?_⟩
  · rw [pk_flipc]; exact h.u.mul flipD_orth
  · rw [pk_flipc, pk_flipr, h.eq]
    congr 1
    rw [Matrix.mul_assoc, ← Matrix.mul_assoc (flipD m k), (flipD_orth (n := m) (k := k)).right, Matrix.one_mul]

/-- Columns `k`, `k+1` exchanged. -/
def swapc (F : Nat → Nat → ℝ) (k : Nat) : Nat → Nat → ℝ := fun i j =>
  if j = k then F i (k + 1) else if j = k + 1 then F i k else F i j

theorem Fac.congrU {m n : Nat} {X : Matrix (Fin m) (Fin n) ℝ} {U U' V V' M : Nat → Nat → ℝ} (h : Fac m n X U V M)
    (hU : ∀ i j, U i j = U' i j) (hV : ∀ i j, V i j = V' i j) : Fac m n X U' V' M := by
  rw [show U' = U from funext fun i => funext fun j => (hU i j).symm,
    show V' = V from funext fun i => funext fun j => (hV i j).symm]
  exact h

theorem Fac.swap {m n k : Nat} {X : Matrix (Fin m) (Fin n) ℝ} {U V : Nat → Nat → ℝ} {s e : Nat → ℝ}
    (h : Fac m n X U V (bid s e)) (hk : k + 1 < n) (hnm : n ≤ m) (h0 : e k = 0) (h1 : e (k + 1) = 0)
    (h2 : ∀ i, i + 1 = k → e i = 0) :
    Fac m n X (swapc U k) (swapc V k) (bid (fun i => if i = k then s (k + 1) else if i = k + 1 then s k else s i) e) := by
  have hR := (((h.rotV (a := k) (b := k + 1) (by omega) (by omega) (by omega) (cs := 0) (sn := 1) (by norm_num)).flipV
    (k + 1)).rotU (a := k) (b := k + 1) (by omega) (by omega) (by omega) (cs := 0) (sn := 1) (by norm_num)).flipU (k + 1)
  refine (hR.congr fun i c _ _ => ?_).congrU (fun i j => ?_) (fun i j => ?_)
  · clear hR h
    have h3 := h2 i
    clear h2
    simp only [flipr, rotr, flipc, rotc, bid]
    rcases lt_trichotomy i k with hi | hi | hi
    · grind
    · subst hi; grind
    · by_cases hi2 : i = k + 1
      · subst hi2; grind
      · grind
  · simp only [flipc, rotc, swapc]; grind
  · simp only [flipc, rotc, swapc]; grind

theorem fixSign_post {m n q : Nat} {st : Main ℝ} {s e : Nat → ℝ} {U V : Nat → Nat → ℝ} {X : Matrix (Fin m) (Fin n) ℝ}
    (hv : View m n st s e U V) (hF : Fac m n X U V (bid s e)) (hq : q < n) (h0 : ∀ i, i + 1 = q → e i = 0) :
    ∃ st', fixSign n (n - 1) q st = .ok st' ∧ ∃ s' V', View m n st' s' e U V' ∧ Fac m n X U V' (bid s' e) ∧
      s' q = |s q| ∧ ∀ i, i ≠ q → s' i = s i := by
  unfold fixSign
  rw [hv.s.rd hq, ok_bind, le_eq]
  by_cases h : s q ≤ 0
  · rw [if_pos (by simpa using h), lt_eq]
    have hval : (if decide (s q < 0) = true then -s q else 0) = |s q| := by
      rcases h.lt_or_eq with h1 | h1
      · rw [if_pos (by simpa using h1), abs_of_neg h1]
      · rw [h1]; simp
    rw [hval]
    obtain ⟨s1, hs1, hvs1⟩ := hv.s.wr hq |s q|
    have hl := loop_rows (lo := 0) (hi := n) (f := fun i v => do wr v (i * n + q) (-(← rd v (i * n + q))))
      (fun i c => some (flipc V q i c)) hv.v (by
      intro i d' G' _ hi hG' hsame
      have e1 : G' i q = some (V i q) := hsame i q (by omega)
      rw [hG'.rd hi hq e1, ok_bind]
      refine (hG'.wr hi hq _).mono fun d2 h2 => h2.congr fun r c _ _ => ?_
      have e2 : c < n → G' i c = some (V i c) := fun _ => hsame i c (by omega)
      simp only [upd, flipc]
      grind)
    obtain ⟨v1, hv1, hvv1⟩ := hl
    rw [hs1, ok_bind, show n - 1 + 1 = n by omega, hv1]
    refine ⟨_, rfl, updv s q |s q|, flipc V q, ⟨hvs1, hv.e, hv.u, ?_⟩, ?_, updv_same _ _ _, fun i hi => updv_ne hi⟩
    · exact Grid.congr hvv1 fun r c hr _ => by rw [if_pos ⟨by omega, hr⟩]
    · refine (hF.flipV q).congr fun i c _ _ => ?_
      have := h0 i
      rw [abs_of_nonpos h]
      simp only [flipc, bid, updv]
      grind
  · rw [if_neg (by simpa using h)]
    exact ⟨_, rfl, s, V, hv, hF, by rw [abs_of_pos (not_le.1 h)], fun _ _ => rfl⟩

theorem order_post {m n q : Nat} {st : Main ℝ} {s e : Nat → ℝ} {U V : Nat → Nat → ℝ} {X : Matrix (Fin m) (Fin n) ℝ}
    (hv : View m n st s e U V) (hF : Fac m n X U V (bid s e)) (hq : q < n) (hnm : n ≤ m) (h0 : ∀ i, q ≤ i + 1 → e i = 0)
    (hsort : ∀ i j, q < i → i ≤ j → j < n → s j ≤ s i) (hpos : ∀ i, q ≤ i → i < n → 0 ≤ s i) :
    ∃ st', order m n (n - 1) q st = .ok st' ∧ ∃ s' U' V', View m n st' s' e U' V' ∧ Fac m n X U' V' (bid s' e) ∧
      (∀ i j, q ≤ i → i ≤ j → j < n → s' j ≤ s' i) ∧ (∀ i, q ≤ i → i < n → 0 ≤ s' i) := by
  unfold order
  let I : Nat → Main ℝ → Prop := fun c st => ∃ s' U' V', View m n st s' e U' V' ∧ Fac m n X U' V' (bid s' e) ∧
      (∀ i j, q ≤ i → i ≤ j → j < n → i ≠ c → s' j ≤ s' i) ∧ (∀ i, q ≤ i → i < n → 0 ≤ s' i)
  have hl := loopF_post (lo := q) (hi := n - 1) (s := st) (ρ := Main ℝ) (f := fun k st => (do
    let x ← rd st.s k
    let y ← rd st.s (k + 1)
    if FloatOps.le y x then return Flow.ret st
    else
      let s ← wr st.s k y
      let s ← wr s (k + 1) x
      let v ← (do if k + 1 < n then swapCols n k st.v else return st.v)
      let u ← (do if k + 1 < m then swapCols m k st.u else return st.u)
      return Flow.next ⟨s, st.e, u, v⟩ : R (Flow (Main ℝ) (Main ℝ)))) I (fun st => I (n - 1) st) (by omega)
    ⟨s, U, V, hv, hF, fun i j h1 h2 h3 h4 => hsort i j (by omega) h2 h3, hpos⟩ (by
    rintro c st1 hc1 hc2 ⟨s1, U1, V1, r1, r2, r3, r4⟩
    rw [r1.s.rd (i := c) (by omega), r1.s.rd (i := c + 1) (by omega)]
    simp only [ok_bind, le_eq, decide_eq_true_eq]
    by_cases hle : s1 (c + 1) ≤ s1 c
    · rw [if_pos hle]
      refine Post.ok ⟨s1, U1, V1, r1, r2, ?_, r4⟩
      intro i j h1 h2 h3 h4
      by_cases hic : i = c
      · subst hic
        rcases h2.lt_or_eq with h5 | h5
        · exact (r3 (i + 1) j (by omega) (by omega) h3 (by omega)).trans hle
        · rw [h5]
      · exact r3 i j h1 h2 h3 hic
    · rw [if_neg hle]
      obtain ⟨x1, hx1, hvx1⟩ := r1.s.wr (i := c) (by omega) (s1 (c + 1))
      obtain ⟨x2, hx2, hvx2⟩ := hvx1.wr (i := c + 1) (by omega) (s1 c)
      obtain ⟨v1, hv1, hvv1⟩ := swapCols_ok r1.v (k := c) (by omega)
      obtain ⟨u1, hu1, hvu1⟩ := swapCols_ok r1.u (k := c) (by omega)
      rw [hx1, ok_bind, hx2, ok_bind, if_pos (show c + 1 < n by omega), hv1, ok_bind, if_pos (show c + 1 < m by omega),
        hu1, ok_bind]
      refine Post.ok ⟨fun i => if i = c then s1 (c + 1) else if i = c + 1 then s1 c else s1 i, swapc U1 c, swapc V1 c,
        ⟨?_, r1.e, hvu1, hvv1⟩, ?_, ?_, ?_⟩
      · refine hvx2.congr fun i _ => ?_
        simp only [updv]; grind
      · exact r2.swap (by omega) hnm (h0 _ (by omega)) (h0 _ (by omega)) (fun i hi => h0 i (by omega))
      · intro i j h1 h2 h3 h4
        have hlt := (not_le.1 hle).le
        dsimp only
        by_cases hic : i = c
        · subst hic
          rw [if_pos rfl]
          by_cases hjc : j = i
          · subst hjc; rw [if_pos rfl]
          · rw [if_neg hjc]
            by_cases hjc1 : j = i + 1
            · rw [if_pos hjc1]; exact hlt
            · rw [if_neg hjc1]; exact r3 (i + 1) j (by omega) (by omega) h3 (by omega)
        · rw [if_neg hic, if_neg h4]
          split
          · exact r3 i (c + 1) h1 (by omega) (by omega) hic
          · split
            · exact r3 i c h1 (by omega) (by omega) hic
            · exact r3 i j h1 h2 h3 hic
      · intro i h1 h2
        dsimp only
        split
        · exact r4 _ (by omega) (by omega)
        · split
          · exact r4 _ (by omega) (by omega)
          · exact r4 _ h1 h2)
  have hfin : ∀ st', I (n - 1) st' → ∃ s' U' V', View m n st' s' e U' V' ∧ Fac m n X U' V' (bid s' e) ∧
      (∀ i j, q ≤ i → i ≤ j → j < n → s' j ≤ s' i) ∧ (∀ i, q ≤ i → i < n → 0 ≤ s' i) := by
    rintro st' ⟨s', U', V', r1, r2, r3, r4⟩
    refine ⟨s', U', V', r1, r2, ?_, r4⟩
    intro i j h1 h2 h3
    by_cases hi : i = n - 1
    · rw [show j = i by omega]
    · exact r3 i j h1 h2 h3 hi
  obtain ⟨o, ho, hI⟩ := hl
  rw [ho, ok_bind]
  match o, hI with
  | .next st', hI => exact ⟨st', rfl, hfin st' hI⟩
  | .ret st', hI => exact ⟨st', rfl, hfin st' hI⟩

theorem eps_val : (eps : ℝ) = 1 / 2 ^ 52 := by unfold eps; rw [Exact.cst_eq]; norm_num
theorem tiny_val : (tiny : ℝ) = 1 / 2 ^ 966 := by
  unfold tiny; rw [Exact.cst_eq]; push_cast; rfl
theorem eps_pos : (0 : ℝ) < eps := by rw [eps_val]; positivity
theorem tiny_pos : (0 : ℝ) < tiny := by rw [tiny_val]; positivity

/-- The search for a negligible superdiagonal entry. -/
theorem findE_ok {n : Nat} {sb : Buf ℝ} {s : Nat → ℝ} (hs : Full sb n s) {e : Nat → ℝ} {eb : Buf ℝ}
    (he : Full eb n e) : ∀ c, c < n → ∃ k1 eb', findE sb c eb = .ok (k1, eb') ∧ k1 ≤ c ∧
      (∀ j, k1 ≤ j → j < c → e j ≠ 0 ∧ tiny + eps * (|s j| + |s (j + 1)|) < |e j|) ∧
      ((k1 = 0 ∧ eb' = eb) ∨ ∃ k, k1 = k + 1 ∧ Full eb' n (updv e k 0) ∧ |e k| ≤ tiny + eps * (|s k| + |s (k + 1)|)) := by
  intro c
  induction c with
  | zero => intro _; exact ⟨0, eb, rfl, le_rfl, fun j h1 h2 => by omega, Or.inl ⟨rfl, rfl⟩⟩
  | succ c ih =>
    intro hc
    unfold findE
    rw [he.rd (i := c) (by omega), hs.rd (i := c) (by omega), hs.rd (i := c + 1) (by omega)]
    simp only [ok_bind, le_eq, decide_eq_true_eq, Exact.abs_eq]
    by_cases h : |e c| ≤ tiny + eps * (|s c| + |s (c + 1)|)
    · rw [if_pos h]
      obtain ⟨e1, he1, hve1⟩ := he.wr (i := c) (by omega) 0
      rw [he1]
      exact ⟨c + 1, e1, rfl, le_rfl, fun j h1 h2 => by omega, Or.inr ⟨c, rfl, hve1, h⟩⟩
    · rw [if_neg h]
      obtain ⟨k1, eb', h1, h2, h3, h4⟩ := ih (by omega)
      refine ⟨k1, eb', h1, by omega, ?_, h4⟩
      intro j hj1 hj2
      by_cases hjc : j = c
      · subst hjc
        have h5 := not_le.1 h
        refine ⟨?_, h5⟩
        intro h0
        rw [h0, abs_zero] at h5
        have := eps_pos
        have := tiny_pos
        have : 0 ≤ eps * (|s j| + |s (j + 1)|) := by positivity
        linarith
      · exact h3 j hj1 (by omega)

/-- The search for a negligible diagonal entry. -/
theorem findS_ok {n p k1 : Nat} {eb : Buf ℝ} {e : Nat → ℝ} (he : Full eb n e) {s : Nat → ℝ} {sb : Buf ℝ}
    (hs : Full sb n s) (hp : p ≤ n) : ∀ c, k1 + c ≤ p → ∃ o sb', findS p k1 eb c sb = .ok (o, sb') ∧
      ((o = none ∧ sb' = sb ∧ ∀ j, k1 ≤ j → j < k1 + c → tiny < |s j|) ∨
        ∃ ks, o = some ks ∧ k1 ≤ ks ∧ ks < k1 + c ∧ Full sb' n (updv s ks 0) ∧
          |s ks| ≤ tiny + eps * (|e ks| + if ks ≠ k1 then |e (ks - 1)| else 0)) := by
  intro c
  induction c with
  | zero => intro _; exact ⟨none, sb, rfl, Or.inl ⟨rfl, rfl, fun j h1 h2 => by omega⟩⟩
  | succ c ih =>
    intro hc
    unfold findS
    have ht2 : (do if (k1 + c != k1) = true then return FloatOps.abs (← rd eb (← usub (k1 + c) 1)) else return 0 : R ℝ) =
        .ok (if k1 + c ≠ k1 then |e (k1 + c - 1)| else 0) := by
      by_cases h : k1 + c = k1
      · rw [if_neg (by simpa using h), if_neg (by simpa using h)]; rfl
      · rw [if_pos (by simpa using h), if_pos h, usub_ok (by omega), ok_bind, he.rd (by omega), ok_bind, Exact.abs_eq]; rfl
    have ht1 : (do if (k1 + c != p) = true then return FloatOps.abs (← rd eb (k1 + c)) else return 0 : R ℝ) =
        .ok |e (k1 + c)| := by
      rw [if_pos (by simp; omega), he.rd (by omega), ok_bind, Exact.abs_eq]; rfl
    dsimp only at ht1 ht2 ⊢
    rw [ht1, ok_bind, ht2, ok_bind, hs.rd (i := k1 + c) (by omega)]
    simp only [ok_bind, le_eq, decide_eq_true_eq, Exact.abs_eq]
    set b : ℝ := |e (k1 + c)| + if k1 + c ≠ k1 then |e (k1 + c - 1)| else 0 with hb
    have hb0 : 0 ≤ b := by
      rw [hb]; split <;> positivity
    by_cases h : |s (k1 + c)| ≤ tiny + eps * b
    · rw [if_pos h]
      obtain ⟨s1, hs1, hvs1⟩ := hs.wr (i := k1 + c) (by omega) 0
      rw [hs1]
      exact ⟨_, s1, rfl, Or.inr ⟨k1 + c, rfl, by omega, by omega, hvs1, h⟩⟩
    · rw [if_neg h]
      obtain ⟨o, sb', h1, h2⟩ := ih (by omega)
      refine ⟨o, sb', h1, ?_⟩
      rcases h2 with ⟨r1, r2, r3⟩ | ⟨ks, r1, r2, r3, r4⟩
      · refine Or.inl ⟨r1, r2, ?_⟩
        intro j hj1 hj2
        by_cases hjc : j = k1 + c
        · subst hjc
          have h5 := not_le.1 h
          have := eps_pos
          have : 0 ≤ eps * b := by positivity
          linarith
        · exact r3 j hj1 (by omega)
      · exact Or.inr ⟨ks, r1, r2, by omega, r4⟩

end SVD
end LA
