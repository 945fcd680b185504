import Verif.Model.SVD
import Verif.Proofs.Orth
import Verif.Proofs.Vec
import Verif.Proofs.SVDChase
import Verif.Props.Norm

/-! # The main loop of `SVD::new`: rotations preserve the factorisation -/

set_option linter.unusedSectionVars false

namespace LA
open Finset Matrix

/-- A fully initialised vector. -/
def Full (d : Buf ℝ) (n : Nat) (f : Nat → ℝ) : Prop := Vect d n (fun i => some (f i))

/-- A fully initialised table. -/
def FullG (d : Buf ℝ) (m n : Nat) (F : Nat → Nat → ℝ) : Prop := Grid d m n (fun i j => some (F i j))

theorem Full.rd {d : Buf ℝ} {n : Nat} {f : Nat → ℝ} (h : Full d n f) {i : Nat} (hi : i < n) : rd d i = .ok (f i) :=
  Vect.rd h hi rfl

theorem Full.wr {d : Buf ℝ} {n : Nat} {f : Nat → ℝ} (h : Full d n f) {i : Nat} (hi : i < n) (x : ℝ) :
    ∃ d', LA.wr d i x = .ok d' ∧ Full d' n (updv f i x) := by
  obtain ⟨d', h1, h2⟩ := Vect.wr h hi x
  exact ⟨d', h1, h2.congr fun j _ => by by_cases e : j = i <;> simp [updv, e]⟩

theorem Full.congr {d : Buf ℝ} {n : Nat} {f g : Nat → ℝ} (h : Full d n f) (hfg : ∀ i, i < n → f i = g i) : Full d n g :=
  Vect.congr h fun i hi => by rw [hfg i hi]

theorem FullG.rd {d : Buf ℝ} {m n : Nat} {F : Nat → Nat → ℝ} (h : FullG d m n F) {i j : Nat} (hi : i < m) (hj : j < n) :
    rd d (i * n + j) = .ok (F i j) := Grid.rd h hi hj rfl

theorem FullG.wr {d : Buf ℝ} {m n : Nat} {F : Nat → Nat → ℝ} (h : FullG d m n F) {i j : Nat} (hi : i < m) (hj : j < n)
    (x : ℝ) : ∃ d', LA.wr d (i * n + j) x = .ok d' ∧ FullG d' m n (upd F i j x) := by
  obtain ⟨d', h1, h2⟩ := Grid.wr h hi hj x
  exact ⟨d', h1, h2.congr fun a b _ _ => by by_cases e : a = i ∧ b = j <;> simp [upd, e]⟩

theorem FullG.congr {d : Buf ℝ} {m n : Nat} {F G : Nat → Nat → ℝ} (h : FullG d m n F)
    (hFG : ∀ i j, i < m → j < n → F i j = G i j) : FullG d m n G :=
  Grid.congr h fun i j hi hj => by rw [hFG i j hi hj]

/-- Columns `a`, `b` rotated. -/
def rotc (F : Nat → Nat → ℝ) (a b : Nat) (cs sn : ℝ) : Nat → Nat → ℝ := fun i j =>
  if j = a then cs * F i a + sn * F i b else if j = b then -sn * F i a + cs * F i b else F i j

/-- Rows `a`, `b` rotated. -/
def rotr (F : Nat → Nat → ℝ) (a b : Nat) (cs sn : ℝ) : Nat → Nat → ℝ := fun i j =>
  if i = a then cs * F a j + sn * F b j else if i = b then -sn * F a j + cs * F b j else F i j

namespace SVD

theorem rotCols_ok {N a b : Nat} {d : Buf ℝ} {F : Nat → Nat → ℝ} (h : FullG d N N F) (ha : a < N) (hb : b < N)
    (hab : a ≠ b) (cs sn : ℝ) : ∃ d', rotCols N a b cs sn d = .ok d' ∧ FullG d' N N (rotc F a b cs sn) := by
  have := loop_rows (lo := 0) (hi := N) (f := fun i d => do
      let t := cs * (← rd d (i * N + a)) + sn * (← rd d (i * N + b))
      let d ← wr d (i * N + b) (-sn * (← rd d (i * N + a)) + cs * (← rd d (i * N + b)))
      wr d (i * N + a) t) (fun i c => some (rotc F a b cs sn i c)) h (by
    intro i d' G' _ hi hG' hsame
    have e1 : G' i a = some (F i a) := hsame i a (by omega)
    have e2 : G' i b = some (F i b) := hsame i b (by omega)
    rw [hG'.rd hi ha e1, hG'.rd hi hb e2]
    simp only [ok_bind]
    refine (hG'.wr hi hb _).bind fun d1 h1 => ?_
    refine (h1.wr hi ha _).mono fun d2 h2 => h2.congr fun r c _ _ => ?_
    simp only [upd, rotc]
    grind)
  obtain ⟨d', h1, h2⟩ := this
  exact ⟨d', h1, h2.congr fun r c hr _ => by rw [if_pos ⟨by omega, hr⟩]⟩

theorem swapCols_ok {N k : Nat} {d : Buf ℝ} {F : Nat → Nat → ℝ} (h : FullG d N N F) (hk : k + 1 < N) :
    ∃ d', swapCols N k d = .ok d' ∧
      FullG d' N N (fun i j => if j = k then F i (k + 1) else if j = k + 1 then F i k else F i j) := by
  have := loop_rows (lo := 0) (hi := N) (f := fun i d => do
      let t ← rd d (i * N + (k + 1))
      let d ← wr d (i * N + (k + 1)) (← rd d (i * N + k))
      wr d (i * N + k) t) (fun i c => some (if c = k then F i (k + 1) else if c = k + 1 then F i k else F i c)) h (by
    intro i d' G' _ hi hG' hsame
    have e1 : G' i k = some (F i k) := hsame i k (by omega)
    have e2 : G' i (k + 1) = some (F i (k + 1)) := hsame i (k + 1) (by omega)
    rw [hG'.rd hi hk e2]
    simp only [ok_bind]
    rw [hG'.rd hi (by omega) e1]
    simp only [ok_bind]
    refine (hG'.wr hi hk _).bind fun d1 h1 => ?_
    refine (h1.wr hi (by omega) _).mono fun d2 h2 => h2.congr fun r c _ _ => ?_
    simp only [upd]
    grind)
  obtain ⟨d', h1, h2⟩ := this
  exact ⟨d', h1, h2.congr fun r c hr _ => by rw [if_pos ⟨by omega, hr⟩]⟩

/-- The table as a matrix. -/
abbrev pk (m n : Nat) (F : Nat → Nat → ℝ) : Matrix (Fin m) (Fin n) ℝ := LU.packed m n F

theorem pk_congr {m n : Nat} {F G : Nat → Nat → ℝ} (h : ∀ i j, i < m → j < n → F i j = G i j) : pk m n F = pk m n G := by
  ext i j; exact h i j i.2 j.2

/-- `X = U M V'` with orthogonal `U`, `V`. -/
structure Fac (m n : Nat) (X : Matrix (Fin m) (Fin n) ℝ) (U V M : Nat → Nat → ℝ) : Prop where
  u : Orth (pk m m U)
  v : Orth (pk n n V)
  eq : X = pk m m U * pk m n M * (pk n n V)ᵀ

theorem Fac.congr {m n : Nat} {X : Matrix (Fin m) (Fin n) ℝ} {U V M M' : Nat → Nat → ℝ} (h : Fac m n X U V M)
    (hM : ∀ i j, i < m → j < n → M i j = M' i j) : Fac m n X U V M' :=
  ⟨h.u, h.v, by rw [← pk_congr hM]; exact h.eq⟩

theorem pk_rotc {m n a b : Nat} (F : Nat → Nat → ℝ) (ha : a < n) (hb : b < n) (hab : a ≠ b) (cs sn : ℝ) :
    pk m n (rotc F a b cs sn) = pk m n F * giv n a b cs sn := by
  ext i j
  rw [mul_giv_apply ha hb hab]
  rfl

theorem pk_rotr {m n a b : Nat} (F : Nat → Nat → ℝ) (ha : a < m) (hb : b < m) (hab : a ≠ b) (cs sn : ℝ) :
    pk m n (rotr F a b cs sn) = (giv m a b cs sn)ᵀ * pk m n F := by
  have : pk m n (rotr F a b cs sn) = (pk n m (rotc (fun i j => F j i) a b cs sn))ᵀ := rfl
  rw [this, pk_rotc _ ha hb hab, transpose_mul]
  rfl

theorem Fac.rotV {m n a b : Nat} {X : Matrix (Fin m) (Fin n) ℝ} {U V M : Nat → Nat → ℝ} (h : Fac m n X U V M)
    (ha : a < n) (hb : b < n) (hab : a ≠ b) {cs sn : ℝ} (hc : cs ^ 2 + sn ^ 2 = 1) :
    Fac m n X U (rotc V a b cs sn) (rotc M a b cs sn) := by
  have hg := giv_orth ha hb hab hc
  refine ⟨h.u, ?_, ?_⟩
  · rw [pk_rotc V ha hb hab]; exact h.v.mul hg
  · rw [pk_rotc V ha hb hab, pk_rotc M ha hb hab, transpose_mul, h.eq]
    rw [Matrix.mul_assoc, Matrix.mul_assoc, Matrix.mul_assoc (pk m n M), ← Matrix.mul_assoc (giv n a b cs sn), hg.right,
      Matrix.one_mul]

theorem Fac.rotU {m n a b : Nat} {X : Matrix (Fin m) (Fin n) ℝ} {U V M : Nat → Nat → ℝ} (h : Fac m n X U V M)
    (ha : a < m) (hb : b < m) (hab : a ≠ b) {cs sn : ℝ} (hc : cs ^ 2 + sn ^ 2 = 1) :
    Fac m n X (rotc U a b cs sn) V (rotr M a b cs sn) := by
  have hg := giv_orth ha hb hab hc
  refine ⟨?_, h.v, ?_⟩
  · rw [pk_rotc U ha hb hab]; exact h.u.mul hg
  · rw [pk_rotc U ha hb hab, pk_rotr M ha hb hab, h.eq]
    congr 1
    rw [Matrix.mul_assoc, ← Matrix.mul_assoc (giv m a b cs sn), hg.right, Matrix.one_mul]

/-- The upper bidiagonal table with diagonal `s` and superdiagonal `e`. -/
def bid (s e : Nat → ℝ) : Nat → Nat → ℝ := fun i j => if j = i then s i else if j = i + 1 then e i else 0

/-- What the buffers of the main loop contain. -/
structure View (m n : Nat) (st : Main ℝ) (s e : Nat → ℝ) (U V : Nat → Nat → ℝ) : Prop where
  s : Full st.s n s
  e : Full st.e n e
  u : FullG st.u m m U
  v : FullG st.v n n V

/-- The normalised pair. -/
theorem rot_facts {a b : ℝ} (h : b ≠ 0) : ∃ t, hypot a b = .ok t ∧ t ≠ 0 ∧ RDiv.rdiv a t = .ok (a / t) ∧
    RDiv.rdiv b t = .ok (b / t) ∧ (a / t) ^ 2 + (b / t) ^ 2 = 1 ∧ a / t * a + b / t * b = t ∧
    b / t ≠ 0 ∧ -(b / t) * a + a / t * b = 0 ∧ 0 < t := by
  have hp : 0 < a ^ 2 + b ^ 2 := by positivity
  have ht : 0 < Real.sqrt (a ^ 2 + b ^ 2) := Real.sqrt_pos.2 hp
  have hs : Real.sqrt (a ^ 2 + b ^ 2) ^ 2 = a ^ 2 + b ^ 2 := Real.sq_sqrt hp.le
  refine ⟨_, Props.C51_hypot a b, ht.ne', rdiv_ok ht.ne', rdiv_ok ht.ne', ?_, ?_, div_ne_zero h ht.ne', ?_, ht⟩
  · rw [div_pow, div_pow, hs, ← add_div, div_self hp.ne']
  · field_simp
    rw [hs]
  · field_simp
    ring

theorem kase1_post {m n p k : Nat} {st : Main ℝ} {s e : Nat → ℝ} {U V : Nat → Nat → ℝ} {X : Matrix (Fin m) (Fin n) ℝ}
    (hv : View m n st s e U V) (hF : Fac m n X U V (bid s e)) (hkp : k + 2 ≤ p) (hp : p ≤ n)
    (hs : s (p - 1) = 0) (hnz : ∀ j, k ≤ j → j + 1 < p → e j ≠ 0) (hk : ∀ j, j + 1 = k → e j = 0) :
    ∃ st', kase1 n p k st = .ok st' ∧ ∃ s' e' V', View m n st' s' e' U V' ∧ Fac m n X U V' (bid s' e') ∧
      e' (p - 2) = 0 ∧ (∀ j, e j = 0 → e' j = 0) ∧ (∀ j, p ≤ j → s' j = s j) := by
  have h2 : usub p 2 = .ok (p - 2) := usub_ok (by omega)
  have h1 : usub p 1 = .ok (p - 1) := usub_ok (by omega)
  unfold kase1
  obtain ⟨e0, he0, hve0⟩ := hv.e.wr (i := p - 2) (by omega) 0
  simp only [h1, h2, ok_bind, hv.e.rd (i := p - 2) (by omega), he0]
  have hloop := loopRev_post (lo := k) (hi := p - 1) (s := (st.s, e0, st.v, e (p - 2)))
    (f := fun j (x : Buf ℝ × Buf ℝ × Buf ℝ × ℝ) => (do
      let (s, e, v, f) := x
      let t ← hypot (← rd s j) f
      let cs ← RDiv.rdiv (← rd s j) t
      let sn ← RDiv.rdiv f t
      let s ← wr s j t
      let (e, f) ← (do
        if j != k then
          let f := -sn * (← rd e (← usub j 1))
          let e ← wr e (← usub j 1) (cs * (← rd e (← usub j 1)))
          return (e, f)
        else return (e, f))
      let v ← rotCols n j (p - 1) cs sn v
      return (s, e, v, f) : R (Buf ℝ × Buf ℝ × Buf ℝ × ℝ)))
    (fun c x => ∃ s' e' V', Full x.1 n s' ∧ Full x.2.1 n e' ∧ FullG x.2.2.1 n n V' ∧
      Fac m n X U V' (fun i j => bid s' e' i j + if k < c ∧ i + 1 = c ∧ j = p - 1 then x.2.2.2 else 0) ∧
      (k < c → x.2.2.2 ≠ 0) ∧ e' (p - 2) = 0 ∧ (∀ j, e j = 0 → e' j = 0) ∧ (∀ j, j + 1 < c → e' j = e j) ∧
      s' (p - 1) = 0 ∧ (∀ j, p ≤ j → s' j = s j))
    (show k ≤ p - 1 by omega) ?_ ?_
  · obtain ⟨⟨s1, e1, v1, f1⟩, hrun, s', e', V', r1, r2, r3, r4, -, r6, r7, -, -, r10⟩ := hloop
    refine ⟨⟨s1, e1, st.u, v1⟩, ?_, s', e', V', ⟨r1, r2, hv.u, r3⟩, ?_, r6, r7, r10⟩
    · erw [hrun]; rfl
    · refine r4.congr fun i j _ _ => ?_
      rw [if_neg (by omega), add_zero]
  · refine ⟨s, _, V, hv.s, hve0, hv.v, ?_, fun _ => hnz _ (by omega) (by omega), by simp, ?_, ?_, hs, fun _ _ => rfl⟩
    · refine hF.congr fun i j _ _ => ?_
      simp only [bid, updv]
      grind
    · intro j hj
      simp only [updv]; grind
    · intro j hj
      rw [updv_ne (by omega)]
  · rintro j ⟨s1, e1, v1, f1⟩ hkj hjp ⟨s', e', V', r1, r2, r3, r4, r5, r6, r7, r8, r9, r10⟩
    dsimp only at r1 r2 r3 r4 r5 ⊢
    have hf : f1 ≠ 0 := r5 (by omega)
    obtain ⟨t, t1, t2, t3, t4, t5, t6, t7, t8, -⟩ := rot_facts (a := s' j) hf
    obtain ⟨s2, hs2, hvs2⟩ := r1.wr (i := j) (by omega) t
    obtain ⟨v2, hv2, hvv2⟩ := rotCols_ok r3 (a := j) (b := p - 1) (by omega) (by omega) (by omega) (s' j / t) (f1 / t)
    have hR := r4.rotV (a := j) (b := p - 1) (by omega) (by omega) (by omega) t5
    simp only [r1.rd (i := j) (by omega), ok_bind, t1, t3, t4, hs2]
    generalize s' j / t = cs at *
    generalize f1 / t = sn at *
    by_cases hjk : j = k
    · subst hjk
      simp only [bne_self_eq_false, Bool.false_eq_true, if_false, pure_eq_ok, ok_bind, hv2]
      refine Post.ok ⟨updv s' j t, e', _, hvs2, r2, hvv2, ?_, ?_, r6, r7, ?_, ?_, ?_⟩
      · refine hR.congr fun i c _ _ => ?_
        have hz : i + 1 = j → e' i = 0 := fun h => r7 i (hk i h)
        have hz2 : i + 1 = p - 1 → e' i = 0 := fun h => by rw [show i = p - 2 by omega]; exact r6
        clear hk hnz r7 r8 r10 hv hF hve0 hR r4 r6 t5 r5 t3 t4 t1 hs2 hvs2 hv2 hvv2 hf t7 t2 r1 r2 r3 h1 h2 he0
        generalize hq : p - 1 = q at *
        simp only [rotc, bid, updv]
        by_cases h1 : i = j
        · subst h1
          grind
        · grind
      · intro h; omega
      · intro i hi; exact r8 i (by omega)
      · rw [updv_ne (by omega), r9]
      · intro i hi; rw [updv_ne (by omega), r10 i hi]
    · have hj1 : usub j 1 = .ok (j - 1) := usub_ok (by omega)
      obtain ⟨e2, he2, hve2⟩ := r2.wr (i := j - 1) (by omega) (cs * e' (j - 1))
      rw [if_pos (by simpa using hjk)]
      simp only [hj1, ok_bind, r2.rd (i := j - 1) (by omega), pure_eq_ok, he2, hv2]
      refine Post.ok ⟨updv s' j t, _, _, hvs2, hve2, hvv2, ?_, ?_, ?_, ?_, ?_, ?_, ?_⟩
      · refine hR.congr fun i c _ _ => ?_
        simp only [rotc, bid, updv]
        grind
      · intro _
        dsimp only
        rw [r8 (j - 1) (by omega)]
        exact mul_ne_zero (neg_ne_zero.2 t7) (hnz _ (by omega) (by omega))
      · rw [updv_ne (by omega), r6]
      · intro i hi
        simp only [updv]
        have := r7 i hi
        grind
      · intro i hi
        rw [updv_ne (by omega), r8 i (by omega)]
      · rw [updv_ne (by omega), r9]
      · intro i hi; rw [updv_ne (by omega), r10 i hi]

theorem kase2_post {m n p k : Nat} {st : Main ℝ} {s e : Nat → ℝ} {U V : Nat → Nat → ℝ} {X : Matrix (Fin m) (Fin n) ℝ}
    (hv : View m n st s e U V) (hF : Fac m n X U V (bid s e)) (hk0 : 0 < k) (hkp : k < p) (hp : p ≤ n) (hnm : n ≤ m)
    (hs : s (k - 1) = 0) (hnz : ∀ j, k ≤ j + 1 → j + 1 < p → e j ≠ 0) (hp1 : e (p - 1) = 0) :
    ∃ st', kase2 m p k st = .ok st' ∧ ∃ s' e' U', View m n st' s' e' U' V ∧ Fac m n X U' V (bid s' e') ∧
      e' (k - 1) = 0 ∧ (∀ j, e j = 0 → e' j = 0) ∧ (∀ j, p ≤ j → s' j = s j) := by
  have h1 : usub k 1 = .ok (k - 1) := usub_ok (by omega)
  unfold kase2
  obtain ⟨e0, he0, hve0⟩ := hv.e.wr (i := k - 1) (by omega) 0
  simp only [h1, ok_bind, hv.e.rd (i := k - 1) (by omega), he0]
  have hloop := loop_post (lo := k) (hi := p) (s := (st.s, e0, st.u, e (k - 1)))
    (f := fun j (x : Buf ℝ × Buf ℝ × Buf ℝ × ℝ) => (do
      let (s, e, u, f) := x
      let t ← hypot (← rd s j) f
      let cs ← RDiv.rdiv (← rd s j) t
      let sn ← RDiv.rdiv f t
      let s ← wr s j t
      let f := -sn * (← rd e j)
      let e ← wr e j (cs * (← rd e j))
      let u ← rotCols m j (k - 1) cs sn u
      return (s, e, u, f) : R (Buf ℝ × Buf ℝ × Buf ℝ × ℝ)))
    (fun c x => ∃ s' e' U', Full x.1 n s' ∧ Full x.2.1 n e' ∧ FullG x.2.2.1 m m U' ∧
      Fac m n X U' V (fun i j => bid s' e' i j + if i = k - 1 ∧ j = c then x.2.2.2 else 0) ∧
      (c < p → x.2.2.2 ≠ 0) ∧ (c = p → x.2.2.2 = 0) ∧ e' (k - 1) = 0 ∧ (∀ j, e j = 0 → e' j = 0) ∧
      (∀ j, c ≤ j → e' j = e j) ∧ s' (k - 1) = 0 ∧ (∀ j, p ≤ j → s' j = s j))
    (show k ≤ p by omega) ?_ ?_
  · obtain ⟨⟨s1, e1, u1, f1⟩, hrun, s', e', U', r1, r2, r3, r4, -, r5, r6, r7, -, -, r10⟩ := hloop
    refine ⟨⟨s1, e1, u1, st.v⟩, ?_, s', e', U', ⟨r1, r2, r3, hv.v⟩, ?_, r6, r7, r10⟩
    · erw [hrun]; rfl
    · refine r4.congr fun i j _ _ => ?_
      rw [r5 rfl, ite_self, add_zero]
  · refine ⟨s, _, U, hv.s, hve0, hv.u, ?_, fun _ => hnz _ (by omega) (by omega), fun h => by omega, by simp, ?_, ?_, hs,
      fun _ _ => rfl⟩
    · refine hF.congr fun i j _ _ => ?_
      clear hnz
      simp only [bid, updv]
      grind
    · intro j hj
      simp only [updv]; grind
    · intro j hj
      rw [updv_ne (by omega)]
  · rintro j ⟨s1, e1, u1, f1⟩ hkj hjp ⟨s', e', U', r1, r2, r3, r4, r5, -, r6, r7, r8, r9, r10⟩
    dsimp only at r1 r2 r3 r4 r5 ⊢
    have hf : f1 ≠ 0 := r5 (by omega)
    obtain ⟨t, t1, t2, t3, t4, t5, t6, t7, t8, -⟩ := rot_facts (a := s' j) hf
    obtain ⟨s2, hs2, hvs2⟩ := r1.wr (i := j) (by omega) t
    obtain ⟨v2, hv2, hvv2⟩ := rotCols_ok r3 (a := j) (b := k - 1) (by omega) (by omega) (by omega) (s' j / t) (f1 / t)
    have hR := r4.rotU (a := j) (b := k - 1) (by omega) (by omega) (by omega) t5
    obtain ⟨e2, he2, hve2⟩ := r2.wr (i := j) (by omega) (s' j / t * e' j)
    simp only [r1.rd (i := j) (by omega), r2.rd (i := j) (by omega), ok_bind, t1, t3, t4, hs2, he2, hv2, pure_eq_ok]
    generalize s' j / t = cs at *
    generalize f1 / t = sn at *
    refine Post.ok ⟨updv s' j t, _, _, hvs2, hve2, hvv2, ?_, ?_, ?_, ?_, ?_, ?_, ?_, ?_⟩
    · refine hR.congr fun i c _ _ => ?_
      clear hnz r7 r8 r10 hv hF hve0 hR r4 t5 r5 t3 t4 t1 hs2 hvs2 hv2 hvv2 hf t7 t2 r1 r2 r3 h1 he0 hve2
      simp only [rotr, bid, updv]
      obtain ⟨q, rfl⟩ : ∃ q, k = q + 1 := ⟨k - 1, by omega⟩
      simp only [Nat.add_sub_cancel] at *
      by_cases h1 : i = j
      · subst h1
        grind
      · grind
    · intro h
      dsimp only
      rw [r8 j le_rfl]
      exact mul_ne_zero (neg_ne_zero.2 t7) (hnz _ (by omega) (by omega))
    · intro h
      dsimp only
      rw [r8 j le_rfl, show j = p - 1 by omega, hp1, mul_zero]
    · rw [updv_ne (by omega), r6]
    · intro i hi
      have := r7 i hi
      simp only [updv]
      grind
    · intro i hi
      rw [updv_ne (by omega), r8 i (by omega)]
    · rw [updv_ne (by omega), r9]
    · intro i hi; rw [updv_ne (by omega), r10 i hi]

/-- One step of the chase, on the factorisation. -/
theorem chase_fac {m n k j : Nat} {X : Matrix (Fin m) (Fin n) ℝ} {s e : Nat → ℝ} {U V : Nat → Nat → ℝ} {f g : ℝ}
    (hkj : k ≤ j) (hj : j + 1 < n) (hnm : n ≤ m)
    (hF : Fac m n X U V (fun i c => if k < j ∧ i + 1 = j then (if c = i then s i else if c = j then f else
      if c = j + 1 then g else 0) else bid s e i c)) (hk : j = k → ∀ i, i + 1 = k → e i = 0)
    {c1 n1 t1 c2 n2 t2 : ℝ} (h1 : c1 ^ 2 + n1 ^ 2 = 1) (h2 : c1 * f + n1 * g = t1) (h3 : -n1 * f + c1 * g = 0)
    (h4 : c2 ^ 2 + n2 ^ 2 = 1) (h5 : c2 * (c1 * s j + n1 * e j) + n2 * (n1 * s (j + 1)) = t2)
    (h6 : -n2 * (c1 * s j + n1 * e j) + c2 * (n1 * s (j + 1)) = 0) {s' e' : Nat → ℝ} {f' g' : ℝ}
    (hf' : f' = c2 * (c1 * e j - n1 * s j) + n2 * (c1 * s (j + 1)))
    (hg' : g' = n2 * e (j + 1))
    (s1 : s' j = t2) (s2 : s' (j + 1) = -n2 * (c1 * e j - n1 * s j) + c2 * (c1 * s (j + 1)))
    (s3 : ∀ i, i ≠ j → i ≠ j + 1 → s' i = s i)
    (e1 : e' (j + 1) = c2 * e (j + 1)) (e2 : ∀ i, k < j → i + 1 = j → e' i = t1)
    (e3 : ∀ i, i + 1 < j ∨ j + 1 < i → e' i = e i) (e4 : ∀ i, k = j → i + 1 = j → e' i = e i) :
    Fac m n X (rotc U j (j + 1) c2 n2) (rotc V j (j + 1) c1 n1) (fun i c => if k < j + 1 ∧ i + 1 = j + 1 then
      (if c = i then s' i else if c = j + 1 then f' else if c = j + 2 then g' else 0) else bid s' e' i c) := by
  have hR := (hF.rotV (a := j) (b := j + 1) (by omega) (by omega) (by omega) h1).rotU (a := j) (b := j + 1)
    (by omega) (by omega) (by omega) h4
  refine hR.congr fun i c _ _ => ?_
  clear hR hF h1 h4
  simp only [rotr, rotc, bid]
  rcases lt_trichotomy (i + 1) j with hi | hi | hi
  · have := s3 i (by omega) (by omega)
    have := e3 i (by omega)
    clear s3 e3 e2 e4 hk
    grind
  · have a1 := s3 i (by omega) (by omega)
    have a2 := e2 i
    have a3 := e4 i
    clear s3 e3 e2 e4
    subst hi
    by_cases hk' : i + 1 = k
    · have := hk hk' i hk'
      grind
    · grind
  · by_cases hi2 : i = j
    · subst hi2
      clear s3 e3 e2 e4 hk
      grind
    · by_cases hi3 : i = j + 1
      · subst hi3
        clear s3 e3 e2 e4 hk
        grind
      · have := s3 i (by omega) (by omega)
        have := e3 i (by omega)
        clear s3 e3 e2 e4 hk
        grind

theorem chase_ok {m n k j : Nat} {st : Main ℝ} {s e : Nat → ℝ} {U V : Nat → Nat → ℝ} {f g : ℝ}
    (hv : View m n st s e U V) (hkj : k ≤ j) (hj : j + 1 < n) (hnm : n ≤ m) (hg : g ≠ 0) (hs : s (j + 1) ≠ 0) :
    ∃ c1 n1 t1 c2 n2 t2 st' s' e' f' g', chase m n k j (st, f, g) = .ok (st', f', g') ∧
      View m n st' s' e' (rotc U j (j + 1) c2 n2) (rotc V j (j + 1) c1 n1) ∧
      c1 ^ 2 + n1 ^ 2 = 1 ∧ c1 * f + n1 * g = t1 ∧ -n1 * f + c1 * g = 0 ∧ c2 ^ 2 + n2 ^ 2 = 1 ∧
      c2 * (c1 * s j + n1 * e j) + n2 * (n1 * s (j + 1)) = t2 ∧
      -n2 * (c1 * s j + n1 * e j) + c2 * (n1 * s (j + 1)) = 0 ∧
      f' = c2 * (c1 * e j - n1 * s j) + n2 * (c1 * s (j + 1)) ∧ g' = n2 * e (j + 1) ∧ n2 ≠ 0 ∧
      s' j = t2 ∧ s' (j + 1) = -n2 * (c1 * e j - n1 * s j) + c2 * (c1 * s (j + 1)) ∧
      (∀ i, i ≠ j → i ≠ j + 1 → s' i = s i) ∧ e' (j + 1) = c2 * e (j + 1) ∧ (∀ i, k < j → i + 1 = j → e' i = t1) ∧
      (∀ i, i + 1 < j ∨ j + 1 < i → e' i = e i) ∧ (∀ i, k = j → i + 1 = j → e' i = e i) ∧ 0 < t1 ∧ 0 < t2 := by
  obtain ⟨t1, a1, a2, a3, a4, a5, a6, a7, a8, a9⟩ := rot_facts (a := f) hg
  have hg2 : g / t1 * s (j + 1) ≠ 0 := mul_ne_zero a7 hs
  obtain ⟨t2, b1, b2, b3, b4, b5, b6, b7, b8, b9⟩ := rot_facts (a := f / t1 * s j + g / t1 * e j) hg2
  set c1 := f / t1 with hc1
  set n1 := g / t1 with hn1
  set c2 := (c1 * s j + n1 * e j) / t2 with hc2
  set n2 := (n1 * s (j + 1)) / t2 with hn2
  -- the possibly updated `e`
  obtain ⟨e0, E0, he0, hve0, hE1, hE2, hE3⟩ : ∃ e0 E0, (if (j != k) = true then (do wr st.e (← usub j 1) t1) else
      (.ok st.e : R (Buf ℝ))) = .ok e0 ∧ Full e0 n E0 ∧ (∀ i, k < j → i + 1 = j → E0 i = t1) ∧
      (∀ i, i + 1 ≠ j → E0 i = e i) ∧ (∀ i, k = j → E0 i = e i) := by
    by_cases hjk : j = k
    · subst hjk
      exact ⟨st.e, e, by simp, hv.e, fun i h => by omega, fun _ _ => rfl, fun _ _ => rfl⟩
    · obtain ⟨e1, he1, hve1⟩ := hv.e.wr (i := j - 1) (by omega) t1
      refine ⟨e1, _, ?_, hve1, fun i _ hi => ?_, fun i hi => ?_, fun i hi => by omega⟩
      · rw [if_pos (by simpa using hjk), usub_ok (by omega), ok_bind, he1]
      · rw [show i = j - 1 by omega, updv_same]
      · rw [updv_ne (by omega)]
  obtain ⟨e1, he1, hve1⟩ := hve0.wr (i := j) (by omega) (c1 * e j - n1 * s j)
  obtain ⟨x1, hx1, hvx1⟩ := hv.s.wr (i := j + 1) (by omega) (c1 * s (j + 1))
  obtain ⟨v1, hv1, hvv1⟩ := rotCols_ok hv.v (a := j) (b := j + 1) (by omega) (by omega) (by omega) c1 n1
  obtain ⟨x2, hx2, hvx2⟩ := hvx1.wr (i := j) (by omega) t2
  obtain ⟨x3, hx3, hvx3⟩ := hvx2.wr (i := j + 1) (by omega) (-n2 * (c1 * e j - n1 * s j) + c2 * (c1 * s (j + 1)))
  obtain ⟨e2, he2, hve2⟩ := hve1.wr (i := j + 1) (by omega) (c2 * e (j + 1))
  obtain ⟨u1, hu1, hvu1⟩ := rotCols_ok hv.u (a := j) (b := j + 1) (by omega) (by omega) (by omega) c2 n2
  have ej : E0 j = e j := hE2 j (by omega)
  have ej1 : E0 (j + 1) = e (j + 1) := hE2 (j + 1) (by omega)
  refine ⟨c1, n1, t1, c2, n2, t2, ⟨x3, e2, u1, v1⟩, _, _, _, _, ?_, ⟨hvx3, hve2, hvu1, hvv1⟩, a5, a6, a8, b5, b6, b8, rfl,
    rfl, b7, ?_, ?_, ?_, ?_, ?_, ?_, ?_, a9, b9⟩
  · unfold chase
    simp only [ok_bind, a1, a3, a4, pure_eq_ok]
    rw [he0]
    simp only [ok_bind, hv.s.rd (i := j) (by omega), hv.s.rd (i := j + 1) (by omega), hve0.rd (i := j) (by omega), ej,
      he1, hx1, hv1, b1, b3, b4, hx2, hve1.rd (i := j) (by omega), hvx2.rd (i := j + 1) (by omega), updv_same,
      updv_ne (show j + 1 ≠ j by omega), hx3, hve1.rd (i := j + 1) (by omega), ej1, he2]
    rw [if_pos (by omega), hu1]
    rfl
  · rw [updv_ne (by omega), updv_same]
  · rw [updv_same]
  · intro i h1 h2
    rw [updv_ne h2, updv_ne h1, updv_ne h2]
  · rw [updv_same]
  · intro i h1 h2
    rw [updv_ne (by omega), updv_ne (by omega), hE1 i h1 h2]
  · intro i h1
    rw [updv_ne (by omega), updv_ne (by omega), hE2 i (by omega)]
  · intro i h1 h2
    rw [updv_ne (by omega), updv_ne (by omega), hE3 i h1]

/-- Wilkinson's shift. -/
theorem shift_alg {β c r x : ℝ} (hc : 0 < c) (hr : r ^ 2 = β ^ 2 + c) (hs : 0 ≤ β * r) (hx : x = c / (β + r)) :
    x * (2 * β + x) = c ∧ x ^ 2 ≤ c := by
  have h0 : 0 < (β + r) ^ 2 := by nlinarith [sq_nonneg β]
  have hne : β + r ≠ 0 := fun h => by rw [h] at h0; norm_num at h0
  have hx' : x = r - β := by rw [hx, div_eq_iff hne]; linear_combination -hr
  refine ⟨by rw [hx']; linear_combination hr, ?_⟩
  rw [hx']
  nlinarith

/-- The initial bulge: with `σ` the shift, `f` and `g` are proportional to `s_k² - σ` and `s_k e_k`, and `σ` is the
eigenvalue of the trailing 2×2 block of `B·Bᵀ` that is nearer to its last entry. -/
theorem shiftFG_ok {n p k : Nat} {s e : Nat → ℝ} {sb eb : Buf ℝ} (hs : Full sb n s) (he : Full eb n e)
    (hkp : k + 2 ≤ p) (hp : p ≤ n) (hnz : ∀ j, k ≤ j → j < p → s j ≠ 0) (hne : ∀ j, k ≤ j → j + 1 < p → e j ≠ 0) :
    ∃ f g, shiftFG p k sb eb = .ok (f, g) ∧ g ≠ 0 ∧ ∃ σ sc, 0 < sc ∧ f * sc = s k ^ 2 - σ ∧ g * sc = s k * e k ∧
      (s (p - 1) ^ 2 - σ) * (s (p - 2) ^ 2 + e (p - 2) ^ 2 - σ) = (e (p - 2) * s (p - 1)) ^ 2 ∧
      |s (p - 1) ^ 2 - σ| ≤ |e (p - 2) * s (p - 1)| := by
  unfold shiftFG
  have h1 : usub p 1 = .ok (p - 1) := usub_ok (by omega)
  have h2 : usub p 2 = .ok (p - 2) := usub_ok (by omega)
  simp only [h1, h2, ok_bind, hs.rd (i := p - 1) (by omega), hs.rd (i := p - 2) (by omega), he.rd (i := p - 2) (by omega),
    hs.rd (i := k) (by omega), he.rd (i := k) (by omega), Exact.max_eq, Exact.abs_eq]
  set sc : ℝ := max (max (max (max |s (p - 1)| |s (p - 2)|) |e (p - 2)|) |s k|) |e k| with hsc
  have hsc0 : sc ≠ 0 := by
    have h0 : 0 < |s (p - 1)| := abs_pos.2 (hnz _ (by omega) (by omega))
    have : |s (p - 1)| ≤ sc := by
      rw [hsc]
      exact le_max_of_le_left (le_max_of_le_left (le_max_of_le_left (le_max_left _ _)))
    exact (lt_of_lt_of_le h0 this).ne'
  have hc2 : (FloatOps.cst 2 1 : ℝ) = 2 := by rw [Exact.cst_eq]; norm_num
  simp only [rdiv_ok hsc0, ok_bind, hc2, rdiv_ok (two_ne_zero : (2 : ℝ) ≠ 0)]
  set b : ℝ := ((s (p - 2) / sc + s (p - 1) / sc) * (s (p - 2) / sc - s (p - 1) / sc) +
    e (p - 2) / sc * (e (p - 2) / sc)) / 2 with hbd
  set c : ℝ := s (p - 1) / sc * (e (p - 2) / sc) * (s (p - 1) / sc * (e (p - 2) / sc)) with hc
  have hcpos : 0 < c := by
    have : s (p - 1) / sc * (e (p - 2) / sc) ≠ 0 :=
      mul_ne_zero (div_ne_zero (hnz _ (by omega) (by omega)) hsc0) (div_ne_zero (hne _ (by omega) (by omega)) hsc0)
    rw [hc]; exact mul_self_pos.2 this
  have hbc : 0 ≤ b * b + c := by nlinarith [mul_self_nonneg b]
  have hr : 0 < Real.sqrt (b * b + c) := Real.sqrt_pos.2 (by nlinarith [mul_self_nonneg b])
  have hgk : s k / sc * (e k / sc) ≠ 0 :=
      mul_ne_zero (div_ne_zero (hnz _ (by omega) (by omega)) hsc0) (div_ne_zero (hne _ (by omega) (by omega)) hsc0)
  have hcond : (!(FloatOps.eq b 0) || !(FloatOps.eq c 0)) = true := by
    rw [eq_eq c 0]; simp [hcpos.ne']
  rw [if_pos hcond, sqrt_ok hbc, ok_bind, lt_eq]
  have key : ∀ r, r ^ 2 = b ^ 2 + c → 0 ≤ b * r → ∃ σ q, 0 < q ∧
      ((s k / sc + s (p - 1) / sc) * (s k / sc - s (p - 1) / sc) + c / (b + r)) * q = s k ^ 2 - σ ∧
      s k / sc * (e k / sc) * q = s k * e k ∧
      (s (p - 1) ^ 2 - σ) * (s (p - 2) ^ 2 + e (p - 2) ^ 2 - σ) = (e (p - 2) * s (p - 1)) ^ 2 ∧
      |s (p - 1) ^ 2 - σ| ≤ |e (p - 2) * s (p - 1)| := by
    intro r h1 h2
    obtain ⟨x1, x2⟩ := shift_alg hcpos h1 h2 rfl
    generalize c / (b + r) = x at x1 x2 ⊢
    have eb : b * sc ^ 2 * 2 = s (p - 2) ^ 2 - s (p - 1) ^ 2 + e (p - 2) ^ 2 := by
      rw [hbd]; field_simp; ring
    have ec : c * sc ^ 4 = (e (p - 2) * s (p - 1)) ^ 2 := by
      rw [hc]; field_simp
    refine ⟨s (p - 1) ^ 2 - sc ^ 2 * x, sc ^ 2, by positivity, ?_, ?_, ?_, ?_⟩
    · field_simp; ring
    · field_simp
    · rw [← ec, ← x1]
      linear_combination (-sc ^ 2 * x) * eb
    · rw [← sq_le_sq, ← ec]
      nlinarith [mul_le_mul_of_nonneg_right x2 (show (0 : ℝ) ≤ sc ^ 4 by positivity)]
  by_cases hb : b < 0
  · rw [if_pos (by simpa using hb), rdiv_ok (ne_of_lt (by linarith))]
    exact ⟨_, _, rfl, hgk, key _ (by rw [neg_sq, Real.sq_sqrt hbc]; ring) (by nlinarith)⟩
  · rw [if_neg (by simpa using hb), rdiv_ok (ne_of_gt (by linarith))]
    exact ⟨_, _, rfl, hgk, key _ (by rw [Real.sq_sqrt hbc]; ring) (by nlinarith)⟩

theorem kase3_post {m n p k : Nat} {st : Main ℝ} {s e : Nat → ℝ} {U V : Nat → Nat → ℝ} {X : Matrix (Fin m) (Fin n) ℝ}
    (hv : View m n st s e U V) (hF : Fac m n X U V (bid s e)) (hkp : k + 2 ≤ p) (hp : p ≤ n) (hnm : n ≤ m)
    (hnz : ∀ j, k ≤ j → j < p → s j ≠ 0) (hne : ∀ j, k ≤ j → j + 1 < p → e j ≠ 0)
    (hk : ∀ j, j + 1 = k → e j = 0) (hp1 : e (p - 1) = 0) :
    ∃ st', kase3 m n p k st = .ok st' ∧ ∃ s' e' U' V', View m n st' s' e' U' V' ∧ Fac m n X U' V' (bid s' e') ∧
      (∀ j, e j = 0 → e' j = 0) ∧ (∀ j, p ≤ j → s' j = s j) ∧ Conv k p s e s' e' := by
  obtain ⟨f, g, hfg, hg, σ, sc, w0, w1, w2, w3, w4⟩ := shiftFG_ok hv.s hv.e hkp hp hnz hne
  unfold kase3
  have h1 : usub p 1 = .ok (p - 1) := usub_ok (by omega)
  have h2 : usub p 2 = .ok (p - 2) := usub_ok (by omega)
  simp only [hfg, ok_bind, h1, h2]
  have hloop := loop_post (lo := k) (hi := p - 1) (s := (st, f, g)) (f := fun j x => chase m n k j x)
    (fun j x => ∃ s' e' U' V', View m n x.1 s' e' U' V' ∧
      Fac m n X U' V' (fun i c => if k < j ∧ i + 1 = j then (if c = i then s' i else if c = j then x.2.1 else
        if c = j + 1 then x.2.2 else 0) else bid s' e' i c) ∧
      (j + 1 < p → x.2.2 ≠ 0) ∧ (j + 1 = p → x.2.2 = 0) ∧ (∀ i, j + 1 ≤ i → s' i = s i ∧ e' i = e i) ∧
      (∀ i, i < k ∨ p ≤ i + 1 → e i = 0 → e' i = 0) ∧ (∀ i, p ≤ i → s' i = s i) ∧ (∀ i, i + 1 = k → e' i = 0) ∧
      (j = k → s' = s ∧ e' = e ∧ x.2 = (f, g)) ∧ (∀ q, k ≤ q → j = q + 1 → Ch s e σ k q s' e' x.2.1 x.2.2))
    (show k ≤ p - 1 by omega) ?_ ?_
  · obtain ⟨⟨st1, f1, g1⟩, hrun, s', e', U', V', r1, r2, -, r3, -, r4, r5, -, -, r6⟩ := hloop
    obtain ⟨e1, he1, hve1⟩ := r1.e.wr (i := p - 2) (by omega) f1
    refine ⟨{ st1 with e := e1 }, ?_, s', _, U', V', ⟨r1.s, hve1, r1.u, r1.v⟩, ?_, ?_, r5, ?_⟩
    · rw [hrun]
      simp only [ok_bind]
      rw [he1]; rfl
    · refine r2.congr fun i c hi hc => ?_
      have := r3 (by omega)
      dsimp only at this ⊢
      rw [this]
      clear r3 r4 r5 hnz hne hk
      simp only [bid, updv]
      grind
    · intro j hj
      by_cases hjk : k ≤ j ∧ j + 1 < p
      · exact absurd hj (hne j hjk.1 hjk.2)
      · rw [updv_ne (by omega)]
        exact r4 j (by omega) hj
    · obtain ⟨q, rfl⟩ : ∃ q, p = q + 2 := ⟨p - 2, by omega⟩
      exact ch_last (show k ≤ q by omega) (r6 q (by omega) rfl) (mul_ne_zero (hne _ (by omega) (by omega)) (hnz _ (by omega) (by omega)))
        w3 w4 (updv_same _ _ _) fun i hi => updv_ne hi
  · refine ⟨s, e, U, V, hv, ?_, fun _ => hg, fun h => by omega, fun _ _ => ⟨rfl, rfl⟩, fun _ _ h => h, fun _ _ => rfl, hk,
      fun _ => ⟨rfl, rfl, rfl⟩, fun q h1 h2 => by omega⟩
    refine hF.congr fun i c _ _ => ?_
    rw [if_neg (by omega)]
  · rintro j ⟨st1, f1, g1⟩ hkj hjp ⟨s1, e1, U1, V1, r1, r2, r3, -, r4, r5, r6, r7, r8, r9⟩
    dsimp only at r1 r2 r3 r8 r9 ⊢
    have hs1 : s1 (j + 1) ≠ 0 := by rw [(r4 (j + 1) le_rfl).1]; exact hnz _ (by omega) (by omega)
    obtain ⟨c1, n1, t1, c2, n2, t2, st2, s2, e2, f2, g2, hrun, w, q1, q2, q3, q4, q5, q6, q7, q8, q9, q10, q11, q12, q13,
      q14, q15, q16, q17, q18⟩ := chase_ok (f := f1) r1 hkj (by omega) hnm (r3 (by omega)) hs1
    refine ⟨_, hrun, s2, e2, _, _, w, ?_, ?_, ?_, ?_, ?_, ?_, ?_, fun h => by omega, ?_⟩
    · exact chase_fac hkj (by omega) hnm r2 (fun _ => r7) q1 q2 q3 q4 q5 q6 q7 q8 q10 q11 q12 q13 q14 q15 q16
    · intro h
      dsimp only
      rw [q8, (r4 (j + 1) le_rfl).2]
      exact mul_ne_zero q9 (hne _ (by omega) (by omega))
    · intro h
      dsimp only
      rw [q8, (r4 (j + 1) le_rfl).2, show j + 1 = p - 1 by omega, hp1, mul_zero]
    · intro i hi
      rw [q12 i (by omega) (by omega), q15 i (by omega)]
      exact r4 i (by omega)
    · intro i hi h0
      by_cases hij : i = j + 1
      · subst hij
        rw [q13, (r4 _ le_rfl).2, h0, mul_zero]
      · by_cases hik : i + 1 = j
        · rw [q16 i (by omega) hik, r5 i hi h0]
        · rw [q15 i (by omega), r5 i hi h0]
    · intro i hi
      rw [q12 i (by omega) (by omega), r6 i hi]
    · intro i hi
      by_cases hik : i + 1 = j
      · rw [q16 i (by omega) hik, r7 i hi]
      · rw [q15 i (by omega), r7 i hi]
    · intro q hq1 hq2
      obtain rfl : j = q := by omega
      by_cases hjk : j = k
      · obtain ⟨rfl, rfl, hfg'⟩ := r8 hjk
        subst hjk
        cases hfg'
        exact ch_first w0 w1 w2 (hnz _ le_rfl (by omega)) (hne _ le_rfl (by omega)) q1 q2 q3 q4 q5 q6 q9 q7 q8 q11 q13 q17 q18
      · obtain ⟨i, rfl⟩ : ∃ i, j = i + 1 := ⟨j - 1, by omega⟩
        exact ch_next (show k ≤ i by omega) (r9 i (by omega) rfl) (hne _ (by omega) (by omega)) (r4 _ le_rfl).1 (r4 _ le_rfl).2
          q1 q2 q3 q4 q5 q6 q9 q7 q8 q10 q11 q13 (q14 i (by omega) rfl) q17 q18

end SVD
end LA
