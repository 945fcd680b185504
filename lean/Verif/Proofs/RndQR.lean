import Verif.Proofs.QR
import Verif.Proofs.RndNorm
import Verif.Proofs.RndHouse

/-! # QR decomposition in rounded arithmetic

First the exact sequence of operations (`Step`, `Back`), then its error. -/

set_option linter.unusedSectionVars false

namespace LA
open Finset

theorem loop_facc_from {α : Type} {op : α → α → α} {z : α} {x : Nat → α} {k m : Nat} (hk : k ≤ m) {f : Nat → α → R α}
    (h : ∀ i s, k ≤ i → i < m → f i s = .ok (op s (x i))) : loop k m z f = .ok (facc op z (fun t => x (k + t)) (m - k)) := by
  refine (loop_post (fun i s => s = facc op z (fun t => x (k + t)) (i - k)) hk (by rw [Nat.sub_self]; rfl) ?_).eq_ok
  rintro i s h1 h2 rfl
  rw [h i _ h1 h2, show i + 1 - k = (i - k) + 1 by omega, facc]
  refine Post.ok ?_
  rw [show k + (i - k) = i by omega]

namespace QR
namespace Rnd

variable {α : Type} [Zero α] [One α] [Add α] [Sub α] [Neg α] [Mul α] [FloatOps α] [Fp α]

/-- The computed quotient. -/
noncomputable def dv (x y : α) : α := Classical.choose (Fp.div_total x y)
theorem dv_ok (x y : α) : RDiv.rdiv x y = .ok (dv x y) := Classical.choose_spec (Fp.div_total x y)

/-- The computed sum of products over the rows `k..m`. -/
def dotFrom (m k : Nat) (x y : Nat → α) : α := fdot (fun t => x (k + t)) (fun t => y (k + t)) (m - k)

theorem dotFrom_congr {m k : Nat} {x y x' y' : Nat → α} (hx : ∀ r, k ≤ r → r < m → x r = x' r) (hy : ∀ r, k ≤ r → r < m → y r = y' r) :
    dotFrom m k x y = dotFrom m k x' y' :=
  fdot_congr fun i hi => ⟨hx _ (by omega) (by omega), hy _ (by omega) (by omega)⟩

/-- What the code turns the column `x` into, with reflection vector `v` and denominator `b`. -/
noncomputable def app (m k : Nat) (v : Nat → α) (b : α) (x : Nat → α) (r : Nat) : α :=
  if k ≤ r then x r + dv (dotFrom m k v x) b * v r else x r

theorem app_congr {m k r : Nat} {v v' x x' : Nat → α} {b : α} (hr : r < m) (hv : ∀ r, k ≤ r → r < m → v r = v' r)
    (hx : ∀ r, r < m → x r = x' r) : app m k v b x r = app m k v' b x' r := by
  unfold app
  rw [dotFrom_congr hv fun r _ h => hx r h, hx r hr]
  split
  · rw [hv r ‹_› hr]
  · rfl

/-- One step of the factorisation. -/
structure Step (m n k : Nat) (G G' : Nat → Nat → α) (a : α) : Prop where
  sqrt : ∃ z, FloatOps.sqrt (dotFrom m k (fun r => G r k) (fun r => G r k)) = .ok z ∧ a = if FloatOps.lt 0 (G k k) then -z else z
  left : ∀ r j, j < k → G' r j = G r j
  zero : FloatOps.eq a 0 = true → ∀ r j, G' r j = G r j
  diag : FloatOps.eq a 0 = false → G' k k = G k k - a
  low : ∀ r, r ≠ k → G' r k = G r k
  app : FloatOps.eq a 0 = false → ∀ r j, r < m → k < j → j < n → G' r j = app m k (fun r => G' r k) (a * G' k k) (fun r => G r j) r

theorem reflectColumn_rnd {m n k c : Nat} {q : List α} {G : Nat → Nat → α} (hq : Grid q m n G) (hk : k < m) (hkc : k < c)
    (hc : c < n) (a : α) :
    Post (reflectColumn k m n a c q) fun q' => Grid q' m n (fun r j => if j = c then
      app m k (fun r => G r k) (a * G k k) (fun r => G r c) r else G r j) := by
  unfold reflectColumn
  rw [loop_facc_from (op := (· + ·)) (x := fun t => G t k * G t c) hk.le (fun t s h1 h2 => by
    rw [hq.idx h2 (by omega), hq.idx h2 hc]; rfl), ok_bind, hq.idx hk (by omega), ok_bind, dv_ok, ok_bind]
  refine (axpy_col hq hc _ (fun r q => idx q (r * n + k)) (fun r => G r k) ?_).mono fun q' h => h.congr fun r j _ _ => ?_
  · intro r q' G' _ hr hG' hcol
    rw [hG'.idx hr (by omega), hcol r k (by omega)]
  · by_cases e : j = c
    · subst e
      by_cases h : k ≤ r <;> simp [h, app] <;> rfl
    · simp [e]

theorem reflect_rnd {m n k : Nat} {q : List α} {rd : Buf α} {G : Nat → Nat → α} {D : Nat → Option α}
    (hq : Grid q m n G) (hr : Vect rd (min m n) D) (hk : k < min m n) :
    Post (reflect k q m n rd) fun s => ∃ G' a, Grid s.1 m n G' ∧ Vect s.2 (min m n) (updv D k (some a)) ∧ Step m n k G G' a := by
  have hkm : k < m := by omega
  have hkn : k < n := by omega
  unfold reflect
  rw [loop_facc_from (op := (· + ·)) (x := fun t => G t k * G t k) hkm.le (fun i s h1 h2 => by rw [hq.idx h2 hkn]; rfl), ok_bind, hq.idx hkm hkn]
  obtain ⟨z, hz⟩ := Fp.sqrt_total (dotFrom m k (fun r => G r k) (fun r => G r k))
  have hz' : FloatOps.sqrt (facc (· + ·) 0 (fun t => G (k + t) k * G (k + t) k) (m - k)) = .ok z := hz
  simp only [ok_bind, hz', pure_eq_ok]
  have hif : (if FloatOps.lt 0 (G k k) = true then (Except.ok (-z) : R α) else .ok z) = .ok (if FloatOps.lt 0 (G k k) then -z else z) := by
    split <;> rfl
  rw [hif, ok_bind]
  obtain ⟨a, ha⟩ : ∃ a, a = if FloatOps.lt 0 (G k k) then -z else z := ⟨_, rfl⟩
  rw [← ha]
  refine (hr.wr hk a).bind fun rd' hr' => ?_
  by_cases h0 : FloatOps.eq a 0 = true
  · rw [if_neg (by simpa using h0)]
    refine Post.ok ⟨G, a, hq, hr', ⟨⟨z, hz, ha⟩, fun _ _ _ => rfl, fun _ _ _ => rfl, fun h => by simp [h0] at h, fun _ _ => rfl,
      fun h => by simp [h0] at h⟩⟩
  · rw [if_pos (by simpa using h0)]
    refine (hq.setIdx hkm hkn _).bind fun q1 hq1 => ?_
    obtain ⟨G1, hG1⟩ : ∃ G1, G1 = upd G k k (G k k - a) := ⟨_, rfl⟩
    rw [← hG1] at hq1
    have hkk : G1 k k = G k k - a := by rw [hG1]; exact upd_same _ _ _ _
    have hne : ∀ i j, ¬(i = k ∧ j = k) → G1 i j = G i j := fun i j h => by rw [hG1]; exact upd_ne h
    have hcol := loop_cols (lo := k + 1) (hi := n) (f := fun column q => reflectColumn k m n a column q)
      (fun r c => app m k (fun r => G1 r k) (a * G1 k k) (fun r => G1 r c) r) hq1 (by
      intro c q' G' h1 h2 hG' hsame
      have hkk' : G' k k = G1 k k := hsame k k (by omega)
      refine (reflectColumn_rnd hG' hkm (by omega) h2 a).mono fun q'' h => h.congr fun r j hr hj => ?_
      by_cases e : j = c
      · subst e
        simp only [if_true]
        rw [hkk']
        exact app_congr hr (fun r _ _ => hsame r k (by omega)) fun r _ => hsame r j (by omega)
      · rw [if_neg e, if_neg e])
    refine hcol.bind fun q2 hq2 => ?_
    refine Post.ok ⟨_, a, hq2, hr', ⟨⟨z, hz, ha⟩, ?_, ?_, ?_, ?_, ?_⟩⟩
    · intro r j hj
      rw [if_neg (by omega), hne _ _ (by omega)]
    · intro h; exact absurd h h0
    · intro _
      rw [if_neg (by omega), hkk]
    · intro r hrk
      rw [if_neg (by omega), hne _ _ (by omega)]
    · intro _ r j hr h1 h2
      rw [if_pos (by omega)]
      simp only [if_neg (show ¬ (k + 1 ≤ k ∧ k < n) by omega)]
      exact app_congr hr (fun _ _ _ => rfl) fun r _ => hne r j (by omega)

/-- The decomposition object with the given contents. -/
def ob (m n : Nat) (G : Nat → Nat → α) (d : Nat → α) : QR α :=
  ⟨ofM (Matrix.of fun (i : Fin m) (j : Fin n) => G i j), List.ofFn fun i : Fin (min m n) => d i⟩

/-- The sequence of operations of `QRDecomposition::new`. -/
theorem new_rnd {m n : Nat} (hm : 0 < m) (hn : 0 < n) (A : Matrix (Fin m) (Fin n) α) :
    ∃ (Gs : Nat → Nat → Nat → α) (d : Nat → α), Gs 0 = ext A ∧ (∀ k, k < min m n → Step m n k (Gs k) (Gs (k + 1)) (d k)) ∧
      QR.new (ofM A) = .ok (ob m n (Gs (min m n)) d) := by
  have h := loop_post (s := ((ofM A).data, alloc α (min m n)))
    (f := fun minor (s : List α × Buf α) => reflect minor s.1 m n s.2)
    (fun k s => ∃ Gs D d, Gs 0 = ext A ∧ Grid s.1 m n (Gs k) ∧ Vect s.2 (min m n) D ∧ (∀ t, t < k → D t = some (d t)) ∧
      ∀ t, t < k → Step m n t (Gs t) (Gs (t + 1)) (d t))
    (Nat.zero_le (min m n)) ⟨fun _ => ext A, _, fun _ => 0, rfl, grid_ofM A, vect_alloc _, by simp, by simp⟩ (by
    rintro k s - hk ⟨Gs, D, d, h1, h2, h3, h4, h5⟩
    refine (reflect_rnd h2 h3 hk).mono ?_
    rintro s' ⟨G', a, g1, g2, g3⟩
    refine ⟨updv Gs (k + 1) G', _, updv d k a, ?_, ?_, g2, ?_, ?_⟩
    · rw [updv_ne (by omega), h1]
    · rw [updv_same]; exact g1
    · intro t ht
      by_cases e : t = k
      · subst e; simp
      · rw [updv_ne e, updv_ne e, h4 t (by omega)]
    · intro t ht
      by_cases e : t = k
      · subst e
        rw [updv_same, updv_same, updv_ne (by omega)]; exact g3
      · rw [updv_ne (by omega), updv_ne (by omega), updv_ne e]; exact h5 t (by omega))
  obtain ⟨⟨q, rd⟩, hrun, Gs, D, d, h1, h2, h3, h4, h5⟩ := h
  refine ⟨Gs, d, h1, h5, ?_⟩
  unfold QR.new
  simp only [ofM_rows, ofM_cols A hm, ok_bind]
  rw [show (loop 0 (min m n) ((ofM A).data, alloc α (min m n)) fun minor (x : List α × Buf α) =>
    match x with | (q, rdiag) => reflect minor q m n rdiag) = .ok (q, rd) from hrun, ok_bind]
  dsimp only at h2 h3 ⊢
  rw [h2.ofM (Matrix.of fun (i : Fin m) (j : Fin n) => Gs (min m n) i j) (fun _ _ => rfl), Props.C01_new_ofM hm hn, ok_bind, h3.freeze d h4]; rfl

section Access
variable {m n : Nat} (G : Nat → Nat → α) (d : Nat → α)

theorem ob_grid : Grid (ob m n G d).qr.data m n G := by
  refine (grid_ofM (Matrix.of fun (i : Fin m) (j : Fin n) => G i j)).congr fun i j hi hj => ?_
  rw [ext_eq _ hi hj]; rfl

theorem ob_vect : Vect (ob m n G d).rdiag (min m n) d := vect_ofFn d

theorem ob_cols (hm : 0 < m) : (ob m n G d).qr.cols = .ok n := ofM_cols _ hm

/-- The contents of `get_r`. -/
def rmat (m n : Nat) (G : Nat → Nat → α) (d : Nat → α) : Matrix (Fin m) (Fin n) α :=
  Matrix.of fun i j => if i.1 < j.1 then G i j else if i.1 = j.1 then d j else 0

/-- The contents of `get_h`. -/
def hmat (m n : Nat) (G : Nat → Nat → α) : Matrix (Fin m) (Fin n) α :=
  Matrix.of fun i j => if j.1 ≤ i.1 then G i j else 0

theorem getR_rnd (hm : 0 < m) (hn : 0 < n) : (ob m n G d).getR = .ok (ofM (rmat m n G d)) := by
  unfold getR
  rw [ob_cols G d hm, ok_bind]
  have hr : (ob m n G d).qr.rows = m := rfl
  simp only [hr]
  obtain ⟨b, hb, hf⟩ := fill2_ok (m := m) (n := n) (f := fun i j => if i < j then idx (ob m n G d).qr.data (i * n + j)
      else if i = j then idx (ob m n G d).rdiag i else pure 0) (rmat m n G d) (by
    intro i j
    simp only [rmat, Matrix.of_apply]
    by_cases h1 : i.1 < j.1
    · rw [if_pos h1, (ob_grid G d).idx i.2 j.2, if_pos h1]
    · have hi := i.2
      have hj := j.2
      have hjm : j.1 < min m n := by rw [Nat.lt_min]; exact ⟨lt_of_le_of_lt (not_lt.1 h1) hi, hj⟩
      by_cases h2 : i.1 = j.1
      · simp only [h2, if_true, if_false, lt_irrefl, (ob_vect G d).idx hjm]
      · simp only [h1, h2, if_false]; rfl)
  rw [hb, ok_bind, hf, ok_bind, Props.C01_new_ofM hm hn]

theorem getH_rnd (hm : 0 < m) (hn : 0 < n) : (ob m n G d).getH = .ok (ofM (hmat m n G)) := by
  unfold getH
  rw [ob_cols G d hm, ok_bind]
  have hr : (ob m n G d).qr.rows = m := rfl
  simp only [hr]
  obtain ⟨b, hb, hf⟩ := fill2_ok (m := m) (n := n) (f := fun i j => if i ≥ j then idx (ob m n G d).qr.data (i * n + j)
      else pure 0) (hmat m n G) (by
    intro i j
    simp only [hmat, Matrix.of_apply]
    by_cases h1 : j.1 ≤ i.1
    · rw [if_pos h1, (ob_grid G d).idx i.2 j.2, if_pos h1]
    · rw [if_neg h1, if_neg h1]; rfl)
  rw [hb, ok_bind, hf, ok_bind, Props.C01_new_ofM hm hn]

theorem unreflectColumn_rnd {k c : Nat} {q : List α} {Z : Nat → Nat → α} (hq : Grid q m m Z) (hk : k < min m n) (hc : c < m) :
    Post (unreflectColumn (ob m n G d) k m n c q) fun q' => Grid q' m m (fun r j => if j = c then
      app m k (fun r => G r k) (d k * G k k) (fun r => Z r c) r else Z r j) := by
  unfold unreflectColumn
  have hg := ob_grid (m := m) (n := n) G d
  rw [loop_facc_from (op := (· + ·)) (x := fun t => G t k * Z t c) (show k ≤ m by omega) (fun t s h1 h2 => by
    rw [hg.idx h2 (by omega), hq.idx h2 hc]; rfl), ok_bind, (ob_vect G d).idx hk, ok_bind,
    hg.idx (by omega) (by omega), ok_bind, dv_ok, ok_bind]
  refine (axpy_col hq hc _ (fun r q => idx (ob m n G d).qr.data (r * n + k)) (fun r => G r k) ?_).mono
    fun q' h => h.congr fun r j _ _ => ?_
  · intro r q' G' _ hr _ _
    exact hg.idx hr (by omega)
  · by_cases e : j = c
    · subst e
      by_cases h : k ≤ r <;> simp [h, app] <;> rfl
    · simp [e]

/-- One step of `get_q`. -/
structure Back (m k : Nat) (v : Nat → α) (b : α) (Z Z' : Nat → Nat → α) : Prop where
  skip : FloatOps.eq (v k) 0 = true → ∀ r c, Z' r c = Z r c
  left : ∀ r c, c < k → Z' r c = Z r c
  app : FloatOps.eq (v k) 0 = false → ∀ r c, r < m → k ≤ c → c < m → Z' r c = app m k v b (fun r => Z r c) r

/-- The sequence of operations of `get_q`. -/
theorem getQ_rnd (hm : 0 < m) :
    ∃ Zs : Nat → Nat → Nat → α, (∀ i j, Zs (min m n) i j = if i = j ∧ i < min m n then 1 else 0) ∧
      (∀ k, k < min m n → Back m k (fun r => G r k) (d k * G k k) (Zs (k + 1)) (Zs k)) ∧
      (ob m n G d).getQ = .ok (ofM (Matrix.of fun (i j : Fin m) => Zs 0 i j)) := by
  unfold getQ
  rw [ob_cols G d hm, ok_bind]
  have hr : (ob m n G d).qr.rows = m := rfl
  simp only [hr]
  have h1 := loop_post (s := List.replicate (m * m) (0 : α)) (f := fun minor q => setIdx q (minor * m + minor) (1 : α))
    (fun k q => Grid q m m (fun i j => if i = j ∧ i < k then 1 else 0)) (Nat.zero_le (min m n))
    ((grid_replicate m m 0).congr fun i j _ _ => by simp) (by
    intro k q _ hk hq
    refine (hq.setIdx (show k < m by omega) (by omega) _).mono fun q' h => h.congr fun i j _ _ => ?_
    by_cases e : i = k ∧ j = k
    · obtain ⟨rfl, rfl⟩ := e
      rw [upd_same, if_pos (by omega)]
    · rw [upd_ne e]
      by_cases h' : i = j ∧ i < k
      · rw [if_pos h', if_pos (by omega)]
      · rw [if_neg h', if_neg (by omega)])
  obtain ⟨q0, hq0, hG0⟩ := h1
  rw [hq0, ok_bind]
  have h2 := loopRev_post (s := q0) (f := fun minor q => do
      if !(FloatOps.eq (← idx (ob m n G d).qr.data (minor * n + minor)) 0) then
        loop minor m q fun column q => unreflectColumn (ob m n G d) minor m n column q
      else return q)
    (fun k q => ∃ Zs : Nat → Nat → Nat → α, (∀ i j, Zs (min m n) i j = if i = j ∧ i < min m n then 1 else 0) ∧ Grid q m m (Zs k) ∧
      ∀ t, k ≤ t → t < min m n → Back m t (fun r => G r t) (d t * G t t) (Zs (t + 1)) (Zs t)) (Nat.zero_le (min m n))
    ⟨fun _ i j => if i = j ∧ i < min m n then 1 else 0, fun _ _ => rfl, hG0, fun t h1 h2 => by omega⟩ (by
    rintro k q - hk ⟨Zs, hz, hZ, hb⟩
    have hkm : k < m := by omega
    rw [(ob_grid G d).idx hkm (by omega), ok_bind]
    have key : ∀ Z', Back m k (fun r => G r k) (d k * G k k) (Zs (k + 1)) Z' → ∀ t, k ≤ t → t < min m n →
        Back m t (fun r => G r t) (d t * G t t) (updv Zs k Z' (t + 1)) (updv Zs k Z' t) := by
      intro Z' hZ' t h1 h2
      by_cases e : t = k
      · subst e
        rw [updv_same, updv_ne (by omega)]; exact hZ'
      · rw [updv_ne (by omega), updv_ne e]; exact hb t (by omega) h2
    by_cases h0 : FloatOps.eq (G k k) 0 = true
    · rw [if_neg (by simpa using h0)]
      refine Post.ok ⟨updv Zs k (Zs (k + 1)), fun i j => by rw [updv_ne (by omega), hz], by rw [updv_same]; exact hZ,
        key _ ⟨fun _ _ _ => rfl, fun _ _ _ => rfl, fun h => by simp [h0] at h⟩⟩
    · rw [if_pos (by simpa using h0)]
      have hcol := loop_cols (lo := k) (hi := m) (f := fun column q => unreflectColumn (ob m n G d) k m n column q)
        (fun r c => app m k (fun r => G r k) (d k * G k k) (fun r => Zs (k + 1) r c) r) hZ (by
        intro c q' G' h1 h2 hG' hsame
        refine (unreflectColumn_rnd G d hG' hk h2).mono fun q'' h => h.congr fun r j hr hj => ?_
        by_cases e : j = c
        · subst e
          simp only [if_true]
          exact app_congr hr (fun _ _ _ => rfl) fun r _ => hsame r j (by omega)
        · rw [if_neg e, if_neg e])
      refine hcol.mono fun q' hq' => ⟨updv Zs k (fun r c => if k ≤ c ∧ c < m then app m k (fun r => G r k) (d k * G k k) (fun r => Zs (k + 1) r c) r
          else Zs (k + 1) r c), fun i j => by rw [updv_ne (by omega), hz], by rw [updv_same]; exact hq',
        key _ ⟨fun h => absurd h h0, fun r c hc => if_neg (by omega), fun _ r c _ h1 h2 => if_pos ⟨h1, h2⟩⟩⟩)
  obtain ⟨q1, hq1, Zs, hz, hZ, hb⟩ := h2
  refine ⟨Zs, hz, fun k hk => hb k (by omega) hk, ?_⟩
  rw [hq1, ok_bind, hZ.ofM (Matrix.of fun (i j : Fin m) => Zs 0 i j) (fun _ _ => rfl), Props.C01_new_ofM hm hm]

end Access
end Rnd
end QR
end LA
