import Verif.Proofs.LULead
import Verif.Props.QRSigns

/-!
# C98: appended columns and leading blocks

The decompositions work from left to right: the factors of `[A | B]` contain the factors of `A`, bit for bit, and the Cholesky factor of a
matrix contains the factors of its leading blocks.  For every arithmetic in which division and square root always return (`F64` in particular),
for every content of the matrices: no assumption of finiteness, rank or size.
-/

namespace LA.Props
open LA
set_option linter.unusedSectionVars false

variable {α : Type} [Zero α] [One α] [Add α] [Sub α] [Neg α] [Mul α] [FloatOps α] [Fp α] {m n p : Nat}

/-! ## LU -/

/-- C98: `LUDecomposition::new` of `[A | B]`.  Row exchanges made for the columns of `B` (`τ`) do not touch the first `n` rows; apart from them
`L`, `U` and the order of the rows are those of `A`. -/
theorem C98_lu (hm : 0 < m) (hn : 0 < n) (A : Matrix (Fin m) (Fin n) α) (B : Matrix (Fin m) (Fin p) α) :
    ∃ (x y : LU α) (L : Matrix (Fin m) (Fin (min m n)) α) (U : Matrix (Fin (min m n)) (Fin n) α)
      (L' : Matrix (Fin m) (Fin (min m (n + p))) α) (U' : Matrix (Fin (min m (n + p))) (Fin (n + p)) α) (σ τ : Equiv.Perm (Fin m)),
      LU.new (ofM A) = .ok x ∧ x.getL = .ok (ofM L) ∧ x.getU = .ok (ofM U) ∧ x.getPiv = (List.ofFn fun i => (σ i).1) ∧
      ((ofM A).cr (ofM B) >>= LU.new) = .ok y ∧ y.getL = .ok (ofM L') ∧ y.getU = .ok (ofM U') ∧
      y.getPiv = (List.ofFn fun i => (σ (τ i)).1) ∧
      (∀ i : Fin m, i.1 < n → τ i = i) ∧
      (∀ i (k : Fin (min m n)), L' i ⟨k, by omega⟩ = L (τ i) k) ∧
      ∀ (i : Fin (min m n)) (j : Fin n), U' ⟨i, by omega⟩ (Fin.castAdd p j) = U i j := by
  obtain ⟨G, G', σ, τ, pos, pos', e1, e2, h1, h2⟩ := LU.Lead.new_lead (A := A) (A' := Matrix.of fun i => Fin.append (A i) (B i)) hm hn (Nat.le_add_right n p)
    (fun i j => Fin.append_left (A i) (B i) j)
  refine ⟨_, ⟨_, pos', _⟩, _, _, _, _, σ, τ, e1, LU.Rnd.getL_ok G hm hn _ _, LU.Rnd.getU_ok G hm hn _ _, rfl, ?_, LU.Rnd.getL_ok G' hm (by omega) _ _,
    LU.Rnd.getU_ok G' hm (by omega) _ _, rfl, h1, fun i k => ?_, fun i j => ?_⟩
  · rw [(C15_cr A B).1]; exact e2
  · have hk := k.2
    show (if k.1 < i.1 then G' i k else if i.1 = k.1 then 1 else 0) = if k.1 < (τ i).1 then G (τ i) k else if (τ i).1 = k.1 then 1 else 0
    rw [h2 i k (by omega)]
    by_cases hi : i.1 < n
    · rw [h1 i hi]
    · have ht : ¬ (τ i).1 < n := fun h => by
        have := h1 (τ i) h
        rw [τ.injective this] at h
        exact hi h
      rw [if_pos (by omega), if_pos (by omega)]
  · have hi := i.2
    show (if i.1 ≤ j.1 then G' i j else 0) = if i.1 ≤ j.1 then G i j else 0
    have := h2 ⟨i, by omega⟩ j j.2
    rw [h1 ⟨i, by omega⟩ (by dsimp only; omega)] at this
    dsimp only at this
    rw [this]

/-- C98: when `A` has at least as many columns as rows, appending columns changes neither `L` nor the order of the rows. -/
theorem C98_lu_wide (hm : 0 < m) (hmn : m ≤ n) (A : Matrix (Fin m) (Fin n) α) (B : Matrix (Fin m) (Fin p) α) :
    ∃ (x y : LU α) (L : Matrix (Fin m) (Fin m) α) (U : Matrix (Fin m) (Fin n) α) (U' : Matrix (Fin m) (Fin (n + p)) α),
      LU.new (ofM A) = .ok x ∧ ((ofM A).cr (ofM B) >>= LU.new) = .ok y ∧ x.getL = .ok (ofM L) ∧ y.getL = .ok (ofM L) ∧
      x.getU = .ok (ofM U) ∧ y.getU = .ok (ofM U') ∧ x.getPiv = y.getPiv ∧ ∀ i (j : Fin n), U' i (Fin.castAdd p j) = U i j := by
  obtain ⟨x, y, L, U, L', U', σ, τ, h1, h2, h3, h4, h5, h6, h7, h8, h9, h10, h11⟩ := C98_lu hm (by omega) A B
  have ht : τ = 1 := Equiv.ext fun i => h9 i (by omega)
  subst ht
  have key : ∀ (q q' : Nat) (_ : q = m) (_ : q' = m) (hq : q ≤ q') (L : Matrix (Fin m) (Fin q) α) (U : Matrix (Fin q) (Fin n) α)
      (L' : Matrix (Fin m) (Fin q') α) (U' : Matrix (Fin q') (Fin (n + p)) α), x.getL = .ok (ofM L) → x.getU = .ok (ofM U) →
      y.getL = .ok (ofM L') → y.getU = .ok (ofM U') → (∀ i (k : Fin q), L' i ⟨k, by omega⟩ = L i k) →
      (∀ (i : Fin q) (j : Fin n), U' ⟨i, by omega⟩ (Fin.castAdd p j) = U i j) →
      ∃ (L : Matrix (Fin m) (Fin m) α) (U : Matrix (Fin m) (Fin n) α) (U' : Matrix (Fin m) (Fin (n + p)) α),
      x.getL = .ok (ofM L) ∧ y.getL = .ok (ofM L) ∧
      x.getU = .ok (ofM U) ∧ y.getU = .ok (ofM U') ∧ ∀ i (j : Fin n), U' i (Fin.castAdd p j) = U i j := by
    intro q q' e1 e2 _ L U L' U' k1 k2 k3 k4 k5 k6
    subst e1
    subst e2
    have hL : L' = L := by
      ext i k
      exact k5 i k
    subst hL
    exact ⟨_, _, _, k1, k3, k2, k4, k6⟩
  obtain ⟨L, U, U', k1, k2, k3, k4, k5⟩ := key _ _ (by omega) (by omega) (by omega) L U L' U' h2 h3 h6 h7 h10 h11
  exact ⟨x, y, L, U, U', h1, h5, k1, k2, k3, k4, by rw [h4, h8]; rfl, k5⟩

/-! ## QR -/

open QR.Rnd

theorem qr_step {n' k : Nat} {G G' H H' : Nat → Nat → α} {a a' : α} (hn : n ≤ n') (hk : k < min m n) (h : ∀ r j, r < m → j < n → G r j = G' r j)
    (s : Step m n k G H a) (s' : Step m n' k G' H' a') : a = a' ∧ ∀ r j, r < m → j < n → H r j = H' r j := by
  have ha : a = a' := by
    obtain ⟨z, hz, rfl⟩ := s.sqrt
    obtain ⟨z', hz', rfl⟩ := s'.sqrt
    have hc : ∀ r, k ≤ r → r < m → G r k = G' r k := fun r _ hr => h r k hr (by omega)
    rw [dotFrom_congr hc hc, hz'] at hz
    rw [Except.ok.inj hz, h k k (by omega) (by omega)]
  subst ha
  refine ⟨rfl, fun r j hr hj => ?_⟩
  rcases Bool.eq_false_or_eq_true (FloatOps.eq a 0) with h0 | h0
  · rw [s.zero h0, s'.zero h0, h r j hr hj]
  · have hcol : ∀ r, r < m → H r k = H' r k := by
      intro r hr
      by_cases e : r = k
      · subst e; rw [s.diag h0, s'.diag h0, h r r hr (by omega)]
      · rw [s.low r e, s'.low r e, h r k hr (by omega)]
    rcases lt_trichotomy j k with hjk | rfl | hjk
    · rw [s.left r j hjk, s'.left r j hjk, h r j hr hj]
    · exact hcol r hr
    · rw [s.app h0 r j hr hjk hj, s'.app h0 r j hr hjk (by omega), hcol k (by omega)]
      exact app_congr hr (fun r _ hr => hcol r hr) fun r hr => h r j hr hj

/-- C98: `QRDecomposition::new` of `[A | B]`: `H`, `R` and the first columns of `Q` are those of `A`. -/
theorem C98_qr (hm : 0 < m) (hn : 0 < n) (A : Matrix (Fin m) (Fin n) α) (B : Matrix (Fin m) (Fin p) α) :
    ∃ (x y : QR α) (H R : Matrix (Fin m) (Fin n) α) (H' R' : Matrix (Fin m) (Fin (n + p)) α) (Q Q' : Matrix (Fin m) (Fin m) α),
      QR.new (ofM A) = .ok x ∧ x.getH = .ok (ofM H) ∧ x.getR = .ok (ofM R) ∧ x.getQ = .ok (ofM Q) ∧
      ((ofM A).cr (ofM B) >>= QR.new) = .ok y ∧ y.getH = .ok (ofM H') ∧ y.getR = .ok (ofM R') ∧ y.getQ = .ok (ofM Q') ∧
      (∀ i j, H' i (Fin.castAdd p j) = H i j) ∧ (∀ i j, R' i (Fin.castAdd p j) = R i j) ∧
      ∀ i (j : Fin m), j.1 < n → Q' i j = Q i j := by
  obtain ⟨Gs, d, g0, gs, e⟩ := new_rnd hm hn A
  obtain ⟨Gs', d', g0', gs', e'⟩ := new_rnd hm (show 0 < n + p by omega) (Matrix.of fun i => Fin.append (A i) (B i))
  have h1 : ∀ k, k ≤ min m n → ∀ r j, r < m → j < n → Gs k r j = Gs' k r j := by
    intro k
    induction k with
    | zero =>
      intro _ r j hr hj
      rw [g0, g0', ext_eq A hr hj, ext_eq _ hr (by omega)]
      exact (Fin.append_left (A ⟨r, hr⟩) (B ⟨r, hr⟩) ⟨j, hj⟩).symm
    | succ k ih =>
      intro hk
      exact (qr_step (Nat.le_add_right n p) hk (ih (by omega)) (gs k hk) (gs' k (by omega))).2
  have hd : ∀ k, k < min m n → d k = d' k := fun k hk =>
    (qr_step (Nat.le_add_right n p) hk (h1 k hk.le) (gs k hk) (gs' k (by omega))).1
  have h2 : ∀ k, min m n ≤ k → k ≤ min m (n + p) → ∀ r j, r < m → j < n → Gs (min m n) r j = Gs' k r j := by
    intro k hk
    induction k, hk using Nat.le_induction with
    | base => exact fun _ => h1 _ le_rfl
    | succ k hk ih =>
      intro hk' r j hr hj
      rw [ih (by omega) r j hr hj, (gs' k (by omega)).left r j (by omega)]
  have hG := h2 (min m (n + p)) (by omega) le_rfl
  generalize Gs (min m n) = G at *
  generalize Gs' (min m (n + p)) = G' at *
  obtain ⟨Zs, z0, zs, ez⟩ := getQ_rnd (n := n) G d hm
  obtain ⟨Zs', z0', zs', ez'⟩ := getQ_rnd (n := n + p) G' d' hm
  refine ⟨_, _, _, _, _, _, _, _, e, getH_rnd _ _ hm hn, getR_rnd _ _ hm hn, ez, ?_, getH_rnd _ _ hm (by omega), getR_rnd _ _ hm (by omega), ez', ?_, ?_, ?_⟩
  · rw [(C15_cr A B).1]; exact e'
  · intro i j
    show (if j.1 ≤ i.1 then G' i j else 0) = if j.1 ≤ i.1 then G i j else 0
    rw [hG i j i.2 j.2]
  · intro i j
    show (if i.1 < j.1 then G' i j else if i.1 = j.1 then d' j else 0) = if i.1 < j.1 then G i j else if i.1 = j.1 then d j else 0
    rw [hG i j i.2 j.2]
    by_cases hij : i.1 = j.1
    · rw [hd j (by omega)]
    · rw [if_neg hij, if_neg hij]
  · intro i j hj
    show Zs' 0 i j = Zs 0 i j
    -- the later reflections leave the first columns alone
    have k1 : ∀ k, k ≤ min m (n + p) → min m n ≤ k → ∀ r c, r < m → c < n → Zs' k r c = Zs' (min m (n + p)) r c := by
      intro k hk
      induction hk using Nat.decreasingInduction with
      | self => intros; rfl
      | of_succ k hk ih =>
        intro hmk r c hr hc
        rw [(zs' k hk).left r c (by omega), ih (by omega) r c hr hc]
    have k2 : ∀ k, k ≤ min m n → ∀ r c, r < m → c < n → c < m → Zs' k r c = Zs k r c := by
      intro k hk
      induction hk using Nat.decreasingInduction with
      | self =>
        intro r c hr hc hcm
        rw [k1 (min m n) (by omega) le_rfl r c hr hc, z0, z0']
        by_cases hrc : r = c
        · rw [if_pos (by omega), if_pos (by omega)]
        · rw [if_neg (by omega), if_neg (by omega)]
      | of_succ k hk ih =>
        intro r c hr hc hcm
        have b := zs k hk
        have b' := zs' k (by omega)
        have hkk := hG k k (by omega) (by omega)
        rcases Nat.lt_or_ge c k with hck | hck
        · rw [b.left r c hck, b'.left r c hck, ih r c hr hc hcm]
        · rcases Bool.eq_false_or_eq_true (FloatOps.eq (G k k) 0) with h0 | h0
          · rw [b.skip h0, b'.skip (by rw [← hkk]; exact h0), ih r c hr hc hcm]
          · rw [b.app h0 r c hr hck hcm, b'.app (by rw [← hkk]; exact h0) r c hr hck hcm, ← hkk, ← hd k hk]
            exact app_congr hr (fun r _ hr => (hG r k hr (by omega)).symm) fun r hr => ih r c hr hc hcm
    exact k2 0 (Nat.zero_le _) i j i.2 hj j.2

/-! ## Cholesky -/

open Cholesky.Rnd

theorem part_unique {n n' : Nat} {A A' L L' : Nat → Nat → α} {j : Nat} (hA : ∀ i k, i ≤ j → i < n → k ≤ i → A i k = A' i k)
    (h : ∀ i k, i ≤ j → i < n → k < i → RDiv.rdiv (A i k - fdot (fun t => L k t) (fun t => L i t) k) (L k k) = .ok (L i k))
    (h' : ∀ i k, i ≤ j → i < n → k < i → RDiv.rdiv (A' i k - fdot (fun t => L' k t) (fun t => L' i t) k) (L' k k) = .ok (L' i k))
    (d : ∀ i, i < j → FloatOps.sqrt (A i i - fdot (fun t => L i t) (fun t => L i t) i) = .ok (L i i))
    (d' : ∀ i, i < j → FloatOps.sqrt (A' i i - fdot (fun t => L' i t) (fun t => L' i t) i) = .ok (L' i i)) :
    ∀ i k, i ≤ j → i < n → k ≤ i → k < j → L i k = L' i k := by
  intro i
  induction i using Nat.strong_induction_on with
  | _ i ihi =>
    intro k
    induction k using Nat.strong_induction_on with
    | _ k ihk =>
      intro hi hin hk hkj
      have hr : ∀ t, t < k → L i t = L' i t := fun t ht => ihk t ht hi hin (by omega) (by omega)
      rcases Nat.lt_or_ge k i with hki | hki
      · have e := h i k hi hin hki
        have e' := h' i k hi hin hki
        have hkk := ihi k hki k (by omega) (by omega) le_rfl hkj
        rw [hA i k hi hin hk, fdot_congr (fun t ht => ⟨ihi k hki t (by omega) (by omega) ht.le (by omega), hr t ht⟩), hkk, e'] at e
        exact (Except.ok.inj e).symm
      · obtain rfl : k = i := by omega
        have e := d k hkj
        have e' := d' k hkj
        rw [hA k k hi hin le_rfl, fdot_congr (fun t ht => ⟨hr t ht, hr t ht⟩), e'] at e
        exact (Except.ok.inj e).symm

/-- C98: the Cholesky factor of a leading block is the leading block of the Cholesky factor. -/
theorem C98_cholesky (hn : 0 < n) (A : Matrix (Fin (n + p)) (Fin (n + p)) α) {c : Cholesky α} (hc : Cholesky.new (ofM A) = .ok (some c)) :
    ∃ L : Matrix (Fin (n + p)) (Fin (n + p)) α, c.getL = ofM L ∧ ∃ c' : Cholesky α,
      Cholesky.new (ofM (A.submatrix (Fin.castAdd p) (Fin.castAdd p))) = .ok (some c') ∧
      c'.getL = ofM (L.submatrix (Fin.castAdd p) (Fin.castAdd p)) := by
  obtain ⟨o, ho, hp⟩ := new_post (show 0 < n + p by omega) A
  rw [hc] at ho
  obtain rfl := Except.ok.inj ho
  obtain ⟨L, rfl, hL⟩ := hp
  refine ⟨_, rfl, ?_⟩
  obtain ⟨o', ho', hp'⟩ := new_post hn (A.submatrix (Fin.castAdd p) (Fin.castAdd p))
  have hA : ∀ i k, i < n → k < n → ext (A.submatrix (Fin.castAdd p) (Fin.castAdd p)) i k = ext A i k := by
    intro i k hi hk
    rw [ext_eq _ hi hk, ext_eq _ (show i < n + p by omega) (show k < n + p by omega)]; rfl
  rcases o' with _ | c'
  · exfalso
    rcases hp' with ⟨i, k, hi, hk, he⟩ | ⟨j, L', hj, hpt, hr, hl⟩
    · rw [hA k i (by omega) hi, hA i k hi (by omega), hL.symm i k (by omega) hk] at he
      cases he
    · have hs := part_unique (n' := n) (n := n) (L := L) (L' := L') (j := j) (fun i k hi hin hk => (hA i k hin (by omega)).symm)
        (fun i k hi hin hk => hL.lo i k (by omega) hk) (fun i k hi hin hk => by
          rcases Nat.lt_or_ge i j with hij | hij
          · exact hpt.lo i k hij hk
          · obtain rfl : i = j := by omega
            exact hr k hk) (fun i hi => (hL.dg i (by omega)).1) (fun i hi => (hpt.dg i hi).1) j
      have hl' := (hL.dg j (by omega)).2
      rw [fdot_congr (fun t ht => ⟨hs t le_rfl hj ht.le ht, hs t le_rfl hj ht.le ht⟩), ← hA j j hj hj, hl] at hl'
      cases hl'
  · obtain ⟨L', rfl, hL'⟩ := hp'
    refine ⟨_, ho', ?_⟩
    show ofM _ = ofM _
    congr 1
    ext i k
    show L' i k = L i k
    have hi := i.2
    have hk := k.2
    rcases Nat.lt_or_ge i k with hik | hik
    · rw [hL.zero i k (by omega) hik, hL'.zero i k hi hik]
    · exact (part_unique (n' := n) (n := n) (L := L) (L' := L') (j := n) (fun i k hi hin hk => (hA i k hin (by omega)).symm)
        (fun i k _ hi hk => hL.lo i k (by omega) hk) (fun i k _ hi hk => hL'.lo i k hi hk) (fun i hi => (hL.dg i (by omega)).1)
        (fun i hi => (hL'.dg i hi).1) i k hi.le hi hik hk).symm

/-- C98: a matrix with a leading block that has no Cholesky decomposition has none. -/
theorem C98_cholesky_none (hn : 0 < n) (A : Matrix (Fin (n + p)) (Fin (n + p)) α)
    (h : Cholesky.new (ofM (A.submatrix (Fin.castAdd p) (Fin.castAdd p))) = .ok none) : Cholesky.new (ofM A) = .ok none := by
  obtain ⟨o, ho, -⟩ := new_post (show 0 < n + p by omega) A
  rcases o with _ | c
  · exact ho
  · obtain ⟨L, -, c', h', -⟩ := C98_cholesky hn A ho
    rw [h] at h'
    cases h'

section Examples
open F64

/-- The second column of `4, 1; 2, 1; 1, 3` exchanges rows 2 and 3 of the factor of the first. -/
example : (LU.new (ofM !![dec 4 0; dec 2 0; dec 1 0]) >>= fun x => x.getL) = .ok (ofM !![1; dec 5 (-1); dec 25 (-2)]) ∧
    ((ofM !![dec 4 0; dec 2 0; dec 1 0]).cr (ofM !![dec 1 0; dec 1 0; dec 3 0]) >>= LU.new >>= fun x => return x.getPiv) = .ok [0, 2, 1] ∧
    ((ofM !![dec 4 0; dec 2 0; dec 1 0]).cr (ofM !![dec 1 0; dec 1 0; dec 3 0]) >>= LU.new >>= fun x => do
      return (← (← x.getL).get 1 0, ← (← x.getL).get 2 0)) = .ok (dec 25 (-2), dec 5 (-1)) :=
  ⟨by decide +kernel, by decide +kernel, by decide +kernel⟩

example : (QR.new (ofM !![dec 3 0; dec 4 0]) >>= fun x => x.getR) = .ok (ofM !![dec (-5) 0; 0]) ∧
    ((ofM !![dec 3 0; dec 4 0]).cr (ofM !![dec 5 0; dec 10 0]) >>= QR.new >>= fun x => x.getR) =
      .ok (ofM !![dec (-5) 0, dec (-11) 0; 0, dec (-2) 0]) := ⟨by decide +kernel, by decide +kernel⟩

example : (Cholesky.new (ofM !![dec 4 0, dec 2 0; dec 2 0, dec 5 0]) >>= fun o => return o.map fun c => c.getL) =
      .ok (some (ofM !![dec 2 0, 0; dec 1 0, dec 2 0])) ∧
    (Cholesky.new (ofM (!![dec 4 0, dec 2 0; dec 2 0, dec 5 0].submatrix (Fin.castAdd 1) (Fin.castAdd 1) : Matrix (Fin 1) (Fin 1) F64)) >>= fun o =>
      return o.map fun c => c.getL) = .ok (some (ofM !![dec 2 0])) ∧
    Cholesky.new (ofM (!![dec (-4) 0, dec 2 0; dec 2 0, dec 5 0].submatrix (Fin.castAdd 1) (Fin.castAdd 1) : Matrix (Fin 1) (Fin 1) F64)) = .ok none :=
  ⟨by decide +kernel, by decide +kernel, by decide +kernel⟩

end Examples

end LA.Props
