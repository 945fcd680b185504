import Verif.Proofs.SVDDiag2

/-! # `SVD::new` on a diagonal `f64` matrix: the main loop only fixes signs and sorts -/

set_option linter.unusedSectionVars false

namespace LA
open F64 Props Matrix
namespace SVD.Dg

/-- Neither NaN nor negative. -/
def NN (x : F64) : Prop := x = .inf false ∨ ∃ a h, x = .fin false a h

theorem NN.mk (a b : Nat) : NN (F64.mk false a b) := by
  unfold F64.mk
  split
  · exact Or.inr ⟨_, _, rfl⟩
  · exact Or.inl rfl

theorem NN.abs {x : F64} (h : x.isFin) : NN (F64.abs x) := by
  rcases x with _ | s | ⟨s, a, ha⟩
  · exact absurd h (by simp [F64.isFin])
  · exact absurd h (by simp [F64.isFin])
  · exact Or.inr ⟨_, _, rfl⟩

theorem NN.add {x y : F64} (hx : NN x) (hy : NN y) : NN (x + y) := by
  show NN (F64.add x y)
  rcases hx with rfl | ⟨a, ha, rfl⟩ <;> rcases hy with rfl | ⟨b, hb, rfl⟩
  · exact Or.inl rfl
  · exact Or.inl rfl
  · exact Or.inl rfl
  · unfold F64.add
    dsimp only
    split
    · exact Or.inr ⟨_, _, rfl⟩
    · have : decide (sgn false a + sgn false b < 0) = false := by rw [decide_eq_false]; simp only [sgn]; simp; omega
      rw [this]; exact NN.mk _ _

theorem NN.mul {x y : F64} (hx : ∃ a h, 0 < a ∧ x = .fin false a h) (hy : NN y) : NN (x * y) := by
  show NN (F64.mul x y)
  obtain ⟨a, ha, h0, rfl⟩ := hx
  rcases hy with rfl | ⟨b, hb, rfl⟩
  · unfold F64.mul
    dsimp only
    rw [if_neg (by omega)]; exact Or.inl rfl
  · exact NN.mk _ _

theorem NN.zero_le {z y : F64} (hz : F64.isZero z) (hy : NN y) : (FloatOps.le (FloatOps.abs z) y : Bool) = true := by
  obtain ⟨s, rfl⟩ := isZero_iff.1 hz
  rcases hy with rfl | ⟨b, hb, rfl⟩
  · rfl
  · show decide (sgn false 0 ≤ sgn false b) = true
    rw [decide_eq_true]; simp [sgn]

theorem eps_form : ∃ a h, 0 < a ∧ (eps : F64) = .fin false a h := ⟨2 ^ 1022, by decide +kernel, by decide +kernel, by decide +kernel⟩
theorem tiny_form : NN (tiny : F64) := Or.inr ⟨2 ^ 108, by decide +kernel, by decide +kernel⟩

theorem findE_diag {n c : Nat} {sb eb : Buf F64} {s e : Nat → F64} (hs : Vect sb n fun j => some (s j)) (he : Vect eb n fun j => some (e j)) (hc : c < n)
    (hf : ∀ j, j < n → (s j).isFin) (h0 : ∀ j, j < n → F64.isZero (e j)) :
    Post (findE sb c eb) fun x => x.1 = c ∧ ∃ e' : Nat → F64, Vect x.2 n (fun j => some (e' j)) ∧ ∀ j, j < n → F64.isZero (e' j) := by
  cases c with
  | zero => exact Post.ok ⟨rfl, e, he, h0⟩
  | succ k =>
    unfold findE
    have hle : (FloatOps.le (FloatOps.abs (e k)) (tiny + eps * (FloatOps.abs (s k) + FloatOps.abs (s (k + 1)))) : Bool) = true :=
      NN.zero_le (h0 k (by omega)) (tiny_form.add (NN.mul eps_form ((NN.abs (hf k (by omega))).add (NN.abs (hf (k + 1) hc)))))
    rw [he.rd (i := k) (by omega) rfl, ok_bind, hs.rd (i := k) (by omega) rfl, ok_bind, hs.rd hc rfl, ok_bind,
      if_pos hle]
    refine (he.wr (i := k) (by omega) 0).bind fun e' he' => Post.ok ⟨rfl, fun j => if j = k then 0 else e j, he'.congr fun j _ => ?_, fun j hj => ?_⟩
    · beta_reduce; unfold updv; split <;> rfl
    · beta_reduce
      split
      · exact (show F64.isZero (0 : F64) from rfl)
      · exact h0 j hj

/-- The state of the main loop: signed unit vectors, and the singular values found so far. -/
structure MD (m n : Nat) (D : Nat → F64) (st : Main F64) (s e : Nat → F64) (U V : Nat → Nat → F64) (π : Equiv.Perm Nat) (g h : Nat → ℤˣ) : Prop where
  bs : Vect st.s n fun j => some (s j)
  be : Vect st.e n fun j => some (e j)
  bu : Grid st.u m m fun i j => some (U i j)
  bv : Grid st.v n n fun i j => some (V i j)
  fix : ∀ j, n ≤ j → π j = j
  u : ∀ i j, i < m → j < m → Agree (U i j) (if i = π j then sg (g j) 1 else 0)
  v : ∀ i j, i < n → j < n → Agree (V i j) (if i = π j then sg (h j) 1 else 0)
  s : ∀ j, j < n → Agree (s j) (sg (g j * h j) (D (π j)))
  e : ∀ j, j < n → F64.isZero (e j)

/-- Values found from `q` on: absolute values of entries, in descending order. -/
def Sorted (n q : Nat) (D : Nat → F64) (s : Nat → F64) (π : Equiv.Perm Nat) : Prop :=
  (∀ j, q ≤ j → j < n → s j = F64.abs (D (π j))) ∧ ∀ i j, q ≤ i → i ≤ j → j < n → F64.toReal (s j) ≤ F64.toReal (s i)

theorem MD.lt {m n : Nat} {D : Nat → F64} {st : Main F64} {s e : Nat → F64} {U V : Nat → Nat → F64} {π : Equiv.Perm Nat} {g h : Nat → ℤˣ}
    (hM : MD m n D st s e U V π g h) {j : Nat} (hj : j < n) : π j < n := by
  by_contra hc
  have := hM.fix (π j) (by omega)
  have := π.injective this
  omega

theorem MD.fin {m n : Nat} {D : Nat → F64} {st : Main F64} {s e : Nat → F64} {U V : Nat → Nat → F64} {π : Equiv.Perm Nat} {g h : Nat → ℤˣ}
    (hM : MD m n D st s e U V π g h) (hD : ∀ j, j < n → (D j).isFin) {j : Nat} (hj : j < n) : (s j).isFin := by
  refine agree_fin (hM.s j hj) ?_
  unfold sg
  split
  · exact hD _ (hM.lt hj)
  · exact neg_fin' (hD _ (hM.lt hj))

theorem fix_value {x : F64} (hx : x.isFin) (h : (FloatOps.le x 0 : Bool) = true) : (if FloatOps.lt x 0 then -x else 0) = F64.abs x ∧ Agree (F64.abs x) (-x) := by
  rcases x with _ | s | ⟨s, a, ha⟩
  · exact absurd hx (by simp [F64.isFin])
  · exact absurd hx (by simp [F64.isFin])
  · have e1 : (FloatOps.lt (F64.fin s a ha) 0 : Bool) = decide (sgn s a < 0) := rfl
    have e2 : (FloatOps.le (F64.fin s a ha) 0 : Bool) = decide (sgn s a ≤ 0) := rfl
    rw [e2, decide_eq_true_iff] at h
    rw [e1]
    cases s
    · have : a = 0 := by simp [sgn] at h; exact h
      subst this
      exact ⟨rfl, Or.inr ⟨rfl, rfl⟩⟩
    · by_cases h0 : a = 0
      · subst h0; exact ⟨rfl, Or.inl rfl⟩
      · rw [decide_eq_true (by simp [sgn]; omega)]
        exact ⟨rfl, Or.inl rfl⟩

theorem pos_value {x : F64} (hx : x.isFin) (h : (FloatOps.le x 0 : Bool) = false) : x = F64.abs x := by
  rcases x with _ | s | ⟨s, a, ha⟩
  · exact absurd hx (by simp [F64.isFin])
  · exact absurd hx (by simp [F64.isFin])
  · have e2 : (FloatOps.le (F64.fin s a ha) 0 : Bool) = decide (sgn s a ≤ 0) := rfl
    rw [e2, decide_eq_false_iff_not] at h
    cases s
    · rfl
    · exact absurd (by simp [sgn]) h

theorem sg_neg (g : ℤˣ) (x : F64) : sg (-g) x = -(sg g x) := by
  rcases Int.units_eq_one_or g with rfl | rfl
  · simp [sg]
  · simp [sg, neg_neg]

theorem fixSign_diag {m n q : Nat} {D : Nat → F64} (hD : ∀ j, j < n → (D j).isFin) {st : Main F64} {s e : Nat → F64} {U V : Nat → Nat → F64} {π : Equiv.Perm Nat}
    {g h : Nat → ℤˣ} (hM : MD m n D st s e U V π g h) (hq : q < n) :
    Post (fixSign n (n - 1) q st) fun st' => ∃ s' V' h', MD m n D st' s' e U V' π g h' ∧ s' q = F64.abs (D (π q)) ∧ ∀ j, j ≠ q → s' j = s j := by
  have hfin := hM.fin hD hq
  have habs : F64.abs (s q) = F64.abs (D (π q)) := SA.abs (hM.s q hq)
  unfold fixSign
  rw [hM.bs.rd hq rfl, ok_bind]
  cases hle : (FloatOps.le (s q) 0 : Bool)
  · rw [if_neg (by simp)]
    exact Post.ok ⟨s, V, h, hM, by rw [← habs]; exact pos_value hfin hle, fun _ _ => rfl⟩
  · rw [if_pos rfl, (fix_value hfin hle).1]
    have hag := (fix_value hfin hle).2
    refine (hM.bs.wr hq _).bind fun s1 hs1 => ?_
    rw [show n - 1 + 1 = n by omega]
    refine (loop_rows (lo := 0) (hi := n) (fun i c => some (if c = q then -(V i q) else V i c)) hM.bv ?_).bind fun v1 hv1 => Post.ok ?_
    · intro i d' G' _ hi hG' hsame
      rw [hG'.rd hi hq (hsame i q (by omega)), ok_bind]
      refine (hG'.wr hi hq _).mono fun d2 h2 => h2.congr fun r c _ _ => ?_
      have := hsame i c (by omega)
      unfold upd
      grind
    · refine ⟨fun j => if j = q then F64.abs (s q) else s j, fun i c => if c = q then -(V i q) else V i c, fun j => if j = q then -(h q) else h j,
        ⟨hs1.congr fun j _ => ?_, hM.be, hM.bu, hv1.congr fun i c hi _ => if_pos ⟨Nat.zero_le _, hi⟩, hM.fix, hM.u, fun i j hi hj => ?_, fun j hj => ?_, hM.e⟩, ?_, fun j hj => ?_⟩
      · beta_reduce; unfold updv; split <;> rfl
      · beta_reduce
        by_cases ej : j = q
        · subst ej
          rw [if_pos rfl, if_pos rfl]
          have := (hM.v i j hi hj).neg
          by_cases ei : i = π j
          · rw [if_pos ei] at this ⊢
            rwa [sg_neg]
          · rw [if_neg ei] at this ⊢
            exact agree_of_zeros ((agree_zero this).2 (show F64.isZero (-(0 : F64)) from rfl)) (show F64.isZero (0 : F64) from rfl)
        · rw [if_neg ej, if_neg ej]; exact hM.v i j hi hj
      · beta_reduce
        by_cases ej : j = q
        · subst ej
          rw [if_pos rfl, if_pos rfl, _root_.mul_neg, sg_neg]
          exact hag.trans (hM.s j hj).neg
        · rw [if_neg ej, if_neg ej]; exact hM.s j hj
      · beta_reduce; rw [if_pos rfl, habs]
      · beta_reduce; rw [if_neg hj]

theorem swapCols_f64 {N k : Nat} {d : Buf F64} {F : Nat → Nat → F64} (h : Grid d N N fun i j => some (F i j)) (hk : k + 1 < N) :
    Post (swapCols N k d) fun d' => Grid d' N N fun i j => some (F i (Equiv.swap k (k + 1) j)) := by
  unfold swapCols
  refine (loop_rows (lo := 0) (hi := N) (fun i c => some (F i (Equiv.swap k (k + 1) c))) h ?_).mono fun d' h' => h'.congr fun i c hi _ => if_pos ⟨Nat.zero_le _, hi⟩
  intro i d' G' _ hi hG' hsame
  have e1 : G' i k = some (F i k) := hsame i k (by omega)
  have e2 : G' i (k + 1) = some (F i (k + 1)) := hsame i (k + 1) (by omega)
  rw [hG'.rd hi hk e2, ok_bind, hG'.rd hi (by omega) e1, ok_bind]
  refine (hG'.wr hi hk _).bind fun d1 h1 => (h1.wr hi (show k < N by omega) _).mono fun d2 h2 => h2.congr fun r c _ _ => ?_
  have e3 := hsame i c (by omega)
  simp only [upd, Equiv.swap_apply_def]
  grind

/-- Exchange of two neighbours. -/
theorem MD.swap {m n c : Nat} {D : Nat → F64} {st st' : Main F64} {s e : Nat → F64} {U V : Nat → Nat → F64} {π : Equiv.Perm Nat} {g h : Nat → ℤˣ}
    (hM : MD m n D st s e U V π g h) (hc : c + 1 < n) (hnm : n ≤ m) (b1 : Vect st'.s n fun j => some (s (Equiv.swap c (c + 1) j)))
    (b2 : st'.e = st.e) (b3 : Grid st'.u m m fun i j => some (U i (Equiv.swap c (c + 1) j))) (b4 : Grid st'.v n n fun i j => some (V i (Equiv.swap c (c + 1) j))) :
    MD m n D st' (s ∘ Equiv.swap c (c + 1)) e (fun i j => U i (Equiv.swap c (c + 1) j)) (fun i j => V i (Equiv.swap c (c + 1) j)) (π * Equiv.swap c (c + 1))
      (g ∘ Equiv.swap c (c + 1)) (h ∘ Equiv.swap c (c + 1)) := by
  have hw : ∀ N, c + 1 < N → ∀ j, j < N → Equiv.swap c (c + 1) j < N := by
    intro N hN j hj
    rw [Equiv.swap_apply_def]
    split
    · exact hN
    · split <;> omega
  refine ⟨b1, by rw [b2]; exact hM.be, b3, b4, fun j hj => ?_, fun i j hi hj => ?_, fun i j hi hj => ?_, fun j hj => ?_, hM.e⟩
  · rw [Equiv.Perm.mul_apply, Equiv.swap_apply_of_ne_of_ne (by omega) (by omega)]; exact hM.fix j hj
  · exact hM.u i _ hi (hw m (by omega) j hj)
  · exact hM.v i _ hi (hw n hc j hj)
  · exact hM.s _ (hw n hc j hj)

theorem le_of_not {x y : F64} (hx : x.isFin) (hy : y.isFin) : (FloatOps.le y x : Bool) = true ↔ F64.toReal y ≤ F64.toReal x := Fp.le y x hy hx

theorem order_diag {m n q : Nat} {D : Nat → F64} (hD : ∀ j, j < n → (D j).isFin) (hnm : n ≤ m) {st : Main F64} {s e : Nat → F64} {U V : Nat → Nat → F64} {π : Equiv.Perm Nat}
    {g h : Nat → ℤˣ} (hM : MD m n D st s e U V π g h) (hq : q < n) (h1 : s q = F64.abs (D (π q))) (h2 : Sorted n (q + 1) D s π) :
    Post (order m n (n - 1) q st) fun st' => ∃ s' U' V' π' g' h', MD m n D st' s' e U' V' π' g' h' ∧ Sorted n q D s' π' := by
  unfold order
  let I : Nat → Main F64 → Prop := fun c st => ∃ s' U' V' π' g' h', MD m n D st s' e U' V' π' g' h' ∧ (∀ j, q ≤ j → j < n → s' j = F64.abs (D (π' j))) ∧
      (∀ i j, q ≤ i → i ≤ j → j < n → i ≠ c → F64.toReal (s' j) ≤ F64.toReal (s' i))
  have hl := loopF_post (lo := q) (hi := n - 1) (s := st) (ρ := Main F64) (f := fun k st => (do
    let x ← rd st.s k
    let y ← rd st.s (k + 1)
    if FloatOps.le y x then return Flow.ret st
    else
      let s ← wr st.s k y
      let s ← wr s (k + 1) x
      let v ← (do if k + 1 < n then swapCols n k st.v else return st.v)
      let u ← (do if k + 1 < m then swapCols m k st.u else return st.u)
      return Flow.next ⟨s, st.e, u, v⟩ : R (Flow (Main F64) (Main F64)))) I (fun st => I (n - 1) st) (by omega)
    ⟨s, U, V, π, g, h, hM, fun j hj hjn => by
      by_cases ej : j = q
      · subst ej; exact h1
      · exact h2.1 j (by omega) hjn, fun i j a1 a2 a3 a4 => h2.2 i j (by omega) a2 a3⟩ (by
    rintro c st1 hc1 hc2 ⟨s1, U1, V1, π1, g1, h1', r1, r2, r3⟩
    have f1 := r1.fin hD (j := c) (by omega)
    have f2 := r1.fin hD (j := c + 1) (by omega)
    rw [r1.bs.rd (i := c) (by omega) rfl, ok_bind, r1.bs.rd (i := c + 1) (by omega) rfl, ok_bind]
    by_cases hle : (FloatOps.le (s1 (c + 1)) (s1 c) : Bool) = true
    · rw [if_pos hle]
      rw [le_of_not f1 f2] at hle
      refine Post.ok ⟨s1, U1, V1, π1, g1, h1', r1, r2, ?_⟩
      intro i j h1 h2 h3 h4
      by_cases hic : i = c
      · subst hic
        rcases h2.lt_or_eq with h5 | h5
        · exact (r3 (i + 1) j (by omega) (by omega) h3 (by omega)).trans hle
        · rw [h5]
      · exact r3 i j h1 h2 h3 hic
    · rw [if_neg hle]
      rw [le_of_not f1 f2] at hle
      have hlt := (not_le.1 hle).le
      refine (r1.bs.wr (i := c) (by omega) _).bind fun x1 hx1 => (hx1.wr (i := c + 1) (by omega) _).bind fun x2 hx2 => ?_
      rw [if_pos (show c + 1 < n by omega), if_pos (show c + 1 < m by omega)]
      refine (swapCols_f64 r1.bv (k := c) (by omega)).bind fun v1 hv1 => (swapCols_f64 r1.bu (k := c) (by omega)).bind fun u1 hu1 => ?_
      refine Post.ok ⟨_, _, _, _, _, _, r1.swap (c := c) (by omega) hnm (hx2.congr fun j _ => ?_) rfl hu1 hv1, fun j hj hjn => ?_, fun i j a1 a2 a3 a4 => ?_⟩
      · simp only [updv, Equiv.swap_apply_def]; grind
      · rw [Equiv.Perm.mul_apply, Function.comp_apply]
        refine r2 _ ?_ ?_ <;> · rw [Equiv.swap_apply_def]; grind
      · simp only [Function.comp_apply]
        by_cases hic : i = c
        · subst hic
          rw [Equiv.swap_apply_left]
          by_cases hj1 : j = i
          · subst hj1; rw [Equiv.swap_apply_left]
          · by_cases hj2 : j = i + 1
            · subst hj2; rw [Equiv.swap_apply_right]; exact hlt
            · rw [Equiv.swap_apply_of_ne_of_ne hj1 hj2]; exact r3 (i + 1) j (by omega) (by omega) a3 (by omega)
        · rw [Equiv.swap_apply_of_ne_of_ne (a := c) (b := c + 1) hic a4]
          refine r3 i _ a1 ?_ ?_ hic <;> · rw [Equiv.swap_apply_def]; grind)
  have hfin : ∀ st', I (n - 1) st' → ∃ s' U' V' π' g' h', MD m n D st' s' e U' V' π' g' h' ∧ Sorted n q D s' π' := by
    rintro st' ⟨s', U', V', π', g', h', r1, r2, r3⟩
    refine ⟨s', U', V', π', g', h', r1, r2, ?_⟩
    intro i j h1 h2 h3
    by_cases hi : i = n - 1
    · rw [show j = i by omega]
    · exact r3 i j h1 h2 h3 hi
  obtain ⟨o, ho, hI⟩ := hl
  rw [ho, ok_bind]
  match o, hI with
  | .next st', hI => exact Post.ok (hfin st' hI)
  | .ret st', hI => exact Post.ok (hfin st' hI)

/-- The main loop: one iteration per value. -/
theorem iterate_diag {m n : Nat} {D : Nat → F64} (hD : ∀ j, j < n → (D j).isFin) (hnm : n ≤ m) : ∀ (p fuel : Nat) (st : Main F64), p ≤ n → p ≤ fuel →
    (∃ s e U V π g h, MD m n D st s e U V π g h ∧ Sorted n p D s π) →
    Post (iterate m n (n - 1) fuel p st) fun st' => ∃ s e U V π g h, MD m n D st' s e U V π g h ∧ Sorted n 0 D s π := by
  intro p
  induction p with
  | zero => intro fuel st _ _ h; cases fuel <;> exact Post.ok h
  | succ p ih =>
    intro fuel st hp hf ⟨s, e, U, V, π, g, h, hM, hS⟩
    obtain ⟨fuel, rfl⟩ : ∃ f, fuel = f + 1 := ⟨fuel - 1, by omega⟩
    unfold iterate step
    simp only [Nat.add_sub_cancel]
    obtain ⟨⟨k1, e1⟩, he1, hk1, e', hve, hze⟩ := findE_diag hM.bs hM.be (show p < n by omega) (fun j hj => hM.fin hD hj) hM.e
    dsimp only at hk1 hve
    subst hk1
    rw [he1]
    simp only [ok_bind, if_true]
    have hM' : MD m n D { st with e := e1 } s e' U V π g h := ⟨hM.bs, hve, hM.bu, hM.bv, hM.fix, hM.u, hM.v, hM.s, hze⟩
    obtain ⟨st1, hst1, s1, V1, h1, r1, r2, r3⟩ := fixSign_diag hD hM' (show k1 < n by omega)
    rw [hst1, ok_bind]
    have hS1 : Sorted n (k1 + 1) D s1 π := by
      refine ⟨fun j hj hjn => ?_, fun i j a1 a2 a3 => ?_⟩
      · rw [r3 j (by omega)]; exact hS.1 j hj hjn
      · rw [r3 j (by omega), r3 i (by omega)]; exact hS.2 i j a1 a2 a3
    obtain ⟨st2, hst2, s2, U2, V2, π2, g2, h2, q1, q2⟩ := order_diag hD hnm r1 (by omega) r2 hS1
    rw [hst2, ok_bind]
    exact ih fuel st2 (by omega) (by omega) ⟨s2, e', U2, V2, π2, g2, h2, q1, q2⟩

/-- What `SVD::new` delivers for a diagonal matrix with diagonal `D`. -/
structure Out (m n : Nat) (D : Nat → F64) (U : Matrix (Fin m) (Fin m) F64) (S : Matrix (Fin m) (Fin n) F64) (V : Matrix (Fin n) (Fin n) F64)
    (π : Equiv.Perm Nat) (g h : Nat → ℤˣ) : Prop where
  fix : ∀ j, min m n ≤ j → π j = j
  u : ∀ i j : Fin m, Agree (U i j) (if i.1 = π j then sg (g j) 1 else 0)
  v : ∀ i j : Fin n, Agree (V i j) (if i.1 = π j then sg (h j) 1 else 0)
  s : ∀ (i : Fin m) (j : Fin n), S i j = if i.1 = j.1 then F64.abs (D (π j)) else 0
  sorted : ∀ i j, i ≤ j → j < min m n → F64.toReal (F64.abs (D (π j))) ≤ F64.toReal (F64.abs (D (π i)))
  sign : ∀ j, j < min m n → Agree (F64.abs (D (π j))) (sg (g j * h j) (D (π j)))

theorem newTall_diag {m n : Nat} (hn : 0 < n) (hnm : n ≤ m) {A : Matrix (Fin m) (Fin n) F64} {D : Nat → F64} (hD : ∀ j, j < n → (D j).isFin)
    (hA : ∀ i j, i.1 ≠ j.1 → F64.isZero (A i j)) (hAD : ∀ i j, i.1 = j.1 → A i j = D j) {fuel : Nat} (hf : n ≤ fuel) :
    ∃ U S V π g h, newTall fuel (ofM A) = .ok ⟨ofM U, ofM S, ofM V⟩ ∧ Out m n D U S V π g h := by
  classical
  have e1 : (max 0 (min ((n : Int) - 2) (m : Int))).toNat = n - 2 := by omega
  have e2 : min n (m + 1) = n := by omega
  obtain ⟨b, hb, ⟨s, hs, hsD⟩, ⟨e, he, he0⟩, ⟨FU, hFU, hFUD⟩, ⟨FV, hFV⟩⟩ := bidiag_diag hn hnm hD hA hAD
  obtain ⟨u, hu, Z, hZ, hZD⟩ := genU_diag hs (by omega) (by omega)
    (fun j hj => by rw [agree_zero (hsD j (by omega)), if_pos hj]; exact isZero_neg) hFU hFUD
  obtain ⟨v, hv, hvg⟩ := genV_diag (nrt := n - 2) he he0 hFV
  have hM : MD m n D ⟨b.s, b.e, u, v⟩ s e Z (fun i j => if i = j then 1 else 0) 1
      (fun j => if j < min (m - 1) n ∧ ¬ F64.isZero (D j) then -1 else 1) (fun _ => 1) := by
    refine ⟨hs, he, hZ, hvg, fun _ _ => rfl, fun i j hi hj => ?_, fun i j hi hj => ?_, fun j hj => ?_, he0⟩
    · have := hZD i j hi hj
      refine this.trans ?_
      rw [Equiv.Perm.one_apply]
      by_cases e : i = j
      · rw [if_pos e, if_pos e]
        unfold du
        split
        · exact Or.inl rfl
        · exact Or.inl rfl
      · rw [if_neg e, if_neg e]; exact Agree.refl _
    · exact Agree.refl _
    · have := hsD j hj
      refine this.trans ?_
      rw [Equiv.Perm.one_apply, _root_.mul_one]
      by_cases h1 : j < min (m - 1) n
      · rw [if_pos h1]
        by_cases h2 : F64.isZero (D j)
        · exact agree_of_zeros (isZero_neg.2 h2) (isZero_sg.2 h2)
        · rw [if_pos ⟨h1, h2⟩]; exact Or.inl rfl
      · rw [if_neg h1, if_neg (by tauto)]; exact Or.inl rfl
  obtain ⟨st, hst, s', e', U', V', π, g, h, hM', hS'⟩ := iterate_diag hD hnm n fuel ⟨b.s, b.e, u, v⟩ le_rfl hf
    ⟨_, _, _, _, _, _, _, hM, fun j h1 h2 => by omega, fun i j h1 h2 h3 => by omega⟩
  have fu := hM'.bu.freeze (Matrix.of fun (i : Fin m) (j : Fin m) => U' i j) (fun i j => rfl)
  have fv := hM'.bv.freeze (Matrix.of fun (i : Fin n) (j : Fin n) => V' i j) (fun i j => rfl)
  have fs := Vect.freeze hM'.bs s' (fun i _ => rfl)
  have hlen : (List.ofFn fun i : Fin n => s' i).length = min m n := by simp; omega
  have hbd := Props.C05_blockDiag (m := m) (n := n) (by omega) hn _ hlen
  have hSm : (Matrix.of fun (i : Fin m) (j : Fin n) => if hij : i.1 = j.1 then
      (List.ofFn fun i : Fin n => s' i)[i.1]'(by rw [hlen]; omega) else 0) =
      Matrix.of fun (i : Fin m) (j : Fin n) => if i.1 = j.1 then F64.abs (D (π j)) else 0 := by
    ext i j
    simp only [of_apply]
    by_cases e : i.1 = j.1
    · rw [dif_pos e, if_pos e, ← hS'.1 j (Nat.zero_le _) j.2]; simp [e]
    · rw [dif_neg e, if_neg e]
  rw [hSm] at hbd
  refine ⟨Matrix.of fun (i : Fin m) (j : Fin m) => U' i j, Matrix.of fun (i : Fin m) (j : Fin n) => if i.1 = j.1 then F64.abs (D (π j)) else 0,
    Matrix.of fun (i : Fin n) (j : Fin n) => V' i j, π, g, h, ?_, ⟨?_, fun i j => hM'.u i j i.2 j.2, fun i j => hM'.v i j i.2 j.2, fun i j => rfl, fun i j h1 h2 => ?_, fun j hj => ?_⟩⟩
  · unfold newTall
    rw [ofM_cols A (by omega), ok_bind, ofM_rows, assert_lt hnm, ok_bind, usub_ok (by omega), ok_bind]
    dsimp only
    rw [e1, e2, hb, ok_bind, hu, ok_bind, hv, ok_bind, usub_ok (by omega), ok_bind, hst, ok_bind]
    rw [fu, ok_bind, Props.C01_new_ofM (by omega) (by omega), ok_bind, fs, ok_bind, hbd, ok_bind, fv, ok_bind,
      Props.C01_new_ofM hn hn, ok_bind]
    rfl
  · rw [show min m n = n by omega]; exact hM'.fix
  · have := hS'.2 i j (Nat.zero_le _) h1 (by omega)
    rwa [hS'.1 j (Nat.zero_le _) (by omega), hS'.1 i (Nat.zero_le _) (by omega)] at this
  · have := hM'.s j (by omega)
    rwa [hS'.1 j (Nat.zero_le _) (by omega)] at this

/-- `SVD::new` on a diagonal matrix of any shape. -/
theorem new_diag {m n : Nat} (hm : 0 < m) (hn : 0 < n) {A : Matrix (Fin m) (Fin n) F64} {D : Nat → F64} (hD : ∀ j, j < min m n → (D j).isFin)
    (hA : ∀ i j, i.1 ≠ j.1 → F64.isZero (A i j)) (hAD : ∀ i j, i.1 = j.1 → A i j = D j) {fuel : Nat} (hf : min m n ≤ fuel) :
    ∃ U S V π g h, SVD.new fuel (ofM A) = .ok ⟨ofM U, ofM S, ofM V⟩ ∧ Out m n D U S V π g h := by
  by_cases hmn : m < n
  · obtain ⟨U, S, V, π, g, h, h1, h2⟩ := newTall_diag (A := Aᵀ) hm hmn.le (fun j hj => hD j (by omega)) (fun i j hij => hA j i hij.symm)
      (fun i j hij => by rw [Matrix.transpose_apply, hAD j i hij.symm, hij]) (show m ≤ fuel by omega)
    refine ⟨V, Sᵀ, U, π, h, g, ?_, ⟨fun j hj => h2.fix j (by omega), h2.v, h2.u, fun i j => ?_, fun i j h3 h4 => h2.sorted i j h3 (by omega), fun j hj => ?_⟩⟩
    · unfold SVD.new
      rw [ofM_cols A hm, ok_bind, ofM_rows, if_pos hmn, Props.C12_transpose hm, ok_bind, h1, ok_bind]
      dsimp only
      rw [Props.C12_transpose hn, ok_bind]
      rfl
    · have := h2.s j i
      rw [Matrix.transpose_apply, this]
      by_cases e : i.1 = j.1
      · rw [if_pos e, if_pos e.symm, e]
      · rw [if_neg e, if_neg (Ne.symm e)]
    · rw [_root_.mul_comm]; exact h2.sign j (by omega)
  · obtain ⟨U, S, V, π, g, h, h1, h2⟩ := newTall_diag (A := A) hn (by omega) (fun j hj => hD j (by omega)) hA hAD (show n ≤ fuel by omega)
    refine ⟨U, S, V, π, g, h, ?_, h2⟩
    unfold SVD.new
    rw [ofM_cols A hm, ok_bind, ofM_rows, if_neg hmn, h1]

end SVD.Dg
end LA
