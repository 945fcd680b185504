import Verif.Proofs.F64Signs
import Verif.Proofs.RndSolve
import Verif.Props.Construction

/-! # `LU.new` on two matrices that differ by signs of rows and columns -/

namespace LA
set_option linter.unusedSectionVars false
open F64

/-- Two runs that both succeed, with related results. -/
def Post2 {σ τ : Type} (x : R σ) (y : R τ) (P : σ → τ → Prop) : Prop := ∃ a b, x = .ok a ∧ y = .ok b ∧ P a b

namespace Post2
variable {σ τ σ' τ' : Type}

theorem ok {a : σ} {b : τ} {P : σ → τ → Prop} (h : P a b) : Post2 (.ok a) (.ok b) P := ⟨a, b, rfl, rfl, h⟩

theorem mono {x : R σ} {y : R τ} {P Q : σ → τ → Prop} (h : Post2 x y P) (h' : ∀ a b, P a b → Q a b) : Post2 x y Q := by
  obtain ⟨a, b, h1, h2, h3⟩ := h
  exact ⟨a, b, h1, h2, h' a b h3⟩

theorem bind {x : R σ} {y : R τ} {f : σ → R σ'} {g : τ → R τ'} {P : σ → τ → Prop} {Q : σ' → τ' → Prop} (h : Post2 x y P)
    (h' : ∀ a b, P a b → Post2 (f a) (g b) Q) : Post2 (x >>= f) (y >>= g) Q := by
  obtain ⟨a, b, rfl, rfl, h3⟩ := h
  exact h' a b h3

theorem loop {lo hi : Nat} {s : σ} {t : τ} {f : Nat → σ → R σ} {g : Nat → τ → R τ} (Inv : Nat → σ → τ → Prop) (hle : lo ≤ hi)
    (h0 : Inv lo s t) (hstep : ∀ i s t, lo ≤ i → i < hi → Inv i s t → Post2 (f i s) (g i t) (Inv (i + 1))) :
    Post2 (LA.loop lo hi s f) (LA.loop lo hi t g) (Inv hi) := by
  induction hi, hle using Nat.le_induction with
  | base => rw [loop_empty le_rfl, loop_empty le_rfl]; exact ok h0
  | succ k hk ih =>
    rw [loop_succ hk, loop_succ hk]
    exact bind (ih fun i s t h1 h2 h3 => hstep i s t h1 (by omega) h3) fun a b hab => hstep k a b hk (by omega) hab

end Post2

namespace LU.Signs
variable {m n : Nat}

/-- Two buffers with entries that agree up to the sign `e i j` (and the sign of zeros). -/
def SGrid (m n : Nat) (e : Nat → Nat → ℤˣ) (d d' : List F64) : Prop :=
  ∃ F F' : Nat → Nat → F64, Grid d m n F ∧ Grid d' m n F' ∧ ∀ i j, i < m → j < n → SA (e i j) (F i j) (F' i j)

theorem SGrid.congr {e e' : Nat → Nat → ℤˣ} {d d' : List F64} (h : SGrid m n e d d') (he : ∀ i j, i < m → j < n → e i j = e' i j) :
    SGrid m n e' d d' := by
  obtain ⟨F, F', h1, h2, h3⟩ := h
  exact ⟨F, F', h1, h2, fun i j hi hj => by rw [← he i j hi hj]; exact h3 i j hi hj⟩

theorem SGrid.idx {e : Nat → Nat → ℤˣ} {d d' : List F64} (h : SGrid m n e d d') {i j : Nat} (hi : i < m) (hj : j < n) :
    Post2 (LA.idx d (i * n + j)) (LA.idx d' (i * n + j)) (SA (e i j)) := by
  obtain ⟨F, F', h1, h2, h3⟩ := h
  exact ⟨_, _, h1.idx hi hj, h2.idx hi hj, h3 i j hi hj⟩

theorem SGrid.setIdx {e : Nat → Nat → ℤˣ} {d d' : List F64} (h : SGrid m n e d d') {i j : Nat} (hi : i < m) (hj : j < n) {x x' : F64} {g : ℤˣ}
    (hx : SA g x x') :
    Post2 (LA.setIdx d (i * n + j) x) (LA.setIdx d' (i * n + j) x') (SGrid m n (upd e i j g)) := by
  obtain ⟨F, F', h1, h2, h3⟩ := h
  obtain ⟨a, ha, ha'⟩ := h1.setIdx hi hj x
  obtain ⟨b, hb, hb'⟩ := h2.setIdx hi hj x'
  refine ⟨a, b, ha, hb, _, _, ha', hb', fun k l hk hl => ?_⟩
  unfold upd
  by_cases hkl : k = i ∧ l = j
  · rw [if_pos hkl, if_pos hkl, if_pos hkl]; exact hx
  · rw [if_neg hkl, if_neg hkl, if_neg hkl]; exact h3 k l hk hl

theorem column_sim {j : Nat} {e : Nat → Nat → ℤˣ} {d d' : List F64} (h : SGrid m n e d d') (hj : j < n)
    (he : ∀ i k, i < m → k < i → k < j → e i k * e k j = e i j) :
    Post2 (column m n j d) (column m n j d') (SGrid m n e) := by
  unfold column
  refine Post2.loop (fun _ => SGrid m n e) (Nat.zero_le m) h fun i a b _ hi hab => ?_
  refine Post2.bind (P := SA (e i j)) (Post2.loop (fun _ => SA (e i j)) (Nat.zero_le _) (SA.zero _ rfl rfl) fun k s s' _ hk hs => ?_) fun s s' hs => ?_
  · refine (hab.idx hi (by omega)).bind fun x x' hx => (hab.idx (by omega) hj).bind fun y y' hy => Post2.ok ?_
    have := hx.mul hy
    rw [he i k hi (by omega) (by omega)] at this
    exact hs.add this
  · refine (hab.idx hi hj).bind fun x x' hx => (hab.setIdx hi hj (hx.sub hs)).mono fun c c' hc => hc.congr fun k l _ _ => ?_
    unfold upd
    split
    · rename_i h; rw [h.1, h.2]
    · rfl

/-- Nothing is larger than a zero: zero or NaN. -/
theorem small {z x x' : F64} {g : ℤˣ} (hz : F64.isZero z) (h : FloatOps.lt (FloatOps.abs z) (FloatOps.abs x) = false) (hx : SA g x x') (g' : ℤˣ) :
    SA g' x x' := by
  obtain ⟨s, rfl⟩ := F64.isZero_iff.1 hz
  rcases x with _ | t | ⟨t, a, ha⟩
  · rcases hx with hx | hx
    · have : x' = F64.nan := by rw [hx]; unfold sg; split <;> rfl
      rw [this]
      left
      unfold sg; split <;> rfl
    · exact absurd (F64.isZero_sg.1 hx.2) (fun h => h)
  · exact absurd h (by show ¬ decide ((0 : Int) < sgn false 1) = false; decide)
  · have h0 : a = 0 := by
      have h' : decide (sgn false 0 < sgn false a) = false := h
      have := of_decide_eq_false h'
      simp [sgn] at this
      exact this
    have hz : F64.isZero (F64.fin t a ha) := h0
    exact SA.zero g' hz (hx.isZero.2 hz)

theorem lt_nonzero {z x : F64} (h : FloatOps.lt (FloatOps.abs z) (FloatOps.abs x) = true) : ¬ F64.isZero x := by
  intro hx
  obtain ⟨s, rfl⟩ := F64.isZero_iff.1 hx
  rcases z with _ | t | ⟨t, a, ha⟩
  · cases h
  · cases h
  · have h' : decide (sgn false a < sgn false 0) = true := h
    have := of_decide_eq_true h'
    simp [sgn] at this
    omega

theorem pivot_sim {j : Nat} {e : Nat → Nat → ℤˣ} {d d' : List F64} {F F' : Nat → Nat → F64} (h1 : Grid d m n F) (h2 : Grid d' m n F')
    (h3 : ∀ i j, i < m → j < n → SA (e i j) (F i j) (F' i j)) (hj : j < n) :
    Post2 (pivot m n j d) (pivot m n j d') fun p p' => p = p' ∧ j ≤ p ∧
      ((p = j ∧ ∀ i, j < i → i < m → FloatOps.lt (FloatOps.abs (F j j)) (FloatOps.abs (F i j)) = false) ∨ (p < m ∧ ¬ F64.isZero (F p j))) := by
  unfold pivot
  by_cases hjm : j + 1 ≤ m
  · refine (Post2.loop (fun k p p' => p = p' ∧ j ≤ p ∧ p < m ∧
      ((p = j ∧ ∀ i, j < i → i < k → FloatOps.lt (FloatOps.abs (F j j)) (FloatOps.abs (F i j)) = false) ∨ ¬ F64.isZero (F p j)))
      hjm ⟨rfl, le_rfl, by omega, Or.inl ⟨rfl, fun i h h' => by omega⟩⟩ fun i p p' hi hi' hp => ?_).mono
      fun p p' hp => ⟨hp.1, hp.2.1, ?_⟩
    · obtain ⟨rfl, hp1, hp2, hp3⟩ := hp
      rw [h1.idx hp2 hj, h1.idx hi' hj, h2.idx hp2 hj, h2.idx hi' hj, ok_bind, ok_bind, ok_bind, ok_bind]
      rw [(h3 p j hp2 hj).lt (h3 i j hi' hj)]
      split
      · rename_i hlt
        exact Post2.ok ⟨rfl, by omega, hi', Or.inr (lt_nonzero hlt)⟩
      · rename_i hlt
        refine Post2.ok ⟨rfl, hp1, hp2, ?_⟩
        rcases hp3 with ⟨rfl, hp3⟩ | hp3
        · refine Or.inl ⟨rfl, fun k hk hk' => ?_⟩
          by_cases hki : k = i
          · subst hki; simpa using hlt
          · exact hp3 k hk (by omega)
        · exact Or.inr hp3
    · rcases hp.2.2.2 with h | h
      · exact Or.inl h
      · exact Or.inr ⟨hp.2.2.1, h⟩
  · rw [loop_empty (by omega), loop_empty (by omega)]
    exact Post2.ok ⟨rfl, le_rfl, Or.inl ⟨rfl, fun i h h' => by omega⟩⟩

/-- `e` after the division of column `j`. -/
def eScale (j : Nat) (e : Nat → Nat → ℤˣ) (i c : Nat) : ℤˣ := if c = j ∧ j < i then e i j * e j j else e i c

theorem scale_sim {j : Nat} {e : Nat → Nat → ℤˣ} {d d' : List F64} {F F' : Nat → Nat → F64} (h1 : Grid d m n F) (h2 : Grid d' m n F')
    (h3 : ∀ i j, i < m → j < n → SA (e i j) (F i j) (F' i j)) (hj : j < n)
    (hz : j < m → F64.isZero (F j j) → ∀ i, j < i → i < m → ∀ g, SA g (F i j) (F' i j)) :
    Post2 (scale m n j d) (scale m n j d') (SGrid m n (eScale j e)) := by
  unfold scale
  by_cases hjm : j < m
  swap
  · rw [if_neg hjm, if_neg hjm]
    refine Post2.ok ⟨F, F', h1, h2, fun i c hi hc => ?_⟩
    unfold eScale
    rw [if_neg (by omega)]
    exact h3 i c hi hc
  rw [if_pos hjm, if_pos hjm, h1.idx hjm hj, h2.idx hjm hj, ok_bind, ok_bind, (h3 j j hjm hj).eq_zero]
  by_cases h0 : F64.isZero (F j j)
  · rw [F64.eq_zero_iff.2 h0]
    refine Post2.ok ⟨F, F', h1, h2, fun i c hi hc => ?_⟩
    unfold eScale
    split
    · rename_i h
      obtain ⟨rfl, h⟩ := h
      exact hz hjm h0 i h hi _
    · exact h3 i c hi hc
  · have hb : (FloatOps.eq (F j j) 0 : Bool) = false := by
      rw [Bool.eq_false_iff]; exact fun h => h0 (F64.eq_zero_iff.1 h)
    rw [hb]
    simp only [Bool.not_false, if_true]
    refine (Post2.loop (fun q a a' => ∃ H H' : Nat → Nat → F64, Grid a m n H ∧ Grid a' m n H' ∧ H j j = F j j ∧ H' j j = F' j j ∧
      ∀ i c, i < m → c < n → SA (if c = j ∧ j < i ∧ i < q then e i j * e j j else e i c) (H i c) (H' i c)) (by omega)
      ⟨F, F', h1, h2, rfl, rfl, fun i c hi hc => by rw [if_neg (by omega)]; exact h3 i c hi hc⟩ fun i a b hi hi' hab => ?_).mono fun a b hab => ?_
    · obtain ⟨H, H', g1, g2, g3, g4, g5⟩ := hab
      rw [g1.idx hi' hj, g2.idx hi' hj, g1.idx hjm hj, g2.idx hjm hj, ok_bind, ok_bind, ok_bind, ok_bind]
      have hy := g5 i j hi' hj
      rw [if_neg (by omega)] at hy
      have hw := g5 j j hjm hj
      rw [if_neg (by omega)] at hw
      have hq := hy.div hw (by rw [g3]; exact h0)
      obtain ⟨c, hc, hc'⟩ := g1.setIdx hi' hj (F64.div (H i j) (H j j))
      obtain ⟨c2, hc2, hc2'⟩ := g2.setIdx hi' hj (F64.div (H' i j) (H' j j))
      refine ⟨c, c2, hc, hc2, _, _, hc', hc2', ?_, ?_, fun k l hk hl => ?_⟩
      · unfold upd; rw [if_neg (by omega)]; exact g3
      · unfold upd; rw [if_neg (by omega)]; exact g4
      · unfold upd
        by_cases hkl : k = i ∧ l = j
        · rw [if_pos hkl, if_pos hkl, if_pos (by omega)]
          obtain ⟨rfl, rfl⟩ := hkl
          exact hq
        · rw [if_neg hkl, if_neg hkl]
          have := g5 k l hk hl
          by_cases hh : l = j ∧ j < k ∧ k < i
          · rw [if_pos hh] at this; rw [if_pos (by omega)]; exact this
          · rw [if_neg hh] at this; rw [if_neg (by omega)]; exact this
    · obtain ⟨H, H', g1, g2, g3, g4, g5⟩ := hab
      refine ⟨H, H', g1, g2, fun i c hi hc => ?_⟩
      have := g5 i c hi hc
      unfold eScale
      by_cases hh : c = j ∧ j < i
      · rw [if_pos ⟨hh.1, hh.2, hi⟩] at this; rw [if_pos hh]; exact this
      · rw [if_neg (by omega)] at this; rw [if_neg hh]; exact this

/-- The signs during the factorisation: `s` for the rows (in their present order), `t` for the columns. -/
def eAt (j : Nat) (s t : Nat → ℤˣ) (i c : Nat) : ℤˣ := if c < j ∧ c < i then s i * s c else s i * t c

theorem unit_sq (a : ℤˣ) : a * a = 1 := by rcases Int.units_eq_one_or a with rfl | rfl <;> rfl

theorem eAt_mul {j i k : Nat} (s t : Nat → ℤˣ) (h1 : k < i) (h2 : k < j) : eAt j s t i k * eAt j s t k j = eAt j s t i j := by
  unfold eAt
  rw [if_pos ⟨h2, h1⟩, if_neg (by omega), if_neg (by omega), mul_assoc, ← mul_assoc (s k), unit_sq, _root_.one_mul]

theorem eAt_scale (j : Nat) (s t : Nat → ℤˣ) (i c : Nat) : eScale j (eAt j s t) i c = eAt (j + 1) s t i c := by
  unfold eScale eAt
  by_cases h : c = j ∧ j < i
  · obtain ⟨rfl, h⟩ := h
    rw [if_pos ⟨rfl, h⟩, if_neg (by omega), if_neg (by omega), if_pos ⟨by omega, h⟩, mul_mul_mul_comm, unit_sq, _root_.mul_one]
  · rw [if_neg h]
    by_cases h' : c < j ∧ c < i
    · rw [if_pos h', if_pos ⟨by omega, h'.2⟩]
    · rw [if_neg h', if_neg (by omega)]

theorem eAt_swap {j p : Nat} (hp : j ≤ p) (s t : Nat → ℤˣ) (i c : Nat) :
    eAt j s t (Equiv.swap p j i) c = eAt j (fun k => s (Equiv.swap p j k)) t i c := by
  unfold eAt
  by_cases hc : c < j
  · have e1 : Equiv.swap p j c = c := Equiv.swap_apply_of_ne_of_ne (by omega) (by omega)
    have e2 : c < Equiv.swap p j i ↔ c < i := by
      rw [Equiv.swap_apply_def]
      split
      · omega
      · split <;> omega
    simp only [e1, e2]
  · rw [if_neg (by omega), if_neg (by omega)]

/-- Invariant of the outer loop. -/
def SInv (m n : Nat) (s0 t : Nat → ℤˣ) (j : Nat) (a b : List F64 × List Nat × Bool) : Prop :=
  ∃ s : Nat → ℤˣ, SGrid m n (eAt j s t) a.1 b.1 ∧ a.2 = b.2 ∧ a.2.1.length = m ∧ ∀ i (hi : i < a.2.1.length), s i = s0 a.2.1[i]

theorem swapPiv_ok {p j : Nat} {piv : List Nat} (hp : p < piv.length) (hj : j < piv.length) :
    ∃ q, swapPiv p j piv = .ok q ∧ q.length = piv.length ∧ ∀ (f : Nat → ℤˣ) (s : Nat → ℤˣ), (∀ i (hi : i < piv.length), s i = f piv[i]) →
      ∀ i (hi : i < q.length), s (Equiv.swap p j i) = f q[i] := by
  unfold swapPiv
  have e1 : LA.idx piv p = .ok piv[p] := idx_eq (List.getElem?_eq_getElem hp)
  have e2 : LA.idx piv j = .ok piv[j] := idx_eq (List.getElem?_eq_getElem hj)
  rw [e1, e2, ok_bind, ok_bind, setIdx_lt hp, ok_bind, setIdx_lt (by simpa using hj)]
  refine ⟨_, rfl, by simp, fun f s hs i hi => ?_⟩
  have hi' : i < piv.length := by simpa using hi
  rw [List.getElem_set, List.getElem_set, Equiv.swap_apply_def]
  by_cases h1 : j = i
  · subst h1
    rw [if_pos rfl]
    by_cases h2 : j = p
    · subst h2; simpa using hs j hj
    · rw [if_neg h2, if_pos rfl]; exact hs p hp
  · rw [if_neg h1]
    by_cases h2 : p = i
    · subst h2; rw [if_pos rfl, if_pos rfl]; exact hs j hj
    · rw [if_neg h2, if_neg (fun h => h2 h.symm), if_neg (fun h => h1 h.symm)]; exact hs i hi'

theorem step_sim {s0 t : Nat → ℤˣ} {j : Nat} {a b : List F64 × List Nat × Bool} (h : SInv m n s0 t j a b) (hj : j < n) :
    Post2 (step m n j a) (step m n j b) (SInv m n s0 t (j + 1)) := by
  obtain ⟨d, piv, pos⟩ := a
  obtain ⟨d', piv', pos'⟩ := b
  obtain ⟨s, h1, h2, h3, h4⟩ := h
  simp only [Prod.mk.injEq] at h2
  obtain ⟨rfl, rfl⟩ := h2
  dsimp only at h1 h3 h4
  unfold step
  dsimp only
  refine (column_sim h1 hj fun i k hi h5 h6 => eAt_mul s t h5 h6).bind fun d d' hd => ?_
  obtain ⟨F, F', g1, g2, g3⟩ := hd
  refine (pivot_sim g1 g2 g3 hj).bind fun p p' hp => ?_
  obtain ⟨rfl, hp1, hp2⟩ := hp
  by_cases hpj : p = j
  · subst hpj
    simp only [bne_self_eq_false, Bool.false_eq_true, if_false]
    refine (scale_sim g1 g2 g3 hj fun hjm h0 i hi hi' g => ?_).bind fun x y hxy => Post2.ok ⟨s, ?_, rfl, h3, h4⟩
    · rcases hp2 with ⟨-, hp2⟩ | ⟨-, hp2⟩
      · exact small h0 (hp2 i hi hi') (g3 i p hi' hj) g
      · exact absurd h0 hp2
    · exact hxy.congr fun i c _ _ => eAt_scale p s t i c
  · have hpm : p < m ∧ ¬ F64.isZero (F p j) := by
      rcases hp2 with ⟨h, -⟩ | h
      · exact absurd h hpj
      · exact h
    have hjm : j < m := by omega
    have hb : (p != j) = true := by simpa using hpj
    rw [hb]
    simp only [if_true]
    obtain ⟨q, hq, hq1, hq2⟩ := swapPiv_ok (p := p) (j := j) (piv := piv) (by omega) (by omega)
    obtain ⟨x, hx, hx'⟩ := LU.Rnd.swapRows_post g1 hpm.1 hjm
    obtain ⟨y, hy, hy'⟩ := LU.Rnd.swapRows_post g2 hpm.1 hjm
    rw [hq, hx, hy]
    simp only [ok_bind]
    refine (scale_sim hx' hy' (e := eAt j (fun k => s (Equiv.swap p j k)) t) (fun i c hi hc => ?_) hj fun _ h0 => ?_).bind fun x y hxy =>
      Post2.ok ⟨fun k => s (Equiv.swap p j k), ?_, rfl, by dsimp only; omega, hq2 s0 s h4⟩
    · rw [← eAt_swap hp1]
      refine g3 _ c ?_ hc
      rw [Equiv.swap_apply_def]
      split
      · exact hjm
      · split
        · exact hpm.1
        · exact hi
    · rw [Equiv.swap_apply_right] at h0
      exact absurd h0 hpm.2
    · exact hxy.congr fun i c _ _ => eAt_scale j _ t i c

/-- `LU.new` on two matrices that differ by signs of rows (`s`) and columns (`t`): the same pivots, and factors that differ by signs. -/
theorem new_sim {m n : Nat} (hm : 0 < m) (hn : 0 < n) {A A' : Matrix (Fin m) (Fin n) F64} {s : Fin m → ℤˣ} {t : Fin n → ℤˣ}
    (h : ∀ i j, SA (s i * t j) (A i j) (A' i j)) :
    ∃ (G G' : Nat → Nat → F64) (σ : Equiv.Perm (Fin m)),
      LU.new (ofM A) =
        .ok ⟨ofM (Matrix.of fun (i : Fin m) (j : Fin n) => G i j), decide (Equiv.Perm.sign σ = 1), List.ofFn fun i => (σ i).1⟩ ∧
      LU.new (ofM A') =
        .ok ⟨ofM (Matrix.of fun (i : Fin m) (j : Fin n) => G' i j), decide (Equiv.Perm.sign σ = 1), List.ofFn fun i => (σ i).1⟩ ∧
      (∀ (i : Fin m) (j : Fin n), i.1 ≤ j.1 → SA (s (σ i) * t j) (G i j) (G' i j)) ∧
      ∀ (i : Fin m) (k : Fin m) (j : Fin n), k.1 = j.1 → j.1 < i.1 → SA (s (σ i) * s (σ k)) (G i j) (G' i j) := by
  obtain ⟨G, σ, e1, -⟩ := LU.Rnd.new_ofM hm hn A
  obtain ⟨G', σ', e2, -⟩ := LU.Rnd.new_ofM hm hn A'
  have hsim : Post2 (LU.new (ofM A)) (LU.new (ofM A')) fun x y => x.piv = y.piv ∧ x.pos = y.pos ∧ x.piv.length = m ∧ ∃ s' : Nat → ℤˣ,
      SGrid m n (eAt n s' fun j => if h : j < n then t ⟨j, h⟩ else 1) x.lu.data y.lu.data ∧
      ∀ i (hi : i < x.piv.length), s' i = (fun k => if h : k < m then s ⟨k, h⟩ else 1) x.piv[i] := by
    unfold LU.new
    have hio := iota_fill m
    rw [bind_eq_ok] at hio
    obtain ⟨b, hb1, hb2⟩ := hio
    simp only [ofM_rows, ofM_cols A hm, ofM_cols A' hm, ok_bind, hb1, hb2]
    refine (Post2.loop (s := ((ofM A).data, (List.ofFn fun i : Fin m => i.1), true)) (t := ((ofM A').data, (List.ofFn fun i : Fin m => i.1), true))
      (SInv m n (fun k => if h : k < m then s ⟨k, h⟩ else 1) fun j => if h : j < n then t ⟨j, h⟩ else 1) (Nat.zero_le n)
      ⟨fun k => if h : k < m then s ⟨k, h⟩ else 1, ⟨ext A, ext A', grid_ofM A, grid_ofM A', fun i j hi hj => ?_⟩, rfl, by simp, fun i hi => by simp⟩
      fun j a b _ hj hab => step_sim hab hj).bind fun x y hxy => ?_
    · rw [ext_eq A hi hj, ext_eq A' hi hj]
      unfold eAt
      beta_reduce
      rw [if_neg (by omega), dif_pos hi, dif_pos hj]
      exact h ⟨i, hi⟩ ⟨j, hj⟩
    · obtain ⟨s', ⟨F, F', g1, g2, g3⟩, h2, h3, h4⟩ := hxy
      have hx := g1.ofM (Matrix.of fun (i : Fin m) (j : Fin n) => F i j) fun _ _ => rfl
      have hy := g2.ofM (Matrix.of fun (i : Fin m) (j : Fin n) => F' i j) fun _ _ => rfl
      obtain ⟨d, piv, pos⟩ := x
      obtain ⟨d', piv', pos'⟩ := y
      simp only [Prod.mk.injEq] at h2
      obtain ⟨rfl, rfl⟩ := h2
      dsimp only at *
      rw [hx, hy, Props.C01_new_ofM hm hn, Props.C01_new_ofM hm hn, ok_bind, ok_bind]
      refine Post2.ok ⟨rfl, rfl, h3, s', ⟨F, F', ?_, ?_, g3⟩, h4⟩
      · rw [← hx]; exact g1
      · rw [← hy]; exact g2
  obtain ⟨x, y, hx, hy, h1, h2, h3, s', ⟨F, F', g1, g2, g3⟩, h5⟩ := hsim
  rw [e1] at hx
  rw [e2] at hy
  have hx := (Except.ok.inj hx).symm
  have hy := (Except.ok.inj hy).symm
  subst hx hy
  dsimp only at h1 h5 g1 g2
  have hσ : σ = σ' := by
    have := List.ofFn_injective h1
    exact Equiv.ext fun i => Fin.ext (congrFun this i)
  subst hσ
  have eG : ∀ (i : Fin m) (j : Fin n), F i j = G i j := by
    intro i j
    have a := g1.idx i.2 j.2
    rw [idx_ofM _ i.2 j.2] at a
    exact (Except.ok.inj a).symm
  have eG' : ∀ (i : Fin m) (j : Fin n), F' i j = G' i j := by
    intro i j
    have a := g2.idx i.2 j.2
    rw [idx_ofM _ i.2 j.2] at a
    exact (Except.ok.inj a).symm
  have hs : ∀ i : Fin m, s' i = s (σ i) := by
    intro i
    have := h5 i (by simp)
    rw [this]
    simp
  refine ⟨G, G', σ, e1, e2, fun i j hij => ?_, fun i k j hk hij => ?_⟩
  · have := g3 i j i.2 j.2
    unfold eAt at this
    beta_reduce at this
    rw [if_neg (by omega), dif_pos j.2, hs, eG, eG'] at this
    exact this
  · have := g3 i j i.2 j.2
    unfold eAt at this
    rw [if_pos ⟨j.2, hij⟩, hs, ← hk, hs, hk, eG, eG'] at this
    exact this

end LU.Signs
end LA
