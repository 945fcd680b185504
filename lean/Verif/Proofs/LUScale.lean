import Verif.Proofs.FuScale

/-! # `LU.new` on two matrices whose columns differ by powers of two -/

namespace LA
set_option linter.unusedSectionVars false
open Fu

namespace LU.Scale
variable {m n : Nat}

/-- Two buffers whose entries `(i, j)` differ by the factor `2 ^ e i j`. -/
def KGrid (m n : Nat) (e : Nat → Nat → ℤ) (d d' : List Fu) : Prop :=
  ∃ F F' : Nat → Nat → Fu, Grid d m n F ∧ Grid d' m n F' ∧ ∀ i j, i < m → j < n → Sc (e i j) (F i j) (F' i j)

theorem KGrid.congr {e e' : Nat → Nat → ℤ} {d d' : List Fu} (h : KGrid m n e d d') (he : ∀ i j, i < m → j < n → e i j = e' i j) :
    KGrid m n e' d d' := by
  obtain ⟨F, F', h1, h2, h3⟩ := h
  exact ⟨F, F', h1, h2, fun i j hi hj => by rw [← he i j hi hj]; exact h3 i j hi hj⟩

theorem KGrid.idx {e : Nat → Nat → ℤ} {d d' : List Fu} (h : KGrid m n e d d') {i j : Nat} (hi : i < m) (hj : j < n) :
    Post2 (LA.idx d (i * n + j)) (LA.idx d' (i * n + j)) (Sc (e i j)) := by
  obtain ⟨F, F', h1, h2, h3⟩ := h
  exact ⟨_, _, h1.idx hi hj, h2.idx hi hj, h3 i j hi hj⟩

theorem KGrid.setIdx {e : Nat → Nat → ℤ} {d d' : List Fu} (h : KGrid m n e d d') {i j : Nat} (hi : i < m) (hj : j < n) {x x' : Fu} {g : ℤ}
    (hx : Sc g x x') :
    Post2 (LA.setIdx d (i * n + j) x) (LA.setIdx d' (i * n + j) x') (KGrid m n (upd e i j g)) := by
  obtain ⟨F, F', h1, h2, h3⟩ := h
  obtain ⟨a, ha, ha'⟩ := h1.setIdx hi hj x
  obtain ⟨b, hb, hb'⟩ := h2.setIdx hi hj x'
  refine ⟨a, b, ha, hb, _, _, ha', hb', fun k l hk hl => ?_⟩
  unfold upd
  by_cases hkl : k = i ∧ l = j
  · rw [if_pos hkl, if_pos hkl, if_pos hkl]; exact hx
  · rw [if_neg hkl, if_neg hkl, if_neg hkl]; exact h3 k l hk hl

theorem KGrid.set {e : Nat → Nat → ℤ} {d d' : List Fu} (h : KGrid m n e d d') {i j : Nat} (hi : i < m) (hj : j < n) {x x' : Fu}
    (hx : Sc (e i j) x x') :
    Post2 (LA.setIdx d (i * n + j) x) (LA.setIdx d' (i * n + j) x') (KGrid m n e) := by
  refine (h.setIdx hi hj hx).mono fun a b hab => hab.congr fun k l _ _ => ?_
  unfold upd
  split
  · rename_i h; rw [h.1, h.2]
  · rfl

theorem column_sim {j : Nat} {e : Nat → Nat → ℤ} {d d' : List Fu} (h : KGrid m n e d d') (hj : j < n)
    (he : ∀ i k, i < m → k < i → k < j → e i k + e k j = e i j) :
    Post2 (column m n j d) (column m n j d') (KGrid m n e) := by
  unfold column
  refine Post2.loop (fun _ => KGrid m n e) (Nat.zero_le m) h fun i a b _ hi hab => ?_
  refine Post2.bind (P := Sc (e i j)) (Post2.loop (fun _ => Sc (e i j)) (Nat.zero_le _) (Sc.zero _) fun k s s' _ hk hs => ?_) fun s s' hs => ?_
  · refine (hab.idx hi (by omega)).bind fun x x' hx => (hab.idx (by omega) hj).bind fun y y' hy => Post2.ok ?_
    have := hx.mul hy
    rw [he i k hi (by omega) (by omega)] at this
    exact hs.add this
  · exact (hab.idx hi hj).bind fun x x' hx => hab.set hi hj (hx.sub hs)

theorem lt_abs (x y : Fu) : (FloatOps.lt (FloatOps.abs x) (FloatOps.abs y) : Bool) = decide (|x.q| < |y.q|) := rfl

theorem pivot_sim {j : Nat} {g : ℤ} {d d' : List Fu} {F F' : Nat → Nat → Fu} (h1 : Grid d m n F) (h2 : Grid d' m n F')
    (h3 : ∀ i, j ≤ i → i < m → Sc g (F i j) (F' i j)) (hj : j < n) :
    Post2 (pivot m n j d) (pivot m n j d') fun p p' => p = p' ∧ j ≤ p ∧ (p = j ∨ p < m) ∧ ∀ i, j ≤ i → i < m → |(F i j).q| ≤ |(F p j).q| := by
  unfold pivot
  by_cases hjm : j + 1 ≤ m
  · refine (Post2.loop (fun k p p' => p = p' ∧ j ≤ p ∧ p < m ∧ ∀ i, j ≤ i → i < k → |(F i j).q| ≤ |(F p j).q|)
      hjm ⟨rfl, le_rfl, by omega, fun i h h' => ?_⟩ fun i p p' hi hi' hp => ?_).mono fun p p' hp => ⟨hp.1, hp.2.1, Or.inr hp.2.2.1, hp.2.2.2⟩
    · obtain rfl : i = j := by omega
      exact le_rfl
    · obtain ⟨rfl, hp1, hp2, hp3⟩ := hp
      rw [h1.idx hp2 hj, h1.idx hi' hj, h2.idx hp2 hj, h2.idx hi' hj, ok_bind, ok_bind, ok_bind, ok_bind]
      rw [(h3 p hp1 hp2).abs.lt (h3 i (by omega) hi').abs, lt_abs]
      split
      · rename_i hlt
        have hlt := of_decide_eq_true hlt
        refine Post2.ok ⟨rfl, by omega, hi', fun k hk hk' => ?_⟩
        by_cases hki : k = i
        · rw [hki]
        · exact (hp3 k hk (by omega)).trans hlt.le
      · rename_i hlt
        have hlt : ¬ _ < _ := fun h => hlt (decide_eq_true h)
        refine Post2.ok ⟨rfl, hp1, hp2, fun k hk hk' => ?_⟩
        by_cases hki : k = i
        · rw [hki]; exact not_lt.1 hlt
        · exact hp3 k hk (by omega)
  · rw [loop_empty (by omega), loop_empty (by omega)]
    exact Post2.ok ⟨rfl, le_rfl, Or.inl rfl, fun i h h' => by omega⟩

/-- The exponents during the factorisation: the subdiagonal parts of the first `j` columns agree. -/
def eAt (j : Nat) (t : Nat → ℤ) (i c : Nat) : ℤ := if c < j ∧ c < i then 0 else t c

theorem scale_sim {j : Nat} {t : Nat → ℤ} {d d' : List Fu} {F F' : Nat → Nat → Fu} (h1 : Grid d m n F) (h2 : Grid d' m n F')
    (h3 : ∀ i c, i < m → c < n → Sc (eAt j t i c) (F i c) (F' i c)) (hj : j < n)
    (hz : ∀ i, j ≤ i → i < m → |(F i j).q| ≤ |(F j j).q|) :
    Post2 (scale m n j d) (scale m n j d') (KGrid m n (eAt (j + 1) t)) := by
  have hne : ∀ i c, ¬ (c = j ∧ j < i) → eAt (j + 1) t i c = eAt j t i c := by
    intro i c h
    unfold eAt
    by_cases h' : c < j ∧ c < i
    · rw [if_pos h', if_pos ⟨by omega, h'.2⟩]
    · rw [if_neg h', if_neg (by omega)]
  unfold scale
  by_cases hjm : j < m
  swap
  · rw [if_neg hjm, if_neg hjm]
    exact Post2.ok ⟨F, F', h1, h2, fun i c hi hc => by rw [hne i c (by omega)]; exact h3 i c hi hc⟩
  have hd := h3 j j hjm hj
  rw [if_pos hjm, if_pos hjm, h1.idx hjm hj, h2.idx hjm hj, ok_bind, ok_bind, hd.feq (Sc.zero _)]
  by_cases h0 : (F j j).q = 0
  · have hb : (FloatOps.eq (F j j) 0 : Bool) = true := decide_eq_true h0
    rw [hb]
    refine Post2.ok ⟨F, F', h1, h2, fun i c hi hc => ?_⟩
    by_cases h : c = j ∧ j < i
    · obtain ⟨rfl, h⟩ := h
      have := hz i h.le hi
      rw [h0, abs_zero] at this
      exact Sc.of_zero (abs_nonpos_iff.1 this) (h3 i c hi hc) _
    · rw [hne i c h]; exact h3 i c hi hc
  · have hb : (FloatOps.eq (F j j) 0 : Bool) = false := decide_eq_false h0
    rw [hb]
    simp only [Bool.not_false, if_true]
    refine (Post2.loop (fun q a a' => ∃ H H' : Nat → Nat → Fu, Grid a m n H ∧ Grid a' m n H' ∧ H j j = F j j ∧ H' j j = F' j j ∧
      ∀ i c, i < m → c < n → Sc (if c = j ∧ j < i ∧ i < q then 0 else eAt j t i c) (H i c) (H' i c)) (by omega)
      ⟨F, F', h1, h2, rfl, rfl, fun i c hi hc => by rw [if_neg (by omega)]; exact h3 i c hi hc⟩ fun i a b hi hi' hab => ?_).mono fun a b hab => ?_
    · obtain ⟨H, H', g1, g2, g3, g4, g5⟩ := hab
      rw [g1.idx hi' hj, g2.idx hi' hj, g1.idx hjm hj, g2.idx hjm hj, ok_bind, ok_bind, ok_bind, ok_bind]
      have hy := g5 i j hi' hj
      rw [if_neg (by omega)] at hy
      have hw := g5 j j hjm hj
      rw [if_neg (by omega)] at hw
      have e1 : eAt j t i j = t j := by unfold eAt; rw [if_neg (by omega)]
      have e2 : eAt j t j j = t j := by unfold eAt; rw [if_neg (by omega)]
      rw [e1] at hy
      rw [e2] at hw
      rcases hy.div hw with ⟨q1, -⟩ | ⟨z, z', q1, q2, q3⟩
      · exfalso
        rw [g3] at q1
        have : (RDiv.rdiv (H i j) (F j j) : R Fu) = .ok ⟨rnd ((H i j).q / (F j j).q)⟩ := if_neg h0
        rw [this] at q1
        cases q1
      rw [sub_self] at q3
      rw [q1, q2, ok_bind, ok_bind]
      obtain ⟨c, hc, hc'⟩ := g1.setIdx hi' hj z
      obtain ⟨c2, hc2, hc2'⟩ := g2.setIdx hi' hj z'
      refine ⟨c, c2, hc, hc2, _, _, hc', hc2', ?_, ?_, fun k l hk hl => ?_⟩
      · unfold upd; rw [if_neg (by omega)]; exact g3
      · unfold upd; rw [if_neg (by omega)]; exact g4
      · unfold upd
        by_cases hkl : k = i ∧ l = j
        · rw [if_pos hkl, if_pos hkl, if_pos (by omega)]
          exact q3
        · rw [if_neg hkl, if_neg hkl]
          have := g5 k l hk hl
          by_cases hh : l = j ∧ j < k ∧ k < i
          · rw [if_pos hh] at this; rw [if_pos (by omega)]; exact this
          · rw [if_neg hh] at this; rw [if_neg (by omega)]; exact this
    · obtain ⟨H, H', g1, g2, g3, g4, g5⟩ := hab
      refine ⟨H, H', g1, g2, fun i c hi hc => ?_⟩
      have := g5 i c hi hc
      by_cases hh : c = j ∧ j < i
      · rw [if_pos ⟨hh.1, hh.2, hi⟩] at this
        unfold eAt
        rw [if_pos (by omega)]; exact this
      · rw [if_neg (by omega)] at this; rw [hne i c hh]; exact this

/-- Invariant of the outer loop. -/
def KInv (m n : Nat) (t : Nat → ℤ) (j : Nat) (a b : List Fu × List Nat × Bool) : Prop :=
  KGrid m n (eAt j t) a.1 b.1 ∧ a.2 = b.2 ∧ ∃ σ : Equiv.Perm (Fin m), a.2.1 = List.ofFn fun i => (σ i).1

theorem step_sim {t : Nat → ℤ} {j : Nat} {a b : List Fu × List Nat × Bool} (h : KInv m n t j a b) (hj : j < n) :
    Post2 (step m n j a) (step m n j b) (KInv m n t (j + 1)) := by
  obtain ⟨d, piv, pos⟩ := a
  obtain ⟨d', piv', pos'⟩ := b
  obtain ⟨h1, h2, h3⟩ := h
  simp only [Prod.mk.injEq] at h2
  obtain ⟨rfl, rfl⟩ := h2
  obtain ⟨σ, h3⟩ := h3
  dsimp only at h1 h3
  subst h3
  unfold step
  dsimp only
  refine (column_sim h1 hj fun i k hi h5 h6 => by
    unfold eAt
    rw [if_pos ⟨h6, h5⟩, if_neg (by omega), if_neg (by omega), zero_add]).bind fun d d' hd => ?_
  obtain ⟨F, F', g1, g2, g3⟩ := hd
  refine (pivot_sim g1 g2 (g := t j) (fun i hi hi' => by
    have := g3 i j hi' hj
    unfold eAt at this
    rwa [if_neg (by omega)] at this) hj).bind fun p p' hp => ?_
  obtain ⟨rfl, hp1, hp2, hp3⟩ := hp
  by_cases hpj : p = j
  · subst hpj
    simp only [bne_self_eq_false, Bool.false_eq_true, if_false]
    exact (scale_sim g1 g2 g3 hj hp3).bind fun x y hxy => Post2.ok ⟨hxy, rfl, σ, rfl⟩
  · have hpm : p < m := hp2.resolve_left hpj
    have hjm : j < m := by omega
    have hb : (p != j) = true := by simpa using hpj
    rw [hb]
    simp only [if_true]
    have hq := swapPiv_post σ hpm hjm
    obtain ⟨x, hx, hx'⟩ := LU.Rnd.swapRows_post g1 hpm hjm
    obtain ⟨y, hy, hy'⟩ := LU.Rnd.swapRows_post g2 hpm hjm
    rw [hq, hx, hy]
    simp only [ok_bind]
    have hsw : ∀ i, i < m → Equiv.swap p j i < m := by
      intro i hi
      rw [Equiv.swap_apply_def]
      split
      · exact hjm
      · split
        · exact hpm
        · exact hi
    have hsj : ∀ i, j ≤ i → j ≤ Equiv.swap p j i := by
      intro i hi
      rw [Equiv.swap_apply_def]
      split
      · exact le_rfl
      · split
        · exact hp1
        · exact hi
    refine (scale_sim hx' hy' (t := t) (fun i c hi hc => ?_) hj fun i hi hi' => ?_).bind fun x y hxy =>
      Post2.ok ⟨hxy, rfl, _, rfl⟩
    · have := g3 _ c (hsw i hi) hc
      have e : eAt j t (Equiv.swap p j i) c = eAt j t i c := by
        unfold eAt
        by_cases hc : c < j
        · have e2 : c < Equiv.swap p j i ↔ c < i := by
            rw [Equiv.swap_apply_def]
            split
            · omega
            · split <;> omega
          simp only [e2]
        · rw [if_neg (by omega), if_neg (by omega)]
      rwa [e] at this
    · rw [Equiv.swap_apply_right]
      exact hp3 _ (hsj i hi) (hsw i hi')

/-- `LU.new` on two matrices whose columns differ by powers of two: the same pivots and the same `L`; the columns of `U` differ by the same powers. -/
theorem new_sim {m n : Nat} (hm : 0 < m) (hn : 0 < n) {A A' : Matrix (Fin m) (Fin n) Fu} {t : Fin n → ℤ}
    (h : ∀ i j, Sc (t j) (A i j) (A' i j)) :
    ∃ (G G' : Matrix (Fin m) (Fin n) Fu) (pos : Bool) (σ : Equiv.Perm (Fin m)),
      LU.new (ofM A) = .ok ⟨ofM G, pos, List.ofFn fun i => (σ i).1⟩ ∧ LU.new (ofM A') = .ok ⟨ofM G', pos, List.ofFn fun i => (σ i).1⟩ ∧
      ∀ (i : Fin m) (j : Fin n), Sc (if j.1 < i.1 then 0 else t j) (G i j) (G' i j) := by
  have hsim : Post2 (LU.new (ofM A)) (LU.new (ofM A')) fun x y => (∃ σ : Equiv.Perm (Fin m), x.piv = List.ofFn fun i => (σ i).1) ∧ x.piv = y.piv ∧ x.pos = y.pos ∧ ∃ G G' : Matrix (Fin m) (Fin n) Fu,
      x.lu = ofM G ∧ y.lu = ofM G' ∧ ∀ (i : Fin m) (j : Fin n), Sc (if j.1 < i.1 then 0 else t j) (G i j) (G' i j) := by
    unfold LU.new
    have hio := iota_fill m
    rw [bind_eq_ok] at hio
    obtain ⟨b, hb1, hb2⟩ := hio
    simp only [ofM_rows, ofM_cols A hm, ofM_cols A' hm, ok_bind, hb1, hb2]
    refine (Post2.loop (s := ((ofM A).data, (List.ofFn fun i : Fin m => i.1), true)) (t := ((ofM A').data, (List.ofFn fun i : Fin m => i.1), true))
      (KInv m n fun j => if h : j < n then t ⟨j, h⟩ else 0) (Nat.zero_le n)
      ⟨⟨ext A, ext A', grid_ofM A, grid_ofM A', fun i j hi hj => ?_⟩, rfl, 1, rfl⟩
      fun j a b _ hj hab => step_sim hab hj).bind fun x y hxy => ?_
    · rw [ext_eq A hi hj, ext_eq A' hi hj]
      unfold eAt
      beta_reduce
      rw [if_neg (by omega), dif_pos hj]
      exact h ⟨i, hi⟩ ⟨j, hj⟩
    · obtain ⟨⟨F, F', g1, g2, g3⟩, h2, h3⟩ := hxy
      have hx := g1.ofM (Matrix.of fun (i : Fin m) (j : Fin n) => F i j) fun _ _ => rfl
      have hy := g2.ofM (Matrix.of fun (i : Fin m) (j : Fin n) => F' i j) fun _ _ => rfl
      obtain ⟨d, piv, pos⟩ := x
      obtain ⟨d', piv', pos'⟩ := y
      simp only [Prod.mk.injEq] at h2
      obtain ⟨rfl, rfl⟩ := h2
      dsimp only at *
      rw [hx, hy, Props.C01_new_ofM hm hn, Props.C01_new_ofM hm hn, ok_bind, ok_bind]
      refine Post2.ok ⟨h3, rfl, rfl, _, _, rfl, rfl, fun i j => ?_⟩
      have := g3 i j i.2 j.2
      unfold eAt at this
      dsimp only at this
      rw [dif_pos j.2] at this
      simp only [j.2, true_and] at this
      exact this
  obtain ⟨⟨l, p, q⟩, ⟨l', p', q'⟩, hx, hy, h0, h1, h2, G, G', h3, h4, h5⟩ := hsim
  dsimp only at h0 h1 h2 h3 h4
  obtain ⟨σ, rfl⟩ := h0
  subst h1 h2 h3 h4
  exact ⟨G, G', p, σ, hx, hy, h5⟩

end LU.Scale
end LA
