import Verif.Proofs.LUSigns

/-! # `LU.new` on a matrix and on the same matrix with further columns -/

namespace LA
set_option linter.unusedSectionVars false

theorem loop_split {σ : Type} {lo mid hi : Nat} (h1 : lo ≤ mid) (h2 : mid ≤ hi) (s : σ) (f : Nat → σ → R σ) :
    loop lo hi s f = loop lo mid s f >>= fun s => loop mid hi s f := by
  induction hi, h2 using Nat.le_induction with
  | base =>
    have : ∀ x : R σ, x = x >>= fun s => loop mid mid s f := by
      rintro (_ | a)
      · rfl
      · rw [ok_bind, loop_self]
    exact this _
  | succ k hk ih =>
    rw [loop_succ (by omega), ih, bind_assoc]
    exact congrArg _ (funext fun s => (loop_succ hk s f).symm)

namespace LU.Lead
variable {α : Type} [Zero α] [One α] [Add α] [Sub α] [Neg α] [Mul α] [FloatOps α] [Fp α] {m n n' : Nat}

/-- Two buffers, the second with more columns, that agree on the columns of the first. -/
def PG (m n n' : Nat) (d d' : List α) : Prop :=
  ∃ F F' : Nat → Nat → α, Grid d m n F ∧ Grid d' m n' F' ∧ ∀ i j, i < m → j < n → F i j = F' i j

theorem PG.idx {d d' : List α} (h : PG m n n' d d') (hn : n ≤ n') {i j : Nat} (hi : i < m) (hj : j < n) :
    Post2 (LA.idx d (i * n + j)) (LA.idx d' (i * n' + j)) Eq := by
  obtain ⟨F, F', h1, h2, h3⟩ := h
  exact ⟨_, _, h1.idx hi hj, h2.idx hi (by omega), h3 i j hi hj⟩

theorem PG.setIdx {d d' : List α} (h : PG m n n' d d') (hn : n ≤ n') {i j : Nat} (hi : i < m) (hj : j < n) (x : α) :
    Post2 (LA.setIdx d (i * n + j) x) (LA.setIdx d' (i * n' + j) x) (PG m n n') := by
  obtain ⟨F, F', h1, h2, h3⟩ := h
  obtain ⟨a, ha, ha'⟩ := h1.setIdx hi hj x
  obtain ⟨b, hb, hb'⟩ := h2.setIdx hi (show j < n' by omega) x
  refine ⟨a, b, ha, hb, _, _, ha', hb', fun k l hk hl => ?_⟩
  unfold upd
  rw [h3 k l hk hl]

theorem column_sim {j : Nat} {d d' : List α} (h : PG m n n' d d') (hn : n ≤ n') (hj : j < n) :
    Post2 (column m n j d) (column m n' j d') (PG m n n') := by
  unfold column
  refine Post2.loop (fun _ => PG m n n') (Nat.zero_le m) h fun i a b _ hi hab => ?_
  refine Post2.bind (P := Eq) (Post2.loop (fun _ => Eq) (Nat.zero_le _) rfl fun k s s' _ hk hs => ?_) fun s s' hs => ?_
  · refine (hab.idx hn hi (by omega)).bind fun x x' hx => (hab.idx hn (by omega) hj).bind fun y y' hy => Post2.ok ?_
    rw [hs, hx, hy]
  · refine (hab.idx hn hi hj).bind fun x x' hx => ?_
    rw [hs, hx]
    exact hab.setIdx hn hi hj _

theorem pivot_sim {j : Nat} {d d' : List α} (h : PG m n n' d d') (hn : n ≤ n') (hj : j < n) :
    Post2 (pivot m n j d) (pivot m n' j d') fun p p' => p = p' ∧ j ≤ p ∧ (p = j ∨ p < m) := by
  unfold pivot
  by_cases hjm : j + 1 ≤ m
  · refine (Post2.loop (fun k p p' => p = p' ∧ j ≤ p ∧ p < m) hjm ⟨rfl, le_rfl, by omega⟩ fun i p p' hi hi' hp => ?_).mono
      fun p p' hp => ⟨hp.1, hp.2.1, Or.inr hp.2.2⟩
    obtain ⟨rfl, hp1, hp2⟩ := hp
    refine (h.idx hn hp2 hj).bind fun x x' hx => (h.idx hn hi' hj).bind fun y y' hy => ?_
    rw [hx, hy]
    split
    · exact Post2.ok ⟨rfl, by omega, hi'⟩
    · exact Post2.ok ⟨rfl, hp1, hp2⟩
  · rw [loop_empty (by omega), loop_empty (by omega)]
    exact Post2.ok ⟨rfl, le_rfl, Or.inl rfl⟩

theorem scale_sim {j : Nat} {d d' : List α} (h : PG m n n' d d') (hn : n ≤ n') (hj : j < n) :
    Post2 (scale m n j d) (scale m n' j d') (PG m n n') := by
  unfold scale
  by_cases hjm : j < m
  swap
  · rw [if_neg hjm, if_neg hjm]
    exact Post2.ok h
  rw [if_pos hjm, if_pos hjm]
  refine (h.idx hn hjm hj).bind fun x x' hx => ?_
  rw [hx]
  split
  · refine Post2.loop (fun _ => PG m n n') (by omega) h fun i a b hi hi' hab => ?_
    refine (hab.idx hn hi' hj).bind fun y y' hy => (hab.idx hn hjm hj).bind fun z z' hz => ?_
    obtain ⟨q, hq⟩ := Fp.div_total y z
    rw [← hy, ← hz, hq, ok_bind, ok_bind]
    exact hab.setIdx hn hi' hj q
  · exact Post2.ok h

/-- Invariant of the outer loop, for the common columns. -/
def PInv (m n n' : Nat) (a b : List α × List Nat × Bool) : Prop := PG m n n' a.1 b.1 ∧ a.2 = b.2 ∧ a.2.1.length = m

theorem step_sim {j : Nat} {a b : List α × List Nat × Bool} (h : PInv m n n' a b) (hn : n ≤ n') (hj : j < n) :
    Post2 (step m n j a) (step m n' j b) (PInv m n n') := by
  obtain ⟨d, piv, pos⟩ := a
  obtain ⟨d', piv', pos'⟩ := b
  obtain ⟨h1, h2, h3⟩ := h
  simp only [Prod.mk.injEq] at h2
  obtain ⟨rfl, rfl⟩ := h2
  dsimp only at h1 h3
  unfold step
  dsimp only
  refine (column_sim h1 hn hj).bind fun d d' hd => ?_
  refine (pivot_sim hd hn hj).bind fun p p' hp => ?_
  obtain ⟨rfl, hp1, hp2⟩ := hp
  by_cases hpj : p = j
  · subst hpj
    simp only [bne_self_eq_false, Bool.false_eq_true, if_false]
    exact (scale_sim hd hn hj).bind fun x y hxy => Post2.ok ⟨hxy, rfl, h3⟩
  · have hpm : p < m := hp2.resolve_left hpj
    have hjm : j < m := by omega
    have hb : (p != j) = true := by simpa using hpj
    rw [hb]
    simp only [if_true]
    obtain ⟨q, hq, hq1, -⟩ := LU.Signs.swapPiv_ok (p := p) (j := j) (piv := piv) (by omega) (by omega)
    obtain ⟨F, F', g1, g2, g3⟩ := hd
    obtain ⟨x, hx, hx'⟩ := LU.Rnd.swapRows_post g1 hpm hjm
    obtain ⟨y, hy, hy'⟩ := LU.Rnd.swapRows_post g2 hpm hjm
    rw [hq, hx, hy]
    simp only [ok_bind]
    refine (scale_sim ⟨_, _, hx', hy', fun i c hi hc => ?_⟩ hn hj).bind fun x y hxy => Post2.ok ⟨hxy, rfl, by dsimp only; omega⟩
    refine g3 _ c ?_ hc
    rw [Equiv.swap_apply_def]
    split
    · exact hjm
    · split
      · exact hpm
      · exact hi

/-- A step beyond the common columns only exchanges rows at or below it. -/
theorem step_late {j : Nat} {a : List α × List Nat × Bool} {F : Nat → Nat → α} {σ : Equiv.Perm (Fin m)} (hF : Grid a.1 m n F)
    (hp : a.2.1 = List.ofFn fun i => (σ i).1) (hj : j < n) :
    Post (step m n j a) fun b => ∃ (F' : Nat → Nat → α) (τ : Equiv.Perm (Fin m)), Grid b.1 m n F' ∧
      b.2.1 = (List.ofFn fun i => ((σ * τ) i).1) ∧ (∀ i : Fin m, i.1 < j → τ i = i) ∧ ∀ (i : Fin m) c, c < j → F' i c = F (τ i) c := by
  obtain ⟨d, piv, pos⟩ := a
  dsimp only at hF hp
  unfold step
  dsimp only
  refine (LU.Rnd.column_post hF hj).bind ?_
  rintro d1 ⟨G1, hG1, h1, -⟩
  refine (LU.Rnd.pivot_post hG1 hj).bind ?_
  rintro p ⟨hp1, hp2, hp3, -⟩
  by_cases e : p = j
  · subst e
    simp only [bne_self_eq_false, Bool.false_eq_true, if_false]
    refine (LU.Rnd.scale_post hG1 hj).bind ?_
    rintro d2 ⟨G2, hG2, h2, -⟩
    refine Post.ok ⟨G2, 1, hG2, by simpa using hp, fun i _ => rfl, fun i c hc => ?_⟩
    rw [h2 _ _ (by omega), h1 _ _ (by omega)]; rfl
  · have hjm : j < m := by
      by_contra hc
      exact e (hp2 (by omega))
    have hpm := hp3 hjm
    have hb : (p != j) = true := by simpa using e
    rw [hb]
    simp only [if_true]
    obtain ⟨x, hx, hx'⟩ := LU.Rnd.swapRows_post hG1 hpm hjm
    rw [hx, hp, swapPiv_post σ hpm hjm]
    simp only [ok_bind]
    refine (LU.Rnd.scale_post hx' hj).bind ?_
    rintro d2 ⟨G2, hG2, h2, -⟩
    refine Post.ok ⟨G2, Equiv.swap ⟨p, hpm⟩ ⟨j, hjm⟩, hG2, rfl, fun i hi => ?_, fun i c hc => ?_⟩
    · refine Equiv.swap_apply_of_ne_of_ne ?_ ?_ <;> (intro h; have := congrArg Fin.val h; dsimp only at this; omega)
    · rw [h2 _ _ (by omega)]
      beta_reduce
      rw [h1 _ _ (by omega)]
      congr 1
      by_cases e1 : i.1 = p
      · have : i = ⟨p, hpm⟩ := Fin.ext e1
        rw [this]; simp
      · by_cases e2 : i.1 = j
        · have : i = ⟨j, hjm⟩ := Fin.ext e2
          rw [this]; simp
        · rw [Equiv.swap_apply_of_ne_of_ne e1 e2, Equiv.swap_apply_of_ne_of_ne]
          · intro h; exact e1 (congrArg Fin.val h)
          · intro h; exact e2 (congrArg Fin.val h)

/-- `LU.new` on `A` and on `A` with further columns: the same pivots in the common columns, hence the same factors there; the later columns only
exchange later rows. -/
theorem new_lead (hm : 0 < m) (hn0 : 0 < n) (hn : n ≤ n') {A : Matrix (Fin m) (Fin n) α} {A' : Matrix (Fin m) (Fin n') α}
    (h : ∀ i (j : Fin n), A' i ⟨j, by omega⟩ = A i j) :
    ∃ (G G' : Nat → Nat → α) (σ τ : Equiv.Perm (Fin m)) (pos pos' : Bool),
      LU.new (ofM A) = .ok ⟨ofM (Matrix.of fun (i : Fin m) (j : Fin n) => G i j), pos, List.ofFn fun i => (σ i).1⟩ ∧
      LU.new (ofM A') = .ok ⟨ofM (Matrix.of fun (i : Fin m) (j : Fin n') => G' i j), pos', List.ofFn fun i => ((σ * τ) i).1⟩ ∧
      (∀ i : Fin m, i.1 < n → τ i = i) ∧ ∀ (i : Fin m) c, c < n → G' i c = G (τ i) c := by
  obtain ⟨G0, σ, e1, -⟩ := LU.Rnd.new_ofM hm hn0 A
  unfold LU.new at e1 ⊢
  have hio := iota_fill m
  rw [bind_eq_ok] at hio
  obtain ⟨b, hb1, hb2⟩ := hio
  simp only [ofM_rows, ofM_cols A hm, ofM_cols A' hm, ok_bind, hb1, hb2] at e1 ⊢
  obtain ⟨x, y, hx, hy, ⟨F, F', g1, g2, g3⟩, h2, h3⟩ := Post2.loop (s := ((ofM A).data, (List.ofFn fun i : Fin m => i.1), true))
    (t := ((ofM A').data, (List.ofFn fun i : Fin m => i.1), true)) (f := fun j s => step m n j s) (g := fun j s => step m n' j s) (fun _ => PInv m n n') (Nat.zero_le n)
    ⟨⟨ext A, ext A', grid_ofM A, grid_ofM A', fun i j hi hj => by
      rw [ext_eq A hi hj, ext_eq A' hi (by omega)]; exact (h ⟨i, hi⟩ ⟨j, hj⟩).symm⟩, rfl, by simp⟩
    fun j a b _ hj hab => step_sim (α := α) hab hn hj
  have ex := g1.ofM (Matrix.of fun (i : Fin m) (j : Fin n) => F i j) fun _ _ => rfl
  rw [hx, ok_bind] at e1
  obtain ⟨d, piv, pos⟩ := x
  obtain ⟨d', piv', pos'⟩ := y
  simp only [Prod.mk.injEq] at h2
  obtain ⟨rfl, rfl⟩ := h2
  dsimp only at *
  rw [ex, Props.C01_new_ofM hm hn0, ok_bind] at e1
  have ep : piv = List.ofFn fun i => (σ i).1 := congrArg LU.piv (Except.ok.inj e1)
  have hl := loop_post (s := (d', piv, pos)) (f := fun j s => step m n' j s)
    (fun _ s => ∃ (F2 : Nat → Nat → α) (τ : Equiv.Perm (Fin m)), Grid s.1 m n' F2 ∧ s.2.1 = (List.ofFn fun i => ((σ * τ) i).1) ∧
      (∀ i : Fin m, i.1 < n → τ i = i) ∧ ∀ (i : Fin m) c, c < n → F2 i c = F' (τ i) c) hn
    ⟨F', 1, g2, by simpa using ep, fun _ _ => rfl, fun _ _ _ => rfl⟩ (by
      rintro j s hj1 hj2 ⟨F2, τ, k1, k2, k3, k4⟩
      refine (step_late k1 k2 hj2).mono ?_
      rintro s' ⟨F3, τ', l1, l2, l3, l4⟩
      refine ⟨F3, τ * τ', l1, by rw [l2, mul_assoc], fun i hi => ?_, fun i c hc => ?_⟩
      · rw [Equiv.Perm.mul_apply, l3 i (by omega), k3 i hi]
      · rw [l4 i c (by omega), k4 _ c hc]; rfl)
  obtain ⟨⟨d2, piv2, pos2⟩, hrun, F2, τ, k1, k2, k3, k4⟩ := hl
  dsimp only at k1 k2
  have ex2 := k1.ofM (Matrix.of fun (i : Fin m) (j : Fin n') => F2 i j) fun _ _ => rfl
  refine ⟨F, F2, σ, τ, pos, pos2, ?_, ?_, k3, fun i c hc => ?_⟩
  · rw [hx, ok_bind]
    dsimp only
    rw [ex, Props.C01_new_ofM hm hn0, ok_bind, ep]; rfl
  · rw [loop_split (Nat.zero_le n) hn, hy, ok_bind, hrun, ok_bind]
    dsimp only
    rw [ex2, Props.C01_new_ofM hm (by omega), ok_bind, k2]; rfl
  · rw [k4 i c hc]
    exact (g3 _ c (τ i).2 hc).symm

end LU.Lead
end LA
