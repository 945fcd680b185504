import Verif.Proofs.RndLU

/-! # Zero entries of the factors of a band matrix, for any arithmetic in which zeros behave -/

set_option linter.unusedSectionVars false

namespace LA
open Finset

/-- Arithmetic in which zeros (`Z`) stay zeros as long as the other operands are harmless (`F`). -/
structure Zeros (α : Type) [Zero α] [Add α] [Sub α] [Mul α] [FloatOps α] (Z F : α → Prop) : Prop where
  zero : Z 0
  add : ∀ x y, Z x → Z y → Z (x + y)
  sub : ∀ x y, Z x → Z y → Z (x - y)
  mul_left : ∀ x y, Z x → F y → Z (x * y)
  mul_right : ∀ x y, F x → Z y → Z (x * y)
  div_ok : ∀ x q : α, FloatOps.eq q 0 ≠ true → ∃ y, RDiv.rdiv x q = .ok y
  div : ∀ x q y : α, Z x → F q → FloatOps.eq q 0 ≠ true → RDiv.rdiv x q = .ok y → Z y
  lt : ∀ x y : α, Z x → FloatOps.lt (FloatOps.abs y) (FloatOps.abs x) = false

namespace LU.Band
variable {α : Type} [Zero α] [One α] [Add α] [Sub α] [Neg α] [Mul α] [FloatOps α] {Z F : α → Prop}

theorem fdot_zero (hZ : Zeros α Z F) {x y : Nat → α} {k : Nat} (h : ∀ t, t < k → Z (x t) ∧ F (y t) ∨ F (x t) ∧ Z (y t)) : Z (fdot x y k) := by
  unfold fdot
  induction k with
  | zero => exact hZ.zero
  | succ k ih =>
    refine hZ.add _ _ (ih fun t ht => h t (by omega)) ?_
    rcases h k (by omega) with ⟨a, b⟩ | ⟨a, b⟩
    · exact hZ.mul_left _ _ a b
    · exact hZ.mul_right _ _ a b

/-- An exchange happens only for an entry that is not zero. -/
theorem pivot_post (hZ : Zeros α Z F) {m n j : Nat} {d : List α} {G : Nat → Nat → α} (hd : Grid d m n G) (hj : j < n) :
    Post (pivot m n j d) fun p => j ≤ p ∧ (m ≤ j → p = j) ∧ (j < m → p < m) ∧ (p ≠ j → ¬ Z (G p j)) := by
  by_cases hjm : j < m
  swap
  · unfold pivot
    rw [loop_empty (by omega)]
    exact Post.ok ⟨le_rfl, fun _ => rfl, fun h => absurd h hjm, fun h => absurd rfl h⟩
  refine (loop_post (fun i p => j ≤ p ∧ p < i ∧ (p ≠ j → ¬ Z (G p j))) (show j + 1 ≤ m from hjm)
    ⟨le_rfl, by omega, fun h => absurd rfl h⟩ ?_).mono ?_
  · rintro i p h1 hi ⟨hp1, hp2, hp3⟩
    rw [hd.idx (show p < m by omega) hj, hd.idx hi hj, ok_bind, ok_bind]
    split
    · next h =>
      refine Post.ok ⟨by omega, by omega, fun _ hz => ?_⟩
      rw [hZ.lt _ _ hz] at h
      exact Bool.false_ne_true h
    · exact Post.ok ⟨hp1, by omega, hp3⟩
  · rintro p ⟨h1, h2, h3⟩
    exact ⟨h1, fun h => by omega, fun _ => h2, h3⟩

theorem scale_post (hZ : Zeros α Z F) {m n j : Nat} {d : List α} {G : Nat → Nat → α} (hd : Grid d m n G) (hj : j < n) :
    Post (scale m n j d) fun d' => ∃ G', Grid d' m n G' ∧ (∀ i c, ¬(c = j ∧ j < i) → G' i c = G i c) ∧
      ∀ i, j < i → i < m → Rnd.Quot (G i j) (G j j) (G' i j) := by
  unfold scale
  by_cases hjm : j < m
  swap
  · rw [if_neg hjm]
    exact Post.ok ⟨G, hd, fun _ _ _ => rfl, fun i h1 h2 => by omega⟩
  rw [if_pos hjm, hd.idx hjm hj, ok_bind]
  by_cases h0 : FloatOps.eq (G j j) 0 = true
  · simp only [h0, Bool.not_true, Bool.false_eq_true, if_false]
    exact Post.ok ⟨G, hd, fun _ _ _ => rfl, fun i h1 h2 => by unfold Rnd.Quot; rw [if_pos h0]⟩
  simp only [h0, Bool.not_false, if_true]
  refine (loop_post (fun i d' => ∃ G', Grid d' m n G' ∧ (∀ i' c, ¬(c = j ∧ j < i' ∧ i' < i) → G' i' c = G i' c) ∧
      ∀ i', j < i' → i' < i → Rnd.Quot (G i' j) (G j j) (G' i' j))
    (show j + 1 ≤ m from hjm) ⟨G, hd, fun _ _ _ => rfl, fun i h1 h2 => by omega⟩ ?_).mono ?_
  · rintro i d' hi1 hi ⟨G', hG, h1, h2⟩
    obtain ⟨z, hz⟩ := hZ.div_ok (G i j) (G j j) h0
    rw [hG.idx hi hj, hG.idx hjm hj, ok_bind, ok_bind, h1 i j (by omega), h1 j j (by omega), hz, ok_bind]
    refine (hG.setIdx hi hj _).mono fun d'' h3 => ⟨_, h3, fun i' c hc => ?_, fun i' a b => ?_⟩
    · rw [upd_ne (by omega), h1 i' c (by omega)]
    · by_cases e : i' = i
      · subst e
        rw [upd_same]; unfold Rnd.Quot; rw [if_neg h0]; exact hz
      · rw [upd_ne (by omega)]; exact h2 i' a (by omega)
  · rintro d' ⟨G', hG, h1, h2⟩
    exact ⟨G', hG, fun i c h => h1 i c (by omega), fun i a b => h2 i a b⟩

theorem swapPiv_post {m p j : Nat} (τ : Nat → Nat) (hp : p < m) (hj : j < m) :
    swapPiv p j (List.ofFn fun i : Fin m => τ i) = .ok (List.ofFn fun i : Fin m => τ (Equiv.swap p j i)) := by
  unfold swapPiv
  rw [idx_lt (by simpa using hp), ok_bind, idx_lt (by simpa using hj), ok_bind, setIdx_lt (by simpa using hp), ok_bind,
    setIdx_lt (by simpa using hj)]
  congr 1
  apply List.ext_getElem
  · simp
  · intro i h1 h2
    simp only [List.length_set, List.length_ofFn] at h1
    simp only [List.getElem_set, List.getElem_ofFn]
    by_cases ej : j = i
    · subst ej; simp
    · by_cases ep : p = i
      · subst ep; simp [ej]
      · rw [if_neg ej, if_neg ep, Equiv.swap_apply_of_ne_of_ne (Ne.symm ep) (Ne.symm ej)]

/-- The zeros after `j` columns, and where the rows are. -/
structure Pattern (Z : α → Prop) (m n b q j : Nat) (G : Nat → Nat → α) (τ : Nat → Nat) : Prop where
  low : ∀ i c, i < m → c < j → c < n → c ≤ i → c + b < τ i → Z (G i c)
  up : ∀ i c, i < m → c < j → c < n → i ≤ c → (∀ k, k ≤ i → τ k + q < c) → Z (G i c)
  past : ∀ i, i < m → i < j → τ i ≤ i + b
  ahead : ∀ i, i < m → j ≤ i → τ i ≤ i ∨ τ i < j + b

/-- The zeros of the first `j` columns. -/
structure Part (Z : α → Prop) (m n b q j : Nat) (G : Nat → Nat → α) (τ : Nat → Nat) : Prop where
  low : ∀ i c, i < m → c < j → c < n → c ≤ i → c + b < τ i → Z (G i c)
  up : ∀ i c, i < m → c < j → c < n → i ≤ c → (∀ k, k ≤ i → τ k + q < c) → Z (G i c)
  past : ∀ i, i < m → i < j → τ i ≤ i + b

/-- Invariant of the outer loop. -/
structure Inv (Z F : α → Prop) (m n b q : Nat) (A : Nat → Nat → α) (j : Nat) (s : List α × List Nat × Bool) (G : Nat → Nat → α) (τ : Nat → Nat) :
    Prop where
  grid : Grid s.1 m n G
  piv : s.2.1 = List.ofFn fun i : Fin m => τ i
  lt : ∀ i, i < m → τ i < m
  todo : ∀ i c, i < m → j ≤ c → c < n → A (τ i) c = G i c
  pat : (∀ i c, i < m → c < j → c < n → F (G i c)) → Pattern Z m n b q j G τ
  part : ∀ j', j' ≤ j → (∀ i c, i < m → c < j' → c < n → F (G i c)) → Part Z m n b q j' G τ

variable {m n b q : Nat} {A : Nat → Nat → α}

theorem step_post (hZ : Zeros α Z F) (hA : ∀ i c, i < m → c < n → (c + b < i ∨ i + q < c) → Z (A i c)) {j : Nat}
    {s : List α × List Nat × Bool} {G : Nat → Nat → α} {τ : Nat → Nat} (h : Inv Z F m n b q A j s G τ) (hj : j < n) :
    Post (step m n j s) fun s' => ∃ G' τ', Inv Z F m n b q A (j + 1) s' G' τ' := by
  obtain ⟨d, piv, pos⟩ := s
  unfold step
  dsimp only
  refine (Rnd.column_post h.grid hj).bind ?_
  rintro d1 ⟨G1, hG1, h1, h2⟩
  refine (pivot_post hZ hG1 hj).bind ?_
  rintro p ⟨hp1, hp2, hp3, hp4⟩
  -- zeros of the new column
  have hlow : Pattern Z m n b q j G τ → (∀ t, t < m → t < j → F (G1 t j)) → ∀ i, i < m → j ≤ i → j + b < τ i → Z (G1 i j) := by
    intro hP hF i hi hji hb
    rw [h2 i hi]
    refine hZ.sub _ _ ?_ (fdot_zero hZ fun t ht => Or.inl ⟨?_, hF t (by omega) (by omega)⟩)
    · rw [← h.todo i j hi le_rfl hj]
      exact hA _ _ (h.lt i hi) hj (Or.inl hb)
    · rw [h1 i t (by omega)]
      exact hP.low i t hi (by omega) (by omega) (by omega) (by omega)
  have hup : (∀ i c, i < m → c < j → F (G1 i c)) → ∀ i, i < m → (∀ k, k < i → k < j → τ k + q < j) → τ i + q < j → Z (G1 i j) := by
    intro hF i
    induction i using Nat.strong_induction_on with
    | _ i ih =>
      intro hi hk hq
      rw [h2 i hi]
      refine hZ.sub _ _ ?_ (fdot_zero hZ fun t ht => Or.inr ⟨hF i t hi (by omega), ?_⟩)
      · rw [← h.todo i j hi le_rfl hj]
        exact hA _ _ (h.lt i hi) hj (Or.inr hq)
      · exact ih t (by omega) (by omega) (fun k h3 h4 => hk k (by omega) h4) (hk t (by omega) (by omega))
  -- the exchange
  have key : Post (do
      if p != j then
        let d ← swapRows n p j d1
        let piv ← swapPiv p j piv
        return (d, piv, !pos)
      else return (d1, piv, pos) : R (List α × List Nat × Bool)) fun t => ∃ (e : Equiv.Perm Nat),
        (e = Equiv.refl Nat ∨ (e = Equiv.swap p j ∧ j < p ∧ p < m)) ∧
        Grid t.1 m n (fun i c => G1 (e i) c) ∧ t.2.1 = (List.ofFn fun i : Fin m => τ (e i)) := by
    by_cases e : p = j
    · subst e
      simp only [bne_self_eq_false, Bool.false_eq_true, if_false]
      exact Post.ok ⟨Equiv.refl Nat, Or.inl rfl, hG1, h.piv⟩
    · have hjm : j < m := by
        by_contra hc
        exact e (hp2 (by omega))
      have hpm := hp3 hjm
      rw [if_pos (by simpa using e)]
      refine (Rnd.swapRows_post hG1 hpm hjm).bind fun d2 hG2 => ?_
      have hpiv : piv = List.ofFn fun i : Fin m => τ i := h.piv
      rw [hpiv, swapPiv_post τ hpm hjm, ok_bind]
      exact Post.ok ⟨Equiv.swap p j, Or.inr ⟨rfl, by omega, hpm⟩, hG2, rfl⟩
  refine key.bind ?_
  rintro ⟨d2, piv2, pos2⟩ ⟨e, he, hG2, hpiv2⟩
  dsimp only at hG2 hpiv2
  dsimp only
  refine (scale_post hZ hG2 hj).bind ?_
  rintro d3 ⟨G3, hG3, a1, a2⟩
  have hem : ∀ i, i < m → e i < m := by
    intro i hi
    rcases he with rfl | ⟨rfl, h3, h4⟩
    · exact hi
    · rcases Equiv.swap_apply_eq_iff.2 rfl |> fun (_ : Equiv.swap p j (Equiv.swap p j i) = i) => em (i = p) with rfl | hp
      · rw [Equiv.swap_apply_left]; omega
      · by_cases hj' : i = j
        · subst hj'; rw [Equiv.swap_apply_right]; exact h4
        · rw [Equiv.swap_apply_of_ne_of_ne hp hj']; exact hi
  have hel : ∀ i, i < j → e i = i := by
    intro i hi
    rcases he with rfl | ⟨rfl, h3, h4⟩
    · rfl
    · exact Equiv.swap_apply_of_ne_of_ne (by omega) (by omega)
  have heg : ∀ i, j ≤ i → j ≤ e i := by
    intro i hi
    by_contra hc
    have h3 := hel (e i) (by omega)
    have := e.injective h3
    omega
  have hsurj : ∀ i, i < m → ∃ i', i' < m ∧ e i' = i := by
    intro i hi
    refine ⟨e i, hem i hi, ?_⟩
    rcases he with rfl | ⟨rfl, h3, h4⟩
    · rfl
    · exact (Equiv.swap p j).symm_apply_apply i
  have hpat : (∀ i c, i < m → c < j + 1 → c < n → F (G3 i c)) → Pattern Z m n b q (j + 1) G3 fun i => τ (e i) := by
    intro hF
    have hF1 : ∀ i c, i < m → c < j → F (G1 i c) := by
      intro i c hi hc
      obtain ⟨i', h3, h4⟩ := hsurj i hi
      have := hF i' c h3 (by omega) (by omega)
      rw [a1 i' c (by omega), h4] at this
      exact this
    have hP := h.pat fun i c hi hc _ => by rw [← h1 i c (by omega)]; exact hF1 i c hi hc
    have hFj : ∀ t, t < m → t < j → F (G1 t j) := by
      intro t ht htj
      have := hF t j ht (by omega) hj
      rwa [a1 t j (by omega), hel t htj] at this
    have z1 := hlow hP hFj
    have z2 := hup hF1
    refine ⟨fun i c hi hc hn hci hb => ?_, fun i c hi hc hn hic hk => ?_, fun i hi hij => ?_, fun i hi hij => ?_⟩
    · by_cases hcj : c = j
      · subst hcj
        have hz := z1 (e i) (hem i hi) (heg i hci) hb
        by_cases hic : i = c
        · subst hic
          rw [a1 i i (by omega)]; exact hz
        · have hq := a2 i (by omega) hi
          unfold Rnd.Quot at hq
          split at hq
          · rw [hq]; exact hz
          · next h0 =>
            have hFc := hF c c (by omega) (by omega) hn
            rw [a1 c c (by omega)] at hFc
            exact hZ.div _ _ _ hz hFc h0 hq
      · rw [a1 i c (by omega), h1 _ c hcj]
        refine hP.low _ c (hem i hi) (by omega) hn ?_ hb
        rcases Nat.lt_or_ge i j with hij | hij
        · rw [hel i hij]; exact hci
        · have := heg i hij; omega
    · by_cases hcj : c = j
      · subst hcj
        rw [a1 i c (by omega)]
        refine z2 (e i) (hem i hi) (fun k hk1 hk2 => ?_) (hk i le_rfl)
        rcases Nat.lt_or_ge i c with hij | hij
        · rw [hel i hij] at hk1
          have := hk k (by omega)
          rwa [hel k hk2] at this
        · have := hk k (by omega)
          rwa [hel k hk2] at this
      · rw [a1 i c (by omega), h1 _ c hcj, hel i (by omega)]
        refine hP.up i c hi (by omega) hn hic fun k hk2 => ?_
        have := hk k hk2
        rwa [hel k (by omega)] at this
    · rcases Nat.lt_or_ge i j with h3 | h3
      · rw [hel i h3]; exact hP.past i hi h3
      · obtain rfl : i = j := by omega
        rcases he with rfl | ⟨rfl, h4, h5⟩
        · have := hP.ahead i hi le_rfl
          simp only [Equiv.refl_apply]
          omega
        · rw [Equiv.swap_apply_right]
          by_contra hc
          exact hp4 (by omega) (z1 p h5 (by omega) (by omega))
    · have hj0 := hP.ahead j (by omega) le_rfl
      have hi0 := hP.ahead i hi (by omega)
      rcases he with rfl | ⟨rfl, h4, h5⟩
      · simp only [Equiv.refl_apply]; omega
      · by_cases hip : i = p
        · subst hip
          rw [Equiv.swap_apply_left]; omega
        · rw [Equiv.swap_apply_of_ne_of_ne hip (by omega)]; omega
  refine Post.ok ⟨G3, fun i => τ (e i), hG3, hpiv2, fun i hi => h.lt _ (hem i hi), fun i c hi hc hn => ?_, hpat, fun j' hj' hF => ?_⟩
  · rw [a1 i c (by omega), h1 _ c (by omega)]
    exact h.todo _ c (hem i hi) (by omega) hn
  by_cases hjj : j' = j + 1
  · subst hjj
    have := hpat hF
    exact ⟨this.low, this.up, this.past⟩
  have hQ := h.part j' (by omega) fun i c hi hc hn => by
    obtain ⟨i', h3, h4⟩ := hsurj i hi
    have := hF i' c h3 hc hn
    rwa [a1 i' c (by omega), h4, h1 i c (by omega)] at this
  refine ⟨fun i c hi hc hn hci hb => ?_, fun i c hi hc hn hic hk => ?_, fun i hi hij => ?_⟩
  · rw [a1 i c (by omega), h1 _ c (by omega)]
    refine hQ.low _ c (hem i hi) hc hn ?_ hb
    rcases Nat.lt_or_ge i j with hij | hij
    · rw [hel i hij]; exact hci
    · have := heg i hij; omega
  · rw [a1 i c (by omega), h1 _ c (by omega), hel i (by omega)]
    refine hQ.up i c hi hc hn hic fun k hk2 => ?_
    have := hk k hk2
    rwa [hel k (by omega)] at this
  · rw [hel i (by omega)]; exact hQ.past i hi hij

/-- The zeros of the packed factors of a band matrix. -/
theorem new_ofM (hZ : Zeros α Z F) (hm : 0 < m) (hn : 0 < n) (A : Matrix (Fin m) (Fin n) α)
    (hA : ∀ (i : Fin m) (c : Fin n), (c.1 + b < i.1 ∨ i.1 + q < c.1) → Z (A i c)) :
    ∃ (G : Nat → Nat → α) (τ : Nat → Nat) (pos : Bool),
      LU.new (ofM A) = .ok ⟨ofM (Matrix.of fun (i : Fin m) (j : Fin n) => G i j), pos, List.ofFn fun i : Fin m => τ i⟩ ∧
      ((∀ (i : Fin m) (c : Fin n), F (G i c)) → Pattern Z m n b q n G τ) ∧
      ∀ j, j ≤ n → (∀ i c, i < m → c < j → F (G i c)) → Part Z m n b q j G τ := by
  unfold LU.new
  have hio := iota_fill m
  rw [bind_eq_ok] at hio
  obtain ⟨B, hb1, hb2⟩ := hio
  simp only [ofM_rows, ofM_cols A hm, ok_bind, hb1, hb2]
  have := loop_post (s := ((ofM A).data, (List.ofFn fun i : Fin m => i.1), true)) (f := fun j s => step m n j s)
    (fun j s => ∃ G τ, Inv Z F m n b q (ext A) j s G τ) (Nat.zero_le n)
    ⟨ext A, id, grid_ofM A, rfl, fun _ h => h, fun i c _ _ _ => rfl, fun _ => ⟨fun i c _ h => by omega, fun i c _ h => by omega,
      fun i _ h => by omega, fun i _ _ => Or.inl le_rfl⟩, fun j' _ _ => ⟨fun i c _ h => by omega, fun i c _ h => by omega, fun i _ h => by omega⟩⟩
    (by
      rintro j s - hj ⟨G, τ, h⟩
      refine step_post hZ (fun i c hi hc h => ?_) h hj
      rw [ext_eq A hi hc]
      exact hA ⟨i, hi⟩ ⟨c, hc⟩ h)
  obtain ⟨⟨d, piv, pos⟩, hs, G, τ, h⟩ := this
  rw [hs, ok_bind]
  refine ⟨G, τ, pos, ?_, fun hF => h.pat fun i c hi _ hc => hF ⟨i, hi⟩ ⟨c, hc⟩, fun j hj hF => h.part j hj fun i c hi hc _ => hF i c hi hc⟩
  have hd : d = (ofM (Matrix.of fun (i : Fin m) (j : Fin n) => G i j)).data := h.grid.ofM _ fun _ _ => rfl
  have hp : piv = List.ofFn fun i : Fin m => τ i := h.piv
  dsimp only
  rw [hd, Props.C01_new_ofM hm hn, hp]; rfl

end LU.Band
end LA
