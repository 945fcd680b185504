import Verif.Model.LU
import Verif.Proofs.Norm
import Verif.Props.Construction
import Mathlib.LinearAlgebra.Matrix.Determinant.Basic
import Mathlib.LinearAlgebra.Matrix.Block
import Mathlib.LinearAlgebra.Matrix.NonsingularInverse
import Mathlib.GroupTheory.Perm.Sign

/-! # Lemmas about the model of LUDecomposition -/

set_option linter.unusedSectionVars false

namespace LA
open Finset

theorem loop_sum0 {α : Type} [AddCommMonoid α] {k : Nat} {f : Nat → α → R α} (x : Nat → α)
    (h : ∀ i s, i < k → f i s = .ok (s + x i)) : loop 0 k (0 : α) f = .ok (∑ i ∈ range k, x i) := by
  rw [loop_sum (Nat.zero_le _) 0 x (fun i s _ hi => h i s hi), zero_add, Finset.range_eq_Ico]

section
variable {K : Type} [Field K] [LinearOrder K] [FloatOps K] [Exact K]

namespace LU

theorem column_post {m n j : Nat} {d : List K} {F : Nat → Nat → K} (hd : Grid d m n F) (hj : j < n) :
    Post (column m n j d) fun d' => ∃ G, Grid d' m n G ∧ (∀ i c, c ≠ j → G i c = F i c) ∧
      ∀ i, i < m → F i j = (∑ k ∈ range (min i j), G i k * G k j) + G i j := by
  refine (loop_post (fun i d' => ∃ G, Grid d' m n G ∧ (∀ i c, c ≠ j → G i c = F i c) ∧
    (∀ i', i ≤ i' → G i' j = F i' j) ∧
    ∀ i', i' < i → i' < m → F i' j = (∑ k ∈ range (min i' j), G i' k * G k j) + G i' j) (Nat.zero_le m)
    ⟨F, hd, fun _ _ _ => rfl, fun _ _ => rfl, fun i' h => absurd h (by omega)⟩ ?_).mono ?_
  · rintro i d' - hi ⟨G, hG, h1, h2, h3⟩
    have hs : loop 0 (min i j) (0 : K) (fun k s => do
        return s + (← idx d' (i * n + k)) * (← idx d' (k * n + j))) =
        .ok (∑ k ∈ range (min i j), G i k * G k j) := by
      refine loop_sum0 (fun k => G i k * G k j) fun k s hk => ?_
      rw [hG.idx hi (by omega), hG.idx (by omega) hj]; rfl
    rw [hs, ok_bind, hG.idx hi hj, ok_bind]
    refine (hG.setIdx hi hj _).mono ?_
    intro d'' hG'
    refine ⟨_, hG', ?_, ?_, ?_⟩
    · intro i' c hc
      rw [upd_ne (by tauto), h1 i' c hc]
    · intro i' hi'
      rw [upd_ne (by omega), h2 i' (by omega)]
    · intro i' hi' hm'
      have hsum : ∀ r, r ≤ i → (∑ k ∈ range (min r j),
          upd G i j (G i j - ∑ k ∈ range (min i j), G i k * G k j) r k *
          upd G i j (G i j - ∑ k ∈ range (min i j), G i k * G k j) k j) = ∑ k ∈ range (min r j), G r k * G k j := by
        intro r hr
        refine Finset.sum_congr rfl fun k hk => ?_
        rw [Finset.mem_range] at hk
        rw [upd_ne (by omega), upd_ne (by omega)]
      rw [hsum i' (by omega)]
      by_cases e : i' = i
      · subst e
        rw [upd_same, h2 i' le_rfl]; ring
      · rw [upd_ne (by omega)]
        exact h3 i' (by omega) hm'
  · rintro d' ⟨G, hG, h1, _, h3⟩
    exact ⟨G, hG, h1, fun i hi => h3 i hi hi⟩

theorem pivot_post {m n j : Nat} {d : List K} {G : Nat → Nat → K} (hd : Grid d m n G) (hj : j < n) :
    Post (pivot m n j d) fun p => j ≤ p ∧ (m ≤ j → p = j) ∧ (j < m → p < m) ∧
      ∀ i, j ≤ i → i < m → |G i j| ≤ |G p j| := by
  by_cases hjm : j < m
  swap
  · unfold pivot
    rw [loop_empty (by omega)]
    exact Post.ok ⟨le_rfl, fun _ => rfl, fun h => absurd h hjm, fun i h1 h2 => by omega⟩
  refine (loop_post (fun i p => j ≤ p ∧ p < i ∧ ∀ i', j ≤ i' → i' < i → |G i' j| ≤ |G p j|) (show j + 1 ≤ m from hjm)
    ⟨le_rfl, by omega, fun i' h1 h2 => by rw [show i' = j by omega]⟩ ?_).mono ?_
  · rintro i p h1 hi ⟨hp1, hp2, hp3⟩
    rw [hd.idx (show p < m by omega) hj, hd.idx hi hj, ok_bind, ok_bind]
    simp only [lt_eq, Exact.abs_eq, decide_eq_true_eq]
    split
    · next h =>
      refine Post.ok ⟨by omega, by omega, fun i' h1 h2 => ?_⟩
      by_cases e : i' = i
      · rw [e]
      · exact (hp3 i' h1 (by omega)).trans h.le
    · next h =>
      refine Post.ok ⟨by omega, by omega, fun i' h1 h2 => ?_⟩
      by_cases e : i' = i
      · rw [e]; exact not_lt.mp h
      · exact hp3 i' h1 (by omega)
  · rintro p ⟨h1, h2, h3⟩
    exact ⟨h1, fun h => by omega, fun _ => h2, h3⟩

theorem swapRows_post {m n p j : Nat} {d : List K} {G : Nat → Nat → K} (hd : Grid d m n G) (hp : p < m) (hj : j < m) :
    Post (swapRows n p j d) fun d' => Grid d' m n (fun i c => G (Equiv.swap p j i) c) := by
  refine (loop_post (fun k d' => Grid d' m n (fun i c => if c < k then G (Equiv.swap p j i) c else G i c))
    (Nat.zero_le n) (by simpa using hd) ?_).mono ?_
  · rintro k d' - hk hG
    rw [hG.idx hp hk, hG.idx hj hk, ok_bind, ok_bind]
    refine (hG.setIdx hp hk _).bind fun d'' h2 => (h2.setIdx hj hk _).mono fun d3 h3 => ?_
    refine h3.congr fun i c _ hc => ?_
    simp only [upd, lt_irrefl, if_false]
    by_cases ec : c = k
    · subst ec
      by_cases ej : i = j
      · subst ej; simp
      · by_cases ep : i = p
        · subst ep; simp [ej]
        · simp [ej, ep, Equiv.swap_apply_of_ne_of_ne ep ej]
    · have : (c < k + 1) ↔ c < k := by omega
      simp [ec, this]
  · intro d' hG
    exact hG.congr fun i c _ hc => by rw [if_pos hc]

theorem swapPiv_post {m p j : Nat} (σ : Equiv.Perm (Fin m)) (hp : p < m) (hj : j < m) :
    swapPiv p j (List.ofFn fun i => (σ i).1) =
      .ok (List.ofFn fun i => ((σ * Equiv.swap (⟨p, hp⟩ : Fin m) ⟨j, hj⟩ : Equiv.Perm (Fin m)) i).1) := by
  unfold swapPiv
  rw [idx_lt (by simpa using hp), ok_bind, idx_lt (by simpa using hj), ok_bind, setIdx_lt (by simpa using hp), ok_bind,
    setIdx_lt (by simpa using hj)]
  congr 1
  apply List.ext_getElem
  · simp
  · intro i h1 h2
    simp only [List.length_set, List.length_ofFn] at h1
    simp only [List.getElem_set, List.getElem_ofFn, Equiv.Perm.mul_apply]
    by_cases ej : j = i
    · subst ej; simp
    · by_cases ep : p = i
      · subst ep; simp [ej]
      · rw [if_neg ej, if_neg ep, Equiv.swap_apply_of_ne_of_ne]
        · intro h; exact ep (congrArg Fin.val h).symm
        · intro h; exact ej (congrArg Fin.val h).symm

theorem scale_post {m n j : Nat} {d : List K} {G : Nat → Nat → K} (hd : Grid d m n G) (hj : j < n) :
    Post (scale m n j d) fun d' => Grid d' m n
      (fun i c => if c = j ∧ j < i ∧ G j j ≠ 0 then G i c / G j j else G i c) := by
  unfold scale
  by_cases hjm : j < m
  swap
  · rw [if_neg hjm]
    refine Post.ok (hd.congr fun i c hi hc => ?_)
    rw [if_neg]; omega
  rw [if_pos hjm, hd.idx hjm hj, ok_bind]
  simp only [eq_eq]
  by_cases h0 : G j j = 0
  · simp only [h0, decide_true, Bool.not_true, Bool.false_eq_true, if_false]
    refine Post.ok (hd.congr fun i c hi hc => ?_)
    rw [if_neg]; tauto
  simp only [h0, decide_false, Bool.not_false, if_true]
  refine (loop_post (fun i d' => Grid d' m n (fun i' c => if c = j ∧ j < i' ∧ i' < i then G i' c / G j j else G i' c))
    (show j + 1 ≤ m from hjm) (hd.congr fun i c hi hc => by rw [if_neg]; omega) ?_).mono ?_
  · intro i d' hi1 hi hG
    have e1 : ∀ x, x = j → ¬(j = j ∧ j < x ∧ x < i) := by omega
    rw [hG.idx hi hj, hG.idx hjm hj, ok_bind, ok_bind, if_neg (by omega), if_neg (by omega), rdiv_ok h0, ok_bind]
    refine (hG.setIdx hi hj _).mono fun d'' h2 => h2.congr fun i' c _ _ => ?_
    by_cases e : i' = i ∧ c = j
    · obtain ⟨rfl, rfl⟩ := e
      rw [upd_same, if_pos (by omega)]
    · rw [upd_ne e]
      by_cases h : c = j ∧ j < i' ∧ i' < i
      · rw [if_pos h, if_pos (by omega)]
      · rw [if_neg h, if_neg (by omega)]
  · intro d' hG
    refine hG.congr fun i c hi hc => ?_
    simp [h0, hi]

/-- Entry `(i, c)` of the product of the packed factors. -/
def prod (G : Nat → Nat → K) (i c : Nat) : K :=
  (∑ k ∈ range (min i c), G i k * G k c) + if i ≤ c then G i c else G i c * G c c

/-- Invariant of the outer loop. -/
structure Inv (m n : Nat) (A : Nat → Nat → K) (j : Nat) (s : List K × List Nat × Bool) (G : Nat → Nat → K)
    (σ : Equiv.Perm (Fin m)) : Prop where
  grid : Grid s.1 m n G
  piv : s.2.1 = List.ofFn fun i => (σ i).1
  sign : s.2.2 = decide (Equiv.Perm.sign σ = 1)
  done : ∀ (i : Fin m) c, c < j → c < n → A (σ i) c = prod G i c
  todo : ∀ (i : Fin m) c, j ≤ c → c < n → A (σ i) c = G i c
  mult : ∀ i k, i < m → k < i → k < j → k < n → |G i k| ≤ 1

variable [IsStrictOrderedRing K]

theorem step_post {m n : Nat} {A : Nat → Nat → K} {j : Nat} {s : List K × List Nat × Bool} {G : Nat → Nat → K}
    {σ : Equiv.Perm (Fin m)} (h : Inv m n A j s G σ) (hj : j < n) :
    Post (step m n j s) fun s' => ∃ G' σ', Inv m n A (j + 1) s' G' σ' := by
  obtain ⟨d, piv, pos⟩ := s
  unfold step
  dsimp only
  refine (column_post h.grid hj).bind ?_
  rintro d1 ⟨G1, hG1, h1, h2⟩
  refine (pivot_post hG1 hj).bind ?_
  rintro p ⟨hp1, hp2, hp3, hp4⟩
  -- the state after the (possible) exchange
  have key : Post (do
      if p != j then
        let d ← swapRows n p j d1
        let piv ← swapPiv p j piv
        return (d, piv, !pos)
      else return (d1, piv, pos) : R (List K × List Nat × Bool)) fun t => ∃ (G2 : Nat → Nat → K) (σ2 : Equiv.Perm (Fin m)),
        Grid t.1 m n G2 ∧ t.2.1 = (List.ofFn fun i => (σ2 i).1) ∧ t.2.2 = decide (Equiv.Perm.sign σ2 = 1) ∧
        (∀ (i : Fin m) c, c < j → A (σ2 i) c = prod G2 i c) ∧
        (∀ i : Fin m, A (σ2 i) j = (∑ k ∈ range (min i.1 j), G2 i k * G2 k j) + G2 i j) ∧
        (∀ (i : Fin m) c, j < c → c < n → A (σ2 i) c = G2 i c) ∧
        (∀ i k, i < m → k < i → k < j → |G2 i k| ≤ 1) ∧
        (∀ i, j ≤ i → i < m → |G2 i j| ≤ |G2 j j|) := by
    have hA1 : ∀ (i : Fin m) c, c < j → A (σ i) c = prod G1 i c := by
      intro i c hc
      rw [h.done i c hc (by omega)]
      unfold prod
      rw [h1 i c (by omega), h1 c c (by omega)]
      congr 1
      refine Finset.sum_congr rfl fun k hk => ?_
      rw [Finset.mem_range] at hk
      rw [h1 i k (by omega), h1 k c (by omega)]
    have hA2 : ∀ i : Fin m, A (σ i) j = (∑ k ∈ range (min i.1 j), G1 i k * G1 k j) + G1 i j := by
      intro i
      rw [h.todo i j le_rfl hj, h2 i i.2]
    have hA3 : ∀ (i : Fin m) c, j < c → c < n → A (σ i) c = G1 i c := by
      intro i c hc hn
      rw [h.todo i c hc.le hn, h1 i c (by omega)]
    have hA4 : ∀ i k, i < m → k < i → k < j → |G1 i k| ≤ 1 := by
      intro i k hi hk hkj
      rw [h1 i k (by omega)]
      exact h.mult i k hi hk hkj (by omega)
    by_cases e : p = j
    · subst e
      simp only [bne_self_eq_false, Bool.false_eq_true, if_false]
      exact Post.ok ⟨G1, σ, hG1, h.piv, h.sign, hA1, hA2, hA3, hA4, hp4⟩
    · have hjm : j < m := by
        by_contra hc
        exact e (hp2 (by omega))
      have hpm := hp3 hjm
      rw [if_pos (by simpa using e)]
      refine (swapRows_post hG1 hpm hjm).bind fun d2 hG2 => ?_
      have hpiv : piv = List.ofFn fun i => (σ i).1 := h.piv
      rw [hpiv, swapPiv_post σ hpm hjm, ok_bind]
      have hfix : ∀ k, k < j → Equiv.swap p j k = k := fun k hk =>
        Equiv.swap_apply_of_ne_of_ne (by omega) (by omega)
      have hsw : ∀ i : Fin m, (Equiv.swap p j i.1) = ((Equiv.swap (⟨p, hpm⟩ : Fin m) ⟨j, hjm⟩) i).1 := by
        intro i
        by_cases e1 : i.1 = p
        · have : i = ⟨p, hpm⟩ := Fin.ext e1
          rw [this]; simp
        · by_cases e2 : i.1 = j
          · have : i = ⟨j, hjm⟩ := Fin.ext e2
            rw [this]; simp
          · rw [Equiv.swap_apply_of_ne_of_ne e1 e2, Equiv.swap_apply_of_ne_of_ne]
            · intro h; exact e1 (congrArg Fin.val h)
            · intro h; exact e2 (congrArg Fin.val h)
      have hge : ∀ i, j ≤ i → j ≤ Equiv.swap p j i := by
        intro i hi
        by_cases e1 : i = p
        · rw [e1]; simp
        · by_cases e2 : i = j
          · rw [e2]; simpa using hp1
          · rw [Equiv.swap_apply_of_ne_of_ne e1 e2]; exact hi
      refine Post.ok ⟨_, σ * Equiv.swap ⟨p, hpm⟩ ⟨j, hjm⟩, hG2, rfl, ?_, ?_, ?_, ?_, ?_, ?_⟩
      · have hs : pos = decide (Equiv.Perm.sign σ = 1) := h.sign
        have hne : (⟨p, hpm⟩ : Fin m) ≠ ⟨j, hjm⟩ := fun h => e (congrArg Fin.val h)
        dsimp only
        rw [hs, Equiv.Perm.sign_mul, Equiv.Perm.sign_swap hne]
        rcases Int.units_eq_one_or (Equiv.Perm.sign σ) with h | h <;> rw [h] <;> decide
      · intro i c hc
        rw [Equiv.Perm.mul_apply, hA1 _ c hc, ← hsw]
        unfold prod
        dsimp only
        rw [hfix c hc]
        rcases lt_or_ge i.1 j with hi | hi
        · rw [hfix i hi]
          congr 1
          refine Finset.sum_congr rfl fun k hk => ?_
          rw [Finset.mem_range] at hk
          rw [hfix k (by omega)]
        · have hi' := hge i hi
          rw [min_eq_right (by omega), min_eq_right (by omega), if_neg (by omega), if_neg (by omega)]
          congr 1
          refine Finset.sum_congr rfl fun k hk => ?_
          rw [Finset.mem_range] at hk
          rw [hfix k (by omega)]
      · intro i
        rw [Equiv.Perm.mul_apply, hA2, ← hsw]
        congr 1
        rcases lt_or_ge i.1 j with hi | hi
        · rw [hfix i hi]
          refine Finset.sum_congr rfl fun k hk => ?_
          rw [Finset.mem_range] at hk
          rw [hfix k (by omega)]
        · have hi' := hge i hi
          rw [min_eq_right hi, min_eq_right hi']
          refine Finset.sum_congr rfl fun k hk => ?_
          rw [Finset.mem_range] at hk
          rw [hfix k (by omega)]
      · intro i c hc hn
        rw [Equiv.Perm.mul_apply, hA3 _ c hc hn, ← hsw]
      · intro i k hi hk hkj
        rcases lt_or_ge i j with hi' | hi'
        · rw [hfix i hi']; exact hA4 i k hi hk hkj
        · have := hge i hi'
          have h3 := hsw ⟨i, hi⟩
          refine hA4 _ k ?_ (by omega) hkj
          rw [h3]; exact Fin.is_lt _
      · intro i hi him
        have h3 := hsw ⟨i, him⟩
        rw [Equiv.swap_apply_right]
        refine hp4 _ (hge i hi) ?_
        rw [h3]; exact Fin.is_lt _
  refine key.bind ?_
  rintro ⟨d2, piv2, pos2⟩ ⟨G2, σ2, hG2, hpiv2, hpos2, a1, a2, a3, a4, a5⟩
  refine (scale_post hG2 hj).bind fun d3 hG3 => Post.ok ⟨_, σ2, hG3, hpiv2, hpos2, ?_, ?_, ?_⟩
  · intro i c hc hn
    have hsum : ∀ q, q ≤ j → (∑ k ∈ range (min i.1 q),
        (if k = j ∧ j < i.1 ∧ G2 j j ≠ 0 then G2 i k / G2 j j else G2 i k) *
        (if q = j ∧ j < k ∧ G2 j j ≠ 0 then G2 k q / G2 j j else G2 k q)) =
        ∑ k ∈ range (min i.1 q), G2 i k * G2 k q := by
      intro q hq
      refine Finset.sum_congr rfl fun k hk => ?_
      rw [Finset.mem_range] at hk
      rw [if_neg (by omega), if_neg (by omega)]
    unfold prod
    dsimp only
    rw [hsum c (by omega)]
    rcases Nat.lt_succ_iff_lt_or_eq.mp hc with hc' | rfl
    · have e1 : ∀ r, ¬(c = j ∧ j < r ∧ G2 j j ≠ 0) := by omega
      rw [a1 i c hc', if_neg (e1 _), if_neg (e1 _)]; rfl
    · rw [a2 i]
      congr 1
      by_cases hi : i.1 ≤ c
      · rw [if_pos hi, if_neg (by omega)]
      · rw [if_neg hi, if_neg (show ¬(c = c ∧ c < c ∧ G2 c c ≠ 0) by omega)]
        by_cases h0 : G2 c c = 0
        · have := a5 i (by omega) i.2
          rw [h0, abs_zero, abs_nonpos_iff] at this
          simp [h0, this]
        · rw [if_pos ⟨rfl, by omega, h0⟩, div_mul_cancel₀ _ h0]
  · intro i c hc hn
    rw [a3 i c (by omega) hn, if_neg (by omega)]
  · intro i k hi hk hkj hkn
    by_cases e : k = j
    · subst e
      by_cases h0 : G2 k k = 0
      · have := a5 i (by omega) hi
        rw [h0, abs_zero, abs_nonpos_iff] at this
        simp [h0, this]
      · rw [if_pos ⟨rfl, hk, h0⟩, abs_div]
        exact div_le_one_of_le₀ (a5 i (by omega) hi) (abs_nonneg _)
    · rw [if_neg (by omega)]
      exact a4 i k hi hk (by omega)

theorem iota_fill (m : Nat) :
    (loop 0 m (alloc Nat m) (fun i d => wr d i i) >>= freeze) = .ok (List.ofFn fun i : Fin m => i.1) := by
  have h : loop 0 m (alloc Nat m) (fun i d => wr d i i) = .ok ((List.range m).map fun i => some i) :=
    fill_ok (n := m) (f := fun i => .ok i) (fun i => i) (fun _ _ => rfl)
  rw [h, ok_bind, freeze_map_some]
  congr 1
  apply List.ext_getElem <;> simp

/-- The table `G` as a mathematical matrix. -/
def packed (m n : Nat) (G : Nat → Nat → K) : Matrix (Fin m) (Fin n) K := Matrix.of fun i j => G i j

theorem new_ofM {m n : Nat} (hm : 0 < m) (hn : 0 < n) (A : Matrix (Fin m) (Fin n) K) :
    ∃ (G : Nat → Nat → K) (σ : Equiv.Perm (Fin m)),
      LU.new (ofM A) =
        .ok ⟨ofM (packed m n G), decide (Equiv.Perm.sign σ = 1), List.ofFn fun i => (σ i).1⟩ ∧
      (∀ (i : Fin m) (c : Fin n), A (σ i) c = prod G i c) ∧
      ∀ i k, i < m → k < i → k < n → |G i k| ≤ 1 := by
  unfold LU.new
  have hio := iota_fill m
  rw [bind_eq_ok] at hio
  obtain ⟨b, hb1, hb2⟩ := hio
  simp only [ofM_rows, ofM_cols A hm, ok_bind, hb1, hb2]
  have := loop_post (s := ((ofM A).data, (List.ofFn fun i : Fin m => i.1), true)) (f := fun j s => step m n j s)
    (fun j s => ∃ G σ, Inv m n (ext A) j s G σ) (Nat.zero_le n)
    ⟨ext A, 1, grid_ofM A, by simp, by simp, fun i c h => by omega, fun i c _ _ => by simp, fun i k _ _ h => by omega⟩
    (by
      rintro j s - hj ⟨G, σ, h⟩
      exact step_post h hj)
  obtain ⟨⟨d, piv, pos⟩, hs, G, σ, h⟩ := this
  rw [hs, ok_bind]
  refine ⟨G, σ, ?_, ?_, fun i k hi hk hn => h.mult i k hi hk hn hn⟩
  · have hd : d = (ofM (packed m n G)).data := h.grid.ofM _ fun _ _ => rfl
    have hp : piv = List.ofFn fun i => (σ i).1 := h.piv
    have hq : pos = decide (Equiv.Perm.sign σ = 1) := h.sign
    dsimp only
    rw [hd, Props.C01_new_ofM hm hn, hp, hq]; rfl
  · intro i c
    rw [← h.done i c c.2 c.2, ext_fin]

section Factors
variable {m n : Nat} (G : Nat → Nat → K)

/-- The unit lower trapezoidal factor. -/
def lower (m n : Nat) (G : Nat → Nat → K) : Matrix (Fin m) (Fin n) K :=
  Matrix.of fun i j => if j.1 < i.1 then G i j else if i.1 = j.1 then 1 else 0

/-- The upper trapezoidal factor. -/
def upper (m n : Nat) (G : Nat → Nat → K) : Matrix (Fin m) (Fin n) K :=
  Matrix.of fun i j => if i.1 ≤ j.1 then G i j else 0

theorem ite_min (a b : Nat) [Decidable (a ≥ b)] : (if a ≥ b then b else a) = min a b := by split <;> omega

theorem getL_ok (hm : 0 < m) (hn : 0 < n) (pos : Bool) (piv : List Nat) :
    getL ⟨ofM (packed m n G), pos, piv⟩ = .ok (ofM (lower m (min m n) G)) := by
  unfold getL
  dsimp only
  simp only [ofM_cols _ hm, ok_bind]
  rw [ite_min]
  simp only [ofM_rows]
  have := fill2_ok (m := m) (n := min m n)
    (f := fun i j => if i > j then idx (ofM (packed m n G)).data (i * n + j) else if i = j then .ok 1 else .ok 0)
    (lower m (min m n) G) (by
      intro i j
      by_cases h : j.1 < i.1
      · rw [if_pos h, idx_ofM _ i.2 (by omega)]
        simp [lower, packed, h]
      · rw [if_neg h]
        by_cases h2 : i.1 = j.1
        · simp [lower, h2]
        · simp [lower, h, h2])
  obtain ⟨d, hd, hf⟩ := this
  rw [show ∀ (x : R (Buf K)) (f : Buf K → R (Mat K)), x = .ok d → (x >>= f) = f d from
    fun x f h => by rw [h, ok_bind]]
  · rw [hf, ok_bind, Props.C01_new_ofM hm (by omega)]
  · exact hd

theorem getU_ok (hm : 0 < m) (hn : 0 < n) (pos : Bool) (piv : List Nat) :
    getU ⟨ofM (packed m n G), pos, piv⟩ = .ok (ofM (upper (min m n) n G)) := by
  unfold getU
  dsimp only
  simp only [ofM_cols _ hm, ok_bind]
  rw [ite_min]
  simp only [ofM_rows]
  have := fill2_ok (m := min m n) (n := n)
    (f := fun i j => if i ≤ j then idx (ofM (packed m n G)).data (i * n + j) else .ok 0)
    (upper (min m n) n G) (by
      intro i j
      by_cases h : i.1 ≤ j.1
      · rw [if_pos h, idx_ofM _ (by omega) j.2]
        simp [upper, packed, h]
      · rw [if_neg h]
        simp [upper, h])
  obtain ⟨d, hd, hf⟩ := this
  rw [show ∀ (x : R (Buf K)) (f : Buf K → R (Mat K)), x = .ok d → (x >>= f) = f d from
    fun x f h => by rw [h, ok_bind]]
  · rw [hf, ok_bind, Props.C01_new_ofM (by omega) hn]
  · exact hd

theorem lower_mul_upper {r : Nat} (hr : r = min m n) (i : Fin m) (c : Fin n) :
    (lower m r G * upper r n G) i c = prod G i c := by
  rw [Matrix.mul_apply]
  simp only [lower, upper, Matrix.of_apply]
  rw [Finset.sum_fin_eq_sum_range]
  have hi := i.2
  have hc := c.2
  have hle : min i.1 c.1 + 1 ≤ r := by omega
  rw [← Finset.sum_subset (s₁ := range (min i.1 c.1 + 1))]
  · rw [Finset.sum_range_succ, prod]
    congr 1
    · refine Finset.sum_congr rfl fun k hk => ?_
      rw [Finset.mem_range] at hk
      rw [dif_pos (by omega)]
      dsimp only
      rw [if_pos (by omega), if_pos (by omega)]
    · rw [dif_pos (by omega)]
      dsimp only
      by_cases h : i.1 ≤ c.1
      · have hmin : min i.1 c.1 = i.1 := min_eq_left h
        simp [hmin, h]
      · have hmin : min i.1 c.1 = c.1 := min_eq_right (by omega)
        have h2 : c.1 < i.1 := by omega
        simp [hmin, h, h2]
  · intro k hk
    rw [Finset.mem_range] at *
    omega
  · intro k hk hk2
    rw [Finset.mem_range] at *
    rw [dif_pos hk]
    dsimp only
    by_cases h : c.1 < k
    · rw [if_neg (show ¬ k ≤ c.1 by omega), mul_zero]
    · rw [if_neg (by omega), if_neg (by omega), zero_mul]

theorem getP_ok (hm : 0 < m) (x : Mat K) (pos : Bool) (σ : Equiv.Perm (Fin m)) :
    getP ⟨x, pos, List.ofFn fun i => (σ i).1⟩ = .ok (ofM ((1 : Matrix (Fin m) (Fin m) K).submatrix σ _root_.id)) := by
  unfold getP
  simp only [List.length_ofFn]
  rw [Props.C05_id_square, ok_bind, permuteRows_perm hm]

end Factors

/-! ## Square systems -/

section Square
variable {n : Nat} (G : Nat → Nat → K)

theorem square_factor {A : Matrix (Fin n) (Fin n) K} {σ : Equiv.Perm (Fin n)}
    (h : ∀ i c, A (σ i) c = prod G i c) : A.submatrix σ _root_.id = lower n n G * upper n n G := by
  ext i c
  rw [Matrix.submatrix_apply, id, h, lower_mul_upper G (by simp) i c]

theorem det_lower : (lower n n G).det = 1 := by
  rw [Matrix.det_of_lowerTriangular]
  · simp [lower]
  · intro i j hij
    have : i.1 < j.1 := hij
    simp only [lower, Matrix.of_apply]
    rw [if_neg (by omega), if_neg (by omega)]

theorem det_upper : (upper n n G).det = ∏ i : Fin n, G i i := by
  rw [Matrix.det_of_upperTriangular]
  · simp [upper]
  · intro i j hij
    have : j.1 < i.1 := hij
    simp only [upper, Matrix.of_apply]
    rw [if_neg (by omega)]

theorem det_eq {A : Matrix (Fin n) (Fin n) K} {σ : Equiv.Perm (Fin n)}
    (h : ∀ i c, A (σ i) c = prod G i c) :
    A.det = (if Equiv.Perm.sign σ = 1 then 1 else -1) * ∏ i : Fin n, G i i := by
  have h1 := congrArg Matrix.det (square_factor G h)
  rw [Matrix.det_permute, Matrix.det_mul, det_lower, det_upper, one_mul] at h1
  rw [← h1]
  rcases Int.units_eq_one_or (Equiv.Perm.sign σ) with h | h <;> rw [h] <;> simp

theorem det_ok (hn : 0 < n) (pos : Bool) (piv : List Nat) :
    det ⟨ofM (packed n n G), pos, piv⟩ = .ok ((if pos then 1 else -1) * ∏ i : Fin n, G i i) := by
  unfold det
  simp only [ofM_cols _ hn, ofM_rows, ok_bind, beq_self_eq_true, assert_true]
  refine Post.eq_ok ((loop_post (fun k d => d = (if pos then 1 else -1) * ∏ i ∈ range k, G i i) (Nat.zero_le n)
    (by simp) ?_).mono ?_)
  · rintro k d - hk rfl
    rw [idx_ofM _ hk hk, ok_bind]
    refine Post.ok ?_
    rw [Finset.prod_range_succ, ← mul_assoc]; rfl
  · rintro d rfl
    rw [Finset.prod_range]

theorem diag_loop_ok {m n k : Nat} (hk : k ≤ m) (hk2 : k ≤ n) :
    ((∀ i, i < k → G i i ≠ 0) → loopF 0 k () (fun j _ => do
      if FloatOps.eq (← idx (ofM (packed m n G)).data (j * n + j)) 0 then return Flow.ret false
      else return Flow.next ()) = .ok (.next ())) ∧
    ((¬ ∀ i, i < k → G i i ≠ 0) → loopF 0 k () (fun j _ => do
      if FloatOps.eq (← idx (ofM (packed m n G)).data (j * n + j)) 0 then return Flow.ret false
      else return Flow.next ()) = .ok (.ret false)) := by
  have := loopF_all (lo := 0) (hi := k) (f := fun j _ => do
    if FloatOps.eq (← idx (ofM (packed m n G)).data (j * n + j)) 0 then return Flow.ret false
    else return Flow.next ()) (fun j => G j j ≠ 0) (by
      intro j _ hj
      rw [idx_ofM _ (by omega) (by omega), ok_bind, eq_eq]
      constructor
      · intro h; rw [if_neg]; · rfl
        rw [decide_eq_true_eq]; exact h
      · intro h; rw [if_pos]; · rfl
        rw [decide_eq_true_eq]; exact not_not.mp h)
  exact ⟨fun h => this.1 fun i _ hi => h i hi, fun h => this.2 fun h' => h fun i hi => h' i (Nat.zero_le _) hi⟩

theorem isNonSingular_ok {m n : Nat} (hn : 0 < n) (hnm : n ≤ m) (pos : Bool) (piv : List Nat) :
    isNonSingular ⟨ofM (packed m n G), pos, piv⟩ = .ok (decide (∀ i : Fin n, G i i ≠ 0)) := by
  unfold isNonSingular
  simp only [ofM_cols _ (show 0 < m by omega), ok_bind]
  have := diag_loop_ok G hnm le_rfl
  by_cases h : ∀ i : Fin n, G i i ≠ 0
  · rw [this.1 fun i hi => h ⟨i, hi⟩, ok_bind]; simp [h]
  · rw [this.2 fun h' => h fun i => h' i i.2, ok_bind]; simp [h]

theorem isNonSingular_wide {m n : Nat} (hm : 0 < m) (hnm : m < n) (pos : Bool) (piv : List Nat) :
    isNonSingular ⟨ofM (packed m n G), pos, piv⟩ =
      if ∀ i : Fin m, G i i ≠ 0 then .error .oob else .ok false := by
  unfold isNonSingular
  simp only [ofM_cols _ hm, ok_bind]
  have := diag_loop_ok G le_rfl hnm.le
  have hsp := loopF_split (lo := 0) (mid := m) (hi := n) (by omega) hnm.le () (fun j _ => do
      if FloatOps.eq (← idx (ofM (packed m n G)).data (j * n + j)) 0 then return Flow.ret false
      else return Flow.next ())
  rw [hsp]
  by_cases h : ∀ i : Fin m, G i i ≠ 0
  · rw [this.1 fun i hi => h ⟨i, hi⟩, ok_bind, if_pos h]
    dsimp only
    rw [loopF_step hnm, idx_oob (by rw [ofM_length]; omega)]; rfl
  · rw [this.2 fun h' => h fun i => h' i i.2, ok_bind, if_neg h]; rfl

end Square

/-! ## Substitution -/

section Solve
variable {m n nx : Nat}

theorem rhs_ok (hm : 0 < m) (B : Matrix (Fin m) (Fin nx) K) (σ : Equiv.Perm (Fin m)) :
    rhs (List.ofFn fun i => (σ i).1) m nx (ofM B) = .ok (ofM (B.submatrix σ _root_.id)).data := by
  unfold rhs
  have hd := (ofM_length (B.submatrix σ _root_.id)).symm
  simp only [List.length_ofFn, ofM_cols B hm, ok_bind]
  have := loop_post (s := (alloc K (m * nx), 0)) (f := fun i s => loop 0 nx s fun j (s : Buf K × Nat) => do
      let x ← wr s.1 s.2 (← idx (ofM B).data ((← idx (List.ofFn fun i => (σ i).1) i) * nx + j))
      return (x, s.2 + 1)) (fun i s => Filled s.1 (ofM (B.submatrix σ _root_.id)).data (i * nx) ∧ s.2 = i * nx)
    (Nat.zero_le m) ⟨by simpa using filled_alloc _ hd, by simp⟩ (by
      rintro i ⟨x, di⟩ - hi ⟨h1, h2⟩
      refine (loop_post (fun j s => Filled s.1 (ofM (B.submatrix σ _root_.id)).data (i * nx + j) ∧ s.2 = i * nx + j)
        (Nat.zero_le nx) ⟨h1, h2⟩ ?_).mono ?_
      · rintro j ⟨x, di⟩ - hj ⟨h1, h2⟩
        dsimp only at h1 h2 ⊢
        subst h2
        have e : idx (List.ofFn fun i => (σ i).1) i = .ok (σ ⟨i, hi⟩).1 := by
          rw [idx_lt (by simpa using hi)]; simp
        rw [e, ok_bind, idx_ofM B (σ ⟨i, hi⟩).2 hj, ok_bind]
        refine (h1.wr (x := B (σ ⟨i, hi⟩) ⟨j, hj⟩) ?_).bind fun x' h => Post.ok ⟨h, rfl⟩
        rw [ofM_getElem?' _ hi hj]; rfl
      · rintro ⟨x, di⟩ ⟨h1, h2⟩
        rw [Nat.succ_mul]; exact ⟨h1, h2⟩)
  obtain ⟨⟨x, di⟩, hs, h1, h2⟩ := this
  rw [show ∀ (y : R (Buf K × Nat)) (f : Buf K × Nat → R (List K)), y = .ok (x, di) → (y >>= f) = f (x, di) from
    fun y f h => by rw [h, ok_bind]]
  · exact h1.freeze (by simp)
  · exact hs

/-- One elimination step on row `i` with row `k`. -/
theorem elim_row {n i k : Nat} {x : List K} {X : Nat → Nat → K} (hx : Grid x n nx X) (hi : i < n) (hk : k < n)
    (hik : i ≠ k) (g : R K) (c : K) (hg : g = .ok c) :
    Post (loop 0 nx x fun j x => do
      setIdx x (i * nx + j) ((← idx x (i * nx + j)) - (← idx x (k * nx + j)) * (← g)))
      fun x' => Grid x' n nx (fun r j => if r = i then X i j - X k j * c else X r j) := by
  subst hg
  refine (loop_post (fun q x' => Grid x' n nx (fun r j => if r = i ∧ j < q then X i j - X k j * c else X r j))
    (Nat.zero_le nx) (by simpa using hx) ?_).mono ?_
  · intro q x' _ hq hG
    rw [hG.idx hi hq, hG.idx hk hq]
    simp only [ok_bind, lt_irrefl, and_false, if_false]
    refine (hG.setIdx hi hq _).mono fun x'' h2 => h2.congr fun r j _ _ => ?_
    by_cases e : r = i ∧ j = q
    · obtain ⟨rfl, rfl⟩ := e
      rw [upd_same, if_pos (by omega)]
    · rw [upd_ne e]
      by_cases h : r = i ∧ j < q
      · rw [if_pos h, if_pos (by omega)]
      · rw [if_neg h, if_neg (by omega)]
  · intro x' hG
    exact hG.congr fun r j _ hj => by simp [hj]

theorem forward_post {c : Nat} {lu x : List K} {G Y : Nat → Nat → K} (hlu : Grid lu m c G) (hc : n ≤ c)
    (hm : n ≤ m) (hx : Grid x m nx Y) :
    Post (forward lu n c nx x) fun x' => ∃ X, Grid x' m nx X ∧
      ∀ i j, i < n → j < nx → Y i j = X i j + ∑ t ∈ range i, G i t * X t j := by
  refine (loop_post (fun k x' => ∃ X, Grid x' m nx X ∧
      ∀ i j, i < n → j < nx → Y i j = X i j + ∑ t ∈ range (min i k), G i t * X t j) (Nat.zero_le n)
      ⟨Y, hx, by simp⟩ ?_).mono ?_
  · rintro k x' - hk ⟨X, hX, h⟩
    refine (loop_post (fun i x' => Grid x' m nx (fun r j => if k < r ∧ r < i then X r j - X k j * G r k else X r j))
      (show k + 1 ≤ n from hk) (hX.congr fun r j _ _ => by rw [if_neg (by omega)]) ?_).mono ?_
    · intro i x'' hi1 hi hG
      refine (elim_row hG (by omega) (by omega) (by omega) _ (G i k) (hlu.idx (by omega) (by omega))).mono fun x3 h3 => h3.congr fun r j _ _ => ?_
      by_cases e : r = i
      · subst e
        rw [if_pos rfl, if_neg (by omega), if_neg (by omega), if_pos (by omega)]
      · rw [if_neg e]
        by_cases h : k < r ∧ r < i
        · rw [if_pos h, if_pos (by omega)]
        · rw [if_neg h, if_neg (by omega)]
    · intro x'' hG
      refine ⟨_, hG, ?_⟩
      intro i j hi hj
      have hs : ∀ q, q ≤ k + 1 → (∑ t ∈ range q, G i t * (if k < t ∧ t < n then X t j - X k j * G t k else X t j)) =
          ∑ t ∈ range q, G i t * X t j := by
        intro q hq
        refine Finset.sum_congr rfl fun t ht => ?_
        rw [Finset.mem_range] at ht
        rw [if_neg (by omega)]
      rw [hs _ (by omega), h i j hi hj]
      by_cases hik : k < i
      · rw [if_pos ⟨hik, hi⟩, min_eq_right (by omega), min_eq_right (by omega), Finset.sum_range_succ]; ring
      · rw [if_neg (by omega), min_eq_left (by omega), min_eq_left (by omega)]
  · rintro x' ⟨X, hX, h⟩
    exact ⟨X, hX, fun i j hi hj => by rw [h i j hi hj, min_eq_left (by omega)]⟩

theorem divide_row {n k : Nat} {x : List K} {X : Nat → Nat → K} (hx : Grid x n nx X) (hk : k < n) (g : R K) (c : K)
    (hg : g = .ok c) (hc : c ≠ 0) :
    Post (loop 0 nx x fun j x => do setIdx x (k * nx + j) (← RDiv.rdiv (← idx x (k * nx + j)) (← g)))
      fun x' => Grid x' n nx (fun r j => if r = k then X k j / c else X r j) := by
  subst hg
  refine (loop_post (fun q x' => Grid x' n nx (fun r j => if r = k ∧ j < q then X k j / c else X r j))
    (Nat.zero_le nx) (by simpa using hx) ?_).mono ?_
  · intro q x' _ hq hG
    rw [hG.idx hk hq]
    simp only [ok_bind, lt_irrefl, and_false, if_false]
    rw [rdiv_ok hc, ok_bind]
    refine (hG.setIdx hk hq _).mono fun x'' h2 => h2.congr fun r j _ _ => ?_
    by_cases e : r = k ∧ j = q
    · obtain ⟨rfl, rfl⟩ := e
      rw [upd_same, if_pos (by omega)]
    · rw [upd_ne e]
      by_cases h : r = k ∧ j < q
      · rw [if_pos h, if_pos (by omega)]
      · rw [if_neg h, if_neg (by omega)]
  · intro x' hG
    exact hG.congr fun r j _ hj => by simp [hj]

theorem backward_post {c : Nat} {lu x : List K} {G Y : Nat → Nat → K} (hlu : Grid lu m c G) (hc : n ≤ c)
    (hm : n ≤ m) (hG0 : ∀ k, k < n → G k k ≠ 0) (hx : Grid x m nx Y) :
    Post (backward lu n c nx x) fun x' => ∃ X, Grid x' m nx X ∧
      ∀ i j, i < n → j < nx → Y i j = ∑ t ∈ Ico i n, G i t * X t j := by
  refine (loopRev_post (fun k x' => ∃ X, Grid x' m nx X ∧
      ∀ i j, i < n → j < nx → Y i j = (if i < k then X i j else 0) + ∑ t ∈ Ico (max i k) n, G i t * X t j)
      (Nat.zero_le n) ⟨Y, hx, fun i j hi hj => by rw [if_pos hi, max_eq_right hi.le]; simp⟩ ?_).mono ?_
  · rintro k x' - hk ⟨X, hX, h⟩
    refine (divide_row hX (by omega) _ _ (hlu.idx (by omega) (by omega)) (hG0 k hk)).bind fun x1 h1 => ?_
    refine (loop_post (fun i x' => Grid x' m nx (fun r j => if r = k then X k j / G k k else
        if r < i then X r j - X k j / G k k * G r k else X r j))
      (Nat.zero_le k) (by simpa using h1) ?_).mono ?_
    · intro i x'' _ hi hG
      refine (elim_row hG (by omega) (by omega) (by omega) _ (G i k) (hlu.idx (by omega) (by omega))).mono
        fun x3 h3 => h3.congr fun r j _ _ => ?_
      by_cases e : r = i
      · subst e
        rw [if_pos rfl, if_neg (by omega), if_neg (by omega), if_pos rfl, if_neg (by omega), if_pos (by omega)]
      · rw [if_neg e]
        by_cases e2 : r = k
        · rw [if_pos e2, if_pos e2]
        · rw [if_neg e2, if_neg e2]
          by_cases h : r < i
          · rw [if_pos h, if_pos (by omega)]
          · rw [if_neg h, if_neg (by omega)]
    · intro x'' hG
      refine ⟨_, hG, ?_⟩
      intro i j hi hj
      have hs : (∑ t ∈ Ico (max i (k + 1)) n, G i t * (if t = k then X k j / G k k else
          if t < k then X t j - X k j / G k k * G t k else X t j)) = ∑ t ∈ Ico (max i (k + 1)) n, G i t * X t j := by
        refine Finset.sum_congr rfl fun t ht => ?_
        rw [Finset.mem_Ico] at ht
        rw [if_neg (by omega), if_neg (by omega)]
      rw [h i j hi hj]
      rcases lt_trichotomy i k with hik | hik | hik
      · rw [if_pos (by omega), if_pos hik, if_neg (by omega), if_pos hik, max_eq_right (by omega)]
        rw [max_eq_right (show i ≤ k + 1 by omega)] at hs
        rw [max_eq_right (show i ≤ k by omega), Finset.sum_eq_sum_Ico_succ_bot hk, hs, if_pos rfl]; ring
      · subst hik
        rw [if_pos (by omega), if_neg (by omega), max_eq_right (by omega), max_self]
        rw [max_eq_right (show i ≤ i + 1 by omega)] at hs
        rw [Finset.sum_eq_sum_Ico_succ_bot hk, hs, if_pos rfl, mul_div_cancel₀ _ (hG0 i hk)]; ring
      · rw [if_neg (by omega), if_neg (by omega)]
        rw [max_eq_left (show k + 1 ≤ i by omega)] at hs ⊢
        rw [max_eq_left (show k ≤ i by omega), hs]
  · rintro x' ⟨X, hX, h⟩
    exact ⟨X, hX, fun i j hi hj => by rw [h i j hi hj, if_neg (by omega), max_eq_left (by omega), zero_add]⟩

end Solve

theorem solve_none {m n p : Nat} (hn : 0 < n) (hnm : n ≤ m) (G : Nat → Nat → K) (pos : Bool) (piv : List Nat)
    (B : Matrix (Fin m) (Fin p) K) (h : ¬ ∀ i : Fin n, G i i ≠ 0) :
    solve ⟨ofM (packed m n G), pos, piv⟩ (ofM B) = .ok none := by
  unfold solve
  simp only [ofM_cols _ (show 0 < m by omega), ofM_rows, ok_bind, beq_self_eq_true, assert_true,
    isNonSingular_ok G hn hnm]
  simp only [h, decide_false, Bool.not_false, if_true]
  rfl

theorem solve_some_tall {m n p : Nat} (hn : 0 < n) (hnm : n ≤ m) (hp : 0 < p) (G : Nat → Nat → K) (pos : Bool)
    (σ : Equiv.Perm (Fin m)) (B : Matrix (Fin m) (Fin p) K) (h : ∀ i : Fin n, G i i ≠ 0) :
    ∃ X Y : Nat → Nat → K,
      solve ⟨ofM (packed m n G), pos, List.ofFn fun i => (σ i).1⟩ (ofM B) = .ok (some (ofM (packed m p X))) ∧
      (∀ i j, i < n → j < p → ext (B.submatrix σ _root_.id) i j = Y i j + ∑ t ∈ range i, G i t * Y t j) ∧
      ∀ i j, i < n → j < p → Y i j = ∑ t ∈ Ico i n, G i t * X t j := by
  have hm : 0 < m := by omega
  unfold solve
  simp only [ofM_cols _ hm, ofM_rows, ok_bind, beq_self_eq_true, assert_true, isNonSingular_ok G hn hnm, rhs_ok hm]
  simp only [h, ne_eq, not_false_eq_true, implies_true, decide_true, Bool.not_true, Bool.false_eq_true, if_false]
  have hlu : Grid (ofM (packed m n G)).data m n G :=
    ⟨by simp, fun i j hi hj => by rw [ofM_getElem?' _ hi hj]; rfl⟩
  obtain ⟨y, hy, Y, hY, hY2⟩ := forward_post hlu le_rfl hnm (grid_ofM (B.submatrix σ _root_.id))
  obtain ⟨x, hx, X, hX, hX2⟩ := backward_post hlu le_rfl hnm (fun k hk => h ⟨k, hk⟩) hY
  rw [hy, ok_bind, hx, ok_bind, hX.ofM (packed m p X) (fun _ _ => rfl), Props.C01_new_ofM hm hp]
  exact ⟨X, Y, rfl, hY2, hX2⟩

theorem substitution {n p : Nat} {G B X Y : Nat → Nat → K}
    (hY2 : ∀ i j, i < n → j < p → B i j = Y i j + ∑ t ∈ range i, G i t * Y t j)
    (hX2 : ∀ i j, i < n → j < p → Y i j = ∑ t ∈ Ico i n, G i t * X t j) :
    lower n n G * upper n n G * packed n p X = packed n p B := by
  have hU : ∀ (i : Fin n) (j : Fin p), (upper n n G * packed n p X) i j = Y i j := by
    intro i j
    rw [hX2 i j i.2 j.2, Matrix.mul_apply, Finset.sum_fin_eq_sum_range, Finset.range_eq_Ico,
      ← Finset.sum_Ico_consecutive _ (Nat.zero_le i.1) i.2.le]
    rw [Finset.sum_eq_zero, zero_add]
    · refine Finset.sum_congr rfl fun t ht => ?_
      rw [Finset.mem_Ico] at ht
      rw [dif_pos ht.2]
      simp only [upper, packed, Matrix.of_apply]
      rw [if_pos ht.1]
    · intro t ht
      rw [Finset.mem_Ico] at ht
      have := i.2
      rw [dif_pos (by omega)]
      simp only [upper, packed, Matrix.of_apply]
      rw [if_neg (by omega), zero_mul]
  ext i j
  have hB : packed n p B i j = _ := hY2 i j i.2 j.2
  rw [Matrix.mul_assoc, hB, Matrix.mul_apply, Finset.sum_fin_eq_sum_range, Finset.range_eq_Ico,
      ← Finset.sum_Ico_consecutive _ (Nat.zero_le i.1) i.2.le, Finset.sum_eq_sum_Ico_succ_bot i.2, add_comm]
  rw [Finset.sum_eq_zero (s := Ico (i.1 + 1) n), add_zero]
  · congr 1
    · rw [dif_pos i.2, hU]; simp [lower]
    · rw [Finset.range_eq_Ico]
      refine Finset.sum_congr rfl fun t ht => ?_
      rw [Finset.mem_Ico] at ht
      have := i.2
      rw [dif_pos (by omega), hU]
      simp only [lower, Matrix.of_apply]
      rw [if_pos ht.2]
  · intro t ht
    rw [Finset.mem_Ico] at ht
    rw [dif_pos ht.2]
    simp only [lower, Matrix.of_apply]
    rw [if_neg (by omega), if_neg (by omega), zero_mul]

theorem solve_some {n p : Nat} (hn : 0 < n) (hp : 0 < p) (G : Nat → Nat → K) (pos : Bool) (σ : Equiv.Perm (Fin n))
    (B : Matrix (Fin n) (Fin p) K) (h : ∀ i : Fin n, G i i ≠ 0) :
    ∃ X : Matrix (Fin n) (Fin p) K,
      solve ⟨ofM (packed n n G), pos, List.ofFn fun i => (σ i).1⟩ (ofM B) = .ok (some (ofM X)) ∧
      lower n n G * upper n n G * X = B.submatrix σ _root_.id := by
  obtain ⟨X, Y, hs, hY2, hX2⟩ := solve_some_tall hn le_rfl hp G pos σ B h
  refine ⟨packed n p X, hs, (substitution hY2 hX2).trans ?_⟩
  ext i j
  simp [packed]

end LU
end
end LA
