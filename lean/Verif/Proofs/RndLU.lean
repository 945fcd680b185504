import Verif.Proofs.LU
import Verif.Proofs.Flops

/-! # LU decomposition in rounded arithmetic

First the exact sequence of operations (`Inv`), then its error. -/

set_option linter.unusedSectionVars false

namespace LA
open Finset
namespace LU
namespace Rnd

theorem swapRows_post {α : Type} {m n p j : Nat} {d : List α} {G : Nat → Nat → α} (hd : Grid d m n G) (hp : p < m) (hj : j < m) :
    Post (swapRows n p j d) fun d' => Grid d' m n (fun i c => G (Equiv.swap p j i) c) := by
  refine (loop_post (fun k d' => Grid d' m n (fun i c => if c < k then G (Equiv.swap p j i) c else G i c))
    (Nat.zero_le n) (by simpa using hd) ?_).mono ?_
  · rintro k d' - hk hG
    rw [hG.idx hp hk, hG.idx hj hk, ok_bind, ok_bind]
    refine (hG.setIdx hp hk _).bind fun d'' h2 => (h2.setIdx hj hk _).mono fun d3 h3 => ?_
    refine h3.congr fun i c _ hc => ?_
    simp only [upd, lt_irrefl, if_false]
    by_cases ec : c = k
    · subst ec
      by_cases ej : i = j
      · subst ej; simp
      · by_cases ep : i = p
        · subst ep; simp [ej]
        · simp [ej, ep, Equiv.swap_apply_of_ne_of_ne ep ej]
    · have : (c < k + 1) ↔ c < k := by omega
      simp [ec, this]
  · intro d' hG
    exact hG.congr fun i c _ hc => by rw [if_pos hc]

variable {α : Type} [Zero α] [One α] [Add α] [Sub α] [Neg α] [Mul α] [FloatOps α] [Fp α]

/-- The entry `(i, c)` before the division by the pivot. -/
def W (a : α) (G : Nat → Nat → α) (i c : Nat) : α := a - fdot (fun k => G i k) (fun k => G k c) (min i c)

omit [Fp α] in
theorem W_congr {a : α} {G G' : Nat → Nat → α} {i i' c : Nat} (hm : min i c = min i' c)
    (h : ∀ k, k < min i c → G i k = G' i' k ∧ G k c = G' k c) : W a G i c = W a G' i' c := by
  unfold W
  rw [fdot_congr h, hm]

omit [Fp α] in
theorem column_post {m n j : Nat} {d : List α} {F : Nat → Nat → α} (hd : Grid d m n F) (hj : j < n) :
    Post (column m n j d) fun d' => ∃ G, Grid d' m n G ∧ (∀ i c, c ≠ j → G i c = F i c) ∧
      ∀ i, i < m → G i j = W (F i j) G i j := by
  refine (loop_post (fun i d' => ∃ G, Grid d' m n G ∧ (∀ i c, c ≠ j → G i c = F i c) ∧
    (∀ i', i ≤ i' → G i' j = F i' j) ∧
    ∀ i', i' < i → i' < m → G i' j = W (F i' j) G i' j) (Nat.zero_le m)
    ⟨F, hd, fun _ _ _ => rfl, fun _ _ => rfl, fun i' h => absurd h (by omega)⟩ ?_).mono ?_
  · rintro i d' - hi ⟨G, hG, h1, h2, h3⟩
    have hs : loop 0 (min i j) (0 : α) (fun k s => do
        return s + (← idx d' (i * n + k)) * (← idx d' (k * n + j))) =
        .ok (fdot (fun k => G i k) (fun k => G k j) (min i j)) := by
      refine loop_facc fun k s hk => ?_
      rw [hG.idx hi (by omega), hG.idx (by omega) hj]; rfl
    rw [hs, ok_bind, hG.idx hi hj, ok_bind]
    refine (hG.setIdx hi hj _).mono ?_
    intro d'' hG'
    refine ⟨_, hG', ?_, ?_, ?_⟩
    · intro i' c hc
      rw [upd_ne (by tauto), h1 i' c hc]
    · intro i' hi'
      rw [upd_ne (by omega), h2 i' (by omega)]
    · intro i' hi' hm'
      have hw : W (F i' j) (upd G i j (G i j - fdot (fun k => G i k) (fun k => G k j) (min i j))) i' j = W (F i' j) G i' j := by
        refine W_congr rfl fun k hk => ?_
        rw [upd_ne (by omega), upd_ne (by omega)]
        exact ⟨rfl, rfl⟩
      rw [hw]
      by_cases e : i' = i
      · subst e
        rw [upd_same, h2 i' le_rfl]; rfl
      · rw [upd_ne (by omega)]
        exact h3 i' (by omega) hm'
  · rintro d' ⟨G, hG, h1, _, h3⟩
    exact ⟨G, hG, h1, fun i hi => h3 i hi hi⟩

open Fp

theorem pivot_post {m n j : Nat} {d : List α} {G : Nat → Nat → α} (hd : Grid d m n G) (hj : j < n) :
    Post (pivot m n j d) fun p => j ≤ p ∧ (m ≤ j → p = j) ∧ (j < m → p < m) ∧
      ((∀ i, j ≤ i → i < m → fin (G i j)) → ∀ i, j ≤ i → i < m → |val (G i j)| ≤ |val (G p j)|) := by
  by_cases hjm : j < m
  swap
  · unfold pivot
    rw [loop_empty (by omega)]
    exact Post.ok ⟨le_rfl, fun _ => rfl, fun h => absurd h hjm, fun _ i h1 h2 => by omega⟩
  refine (loop_post (fun i p => j ≤ p ∧ p < i ∧ ((∀ i, j ≤ i → i < m → fin (G i j)) →
    ∀ i', j ≤ i' → i' < i → |val (G i' j)| ≤ |val (G p j)|)) (show j + 1 ≤ m from hjm)
    ⟨le_rfl, by omega, fun _ i' h1 h2 => by rw [show i' = j by omega]⟩ ?_).mono ?_
  · rintro i p h1 hi ⟨hp1, hp2, hp3⟩
    rw [hd.idx (show p < m by omega) hj, hd.idx hi hj, ok_bind, ok_bind]
    have hlt : (∀ i, j ≤ i → i < m → fin (G i j)) → (FloatOps.lt (FloatOps.abs (G p j)) (FloatOps.abs (G i j)) = true ↔
        |val (G p j)| < |val (G i j)|) := by
      intro hf
      have f1 := hf p hp1 (by omega)
      have f2 := hf i (by omega) hi
      rw [Fp.lt _ _ ((Fp.abs _).1.mpr f1) ((Fp.abs _).1.mpr f2), (Fp.abs _).2 f1, (Fp.abs _).2 f2]
    split
    · next h =>
      refine Post.ok ⟨by omega, by omega, fun hf i' h1 h2 => ?_⟩
      by_cases e : i' = i
      · rw [e]
      · exact (hp3 hf i' h1 (by omega)).trans ((hlt hf).mp h).le
    · next h =>
      refine Post.ok ⟨by omega, by omega, fun hf i' h1 h2 => ?_⟩
      by_cases e : i' = i
      · rw [e]; exact not_lt.mp fun h' => h ((hlt hf).mpr h')
      · exact hp3 hf i' h1 (by omega)
  · rintro p ⟨h1, h2, h3⟩
    exact ⟨h1, fun h => by omega, fun _ => h2, h3⟩

/-- `y` is `x` divided by the pivot `q`, or `x` itself when the pivot is zero. -/
def Quot (x q y : α) : Prop :=
  if FloatOps.eq q 0 = true then y = x else RDiv.rdiv x q = .ok y

theorem scale_post {m n j : Nat} {d : List α} {G : Nat → Nat → α} (hd : Grid d m n G) (hj : j < n) :
    Post (scale m n j d) fun d' => ∃ G', Grid d' m n G' ∧ (∀ i c, ¬(c = j ∧ j < i) → G' i c = G i c) ∧
      ∀ i, j < i → i < m → Quot (G i j) (G j j) (G' i j) := by
  unfold scale
  by_cases hjm : j < m
  swap
  · rw [if_neg hjm]
    exact Post.ok ⟨G, hd, fun _ _ _ => rfl, fun i h1 h2 => by omega⟩
  rw [if_pos hjm, hd.idx hjm hj, ok_bind]
  by_cases h0 : FloatOps.eq (G j j) 0 = true
  · simp only [h0, Bool.not_true, Bool.false_eq_true, if_false]
    exact Post.ok ⟨G, hd, fun _ _ _ => rfl, fun i h1 h2 => by unfold Quot; rw [if_pos h0]⟩
  simp only [h0, Bool.not_false, if_true]
  refine (loop_post (fun i d' => ∃ G', Grid d' m n G' ∧ (∀ i' c, ¬(c = j ∧ j < i' ∧ i' < i) → G' i' c = G i' c) ∧
      ∀ i', j < i' → i' < i → Quot (G i' j) (G j j) (G' i' j))
    (show j + 1 ≤ m from hjm) ⟨G, hd, fun _ _ _ => rfl, fun i h1 h2 => by omega⟩ ?_).mono ?_
  · rintro i d' hi1 hi ⟨G', hG, h1, h2⟩
    obtain ⟨z, hz⟩ := Fp.div_total (G i j) (G j j)
    rw [hG.idx hi hj, hG.idx hjm hj, ok_bind, ok_bind, h1 i j (by omega), h1 j j (by omega), hz, ok_bind]
    refine (hG.setIdx hi hj _).mono fun d'' h3 => ⟨_, h3, fun i' c hc => ?_, fun i' a b => ?_⟩
    · rw [upd_ne (by omega), h1 i' c (by omega)]
    · by_cases e : i' = i
      · subst e
        rw [upd_same]; unfold Quot; rw [if_neg h0]; exact hz
      · rw [upd_ne (by omega)]; exact h2 i' a (by omega)
  · rintro d' ⟨G', hG, h1, h2⟩
    exact ⟨G', hG, fun i c h => h1 i c (by omega), fun i a b => h2 i a b⟩

/-- The operations that gave column `c` of the packed factors. -/
structure Col (m : Nat) (A : Nat → Nat → α) (G : Nat → Nat → α) (σ : Equiv.Perm (Fin m)) (c : Nat) : Prop where
  up : ∀ i : Fin m, i.1 ≤ c → G i c = W (A (σ i) c) G i c
  lo : ∀ i : Fin m, c < i.1 → Quot (W (A (σ i) c) G i c) (G c c) (G i c)
  piv : (∀ i : Fin m, c ≤ i.1 → fin (W (A (σ i) c) G i c)) → ∀ i : Fin m, c ≤ i.1 → |val (W (A (σ i) c) G i c)| ≤ |val (G c c)|

/-- Invariant of the outer loop. -/
structure Inv (m n : Nat) (A : Nat → Nat → α) (j : Nat) (s : List α × List Nat × Bool) (G : Nat → Nat → α)
    (σ : Equiv.Perm (Fin m)) : Prop where
  grid : Grid s.1 m n G
  piv : s.2.1 = List.ofFn fun i => (σ i).1
  sign : s.2.2 = decide (Equiv.Perm.sign σ = 1)
  done : ∀ c, c < j → c < n → Col m A G σ c
  todo : ∀ (i : Fin m) c, j ≤ c → c < n → A (σ i) c = G i c

/-- Columns depend only on the entries up to them. -/
theorem Col.congr {m : Nat} {A G G' : Nat → Nat → α} {σ : Equiv.Perm (Fin m)} {c : Nat} (h : Col m A G σ c)
    (e : ∀ i k, k ≤ c → G' i k = G i k) : Col m A G' σ c := by
  have hW : ∀ a i, W a G' i c = W a G i c := fun a i => W_congr rfl fun k hk => ⟨e i k (by omega), e k c le_rfl⟩
  refine ⟨fun i hi => ?_, fun i hi => ?_, fun hf i hi => ?_⟩
  · rw [hW, e i c le_rfl]; exact h.up i hi
  · rw [hW, e i c le_rfl, e c c le_rfl]; exact h.lo i hi
  · rw [hW, e c c le_rfl]
    exact h.piv (fun i hi => by rw [← hW]; exact hf i hi) i hi

theorem step_post {m n : Nat} {A : Nat → Nat → α} {j : Nat} {s : List α × List Nat × Bool} {G : Nat → Nat → α}
    {σ : Equiv.Perm (Fin m)} (h : Inv m n A j s G σ) (hj : j < n) :
    Post (step m n j s) fun s' => ∃ G' σ', Inv m n A (j + 1) s' G' σ' := by
  obtain ⟨d, piv, pos⟩ := s
  unfold step
  dsimp only
  refine (column_post h.grid hj).bind ?_
  rintro d1 ⟨G1, hG1, h1, h2⟩
  refine (pivot_post hG1 hj).bind ?_
  rintro p ⟨hp1, hp2, hp3, hp4⟩
  have key : Post (do
      if p != j then
        let d ← swapRows n p j d1
        let piv ← swapPiv p j piv
        return (d, piv, !pos)
      else return (d1, piv, pos) : R (List α × List Nat × Bool)) fun t => ∃ (G2 : Nat → Nat → α) (σ2 : Equiv.Perm (Fin m)),
        Grid t.1 m n G2 ∧ t.2.1 = (List.ofFn fun i => (σ2 i).1) ∧ t.2.2 = decide (Equiv.Perm.sign σ2 = 1) ∧
        (∀ c, c < j → Col m A G2 σ2 c) ∧
        (∀ i : Fin m, G2 i j = W (A (σ2 i) j) G2 i j) ∧
        (∀ (i : Fin m) c, j < c → c < n → A (σ2 i) c = G2 i c) ∧
        ((∀ i : Fin m, j ≤ i.1 → fin (G2 i j)) → ∀ i : Fin m, j ≤ i.1 → |val (G2 i j)| ≤ |val (G2 j j)|) := by
    have hA1 : ∀ c, c < j → Col m A G1 σ c := fun c hc =>
      (h.done c hc (by omega)).congr fun i k hk => h1 i k (by omega)
    have hA2 : ∀ i : Fin m, G1 i j = W (A (σ i) j) G1 i j := by
      intro i
      rw [h.todo i j le_rfl hj, ← h2 i i.2]
    have hA3 : ∀ (i : Fin m) c, j < c → c < n → A (σ i) c = G1 i c := by
      intro i c hc hn
      rw [h.todo i c hc.le hn, h1 i c (by omega)]
    by_cases e : p = j
    · subst e
      simp only [bne_self_eq_false, Bool.false_eq_true, if_false]
      exact Post.ok ⟨G1, σ, hG1, h.piv, h.sign, hA1, hA2, hA3, fun hf i hi => hp4 (fun i a b => hf ⟨i, b⟩ a) i hi i.2⟩
    · have hjm : j < m := by
        by_contra hc
        exact e (hp2 (by omega))
      have hpm := hp3 hjm
      rw [if_pos (by simpa using e)]
      refine (swapRows_post hG1 hpm hjm).bind fun d2 hG2 => ?_
      have hpiv : piv = List.ofFn fun i => (σ i).1 := h.piv
      rw [hpiv, swapPiv_post σ hpm hjm, ok_bind]
      have hfix : ∀ k, k < j → Equiv.swap p j k = k := fun k hk =>
        Equiv.swap_apply_of_ne_of_ne (by omega) (by omega)
      have hsw : ∀ i : Fin m, (Equiv.swap p j i.1) = ((Equiv.swap (⟨p, hpm⟩ : Fin m) ⟨j, hjm⟩) i).1 := by
        intro i
        by_cases e1 : i.1 = p
        · have : i = ⟨p, hpm⟩ := Fin.ext e1
          rw [this]; simp
        · by_cases e2 : i.1 = j
          · have : i = ⟨j, hjm⟩ := Fin.ext e2
            rw [this]; simp
          · rw [Equiv.swap_apply_of_ne_of_ne e1 e2, Equiv.swap_apply_of_ne_of_ne]
            · intro h; exact e1 (congrArg Fin.val h)
            · intro h; exact e2 (congrArg Fin.val h)
      have hge : ∀ i, j ≤ i → j ≤ Equiv.swap p j i := by
        intro i hi
        by_cases e1 : i = p
        · rw [e1]; simp
        · by_cases e2 : i = j
          · rw [e2]; simpa using hp1
          · rw [Equiv.swap_apply_of_ne_of_ne e1 e2]; exact hi
      -- entries up to column j of the exchanged table
      have hmin : ∀ i c, c ≤ j → min i c = min (Equiv.swap p j i) c := by
        intro i c hc
        rcases lt_or_ge i j with hi | hi
        · rw [hfix i hi]
        · have := hge i hi
          omega
      have hW : ∀ a i c, c ≤ j → W a (fun i c => G1 (Equiv.swap p j i) c) i c = W a G1 (Equiv.swap p j i) c := by
        intro a i c hc
        refine W_congr (hmin i c hc) fun k hk => ⟨rfl, ?_⟩
        rw [hfix k (by omega)]
      have hlt : ∀ i c, c < j → (c < i ↔ c < Equiv.swap p j i) ∧ (c ≤ i ↔ c ≤ Equiv.swap p j i) ∧
          (i ≤ c → Equiv.swap p j i = i) := by
        intro i c hc
        rcases lt_or_ge i j with hi | hi
        · rw [hfix i hi]; exact ⟨Iff.rfl, Iff.rfl, fun _ => rfl⟩
        · have := hge i hi
          exact ⟨by omega, by omega, by omega⟩
      refine Post.ok ⟨_, σ * Equiv.swap ⟨p, hpm⟩ ⟨j, hjm⟩, hG2, rfl, ?_, ?_, ?_, ?_, ?_⟩
      · have hs : pos = decide (Equiv.Perm.sign σ = 1) := h.sign
        have hne : (⟨p, hpm⟩ : Fin m) ≠ ⟨j, hjm⟩ := fun h => e (congrArg Fin.val h)
        dsimp only
        rw [hs, Equiv.Perm.sign_mul, Equiv.Perm.sign_swap hne]
        rcases Int.units_eq_one_or (Equiv.Perm.sign σ) with h | h <;> rw [h] <;> decide
      · intro c hc
        have hcol := hA1 c hc
        refine ⟨fun i hi => ?_, fun i hi => ?_, fun hf i hi => ?_⟩
        · rw [hW _ _ _ hc.le, Equiv.Perm.mul_apply, hsw]
          refine hcol.up _ ?_
          rw [← hsw, (hlt i c hc).2.2 hi]; exact hi
        · rw [hW _ _ _ hc.le, Equiv.Perm.mul_apply, hsw]
          rw [hfix c hc]
          refine hcol.lo _ ?_
          rw [← hsw]; exact (hlt i c hc).1.mp hi
        · rw [hW _ _ _ hc.le, Equiv.Perm.mul_apply, hsw]
          rw [hfix c hc]
          refine hcol.piv (fun i' hi' => ?_) _ ?_
          · have := hf (Equiv.swap ⟨p, hpm⟩ ⟨j, hjm⟩ i') (by rw [← hsw]; exact (hlt i' c hc).2.1.mp hi')
            rw [hW _ _ _ hc.le, Equiv.Perm.mul_apply, hsw, Equiv.swap_apply_self] at this
            exact this
          · rw [← hsw]; exact (hlt i c hc).2.1.mp hi
      · intro i
        rw [hW _ _ _ le_rfl, Equiv.Perm.mul_apply, hsw]
        exact hA2 _
      · intro i c hc hn
        rw [Equiv.Perm.mul_apply, hA3 _ c hc hn, ← hsw]
      · intro hf i hi
        rw [Equiv.swap_apply_right]
        refine hp4 (fun i' a b => ?_) _ (hge i hi) (by rw [hsw]; exact Fin.is_lt _)
        have := hf (Equiv.swap ⟨p, hpm⟩ ⟨j, hjm⟩ ⟨i', b⟩) (by rw [← hsw]; exact hge i' a)
        rwa [hsw, Equiv.swap_apply_self] at this
  refine key.bind ?_
  rintro ⟨d2, piv2, pos2⟩ ⟨G2, σ2, hG2, hpiv2, hpos2, a1, a2, a3, a5⟩
  refine (scale_post hG2 hj).bind ?_
  rintro d3 ⟨G3, hG3, b1, b2⟩
  refine Post.ok ⟨G3, σ2, hG3, hpiv2, hpos2, ?_, ?_⟩
  · intro c hc hn
    rcases Nat.lt_succ_iff_lt_or_eq.mp hc with hc' | rfl
    · exact (a1 c hc').congr fun i k hk => b1 i k (by omega)
    · have hW : ∀ a i, W a G3 i c = W a G2 i c := fun a i =>
        W_congr rfl fun k hk => ⟨b1 i k (by omega), b1 k c (by omega)⟩
      refine ⟨fun i hi => ?_, fun i hi => ?_, fun hf i hi => ?_⟩
      · rw [hW, b1 i c (by omega)]; exact a2 i
      · rw [hW, b1 c c (by omega), ← a2 i]; exact b2 i hi i.2
      · rw [hW, b1 c c (by omega), ← a2 i]
        exact a5 (fun i hi => by rw [a2 i, ← hW]; exact hf i hi) i hi
  · intro i c hc hn
    rw [a3 i c (by omega) hn, b1 i c (by omega)]

/-- What `LU.new` computes, operation by operation. -/
theorem new_ofM {m n : Nat} (hm : 0 < m) (hn : 0 < n) (A : Matrix (Fin m) (Fin n) α) :
    ∃ (G : Nat → Nat → α) (σ : Equiv.Perm (Fin m)),
      LU.new (ofM A) =
        .ok ⟨ofM (Matrix.of fun (i : Fin m) (j : Fin n) => G i j), decide (Equiv.Perm.sign σ = 1), List.ofFn fun i => (σ i).1⟩ ∧
      ∀ c, c < n → Col m (ext A) G σ c := by
  unfold LU.new
  have hio := iota_fill m
  rw [bind_eq_ok] at hio
  obtain ⟨b, hb1, hb2⟩ := hio
  simp only [ofM_rows, ofM_cols A hm, ok_bind, hb1, hb2]
  have := loop_post (s := ((ofM A).data, (List.ofFn fun i : Fin m => i.1), true)) (f := fun j s => step m n j s)
    (fun j s => ∃ G σ, Inv m n (ext A) j s G σ) (Nat.zero_le n)
    ⟨ext A, 1, grid_ofM A, by simp, by simp, fun c h => by omega, fun i c _ _ => by simp⟩
    (by
      rintro j s - hj ⟨G, σ, h⟩
      exact step_post h hj)
  obtain ⟨⟨d, piv, pos⟩, hs, G, σ, h⟩ := this
  rw [hs, ok_bind]
  refine ⟨G, σ, ?_, fun c hc => h.done c hc hc⟩
  have hd : d = (ofM (Matrix.of fun (i : Fin m) (j : Fin n) => G i j)).data := h.grid.ofM _ fun _ _ => rfl
  have hp : piv = List.ofFn fun i => (σ i).1 := h.piv
  have hq : pos = decide (Equiv.Perm.sign σ = 1) := h.sign
  dsimp only
  rw [hd, Props.C01_new_ofM hm hn, hp, hq]; rfl

end Rnd
end LU
end LA
