import Verif.Model.Norm
import Verif.Exact
import Verif.Proofs.Blocks
import Mathlib.Algebra.BigOperators.Fin
import Mathlib.Data.Fintype.BigOperators

/-! # Helper lemmas: exact arithmetic, early-exit loops, sums over stored elements -/

namespace LA
variable {α : Type}

section ExactLemmas
variable {K : Type} [Field K] [LinearOrder K] [FloatOps K] [Exact K]

theorem lt_eq (a b : K) : FloatOps.lt a b = decide (a < b) := by
  have := Exact.lt_iff a b
  by_cases h : a < b
  · simp [h, this.2 h]
  · simp only [h, decide_false]
    cases hb : FloatOps.lt a b
    · rfl
    · exact absurd (this.1 hb) h

theorem le_eq (a b : K) : FloatOps.le a b = decide (a ≤ b) := by
  have := Exact.le_iff a b
  by_cases h : a ≤ b
  · simp [h, this.2 h]
  · simp only [h, decide_false]
    cases hb : FloatOps.le a b
    · rfl
    · exact absurd (this.1 hb) h

theorem eq_eq (a b : K) : FloatOps.eq a b = decide (a = b) := by
  have := Exact.eq_iff a b
  by_cases h : a = b
  · rw [this.2 h]; simp [h]
  · simp only [h, decide_false]
    cases hb : FloatOps.eq a b
    · rfl
    · exact absurd (this.1 hb) h

theorem rdiv_ok {a b : K} (h : b ≠ 0) : RDiv.rdiv a b = .ok (a / b) := Exact.rdiv_ok a b h

end ExactLemmas

theorem sqrt_ok {a : ℝ} (h : 0 ≤ a) : FloatOps.sqrt a = .ok (Real.sqrt a) := if_neg (not_lt.mpr h)

/-- A loop that leaves with `false` at the first index where `p` fails. -/
theorem loopF_all {lo hi : Nat} {f : Nat → Unit → R (Flow Unit Bool)} (p : Nat → Prop)
    (h : ∀ i, lo ≤ i → i < hi → (p i → f i () = .ok (.next ())) ∧ (¬ p i → f i () = .ok (.ret false))) :
    ((∀ i, lo ≤ i → i < hi → p i) → loopF lo hi () f = .ok (.next ())) ∧
    ((¬ ∀ i, lo ≤ i → i < hi → p i) → loopF lo hi () f = .ok (.ret false)) := by
  by_cases hle : lo ≤ hi
  swap
  · rw [loopF_empty (by omega)]
    exact ⟨fun _ => rfl, fun h => absurd (fun i h1 h2 => by omega) h⟩
  obtain ⟨k, rfl⟩ : ∃ k, hi = lo + k := ⟨hi - lo, by omega⟩
  clear hle
  induction k generalizing lo with
  | zero =>
    rw [Nat.add_zero, loopF_self]
    exact ⟨fun _ => rfl, fun h => absurd (fun i h1 h2 => by omega) h⟩
  | succ k ih =>
    rw [loopF_step (by omega)]
    by_cases hp : p lo
    · rw [(h lo le_rfl (by omega)).1 hp, ok_bind]
      have := ih (lo := lo + 1) fun i h1 h2 => h i (by omega) (by omega)
      rw [show lo + 1 + k = lo + (k + 1) by omega] at this
      refine ⟨fun hall => this.1 fun i h1 h2 => hall i (by omega) h2, fun hn => this.2 fun hall => hn ?_⟩
      intro i h1 h2
      by_cases e : i = lo
      · rw [e]; exact hp
      · exact hall i (by omega) h2
    · rw [(h lo le_rfl (by omega)).2 hp, ok_bind]
      exact ⟨fun hall => absurd (hall lo le_rfl (by omega)) hp, fun _ => rfl⟩

/-- Sum over the stored elements. -/
theorem sum_data_loop {M : Type} [AddCommMonoid M] {m n : Nat} (A : Matrix (Fin m) (Fin n) α) (g : α → M)
    {f : Nat → M → R M}
    (h : ∀ (i : Fin m) (j : Fin n) s, f (i.1 * n + j.1) s = .ok (s + g (A i j))) :
    loop 0 (ofM A).data.length (0 : M) f = .ok (∑ i, ∑ j, g (A i j)) := by
  rw [ofM_length]
  have hpos : ∀ k, k < m * n → 0 < n := by
    intro k hk
    rcases Nat.eq_zero_or_pos n with h | h
    · rw [h] at hk; omega
    · exact h
  let x : Nat → M := fun k => if hk : k < m * n then
    g (A ⟨k / n, Nat.div_lt_of_lt_mul (by rwa [Nat.mul_comm] at hk)⟩ ⟨k % n, Nat.mod_lt _ (hpos k hk)⟩) else 0
  rw [loop_sum (Nat.zero_le _) 0 x]
  · congr 1
    rw [zero_add, ← Finset.range_eq_Ico, Finset.sum_range]
    rw [← Fintype.sum_prod_type' (f := fun i j => g (A i j))]
    refine Fintype.sum_equiv finProdFinEquiv.symm _ _ ?_
    intro k
    simp only [x, k.2, dif_pos]
    rfl
  · intro k s _ hk
    obtain ⟨i, j, hi, hj, rfl⟩ := rm_surj hk
    rw [h ⟨i, hi⟩ ⟨j, hj⟩]
    simp only [x, hk, dif_pos, rm_div hj, rm_mod hj]

theorem data_loop_error {M : Type} {m n : Nat} (A : Matrix (Fin m) (Fin n) α)
    {f : Nat → M → R M} {e : Err} (s : M) (P : α → Prop)
    (h : ∀ (i : Fin m) (j : Fin n) s, ¬ P (A i j) → ∃ s', f (i.1 * n + j.1) s = .ok s')
    (he : ∀ (i : Fin m) (j : Fin n) s, P (A i j) → f (i.1 * n + j.1) s = .error e)
    (hex : ∃ i j, P (A i j)) :
    loop 0 (ofM A).data.length s f = .error e := by
  rw [ofM_length]
  classical
  obtain ⟨i0, j0, h0⟩ := hex
  have hex' : ∃ k, ∃ (i : Fin m) (j : Fin n), k = i.1 * n + j.1 ∧ P (A i j) := ⟨_, i0, j0, rfl, h0⟩
  obtain ⟨i, j, hk, hP⟩ := Nat.find_spec hex'
  refine loop_error (j := Nat.find hex') (fun _ _ => True) (Nat.zero_le _) (by rw [hk]; exact rm_lt i.2 j.2) trivial ?_ ?_
  · intro k s _ hlt _
    have hk' : k < m * n := lt_trans hlt (by rw [hk]; exact rm_lt i.2 j.2)
    obtain ⟨i', j', hi', hj', rfl⟩ := rm_surj hk'
    have hn : ¬ P (A ⟨i', hi'⟩ ⟨j', hj'⟩) := fun hp => Nat.find_min hex' hlt ⟨⟨i', hi'⟩, ⟨j', hj'⟩, rfl, hp⟩
    obtain ⟨s', hs'⟩ := h ⟨i', hi'⟩ ⟨j', hj'⟩ s hn
    exact ⟨s', hs', trivial⟩
  · intro s _
    rw [hk]; exact he i j s hP

theorem sum_colVec {M : Type} [AddCommMonoid M] {n : Nat} (v : Fin n → α) (g : α → M) :
    (∑ i : Fin n, ∑ j : Fin 1, g (colVec v i j)) = ∑ i, g (v i) := by
  simp [colVec]

end LA
