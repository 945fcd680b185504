import Verif.Proofs.Band
import Mathlib.Tactic.Linarith

/-! # Where the rows of a band matrix go, and how large the entries of the factors of tridiagonal and Hessenberg matrices become -/

set_option linter.unusedSectionVars false

namespace LA.LU.Band
open Finset

/-- At most `b` rows have entries below the diagonal of column `k`. -/
theorem count {m n b q k : Nat} {α : Type} [Zero α] [One α] [Add α] [Sub α] [Neg α] [Mul α] [FloatOps α] {Z : α → Prop} {G : Nat → Nat → α}
    {τ : Nat → Nat} (σ : Equiv.Perm (Fin m)) (hσ : ∀ i : Fin m, τ i = (σ i).1) (h : Pattern Z m n b q n G τ) (hk : k < n) (N : Finset (Fin m))
    (hN : ∀ i ∈ N, k < i.1 ∧ ¬ Z (G i k)) : N.card ≤ b := by
  rcases N.eq_empty_or_nonempty with rfl | ⟨i0, hi0⟩
  · simp
  have hkm : k < m := (hN i0 hi0).1.trans i0.2
  set D : Finset (Fin m) := univ.filter fun i => i.1 < k + 1 with hD
  have hDc : D.card = k + 1 := by
    rw [hD, Fin.card_filter_val_lt]; omega
  have hdis : Disjoint D N := by
    rw [Finset.disjoint_left]
    intro i h1 h2
    rw [hD, mem_filter] at h1
    have := (hN i h2).1
    omega
  have hmap : ((D ∪ N).image fun i => (σ i).1) ⊆ range (k + b + 1) := by
    intro r hr
    rw [mem_image] at hr
    obtain ⟨i, hi, rfl⟩ := hr
    rw [mem_range, ← hσ]
    rcases mem_union.1 hi with h1 | h1
    · rw [hD, mem_filter] at h1
      have := h.past i i.2 (by omega)
      omega
    · by_contra hc
      exact (hN i h1).2 (h.low i k i.2 hk hk (hN i h1).1.le (by omega))
  have h1 := card_le_card hmap
  rw [card_image_of_injective _ fun a b h => σ.injective (Fin.ext h), card_union_of_disjoint hdis, hDc, card_range] at h1
  omega

/-- With one subdiagonal: if a row that was there from the beginning is still waiting, the new row was taken. -/
theorem fresh {m k : Nat} (σ : Equiv.Perm (Fin m)) (h : ∀ t : Fin m, t.1 ≤ k → (σ t).1 ≤ t + 1) {i : Fin m} (hi : k < i.1) (h1 : (σ i).1 ≤ k)
    (hk : k < m) : (σ ⟨k, hk⟩).1 = k + 1 := by
  by_contra hc
  have hk1 := h ⟨k, hk⟩ le_rfl
  have hk1 : (σ ⟨k, hk⟩).1 ≤ k + 1 := hk1
  set D : Finset (Fin m) := univ.filter fun i => i.1 < k + 1 with hD
  have hDc : D.card = k + 1 := by
    rw [hD, Fin.card_filter_val_lt]; omega
  have hni : i ∉ D := by
    rw [hD, mem_filter]; rintro ⟨-, h2⟩; omega
  have hmap : ((insert i D).image fun i => (σ i).1) ⊆ range (k + 1) := by
    intro r hr
    rw [mem_image] at hr
    obtain ⟨t, ht, rfl⟩ := hr
    rw [mem_range]
    rcases mem_insert.1 ht with rfl | ht
    · omega
    · rw [hD, mem_filter] at ht
      by_cases e : t.1 = k
      · obtain rfl : t = ⟨k, hk⟩ := Fin.ext e
        omega
      · have := h t (by omega)
        omega
  have h2 := card_le_card hmap
  rw [card_image_of_injective _ fun a b h => σ.injective (Fin.ext h), card_insert_of_notMem hni, hDc, card_range] at h2
  omega

theorem sum_last_two {K : Type} [AddCommMonoid K] (f : Nat → K) (k : Nat) (h : ∀ t, t + 2 < k → f t = 0) :
    ∑ t ∈ range k, f t = (if 2 ≤ k then f (k - 2) else 0) + if 1 ≤ k then f (k - 1) else 0 := by
  rcases k with _ | _ | k
  · simp
  · simp
  · rw [sum_range_succ, sum_range_succ, sum_eq_zero fun t ht => h t (by rw [mem_range] at ht; omega), zero_add]
    simp

section
variable {K : Type} [Field K] [LinearOrder K] [IsStrictOrderedRing K]

/-- One entry of `U` of a tridiagonal matrix. -/
theorem tri_step {a g : Nat → Nat → K} {τ : Nat → Nat} {k c : Nat} {M B2 B1 l : K} (hkc : k ≤ c)
    (haM : ∀ i, |a i c| ≤ M) (ha : ∀ i, i + 1 < c → a i c = 0)
    (hτ : ∀ t, t ≤ k → τ t ≤ t + 1) (hinj : ∀ t t', t ≤ k → t' ≤ k → τ t = τ t' → t = t')
    (hlow : ∀ t, t < k → t + 1 < τ k → g k t = 0) (hup : ∀ t, t < k → (∀ s, s ≤ t → τ s + 1 < c) → g t c = 0)
    (hl : ∀ t, t < k → |g k t| ≤ l) (hb1 : ∀ t, t < k → |g t c| ≤ B1) (hb2 : ∀ t, t < k → τ t = t + 1 → |g t c| ≤ B2)
    (h1l : 1 ≤ l) (hM2 : M ≤ B2) (h21 : B2 ≤ B1) :
    (τ k = k + 1 → |a (τ k) c| + ∑ t ∈ range k, |g k t| * |g t c| ≤ M) ∧
    (k < c → |a (τ k) c| + ∑ t ∈ range k, |g k t| * |g t c| ≤ l * B2) ∧
    |a (τ k) c| + ∑ t ∈ range k, |g k t| * |g t c| ≤ l * (B2 + B1) := by
  have hM0 : 0 ≤ M := (abs_nonneg _).trans (haM 0)
  have hl0 : 0 ≤ l := zero_le_one.trans h1l
  -- zeros of `U`
  have hz3 : ∀ t, t < k → t + 2 < c → g t c = 0 := fun t ht hc => hup t ht fun s hs => by
    have := hτ s (by omega); omega
  have hz2 : ∀ t, t < k → t + 2 = c → τ t ≠ t + 1 → g t c = 0 := fun t ht hc hne => hup t ht fun s hs => by
    have := hτ s (by omega)
    by_cases e : s = t
    · subst e; omega
    · omega
  rw [sum_last_two _ k fun t ht => by rw [hz3 t (by omega) (by omega), abs_zero, mul_zero]]
  -- the two products
  have hT : ∀ t, t < k → |g k t| * |g t c| ≤ l * B1 ∧ (τ t = t + 1 → |g k t| * |g t c| ≤ l * B2) := fun t ht =>
    ⟨mul_le_mul (hl t ht) (hb1 t ht) (abs_nonneg _) hl0, fun h => mul_le_mul (hl t ht) (hb2 t ht h) (abs_nonneg _) hl0⟩
  have hA : |a (τ k) c| ≤ l * B2 := (haM _).trans (hM2.trans (le_mul_of_one_le_left (hM0.trans hM2) h1l))
  have hp2 : 0 ≤ l * B2 := mul_nonneg hl0 (hM0.trans hM2)
  have hp1 : 0 ≤ l * B1 := mul_nonneg hl0 ((hM0.trans hM2).trans h21)
  have hzero : τ k = k + 1 → ∀ t, t < k → |g k t| * |g t c| = 0 := fun h t ht => by
    rw [hlow t ht (by omega), abs_zero, zero_mul]
  have hsec : (if 2 ≤ k then |g k (k - 2)| * |g (k - 2) c| else 0) = 0 ∨
      (k = c ∧ 2 ≤ k ∧ a (τ k) c = 0 ∧ |g k (k - 2)| * |g (k - 2) c| ≤ l * B2) := by
    by_cases h2 : 2 ≤ k
    · rw [if_pos h2]
      by_cases hkc' : k < c
      · left; rw [hz3 (k - 2) (by omega) (by omega), abs_zero, mul_zero]
      by_cases h3 : τ (k - 2) = k - 2 + 1
      · by_cases h4 : k - 2 + 1 < τ k
        · left; rw [hlow (k - 2) (by omega) h4, abs_zero, zero_mul]
        · right
          have h5 : τ k ≠ τ (k - 2) := fun h => by
            have := hinj k (k - 2) le_rfl (by omega) h; omega
          exact ⟨by omega, h2, ha _ (by omega), (hT (k - 2) (by omega)).2 h3⟩
      · left; rw [hz2 (k - 2) (by omega) (by omega) h3, abs_zero, mul_zero]
    · left; rw [if_neg h2]
  have hfst : k < c → (if 1 ≤ k then |g k (k - 1)| * |g (k - 1) c| else 0) = 0 ∨
      (a (τ k) c = 0 ∧ (if 1 ≤ k then |g k (k - 1)| * |g (k - 1) c| else 0) ≤ l * B2) := by
    intro hc
    by_cases h1 : 1 ≤ k
    · rw [if_pos h1]
      by_cases hc2 : k + 1 < c
      · left; rw [hz3 (k - 1) (by omega) (by omega), abs_zero, mul_zero]
      by_cases h3 : τ (k - 1) = k - 1 + 1
      · have h5 : τ k ≠ τ (k - 1) := fun h => by
          have := hinj k (k - 1) le_rfl (by omega) h; omega
        by_cases h4 : k - 1 + 1 < τ k
        · left; rw [hlow (k - 1) (by omega) h4, abs_zero, zero_mul]
        · right
          exact ⟨ha _ (by omega), (hT (k - 1) (by omega)).2 h3⟩
      · left; rw [hz2 (k - 1) (by omega) (by omega) h3, abs_zero, mul_zero]
    · left; rw [if_neg h1]
  refine ⟨fun h => ?_, fun hc => ?_, ?_⟩
  · have e1 : (if 2 ≤ k then |g k (k - 2)| * |g (k - 2) c| else 0) = 0 := by
      split
      · exact hzero h _ (by omega)
      · rfl
    have e2 : (if 1 ≤ k then |g k (k - 1)| * |g (k - 1) c| else 0) = 0 := by
      split
      · exact hzero h _ (by omega)
      · rfl
    rw [e1, e2, add_zero, add_zero]
    exact haM _
  · rcases hsec with e1 | ⟨e1, -⟩
    · rw [e1, zero_add]
      rcases hfst hc with e2 | ⟨e2, e3⟩
      · rw [e2, add_zero]; exact hA
      · rw [e2, abs_zero, zero_add]; exact e3
    · omega
  · have e2 : (if 1 ≤ k then |g k (k - 1)| * |g (k - 1) c| else 0) ≤ l * B1 := by
      split
      · exact (hT _ (by omega)).1
      · exact hp1
    rw [mul_add]
    rcases hsec with e1 | ⟨-, e0, e1, e3⟩
    · rw [e1, zero_add]
      exact add_le_add hA e2
    · rw [e1, abs_zero, zero_add, if_pos e0]
      exact add_le_add e3 e2
end

end LA.LU.Band
