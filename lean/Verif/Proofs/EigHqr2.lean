import Verif.Proofs.EigHqr

/-! # `hqr2`: one step of the double QR sweep -/

set_option linter.unusedSectionVars false

namespace LA
open Finset Matrix
namespace Eigen
open SVD (pk pk_congr)

/-- The quasi-triangular table at the start of step `k` of a sweep started at row `m` on rows `..=n`: zeros below the
subdiagonal except for the bulge, and zeros on the subdiagonal between finished blocks. -/
noncomputable def swk (n m k : Nat) (e : Nat → ℝ) (H : Nat → Nat → ℝ) : Nat → Nat → ℝ := fun a b =>
  if b + 1 < a ∧ ¬(m < k ∧ a ≤ n ∧ ((b + 1 = k ∧ a ≤ k + 2) ∨ (b = k ∧ a = k + 2))) then 0
  else if b + 1 = a ∧ n + 1 ≤ a ∧ ¬ e a < 0 then 0 else H a b

/-- The memory after step `k`: cell `(k, k-1)` written, rows and columns reflected. -/
def memStep (n k : Nat) (val q r x y z : ℝ) (H : Nat → Nat → ℝ) : Nat → Nat → ℝ :=
  let H1 : Nat → Nat → ℝ := fun a b => if a = k ∧ b + 1 = k then val else H a b
  let H2 : Nat → Nat → ℝ := fun a b => if k ≤ b then rfL k q r x y z H1 a b else H1 a b
  fun a b => if a < min n (k + 3) + 1 then rfR k q r x y z H2 a b else H2 a b

/-- The row-reflected table with column `k - 1` replaced by `(val, 0, 0)`. -/
noncomputable def rowStep (n m k : Nat) (e : Nat → ℝ) (val q r x y z : ℝ) (H : Nat → Nat → ℝ) : Nat → Nat → ℝ := fun a b =>
  if b + 1 = k ∧ a = k then val else if b + 1 = k ∧ (a = k + 1 ∨ a = k + 2) then 0
  else rfL k q r x y z (swk n m k e H) a b

theorem swk_row0 {n m k b : Nat} {e : Nat → ℝ} {H : Nat → Nat → ℝ} (hkn : k < n) (hb : k ≤ b) : swk n m k e H k b = H k b := by
  unfold swk; rw [if_neg (by omega), if_neg (by omega)]

theorem swk_row1 {n m k b : Nat} {e : Nat → ℝ} {H : Nat → Nat → ℝ} (hkn : k < n) (hb : k ≤ b) : swk n m k e H (k + 1) b = H (k + 1) b := by
  unfold swk; rw [if_neg (by omega), if_neg (by omega)]

theorem swk_row2 {n m k b : Nat} {e : Nat → ℝ} {H : Nat → Nat → ℝ} (hkn : k + 2 ≤ n) (hmk : m ≤ k) (hb : k ≤ b)
    (z1 : m = k → H (k + 2) k = 0) : swk n m k e H (k + 2) b = H (k + 2) b := by
  unfold swk
  by_cases h : b = k
  · subst h
    by_cases h2 : m = b
    · rw [if_pos (by omega), z1 h2]
    · rw [if_neg (by omega), if_neg (by omega)]
  · rw [if_neg (by omega), if_neg (by omega)]

/-- The rows after the row reflection, right of column `k`. -/
theorem rowStep_eq {n m k a b : Nat} {e : Nat → ℝ} {H : Nat → Nat → ℝ} {val q r x y z : ℝ} (hkn : k < n) (hmk : m ≤ k) (ha : a ≤ n)
    (hlast : k + 1 = n → r = 0 ∧ z = 0) (z1 : k + 2 ≤ n → m = k → H (k + 2) k = 0) (hb : k ≤ b) (ha1 : k ≤ a) (ha2 : a ≤ k + 2) :
    rowStep n m k e val q r x y z H a b = rfL k q r x y z H a b := by
  unfold rowStep rfL
  rw [if_neg (by omega), if_neg (by omega), swk_row0 hkn hb, swk_row1 hkn hb]
  by_cases h : k + 2 ≤ n
  · rw [swk_row2 h hmk hb (z1 h)]
    split_ifs <;> first | rfl | omega
  · obtain ⟨rfl, rfl⟩ := hlast (by omega)
    simp only [zero_mul, add_zero]
    have h1 : a = k ∨ a = k + 1 := by omega
    rcases h1 with rfl | rfl
    · simp
    · simp

theorem rfR_ge {k a : Nat} {q r x y z : ℝ} {F G : Nat → Nat → ℝ} (h : ∀ c, k ≤ c → F a c = G a c) {b : Nat} (hb : k ≤ b) :
    rfR k q r x y z F a b = rfR k q r x y z G a b := by
  unfold rfR
  rw [h k le_rfl, h (k + 1) (by omega), h (k + 2) (by omega), h b hb]

theorem rfR_lt {k a b : Nat} {q r x y z : ℝ} {F : Nat → Nat → ℝ} (hb : b < k) : rfR k q r x y z F a b = F a b := by
  unfold rfR
  rw [if_neg (by omega), if_neg (by omega), if_neg (by omega)]

theorem rfL_out {k a b : Nat} {q r x y z : ℝ} {F : Nat → Nat → ℝ} (h : a < k ∨ k + 2 < a) : rfL k q r x y z F a b = F a b := by
  unfold rfL
  rw [if_neg (by omega), if_neg (by omega), if_neg (by omega)]

theorem rfL_congr {k a b : Nat} {q r x y z : ℝ} {F G : Nat → Nat → ℝ} (h : ∀ c, F c b = G c b) :
    rfL k q r x y z F a b = rfL k q r x y z G a b := by
  unfold rfL
  rw [h k, h (k + 1), h (k + 2), h a]

/-- The memory after the row reflection. -/
def mem2 (k : Nat) (val q r x y z : ℝ) (H : Nat → Nat → ℝ) : Nat → Nat → ℝ := fun a b =>
  if k ≤ b then rfL k q r x y z H a b else if a = k ∧ b + 1 = k then val else H a b

theorem memStep_eq {n k a b : Nat} {val q r x y z : ℝ} {H : Nat → Nat → ℝ} : memStep n k val q r x y z H a b =
    if a < min n (k + 3) + 1 then rfR k q r x y z (mem2 k val q r x y z H) a b else mem2 k val q r x y z H a b := by
  have h : ∀ a b, (if k ≤ b then rfL k q r x y z (fun a b => if a = k ∧ b + 1 = k then val else H a b) a b
      else if a = k ∧ b + 1 = k then val else H a b) = mem2 k val q r x y z H a b := by
    intro a b
    unfold mem2
    by_cases hb : k ≤ b
    · rw [if_pos hb, if_pos hb]
      exact rfL_congr fun c => if_neg (by omega)
    · rw [if_neg hb, if_neg hb]
  unfold memStep
  dsimp only
  simp only [h]

theorem sw_step {n m k : Nat} {e : Nat → ℝ} {H : Nat → Nat → ℝ} {val q r x y z : ℝ} (hkn : k < n) (hmk : m ≤ k)
    (he : ¬ e (n + 1) < 0) (hlast : k + 1 = n → r = 0 ∧ z = 0)
    (hZ : ∀ a b, a ≤ n → k ≤ b → b + 2 ≤ a → a ≤ b + 3 → (m < k → ¬(a = k + 2 ∧ b = k)) → H a b = 0) (a b : Nat) :
    swk n m (k + 1) e (memStep n k val q r x y z H) a b = rfR k q r x y z (rowStep n m k e val q r x y z H) a b := by
  have z1 : k + 2 ≤ n → m = k → H (k + 2) k = 0 := fun h1 h2 => hZ _ _ h1 le_rfl le_rfl (by omega) (by omega)
  have z2 : k + 3 ≤ n → H (k + 3) k = 0 := fun h1 => hZ _ _ h1 le_rfl (by omega) (by omega) (by omega)
  have z3 : k + 3 ≤ n → H (k + 3) (k + 1) = 0 := fun h1 => hZ _ _ h1 (by omega) (by omega) (by omega) (by omega)
  clear hZ
  by_cases ha : a ≤ min n (k + 3)
  · -- the rows that the code reflects
    have hge : ∀ c, k ≤ c → rowStep n m k e val q r x y z H a c = mem2 k val q r x y z H a c := by
      intro c hc
      unfold mem2
      rw [if_pos hc]
      by_cases h1 : a < k
      · rw [rfL_out (Or.inl h1)]
        unfold rowStep
        rw [if_neg (by omega), if_neg (by omega), rfL_out (Or.inl h1)]
        unfold swk
        rw [if_neg (by omega), if_neg (by omega)]
      · by_cases h2 : a ≤ k + 2
        · exact rowStep_eq hkn hmk (by omega) hlast z1 hc (by omega) h2
        · have h3 : a = k + 3 := by omega
          subst h3
          rw [rfL_out (Or.inr (by omega))]
          unfold rowStep
          rw [if_neg (by omega), if_neg (by omega), rfL_out (Or.inr (by omega))]
          unfold swk
          by_cases h4 : c + 1 < k + 3
          · rw [if_pos (by omega)]
            have h5 : c = k ∨ c = k + 1 := by omega
            rcases h5 with rfl | rfl
            · rw [z2 (by omega)]
            · rw [z3 (by omega)]
          · rw [if_neg (by omega), if_neg (by omega)]
    by_cases hb : k ≤ b
    · rw [rfR_ge hge hb]
      unfold swk
      rw [memStep_eq, if_pos (show a < min n (k + 3) + 1 by omega)]
      by_cases h1 : b + 1 < a
      · rw [if_neg (by omega), if_neg (by omega)]
      · rw [if_neg (by omega), if_neg (by omega)]
    · rw [rfR_lt (by omega)]
      unfold swk
      rw [memStep_eq, if_pos (show a < min n (k + 3) + 1 by omega), rfR_lt (by omega)]
      unfold mem2
      rw [if_neg hb]
      unfold rowStep
      by_cases h1 : a < k
      · rw [if_neg (show ¬ (b + 1 = k ∧ a = k) by omega), if_neg (show ¬ (b + 1 = k ∧ (a = k + 1 ∨ a = k + 2)) by omega),
          rfL_out (Or.inl h1)]
        unfold swk
        by_cases h2 : b + 1 < a
        · rw [if_pos (by omega), if_pos (by omega)]
        · rw [if_neg (by omega), if_neg (by omega), if_neg (by omega), if_neg (by omega), if_neg (by omega)]
      · by_cases h2 : b + 1 = k
        · by_cases h3 : a = k
          · rw [if_pos (show b + 1 = k ∧ a = k from ⟨h2, h3⟩), if_neg (by omega), if_neg (by omega), if_pos ⟨h3, h2⟩]
          · rw [if_pos (by omega), if_neg (by omega)]
            by_cases h4 : a ≤ k + 2
            · rw [if_pos (by omega)]
            · rw [if_neg (by omega), rfL_out (Or.inr (by omega))]
              unfold swk
              rw [if_pos (by omega)]
        · rw [if_pos (by omega), if_neg (by omega), if_neg (by omega)]
          have h0 : ∀ c, k ≤ c → swk n m k e H c b = 0 := by
            intro c hc; unfold swk; rw [if_pos (by omega)]
          unfold rfL
          rw [h0 k le_rfl, h0 (k + 1) (by omega), h0 (k + 2) (by omega), h0 a (by omega)]
          split_ifs <;> ring
  · -- the other rows
    have hrow : ∀ c, rowStep n m k e val q r x y z H a c = swk n m k e H a c := by
      intro c
      unfold rowStep
      by_cases h1 : a ≤ k + 2
      · -- `k = n - 1`, `a = n + 1`
        obtain ⟨rfl, rfl⟩ := hlast (by omega)
        have h2 : a = k + 2 := by omega
        subst h2
        rw [if_neg (by omega)]
        by_cases h3 : c + 1 = k
        · rw [if_pos (by omega)]
          unfold swk
          rw [if_pos (by omega)]
        · rw [if_neg (by omega)]
          unfold rfL
          rw [if_neg (by omega), if_neg (by omega), if_pos rfl, mul_zero, sub_zero]
      · rw [if_neg (by omega), if_neg (by omega), rfL_out (Or.inr (by omega))]
    have e0 : swk n m k e H a k = 0 := by unfold swk; rw [if_pos (by omega)]
    have e1 : swk n m k e H a (k + 1) = 0 := by
      unfold swk
      by_cases h1 : a = k + 2
      · rw [if_neg (by omega), if_pos ⟨by omega, by omega, by rw [show a = n + 1 by omega]; exact he⟩]
      · rw [if_pos (by omega)]
    have e2 : z * swk n m k e H a (k + 2) = 0 ∧ (r = 0 ∨ swk n m k e H a (k + 2) = 0) := by
      by_cases h1 : k + 1 = n
      · obtain ⟨rfl, rfl⟩ := hlast h1
        exact ⟨zero_mul _, Or.inl rfl⟩
      · have : swk n m k e H a (k + 2) = 0 := by
          unfold swk
          by_cases h1 : a = k + 3
          · rw [if_neg (by omega), if_pos ⟨by omega, by omega, by rw [show a = n + 1 by omega]; exact he⟩]
          · rw [if_pos (by omega)]
        rw [this]; exact ⟨mul_zero _, Or.inr rfl⟩
    have hR : rfR k q r x y z (rowStep n m k e val q r x y z H) a b = swk n m k e H a b := by
      unfold rfR
      rw [hrow, hrow, hrow, hrow, e0, e1, e2.1]
      split_ifs with h1 h2 h3
      · rw [h1, e0]; ring
      · rw [h2, e1]; ring
      · rw [h3]; ring
      · rfl
    rw [hR]
    clear hR e2 e1 e0 hrow
    have hm : memStep n k val q r x y z H a b = mem2 k val q r x y z H a b := by
      rw [memStep_eq, if_neg (show ¬ a < min n (k + 3) + 1 by omega)]
    unfold swk
    rw [hm]
    by_cases h1 : b + 1 < a
    · rw [if_pos (by omega), if_pos (by omega)]
    · simp only [h1, false_and, if_false]
      by_cases h2 : b + 1 = a ∧ n + 1 ≤ a ∧ ¬ e a < 0
      · rw [if_pos h2, if_pos h2]
      · rw [if_neg h2, if_neg h2]
        unfold mem2
        by_cases h3 : k ≤ b
        · rw [if_pos h3]
          by_cases h4 : a = k + 2
          · obtain ⟨rfl, rfl⟩ := hlast (by omega)
            unfold rfL
            rw [if_neg (by omega), if_neg (by omega), if_pos h4, h4]; ring
          · rw [rfL_out (Or.inr (by omega))]
        · rw [if_neg h3, if_neg (by omega)]

end Eigen
end LA
