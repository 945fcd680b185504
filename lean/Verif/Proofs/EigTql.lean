import Verif.Proofs.EigTred3

/-! # `tql2`: approximate orthogonal similarity and the algebra of the sweep -/

set_option linter.unusedSectionVars false

namespace LA
open Finset Matrix
namespace Eigen
open SVD (pk pk_rotc pk_rotr pk_congr)

/-- `V` is orthogonal, `V X V'` is `A` up to `E`, and `X` is not larger than `A`. -/
structure Ap (n : Nat) (A : Matrix (Fin n) (Fin n) ℝ) (V X : Nat → Nat → ℝ) (E : ℝ) : Prop where
  orth : Orth (pk n n V)
  err : frob (A - pk n n V * pk n n X * (pk n n V)ᵀ) ≤ E
  nrm : frob (pk n n X) ≤ frob A

theorem Ap.congr {n : Nat} {A : Matrix (Fin n) (Fin n) ℝ} {V X X' : Nat → Nat → ℝ} {E : ℝ} (h : Ap n A V X E)
    (hX : ∀ a b, a < n → b < n → X a b = X' a b) : Ap n A V X' E := by
  have := pk_congr hX
  exact ⟨h.orth, by rw [← this]; exact h.err, by rw [← this]; exact h.nrm⟩

theorem Ap.mono {n : Nat} {A : Matrix (Fin n) (Fin n) ℝ} {V X : Nat → Nat → ℝ} {E E' : ℝ} (h : Ap n A V X E) (hE : E ≤ E') :
    Ap n A V X E' := ⟨h.orth, h.err.trans hE, h.nrm⟩

theorem Ap.rot {n i j : Nat} {A : Matrix (Fin n) (Fin n) ℝ} {V X : Nat → Nat → ℝ} {E : ℝ} (h : Ap n A V X E) (hi : i < n)
    (hj : j < n) (hij : i ≠ j) {cs sn : ℝ} (hc : cs ^ 2 + sn ^ 2 = 1) :
    Ap n A (rotc V i j cs sn) (rotr (rotc X i j cs sn) i j cs sn) E := by
  have hg := giv_orth hi hj hij hc
  have e1 : pk n n (rotr (rotc X i j cs sn) i j cs sn) = (giv n i j cs sn)ᵀ * (pk n n X * giv n i j cs sn) := by
    rw [pk_rotr _ hi hj hij, pk_rotc _ hi hj hij]
  refine ⟨?_, ?_, ?_⟩
  · rw [pk_rotc V hi hj hij]; exact h.orth.mul hg
  · rw [e1, pk_rotc V hi hj hij, transpose_mul]
    have hgr := hg.right
    have := h.err
    generalize giv n i j cs sn = g at *
    have e2 : pk n n V * g * (gᵀ * (pk n n X * g)) * (gᵀ * (pk n n V)ᵀ) = pk n n V * pk n n X * (pk n n V)ᵀ := by
      calc _ = pk n n V * (g * gᵀ) * pk n n X * (g * gᵀ) * (pk n n V)ᵀ := by simp only [Matrix.mul_assoc]
        _ = _ := by rw [hgr, Matrix.mul_one, Matrix.mul_one]
    rw [e2]; exact this
  · rw [e1, frob_mul_left _ hg.transpose]
    have := frob_mul_right (pk n n X) hg.transpose
    rw [transpose_transpose] at this
    rw [this]; exact h.nrm

theorem sum_fin_le {n : Nat} (q : Nat) {x : ℝ} (hx : 0 ≤ x) : ∑ j : Fin n, (if j.1 = q then x else 0) ≤ x := by
  by_cases hq : q < n
  · have : ∀ j : Fin n, (if j.1 = q then x else 0) = if j = ⟨q, hq⟩ then x else 0 := by
      intro j; simp [Fin.ext_iff]
    rw [Finset.sum_congr rfl fun j _ => this j, Finset.sum_ite_eq']
    simp
  · rw [Finset.sum_eq_zero]
    · exact hx
    · intro j _
      rw [if_neg (by omega)]

/-- A change of two symmetric entries. -/
theorem frob_two {n : Nat} (M : Matrix (Fin n) (Fin n) ℝ) (p q : Nat) {δ : ℝ} (hδ : 0 ≤ δ)
    (hM : ∀ i j : Fin n, |M i j| ≤ if (i.1 = p ∧ j.1 = q) ∨ (i.1 = q ∧ j.1 = p) then δ else 0) :
    frob M ≤ Real.sqrt 2 * δ := by
  have h1 : frob M ^ 2 ≤ 2 * δ ^ 2 := by
    rw [frob_sq]
    have h2 : ∀ i j : Fin n, M i j ^ 2 ≤ (if i.1 = p then (if j.1 = q then δ ^ 2 else 0) else 0) +
        (if i.1 = q then (if j.1 = p then δ ^ 2 else 0) else 0) := by
      intro i j
      have h3 := hM i j
      have h4 : M i j ^ 2 ≤ (if (i.1 = p ∧ j.1 = q) ∨ (i.1 = q ∧ j.1 = p) then δ else 0) ^ 2 := by
        rw [← sq_abs]
        exact pow_le_pow_left₀ (abs_nonneg _) h3 2
      refine h4.trans ?_
      have := sq_nonneg δ
      clear hM h3 h4
      split_ifs <;> first | omega | nlinarith | (exfalso; omega)
    have h5 : ∀ p q : Nat, ∑ i : Fin n, ∑ j : Fin n, (if i.1 = p then (if j.1 = q then δ ^ 2 else 0) else 0) ≤ δ ^ 2 := by
      intro p q
      refine le_trans (Finset.sum_le_sum fun i _ => ?_) (sum_fin_le (n := n) p (sq_nonneg δ))
      by_cases h : i.1 = p
      · simp only [h, if_true]
        exact sum_fin_le q (sq_nonneg δ)
      · simp [h]
    calc ∑ i, ∑ j, M i j ^ 2 ≤ ∑ i : Fin n, ∑ j : Fin n, ((if i.1 = p then (if j.1 = q then δ ^ 2 else 0) else 0) +
          (if i.1 = q then (if j.1 = p then δ ^ 2 else 0) else 0)) :=
          Finset.sum_le_sum fun i _ => Finset.sum_le_sum fun j _ => h2 i j
      _ = (∑ i : Fin n, ∑ j : Fin n, (if i.1 = p then (if j.1 = q then δ ^ 2 else 0) else 0)) +
          ∑ i : Fin n, ∑ j : Fin n, (if i.1 = q then (if j.1 = p then δ ^ 2 else 0) else 0) := by
          simp only [Finset.sum_add_distrib]
      _ ≤ δ ^ 2 + δ ^ 2 := add_le_add (h5 p q) (h5 q p)
      _ = 2 * δ ^ 2 := by ring
  have h6 : (Real.sqrt 2 * δ) ^ 2 = 2 * δ ^ 2 := by rw [mul_pow, Real.sq_sqrt (by norm_num)]
  exact (abs_le_of_sq_le_sq' (by rw [h6]; exact h1) (by positivity)).2

theorem frob_le_of {n : Nat} {M M' : Matrix (Fin n) (Fin n) ℝ} (h : ∀ i j, M i j = M' i j ∨ M i j = 0) : frob M ≤ frob M' := by
  refine Real.sqrt_le_sqrt (Finset.sum_le_sum fun i _ => Finset.sum_le_sum fun j _ => ?_)
  rcases h i j with h | h
  · rw [h]
  · rw [h]; simpa using sq_nonneg (M' i j)

/-- The symmetric tridiagonal table with diagonal `δ`, off-diagonal entries `ε b` at `(b + 1, b)`, and `β` at
`(k + 1, k - 1)`. -/
def trb (k : Nat) (δ ε : Nat → ℝ) (β : ℝ) : Nat → Nat → ℝ := fun a b =>
  if a = b then δ a else if a = b + 1 then ε b else if b = a + 1 then ε a
  else if (a = k + 1 ∧ b + 1 = k) ∨ (b = k + 1 ∧ a + 1 = k) then β else 0

/-- The symmetric tridiagonal table with diagonal `δ` and off-diagonal entries `ε b` at `(b + 1, b)`. -/
def tri (δ ε : Nat → ℝ) : Nat → Nat → ℝ := fun a b =>
  if a = b then δ a else if a = b + 1 then ε b else if b = a + 1 then ε a else 0

/-- Setting the off-diagonal entry `m` to zero. -/
theorem Ap.deflate {n m : Nat} {A : Matrix (Fin n) (Fin n) ℝ} {V : Nat → Nat → ℝ} {δ ε : Nat → ℝ} {E t : ℝ}
    (h : Ap n A V (tri δ ε) E) (ht : |ε m| ≤ t) : Ap n A V (tri δ (updv ε m 0)) (E + Real.sqrt 2 * t) := by
  have ht0 : 0 ≤ t := (abs_nonneg _).trans ht
  refine ⟨h.orth, ?_, le_trans (frob_le_of fun i j => ?_) h.nrm⟩
  · have e1 : A - pk n n V * pk n n (tri δ (updv ε m 0)) * (pk n n V)ᵀ =
        (A - pk n n V * pk n n (tri δ ε) * (pk n n V)ᵀ) +
          pk n n V * (pk n n (tri δ ε) - pk n n (tri δ (updv ε m 0))) * (pk n n V)ᵀ := by
      rw [Matrix.mul_sub, Matrix.sub_mul]; abel
    rw [e1]
    refine (frob_add_le _ _).trans (add_le_add h.err ?_)
    rw [frob_mul_right _ h.orth, frob_mul_left _ h.orth]
    refine frob_two _ (m + 1) m ht0 fun i j => ?_
    rw [Matrix.sub_apply]
    show |tri δ ε i j - tri δ (updv ε m 0) i j| ≤ _
    obtain ⟨i, hi⟩ := i
    obtain ⟨j, hj⟩ := j
    simp only [tri, updv]
    by_cases h1 : i = j
    · rw [if_pos h1, if_pos h1, if_neg (by omega)]; simp
    · rw [if_neg h1, if_neg h1]
      by_cases h2 : i = j + 1
      · rw [if_pos h2, if_pos h2]
        by_cases h3 : j = m
        · rw [if_pos h3, if_pos (by omega), sub_zero, h3]; exact ht
        · rw [if_neg h3, if_neg (by omega)]; simp
      · rw [if_neg h2, if_neg h2]
        by_cases h4 : j = i + 1
        · rw [if_pos h4, if_pos h4]
          by_cases h3 : i = m
          · rw [if_pos h3, if_pos (by omega), sub_zero, h3]; exact ht
          · rw [if_neg h3, if_neg (by omega)]; simp
        · rw [if_neg h4, if_neg h4, if_neg (by omega)]; simp
  · show tri δ (updv ε m 0) i j = tri δ ε i j ∨ tri δ (updv ε m 0) i j = 0
    unfold tri updv
    grind

section
variable {k : Nat} {δ ε : Nat → ℝ} {β : ℝ} {a b : Nat}
theorem trb_dg : trb k δ ε β a a = δ a := if_pos rfl
theorem trb_sub (h : a = b + 1) : trb k δ ε β a b = ε b := by unfold trb; rw [if_neg (by omega), if_pos h]
theorem trb_sup (h : b = a + 1) : trb k δ ε β a b = ε a := by unfold trb; rw [if_neg (by omega), if_neg (by omega), if_pos h]
theorem trb_bul' (h : b = k + 1) (h' : a + 1 = k) : trb k δ ε β a b = β := by
  unfold trb; rw [if_neg (by omega), if_neg (by omega), if_neg (by omega), if_pos (by omega)]
theorem trb_far (h1 : a ≠ b) (h2 : a ≠ b + 1) (h3 : b ≠ a + 1) (h4 : ¬ ((a = k + 1 ∧ b + 1 = k) ∨ (b = k + 1 ∧ a + 1 = k))) :
    trb k δ ε β a b = 0 := by
  unfold trb; rw [if_neg h1, if_neg h2, if_neg h3, if_neg h4]
end

theorem trb_comm (k : Nat) (δ ε : Nat → ℝ) (β : ℝ) (a b : Nat) : trb k δ ε β a b = trb k δ ε β b a := by
  unfold trb; grind

theorem rot_comm {X : Nat → Nat → ℝ} (hX : ∀ a b, X a b = X b a) (i j : Nat) (c s : ℝ) (a b : Nat) :
    rotr (rotc X i j c s) i j c s a b = rotr (rotc X i j c s) i j c s b a := by
  simp only [rotr, rotc]
  have h1 := hX a b
  have h2 := hX i j
  have h3 := hX a i
  have h4 := hX a j
  have h5 := hX b i
  have h6 := hX b j
  clear hX
  grind

/-- One two-sided rotation of the sweep. -/
theorem trb_rot {i : Nat} {δ ε δ' ε' : Nat → ℝ} {β β' c s : ℝ}
    (g1 : ∀ a, a ≠ i → a ≠ i + 1 → δ' a = δ a)
    (g2 : ∀ a, a ≠ i → a ≠ i + 1 → a + 1 ≠ i → ε' a = ε a)
    (q1 : c * (c * δ i - s * ε i) - s * (c * ε i - s * δ (i + 1)) = δ' i)
    (q2 : s * (s * δ i + c * ε i) + c * (s * ε i + c * δ (i + 1)) = δ' (i + 1))
    (q3 : c * (s * δ i + c * ε i) - s * (s * ε i + c * δ (i + 1)) = ε' i)
    (q4 : s * β + c * ε (i + 1) = ε' (i + 1))
    (q5 : c * β - s * ε (i + 1) = 0)
    (q6 : 0 < i → c * ε (i - 1) = ε' (i - 1))
    (q7 : 0 < i → s * ε (i - 1) = β') (a b : Nat) :
    rotr (rotc (trb (i + 1) δ ε β) i (i + 1) c (-s)) i (i + 1) c (-s) a b = trb i δ' ε' β' a b := by
  have key : ∀ a b, a ≤ b → rotr (rotc (trb (i + 1) δ ε β) i (i + 1) c (-s)) i (i + 1) c (-s) a b = trb i δ' ε' β' a b := by
    intro a b hab
    have g1a := g1 a
    have g2a := g2 a
    clear g1 g2
    rcases Nat.lt_trichotomy a i with h | h | h
    · have r1 : ∀ F : Nat → Nat → ℝ, rotr F i (i + 1) c (-s) a b = F a b := fun F => by
        simp only [rotr]; rw [if_neg (by omega), if_neg (by omega)]
      rw [r1]
      simp only [rotc]
      by_cases h1 : b = i
      · rw [if_pos h1, h1]
        by_cases h2 : a + 1 = i
        · rw [trb_sup (by omega), trb_far (by omega) (by omega) (by omega) (by omega), trb_sup (by omega),
            show a = i - 1 by omega, ← q6 (by omega)]; ring
        · rw [trb_far (by omega) (by omega) (by omega) (by omega), trb_far (by omega) (by omega) (by omega) (by omega),
            trb_far (by omega) (by omega) (by omega) (by omega)]; ring
      · rw [if_neg h1]
        by_cases h3 : b = i + 1
        · rw [if_pos h3, h3]
          by_cases h2 : a + 1 = i
          · rw [trb_sup (by omega), trb_far (by omega) (by omega) (by omega) (by omega), trb_bul' (by omega) (by omega),
              show a = i - 1 by omega, ← q7 (by omega)]; ring
          · rw [trb_far (by omega) (by omega) (by omega) (by omega), trb_far (by omega) (by omega) (by omega) (by omega),
              trb_far (by omega) (by omega) (by omega) (by omega)]; ring
        · rw [if_neg h3]
          by_cases h4 : a = b
          · subst h4
            rw [trb_dg, trb_dg, g1a (by omega) (by omega)]
          · by_cases h5 : b = a + 1
            · rw [trb_sup h5, trb_sup h5, g2a (by omega) (by omega) (by omega)]
            · rw [trb_far (by omega) (by omega) (by omega) (by omega), trb_far (by omega) (by omega) (by omega) (by omega)]
    · subst h
      have r1 : ∀ F : Nat → Nat → ℝ, rotr F a (a + 1) c (-s) a b = c * F a b + -s * F (a + 1) b := fun F => by
        simp only [rotr]; rw [if_pos trivial]
      rw [r1]
      simp only [rotc]
      by_cases h1 : b = a
      · subst h1
        rw [if_pos rfl, if_pos rfl, trb_dg, trb_sup rfl, trb_sub rfl, trb_dg, trb_dg, ← q1]; ring
      · rw [if_neg h1, if_neg h1]
        by_cases h2 : b = a + 1
        · subst h2
          rw [if_pos rfl, if_pos rfl, trb_dg, trb_sup rfl, trb_sub rfl, trb_dg, trb_sup rfl, ← q3]; ring
        · rw [if_neg h2, if_neg h2]
          by_cases h3 : b = a + 2
          · rw [trb_bul' (by omega) (by omega), trb_sup (by omega), trb_far (by omega) (by omega) (by omega) (by omega)]
            linarith
          · rw [trb_far (by omega) (by omega) (by omega) (by omega), trb_far (by omega) (by omega) (by omega) (by omega),
              trb_far (by omega) (by omega) (by omega) (by omega)]; ring
    · by_cases h' : a = i + 1
      · have r1 : ∀ F : Nat → Nat → ℝ, rotr F i (i + 1) c (-s) a b = s * F i b + c * F (i + 1) b := fun F => by
          simp only [rotr]; rw [if_neg (by omega), if_pos h', neg_neg]
        rw [r1]
        simp only [rotc]
        rw [if_neg (show ¬ b = i by omega), if_neg (show ¬ b = i by omega)]
        by_cases h2 : b = i + 1
        · rw [if_pos h2, if_pos h2, trb_dg, trb_sup rfl, trb_sub rfl, trb_dg, h2, h', trb_dg, ← q2]; ring
        · rw [if_neg h2, if_neg h2]
          by_cases h3 : b = i + 2
          · rw [trb_bul' (by omega) (by omega), trb_sup (by omega), trb_sup (by omega), h', ← q4]
          · rw [trb_far (by omega) (by omega) (by omega) (by omega), trb_far (by omega) (by omega) (by omega) (by omega),
              trb_far (by omega) (by omega) (by omega) (by omega)]; ring
      · have r1 : ∀ F : Nat → Nat → ℝ, rotr F i (i + 1) c (-s) a b = F a b := fun F => by
          simp only [rotr]; rw [if_neg (by omega), if_neg (by omega)]
        rw [r1]
        simp only [rotc]
        rw [if_neg (show ¬ b = i by omega), if_neg (show ¬ b = i + 1 by omega)]
        by_cases h4 : a = b
        · subst h4
          rw [trb_dg, trb_dg, g1a (by omega) (by omega)]
        · by_cases h5 : b = a + 1
          · rw [trb_sup h5, trb_sup h5, g2a (by omega) (by omega) (by omega)]
          · rw [trb_far (by omega) (by omega) (by omega) (by omega), trb_far (by omega) (by omega) (by omega) (by omega)]
  rcases Nat.le_total a b with h | h
  · exact key a b h
  · rw [trb_comm, ← key b a h]
    exact rot_comm (fun a b => trb_comm _ _ _ _ a b) _ _ _ _ _ _

end Eigen
end LA
