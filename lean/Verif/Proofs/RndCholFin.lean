import Verif.Proofs.RndChol2
import Verif.Proofs.RndSolveFin
import Mathlib.Algebra.Order.Chebyshev

/-! # The triangular solves of Cholesky do not overflow -/

set_option linter.unusedSectionVars false

namespace LA
open Finset

/-- Substitution in any order: if every row is nearly satisfied once its unknown is finite, and an unknown is finite once its
predecessors are finite and small, then all are finite and small. -/
theorem tri_induct {n : Nat} {T V : Matrix (Fin n) (Fin n) ℝ} {x : Fin n → ℝ} {F : Fin n → Prop} (rank : Fin n → Nat) {W y g S : ℝ}
    (hT : ∀ r c, rank r < rank c → T r c = 0) (hV : V * T = 1) (hVt : ∀ c r, rank c < rank r → V c r = 0)
    (hW0 : 0 ≤ W) (hW : ∀ c, ∑ r, |V c r| ≤ W) (hy : 0 ≤ y) (hg : 0 ≤ g)
    (hrow : ∀ r, F r → |∑ c, T r c * x c| ≤ y + g * ∑ c, if rank c ≤ rank r then |x c| else 0)
    (hstep : ∀ r, (∀ c, rank c < rank r → F c) → ∑ c, (if rank c < rank r then |x c| else 0) ≤ S → F r)
    (hs : n * W * g ≤ 1 / 2) (hS : 2 * n * W * y ≤ S) : (∀ r, F r) ∧ ∑ c, |x c| ≤ S := by
  have part : ∀ k, (∀ c, rank c < k → F c) → ∑ c, (if rank c < k then |x c| else 0) ≤ S := by
    intro k hk
    set s := ∑ c, (if rank c < k then |x c| else 0) with hsd
    have hs0 : 0 ≤ s := sum_nonneg fun c _ => by split <;> positivity
    have row : ∀ r, rank r < k → |∑ c, T r c * (if rank c < k then x c else 0)| ≤ y + g * s := by
      intro r hr
      have e : ∑ c, T r c * (if rank c < k then x c else 0) = ∑ c, T r c * x c := by
        refine sum_congr rfl fun c _ => ?_
        by_cases hc : rank c < k
        · rw [if_pos hc]
        · rw [hT r c (by omega), zero_mul, zero_mul]
      rw [e]
      refine (hrow r (hk r hr)).trans (add_le_add le_rfl (mul_le_mul_of_nonneg_left (sum_le_sum fun c _ => ?_) hg))
      by_cases hc : rank c ≤ rank r
      · rw [if_pos hc, if_pos (by omega)]
      · rw [if_neg hc]; split <;> positivity
    have col : ∀ c, (if rank c < k then |x c| else 0) ≤ W * (y + g * s) := by
      intro c
      have hb : 0 ≤ y + g * s := by positivity
      by_cases hc : rank c < k
      · rw [if_pos hc]
        have e1 : x c = ∑ r, V c r * ∑ c', T r c' * (if rank c' < k then x c' else 0) := by
          have e2 : (V * T).mulVec (fun c => if rank c < k then x c else 0) = fun c => if rank c < k then x c else 0 := by
            rw [hV, Matrix.one_mulVec]
          have e3 := congrFun e2 c
          rw [← Matrix.mulVec_mulVec] at e3
          simp only [hc, if_true] at e3
          rw [← e3]; rfl
        rw [e1]
        refine (abs_sum_le_sum_abs _ _).trans ?_
        calc _ ≤ ∑ r, |V c r| * (y + g * s) := by
              refine sum_le_sum fun r _ => ?_
              rw [abs_mul]
              by_cases hr : rank c < rank r
              · rw [hVt c r hr, abs_zero, zero_mul, zero_mul]
              · exact mul_le_mul_of_nonneg_left (row r (by omega)) (abs_nonneg _)
          _ = (∑ r, |V c r|) * (y + g * s) := by rw [sum_mul]
          _ ≤ _ := mul_le_mul_of_nonneg_right (hW c) hb
      · rw [if_neg hc]; positivity
    have tot : s ≤ n * (W * (y + g * s)) := by
      calc s ≤ ∑ _c : Fin n, W * (y + g * s) := sum_le_sum fun c _ => col c
        _ = _ := by simp
    have e : n * (W * (y + g * s)) = n * W * y + (n * W * g) * s := by ring
    have := mul_le_mul_of_nonneg_right hs hs0
    linarith
  have all : ∀ k r, rank r < k → F r := by
    intro k
    induction k with
    | zero => intro r hr; omega
    | succ k ih =>
      intro r hr
      exact hstep r (fun c hc => ih c (by omega)) (part _ fun c hc => ih c (by omega))
  have hF : ∀ r, F r := fun r => all (rank r + 1) r (by omega)
  refine ⟨hF, ?_⟩
  obtain ⟨k, hk⟩ : ∃ k, ∀ c, rank c < k := ⟨(univ.sup rank) + 1, fun c => by
    have := le_sup (f := rank) (mem_univ c)
    omega⟩
  have := part k fun c _ => hF c
  simpa only [hk, if_true] using this

/-- The inverse of a triangular matrix whose quadratic form is bounded below. -/
theorem chol_inverse {n : Nat} {L : Matrix (Fin n) (Fin n) ℝ} (hL : ∀ i k : Fin n, i < k → L i k = 0) {μ : ℝ} (hμ : 0 < μ)
    (h : ∀ x : Fin n → ℝ, μ * ∑ i, x i ^ 2 ≤ ∑ t, (∑ i, L i t * x i) ^ 2) :
    ∃ V : Matrix (Fin n) (Fin n) ℝ, V * L = 1 ∧ V.transpose * L.transpose = 1 ∧ (∀ c r : Fin n, c < r → V c r = 0) ∧
      (∀ c, ∑ r, |V c r| ≤ √(n / μ)) ∧ ∀ r, ∑ c, |V c r| ≤ √(n / μ) := by
  have hunit' : IsUnit L.transpose := by
    refine Matrix.mulVec_injective_iff_isUnit.mp fun x y hxy => ?_
    have h0 : L.transpose.mulVec (x - y) = 0 := by rw [Matrix.mulVec_sub, hxy, sub_self]
    have h1 := h (x - y)
    have h2 : ∀ t, ∑ i, L i t * (x - y) i = 0 := fun t => congrFun h0 t
    simp only [h2] at h1
    have h3 : ∑ i, (x - y) i ^ 2 ≤ 0 := by
      by_contra hc
      have := mul_pos hμ (not_le.mp hc)
      simp only [ne_eq, OfNat.ofNat_ne_zero, not_false_eq_true, zero_pow, sum_const_zero] at h1
      linarith
    funext i
    have h4 := (sum_eq_zero_iff_of_nonneg fun i _ => sq_nonneg ((x - y) i)).mp (le_antisymm h3 (sum_nonneg fun _ _ => sq_nonneg _)) i (mem_univ i)
    exact sub_eq_zero.mp (pow_eq_zero_iff two_ne_zero |>.mp h4)
  have hunit : IsUnit L := (Matrix.isUnit_iff_isUnit_det _).2 (by
    have := (Matrix.isUnit_iff_isUnit_det _).1 hunit'
    rwa [Matrix.det_transpose] at this)
  have hdet := (Matrix.isUnit_iff_isUnit_det _).1 hunit
  have hVL := Matrix.nonsing_inv_mul _ hdet
  have hLV := Matrix.mul_nonsing_inv _ hdet
  set V := L⁻¹ with hVd
  -- `V'` contracts up to `μ`
  have key : ∀ z : Fin n → ℝ, ∑ c, (∑ r, V r c * z r) ^ 2 ≤ (∑ i, z i ^ 2) / μ := by
    intro z
    have h1 := h fun c => ∑ r, V r c * z r
    have h2 : ∀ t, ∑ i, L i t * ∑ r, V r i * z r = z t := by
      intro t
      have e : (L.transpose * V.transpose).mulVec z = z := by rw [← Matrix.transpose_mul, hVL, Matrix.transpose_one, Matrix.one_mulVec]
      rw [← Matrix.mulVec_mulVec] at e
      exact congrFun e t
    simp only [h2] at h1
    rw [le_div_iff₀ hμ]
    linarith
  have hsgn : ∀ w : ℝ, ((SignType.sign w : SignType) : ℝ) ^ 2 ≤ 1 := fun w => by
    rcases lt_trichotomy w 0 with h | h | h <;> simp [h]
  have hsum : ∀ f : Fin n → ℝ, ∑ i, ((SignType.sign (f i) : SignType) : ℝ) ^ 2 ≤ n := fun f => by
    calc _ ≤ ∑ _i : Fin n, (1 : ℝ) := sum_le_sum fun i _ => hsgn _
      _ = n := by simp
  refine ⟨V, hVL, by rw [← Matrix.transpose_mul, hLV, Matrix.transpose_one], ?_, fun c => ?_, fun r => ?_⟩
  · haveI := hunit.invertible
    have hb : L.BlockTriangular OrderDual.toDual := fun i j hij => hL i j hij
    intro c r hcr
    exact Matrix.blockTriangular_inv_of_blockTriangular hb hcr
  · -- the row of `V` is `V' * e_c`
    have h1 := key (fun r => if r = c then 1 else 0)
    have e1 : ∀ d, ∑ r, V r d * (if r = c then (1 : ℝ) else 0) = V c d := fun d => by simp
    simp only [e1] at h1
    have e2 : ∑ i : Fin n, (if i = c then (1 : ℝ) else 0) ^ 2 = 1 := by simp
    rw [e2] at h1
    refine Real.le_sqrt_of_sq_le ?_
    have := sq_sum_le_card_mul_sum_sq (s := univ) (f := fun r => |V c r|)
    simp only [sq_abs, card_univ, Fintype.card_fin] at this
    refine this.trans ?_
    have := mul_le_mul_of_nonneg_left h1 (Nat.cast_nonneg (α := ℝ) n)
    rwa [mul_one_div] at this
  · refine Real.le_sqrt_of_sq_le ?_
    have h1 := key (fun c => SignType.sign (V c r))
    have e1 : ∑ c, V c r * ((SignType.sign (V c r) : SignType) : ℝ) = ∑ c, |V c r| := sum_congr rfl fun c _ => by
      rw [mul_comm]; exact sign_mul_self _
    have h2 := single_le_sum (f := fun c' => (∑ r', V r' c' * ((SignType.sign (V r' r) : SignType) : ℝ)) ^ 2) (fun _ _ => sq_nonneg _) (mem_univ r)
    rw [e1] at h2
    exact h2.trans (h1.trans (div_le_div_of_nonneg_right (hsum _) hμ.le))

namespace Cholesky.Rnd
variable {α : Type} [Zero α] [One α] [Add α] [Sub α] [Neg α] [Mul α] [FloatOps α] [Fp α]
open Fp

/-- One step of a substitution does not overflow. -/
theorem step_fin {n k : Nat} (hk : k + 1 ≤ n) {x l : Nat → α} {b d z : α} {y m S W v : ℝ} (hm : 0 ≤ m)
    (h : RDiv.rdiv (facc (· - ·) b (fun t => x t * l t) k) d = .ok z) (hb : fin b ∧ |val b| ≤ y) (hd : fin d)
    (hx : ∀ t, t < k → fin (x t)) (hl : ∀ t, t < k → fin (l t) ∧ |val (l t)| ≤ m) (hs : ∑ t ∈ range k, |val (x t)| ≤ S)
    (hv : v * val d = 1) (hvW : |v| ≤ W)
    (h1 : (1 + u α) ^ n * (y + m * S + n * η α) ≤ Ω α) (h2 : (1 + u α) * (W * ((1 + u α) ^ n * (y + m * S + n * η α))) + η α ≤ Ω α) :
    fin z := by
  have hu := u_nonneg (α := α)
  have hη := η_nonneg (α := α)
  have e2 : ∑ t ∈ range k, |val (x t) * val (l t)| ≤ m * S := by
    calc _ ≤ ∑ t ∈ range k, m * |val (x t)| := by
          refine sum_le_sum fun t ht => ?_
          rw [mem_range] at ht
          rw [abs_mul, mul_comm]
          exact mul_le_mul_of_nonneg_right (hl t ht).2 (abs_nonneg _)
      _ = m * ∑ t ∈ range k, |val (x t)| := by rw [mul_sum]
      _ ≤ _ := mul_le_mul_of_nonneg_left hs hm
  have e5 : (1 + u α) ^ (k + 1) * (|val b| + (∑ t ∈ range k, |val (x t) * val (l t)|) + k * η α) ≤ (1 + u α) ^ n * (y + m * S + n * η α) := by
    have p0 : 0 ≤ ∑ t ∈ range k, |val (x t) * val (l t)| := sum_nonneg fun _ _ => abs_nonneg _
    have p1 := hb.2
    have p2 : (k : ℝ) * η α ≤ n * η α := mul_le_mul_of_nonneg_right (by exact_mod_cast (by omega)) hη
    exact mul_le_mul (pow_le_pow_right₀ (one_u (α := α)) hk) (by linarith) (by positivity) (by positivity)
  obtain ⟨f1, f2⟩ := fsub_fin x l b hb.1 k (fun t ht => ⟨hx t ht, (hl t ht).1⟩) (e5.trans h1)
  have d3 : val d ≠ 0 := fun h0 => by rw [h0, mul_zero] at hv; exact zero_ne_one hv
  refine Fp.div_fin _ _ _ h f1 hd d3 (le_trans ?_ h2)
  have d5 : ∀ w : ℝ, w / val d = v * w := fun w => by
    rw [div_eq_iff d3]; linear_combination -w * hv
  rw [d5, abs_mul]
  have := mul_le_mul hvW (f2.trans e5) (abs_nonneg _) ((abs_nonneg _).trans hvW)
  have := mul_le_mul_of_nonneg_left this (show 0 ≤ 1 + u α by linarith)
  linarith

variable {n p : Nat} {L X B : Nat → Nat → α} {V : Matrix (Fin n) (Fin n) ℝ} {W y m S : ℝ}

theorem diag_inv (hz : ∀ i k, i < n → i < k → L i k = 0) (hV : V * (Matrix.of fun i k : Fin n => val (L i k)) = 1)
    (hVt : ∀ c r : Fin n, c < r → V c r = 0) (c : Fin n) : V c c * val (L c c) = 1 := by
  have := congrFun (congrFun hV c) c
  rw [Matrix.mul_apply, Matrix.one_apply_eq, sum_eq_single c] at this
  · exact this
  · intro b _ hb
    rcases lt_or_gt_of_ne hb with hb | hb
    · rw [Matrix.of_apply, hz b c b.2 hb, Fp.zero.2, mul_zero]
    · rw [hVt c b hb, zero_mul]
  · intro hb; exact absurd (mem_univ c) hb

/-- Forward substitution does not overflow. -/
theorem forward_fin (hz : ∀ i k, i < n → i < k → L i k = 0) (j : Fin p)
    (h : ∀ i : Fin n, RDiv.rdiv (facc (· - ·) (B i j) (fun t => X t j * L i t) i) (L i i) = .ok (X i j))
    (hL : ∀ i k : Fin n, fin (L i k) ∧ |val (L i k)| ≤ m) (hm : 0 ≤ m) (hy : 0 ≤ y) (hB : ∀ i : Fin n, fin (B i j) ∧ |val (B i j)| ≤ y)
    (hV : V * (Matrix.of fun i k : Fin n => val (L i k)) = 1) (hVt : ∀ c r : Fin n, c < r → V c r = 0) (hW0 : 0 ≤ W)
    (hW : ∀ c, ∑ r, |V c r| ≤ W) (hs : n * W * (γ α n * m) ≤ 1 / 2) (hS : 2 * n * W * (y + (θ α n + (1 + u α) ^ n * η α * m)) ≤ S)
    (h1 : (1 + u α) ^ n * (y + m * S + n * η α) ≤ Ω α) (h2 : (1 + u α) * (W * ((1 + u α) ^ n * (y + m * S + n * η α))) + η α ≤ Ω α) :
    (∀ i : Fin n, fin (X i j)) ∧ ∑ c : Fin n, |val (X c j)| ≤ S := by
  have hu := u_nonneg (α := α)
  have hη := η_nonneg (α := α)
  have hγ := γ_nonneg (α := α) n
  have hθ := θ_nonneg (α := α) n
  have hz' : ∀ i k : Fin n, i < k → val (L i k) = 0 := fun i k hik => by rw [hz i k i.2 hik, Fp.zero.2]
  refine tri_induct (T := Matrix.of fun i k : Fin n => val (L i k)) (x := fun c => val (X c j)) (F := fun c => fin (X c j)) (fun c => c.1)
    (fun r c hrc => by rw [Matrix.of_apply]; exact hz' r c hrc) hV (fun c r hcr => hVt c r hcr) hW0 hW
    (y := y + (θ α n + (1 + u α) ^ n * η α * m)) (g := γ α n * m) (by positivity) (by positivity) (fun r hr => ?_) (fun r hr hsum => ?_) hs hS
  · obtain ⟨-, e1⟩ := forward_err_row hz j r (h r) hr (hL r r).1
    have e2 : ∑ t : Fin n, |val (L r t)| * |val (X t j)| ≤ m * ∑ c : Fin n, if c.1 ≤ r.1 then |val (X c j)| else 0 := by
      rw [mul_sum]
      refine sum_le_sum fun c _ => ?_
      by_cases hc : c.1 ≤ r.1
      · rw [if_pos hc]; exact mul_le_mul_of_nonneg_right (hL r c).2 (abs_nonneg _)
      · rw [if_neg hc, hz' r c (by rw [Fin.lt_def]; omega)]; simp
    have e3 := mul_le_mul_of_nonneg_left e2 hγ
    have e4 : (1 + u α) ^ n * η α * |val (L r r)| ≤ (1 + u α) ^ n * η α * m := mul_le_mul_of_nonneg_left (hL r r).2 (by positivity)
    have e5 := abs_sub_abs_le_abs_sub (∑ t : Fin n, val (L r t) * val (X t j)) (val (B r j))
    rw [abs_sub_comm] at e5
    have e6 := (hB r).2
    simp only [Matrix.of_apply]
    linarith
  · have hd := diag_inv hz hV hVt r
    refine step_fin (k := r.1) (x := fun t => X t j) (l := fun t => L r t) r.2 hm (h r) (hB r) (hL r r).1 (fun t ht => ?_) (fun t ht => ?_) ?_ hd
      ((single_le_sum (f := fun r' => |V r r'|) (fun _ _ => abs_nonneg _) (mem_univ r)).trans (hW r)) h1 h2
    · have := r.2; exact hr ⟨t, by omega⟩ ht
    · have := r.2; exact hL r ⟨t, by omega⟩
    · refine le_trans (le_of_eq ?_) hsum
      rw [sum_tri (fun t => if t < r.1 then |val (X t j)| else 0) r fun t ht => if_neg (by omega), if_neg (lt_irrefl _), add_zero]
      refine sum_congr rfl fun t ht => ?_
      rw [mem_range] at ht
      rw [if_pos ht]

/-- Back substitution does not overflow. -/
theorem backward_fin (hz : ∀ i k, i < n → i < k → L i k = 0) (j : Fin p)
    (h : ∀ i : Fin n, RDiv.rdiv (facc (· - ·) (B i j) (fun s => X (i + 1 + s) j * L (i + 1 + s) i) (n - (i + 1))) (L i i) = .ok (X i j))
    (hL : ∀ i k : Fin n, fin (L i k) ∧ |val (L i k)| ≤ m) (hm : 0 ≤ m) (hy : 0 ≤ y) (hB : ∀ i : Fin n, fin (B i j) ∧ |val (B i j)| ≤ y)
    (hV : V * (Matrix.of fun i k : Fin n => val (L i k)) = 1)
    (hV' : V.transpose * (Matrix.of fun i k : Fin n => val (L i k)).transpose = 1) (hVt : ∀ c r : Fin n, c < r → V c r = 0) (hW0 : 0 ≤ W)
    (hW : ∀ r, ∑ c, |V c r| ≤ W) (hs : n * W * (γ α n * m) ≤ 1 / 2) (hS : 2 * n * W * (y + (θ α n + (1 + u α) ^ n * η α * m)) ≤ S)
    (h1 : (1 + u α) ^ n * (y + m * S + n * η α) ≤ Ω α) (h2 : (1 + u α) * (W * ((1 + u α) ^ n * (y + m * S + n * η α))) + η α ≤ Ω α) :
    (∀ i : Fin n, fin (X i j)) ∧ ∑ c : Fin n, |val (X c j)| ≤ S := by
  have hu := u_nonneg (α := α)
  have hη := η_nonneg (α := α)
  have hγ := γ_nonneg (α := α) n
  have hθ := θ_nonneg (α := α) n
  have hz' : ∀ i k : Fin n, i < k → val (L i k) = 0 := fun i k hik => by rw [hz i k i.2 hik, Fp.zero.2]
  refine tri_induct (T := (Matrix.of fun i k : Fin n => val (L i k)).transpose) (V := V.transpose) (x := fun c => val (X c j))
    (F := fun c => fin (X c j)) (fun c => n - 1 - c.1)
    (fun r c hrc => by rw [Matrix.transpose_apply, Matrix.of_apply]; exact hz' c r (by rw [Fin.lt_def]; omega)) hV'
    (fun c r hcr => hVt r c (by rw [Fin.lt_def]; omega)) hW0 hW
    (y := y + (θ α n + (1 + u α) ^ n * η α * m)) (g := γ α n * m) (by positivity) (by positivity) (fun r hr => ?_) (fun r hr hsum => ?_) hs hS
  · obtain ⟨-, e1⟩ := backward_err_row hz j r (h r) hr (hL r r).1
    have e2 : ∑ t : Fin n, |val (L t r)| * |val (X t j)| ≤ m * ∑ c : Fin n, if n - 1 - c.1 ≤ n - 1 - r.1 then |val (X c j)| else 0 := by
      rw [mul_sum]
      refine sum_le_sum fun c _ => ?_
      by_cases hc : n - 1 - c.1 ≤ n - 1 - r.1
      · rw [if_pos hc]; exact mul_le_mul_of_nonneg_right (hL c r).2 (abs_nonneg _)
      · rw [if_neg hc, hz' c r (by rw [Fin.lt_def]; omega)]; simp
    have e3 := mul_le_mul_of_nonneg_left e2 hγ
    have e4 : (1 + u α) ^ n * η α * |val (L r r)| ≤ (1 + u α) ^ n * η α * m := mul_le_mul_of_nonneg_left (hL r r).2 (by positivity)
    have e5 := abs_sub_abs_le_abs_sub (∑ t : Fin n, val (L t r) * val (X t j)) (val (B r j))
    rw [abs_sub_comm] at e5
    have e6 := (hB r).2
    simp only [Matrix.of_apply, Matrix.transpose_apply]
    linarith
  · have hd := diag_inv hz hV hVt r
    have hr2 := r.2
    refine step_fin (k := n - (r.1 + 1)) (x := fun s => X (r + 1 + s) j) (l := fun s => L (r + 1 + s) r) (by omega) hm (h r) (hB r) (hL r r).1
      (fun t ht => ?_) (fun t ht => ?_) ?_ hd
      ((single_le_sum (f := fun r' => |V r' r|) (fun _ _ => abs_nonneg _) (mem_univ r)).trans (hW r)) h1 h2
    · exact hr ⟨r + 1 + t, by omega⟩ (by simp only; omega)
    · exact hL ⟨r + 1 + t, by omega⟩ r
    · refine le_trans (le_of_eq ?_) hsum
      rw [sum_col (fun t => if n - 1 - t < n - 1 - r.1 then |val (X t j)| else 0) r fun t ht => if_neg (by omega), if_neg (lt_irrefl _), add_zero]
      refine sum_congr rfl fun t ht => ?_
      rw [mem_range] at ht
      rw [if_pos (by omega)]

end Cholesky.Rnd
end LA
