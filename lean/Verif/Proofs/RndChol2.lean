import Verif.Proofs.RndChol

/-! # Backward error of the Cholesky decomposition -/

set_option linter.unusedSectionVars false

namespace LA
open Finset
namespace Cholesky.Rnd
variable {α : Type} [Zero α] [One α] [Add α] [Sub α] [Neg α] [Mul α] [FloatOps α] [Fp α]
open Fp

/-- A rounded square root squared. -/
theorem sqrt_err {w z : α} (h : FloatOps.sqrt w = .ok z) (hz : fin z) :
    fin w ∧ 0 ≤ val w ∧ 0 ≤ val z ∧ |val w - val z * val z| ≤ γ α 2 * (val z * val z) ∧ val w ≤ (1 + u α) ^ 2 * (val z * val z) := by
  obtain ⟨h1, h2, h3, -, h4⟩ := Fp.sqrt w z h hz
  have hs := Real.sqrt_nonneg (val w)
  have hw : Real.sqrt (val w) * Real.sqrt (val w) = val w := Real.mul_self_sqrt h2
  have hu := u_nonneg (α := α)
  generalize Real.sqrt (val w) = s at *
  rw [← hw]
  generalize val z = z at *
  have h5 := abs_le.mp h4
  have h6 : s ≤ (1 + u α) * z := by linarith [h5.1]
  have e : s * s - z * z = -((z - s) * (z + s)) := by ring
  have h7 : |s * s - z * z| ≤ γ α 2 * (z * z) := by
    rw [e, abs_neg, abs_mul, abs_of_nonneg (show 0 ≤ z + s by linarith)]
    calc |z - s| * (z + s) ≤ (u α * z) * (z + (1 + u α) * z) :=
          mul_le_mul h4 (by linarith) (by linarith) (by positivity)
      _ = _ := by unfold γ; ring
  refine ⟨h1, by rw [hw] at *; linarith, h3, h7, ?_⟩
  calc s * s ≤ ((1 + u α) * z) * ((1 + u α) * z) := mul_le_mul h6 h6 hs (by positivity)
    _ = _ := by ring

theorem W_sqrt_err {a g : α} {x : Nat → α} {k : Nat} (h : FloatOps.sqrt (a - fdot x x k) = .ok g) (hg : fin g) :
    |val a - ((∑ i ∈ range k, val (x i) * val (x i)) + val g * val g)| ≤
      γ α (k + 3) * ((∑ i ∈ range k, |val (x i) * val (x i)|) + |val g * val g|) + θ α k := by
  obtain ⟨h1, h2, h2', h3, h3'⟩ := sqrt_err h hg
  obtain ⟨-, -, h4⟩ := LU.Rnd.W_err h1
  have hV : 0 ≤ ∑ i ∈ range k, |val (x i) * val (x i)| := sum_nonneg fun _ _ => abs_nonneg _
  have he : 0 ≤ val g * val g := by positivity
  rw [abs_of_nonneg h2] at h4
  generalize val (a - fdot x x k) = w at *
  generalize (∑ i ∈ range k, val (x i) * val (x i)) = S at *
  generalize (∑ i ∈ range k, |val (x i) * val (x i)|) = V at *
  rw [abs_of_nonneg he]
  generalize val g * val g = e at *
  have hu := u_nonneg (α := α)
  have a2 : |val a - (S + e)| ≤ |val a - S - w| + |w - e| := by
    calc |val a - (S + e)| = |(val a - S - w) + (w - e)| := by ring_nf
      _ ≤ _ := abs_add_le _ _
  have a3 : u α * w ≤ u α * ((1 + u α) ^ 2 * e) := mul_le_mul_of_nonneg_left h3' hu
  have a4 : u α * ((1 + u α) ^ 2 * e) + γ α 2 * e = γ α 3 * e := by unfold γ; ring
  have a5 : γ α 3 * e ≤ γ α (k + 3) * e := mul_le_mul_of_nonneg_right (γ_mono (by omega)) he
  have a6 : γ α (k + 1) * V ≤ γ α (k + 3) * V := mul_le_mul_of_nonneg_right (γ_mono (by omega)) hV
  rw [mul_add]
  linarith

/-- A sum over a row of a lower triangular matrix. -/
theorem sum_tri {n : Nat} (f : Nat → ℝ) (k : Fin n) (h : ∀ t, k.1 < t → f t = 0) :
    ∑ t : Fin n, f t = (∑ t ∈ range k, f t) + f k := by
  have hk := k.2
  rw [← Finset.sum_range f, ← Finset.sum_range_succ]
  symm
  refine Finset.sum_subset (range_mono (by omega)) fun t _ ht => ?_
  rw [mem_range] at ht
  exact h t (by omega)

/-- A sum over a column of a lower triangular matrix. -/
theorem sum_col {n : Nat} (f : Nat → ℝ) (k : Fin n) (h : ∀ t, t < k.1 → f t = 0) :
    ∑ t : Fin n, f t = (∑ s ∈ range (n - (k + 1)), f (k + 1 + s)) + f k := by
  have hk := k.2
  rw [← Finset.sum_range f, Finset.range_eq_Ico, ← Finset.sum_Ico_consecutive _ (Nat.zero_le k.1) k.2.le,
    Finset.sum_eq_sum_Ico_succ_bot k.2, Finset.sum_eq_zero (s := Ico 0 k.1), zero_add, add_comm, sum_Ico_eq_sum_range]
  intro t ht
  rw [mem_Ico] at ht
  exact h t ht.2

/-- Lower half. -/
theorem lower_err {n : Nat} {A L : Nat → Nat → α} (h : Part n A L n) (hL : ∀ i k, i < n → k < n → fin (L i k)) (i k : Fin n) (hk : k ≤ i) :
    |val (A i k) - ∑ t : Fin n, val (L i t) * val (L k t)| ≤
      γ α (n + 2) * (∑ t : Fin n, |val (L i t)| * |val (L k t)|) + θ α n + (1 + u α) * η α * |val (L k k)| := by
  have hi := i.2
  have hki : k.1 ≤ i.1 := hk
  have hz : ∀ t, k.1 < t → val (L k t) = 0 := fun t ht => by rw [h.zero k t k.2 ht, Fp.zero.2]
  rw [sum_tri (fun t => val (L i t) * val (L k t)) k fun t ht => by rw [hz t ht, mul_zero],
    sum_tri (fun t => |val (L i t)| * |val (L k t)|) k fun t ht => by rw [hz t ht, abs_zero, mul_zero]]
  have hη := η_nonneg (α := α)
  have hu := u_nonneg (α := α)
  have hθ := θ_mono (α := α) k.2.le
  have hpos : 0 ≤ (∑ t ∈ range k, |val (L i t)| * |val (L k t)|) + |val (L i k)| * |val (L k k)| := by
    have : 0 ≤ ∑ t ∈ range k, |val (L i t)| * |val (L k t)| := sum_nonneg fun _ _ => by positivity
    positivity
  have hlast : 0 ≤ (1 + u α) * η α * |val (L k k)| := by positivity
  rcases Nat.lt_or_ge k.1 i.1 with h1 | h1
  · have := LU.Rnd.W_div_err (h.lo i k i.2 h1) (hL i k i.2 k.2) (hL k k k.2 k.2)
    have a1 := mul_le_mul_of_nonneg_right (γ_mono (α := α) (show k.1 + 2 ≤ n + 2 by omega)) hpos
    rw [show ∑ t ∈ range k, val (L k t) * val (L i t) = ∑ t ∈ range k, val (L i t) * val (L k t) from
      sum_congr rfl fun t _ => mul_comm _ _, show ∑ t ∈ range k, |val (L k t) * val (L i t)| =
      ∑ t ∈ range k, |val (L i t)| * |val (L k t)| from sum_congr rfl fun t _ => by rw [abs_mul, mul_comm], abs_mul] at this
    linarith
  · have e : k = i := Fin.ext (by omega)
    subst e
    have := W_sqrt_err (h.dg k k.2).1 (hL k k k.2 k.2)
    have a1 := mul_le_mul_of_nonneg_right (γ_mono (α := α) (show k.1 + 3 ≤ n + 2 by omega)) hpos
    rw [show ∑ t ∈ range k, |val (L k t) * val (L k t)| =
      ∑ t ∈ range k, |val (L k t)| * |val (L k t)| from sum_congr rfl fun t _ => by rw [abs_mul], abs_mul] at this
    linarith

/-- Both halves. -/
theorem both_err {n : Nat} {A L : Nat → Nat → α} (h : Part n A L n) (hA : ∀ i k, i < n → k < n → fin (A i k))
    (hL : ∀ i k, i < n → k < n → fin (L i k)) (i k : Fin n) :
    |val (A i k) - ∑ t : Fin n, val (L i t) * val (L k t)| ≤
      γ α (n + 2) * (∑ t : Fin n, |val (L i t)| * |val (L k t)|) + θ α n + (1 + u α) * η α * |val (L (min i k).1 (min i k).1)| := by
  rcases le_total k i with hk | hk
  · rw [min_eq_right hk]
    exact lower_err h hL i k hk
  · rw [min_eq_left hk]
    have := lower_err h hL k i hk
    have e : val (A i k) = val (A k i) := by
      rcases eq_or_lt_of_le (show i.1 ≤ k.1 from hk) with he | he
      · rw [he]
      · exact (Fp.eq _ _ (hA i k i.2 k.2) (hA k i k.2 i.2)).mp (h.symm k i k.2 he)
    rw [e]
    simpa only [mul_comm] using this

theorem forward_err_row {n p : Nat} {L X B : Nat → Nat → α} (hz : ∀ i k, i < n → i < k → L i k = 0) (j : Fin p) (i : Fin n)
    (h : RDiv.rdiv (facc (· - ·) (B i j) (fun t => X t j * L i t) i) (L i i) = .ok (X i j))
    (hX : fin (X i j)) (hL : fin (L i i)) :
    fin (B i j) ∧ |val (B i j) - ∑ t : Fin n, val (L i t) * val (X t j)| ≤
      γ α n * (∑ t : Fin n, |val (L i t)| * |val (X t j)|) + (θ α n + (1 + u α) ^ n * η α * |val (L i i)|) := by
  obtain ⟨h0, -, h1⟩ := fsub_div_err (x := fun t => X t j) (y := fun t => L i t) h hX hL
  refine ⟨h0, ?_⟩
  have hi := i.2
  have hz' : ∀ t, i.1 < t → val (L i t) = 0 := fun t ht => by rw [hz i t i.2 ht, Fp.zero.2]
  rw [sum_tri (fun t => val (L i t) * val (X t j)) i fun t ht => by rw [hz' t ht, zero_mul],
    sum_tri (fun t => |val (L i t)| * |val (X t j)|) i fun t ht => by rw [hz' t ht, abs_zero, zero_mul]]
  have hpos : 0 ≤ (∑ t ∈ range i, |val (L i t)| * |val (X t j)|) + |val (L i i)| * |val (X i j)| := by
    have : 0 ≤ ∑ t ∈ range i, |val (L i t)| * |val (X t j)| := sum_nonneg fun _ _ => by positivity
    positivity
  have a1 := mul_le_mul_of_nonneg_right (γ_mono (α := α) (show i.1 + 1 ≤ n by omega)) hpos
  have a2 := θ_mono (α := α) (show i.1 ≤ n by omega)
  have a3 : (1 + u α) ^ i.1 * η α * |val (L i i)| ≤ (1 + u α) ^ n * η α * |val (L i i)| := by
    have := η_nonneg (α := α)
    have := pow_le_pow_right₀ (one_u (α := α)) (show i.1 ≤ n by omega)
    gcongr
  rw [show ∑ t ∈ range i, val (X t j) * val (L i t) = ∑ t ∈ range i, val (L i t) * val (X t j) from
      sum_congr rfl fun t _ => mul_comm _ _, show ∑ t ∈ range i, |val (X t j) * val (L i t)| =
      ∑ t ∈ range i, |val (L i t)| * |val (X t j)| from sum_congr rfl fun t _ => by rw [abs_mul, mul_comm], abs_mul,
      mul_comm (val (X i j)), mul_comm |val (X i j)|] at h1
  linarith

theorem forward_err {n p : Nat} {L X B : Nat → Nat → α} (hz : ∀ i k, i < n → i < k → L i k = 0) (j : Fin p)
    (h : ∀ i : Fin n, RDiv.rdiv (facc (· - ·) (B i j) (fun t => X t j * L i t) i) (L i i) = .ok (X i j))
    (hX : ∀ i : Fin n, fin (X i j)) (hL : ∀ i : Fin n, fin (L i i)) (i : Fin n) :
    fin (B i j) ∧ |val (B i j) - ∑ t : Fin n, val (L i t) * val (X t j)| ≤
      γ α n * (∑ t : Fin n, |val (L i t)| * |val (X t j)|) + (θ α n + (1 + u α) ^ n * η α * |val (L i i)|) :=
  forward_err_row hz j i (h i) (hX i) (hL i)

theorem backward_err_row {n p : Nat} {L X Y : Nat → Nat → α} (hz : ∀ i k, i < n → i < k → L i k = 0) (j : Fin p) (i : Fin n)
    (h : RDiv.rdiv (facc (· - ·) (Y i j) (fun s => X (i + 1 + s) j * L (i + 1 + s) i) (n - (i + 1))) (L i i) = .ok (X i j))
    (hX : fin (X i j)) (hL : fin (L i i)) :
    fin (Y i j) ∧ |val (Y i j) - ∑ t : Fin n, val (L t i) * val (X t j)| ≤
      γ α n * (∑ t : Fin n, |val (L t i)| * |val (X t j)|) + (θ α n + (1 + u α) ^ n * η α * |val (L i i)|) := by
  obtain ⟨h0, -, h1⟩ := fsub_div_err (x := fun s => X (i + 1 + s) j) (y := fun s => L (i + 1 + s) i) h hX hL
  refine ⟨h0, ?_⟩
  have hi := i.2
  have hz' : ∀ t, t < i.1 → val (L t i) = 0 := fun t ht => by rw [hz t i (by omega) ht, Fp.zero.2]
  rw [sum_col (fun t => val (L t i) * val (X t j)) i fun t ht => by rw [hz' t ht, zero_mul],
    sum_col (fun t => |val (L t i)| * |val (X t j)|) i fun t ht => by rw [hz' t ht, abs_zero, zero_mul]]
  have hpos : 0 ≤ (∑ s ∈ range (n - (i + 1)), |val (L (i + 1 + s) i)| * |val (X (i + 1 + s) j)|) + |val (L i i)| * |val (X i j)| := by
    have : 0 ≤ ∑ s ∈ range (n - (i + 1)), |val (L (i + 1 + s) i)| * |val (X (i + 1 + s) j)| := sum_nonneg fun _ _ => by positivity
    positivity
  have a1 := mul_le_mul_of_nonneg_right (γ_mono (α := α) (show n - (i.1 + 1) + 1 ≤ n by omega)) hpos
  have a2 := θ_mono (α := α) (show n - (i.1 + 1) ≤ n by omega)
  have a3 : (1 + u α) ^ (n - (i.1 + 1)) * η α * |val (L i i)| ≤ (1 + u α) ^ n * η α * |val (L i i)| := by
    have := η_nonneg (α := α)
    have := pow_le_pow_right₀ (one_u (α := α)) (show n - (i.1 + 1) ≤ n by omega)
    gcongr
  simp only [abs_mul] at h1
  simp only [mul_comm (val (L _ _)), mul_comm |val (L _ _)|] at a1 ⊢
  linarith

theorem backward_err {n p : Nat} {L X Y : Nat → Nat → α} (hz : ∀ i k, i < n → i < k → L i k = 0) (j : Fin p)
    (h : ∀ i : Fin n, RDiv.rdiv (facc (· - ·) (Y i j) (fun s => X (i + 1 + s) j * L (i + 1 + s) i) (n - (i + 1))) (L i i) = .ok (X i j))
    (hX : ∀ i : Fin n, fin (X i j)) (hL : ∀ i : Fin n, fin (L i i)) (i : Fin n) :
    fin (Y i j) ∧ |val (Y i j) - ∑ t : Fin n, val (L t i) * val (X t j)| ≤
      γ α n * (∑ t : Fin n, |val (L t i)| * |val (X t j)|) + (θ α n + (1 + u α) ^ n * η α * |val (L i i)|) :=
  backward_err_row hz j i (h i) (hX i) (hL i)

theorem diag_pos {n : Nat} {A L : Nat → Nat → α} (h : Part n A L n) (hL : ∀ i k, i < n → k < n → fin (L i k)) (i : Fin n) :
    0 < val (L i i) := by
  obtain ⟨h1, h2⟩ := h.dg i i.2
  obtain ⟨h3, h4, h5, h6, -⟩ := Fp.sqrt _ _ h1 (hL i i i.2 i.2)
  have h7 : 0 < val (A i i - fdot (fun t => L i t) (fun t => L i t) i) := by
    by_contra hc
    have := (Fp.le _ _ h3 Fp.zero.1).mpr (by rw [Fp.zero.2]; linarith)
    rw [this] at h2; cases h2
  have h8 := Real.sqrt_pos.mpr h7
  have h9 := (abs_le.mp h6).1
  have := mul_lt_mul_of_pos_right (u_lt_one (α := α)) h8
  linarith

/-- `solve` with a computed factor, operation by operation. -/
theorem solve_ok {n p : Nat} (hn : 0 < n) (hp : 0 < p) (L : Nat → Nat → α) (B : Matrix (Fin n) (Fin p) α) :
    ∃ X Y : Nat → Nat → α,
      Cholesky.solve ⟨ofM (Matrix.of fun (i : Fin n) (j : Fin n) => L i j)⟩ (ofM B) = .ok (ofM (Matrix.of fun (i : Fin n) (j : Fin p) => X i j)) ∧
      (∀ i j, i < n → j < p → RDiv.rdiv (facc (· - ·) (ext B i j) (fun t => Y t j * L i t) i) (L i i) = .ok (Y i j)) ∧
      ∀ i j, i < n → j < p →
        RDiv.rdiv (facc (· - ·) (Y i j) (fun s => X (i + 1 + s) j * L (i + 1 + s) i) (n - (i + 1))) (L i i) = .ok (X i j) := by
  have hl : Grid (ofM (Matrix.of fun (i : Fin n) (j : Fin n) => L i j)).data n n L :=
    (grid_ofM _).congr fun i j hi hj => by rw [ext_eq _ hi hj]; rfl
  obtain ⟨y, hy, Y, gY, h1⟩ := forward_post hl (grid_ofM B)
  obtain ⟨x, hx, X, gX, h2⟩ := backward_post hl gY
  refine ⟨X, Y, ?_, h1, h2⟩
  unfold Cholesky.solve
  simp only [ofM_rows, ofM_cols B hn, ok_bind, beq_self_eq_true, assert_true, hy, hx]
  have e : x = (ofM (Matrix.of fun (i : Fin n) (j : Fin p) => X i j)).data := gX.ofM _ fun _ _ => rfl
  rw [e]
  exact Props.C01_new_ofM hn hp _

end Cholesky.Rnd
end LA
