import Verif.Proofs.RndLU

/-! # Backward error of the LU decomposition -/

set_option linter.unusedSectionVars false

namespace LA
open Finset
namespace LU
namespace Rnd
variable {α : Type} [Zero α] [One α] [Add α] [Sub α] [Neg α] [Mul α] [FloatOps α] [Fp α]
open Fp

theorem quot_err {w p g : α} (h : RDiv.rdiv w p = .ok g) (hg : fin g) (hp : fin p) :
    fin w ∧ val p ≠ 0 ∧ |val w - val g * val p| ≤ u α * |val g * val p| + η α * |val p| ∧
    |val g| ≤ (1 + u α) * |val w / val p| + η α := by
  obtain ⟨h1, h2⟩ := Fp.div w p g h hg
  obtain ⟨h3, h4, h5⟩ := h2 hp
  refine ⟨h1, h3, ?_, ?_⟩
  · have hp0 : 0 < |val p| := abs_pos.mpr h3
    have e : val w - val g * val p = -((val g - val w / val p) * val p) := by field_simp; ring
    rw [e, abs_neg, abs_mul]
    calc |val g - val w / val p| * |val p| ≤ (u α * |val g| + η α) * |val p| := by gcongr
      _ = _ := by rw [abs_mul]; ring
  · calc |val g| = |val w / val p + (val g - val w / val p)| := by ring_nf
      _ ≤ |val w / val p| + |val g - val w / val p| := abs_add_le _ _
      _ ≤ _ := by linarith

/-- Difference of an element and a computed sum of products. -/
theorem W_err {a : α} {x y : Nat → α} {k : Nat} (h : fin (a - fdot x y k)) :
    fin a ∧ (∀ i, i < k → fin (x i) ∧ fin (y i)) ∧
    |val a - (∑ i ∈ range k, val (x i) * val (y i)) - val (a - fdot x y k)| ≤
      u α * |val (a - fdot x y k)| + γ α (k + 1) * (∑ i ∈ range k, |val (x i) * val (y i)|) + θ α k := by
  obtain ⟨h1, h2, -, h3⟩ := Fp.sub _ _ h
  obtain ⟨h4, h5⟩ := fdot_err x y k h2
  refine ⟨h1, h4, ?_⟩
  generalize val (a - fdot x y k) = w at *
  generalize val (fdot x y k) = s at *
  generalize (∑ i ∈ range k, val (x i) * val (y i)) = S at *
  calc |val a - S - w| = |-(w - (val a - s)) + (s - S)| := by ring_nf
    _ ≤ |w - (val a - s)| + |s - S| := by rw [← abs_neg (w - (val a - s))]; exact abs_add_le _ _
    _ ≤ _ := by linarith

/-- The entry computed by a division. -/
theorem W_div_err {a p g : α} {x y : Nat → α} {k : Nat} (h : RDiv.rdiv (a - fdot x y k) p = .ok g) (hg : fin g) (hp : fin p) :
    |val a - ((∑ i ∈ range k, val (x i) * val (y i)) + val g * val p)| ≤
      γ α (k + 2) * ((∑ i ∈ range k, |val (x i) * val (y i)|) + |val g * val p|) + θ α k + (1 + u α) * η α * |val p| := by
  obtain ⟨h1, h2, h3, -⟩ := quot_err h hg hp
  obtain ⟨-, -, h4⟩ := W_err h1
  have hV : 0 ≤ ∑ i ∈ range k, |val (x i) * val (y i)| := sum_nonneg fun _ _ => abs_nonneg _
  generalize val (a - fdot x y k) = w at *
  generalize (∑ i ∈ range k, val (x i) * val (y i)) = S at *
  generalize (∑ i ∈ range k, |val (x i) * val (y i)|) = V at *
  generalize val g * val p = e at *
  have hu := u_nonneg (α := α)
  have hη := η_nonneg (α := α)
  have a1 : |w| ≤ |e| + (u α * |e| + η α * |val p|) := by
    calc |w| = |e + (w - e)| := by ring_nf
      _ ≤ |e| + |w - e| := abs_add_le _ _
      _ ≤ _ := by linarith
  have a2 : |val a - (S + e)| ≤ |val a - S - w| + |w - e| := by
    calc |val a - (S + e)| = |(val a - S - w) + (w - e)| := by ring_nf
      _ ≤ _ := abs_add_le _ _
  have a3 : u α * |w| ≤ u α * (|e| + (u α * |e| + η α * |val p|)) := mul_le_mul_of_nonneg_left a1 hu
  have a4 : γ α (k + 1) * V ≤ γ α (k + 2) * V := mul_le_mul_of_nonneg_right (γ_mono (by omega)) hV
  have a5 : (u α + u α * (1 + u α)) * |e| ≤ γ α (k + 2) * |e| :=
    mul_le_mul_of_nonneg_right (γ_two (α := α) ▸ γ_mono (by omega)) (abs_nonneg _)
  have a6 : u α * (|e| + (u α * |e| + η α * |val p|)) + (u α * |e| + η α * |val p|) =
    (u α + u α * (1 + u α)) * |e| + (1 + u α) * η α * |val p| := by ring
  rw [mul_add]
  linarith

/-- Entry by entry error of the packed factors. -/
theorem entry_err {m n : Nat} {A G : Nat → Nat → α} {σ : Equiv.Perm (Fin m)} (h : ∀ c, c < n → Col m A G σ c)
    (hf : ∀ i c, i < m → c < n → fin (G i c)) (i : Fin m) (c : Nat) (hc : c < n) :
    |val (A (σ i) c) - prod (fun i c => val (G i c)) i c| ≤
      γ α (min m n + 1) * prod (fun i c => |val (G i c)|) i c + θ α (min m n) +
        if c < i.1 then (1 + u α) * η α * |val (G c c)| else 0 := by
  have hcol := h c hc
  have hu := u_nonneg (α := α)
  rcases Nat.lt_or_ge c i.1 with hi | hi
  · have hq := hcol.lo i hi
    have hm : min i.1 c = c := by omega
    have him := i.2
    unfold prod
    rw [if_pos hi, hm, if_neg (by omega), if_neg (by omega)]
    beta_reduce
    have hpos : 0 ≤ ∑ k ∈ range c, |val (G i k)| * |val (G k c)| := sum_nonneg fun _ _ => by positivity
    have hη := η_nonneg (α := α)
    have hge : min m n ≥ c + 1 := by omega
    by_cases h0 : FloatOps.eq (G c c) 0 = true
    · unfold Quot at hq
      rw [if_pos h0] at hq
      have hz : val (G c c) = 0 := by
        have := (Fp.eq _ _ (hf c c (by omega) hc) Fp.zero.1).mp h0
        rw [this, Fp.zero.2]
      have hWf : ∀ i' : Fin m, c ≤ i'.1 → fin (W (A (σ i') c) G i' c) := by
        intro i' hi'
        rcases hi'.eq_or_lt with e | e
        · rw [← hcol.up i' (by omega)]; exact hf _ _ i'.2 hc
        · have := hcol.lo i' e
          unfold Quot at this
          rw [if_pos h0] at this
          rw [← this]; exact hf _ _ i'.2 hc
      have hw := hcol.piv hWf i (by omega)
      rw [hz, abs_zero, abs_nonpos_iff] at hw
      have h1 := W_err (hWf i (by omega))
      obtain ⟨-, -, h1⟩ := h1
      change |_ - _ - val (W (A (σ i) c) G i c)| ≤ u α * |val (W (A (σ i) c) G i c)| + _ + _ at h1
      rw [hw, hm, abs_zero, mul_zero, sub_zero, zero_add] at h1
      rw [hz, mul_zero, abs_zero, mul_zero, add_zero, add_zero, mul_zero, add_zero]
      simp only [abs_mul] at h1
      have a1 : γ α (c + 1) * (∑ k ∈ range c, |val (G i k)| * |val (G k c)|) ≤ γ α (min m n + 1) * (∑ k ∈ range c, |val (G i k)| * |val (G k c)|) :=
        mul_le_mul_of_nonneg_right (γ_mono (by omega)) hpos
      have a2 : θ α c ≤ θ α (min m n) := θ_mono (by omega)
      linarith
    · unfold Quot at hq
      rw [if_neg h0] at hq
      unfold W at hq
      rw [hm] at hq
      have h1 := W_div_err hq (hf i c i.2 hc) (hf c c (by omega) hc)
      simp only [abs_mul] at h1
      have a1 : γ α (c + 2) * ((∑ k ∈ range c, |val (G i k)| * |val (G k c)|) + |val (G i c)| * |val (G c c)|) ≤
          γ α (min m n + 1) * ((∑ k ∈ range c, |val (G i k)| * |val (G k c)|) + |val (G i c)| * |val (G c c)|) :=
        mul_le_mul_of_nonneg_right (γ_mono (by omega)) (by positivity)
      have a2 : θ α c ≤ θ α (min m n) := θ_mono (by omega)
      linarith
  · have hq := hcol.up i hi
    have hm : min i.1 c = i.1 := by omega
    have him := i.2
    unfold prod
    rw [if_neg (show ¬ c < i.1 by omega), hm, if_pos hi, if_pos hi, add_zero]
    beta_reduce
    have hfw := hf i c i.2 hc
    rw [hq] at hfw
    obtain ⟨-, -, h1⟩ := W_err hfw
    change |_ - _ - val (W (A (σ i) c) G i c)| ≤ u α * |val (W (A (σ i) c) G i c)| + _ + _ at h1
    rw [← hq, hm] at h1
    simp only [abs_mul] at h1
    have hpos : 0 ≤ ∑ k ∈ range i.1, |val (G i k)| * |val (G k c)| := sum_nonneg fun _ _ => by positivity
    have a1 : γ α (i + 1) * (∑ k ∈ range i.1, |val (G i k)| * |val (G k c)|) ≤ γ α (min m n + 1) * (∑ k ∈ range i.1, |val (G i k)| * |val (G k c)|) :=
      mul_le_mul_of_nonneg_right (γ_mono (by omega)) hpos
    have a2 : θ α i ≤ θ α (min m n) := θ_mono (by omega)
    have a3 : u α * |val (G i c)| ≤ γ α (min m n + 1) * |val (G i c)| :=
      mul_le_mul_of_nonneg_right (u_le_γ (by omega)) (abs_nonneg _)
    rw [mul_add, ← sub_sub]
    linarith

/-- The multipliers are bounded. -/
theorem mult_err {m n : Nat} {A G : Nat → Nat → α} {σ : Equiv.Perm (Fin m)} (h : ∀ c, c < n → Col m A G σ c)
    (hf : ∀ i c, i < m → c < n → fin (G i c)) (i : Fin m) (c : Nat) (hc : c < n) (hi : c < i.1) :
    |val (G i c)| ≤ 1 + u α + η α := by
  have hcol := h c hc
  have hu := u_nonneg (α := α)
  have hη := η_nonneg (α := α)
  have him := i.2
  have hcc := hf c c (by omega) hc
  have hWf : ∀ i' : Fin m, c ≤ i'.1 → fin (W (A (σ i') c) G i' c) := by
    intro i' hi'
    rcases hi'.eq_or_lt with e | e
    · rw [← hcol.up i' (by omega)]; exact hf _ _ i'.2 hc
    · have := hcol.lo i' e
      unfold Quot at this
      by_cases h0 : FloatOps.eq (G c c) 0 = true
      · rw [if_pos h0] at this
        rw [← this]; exact hf _ _ i'.2 hc
      · rw [if_neg h0] at this
        exact (quot_err this (hf _ _ i'.2 hc) hcc).1
  have hw := hcol.piv hWf i (by omega)
  have hq := hcol.lo i hi
  unfold Quot at hq
  by_cases h0 : FloatOps.eq (G c c) 0 = true
  · rw [if_pos h0] at hq
    have hz : val (G c c) = 0 := by
      have := (Fp.eq _ _ hcc Fp.zero.1).mp h0
      rw [this, Fp.zero.2]
    rw [hz, abs_zero, abs_nonpos_iff, ← hq] at hw
    rw [hw, abs_zero]; linarith
  · rw [if_neg h0] at hq
    obtain ⟨-, h2, -, h4⟩ := quot_err hq (hf _ _ i.2 hc) hcc
    have : |val (W (A (σ i) c) G i c) / val (G c c)| ≤ 1 := by
      rw [abs_div]; exact div_le_one_of_le₀ hw (abs_nonneg _)
    nlinarith

/-! ## The factors -/

/-- `get_l`. -/
def lowerA (m r : Nat) (G : Nat → Nat → α) : Matrix (Fin m) (Fin r) α :=
  Matrix.of fun i j => if j.1 < i.1 then G i j else if i.1 = j.1 then 1 else 0

/-- `get_u`. -/
def upperA (r n : Nat) (G : Nat → Nat → α) : Matrix (Fin r) (Fin n) α :=
  Matrix.of fun i j => if i.1 ≤ j.1 then G i j else 0

omit [Fp α] in
theorem getL_ok {m n : Nat} (G : Nat → Nat → α) (hm : 0 < m) (hn : 0 < n) (pos : Bool) (piv : List Nat) :
    getL ⟨ofM (Matrix.of fun (i : Fin m) (j : Fin n) => G i j), pos, piv⟩ = .ok (ofM (lowerA m (min m n) G)) := by
  unfold getL
  dsimp only
  simp only [ofM_cols _ hm, ok_bind]
  rw [ite_min]
  simp only [ofM_rows]
  have := fill2_ok (m := m) (n := min m n)
    (f := fun i j => if i > j then idx (ofM (Matrix.of fun (i : Fin m) (j : Fin n) => G i j)).data (i * n + j) else if i = j then .ok 1 else .ok 0)
    (lowerA m (min m n) G) (by
      intro i j
      by_cases h : j.1 < i.1
      · rw [if_pos h, idx_ofM _ i.2 (by omega)]
        simp [lowerA, h]
      · rw [if_neg h]
        by_cases h2 : i.1 = j.1
        · simp [lowerA, h2]
        · simp [lowerA, h, h2])
  obtain ⟨d, hd, hf⟩ := this
  rw [show ∀ (x : R (Buf α)) (f : Buf α → R (Mat α)), x = .ok d → (x >>= f) = f d from
    fun x f h => by rw [h, ok_bind]]
  · rw [hf, ok_bind, Props.C01_new_ofM hm (by omega)]
  · exact hd

omit [Fp α] in
theorem getU_ok {m n : Nat} (G : Nat → Nat → α) (hm : 0 < m) (hn : 0 < n) (pos : Bool) (piv : List Nat) :
    getU ⟨ofM (Matrix.of fun (i : Fin m) (j : Fin n) => G i j), pos, piv⟩ = .ok (ofM (upperA (min m n) n G)) := by
  unfold getU
  dsimp only
  simp only [ofM_cols _ hm, ok_bind]
  rw [ite_min]
  simp only [ofM_rows]
  have := fill2_ok (m := min m n) (n := n)
    (f := fun i j => if i ≤ j then idx (ofM (Matrix.of fun (i : Fin m) (j : Fin n) => G i j)).data (i * n + j) else .ok 0)
    (upperA (min m n) n G) (by
      intro i j
      by_cases h : i.1 ≤ j.1
      · rw [if_pos h, idx_ofM _ (by omega) j.2]
        simp [upperA, h]
      · rw [if_neg h]
        simp [upperA, h])
  obtain ⟨d, hd, hf⟩ := this
  rw [show ∀ (x : R (Buf α)) (f : Buf α → R (Mat α)), x = .ok d → (x >>= f) = f d from
    fun x f h => by rw [h, ok_bind]]
  · rw [hf, ok_bind, Props.C01_new_ofM (by omega) hn]
  · exact hd

theorem fin_G {m n : Nat} {G : Nat → Nat → α} (hL : ∀ i k, fin (lowerA m (min m n) G i k)) (hU : ∀ k c, fin (upperA (min m n) n G k c))
    (i c : Nat) (hi : i < m) (hc : c < n) : fin (G i c) := by
  rcases Nat.lt_or_ge c i with h | h
  · have := hL ⟨i, hi⟩ ⟨c, by omega⟩
    simpa [lowerA, h] using this
  · have := hU ⟨i, by omega⟩ ⟨c, hc⟩
    simpa [upperA, h] using this

theorem val_lowerA (m r : Nat) (G : Nat → Nat → α) (i : Fin m) (k : Fin r) :
    val (lowerA m r G i k) = lower m r (fun i c => val (G i c)) i k ∧
    |val (lowerA m r G i k)| = lower m r (fun i c => |val (G i c)|) i k := by
  simp only [lowerA, lower, Matrix.of_apply]
  split
  · exact ⟨rfl, rfl⟩
  · split
    · rw [Fp.one.2]; simp
    · rw [Fp.zero.2]; simp

theorem val_upperA (r n : Nat) (G : Nat → Nat → α) (i : Fin r) (k : Fin n) :
    val (upperA r n G i k) = upper r n (fun i c => val (G i c)) i k ∧
    |val (upperA r n G i k)| = upper r n (fun i c => |val (G i c)|) i k := by
  simp only [upperA, upper, Matrix.of_apply]
  split
  · exact ⟨rfl, rfl⟩
  · rw [Fp.zero.2]; simp

/-- Backward error of the decomposition in terms of the factors. -/
theorem factor_err {m n : Nat} {A G : Nat → Nat → α} {σ : Equiv.Perm (Fin m)} (h : ∀ c, c < n → Col m A G σ c)
    (hL : ∀ i k, fin (lowerA m (min m n) G i k)) (hU : ∀ k c, fin (upperA (min m n) n G k c)) (i : Fin m) (c : Fin n) :
    |val (A (σ i) c) - ∑ k, val (lowerA m (min m n) G i k) * val (upperA (min m n) n G k c)| ≤
      γ α (min m n + 1) * (∑ k, |val (lowerA m (min m n) G i k)| * |val (upperA (min m n) n G k c)|) + θ α (min m n) +
        (1 + u α) * η α * ∑ k, |val (upperA (min m n) n G k c)| := by
  have h1 := entry_err h (fin_G hL hU) i c c.2
  have e1 := lower_mul_upper (K := ℝ) (m := m) (n := n) (fun i c => val (G i c)) rfl i c
  have e2 := lower_mul_upper (K := ℝ) (m := m) (n := n) (fun i c => |val (G i c)|) rfl i c
  rw [← e1, ← e2, Matrix.mul_apply, Matrix.mul_apply] at h1
  have s1 : ∑ k, val (lowerA m (min m n) G i k) * val (upperA (min m n) n G k c) =
      ∑ k, lower m (min m n) (fun i c => val (G i c)) i k * upper (min m n) n (fun i c => val (G i c)) k c :=
    sum_congr rfl fun k _ => by rw [(val_lowerA m (min m n) G i k).1, (val_upperA (min m n) n G k c).1]
  have s2 : ∑ k, |val (lowerA m (min m n) G i k)| * |val (upperA (min m n) n G k c)| =
      ∑ k, lower m (min m n) (fun i c => |val (G i c)|) i k * upper (min m n) n (fun i c => |val (G i c)|) k c :=
    sum_congr rfl fun k _ => by rw [(val_lowerA m (min m n) G i k).2, (val_upperA (min m n) n G k c).2]
  have s3 : ∑ k, |val (upperA (min m n) n G k c)| = ∑ k, |upper (min m n) n (fun i c => val (G i c)) k c| :=
    sum_congr rfl fun k _ => by rw [(val_upperA (min m n) n G k c).1]
  rw [s1, s2, s3]
  have h3 : (if c.1 < i.1 then (1 + u α) * η α * |val (G c c)| else 0) ≤ (1 + u α) * η α * ∑ k, |upper (min m n) n (fun i c => val (G i c)) k c| := by
    have hu := u_nonneg (α := α)
    have hη := η_nonneg (α := α)
    split
    · next hi =>
      refine mul_le_mul_of_nonneg_left ?_ (by positivity)
      have := single_le_sum (f := fun k : Fin (min m n) => |upper (min m n) n (fun i c => val (G i c)) k c|) (s := univ)
        (fun _ _ => abs_nonneg _) (mem_univ ⟨c.1, by omega⟩)
      refine le_trans (le_of_eq ?_) this
      simp [upper]
    · have : 0 ≤ ∑ k, |upper (min m n) n (fun i c => val (G i c)) k c| := sum_nonneg fun _ _ => abs_nonneg _
      positivity
  linarith

end Rnd
end LU
end LA
