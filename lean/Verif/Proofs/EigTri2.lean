import Verif.Proofs.EigTri
import Verif.Proofs.EigNonsym
import Verif.Proofs.Leftover
import Verif.Proofs.F64Laws
import Verif.Proofs.F64Alg
import Verif.IEEEFp

/-! # Triangular matrices over the reals and over binary64 -/

namespace LA
set_option linter.unusedSectionVars false

noncomputable instance : Deflates ℝ where
  big x := 0 < x
  zero := add_zero 0
  left x h := by rwa [zero_add]
  right x h := by rwa [add_zero]
  add x y h1 h2 := add_pos h1 h2
  eq := by rw [eq_eq]; simp
  ne x h := by rw [eq_eq]; simpa using h.ne'
  gap x h := by rw [lt_eq]; simpa using mul_pos Eigen.eps_pos h

namespace F64

/-- `+∞` or at least the smallest normal number `2^-1022`. -/
def Normal (x : F64) : Prop := x = .inf false ∨ ∃ k h, x = .fin false k h ∧ 2 ^ 52 ≤ k

theorem rnd_ge {a b : Nat} (hb : 0 < b) (h : 2 ^ 52 * b ≤ a) : 2 ^ 52 ≤ rnd a b := by
  obtain ⟨t, e, h1, -⟩ := rnd_form a b
  rw [e]
  have hp : 1 ≤ 2 ^ ulp a b := Nat.one_le_two_pow
  rcases Nat.eq_zero_or_pos (ulp a b) with h0 | h0
  · rw [h0, pow_zero, Nat.mul_one] at h1 ⊢
    exact ((Nat.le_div_iff_mul_le hb).2 h).trans h1
  · have := quot_ge h0
    calc 2 ^ 52 ≤ t := this.trans h1
      _ ≤ t * 2 ^ ulp a b := Nat.le_mul_of_pos_right _ hp

theorem rnd_ge_one {a b : Nat} (hb : 0 < b) (h : b ≤ a) : 1 ≤ rnd a b := by
  obtain ⟨t, e, h1, -⟩ := rnd_form a b
  rw [e]
  have hp : 1 ≤ 2 ^ ulp a b := Nat.one_le_two_pow
  rcases Nat.eq_zero_or_pos (ulp a b) with h0 | h0
  · rw [h0, pow_zero, Nat.mul_one] at h1 ⊢
    exact ((Nat.le_div_iff_mul_le hb).2 (by rwa [Nat.one_mul])).trans h1
  · have := quot_ge h0
    have h52 : 1 ≤ 2 ^ 52 := Nat.one_le_two_pow
    calc 1 ≤ t := (h52.trans this).trans h1
      _ ≤ t * 2 ^ ulp a b := Nat.le_mul_of_pos_right _ hp

theorem mk_normal {a b : Nat} (hb : 0 < b) (h : 2 ^ 52 * b ≤ a) : Normal (mk false a b) := by
  unfold mk
  split
  · exact Or.inr ⟨_, _, rfl, rnd_ge hb h⟩
  · exact Or.inl rfl

theorem Normal.not_zero {x : F64} (h : Normal x) : ¬ isZero x := by
  rw [isZero_iff]
  rintro ⟨s, rfl⟩
  rcases h with h | ⟨k, hk, h, h2⟩
  · cases h
  · unfold zero at h
    injection h with h3 h4
    rw [← h4] at h2
    exact absurd h2 (by norm_num)

theorem eps_eq : (Eigen.eps : F64) = .fin false (2 ^ 1022) (by decide +kernel) := by decide +kernel

theorem Normal.add {x y : F64} (hx : Normal x) (hy : Normal y) : Normal (x + y) := by
  rcases hx with rfl | ⟨a, ha, rfl, h1⟩ <;> rcases hy with rfl | ⟨b, hb, rfl, h2⟩
  · exact Or.inl rfl
  · exact Or.inl rfl
  · exact Or.inl rfl
  · have hpos : 0 < 2 ^ 52 := by positivity
    rw [add_fin_eq ha hb]
    have e : sgn false a + sgn false b = ((a + b : Nat) : Int) := by simp [sgn]
    rw [e, if_neg (by omega), show decide (((a + b : Nat) : Int) < 0) = false by simp; omega, Int.natAbs_natCast]
    exact mk_normal Nat.one_pos (by omega)

theorem Normal.gap {x : F64} (hx : Normal x) : FloatOps.lt 0 (Eigen.eps * x) = true := by
  rw [eps_eq]
  rcases hx with rfl | ⟨a, ha, rfl, h1⟩
  · decide +kernel
  · show FloatOps.lt 0 (mk (false != false) (2 ^ 1022 * a) (2 ^ 1074)) = true
    have h2 : 2 ^ 1074 ≤ 2 ^ 1022 * a := by
      calc 2 ^ 1074 = 2 ^ 1022 * 2 ^ 52 := by rw [← pow_add]
        _ ≤ _ := Nat.mul_le_mul_left _ h1
    have h3 := rnd_ge_one (by positivity : 0 < 2 ^ 1074) h2
    have : (false != false) = false := rfl
    rw [this]
    generalize 2 ^ 1022 * a = A at h2 h3 ⊢
    generalize 2 ^ 1074 = B at h2 h3 ⊢
    unfold mk
    split
    · show decide ((sgn false 0 : Int) < sgn false (rnd A B)) = true
      simp [sgn]; omega
    · rfl

instance : Deflates F64 where
  big := Normal
  zero := by decide +kernel
  left x h := by rw [F64.add_comm]; exact (add_zero' x false h.not_zero).symm ▸ h
  right x h := (add_zero' x false h.not_zero).symm ▸ h
  add x y h1 h2 := h1.add h2
  eq := by decide +kernel
  ne x h := by
    rcases h with rfl | ⟨a, ha, rfl, h1⟩
    · decide +kernel
    · show decide ((sgn false a : Int) = sgn false 0) = false
      have : 0 < 2 ^ 52 := by positivity
      simp [sgn]; omega
  gap x h := h.gap

end F64

namespace Eigen
open Finset
open SVD (pk pk_congr)

/-- The columns `c..` hold eigenvectors of the upper triangular table `H`. -/
structure TriVecs (nn c : Nat) (H : Nat → Nat → ℝ) (ε : Nat → ℝ) (X : Nat → Nat → ℝ) : Prop where
  keep : ∀ a b, b < c → X a b = H a b
  real : ∀ b, c ≤ b → b < nn → RV (Tf (fun _ => 0) H) b 0 (H b b) (ε b) (fun a => X a b)

theorem vecs_tri {jk : Nat → Left ℝ} {nn : Nat} {H : Nat → Nat → ℝ} {norm : ℝ} {ε : Nat → ℝ} {db eb h : Buf ℝ} (hh : FullG h nn nn H)
    (hd : Full db nn fun i => H i i) (he : Full eb nn fun _ => 0) (hnorm : 0 < norm) (hε0 : ∀ b, 0 ≤ ε b)
    (hε : ∀ b i, b < nn → i < b → H i i = H b b → eps * norm ≤ ε b) :
    Post (loopRev 0 nn h fun n h => vecStep jk nn norm db eb n h) fun h' => ∃ X, FullG h' nn nn X ∧ TriVecs nn 0 H ε X := by
  refine loopRev_post (fun c h => ∃ X, FullG h nn nn X ∧ TriVecs nn c H ε X) (Nat.zero_le _) ⟨H, hh, fun _ _ _ => rfl, fun b h1 h2 => absurd h1 (by omega)⟩ ?_
  rintro n h _ hn ⟨X, hg, hX⟩
  unfold vecStep
  rw [hd.rd hn, ok_bind, he.rd hn, ok_bind, eq_eq, if_pos (by simp)]
  have hb : Blk nn 0 (fun i => H i i) (fun _ => 0) H :=
    ⟨fun i _ _ _ => rfl, fun i _ _ h => absurd h (lt_irrefl _), fun i _ h => absurd h (lt_irrefl _)⟩
  refine (realVec_gen hg hd he hb hn rfl rfl hnorm (hε0 n) (fun i hi => hε n i hn hi) fun a b hb => hX.keep a b (by omega)).mono ?_
  rintro h' ⟨x, hg', hrv⟩
  refine ⟨_, hg', fun a b hb => ?_, fun b h1 h2 => ?_⟩
  · unfold colMem
    rw [if_neg (by omega)]
    exact hX.keep a b (by omega)
  · by_cases hbn : b = n
    · subst hbn
      refine hrv.congr fun a ha => ?_
      unfold colMem; rw [if_pos ⟨rfl, Nat.zero_le _, ha⟩]
    · refine (hX.real b (by omega) h2).congr fun a ha => ?_
      unfold colMem; rw [if_neg (by omega)]

theorem bump_real (F : Nat → Nat → ℝ) (c : Nat) : bump c F = F := by
  funext i j
  unfold bump
  split
  · next h => rw [add_zero, h.1]
  · rfl

/-- The whole run on a real upper triangular matrix that is not diagonal. -/
theorem new_tri_real {n : Nat} (hn : 0 < n) (A : Matrix (Fin n) (Fin n) ℝ) (hA : ∀ i j : Fin n, j < i → A i j = 0) (hS : ¬ A.IsSymm) (fuel : Nat)
    (hf : n ≤ fuel) : ∃ V : Matrix (Fin n) (Fin n) ℝ,
      new fuel (ofM A) = .ok ⟨n, List.ofFn fun i : Fin n => A i i, List.replicate n 0, ofM V⟩ ∧ (∀ i j : Fin n, j < i → V i j = 0) ∧ (∀ i, V i i ≠ 0) ∧
      ∀ i j : Fin n, |(A * V) i j - V i j * A j j| ≤ (if ∃ k, k < j ∧ A k k = A j j then eps * ∑ a, ∑ b, |A a b| else 0) * |V i j| := by
  unfold new newWith
  rw [ofM_cols A hn, ok_bind]
  dsimp only
  rw [isSymm_false hS, ok_bind, if_neg (by simp)]
  obtain ⟨h, hr, hh⟩ := fillH_post A
  rw [hr, ok_bind]
  have hF : TriT n (ext A) := by
    refine ⟨fun i j hij hi => ?_, fun i j hij hj => ?_⟩
    · rw [ext_eq A hi (by omega), hA _ _ (by exact hij), Exact.abs_eq, abs_zero, eq_eq]
      exact ⟨rfl, by simp⟩
    · rw [Exact.abs_eq]
      rcases (abs_nonneg (ext A i j)).eq_or_lt with h | h
      · exact Or.inl h.symm
      · exact Or.inr h
  have hlow : ∀ i j, j < i → ext A i j = 0 := fun i j hij => by
    by_cases hi : i < n
    · rw [ext_eq A hi (by omega)]; exact hA _ _ hij
    · unfold ext; rw [dif_neg (by omega)]
  have hbig : ∃ i j, i ≤ j ∧ j < n ∧ (Deflates.big (FloatOps.abs (ext A i j)) : Prop) := by
    by_contra hc
    push Not at hc
    refine hS (Matrix.IsSymm.ext fun i j => ?_)
    have h0 : ∀ i j : Fin n, i ≤ j → A i j = 0 := fun i j hij => by
      by_contra h1
      refine hc i j hij j.2 ?_
      rw [ext_fin, Exact.abs_eq]
      exact abs_pos.2 h1
    rw [show A i j = 0 from (le_or_gt i j).elim (h0 i j) (hA i j), show A j i = 0 from (le_or_gt j i).elim (h0 j i) (hA j i)]
  obtain ⟨⟨h1, v⟩, hr, e1, hv⟩ := orthes_tri hn hF hh (grid_alloc n n)
  rw [hr, ok_bind]
  dsimp only at e1 hv ⊢
  subst e1
  unfold hqr2
  obtain ⟨N, hrN, hN, hbN⟩ := hqrNorm_tri hF hh
  obtain ⟨i, j, hij, hj, hb⟩ := hbig
  have hbN : (0 : ℝ) < N := hbN i j hij hj hb
  have hNv : N = ∑ a, ∑ b, |A a b| := by
    have h2 := hqrNorm_post hh
    rw [hrN, norm_eq] at h2
    injection h2 with h2
    rw [h2]
    refine Finset.sum_congr rfl fun a _ => Finset.sum_congr rfl fun b _ => ?_
    show |hess (ext A) a b| = _
    unfold hess
    split
    · rw [hA a b (by show b.1 < a.1; omega)]
    · rw [ext_fin]
  dsimp only
  rw [hrN, ok_bind]
  obtain ⟨o, hr, o1, o2, o3, o4⟩ := hqrLoop_tri hF hbN fuel n (⟨alloc ℝ n, alloc ℝ n, h1, v, 0, 0⟩ : Hqr ℝ) hf le_rfl rfl
    (hh.congr fun i j _ _ => by unfold bump; rw [if_neg (by omega)])
    ⟨fun _ => none, (vect_alloc n).congr fun i hi => by rw [if_neg (by omega)]⟩ ⟨fun _ => none, (vect_alloc n).congr fun i hi => by rw [if_neg (by omega)]⟩
  rw [hr, ok_bind, Deflates.ne _ hbN, if_neg (by simp)]
  rw [bump_real] at o2
  simp only [add_zero] at o3
  obtain ⟨h2, hr, X, hg, hX⟩ := vecs_tri (jk := fun _ => ⟨0, 0, 0⟩) (ε := fun b => if ∃ k, k < b ∧ ext A k k = ext A b b then eps * N else 0) o2 o3 o4 hbN
    (fun b => by split; exact (mul_pos eps_pos hbN).le; exact le_rfl) (fun b i hb hi e => by rw [if_pos ⟨i, hi, e⟩])
  rw [hr, ok_bind]
  have hv' : FullG o.v n n (fun i j => if i = j then 1 else 0) := by rw [o1]; exact hv
  obtain ⟨v2, hr, W, hg2, hW⟩ := backTransform_post hg hv'
  rw [hr, ok_bind]
  change ∃ V, (do let d ← freeze o.d; let e ← freeze o.e; let w ← freeze v2; let w ← Mat.new n n w; pure (⟨n, d, e, w⟩ : Eigen ℝ)) = _ ∧ _
  rw [Vect.freeze o3 (fun i => ext A i i) (fun i _ => rfl), ok_bind, Vect.freeze o4 (fun _ => 0) (fun i _ => rfl)]
  rw [ok_bind, Grid.freeze hg2 (pk n n W) (fun i j => rfl), ok_bind, Props.C01_new_ofM hn hn, ok_bind]
  have hid : pk n n (fun i j => if i = j then (1 : ℝ) else 0) = 1 := by
    ext a b
    show (if a.1 = b.1 then (1 : ℝ) else 0) = (1 : Matrix (Fin n) (Fin n) ℝ) a b
    rw [Matrix.one_apply]; simp only [Fin.ext_iff]
  rw [hid, Matrix.one_mul] at hW
  refine ⟨pk n n W, ?_, ?_, ?_, ?_⟩
  · congr 2
    · simp only [ext_fin]
    · rw [List.ofFn_const]
  · intro i j hij
    rw [hW]
    show trunc X i j = 0
    unfold trunc; rw [if_neg (by simpa using hij)]
  · intro i
    rw [hW]
    show trunc X i i ≠ 0
    unfold trunc; rw [if_pos le_rfl]
    exact (hX.real i (Nat.zero_le _) i.2).ne
  · intro a b
    have hr := hX.real b (Nat.zero_le _) b.2
    have hTf : ∀ i j : Fin n, Tf (fun _ => 0) (ext A) i j = A i j := fun i j => by
      rcases Nat.lt_or_ge j.1 i.1 with h | h
      · rw [Tf_low (l := i.1) (by simp) h le_rfl, hA i j h]
      · rw [Tf_up h, ext_fin]
    have hmul : (A * pk n n W) a b = ∑ k : Fin n, Tf (fun _ => 0) (ext A) a k * trunc X k b := by
      rw [Matrix.mul_apply, hW]
      exact Finset.sum_congr rfl fun k _ => by rw [hTf]; rfl
    rw [hmul, mulT (n := b) b.2 (by simp) (fun k => trunc X k b) (fun k hk => by unfold trunc; rw [if_neg (by omega)]) a, hW]
    have hc : rowS (Tf (fun _ => 0) (ext A)) b 0 (fun k => trunc X k b) a = rowS (Tf (fun _ => 0) (ext A)) b 0 (fun k => X k b) a := rowS_congr fun j _ hj => by
      unfold trunc; rw [if_pos hj]
    have hcond : (∃ k, k < b.1 ∧ ext A k k = ext A b b) ↔ ∃ k : Fin n, k < b ∧ A k k = A b b := by
      constructor
      · rintro ⟨k, h1, h2⟩
        have hk : k < n := by omega
        rw [ext_eq A hk hk, ext_fin] at h2
        exact ⟨⟨k, hk⟩, h1, h2⟩
      · rintro ⟨k, h1, h2⟩
        exact ⟨k, h1, by rw [ext_fin, ext_fin, h2]⟩
    show |(if a.1 ≤ b.1 then _ else _) - trunc X a b * A b b| ≤ _ * |trunc X a b|
    by_cases h : a.1 ≤ b.1
    · have h5 := hr.res a (Nat.zero_le _) h
      beta_reduce at h5
      simp only [hcond] at h5
      rw [if_pos h, hc, ← hNv]
      have h3 : trunc X a b = X a b := by unfold trunc; rw [if_pos h]
      rw [h3, mul_comm (X a b), ← ext_fin A b b]
      simpa only [ext_fin] using h5
    · have h3 : trunc X a b = 0 := by unfold trunc; rw [if_neg h]
      rw [if_neg h, h3, zero_mul, sub_zero, abs_zero, mul_zero]

end Eigen
end LA
