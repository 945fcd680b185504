import Verif.Proofs.StdOrth

/-! # `orthes` in rounded arithmetic: one step -/

set_option linter.unusedSectionVars false

namespace LA
open Finset Matrix
namespace Std
open Sfp SVD
open Eigen (Sm reflL reflR pk_reflL pk_reflR orthScale orthCol orthRow orthStep hz)

variable {α : Type} [Zero α] [One α] [Add α] [Sub α] [Neg α] [Mul α] [FloatOps α] [Sfp α]

/-- The relative error of one reflection. -/
noncomputable def ko (α : Type) [Zero α] [One α] [Add α] [Sub α] [Neg α] [Mul α] [FloatOps α] [Sfp α] (n : Nat) : ℝ := w α ^ (4 * n + 22) - 1

theorem ko_nonneg {n : Nat} : 0 ≤ ko α n := sub_nonneg.2 (pw_one w_one _)

theorem orthCols_ok {n m : Nat} {y : α} {ort h : Buf α} {P : Nat → Prop} {x : Nat → α} {F : Nat → Nat → α} {a : Nat → ℝ} {c : ℝ}
    (ho : Part ort n P x) (hP : ∀ i, m ≤ i → i < n → P i) (hh : FullG h n n F) (hm : m ≤ n) (hc : 0 < c)
    (hy : Rt (w α) (n + 6) (val y) c) (hx : ∀ t, m ≤ t → t < n → Rt (w α) (n + 6) (val (x t)) (a t)) :
    Post (loop m n h fun j h => orthCol n m j y ort h) fun r => ∃ G : Nat → Nat → α, FullG r n n G ∧
      (∀ i j, ¬ (m ≤ i ∧ m ≤ j) → G i j = F i j) ∧
      (∀ i j, m ≤ i → i < n → m ≤ j → j < n → |val (G i j) - reflL m n a c (tt F) i j| ≤
        ko α n * (|val (F i j)| + |a i| / c * ∑ t ∈ Ico m n, |a t| * |val (F t j)|)) := by
  have hw : 1 ≤ w α := w_one
  refine (loop_post (lo := m) (hi := n) (s := h) (f := fun j h => orthCol n m j y ort h)
    (fun s (r : Buf α) => ∃ φ : Nat → α, (∀ j, m ≤ j → j < s → Ws (w α) (2 + 2 * (n + 6) + n) (val (φ j))
        ((∑ t ∈ Ico m n, a t * val (F t j)) / c) ((∑ t ∈ Ico m n, |a t| * |val (F t j)|) / c)) ∧
      FullG r n n (fun i j => if m ≤ j ∧ j < s ∧ m ≤ i then F i j - φ j * x i else F i j)) hm ?_ ?_).mono ?_
  · refine ⟨fun _ => 0, fun j h1 h2 => by omega, hh.congr fun i j _ _ => ?_⟩
    rw [if_neg (by omega)]
  · rintro j r h1 h2 ⟨φ, hφ, hG⟩
    refine (orthCol_ok ho hP hG h2 hm hc hy hx).mono ?_
    rintro r' ⟨ψ, hψ, hG'⟩
    refine ⟨updv φ j ψ, ?_, hG'.congr fun i l _ _ => ?_⟩
    · intro l h3 h4
      by_cases e : l = j
      · subst e
        rw [updv_same]
        simp only [show ∀ t, ¬ (m ≤ l ∧ l < l ∧ m ≤ t) from fun t => by omega, if_false] at hψ
        exact hψ
      · rw [updv_ne e]
        exact hφ l h3 (by omega)
    · clear hφ hψ
      simp only [updv]
      grind
  · rintro r ⟨φ, hφ, hG⟩
    refine ⟨_, hG, fun i j h => by rw [if_neg (by omega)], fun i j h1 h2 h3 h4 => ?_⟩
    rw [if_pos ⟨h3, h4, h1⟩]
    have q := ws_sub ((Rt.refl (val (F i j))).ws hw |>.mono hw (Nat.zero_le _)) (ws_mul (hφ j h3 h4) ((hx i h1 h2).ws hw))
    have q1 := (q.mono hw (show _ ≤ 4 * n + 22 by omega)).1
    unfold reflL ko
    rw [if_pos h1]
    refine q1.trans (le_of_eq ?_)
    ring

theorem orthRows_ok {n m : Nat} {y : α} {ort h : Buf α} {P : Nat → Prop} {x : Nat → α} {F : Nat → Nat → α} {a : Nat → ℝ} {c : ℝ}
    (ho : Part ort n P x) (hP : ∀ i, m ≤ i → i < n → P i) (hh : FullG h n n F) (hm : m ≤ n) (hc : 0 < c)
    (hy : Rt (w α) (n + 6) (val y) c) (hx : ∀ t, m ≤ t → t < n → Rt (w α) (n + 6) (val (x t)) (a t)) :
    Post (loop 0 n h fun i h => orthRow n m i y ort h) fun r => ∃ G : Nat → Nat → α, FullG r n n G ∧
      (∀ i j, j < m → G i j = F i j) ∧
      (∀ i j, i < n → m ≤ j → j < n → |val (G i j) - reflR m n a c (tt F) i j| ≤
        ko α n * (|val (F i j)| + |a j| / c * ∑ t ∈ Ico m n, |a t| * |val (F i t)|)) := by
  have hw : 1 ≤ w α := w_one
  refine (loop_post (lo := 0) (hi := n) (s := h) (f := fun i h => orthRow n m i y ort h)
    (fun s (r : Buf α) => ∃ φ : Nat → α, (∀ i, i < s → Ws (w α) (2 + 2 * (n + 6) + n) (val (φ i))
        ((∑ t ∈ Ico m n, a t * val (F i t)) / c) ((∑ t ∈ Ico m n, |a t| * |val (F i t)|) / c)) ∧
      FullG r n n (fun i j => if i < s ∧ m ≤ j then F i j - φ i * x j else F i j)) (Nat.zero_le _) ?_ ?_).mono ?_
  · refine ⟨fun _ => 0, fun j h1 => by omega, hh.congr fun i j _ _ => ?_⟩
    rw [if_neg (by omega)]
  · rintro i r - h2 ⟨φ, hφ, hG⟩
    refine (orthRow_ok ho hP hG h2 hm hc hy hx).mono ?_
    rintro r' ⟨ψ, hψ, hG'⟩
    refine ⟨updv φ i ψ, ?_, hG'.congr fun l j _ _ => ?_⟩
    · intro l h4
      by_cases e : l = i
      · subst e
        rw [updv_same]
        simp only [show ∀ t, ¬ (l < l ∧ m ≤ t) from fun t => by omega, if_false] at hψ
        exact hψ
      · rw [updv_ne e]
        exact hφ l (by omega)
    · clear hφ hψ
      simp only [updv]
      grind
  · rintro r ⟨φ, hφ, hG⟩
    refine ⟨_, hG, fun i j h => by rw [if_neg (by omega)], fun i j h1 h2 h3 => ?_⟩
    rw [if_pos ⟨h1, h2⟩]
    have q := ws_sub ((Rt.refl (val (F i j))).ws hw |>.mono hw (Nat.zero_le _)) (ws_mul (hφ i h1) ((hx j h2 h3).ws hw))
    have q1 := (q.mono hw (show _ ≤ 4 * n + 22 by omega)).1
    unfold reflR ko
    rw [if_pos h2]
    refine q1.trans (le_of_eq ?_)
    ring

theorem orthScale_ok {n m : Nat} {scale : α} {h ort : Buf α} {P : Nat → Prop} {o : Nat → α} {F : Nat → Nat → α}
    (ho : Part ort n P o) (hh : FullG h n n F) (hs : val scale ≠ 0) (hm : m ≤ n) (hm1 : 1 ≤ m) :
    Post (orthScale n m scale h ort) fun r =>
      Part r.1 n (fun i => m ≤ i) (fun i => dv (F i (m - 1)) scale) ∧
      Rt (w α) (3 + n) (val r.2) (∑ t ∈ Ico m n, val (F t (m - 1)) / val scale * (val (F t (m - 1)) / val scale)) := by
  have hw : 1 ≤ w α := w_one
  unfold orthScale
  refine (loopRev_post (lo := m) (hi := n) (fun c (r : Buf α × α) =>
    Part r.1 n (fun i => c ≤ i) (fun i => dv (F i (m - 1)) scale) ∧
      Rt (w α) (3 + (n - c)) (val r.2) (∑ t ∈ Ico c n, val (F t (m - 1)) / val scale * (val (F t (m - 1)) / val scale))) hm ?_ ?_).mono ?_
  · refine ⟨ho.mono fun i hi h => by omega, ?_⟩
    rw [Finset.Ico_self, Finset.sum_empty]
    show Rt (w α) _ (val (0 : α)) 0
    rw [Sfp.zero]
    exact (Rt.refl 0).mono hw (by omega)
  · rintro i ⟨ort1, s⟩ h1 h2 ⟨k1, k2⟩
    dsimp only at k1 k2 ⊢
    obtain ⟨d2, hd2, hf2⟩ := k1.wr (i := i) h2 (dv (F i (m - 1)) scale)
    rw [hh.rd (i := i) (j := m - 1) h2 (by omega), ok_bind, (dv_ok _ hs).1, ok_bind, hd2, ok_bind,
      hf2.rd (i := i) h2 (Or.inr rfl), ok_bind, updv_same]
    refine Post.ok ⟨hf2.mono fun b hb h => ?_, ?_⟩
    · by_cases e : b = i
      · subst e
        exact ⟨Or.inr rfl, by rw [updv_same]⟩
      · exact ⟨Or.inl (by omega), by rw [updv_ne e]⟩
    · have hd := (dv_ok (F i (m - 1)) hs).2
      rw [Finset.sum_eq_sum_Ico_succ_bot h2, add_comm (val (F i (m - 1)) / val scale * (val (F i (m - 1)) / val scale))]
      have hm3 : Rt (w α) 3 _ _ := mul_rt' hd hd
      have h3 := k2.add hw (hm3.mono hw (show 3 ≤ 3 + (n - (i + 1)) by omega))
        (Finset.sum_nonneg fun t _ => mul_self_nonneg _) (mul_self_nonneg _)
      have h4 := (add_rt s (dv (F i (m - 1)) scale * dv (F i (m - 1)) scale)).trans hw h3
      exact h4.mono hw (by omega)
  · rintro r ⟨h1, h2⟩
    exact ⟨h1, h2.mono hw (by omega)⟩

/-- The state of the reduction before step `c`. -/
structure OI (n c : Nat) (A : Matrix (Fin n) (Fin n) ℝ) (E : ℝ) (h ort : Buf α) (F : Nat → Nat → α) (V : Nat → Nat → ℝ) : Prop where
  h : FullG h n n F
  ort : ∃ o, Part ort n (fun _ => False) o
  sm : Sm n A V (hz c (tt F)) E

theorem orthStep_ok {n m : Nat} {A : Matrix (Fin n) (Fin n) ℝ} {E : ℝ} {h ort : Buf α} {F : Nat → Nat → α} {V : Nat → Nat → ℝ}
    (hI : OI n m A E h ort F V) (hm1 : 1 ≤ m) (hm2 : m + 1 < n) :
    Post (orthStep n m h ort) fun r => ∃ F V E', OI n (m + 1) A E' r.1 r.2 F V ∧ frob A + E' ≤ (1 + 3 * ko α n) ^ 2 * (frob A + E) := by
  have hw : 1 ≤ w α := w_one
  have hk := ko_nonneg (α := α) (n := n)
  have hFA := frob_nonneg A
  have hE := hI.sm.nonneg
  obtain ⟨o, ho⟩ := hI.ort
  unfold orthStep
  obtain ⟨scale, hrs, hsc⟩ : Post (loop m n (0 : α) fun i s => do return s + FloatOps.abs (← LA.rd h (i * n + (m - 1)))) fun s =>
      Rt (w α) n (val s) (∑ t ∈ Ico m n, |val (F t (m - 1))|) := by
    refine (loop_post (lo := m) (hi := n) (s := (0 : α)) (f := fun i s => do return s + FloatOps.abs (← LA.rd h (i * n + (m - 1))))
      (fun c s => Rt (w α) c (val s) (∑ t ∈ Ico m c, |val (F t (m - 1))|)) (by omega) ?_ ?_)
    · rw [Finset.Ico_self, Finset.sum_empty, Sfp.zero]
      exact (Rt.refl 0).mono hw (by omega)
    · intro i s h1 h2 h3
      rw [hI.h.rd (i := i) (j := m - 1) h2 (by omega), ok_bind, Finset.sum_Ico_succ_top h1]
      refine Post.ok ?_
      have h4 := h3.add hw (x' := val (FloatOps.abs (F i (m - 1)))) (y' := |val (F i (m - 1))|)
        (by rw [Sfp.abs]; exact (Rt.refl _).mono hw (by omega)) (Finset.sum_nonneg fun _ _ => abs_nonneg _) (abs_nonneg _)
      exact ((add_rt s _).trans hw h4).mono hw (by omega)
  rw [hrs, ok_bind]
  have hsnn : 0 ≤ ∑ t ∈ Ico m n, |val (F t (m - 1))| := Finset.sum_nonneg fun _ _ => abs_nonneg _
  by_cases hs : (FloatOps.eq scale 0) = true
  · rw [if_neg (by simp [hs])]
    have hs0 : val scale = 0 := by
      have := (Sfp.eq scale 0).1 hs
      rwa [Sfp.zero] at this
    have hz0 : ∀ t, m ≤ t → t < n → val (F t (m - 1)) = 0 := by
      intro t h1 h2
      have h3 := (hsc.zero_iff hw).1 hs0
      exact abs_eq_zero.1 ((Finset.sum_eq_zero_iff_of_nonneg (fun t _ => abs_nonneg (val (F t (m - 1))))).1 h3 t (Finset.mem_Ico.2 ⟨h1, h2⟩))
    refine Post.ok ⟨F, V, E, ⟨hI.h, ⟨o, ho⟩, hI.sm.congr fun a b ha hb => ?_⟩, ?_⟩
    · unfold hz
      by_cases h1 : b + 1 < m ∧ b + 1 < a
      · rw [if_pos h1, if_pos (by omega)]
      · rw [if_neg h1]
        by_cases h2 : b + 1 < m + 1 ∧ b + 1 < a
        · rw [if_pos h2, show b = m - 1 by omega]; exact hz0 a (by omega) ha
        · rw [if_neg h2]
    · exact le_mul_of_one_le_left (by linarith) (one_le_pow₀ (by linarith))
  · rw [if_pos (by simpa using hs)]
    have hs0 : val scale ≠ 0 := fun h0 => hs ((Sfp.eq scale 0).2 (by rw [Sfp.zero]; exact h0))
    have hspos : 0 < val scale := lt_of_le_of_ne (hsc.nonneg hw hsnn) hs0.symm
    have hex : ∃ k, m ≤ k ∧ k < n ∧ val (F k (m - 1)) ≠ 0 := by
      by_contra hne
      push Not at hne
      refine hs0 ((hsc.zero_iff hw).2 (Finset.sum_eq_zero fun t ht => ?_))
      rw [Finset.mem_Ico] at ht
      rw [hne t ht.1 ht.2, abs_zero]
    obtain ⟨⟨ort1, hn0⟩, hr1, ho1, hsum⟩ := orthScale_ok ho hI.h hs0 (show m ≤ n by omega) hm1
    dsimp only at ho1 hsum
    rw [hr1, ok_bind]
    dsimp only
    obtain ⟨g0, hg0, a, c, η, H⟩ := house_orth (show m < n by omega) (fun t => F t (m - 1)) hspos hex hsum
    rw [hg0, ok_bind, ho1.rd (i := m) (by omega) le_rfl, ok_bind]
    beta_reduce at H
    set g : α := if FloatOps.lt 0 (dv (F m (m - 1)) scale) then -g0 else g0 with hg
    set y : α := hn0 - dv (F m (m - 1)) scale * g with hy
    change Post (do
      let ort ← LA.wr ort1 m (dv (F m (m - 1)) scale - g)
      let h ← loop m n h fun j h => orthCol n m j y ort h
      let h ← loop 0 n h fun i h => orthRow n m i y ort h
      let ort ← LA.wr ort m (scale * (← LA.rd ort m))
      let h ← LA.wr h (m * n + (m - 1)) (scale * g)
      return (h, ort)) _
    obtain ⟨ort2, hr2, ho2⟩ := ho1.wr (i := m) (by omega) (dv (F m (m - 1)) scale - g)
    rw [hr2, ok_bind]
    set x : Nat → α := updv (fun i => dv (F i (m - 1)) scale) m (dv (F m (m - 1)) scale - g) with hx
    have Hu : ∀ t, m ≤ t → t < n → Rt (w α) (n + 6) (val (x t)) (a t) := by
      intro t h1 h2
      have h3 := H.u t h1 h2
      have e : x t = (if t = m then dv (F t (m - 1)) scale - g else dv (F t (m - 1)) scale) := by
        simp only [hx, updv]
        by_cases h3 : t = m
        · rw [if_pos h3, if_pos h3, h3]
        · rw [if_neg h3, if_neg h3]
      rw [e]
      exact h3
    have hPu : ∀ i, m ≤ i → i < n → m ≤ i ∨ i = m := fun i h1 _ => Or.inl h1
    obtain ⟨h2, hr3, G, hG, hG1, hG2⟩ := orthCols_ok ho2 hPu hI.h (show m ≤ n by omega) H.pos H.h Hu
    rw [hr3, ok_bind]
    obtain ⟨h3, hr4, Z, hZ, hZ1, hZ2⟩ := orthRows_ok ho2 hPu hG (show m ≤ n by omega) H.pos H.h Hu
    rw [hr4, ok_bind, ho2.rd (i := m) (by omega) (Or.inr rfl), ok_bind]
    obtain ⟨ort3, hr5, ho3⟩ := ho2.wr (i := m) (by omega) (scale * x m)
    obtain ⟨h4, hr6, hF4⟩ := hZ.wr (i := m) (j := m - 1) (by omega) (by omega) (scale * g)
    rw [hr5, ok_bind, hr6, ok_bind]
    clear hr1 hr2 hr3 hr4 hr5 hr6 hG hZ
    -- the tables, with zeros
    set X : Nat → Nat → ℝ := hz m (tt F) with hX
    set Y : Nat → Nat → ℝ := hz (m + 1) (tt (upd G m (m - 1) (scale * g))) with hY
    set Z' : Nat → Nat → ℝ := hz (m + 1) (tt (upd Z m (m - 1) (scale * g))) with hZ'
    have hlerr : LErr (ko α n) m n a c X Y := by
      intro i j hi hj
      by_cases hmi : m ≤ i
      swap
      · rw [if_neg hmi, mul_zero]
        unfold reflL
        rw [if_neg hmi, hX, hY]
        unfold hz tt
        rw [upd_ne (by omega), hG1 i j (by omega)]
        by_cases h5 : j + 1 < i
        · rw [if_pos (by omega), if_pos (by omega), sub_self, abs_zero]
        · rw [if_neg (by omega), if_neg (by omega), sub_self, abs_zero]
      rw [if_pos hmi]
      have hnn : 0 ≤ |X i j| + |a i| / c * ∑ t ∈ Ico m n, |a t| * |X t j| := by
        have := H.pos
        have : 0 ≤ ∑ t ∈ Ico m n, |a t| * |X t j| := Finset.sum_nonneg fun _ _ => by positivity
        positivity
      by_cases hmj : m ≤ j
      · have e1 : ∀ t, X t j = val (F t j) := fun t => if_neg (by omega)
        have e2 : Y i j = val (G i j) := by
          rw [hY]; unfold hz tt
          rw [if_neg (by omega), upd_ne (by omega)]
        have e3 : reflL m n a c X i j = reflL m n a c (tt F) i j := by
          unfold reflL
          simp only [e1, tt]
        rw [e2, e3]
        simp only [e1]
        exact hG2 i j hmi hi hmj hj
      · by_cases hj1 : j + 1 < m
        · have e1 : ∀ t, m ≤ t → X t j = 0 := fun t ht => if_pos ⟨hj1, by omega⟩
          have e2 : Y i j = 0 := if_pos ⟨by omega, by omega⟩
          have e3 : reflL m n a c X i j = 0 := by
            unfold reflL
            rw [if_pos hmi, e1 i hmi, Finset.sum_eq_zero (fun t ht => by rw [e1 t (Finset.mem_Ico.1 ht).1, mul_zero])]
            ring
          rw [e2, e3, sub_self, abs_zero]
          exact mul_nonneg hk hnn
        · have hjm : j = m - 1 := by omega
          have e1 : ∀ t, X t j = val (F t (m - 1)) := fun t => by rw [hX, hjm]; exact if_neg (by omega)
          have e3 : reflL m n a c X i j = if i = m then η else 0 := by
            unfold reflL
            rw [if_pos hmi]
            simp only [e1]
            exact H.row i hmi hi
          by_cases e : i = m
          · have e2 : Y i j = val (scale * g) := by
              rw [hY, hjm, e]; unfold hz tt
              rw [if_neg (by omega), upd_same]
            have e4 : |η| ≤ |X i j| + |a i| / c * ∑ t ∈ Ico m n, |a t| * |X t j| := by
              rw [if_pos e] at e3
              rw [← e3]
              unfold reflL
              rw [if_pos hmi]
              refine (abs_sub _ _).trans (add_le_add le_rfl ?_)
              rw [abs_mul, abs_div, abs_of_pos H.pos, show |a i| / c * ∑ t ∈ Ico m n, |a t| * |X t j| = (∑ t ∈ Ico m n, |a t| * |X t j|) / c * |a i| by ring]
              refine mul_le_mul_of_nonneg_right (div_le_div_of_nonneg_right ?_ H.pos.le) (abs_nonneg _)
              refine (Finset.abs_sum_le_sum_abs _ _).trans (le_of_eq (Finset.sum_congr rfl fun t _ => abs_mul _ _))
            rw [e2, e3, if_pos e]
            exact ((H.e.mono hw (show n + 6 ≤ 4 * n + 22 by omega)).sub hw).trans (mul_le_mul_of_nonneg_left e4 hk)
          · have e2 : Y i j = 0 := if_pos ⟨by omega, by omega⟩
            rw [e2, e3, if_neg e, sub_self, abs_zero]
            exact mul_nonneg hk hnn
    have hrerr : RErr (ko α n) m n a c Y Z' := by
      intro i j hi hj
      by_cases hmj : m ≤ j
      · rw [if_pos hmj]
        have e1 : ∀ t, m ≤ t → Y i t = val (G i t) := by
          intro t ht
          rw [hY]; unfold hz tt
          rw [if_neg (by omega), upd_ne (by omega)]
        have e2 : Z' i j = val (Z i j) := by
          rw [hZ']; unfold hz tt
          rw [if_neg (by omega), upd_ne (by omega)]
        have e3 : ∑ t ∈ Ico m n, |a t| * |Y i t| = ∑ t ∈ Ico m n, |a t| * |val (G i t)| :=
          Finset.sum_congr rfl fun t ht => by rw [e1 t (Finset.mem_Ico.1 ht).1]
        have e4 : reflR m n a c Y i j = reflR m n a c (tt G) i j := by
          unfold reflR
          rw [if_pos hmj, if_pos hmj, e1 j hmj]
          congr 3
          exact Finset.sum_congr rfl fun t ht => by rw [e1 t (Finset.mem_Ico.1 ht).1]; rfl
        rw [e2, e3, e4, e1 j hmj]
        exact hZ2 i j hi hmj hj
      · rw [if_neg hmj, mul_zero]
        unfold reflR
        rw [if_neg hmj, hY, hZ']
        unfold hz tt upd
        simp only [hZ1 i j (by omega), sub_self, abs_zero, le_refl]
    have hP := hh_orth (vlo_dot H.sq)
    have f1 := hlerr.frob hk H.sq
    have f2 := hrerr.frob hk H.sq
    set Q := hh (vlo n m a) c with hQ
    have hQt : Qᵀ = Q := hh_transpose _ _
    set M := frob A + E with hM
    have n1 : frob (pk n n X) ≤ M := hI.sm.nrm
    have n2 : frob (pk n n Y) ≤ (1 + 3 * ko α n) * M := by
      have h5 := frob_add_le (pk n n Y - Q * pk n n X) (Q * pk n n X)
      rw [sub_add_cancel, frob_mul_left _ hP] at h5
      have := mul_le_mul_of_nonneg_left n1 hk
      linarith
    -- the exact similarity
    have s1 : Sm n A (reflR m n a c V) (reflR m n a c (reflL m n a c X)) E := by
      refine hI.sm.sim hP (pk_reflR _ _ _) ?_
      rw [pk_reflR, pk_reflL, ← hQ, hQt]
    have f3 : frob (pk n n (reflR m n a c (reflL m n a c X)) - pk n n Z') ≤ 3 * ko α n * M + 3 * ko α n * ((1 + 3 * ko α n) * M) := by
      rw [pk_reflR, pk_reflL, ← hQ]
      refine (frob_tri _ (pk n n Y * Q) _).trans (add_le_add ?_ ?_)
      · rw [← Matrix.sub_mul, frob_mul_orth _ hP, frob_sub_comm]
        exact f1.trans (mul_le_mul_of_nonneg_left n1 (by linarith))
      · rw [frob_sub_comm]
        exact f2.trans (mul_le_mul_of_nonneg_left n2 (by linarith))
    refine Post.ok ⟨_, reflR m n a c V, _, ⟨hF4, ⟨updv x m (scale * x m), ho3.mono fun _ _ h => h.elim⟩, s1.pert f3⟩, ?_⟩
    rw [hM]
    refine le_of_eq ?_
    ring

end Std
end LA
