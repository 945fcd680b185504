import Verif.Proofs.EigOrth
import Mathlib.Data.Complex.Basic

/-! # `get_d`, `cdiv`, and non-square arguments of `EigenDecomposition::new` -/

set_option linter.unusedSectionVars false

namespace LA
open Finset Matrix
namespace Eigen
open SVD (pk pk_congr)

/-- The table written by `get_d`. -/
noncomputable def dTab (d e : Nat → ℝ) : Nat → Nat → ℝ := fun i j =>
  if i = j then d i else if 0 < e i ∧ j = i + 1 then e i else if e i < 0 ∧ j + 1 = i then e i else 0

theorem getD_post {n : Nat} (hn : 0 < n) {d e : Nat → ℝ} (v : Mat ℝ) (h1 : ∀ i, i < n → 0 < e i → i + 1 < n)
    (h2 : ∀ i, i < n → e i < 0 → 0 < i) :
    getD ⟨n, List.ofFn fun i : Fin n => d i, List.ofFn fun i : Fin n => e i, v⟩ = .ok (ofM (pk n n (dTab d e))) := by
  unfold getD
  dsimp only
  have hd : ∀ i, i < n → idx (List.ofFn fun i : Fin n => d i) i = .ok (d i) := fun i hi => idx_eq (by
    rw [List.getElem?_ofFn, dif_pos hi])
  have he : ∀ i, i < n → idx (List.ofFn fun i : Fin n => e i) i = .ok (e i) := fun i hi => idx_eq (by
    rw [List.getElem?_ofFn, dif_pos hi])
  have hl := loop_rows (lo := 0) (hi := n) (d := alloc ℝ (n * n)) (f := fun i dd => do
    let dd ← loop 0 n dd fun j dd => wr dd (i * n + j) 0
    let dd ← wr dd (i * n + i) (← idx (List.ofFn fun i : Fin n => d i) i)
    if FloatOps.lt 0 (← idx (List.ofFn fun i : Fin n => e i) i) then wr dd (i * n + (i + 1)) (← idx (List.ofFn fun i : Fin n => e i) i)
    else if FloatOps.lt (← idx (List.ofFn fun i : Fin n => e i) i) 0 then wr dd (i * n + (← usub i 1)) (← idx (List.ofFn fun i : Fin n => e i) i)
    else return dd) (fun a b => some (dTab d e a b)) (grid_alloc n n) (by
    intro i d' G' _ hi hG _
    obtain ⟨d2, hr2, hG2⟩ := loop_cols (lo := 0) (hi := n) (f := fun j (dd : Buf ℝ) => wr dd (i * n + j) 0)
      (fun a b => if a = i then some 0 else G' a b) hG (by
      intro j d2 G2 _ hj hG2 h2
      refine (hG2.wr hi hj _).mono fun r h => h.congr fun a b ha hb => ?_
      have h3 := h2 a b
      clear h2
      simp only [upd]
      grind)
    obtain ⟨d3, hr3, hG3⟩ := hG2.wr hi hi (d i)
    rw [hr2, ok_bind, hd i hi, ok_bind, hr3, ok_bind, he i hi, ok_bind, lt_eq]
    by_cases c1 : 0 < e i
    · rw [if_pos (by simpa using c1), ok_bind]
      refine (hG3.wr hi (h1 i hi c1) _).mono fun r h => h.congr fun a b ha hb => ?_
      clear h h1 h2 hd he hG hG2 hG3
      simp only [upd, dTab]
      grind
    · rw [if_neg (by simpa using c1), ok_bind, lt_eq]
      by_cases c2 : e i < 0
      · have h3 := h2 i hi c2
        rw [if_pos (by simpa using c2), usub_ok (by omega), ok_bind, ok_bind]
        refine (hG3.wr hi (show i - 1 < n by omega) _).mono fun r h => h.congr fun a b ha hb => ?_
        clear h h1 h2 hd he hG hG2 hG3
        simp only [upd, dTab]
        grind
      · rw [if_neg (by simpa using c2)]
        refine Post.ok (hG3.congr fun a b ha hb => ?_)
        clear h1 h2 hd he hG hG2 hG3
        simp only [upd, dTab]
        grind)
  obtain ⟨dd, hr, hG⟩ := hl
  rw [hr, ok_bind, hG.freeze (pk n n (dTab d e)) (fun i j => (if_pos ⟨Nat.zero_le _, i.2⟩).trans rfl), ok_bind, Props.C01_new_ofM hn hn]

theorem cdiv_ok (xr xi yr yi : ℝ) (h : yr ≠ 0 ∨ yi ≠ 0) :
    cdiv xr xi yr yi = .ok ((xr * yr + xi * yi) / (yr ^ 2 + yi ^ 2), (xi * yr - xr * yi) / (yr ^ 2 + yi ^ 2)) := by
  unfold cdiv
  rw [lt_eq, Exact.abs_eq, Exact.abs_eq]
  by_cases hc : |yi| < |yr|
  · have h0 : yr ≠ 0 := by
      intro h0; rw [h0, abs_zero] at hc; exact absurd hc (not_lt.2 (abs_nonneg _))
    have hsq : yr ^ 2 + yi ^ 2 ≠ 0 := by positivity
    have hd : yr + yi / yr * yi ≠ 0 := by
      have : yr + yi / yr * yi = (yr ^ 2 + yi ^ 2) / yr := by field_simp
      rw [this]; exact div_ne_zero hsq h0
    rw [if_pos (by simpa using hc), rdiv_ok h0, ok_bind]
    dsimp only
    rw [rdiv_ok hd, ok_bind, rdiv_ok hd, ok_bind]
    have e : yr + yi / yr * yi = (yr ^ 2 + yi ^ 2) / yr := by field_simp
    rw [e]
    simp only [pure_eq_ok]
    congr 2
    · field_simp
    · field_simp
  · have h0 : yi ≠ 0 := by
      intro h0
      rw [h0, abs_zero] at hc
      rcases h with h | h
      · exact hc (abs_pos.2 h)
      · exact h h0
    have hsq : yr ^ 2 + yi ^ 2 ≠ 0 := by positivity
    have e : yi + yr / yi * yr = (yr ^ 2 + yi ^ 2) / yi := by field_simp; ring
    have hd : yi + yr / yi * yr ≠ 0 := by
      rw [e]; exact div_ne_zero hsq h0
    rw [if_neg (by simpa using hc), rdiv_ok h0, ok_bind]
    dsimp only
    rw [rdiv_ok hd, ok_bind, rdiv_ok hd, ok_bind]
    rw [e]
    simp only [pure_eq_ok]
    congr 2
    · field_simp
    · field_simp

section
variable {α : Type}

theorem loopF_congr {σ ρ : Type} {lo hi : Nat} {s : σ} {f g : Nat → σ → R (Flow σ ρ)}
    (h : ∀ i s, lo ≤ i → i < hi → f i s = g i s) : loopF lo hi s f = loopF lo hi s g := by
  by_cases hle : lo ≤ hi
  swap
  · rw [loopF_empty (by omega), loopF_empty (by omega)]
  obtain ⟨k, rfl⟩ : ∃ k, hi = lo + k := ⟨hi - lo, by omega⟩
  clear hle
  induction k generalizing lo s with
  | zero => rw [Nat.add_zero, loopF_self, loopF_self]
  | succ k ih =>
    rw [loopF_step (by omega), loopF_step (by omega), h lo s le_rfl (by omega)]
    congr 1
    funext o
    match o with
    | .ret r => rfl
    | .next s' =>
      have := ih (lo := lo + 1) (s := s') fun i s h1 h2 => h i s (by omega) (by omega)
      rw [show lo + 1 + k = lo + (k + 1) by omega] at this
      exact this

/-- `new` only looks at the leading square block. -/
theorem new_congr [Zero α] [One α] [Add α] [Sub α] [Neg α] [Mul α] [FloatOps α] {a b : Mat α} {n : Nat} (ha : a.cols = .ok n)
    (hb : b.cols = .ok n) (h : ∀ i j, i < n → j < n → a.get i j = b.get i j) (fuel : Nat) : new fuel a = new fuel b := by
  have h1 : isSymm n a = isSymm n b := by
    unfold isSymm
    congr 1
    refine loopF_congr fun j _ _ hj => ?_
    congr 1
    refine loopF_congr fun i _ _ hi => ?_
    rw [h i j hi hj, h j i hj hi]
  have h2 : ∀ v : Buf α, (loop 0 n v fun i v => loop 0 n v fun j v => do wr v (i * n + j) (← a.get i j)) =
      (loop 0 n v fun i v => loop 0 n v fun j v => do wr v (i * n + j) (← b.get i j)) := fun v =>
    loop_congr fun i s _ hi => loop_congr fun j s _ hj => by rw [h i j hi hj]
  have h3 : ∀ v : Buf α, (loop 0 n v fun j v => loop 0 n v fun i v => do wr v (i * n + j) (← a.get i j)) =
      (loop 0 n v fun j v => loop 0 n v fun i v => do wr v (i * n + j) (← b.get i j)) := fun v =>
    loop_congr fun j s _ hj => loop_congr fun i s _ hi => by rw [h i j hi hj]
  unfold new newWith
  rw [ha, hb, ok_bind, ok_bind]
  dsimp only
  rw [h1, h2, h3]

/-- The run succeeds or fails in an `assert!`. -/
def OA {β : Type} (x : R β) : Prop := (∃ a, x = .ok a) ∨ x = .error .assert

theorem OA.ok {β : Type} (a : β) : OA (.ok a : R β) := Or.inl ⟨a, rfl⟩

theorem OA.bind {β γ : Type} {x : R β} {f : β → R γ} (h : OA x) (hf : ∀ a, OA (f a)) : OA (x >>= f) := by
  rcases h with ⟨a, rfl⟩ | rfl
  · exact hf a
  · exact Or.inr rfl

theorem OA.loopF {σ ρ : Type} {lo hi : Nat} {s : σ} {f : Nat → σ → R (Flow σ ρ)} (h : ∀ i s, OA (f i s)) : OA (loopF lo hi s f) := by
  by_cases hle : lo ≤ hi
  swap
  · rw [loopF_empty (by omega)]; exact OA.ok _
  obtain ⟨k, rfl⟩ : ∃ k, hi = lo + k := ⟨hi - lo, by omega⟩
  clear hle
  induction k generalizing lo s with
  | zero => rw [Nat.add_zero, loopF_self]; exact OA.ok _
  | succ k ih =>
    rw [loopF_step (by omega)]
    refine (h lo s).bind fun o => ?_
    match o with
    | .next s' =>
      have := ih (lo := lo + 1) (s := s')
      rw [show lo + 1 + k = lo + (k + 1) by omega] at this
      exact this
    | .ret r => exact OA.ok _

theorem isSymm_oa [FloatOps α] {m n : Nat} (A : Matrix (Fin m) (Fin n) α) (k : Nat) : OA (isSymm k (ofM A)) := by
  have hg : ∀ i j, OA ((ofM A).get i j) := fun i j => by
    rw [Props.C04_get]
    split
    · exact OA.ok _
    · exact Or.inr rfl
  unfold isSymm
  refine OA.bind (OA.loopF fun j _ => OA.bind (OA.loopF fun i _ => (hg i j).bind fun _ => (hg j i).bind fun _ => ?_) fun o => ?_) fun o => ?_
  · split <;> exact OA.ok _
  · cases o <;> exact OA.ok _
  · cases o <;> exact OA.ok _

theorem new_wide [Zero α] [One α] [Add α] [Sub α] [Neg α] [Mul α] [FloatOps α] {m n : Nat} (hmn : m < n) (hm : 0 < m)
    (A : Matrix (Fin m) (Fin n) α) (fuel : Nat) : new fuel (ofM A) = .error .assert := by
  unfold new newWith
  rw [ofM_cols _ hm, ok_bind]
  dsimp only
  have hbad : (ofM A).get m 0 = .error .assert := by
    rw [Props.C04_get, dif_neg (by omega)]
  have hwr : ∀ (d : Buf α) i (x : α), d.length = n * n → i < n * n → Post (wr d i x) fun d' => d'.length = n * n := by
    intro d i x hd hi
    unfold wr
    rw [if_pos (by omega)]
    exact Post.ok (by simpa using hd)
  rcases isSymm_oa A n with ⟨b, hb⟩ | hb
  swap
  · rw [hb]; rfl
  rw [hb, ok_bind]
  cases b
  · have : loop 0 n (alloc α (n * n)) (fun j h => loop 0 n h fun i h => do wr h (i * n + j) (← (ofM A).get i j)) = .error .assert := by
      refine loop_error (fun _ d => d.length = n * n) (j := 0) le_rfl (by omega) (by simp) (fun i _ _ h => absurd h (by omega)) ?_
      intro d hd
      refine loop_error (fun _ d => d.length = n * n) (j := m) (Nat.zero_le _) hmn hd ?_ ?_
      · intro i d' _ hi hd'
        rw [ofM_get A hi (by omega), ok_bind]
        exact hwr _ _ _ hd' (rm_lt (by omega) (by omega))
      · intro d' _
        rw [hbad]; rfl
    rw [if_neg (by simp), this]; rfl
  · have : loop 0 n (alloc α (n * n)) (fun i v => loop 0 n v fun j v => do wr v (i * n + j) (← (ofM A).get i j)) = .error .assert := by
      refine loop_error (fun _ d => d.length = n * n) (j := m) (Nat.zero_le _) hmn (by simp) ?_ ?_
      · intro i d _ hi hd
        refine loop_post (fun _ (d : Buf α) => d.length = n * n) (Nat.zero_le _) hd ?_
        intro j d' _ hj hd'
        rw [ofM_get A hi hj, ok_bind]
        exact hwr _ _ _ hd' (rm_lt (by omega) hj)
      · intro d _
        rw [loop_step (by omega), hbad]; rfl
    rw [if_pos rfl, this]; rfl

end
end Eigen
end LA
