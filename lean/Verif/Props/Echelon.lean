import Verif.Props.Signs
import Mathlib.Data.List.Sort

/-!
# C95: triangular systems, diagonal and permutation matrices

The rows of an upper triangular matrix in any order: elimination only finds that order.  The factors are exact, `solve` is back
substitution, and for diagonal and permutation matrices solution and inverse are the correctly rounded (or exact) ones.
-/

namespace LA.Props
open LA F64 LU.Rnd
set_option linter.unusedSectionVars false

variable {n p : Nat}

theorem zero_sum {x y : Nat → F64} {k : Nat} (h : ∀ t, t < k → F64.isZero (x t * y t)) : F64.isZero (fdot x y k) := by
  unfold fdot
  induction k with
  | zero => rfl
  | succ k ih =>
    obtain ⟨s, hs⟩ := isZero_iff.1 (ih fun t ht => h t (by omega))
    obtain ⟨t, ht⟩ := isZero_iff.1 (h k (by omega))
    show F64.isZero (facc (· + ·) 0 (fun i => x i * y i) k + x k * y k)
    rw [hs, ht, zero_add_zero]
    rfl

theorem zero_mul_fin {z x : F64} (hz : F64.isZero z) (hx : x.isFin) : F64.isZero (z * x) := by
  obtain ⟨s, rfl⟩ := isZero_iff.1 hz
  rw [mul_comm]
  exact mul_zero' x s hx

theorem sub_zero_agree (a : F64) {z : F64} (hz : F64.isZero z) : Agree (a - z) a := by
  obtain ⟨s, rfl⟩ := isZero_iff.1 hz
  show Agree (a + -zero s) a
  rw [neg_zero]
  by_cases h : F64.isZero a
  · obtain ⟨t, rfl⟩ := isZero_iff.1 h
    rw [zero_add_zero]
    exact Or.inr ⟨rfl, rfl⟩
  · exact Or.inl (add_zero' a _ h)

theorem agree_fin {x y : F64} (h : Agree x y) (hy : y.isFin) : x.isFin := by
  rcases h with rfl | ⟨h, -⟩
  · exact hy
  · obtain ⟨s, rfl⟩ := isZero_iff.1 h
    cases s <;> trivial

theorem agree_zero {x y : F64} (h : Agree x y) : F64.isZero x ↔ F64.isZero y := by
  rcases h with rfl | ⟨h1, h2⟩
  · exact Iff.rfl
  · exact ⟨fun _ => h2, fun _ => h1⟩

theorem zero_iff_val {x : F64} (h : x.isFin) : x.toReal = 0 ↔ F64.isZero x := by
  have := Fp.eq x 0 h (Fp.zero (α := F64)).1
  rw [(Fp.zero (α := F64)).2, F64.eq_zero_iff] at this
  exact this.symm

/-- The factorisation of the rows of an upper triangular `T` in the order `ρ`. -/
theorem echelon {T : Matrix (Fin n) (Fin n) F64} {ρ σ : Equiv.Perm (Fin n)} {G : Nat → Nat → F64} (hf : ∀ i j, (T i j).isFin)
    (hz : ∀ i j : Fin n, j < i → F64.isZero (T i j)) (h : ∀ c, c < n → Col n (ext (T.submatrix ρ id)) G σ c) :
    (∀ c, c ≤ n → (∀ k : Fin n, k.1 < c → ¬ F64.isZero (T k k)) →
      ∀ k : Fin n, k.1 < c → ρ (σ k) = k ∧ (∀ i : Fin n, i ≤ k → Agree (G i k) (T i k)) ∧ ∀ i : Fin n, k < i → F64.isZero (G i k)) ∧
      ∀ c : Fin n, (∀ k : Fin n, k < c → ¬ F64.isZero (T k k)) → F64.isZero (T c c) → F64.isZero (G c c) := by
  have key : ∀ c (hc : c < n), (∀ k : Fin n, k.1 < c → ρ (σ k) = k ∧ (∀ i : Fin n, i ≤ k → Agree (G i k) (T i k)) ∧
      ∀ i : Fin n, k < i → F64.isZero (G i k)) →
      (∀ i : Fin n, i.1 < c → Agree (G i c) (T i ⟨c, hc⟩)) ∧
      ∀ i : Fin n, c ≤ i.1 → Agree (W (ext (T.submatrix ρ id) (σ i) c) G i c) (T (ρ (σ i)) ⟨c, hc⟩) := by
    intro c hc ih
    have hA : ∀ i : Fin n, ext (T.submatrix ρ id) (σ i) c = T (ρ (σ i)) ⟨c, hc⟩ := fun i => by
      rw [ext_eq _ (σ i).2 hc]; rfl
    have hW : ∀ i : Fin n, (∀ t, t < i.1 → t < c → ∀ ht : t < n, Agree (G t c) (T ⟨t, ht⟩ ⟨c, hc⟩)) →
        Agree (W (ext (T.submatrix ρ id) (σ i) c) G i c) (T (ρ (σ i)) ⟨c, hc⟩) := by
      intro i hi
      unfold W
      rw [hA]
      refine sub_zero_agree _ (zero_sum fun t ht => ?_)
      have htn : t < n := by omega
      refine zero_mul_fin ((ih ⟨t, htn⟩ (by dsimp only; omega)).2.2 i (by show t < i.1; omega)) ?_
      exact agree_fin (hi t (by omega) (by omega) htn) (hf _ _)
    have hup : ∀ k (hk : k < n), k < c → Agree (G k c) (T ⟨k, hk⟩ ⟨c, hc⟩) := by
      intro k
      induction k using Nat.strong_induction_on with
      | _ k ihk =>
        intro hk hkc
        have := hW ⟨k, hk⟩ fun t ht htc htn => ihk t ht htn htc
        rw [(ih ⟨k, hk⟩ hkc).1] at this
        rw [show G k c = _ from (h c hc).up ⟨k, hk⟩ hkc.le]
        exact this
    exact ⟨fun i hi => hup i i.2 hi, fun i hi => hW i fun t _ htc htn => hup t htn htc⟩
  have hge : ∀ c, c < n → (∀ k : Fin n, k.1 < c → ρ (σ k) = k) → ∀ i : Fin n, c ≤ i.1 → c ≤ (ρ (σ i)).1 := by
    intro c hc hk i hi
    by_contra h0
    have := hk (ρ (σ i)) (by omega)
    rw [ρ.apply_eq_iff_eq, σ.apply_eq_iff_eq] at this
    rw [this] at h0
    exact h0 hi
  have main : ∀ c, c ≤ n → (∀ k : Fin n, k.1 < c → ¬ F64.isZero (T k k)) →
      ∀ k : Fin n, k.1 < c → ρ (σ k) = k ∧ (∀ i : Fin n, i ≤ k → Agree (G i k) (T i k)) ∧ ∀ i : Fin n, k < i → F64.isZero (G i k) := by
    intro c
    induction c with
    | zero => exact fun _ _ k hk => absurd hk (by omega)
    | succ c ih =>
      intro hc hnz k hk
      have ih := ih (by omega) fun k hk => hnz k (by omega)
      by_cases hkc : k.1 < c
      · exact ih k hkc
      have hcn : c < n := by omega
      have e : k = ⟨c, hcn⟩ := Fin.ext (by dsimp only; omega)
      obtain ⟨k1, k2⟩ := key c hcn ih
      have hge := hge c hcn fun k hk => (ih k hk).1
      have hd := hnz k hk
      have C := h c hcn
      have hW0 : ∀ i : Fin n, c ≤ i.1 → ρ (σ i) ≠ k → F64.isZero (W (ext (T.submatrix ρ id) (σ i) c) G i c) := by
        intro i hi hne
        refine (agree_zero (k2 i hi)).2 (hz _ _ ?_)
        have := hge i hi
        rw [Fin.lt_def]
        dsimp only
        refine lt_of_le_of_ne this fun h0 => hne ?_
        rw [e]; exact Fin.ext h0.symm
      have hfin : ∀ i : Fin n, c ≤ i.1 → Fp.fin (W (ext (T.submatrix ρ id) (σ i) c) G i c) := fun i hi => agree_fin (k2 i hi) (hf _ _)
      -- the row that belongs here
      have hi0 : c ≤ (σ.symm (ρ.symm k)).1 := by
        by_contra h0
        have := (ih (σ.symm (ρ.symm k)) (by omega)).1
        rw [Equiv.apply_symm_apply, Equiv.apply_symm_apply] at this
        rw [← this] at h0
        omega
      have hp := C.piv hfin _ hi0
      have ha := k2 _ hi0
      rw [Equiv.apply_symm_apply] at hp
      rw [Equiv.apply_symm_apply, Equiv.apply_symm_apply] at ha
      have hg : G c c = W (ext (T.submatrix ρ id) (σ ⟨c, hcn⟩) c) G c c := C.up ⟨c, hcn⟩ le_rfl
      have hg0 : ¬ F64.isZero (G c c) := by
        intro h0
        have hgf : (G c c).isFin := by rw [hg]; exact hfin ⟨c, hcn⟩ le_rfl
        have e1 : |Fp.val (G c c)| = 0 := by
          rw [abs_eq_zero]
          exact (zero_iff_val hgf).2 h0
        rw [e1, abs_nonpos_iff] at hp
        have h2 := (zero_iff_val (hfin _ hi0)).1 (by rw [Equiv.apply_symm_apply]; exact hp)
        rw [Equiv.apply_symm_apply, agree_zero ha, ← e] at h2
        exact hd h2
      have hr : ρ (σ k) = k := by
        by_contra hne
        rw [e] at hne
        refine hg0 ?_
        rw [hg]
        exact hW0 ⟨c, hcn⟩ le_rfl (by rw [e]; exact hne)
      refine ⟨hr, fun i hi => ?_, fun i hi => ?_⟩
      · rcases Nat.lt_or_ge i.1 c with hic | hic
        · have := k1 i hic
          rw [← e] at this
          rw [show k.1 = c by omega]
          exact this
        · have e2 : i = k := Fin.ext (by have : i.1 ≤ k.1 := hi; omega)
          have := k2 k (by omega)
          rw [hr, ← e] at this
          rw [e2, show G k k = G c c by rw [show k.1 = c by omega], hg, show σ ⟨c, hcn⟩ = σ k by rw [e]]
          rw [show k.1 = c by omega] at this
          exact this
      · have hi' : c < i.1 := by have : k.1 < i.1 := hi; omega
        have hl := C.lo i hi'
        have h0 := hW0 i hi'.le fun h1 => by
          rw [← hr, ρ.apply_eq_iff_eq, σ.apply_eq_iff_eq] at h1
          rw [h1] at hi; exact lt_irrefl _ hi
        rw [show k.1 = c by omega]
        unfold LU.Rnd.Quot at hl
        split at hl
        · rw [hl]; exact h0
        · rw [rdiv_ok hl]
          obtain ⟨s, hs⟩ := isZero_iff.1 h0
          have hgf : (G c c).isFin := by rw [hg]; exact hfin ⟨c, hcn⟩ le_rfl
          rw [hs]
          rcases zero_div s hg0 with h3 | h3
          · exact h3
          · exfalso
            have h4 : ∀ (s : Bool) (y : F64), y.isFin → ¬ F64.isZero y → F64.div (zero s) y ≠ .nan := by
              intro s y hy hy0
              rcases y with _ | t | ⟨t, b, hb⟩
              · exact hy.elim
              · exact hy.elim
              · have hb0 : b ≠ 0 := hy0
                show F64.div (.fin s 0 _) _ ≠ _
                rw [div_fin, if_neg hb0, Nat.zero_mul, mk_zero _ (Nat.pos_of_ne_zero hb0)]
                exact F64.noConfusion
            exact h4 s _ hgf hg0 h3
  refine ⟨main, fun c hnz h0 => ?_⟩
  have ih := main c c.2.le hnz
  obtain ⟨-, k2⟩ := key c c.2 ih
  rw [show G c c = _ from (h c c.2).up c le_rfl]
  refine (agree_zero (k2 c le_rfl)).2 ?_
  have := hge c c.2 (fun k hk => (ih k hk).1) c le_rfl
  by_cases h1 : ρ (σ c) = c
  · rw [h1]; exact h0
  · refine hz _ _ ?_
    rw [Fin.lt_def]
    exact lt_of_le_of_ne this fun h2 => h1 (Fin.ext h2.symm)

/-- What C95 is about: `A` consists of the rows of `T` in some order (row `i` of `A` is row `ρ i` of `T`); `T` is upper triangular and
finite. -/
structure Echelon (T A : Matrix (Fin n) (Fin n) F64) (ρ : Equiv.Perm (Fin n)) : Prop where
  rows : ∀ i j, A i j = T (ρ i) j
  upper : ∀ i j : Fin n, j < i → F64.isZero (T i j)
  finite : ∀ i j, (T i j).isFin

theorem Echelon.eq {T A : Matrix (Fin n) (Fin n) F64} {ρ : Equiv.Perm (Fin n)} (h : Echelon T A ρ) : A = T.submatrix ρ id := by
  ext i j; exact h.rows i j

/-- The factors, packed. -/
theorem echelon_packed (hn : 0 < n) {T A : Matrix (Fin n) (Fin n) F64} {ρ : Equiv.Perm (Fin n)} (h : Echelon T A ρ)
    (hd : ∀ i, ¬ F64.isZero (T i i)) :
    ∃ G : Nat → Nat → F64, LU.new (ofM A) =
      .ok ⟨ofM (Matrix.of fun (i j : Fin n) => G i j), decide (Equiv.Perm.sign ρ = 1), List.ofFn fun i => (ρ.symm i).1⟩ ∧
      (∀ i j : Fin n, i ≤ j → Agree (G i j) (T i j)) ∧ ∀ i j : Fin n, j < i → F64.isZero (G i j) := by
  obtain ⟨G, σ, e, hG⟩ := LU.Rnd.new_ofM hn hn A
  rw [h.eq] at hG
  have hm := (echelon h.finite h.upper hG).1 n le_rfl fun k _ => hd k
  have hσ : σ = ρ.symm := Equiv.ext fun k => by rw [Equiv.eq_symm_apply]; exact (hm k k.2).1
  subst hσ
  rw [Equiv.Perm.sign_symm] at e
  exact ⟨G, e, fun i j hij => (hm j j.2).2.1 i hij, fun i j hij => (hm j j.2).2.2 i hij⟩

/-- C95: the factors are found without rounding: `L = 1`, `U = T`, up to the signs of zeros, and the pivot vector is the order of the
rows. -/
theorem C95_factors (hn : 0 < n) {T A : Matrix (Fin n) (Fin n) F64} {ρ : Equiv.Perm (Fin n)} (h : Echelon T A ρ)
    (hd : ∀ i, ¬ F64.isZero (T i i)) :
    ∃ (x : LU F64) (L U : Matrix (Fin n) (Fin n) F64), LU.new (ofM A) = .ok x ∧ x.getPiv = (List.ofFn fun i => (ρ.symm i).1) ∧
      x.getL = .ok (ofM L) ∧ x.getU = .ok (ofM U) ∧ (∀ i j, Agree (L i j) ((1 : Matrix (Fin n) (Fin n) F64) i j)) ∧ ∀ i j, Agree (U i j) (T i j) := by
  obtain ⟨G, e, h1, h2⟩ := echelon_packed hn h hd
  have hl := LU.Rnd.getL_ok G hn hn (decide (Equiv.Perm.sign ρ = 1)) (List.ofFn fun i => (ρ.symm i).1)
  have hu := LU.Rnd.getU_ok G hn hn (decide (Equiv.Perm.sign ρ = 1)) (List.ofFn fun i => (ρ.symm i).1)
  rw [Nat.min_self] at hl hu
  refine ⟨_, _, _, e, rfl, hl, hu, fun i j => ?_, fun i j => ?_⟩
  · unfold LU.Rnd.lowerA
    simp only [Matrix.of_apply]
    by_cases hji : j.1 < i.1
    · rw [if_pos hji, Matrix.one_apply_ne (fun h => by rw [h] at hji; exact lt_irrefl _ hji)]
      exact Or.inr ⟨h2 i j hji, rfl⟩
    · rw [if_neg hji]
      by_cases hij : i = j
      · subst hij
        rw [if_pos rfl, Matrix.one_apply_eq]
        exact Agree.refl _
      · rw [if_neg (fun h => hij (Fin.ext h)), Matrix.one_apply_ne hij]
        exact Agree.refl _
  · unfold LU.Rnd.upperA
    simp only [Matrix.of_apply]
    by_cases hij : i.1 ≤ j.1
    · rw [if_pos hij]
      exact h1 i j hij
    · rw [if_neg hij]
      exact Or.inr ⟨rfl, h.upper i j (by rw [Fin.lt_def]; omega)⟩

/-- Back substitution in floating point: `(b - x_{n-1} t_{i,n-1} - … - x_{i+1} t_{i,i+1}) / t_ii`, from the left. -/
def backSub (T : Matrix (Fin n) (Fin n) F64) (b : F64) (x : Fin n → F64) (i : Fin n) : F64 :=
  F64.div (((List.finRange n).reverse.filter fun j => i < j).foldl (fun a j => a - x j * T i j) b) (T i i)

theorem facc_fold {z : F64} {f : Nat → F64} (k : Nat) : facc (· - ·) z f k = (List.range k).foldl (fun a t => a - f t) z := by
  induction k with
  | zero => rfl
  | succ k ih => rw [List.range_succ, List.foldl_append, facc, ih]; rfl

theorem sub_facc_agree {z z' : F64} {f f' : Nat → F64} {k : Nat} (hz : Agree z z') (h : ∀ t, t < k → Agree (f t) (f' t)) :
    Agree (facc (· - ·) z f k) (facc (· - ·) z' f' k) := by
  induction k with
  | zero => exact hz
  | succ k ih => exact (ih fun t ht => h t (by omega)).sub (h k (by omega))

theorem sub_zeros_agree {z : F64} {f : Nat → F64} {k : Nat} (h : ∀ t, t < k → F64.isZero (f t)) : Agree (facc (· - ·) z f k) z := by
  induction k with
  | zero => exact Agree.refl z
  | succ k ih =>
    show Agree (facc (· - ·) z f k - f k) z
    exact (sub_zero_agree _ (h k (by omega))).trans (ih fun t ht => h t (by omega))

theorem reverse_filter (i : Fin n) : (List.finRange n).reverse.filter (fun j => decide (i < j)) =
    List.ofFn fun s : Fin (n - 1 - i.1) => (⟨n - 1 - s.1, by omega⟩ : Fin n) := by
  refine List.Pairwise.eq_of_mem_iff (r := fun a b : Fin n => b < a) ?_ ?_ fun j => ?_
  · refine List.Pairwise.filter _ ?_
    rw [List.pairwise_reverse]
    exact (List.sortedLT_finRange n).pairwise
  · rw [List.pairwise_ofFn]
    intro a b hab
    rw [Fin.lt_def]
    have : a.1 < b.1 := hab
    have := b.2
    dsimp only
    omega
  · rw [List.mem_filter, List.mem_reverse, List.mem_ofFn]
    have := j.2
    constructor
    · rintro ⟨-, h⟩
      have h : i.1 < j.1 := by simpa using h
      exact ⟨⟨n - 1 - j.1, by omega⟩, Fin.ext (by dsimp only; omega)⟩
    · rintro ⟨s, rfl⟩
      refine ⟨List.mem_finRange _, ?_⟩
      have := s.2
      rw [decide_eq_true_iff, Fin.lt_def]
      dsimp only
      omega

theorem backSub_eq (T : Matrix (Fin n) (Fin n) F64) (b : F64) (X : Nat → F64) (i : Fin n) :
    backSub T b (fun j => X j) i =
      F64.div (facc (· - ·) b (fun s => X (n - 1 - s) * ext T i (n - 1 - s)) (n - 1 - i)) (T i i) := by
  unfold backSub
  rw [reverse_filter, facc_fold, List.ofFn_eq_map, ← List.map_coe_finRange_eq_range, List.foldl_map, List.foldl_map]
  congr 2
  funext a s
  have hs : n - 1 - s.1 < n := by have := i.2; omega
  rw [ext_eq T i.2 hs]

/-- C95: `solve` is back substitution. -/
theorem C95_solve (hn : 0 < n) (hp : 0 < p) {T A : Matrix (Fin n) (Fin n) F64} {ρ : Equiv.Perm (Fin n)} (h : Echelon T A ρ)
    (hd : ∀ i, ¬ F64.isZero (T i i)) (B : Matrix (Fin n) (Fin p) F64) (hB : ∀ i j, (B i j).isFin) :
    ∃ X : Matrix (Fin n) (Fin p) F64, (ofM A).solve (ofM B) = .ok (some (ofM X)) ∧
      ∀ i j, Agree (X i j) (backSub T (B (ρ.symm i) j) (fun k => X k j) i) := by
  obtain ⟨G, e, h1, h2⟩ := echelon_packed hn h hd
  unfold Mat.solve
  rw [e, ok_bind]
  rcases LU.Rnd.solve_ok hn hp G (decide (Equiv.Perm.sign ρ = 1)) ρ.symm B with ⟨⟨i, hi⟩, -⟩ | ⟨-, X, Y, b, hY, hX⟩
  · rw [F64.eq_zero_iff, agree_zero (h1 i i le_rfl)] at hi
    exact absurd hi (hd i)
  refine ⟨_, b, fun i j => ?_⟩
  have hy : ∀ k (hk : k < n), Agree (Y k j) (B (ρ.symm ⟨k, hk⟩) j) := by
    intro k
    induction k using Nat.strong_induction_on with
    | _ k ih =>
      intro hk
      rw [show Y k j = _ from hY ⟨k, hk⟩ j]
      refine sub_zeros_agree fun t ht => ?_
      rw [mul_comm]
      exact zero_mul_fin (h2 ⟨k, hk⟩ ⟨t, by omega⟩ ht) (agree_fin (ih t ht (by omega)) (hB _ _))
  show Agree (X i j) (backSub T (B (ρ.symm i) j) (fun k => X k j) i)
  rw [backSub_eq T _ (fun k => X k j), rdiv_ok (hX i j)]
  refine Agree.div (sub_facc_agree (hy i i.2) fun t ht => ?_) (h1 i i le_rfl) ?_
  · have ht' : n - 1 - t < n := by omega
    rw [ext_eq T i.2 ht']
    exact Agree.mul (Agree.refl _) (h1 i ⟨n - 1 - t, ht'⟩ (by rw [Fin.le_def]; dsimp only; omega))
  · rw [agree_zero (h1 i i le_rfl)]
    exact hd i

/-- C95: a zero on the diagonal is noticed. -/
theorem C95_none (hn : 0 < n) (hp : 0 < p) {T A : Matrix (Fin n) (Fin n) F64} {ρ : Equiv.Perm (Fin n)} (h : Echelon T A ρ) {i : Fin n}
    (h0 : F64.isZero (T i i)) (B : Matrix (Fin n) (Fin p) F64) : (ofM A).solve (ofM B) = .ok none := by
  obtain ⟨G, σ, e, hG⟩ := LU.Rnd.new_ofM hn hn A
  rw [h.eq] at hG
  have hex : ∃ c, ∃ hc : c < n, F64.isZero (T ⟨c, hc⟩ ⟨c, hc⟩) := ⟨i.1, i.2, h0⟩
  classical
  obtain ⟨hc, h1⟩ := Nat.find_spec hex
  have h2 := (echelon h.finite h.upper hG).2 ⟨Nat.find hex, hc⟩ (fun k hk hk0 => Nat.find_min hex hk ⟨k.2, hk0⟩) h1
  unfold Mat.solve
  rw [e, ok_bind]
  rcases LU.Rnd.solve_ok hn hp G (decide (Equiv.Perm.sign σ = 1)) σ B with ⟨-, b⟩ | ⟨a, -⟩
  · exact b
  · have := a ⟨Nat.find hex, hc⟩
    rw [F64.eq_zero_iff.2 h2] at this
    cases this

/-- C95: the determinant is the product of the diagonal, with the sign of the permutation; only the products are rounded. -/
theorem C95_det (hn : 0 < n) {T A : Matrix (Fin n) (Fin n) F64} {ρ : Equiv.Perm (Fin n)} (h : Echelon T A ρ) (hd : ∀ i, ¬ F64.isZero (T i i)) :
    (ofM A).det = .ok ((List.finRange n).foldl (fun d i => d * T i i) (if Equiv.Perm.sign ρ = 1 then 1 else -1)) := by
  obtain ⟨G, e, h1, -⟩ := echelon_packed hn h hd
  unfold Mat.det
  simp only [ofM_cols _ hn, ofM_rows, ok_bind, beq_self_eq_true, assert_true]
  rw [e, ok_bind, det_packed hn]
  have hf : ∀ (z : F64) (k : Nat), facc (· * ·) z (fun k => G k k) k = (List.range k).foldl (fun d t => d * G t t) z := by
    intro z k
    induction k with
    | zero => rfl
    | succ k ih => rw [List.range_succ, List.foldl_append, facc, ih]; rfl
  rw [hf, ← List.map_coe_finRange_eq_range, List.foldl_map]
  have : (fun (d : F64) (i : Fin n) => d * G i i) = fun d i => d * T i i := by
    funext d i
    rw [(h1 i i le_rfl).nonzero (fun h => hd i ((agree_zero (h1 i i le_rfl)).1 h))]
  rw [this]
  simp only [decide_eq_true_eq]

/-- C95: a diagonal matrix, its rows in any order: the solutions are the correctly rounded quotients, if these are finite. -/
theorem C95_diagonal (hn : 0 < n) (hp : 0 < p) {T A : Matrix (Fin n) (Fin n) F64} {ρ : Equiv.Perm (Fin n)} (h : Echelon T A ρ)
    (hoff : ∀ i j, i ≠ j → F64.isZero (T i j)) (hd : ∀ i, ¬ F64.isZero (T i i)) (B : Matrix (Fin n) (Fin p) F64) (hB : ∀ i j, (B i j).isFin)
    (hq : ∀ i j, (F64.div (B (ρ.symm i) j) (T i i)).isFin) :
    ∃ X : Matrix (Fin n) (Fin p) F64, (ofM A).solve (ofM B) = .ok (some (ofM X)) ∧
      ∀ i j, Agree (X i j) (F64.div (B (ρ.symm i) j) (T i i)) := by
  obtain ⟨X, e, hX⟩ := C95_solve hn hp h hd B hB
  refine ⟨X, e, ?_⟩
  have key : ∀ k (i : Fin n) (j : Fin p), i.1 + k = n - 1 → Agree (X i j) (F64.div (B (ρ.symm i) j) (T i i)) := by
    intro k
    induction k using Nat.strong_induction_on with
    | _ k ih =>
      intro i j hk
      refine (hX i j).trans (Agree.div ?_ (Agree.refl _) (hd i))
      have hf : ∀ j' : Fin n, i < j' → F64.isZero (X j' j * T i j') := by
        intro j' hj'
        have hj'' : i.1 < j'.1 := hj'
        rw [mul_comm]
        exact zero_mul_fin (hoff i j' (ne_of_lt hj')) (agree_fin (ih (n - 1 - j'.1) (by omega) j' j (by omega)) (hq _ _))
      have hl : ∀ (l : List (Fin n)) (z : F64), (∀ j' ∈ l, i < j') → Agree (l.foldl (fun a j' => a - X j' j * T i j') z) z := by
        intro l
        induction l with
        | nil => exact fun z _ => Agree.refl z
        | cons a l ih =>
          intro z hl
          rw [List.foldl_cons]
          exact (ih _ fun j' hj' => hl j' (List.mem_cons_of_mem _ hj')).trans (sub_zero_agree z (hf a (hl a List.mem_cons_self)))
      exact hl _ _ fun j' hj' => by simpa using (List.mem_filter.1 hj').2
  intro i j
  exact key (n - 1 - i) i j (by have := i.2; omega)

/-- C95: the inverse of such a matrix. -/
theorem C95_inverse (hn : 0 < n) {T A : Matrix (Fin n) (Fin n) F64} {ρ : Equiv.Perm (Fin n)} (h : Echelon T A ρ)
    (hoff : ∀ i j, i ≠ j → F64.isZero (T i j)) (hd : ∀ i, ¬ F64.isZero (T i i)) (hq : ∀ i, (F64.div 1 (T i i)).isFin) :
    ∃ X : Matrix (Fin n) (Fin n) F64, (ofM A).inverse = .ok (some (ofM X)) ∧
      ∀ i j, Agree (X i j) (if ρ j = i then F64.div 1 (T i i) else 0) := by
  have h0 : ∀ i j, F64.isZero (F64.div 0 (T i j)) ∨ F64.isZero (T i j) := by
    intro i j
    by_cases h1 : F64.isZero (T i j)
    · exact Or.inr h1
    · left
      rcases zero_div false h1 with h2 | h2
      · exact h2
      · exfalso
        have := h.finite i j
        revert h1 h2 this
        generalize T i j = y
        rcases y with _ | t | ⟨t, b, hb⟩
        · exact fun _ _ h => h.elim
        · exact fun _ _ h => h.elim
        · intro hb0 h2 _
          have hb0 : b ≠ 0 := hb0
          unfold zero at h2
          rw [div_fin, if_neg hb0, Nat.zero_mul, mk_zero _ (Nat.pos_of_ne_zero hb0)] at h2
          exact F64.noConfusion h2
  have hz : ∀ i, F64.isZero (F64.div 0 (T i i)) := fun i => (h0 i i).resolve_right (hd i)
  have hf : ∀ {x : F64}, F64.isZero x → x.isFin := by
    intro x hx
    obtain ⟨s, rfl⟩ := isZero_iff.1 hx
    cases s <;> trivial
  obtain ⟨X, e, hX⟩ := C95_diagonal hn hn h hoff hd 1 (fun i j => by
    by_cases hij : i = j
    · subst hij; rw [Matrix.one_apply_eq]; exact (Fp.one (α := F64)).1
    · rw [Matrix.one_apply_ne hij]; exact (Fp.zero (α := F64)).1) (fun i j => by
    by_cases hij : ρ.symm i = j
    · subst hij; rw [Matrix.one_apply_eq]; exact hq i
    · rw [Matrix.one_apply_ne hij]; exact hf (hz i))
  refine ⟨X, by rw [inverse_eq hn]; exact e, fun i j => (hX i j).trans ?_⟩
  by_cases hij : ρ j = i
  · rw [if_pos hij, show ρ.symm i = j by rw [Equiv.symm_apply_eq]; exact hij.symm, Matrix.one_apply_eq]
    exact Agree.refl _
  · rw [if_neg hij, Matrix.one_apply_ne (fun h' => hij (by rw [← h', Equiv.apply_symm_apply]))]
    exact Or.inr ⟨hz i, rfl⟩

theorem div_one (x : F64) : F64.div x 1 = x := by
  have hs : ∀ s : Bool, (s != false) = s := by decide
  have h1 : (2 : Nat) ^ 1074 ≠ 0 := by positivity
  show F64.div x (.fin false (2 ^ 1074) _) = x
  rcases x with _ | s | ⟨s, a, ha⟩
  · rfl
  · rw [inf_fin, hs]
  · rw [div_fin, if_neg h1, hs, mk_exact (Nat.pos_of_ne_zero h1) ha]

/-- C95: a permutation matrix (entries exactly `0` and `1`, a one in row `i` at column `ρ i`) permutes the right-hand sides, without
any rounding, its inverse is its transpose, and its determinant the sign. -/
theorem C95_permutation (hn : 0 < n) (hp : 0 < p) (ρ : Equiv.Perm (Fin n)) (B : Matrix (Fin n) (Fin p) F64) (hB : ∀ i j, (B i j).isFin) :
    (∃ X : Matrix (Fin n) (Fin p) F64, (ofM (Matrix.of fun i j => if ρ i = j then (1 : F64) else 0)).solve (ofM B) = .ok (some (ofM X)) ∧
      ∀ i j, Agree (X (ρ i) j) (B i j)) ∧
    (∃ X : Matrix (Fin n) (Fin n) F64, (ofM (Matrix.of fun i j => if ρ i = j then (1 : F64) else 0)).inverse = .ok (some (ofM X)) ∧
      ∀ i j, Agree (X i j) (if ρ j = i then 1 else 0)) ∧
    (ofM (Matrix.of fun i j => if ρ i = j then (1 : F64) else 0)).det = .ok (if Equiv.Perm.sign ρ = 1 then 1 else -1) := by
  have h : Echelon (1 : Matrix (Fin n) (Fin n) F64) (Matrix.of fun i j => if ρ i = j then (1 : F64) else 0) ρ := by
    refine ⟨fun i j => rfl, fun i j hij => ?_, fun i j => ?_⟩
    · rw [Matrix.one_apply_ne (ne_of_gt hij)]; rfl
    · by_cases hij : i = j
      · subst hij; rw [Matrix.one_apply_eq]; exact (Fp.one (α := F64)).1
      · rw [Matrix.one_apply_ne hij]; exact (Fp.zero (α := F64)).1
  have h1 : ¬ F64.isZero (1 : F64) := by
    rw [← F64.eq_zero_iff]; decide +kernel
  have hd : ∀ i : Fin n, ¬ F64.isZero ((1 : Matrix (Fin n) (Fin n) F64) i i) := fun i => by rw [Matrix.one_apply_eq]; exact h1
  have hoff : ∀ i j : Fin n, i ≠ j → F64.isZero ((1 : Matrix (Fin n) (Fin n) F64) i j) := fun i j hij => by rw [Matrix.one_apply_ne hij]; rfl
  refine ⟨?_, ?_, ?_⟩
  · obtain ⟨X, e, hX⟩ := C95_diagonal hn hp h hoff hd B hB fun i j => by rw [Matrix.one_apply_eq, div_one]; exact hB _ _
    refine ⟨X, e, fun i j => ?_⟩
    have := hX (ρ i) j
    rwa [Matrix.one_apply_eq, div_one, Equiv.symm_apply_apply] at this
  · obtain ⟨X, e, hX⟩ := C95_inverse hn h hoff hd fun i => by rw [Matrix.one_apply_eq, div_one]; exact (Fp.one (α := F64)).1
    refine ⟨X, e, fun i j => ?_⟩
    have := hX i j
    rwa [Matrix.one_apply_eq, div_one] at this
  · rw [C95_det hn h hd]
    refine congrArg Except.ok ?_
    generalize (if Equiv.Perm.sign ρ = 1 then (1 : F64) else -1) = z
    have : ∀ l : List (Fin n), l.foldl (fun d i => d * (1 : Matrix (Fin n) (Fin n) F64) i i) z = z := by
      intro l
      induction l with
      | nil => rfl
      | cons a l ih => rw [List.foldl_cons, Matrix.one_apply_eq, F64.mul_one]; exact ih
    exact this _

/-- `2y = 1`, `3x + y = 1`: the rows of a triangular matrix in the wrong order. -/
example : Echelon !![dec 3 0, dec 1 0; dec 0 0, dec 2 0] !![dec 0 0, dec 2 0; dec 3 0, dec 1 0] (Equiv.swap 0 1) ∧
    (ofM !![dec 0 0, dec 2 0; dec 3 0, dec 1 0]).solve (ofM !![dec 1 0; dec 1 0]) = .ok (some (ofM !![F64.ofRat 1 6; dec 5 (-1)])) := by
  refine ⟨⟨?_, ?_, ?_⟩, by decide +kernel⟩
  · intro i j; fin_cases i <;> fin_cases j <;> decide +kernel
  · intro i j hij
    fin_cases i <;> fin_cases j <;> first | exact absurd hij (by decide) | (refine F64.eq_zero_iff.1 ?_; decide +kernel)
  · intro i j; fin_cases i <;> fin_cases j <;> decide +kernel

/-- The quotients of C95_diagonal must be finite: an overflow in one unknown spoils the others (`x = 1`, `1e-300 y = 1e300` in two
unknowns gives `x = NaN`). -/
example : (ofM !![dec 1 0, dec 0 0; dec 0 0, dec 1 (-300)]).solve (ofM !![dec 1 0; dec 1 300]) = .ok (some (ofM !![F64.nan; F64.inf false])) := by
  decide +kernel

end LA.Props
