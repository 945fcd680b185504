import Verif.Proofs.Leftover
import Verif.Proofs.Diverge
import Verif.Props.Total
import Verif.Props.Rounding

/-!
# C65–C70: unbounded loops, and IEEE doubles

The model of a call with an unbounded loop takes a step budget; `.error .fuel` means that the budget is spent and the call is still
running.  `F64` is IEEE binary64 (`Verif/IEEE.lean`).
-/

namespace LA.Props
open LA
set_option linter.unusedSectionVars false

/-- A call that never returns and never panics: whatever the number of steps, it is still running. -/
def RunsForever {β : Type} (call : Nat → R β) : Prop := ∀ steps, call steps = .error .fuel

/-- A call has one outcome: the steps it needs do not affect it.  If it is over after `k` steps, then it is over after any larger
number of steps, with the same result (or the same panic). -/
def OneOutcome {β : Type} (call : Nat → R β) : Prop := ∀ k l, k ≤ l → call k ≠ .error .fuel → call l = call k

theorem OneOutcome.of {β : Type} {call : Nat → R β} (h : ∀ k, Upto (call k) (call (k + 1))) : OneOutcome call := by
  intro k l hkl hk
  rcases upto_le h hkl with e | e
  · exact absurd e hk
  · exact e.symm

section general
variable {α : Type} [Zero α] [One α] [Add α] [Sub α] [Neg α] [Mul α] [FloatOps α] {m n : Nat}

/-- C65: `mt`, `SVD::new`, `SVD::direct` and `EigenDecomposition::new` have one outcome, on every matrix value and for every
element arithmetic. -/
theorem C65_budget (a : Mat α) :
    OneOutcome (fun k => a.mt k) ∧ OneOutcome (fun k => SVD.new k a) ∧ OneOutcome (fun k => SVD.direct k a) ∧
    OneOutcome (fun k => Eigen.new k a) :=
  ⟨.of (Mat.mt_upto a), .of (SVD.new_upto a), .of (SVD.direct_upto a), .of (Eigen.new_upto a)⟩

/-- The test that selects the symmetric algorithm: all pairs of mirrored entries (of the leading square block) compare equal. -/
def LooksSymmetric (A : Matrix (Fin m) (Fin n) α) : Prop :=
  ∀ (i j : Fin n) (hi : i.1 < m) (hj : j.1 < m), FloatOps.eq (A ⟨i, hi⟩ j) (A ⟨j, hj⟩ i) = true

theorem looks_iff (A : Matrix (Fin m) (Fin n) α) (hmn : n ≤ m) : Eigen.TestsSymm A hmn ↔ LooksSymmetric A :=
  ⟨fun h i j _ _ => h i j i.2 j.2, fun h i j hi hj => h ⟨i, hi⟩ ⟨j, hj⟩ (by omega) (by omega)⟩

/-- C66: `EigenDecomposition::new` on a matrix with at least as many rows as columns, over any arithmetic whose division and square
root return and that satisfies the laws of signs (`Signs`): after any number of steps it is still running, or it has returned `n`
real and imaginary parts and an `n × n` matrix of vectors (and then `get_d` returns an `n × n` matrix too), or – symmetric input
only – it has panicked with an index out of bounds.  No other panic occurs, and no uninitialised memory is read. -/
theorem C66_eigen [Total α] [Signs α] (hn : 0 < n) (hmn : n ≤ m) (A : Matrix (Fin m) (Fin n) α) (fuel : Nat) :
    (Eigen.new fuel (ofM A) = .error .fuel) ∨ (LooksSymmetric A ∧ Eigen.new fuel (ofM A) = .error .oob) ∨
    ∃ x, Eigen.new fuel (ofM A) = .ok x ∧ x.d.length = n ∧ x.e.length = n ∧ Shape n n x.v ∧ ∃ d, x.getD = .ok d ∧ Shape n n d := by
  have key := Eigen.new_runs (E := fun e => e = .fuel ∨ (LooksSymmetric A ∧ e = .oob)) A hn hmn fuel
    (fun _ => Or.inl rfl) (fun h => Or.inr ⟨(looks_iff A hmn).1 h, rfl⟩)
    (fun _ => Or.inl (Or.inl rfl))
  cases h : Eigen.new fuel (ofM A) with
  | error e =>
    rw [h] at key
    rcases key with e | ⟨s, e⟩
    · exact Or.inl (by rw [e])
    · exact Or.inr (Or.inl ⟨s, by rw [e]⟩)
  | ok x =>
    rw [h] at key
    have key : Eigen.Returned n x := key
    obtain ⟨d, hd, h1, h2⟩ := (Eigen.getD_runs hn key).total
    exact Or.inr (Or.inr ⟨x, rfl, key.2.1, key.2.2.1, shape_of key.2.2.2.1 key.2.2.2.2.1, d, hd, shape_of h1 h2⟩)

/-- C67 (NaN): `EigenDecomposition::new` runs forever on a matrix of NaNs with three columns or more.  `NaNs` are the laws of NaN:
operations on NaN give NaN, comparisons with NaN are false. -/
theorem C67_nan [Total α] [Signs α] [NaNs α] (hn : 3 ≤ n) (hmn : n ≤ m) (A : Matrix (Fin m) (Fin n) α) (hA : ∀ i j, NaNs.nan (A i j)) :
    RunsForever fun k => Eigen.new k (ofM A) :=
  Eigen.diverges_of_nan A hn hmn hA

theorem ld_ofM [NaNs α] {A : Matrix (Fin m) (Fin n) α} (hA : ∀ i j, NaNs.nan (A i j)) : Ld (fun _ => NaNs.nan) (ofM A).data := by
  intro r x hx
  have hr : r < m * n := by
    have := (List.getElem?_eq_some_iff.1 hx).1
    simpa using this
  have hn : 0 < n := by
    rcases Nat.eq_zero_or_pos n with h | h
    · subst h; simp at hr
    · exact h
  have h1 : r / n < m := Nat.div_lt_of_lt_mul (by rwa [Nat.mul_comm])
  have h2 : r % n < n := Nat.mod_lt _ hn
  have := idx_ofM A h1 h2
  rw [Nat.div_add_mod'] at this
  unfold idx at this
  rw [hx] at this
  cases this
  exact hA _ _

/-- C68 (NaN): `SVD::new` runs forever on a matrix of NaNs with at least two rows and two columns. -/
theorem C68_nan [Total α] [NaNs α] (hm : 2 ≤ m) (hn : 2 ≤ n) (A : Matrix (Fin m) (Fin n) α) (hA : ∀ i j, NaNs.nan (A i j)) :
    RunsForever fun k => SVD.new k (ofM A) := by
  intro k
  show SVD.new k (ofM A) = .error .fuel
  refine Runs.never (P := fun _ => True) ?_ ?_
  · rcases C60_svd (by omega) (by omega) k A with h | ⟨x, h, -⟩
    · rw [h]; rfl
    · rw [h]; trivial
  · unfold SVD.new
    rw [ofM_cols A (by omega), ok_bind]
    split
    · next h =>
      rw [C12_transpose (by omega), ok_bind]
      refine (SVD.newTall_nan (a := ofM A.transpose) (n := m) k (by simp) hm h.le (ld_ofM fun i j => hA j i)).bind fun _ h => h.elim
    · next h =>
      exact SVD.newTall_nan (a := ofM A) (n := n) k (by simp) hn (by simpa using h) (ld_ofM hA)

/-- C69 (SVD): with one row or one column, `SVD::new` returns after at most one step of its loop, in any such arithmetic (NaN and
infinite entries included).  C68 shows that two rows and two columns are not enough. -/
theorem C69_svd [Total α] (hm : 0 < m) (hn : 0 < n) (h1 : m = 1 ∨ n = 1) (A : Matrix (Fin m) (Fin n) α) :
    ∃ x, (∀ fuel, 1 ≤ fuel → SVD.new fuel (ofM A) = .ok x) ∧ Shape m m x.u ∧ Shape m n x.s ∧ Shape n n x.v := by
  have key : Runs (fun _ => False) (SVD.new 1 (ofM A)) fun x => Shape m m x.u ∧ Shape m n x.s ∧ Shape n n x.v := by
    unfold SVD.new
    rw [ofM_cols A hm, ok_bind]
    split
    · next h =>
      replace h : m < n := h
      rw [C12_transpose hm, ok_bind]
      refine (SVD.newTall_runs (E := fun _ => False) (a := ofM A.transpose) (m := n) (n := m) 1 rfl (by simp) hm h.le (Or.inr (by omega))).bind fun x ⟨h1, h2, h3, h4, h5, h6⟩ => ?_
      obtain ⟨S, hS⟩ := shape_of (m := n) (n := m) h3 h4
      rw [hS, C12_transpose hn, ok_bind]
      exact Runs.ok ⟨shape_of h5 h6, ⟨_, rfl⟩, shape_of h1 h2⟩
    · next h =>
      replace h : ¬ m < n := h
      exact (SVD.newTall_runs (E := fun _ => False) (a := ofM A) (m := m) (n := n) 1 rfl (by simp) hn (by omega) (Or.inr (by omega))).mono fun x ⟨h1, h2, h3, h4, h5, h6⟩ =>
        ⟨shape_of h1 h2, shape_of h3 h4, shape_of h5 h6⟩
  obtain ⟨x, hx, hs⟩ := key.total
  refine ⟨x, fun fuel hf => ?_, hs⟩
  exact ((C65_budget (ofM A)).2.1 1 fuel hf (by show SVD.new 1 (ofM A) ≠ _; rw [hx]; simp)).trans hx

/-- C69 (eigenvalues): with one or two columns and a matrix that does not compare symmetric (a NaN entry is enough),
`EigenDecomposition::new` returns after at most `n` steps, in any such arithmetic.  C67 shows that three columns are not enough. -/
theorem C69_eigen [Total α] [Signs α] (hn : 0 < n) (h2 : n ≤ 2) (hmn : n ≤ m) (A : Matrix (Fin m) (Fin n) α) (hA : ¬ LooksSymmetric A) :
    ∃ x, (∀ fuel, n ≤ fuel → Eigen.new fuel (ofM A) = .ok x) ∧ x.d.length = n ∧ x.e.length = n ∧ Shape n n x.v := by
  have key := Eigen.new_runs (E := fun _ => False) A hn hmn n (fun h => absurd ((looks_iff A hmn).1 h) hA)
    (fun h => absurd ((looks_iff A hmn).1 h) hA) (fun _ => Or.inr ⟨h2, le_rfl⟩)
  obtain ⟨x, h, key⟩ := key.total
  have key : Eigen.Returned n x := key
  exact ⟨x, fun fuel hf => ((C65_budget (ofM A)).2.2.2 n fuel hf (by show Eigen.new n (ofM A) ≠ _; rw [h]; simp)).trans h,
    key.2.1, key.2.2.1, shape_of key.2.2.2.1 key.2.2.2.2.1⟩

/-- C70: back-substitution starts each vector with the values that the variables `z`, `r`, `s` have from an earlier phase.  These values
do not matter: `EigenDecomposition::new` has the same outcome whatever they are, on every matrix value.  `Carry` are laws of arithmetic
with at most one NaN and of square roots; `f64` and the exact reals satisfy them. -/
theorem C70_leftover [Signs α] [Carry α] (leftover : Nat → Eigen.Left α) (fuel : Nat) (a : Mat α) :
    Eigen.newWith leftover fuel a = Eigen.new fuel a :=
  Eigen.newWith_left _ _ _ _

end general

/-! ## binary64 -/

/-- The binary64 number nearest to `p·10^e`. -/
def dec (p : Int) (e : Int) : F64 := if e < 0 then F64.ofRat p (10 ^ e.natAbs) else F64.ofRat (p * 10 ^ e.natAbs) 1

/-- A finite symmetric matrix with entries far apart. -/
def graded : Matrix (Fin 2) (Fin 2) F64 := !![dec 0 0, dec 1 (-160); dec 1 (-160), dec 1 160]

/-- A finite nonsymmetric matrix with large entries. -/
def large : Matrix (Fin 3) (Fin 3) F64 := !![dec 1 160, dec 2 160, dec 3 160; dec 4 160, dec 5 160, dec 6 160; dec 7 160, dec 8 160, dec 10 160]

/-- A finite matrix whose norm overflows. -/
def huge : Matrix (Fin 3) (Fin 3) F64 := fun _ _ => dec 8 307

theorem finite_of {m n : Nat} {A : Matrix (Fin m) (Fin n) F64} (h : ∀ i j, decide ((A i j).isFin) = true) : ∀ i j, (A i j).isFin :=
  fun i j => of_decide_eq_true (h i j)

/-- C66, the panic happens: `EigenDecomposition::new` on the finite symmetric `f64` matrix `[0, 1e-160; 1e-160, 1e160]` panics with an
index out of bounds. -/
theorem C66_panics : (∀ i j, (graded i j).isFin) ∧ LooksSymmetric graded ∧ ∀ fuel, 1 ≤ fuel → Eigen.new fuel (ofM graded) = .error .oob := by
  refine ⟨finite_of (by decide +kernel), ?_, fun fuel h => ?_⟩
  · have : ∀ (i j : Fin 2), FloatOps.eq (graded i j) (graded j i) = true := by decide +kernel
    exact fun i j _ _ => this i j
  · have h1 : Eigen.new 1 (ofM graded) = .error .oob := by decide +kernel
    exact ((C65_budget (ofM graded)).2.2.2 1 fuel h (by show Eigen.new 1 (ofM graded) ≠ _; rw [h1]; simp)).trans h1

/-- C67 (overflow): `EigenDecomposition::new` runs forever on the finite `f64` matrix `1e160·[1, 2, 3; 4, 5, 6; 7, 8, 10]`. -/
theorem C67_overflow : (∀ i j, (large i j).isFin) ∧ RunsForever fun k => Eigen.new k (ofM large) :=
  ⟨finite_of (by decide +kernel), Eigen.diverges_of_nanAfter large (by norm_num) le_rfl 1 (by decide +kernel)⟩

/-- C68 (overflow): `SVD::new` runs forever on the `3 × 3` `f64` matrix whose entries are all `8e307`. -/
theorem C68_overflow : (∀ i j, (huge i j).isFin) ∧ RunsForever fun k => SVD.new k (ofM huge) := by
  refine ⟨finite_of (by decide +kernel), fun k => ?_⟩
  have h1 : SVD.new (k + 1) (ofM huge) = .error .fuel := by
    refine Runs.never (P := fun _ => True) ?_ ?_
    · rcases C60_svd (by norm_num) (by norm_num) (k + 1) huge with h | ⟨x, h, -⟩
      · rw [h]; rfl
      · rw [h]; trivial
    · unfold SVD.new
      rw [ofM_cols huge (by norm_num), ok_bind, if_neg (by simp)]
      exact SVD.newTall_of_nanAfter (k := 1) (a := ofM huge) (by decide +kernel) k
  rcases SVD.new_upto (ofM huge) k with h | h
  · exact h
  · exact h.trans h1

/-! Non-vacuity: ordinary matrices return. -/

example : (Eigen.new 20 (ofM !![dec 1 0, dec 2 0; dec 3 0, dec 4 0])).isOk := by decide +kernel
example : (Eigen.new 20 (ofM !![dec 2 0, dec 1 0; dec 1 0, dec 3 0])).isOk := by decide +kernel
example : (SVD.new 20 (ofM !![dec 1 0, dec 2 0; dec 3 0, dec 4 0])).isOk := by decide +kernel
example : RunsForever fun k => Eigen.new k (ofM (fun _ _ => F64.nan : Matrix (Fin 4) (Fin 3) F64)) := C67_nan le_rfl (by norm_num) _ fun _ _ => rfl
example : RunsForever fun k => SVD.new k (ofM (fun _ _ => F64.nan : Matrix (Fin 2) (Fin 5) F64)) := C68_nan le_rfl (by norm_num) _ fun _ _ => rfl
example : ∃ x, ∀ fuel, 1 ≤ fuel → SVD.new fuel (ofM !![F64.nan; dec 1 0; dec 2 0]) = .ok x := by
  obtain ⟨x, h, -⟩ := C69_svd (m := 3) (n := 1) (by norm_num) (by norm_num) (Or.inr rfl) !![F64.nan; dec 1 0; dec 2 0]
  exact ⟨x, h⟩
example : ¬ LooksSymmetric !![F64.nan, dec 1 0; dec 2 0, dec 3 0] := fun h => absurd (h 0 0 (by norm_num) (by norm_num)) (by decide +kernel)
example : ¬ LooksSymmetric !![dec 1 0, dec 1 0; dec 2 0, dec 3 0] := fun h => absurd (h 0 1 (by norm_num) (by norm_num)) (by decide +kernel)

example (l : Nat → Eigen.Left F64) (k : Nat) (a : Mat F64) : Eigen.newWith l k a = Eigen.new k a := C70_leftover l k a
example (l : Nat → Eigen.Left ℝ) (k : Nat) (a : Mat ℝ) : Eigen.newWith l k a = Eigen.new k a := C70_leftover l k a

/-- The left-over values are really used by the model: on imaginary parts that are not paired they change the vector. -/
example : Eigen.realVec (⟨1, 0, 1⟩ : Eigen.Left F64) 2 1 1 1 [some 1, some 1] [some 1, some 0] [some 1, some 1, some 0, some 1] ≠
    Eigen.realVec ⟨1, 0, 0⟩ 2 1 1 1 [some 1, some 1] [some 1, some 0] [some 1, some 1, some 0, some 1] := by decide +kernel

end LA.Props
