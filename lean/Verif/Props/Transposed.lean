import Verif.Proofs.SafeDecomp
import Verif.Props.Leading
import Verif.Props.Approx
import Verif.Props.Equality
import Verif.Props.SVDDiagonal

/-!
# C99: transposed input

What the calls return for the transpose, bit for bit: the singular value decomposition of a matrix that is not square is that of its transpose
with the factors exchanged; for a square matrix this is false.
-/

namespace LA.Props
open LA
set_option linter.unusedSectionVars false

variable {α : Type} [Zero α] [One α] [Add α] [Sub α] [Neg α] [Mul α] [FloatOps α] {m n : Nat}

/-- The decomposition of the transpose: `U` and `V` exchanged, `S` transposed. -/
def flip (x : SVD α) : R (SVD α) := do return ⟨x.v, ← x.s.t, x.u⟩

theorem flip_bind {r : R (SVD α)} (h : ∀ x, r = .ok x → WF x.s) : (do flip (← (do flip (← r)))) = r := by
  rcases r with e | x
  · rfl
  · obtain ⟨p, q, hp, hq, S, hS⟩ := (h x rfl).exists_ofM'
    rcases x with ⟨u, s, v⟩
    dsimp only at hS
    subst hS
    unfold flip
    simp only [ok_bind, t_ofM hp, t_ofM hq, pure_eq_ok]
    rfl

/-- C99: `SVD::new` of the transpose of a matrix that is not square: the same iteration, the same numbers. -/
theorem C99_svd [Clean α] (hm : 0 < m) (hn : 0 < n) (h : m ≠ n) (fuel : Nat) (A : Matrix (Fin m) (Fin n) α) :
    ((ofM A).t >>= SVD.new fuel) = (do let x ← SVD.new fuel (ofM A); return ⟨x.v, ← x.s.t, x.u⟩) := by
  show _ = (do flip (← SVD.new fuel (ofM A)))
  rw [C12_transpose hm, ok_bind]
  rcases Nat.lt_or_ge m n with hmn | hmn
  · have e1 : SVD.new fuel (ofM A.transpose) = SVD.newTall fuel (ofM A.transpose) := by
      unfold SVD.new
      rw [ofM_cols _ hn, ok_bind, ofM_rows, if_neg (by omega)]
    have e2 : SVD.new fuel (ofM A) = (do flip (← SVD.newTall fuel (ofM A.transpose))) := by
      unfold SVD.new
      rw [ofM_cols _ hm, ok_bind, ofM_rows, if_pos hmn, C12_transpose hm, ok_bind]
      rfl
    rw [e1, e2]
    refine (flip_bind fun x hx => ?_).symm
    have := (SVD.newTall_nu (a := ofM A.transpose) (n := m) fuel (by rw [ofM_length, ofM_rows])).2 x hx
    exact ⟨by rw [this.2.2.2.2.1]; exact this.1, m, this.2.1, by rw [this.2.2.2.2.2.1, this.2.2.2.2.1]⟩
  · have hnm : n < m := by omega
    unfold SVD.new
    rw [ofM_cols _ hm, ok_bind, ofM_rows, ofM_cols _ hn, ok_bind, ofM_rows, if_neg (show ¬ m < n by omega), if_pos hnm, C12_transpose hn, ok_bind]
    rfl

/-- C99: the same for `SVD::direct`. -/
theorem C99_direct [Signs α] [Clean α] (hm : 0 < m) (hn : 0 < n) (h : m ≠ n) (fuel : Nat) (A : Matrix (Fin m) (Fin n) α) :
    ((ofM A).t >>= SVD.direct fuel) = (do let x ← SVD.direct fuel (ofM A); return ⟨x.v, ← x.s.t, x.u⟩) := by
  show _ = (do flip (← SVD.direct fuel (ofM A)))
  rw [C12_transpose hm, ok_bind]
  rcases Nat.lt_or_ge m n with hmn | hmn
  · have e1 : SVD.direct fuel (ofM A.transpose) = SVD.directTall fuel (ofM A.transpose) := by
      unfold SVD.direct
      rw [ofM_cols _ hn, ok_bind, ofM_rows, if_neg (by omega)]
    have e2 : SVD.direct fuel (ofM A) = (do flip (← SVD.directTall fuel (ofM A.transpose))) := by
      unfold SVD.direct
      rw [ofM_cols _ hm, ok_bind, ofM_rows, if_pos hmn, C12_transpose hm, ok_bind]
      rfl
    rw [e1, e2]
    exact (flip_bind fun x hx => ((SVD.directTall_nu fuel (ofM A.transpose)).2 x hx).2.1).symm
  · have hnm : n < m := by omega
    unfold SVD.direct
    rw [ofM_cols _ hm, ok_bind, ofM_rows, ofM_cols _ hn, ok_bind, ofM_rows, if_neg (show ¬ m < n by omega), if_pos hnm, C12_transpose hn, ok_bind]
    rfl

/-- C99: for square matrices the exchange is wrong: `-1` is its own transpose, and its `U` and `V` differ. -/
theorem C99_square : ((ofM !![dec (-1) 0]).t >>= SVD.new 5) = .ok ⟨ofM !![dec 1 0], ofM !![dec 1 0], ofM !![dec (-1) 0]⟩ ∧
    (do let x ← SVD.new 5 (ofM !![dec (-1) 0]); return (⟨x.v, ← x.s.t, x.u⟩ : SVD F64)) = .ok ⟨ofM !![dec (-1) 0], ofM !![dec 1 0], ofM !![dec 1 0]⟩ := by
  constructor <;> decide +kernel

/-- C99: the trace. -/
theorem C99_trace (hm : 0 < m) (hn : 0 < n) (A : Matrix (Fin m) (Fin n) α) : ((ofM A).t >>= Mat.trace) = (ofM A).trace := by
  have gen : ∀ {m n : Nat} (_ : 0 < m) (A : Matrix (Fin m) (Fin n) α), (ofM A).trace = .ok (facc (· + ·) 0 (fun k => ext A k k) (min m n)) := by
    intro m n hm A
    unfold Mat.trace
    simp only [ofM_rows, ofM_cols A hm, ok_bind]
    have := loop_post (lo := 0) (hi := min m n) (s := ((0 : α), 0))
      (f := fun _ (s : α × Nat) => do return (s.1 + (← idx (ofM A).data s.2), s.2 + (n + 1)))
      (fun k s => s.1 = facc (· + ·) 0 (fun k => ext A k k) k ∧ s.2 = k * n + k) (Nat.zero_le _) ⟨rfl, by simp⟩ (by
        rintro k ⟨s, i⟩ - hk ⟨h1, h2⟩
        dsimp only at h1 h2
        subst h1 h2
        rw [idx_ofM A (by omega) (by omega), ok_bind]
        refine Post.ok ⟨?_, by dsimp only; ring⟩
        rw [facc, ext_eq A (by omega) (by omega)])
    obtain ⟨⟨s, i⟩, hr, h1, -⟩ := this
    rw [hr, ok_bind]
    dsimp only at h1 ⊢
    rw [h1]; rfl
  rw [C12_transpose hm, ok_bind, gen hn, gen hm, min_comm]
  congr 1
  refine facc_congr fun k hk => ?_
  rw [ext_eq _ (by omega) (by omega), ext_eq _ (by omega) (by omega)]; rfl

open F64

/-- C99: `is_symmetric` and `approx_eq` for `f64`. -/
theorem C99_symmetric (hn : 0 < n) (A : Matrix (Fin n) (Fin n) F64) : ((ofM A).t >>= Mat.isSymmetric) = (ofM A).isSymmetric := by
  rw [C12_transpose hn, ok_bind, isSymmetric_gen hn, isSymmetric_gen hn]
  have : ∀ x y : F64, approxEqElem x y = approxEqElem y x := fun x y => by
    unfold approxEqElem; rw [sub_comm_f64]
  congr 1
  rw [decide_eq_decide]
  refine forall_congr' fun i => forall_congr' fun j => ?_
  rw [Matrix.transpose_apply, Matrix.transpose_apply, this]

/-- C99: `CholeskyDecomposition::new`: rejected together; otherwise the factors differ at most in signs of zeros. -/
theorem C99_cholesky (hn : 0 < n) (A : Matrix (Fin n) (Fin n) F64) :
    Cholesky.new (ofM A) = .ok none ∧ ((ofM A).t >>= Cholesky.new) = .ok none ∨
    ∃ L L' : Matrix (Fin n) (Fin n) F64, Cholesky.new (ofM A) = .ok (some ⟨ofM L⟩) ∧ ((ofM A).t >>= Cholesky.new) = .ok (some ⟨ofM L'⟩) ∧
      ∀ i j, L' i j = L i j ∨ isZero (L i j) ∧ isZero (L' i j) := by
  rw [C12_transpose hn, ok_bind]
  by_cases h : ∀ i k : Fin n, k < i → FloatOps.eq (A k i) (A i k) = true
  · have hA : SignedBy (fun _ => 1) (fun _ => 1) A A.transpose := by
      intro i j
      have : Agree (A i j) (A j i) := by
        rcases lt_trichotomy i j with hij | rfl | hij
        · exact ((eq_iff_agree _ _).1 (h j i hij)).1
        · exact Agree.refl _
        · exact ((eq_iff_agree _ _).1 (h i j hij)).1.symm
      rcases this with e | e
      · left; exact e.symm
      · right; exact e
    rcases C94_cholesky hn hA with h | ⟨L, L', h1, h2, h3⟩
    · exact Or.inl h
    · exact Or.inr ⟨L, L', h1, h2, fun i j => h3 i j⟩
  · have hs : ∀ x y : F64, (FloatOps.eq x y : Bool) = FloatOps.eq y x := fun x y => by
      rw [Bool.eq_iff_iff]
      exact ⟨feq_symm, feq_symm⟩
    left
    push Not at h
    obtain ⟨i, k, hik, he⟩ := h
    have none_of : ∀ B : Matrix (Fin n) (Fin n) F64, FloatOps.eq (B k i) (B i k) ≠ true → Cholesky.new (ofM B) = .ok none := by
      intro B hB
      obtain ⟨o, ho, hp⟩ := Cholesky.Rnd.new_post hn B
      rcases o with _ | c
      · exact ho
      · obtain ⟨L, -, hL⟩ := hp
        have := hL.symm i k i.2 hik
        rw [ext_fin, ext_fin] at this
        exact absurd this hB
    refine ⟨none_of A he, none_of A.transpose ?_⟩
    rw [Matrix.transpose_apply, Matrix.transpose_apply, hs]
    exact he

/-- The transpose of a tall matrix. -/
example : ((ofM !![dec 3 0, 0; 0, dec (-4) 0; 0, 0]).t >>= SVD.new 9) =
      .ok ⟨ofM !![0, dec (-1) 0; dec 1 0, -0], ofM !![dec 4 0, 0, 0; 0, dec 3 0, 0], ofM !![0, dec (-1) 0, 0; dec (-1) 0, -0, 0; 0, -0, dec 1 0]⟩ := by
  decide +kernel

/-- Signs of zeros: `1, 0; -0, 1` passes the test of symmetry. -/
example : (Cholesky.new (ofM !![dec 1 0, 0; -0, dec 1 0]) >>= fun o => return o.map fun c => c.getL) = .ok (some (ofM !![dec 1 0, 0; -0, dec 1 0])) ∧
    ((ofM !![dec 1 0, 0; -0, dec 1 0]).t >>= Cholesky.new >>= fun o => return o.map fun c => c.getL) = .ok (some (ofM !![dec 1 0, 0; 0, dec 1 0])) :=
  ⟨by decide +kernel, by decide +kernel⟩

end LA.Props
