import Verif.Proofs.EigenScale
import Verif.Props.EigenRounding

/-!
# C122: eigenvalues of a symmetric matrix in other units

With unlimited exponents (`Fu`: 53 significant bits, no overflow, no underflow), multiplying a symmetric matrix by a power of two changes
nothing in the eigendecomposition but the exponents: the iteration takes the same steps, the computed eigenvectors are the same bit by bit,
the computed eigenvalues are multiplied by exactly the same power, and the order of the eigenvalues is the same.
-/

namespace LA.Props
open LA Fu

/-- `x · 2^k`, exactly. -/
def times2 (k : ℤ) (x : Fu) : Fu := ⟨x.q * 2 ^ k⟩

theorem LRel.eq_map {k : ℤ} {d d' : List Fu} (h : LRel (fun _ => k) d d') : d' = d.map (times2 k) := by
  refine List.ext_getElem? fun p => ?_
  rw [List.getElem?_map]
  have := h.2 p
  cases h1 : d[p]? <;> cases h2 : d'[p]? <;> rw [h1, h2] at this
  · rfl
  · exact this.elim
  · exact this.elim
  · rename_i x y
    show some y = some _
    cases y
    exact congrArg _ (congrArg _ this)

/-- C122: the whole outcome (also when the iteration does not end): same eigenvectors, eigenvalues multiplied by the same power of two. -/
theorem C122_eigen {n : Nat} (hn : 0 < n) {A A' : Matrix (Fin n) (Fin n) Fu} {k : ℤ} (h : ∀ i j, (A' i j).q = (A i j).q * 2 ^ k)
    (hA : ∀ i j, A i j = A j i) (fuel : Nat) :
    Eigen.new fuel (ofM A') = (Eigen.new fuel (ofM A)).map fun x =>
      { x with d := x.d.map (times2 k), e := x.e.map (times2 k) } := by
  rcases Eigen.Scale.new_sim hn (K := k) (fun i j => h i j) hA fuel with ⟨e, h1, h2⟩ | ⟨x, y, h1, h2, h3, h4, h5, h6⟩
  · rw [h1, h2]; rfl
  · rw [h1, h2]
    obtain ⟨yn, yd, ye, yv⟩ := y
    obtain ⟨xn, xd, xe, xv⟩ := x
    dsimp only at h3 h4 h5 h6
    show Except.ok _ = Except.ok (⟨xn, xd.map (times2 k), xe.map (times2 k), xv⟩ : Eigen Fu)
    rw [← LRel.eq_map h4, ← LRel.eq_map h5, h3, h6]

/-- C122: `get_d` of the result is multiplied by the same power of two, entry by entry. -/
theorem C122_get (x : Eigen Fu) (k : ℤ) :
    Eigen.getD { x with d := x.d.map (times2 k), e := x.e.map (times2 k) } = x.getD.map fun D => ⟨D.rows, D.data.map (times2 k)⟩ := by
  obtain ⟨n, d, e, v⟩ := x
  have hd : LRel (fun _ => k) d (d.map (times2 k)) := by
    refine ⟨(List.length_map _).symm, fun p => ?_⟩
    rw [List.getElem?_map]
    cases d[p]? with
    | none => trivial
    | some x => exact rfl
  have he : LRel (fun _ => k) e (e.map (times2 k)) := by
    refine ⟨(List.length_map _).symm, fun p => ?_⟩
    rw [List.getElem?_map]
    cases e[p]? with
    | none => trivial
    | some x => exact rfl
  have : Sim2 (Eigen.getD ⟨n, d, e, v⟩) (Eigen.getD ⟨n, d.map (times2 k), e.map (times2 k), v⟩) fun D D' => D'.rows = D.rows ∧ LRel (fun _ => k) D.data D'.data := by
    unfold Eigen.getD
    dsimp only
    refine Sim2.bind (P := BRel fun _ => k) (Sim2.loop _ (BRel.alloc _ _) fun i b b' _ _ hb => ?_) fun b b' hb => ?_
    · refine Sim2.bind (P := BRel fun _ => k) (Sim2.loop _ hb fun j b b' _ _ hb => hb.wr _ (Sc.zero _) rfl) fun b b' hb => ?_
      refine (hd.idx i rfl).bind fun x x' hx => (hb.wr _ hx rfl).bind fun b b' hb => (he.idx i rfl).bind fun y y' hy => ?_
      rw [(Sc.zero k).lt hy]
      split
      · exact (he.idx i rfl).bind fun z z' hz => hb.wr _ hz rfl
      · refine (he.idx i rfl).bind fun z z' hz => ?_
        rw [hz.lt (Sc.zero k)]
        split
        · refine Sim2.same.bind fun a a' ha => ?_
          subst ha
          exact (he.idx i rfl).bind fun z z' hz => hb.wr _ hz rfl
        · exact Sim2.ok hb
    · refine hb.freeze.bind fun c c' hc => ?_
      unfold Mat.new
      rw [← hc.1]
      refine Sim2.same.bind fun _ _ _ => Sim2.same.bind fun _ _ _ => Sim2.ok ⟨rfl, hc⟩
  rcases this with ⟨e, h1, h2⟩ | ⟨D, D', h1, h2, h3, h4⟩
  · dsimp only
    rw [h1, h2]
    rfl
  · dsimp only
    rw [h1, h2]
    obtain ⟨r, dd⟩ := D'
    dsimp only at h3 h4
    show Except.ok _ = Except.ok (⟨D.rows, D.data.map (times2 k)⟩ : Mat Fu)
    rw [← LRel.eq_map h4, h3]

/-- A symmetric matrix and the same matrix in units 1024 times smaller; the iteration ends and needs more than one step; the eigenvalues are
rounded. -/
example : (∀ i j, sampleSym i j = sampleSym j i) ∧
    (∃ x, Eigen.new 10 (ofM sampleSym) = .ok x ∧
      Eigen.new 10 (ofM (Matrix.of fun i j => times2 10 (sampleSym i j))) = .ok { x with d := x.d.map (times2 10), e := x.e.map (times2 10) }) ∧
    Eigen.new 1 (ofM (Matrix.of fun i j => times2 10 (sampleSym i j))) = .error .fuel := by
  have hs : ∀ i j, sampleSym i j = sampleSym j i := fun i j => by fin_cases i <;> fin_cases j <;> rfl
  have h : ∀ i j, ((Matrix.of fun i j => times2 10 (sampleSym i j) : Matrix (Fin 3) (Fin 3) Fu) i j).q = (sampleSym i j).q * 2 ^ (10 : ℤ) :=
    fun _ _ => rfl
  obtain ⟨⟨x, h1⟩, h2⟩ := sampleSym_runs
  refine ⟨hs, ⟨x, h1, ?_⟩, ?_⟩
  · rw [C122_eigen (by omega) h hs, h1]; rfl
  · rw [C122_eigen (by omega) h hs, h2]; rfl

end LA.Props
