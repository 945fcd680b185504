import Verif.Proofs.F64Laws
import Verif.Proofs.Mono

/-! # Runs that reach a NaN state, found by evaluation -/

namespace LA
set_option linter.unusedSectionVars false
variable {α : Type} [Zero α] [One α] [Add α] [Sub α] [Neg α] [Mul α] [FloatOps α]

namespace Eigen

/-- `k` iterations of the outer loop; the first component is the number of rows that are still active. -/
def hqrRun (nn : Nat) (norm : α) : Nat → Nat → Hqr α → R (Nat × Hqr α)
  | 0, c, st => .ok (c, st)
  | _ + 1, 0, _ => .error .fuel
  | k + 1, n + 1, st => do
    let l ← findL nn norm st.h n
    if l = n then hqrRun nn norm k n (← oneRoot nn n st)
    else if l + 1 = n then hqrRun nn norm k (n - 1) (← twoRoots nn n st)
    else hqrRun nn norm k (n + 1) (← qrIter nn n l st)

theorem bind_ok_inv {β γ : Type} {x : R β} {f : β → R γ} {c : γ} (h : (x >>= f) = .ok c) : ∃ a, x = .ok a ∧ f a = .ok c := by
  cases x with
  | ok a => exact ⟨a, rfl, h⟩
  | error e => cases h

theorem hqrRun_loop {nn : Nat} {norm : α} {c' : Nat} {st' : Hqr α} : ∀ (k c : Nat) (st : Hqr α), hqrRun nn norm k c st = .ok (c', st') →
    ∀ f, hqrLoop nn norm (f + k) c st = hqrLoop nn norm f c' st'
  | 0, c, st, h, f => by rw [hqrRun] at h; cases h; rfl
  | k + 1, 0, st, h, f => by rw [hqrRun] at h; cases h
  | k + 1, n + 1, st, h, f => by
    rw [hqrRun] at h
    obtain ⟨l, hl, h⟩ := bind_ok_inv h
    rw [← Nat.add_assoc, hqrLoop, hl, ok_bind]
    split at h
    · next h1 =>
      obtain ⟨s, hs, h⟩ := bind_ok_inv h
      rw [if_pos h1, hs, ok_bind]; exact hqrRun_loop k n s h f
    · next h1 =>
      split at h
      · next h2 =>
        obtain ⟨s, hs, h⟩ := bind_ok_inv h
        rw [if_neg h1, if_pos h2, hs, ok_bind]; exact hqrRun_loop k (n - 1) s h f
      · next h2 =>
        obtain ⟨s, hs, h⟩ := bind_ok_inv h
        rw [if_neg h1, if_neg h2, hs, ok_bind]; exact hqrRun_loop k (n + 1) s h f

/-- The nonsymmetric path up to the `k`-th iteration of `hqr2`: the number of active rows and the state. -/
def runTo (k : Nat) (a : Mat α) : R (Nat × Hqr α) := do
  let n ← a.cols
  if ← isSymm n a then .error .undef
  else
    let hdata ← loop 0 n (alloc α (n * n)) fun j h => loop 0 n h fun i h => do wr h (i * n + j) (← a.get i j)
    let (hdata, vdata) ← orthes n hdata (alloc α (n * n))
    let norm ← hqrNorm n hdata
    hqrRun n norm k n ⟨alloc α n, alloc α n, hdata, vdata, 0, 0⟩

theorem new_of_runTo [Total α] [Signs α] {m n : Nat} {A : Matrix (Fin m) (Fin n) α} (hn0 : 0 < n) (hmn : n ≤ m) {k c : Nat} {st : Hqr α}
    (h : runTo k (ofM A) = .ok (c, st)) :
    ∃ norm, (∀ f, Runs (· = .fuel) (hqrLoop n norm f c st) fun _ => True) ∧
      ∃ g : Hqr α → R (Eigen α), ∀ f, new (f + k) (ofM A) = hqrLoop n norm f c st >>= g := by
  unfold runTo at h
  have hn : (ofM A).cols = .ok n := ofM_cols A (by omega)
  rw [hn, ok_bind] at h
  obtain ⟨b, hb, h⟩ := bind_ok_inv h
  cases b with
  | true => rw [if_pos rfl] at h; cases h
  | false =>
    rw [if_neg (by simp)] at h
    obtain ⟨hd, h1, h⟩ := bind_ok_inv h
    obtain ⟨⟨h', v'⟩, h2, h⟩ := bind_ok_inv h
    obtain ⟨norm, h3, h⟩ := bind_ok_inv h
    have g1 := fillT_runs (E := fun e => e = .fuel) A hmn
    rw [h1] at g1
    have g2 := orthes_runs (E := fun e => e = .fuel) (v := alloc α (n * n)) hn0 g1 (by simp [alloc])
    rw [h2] at g2
    have g3 : HqrI n n (⟨alloc α n, alloc α n, h', v', 0, 0⟩ : Hqr α) :=
      ⟨(VB.alloc n).mono fun i hi h => by omega, (VB.alloc n).mono fun i hi h => by omega, g2.1, g2.2⟩
    refine ⟨norm, fun f => ?_, fun x => (if FloatOps.eq norm 0 then (return ⟨x.d, x.e, x.v⟩ : R (Dev α))
      else (do let h ← loopRev 0 n x.h fun n' h => vecStep (fun _ => ⟨0, 0, 0⟩) n norm x.d x.e n' h
               return ⟨x.d, x.e, ← backTransform n h x.v⟩)) >>= fun st =>
        (do return ⟨n, ← freeze st.d, ← freeze st.e, ← Mat.new n n (← freeze st.v)⟩ : R (Eigen α)), fun f => ?_⟩
    · rw [← hqrRun_loop k n _ h f]
      exact (hqrLoop_runs (E := fun e => e = .fuel) (f + k) n _ (Or.inl rfl) le_rfl g3).mono fun _ _ => trivial
    unfold new newWith
    rw [hn, ok_bind]
    dsimp only
    rw [hb, ok_bind, if_neg (by simp), h1, ok_bind, h2, ok_bind]
    dsimp only
    unfold hqr2
    rw [h3, ok_bind]
    dsimp only
    rw [hqrRun_loop k n _ h f, bind_assoc]

/-- After `k` iterations the active block of the `3 × 3` (or larger) matrix is NaN. -/
def nanAfter (k : Nat) (a : Mat F64) : Bool :=
  match a.cols, runTo k a with
  | .ok nn, .ok (c, st) => decide (3 ≤ c) && decide (c ≤ nn) && (List.range c).all fun i => (List.range c).all fun j =>
      decide (j + 1 < i) || decide (st.h[i * nn + j]? = some (some F64.nan))
  | _, _ => false

/-- From then on it stays so: the call does not return. -/
theorem diverges_of_nanAfter {m n : Nat} (A : Matrix (Fin m) (Fin n) F64) (hn0 : 0 < n) (hmn : n ≤ m) (k : Nat) (h : nanAfter k (ofM A) = true) (fuel : Nat) :
    new fuel (ofM A) = .error .fuel := by
  unfold nanAfter at h
  rw [ofM_cols A (by omega)] at h
  cases hr : runTo k (ofM A) with
  | error e => rw [hr] at h; simp at h
  | ok x =>
    obtain ⟨c, st⟩ := x
    rw [hr] at h
    simp only [Bool.and_eq_true, decide_eq_true_eq, List.all_eq_true, List.mem_range, Bool.or_eq_true] at h
    obtain ⟨⟨h1, h2⟩, h3⟩ := h
    obtain ⟨norm, hf, g, hg⟩ := new_of_runTo hn0 hmn hr
    obtain ⟨q, rfl⟩ : ∃ q, c = q + 1 := ⟨c - 1, by omega⟩
    have hw : Wd (HN n q) st.h := by
      intro r x hx i j hq hj hjn hin hij
      rcases h3 i (by omega) j (by omega) with h | h
      · omega
      · rw [← hq, hx] at h
        have : x = F64.nan := by simpa using h
        exact this
    have key := Runs.never (hf fuel) (hqrLoop_nan (norm := norm) (by omega) (by omega) fuel st hw)
    have hgf := hg fuel
    rw [key] at hgf
    rcases upto_le (fun f => new_upto (ofM A) f) (Nat.le_add_right fuel k) with h | h
    · exact h
    · rw [h, hgf]; rfl

/-- A NaN matrix: the call does not return. -/
theorem diverges_of_nan [Total α] [Signs α] [NaNs α] {m n : Nat} (A : Matrix (Fin m) (Fin n) α) (hn : 3 ≤ n) (hmn : n ≤ m) (hA : ∀ i j, NaNs.nan (A i j))
    (fuel : Nat) : new fuel (ofM A) = .error .fuel := by
  refine Runs.never (P := fun _ => True) ?_ (new_nan A hn hmn fuel hA)
  unfold new newWith
  rw [ofM_cols A (by omega), ok_bind]
  dsimp only
  refine (isSymm_runs A hmn).bind fun b hb => Runs.ite (fun hc => ?_) fun hc => ?_
  · have := hb.1 hc 0 0 (by omega) (by omega)
    rw [NaNs.eq_l _ _ (hA _ _)] at this
    exact absurd this (by simp)
  · refine ((fillT_runs A hmn).and (Q := WN) ?_).bind fun h hh => ?_
    · refine Runs.loopC WN (Wd.alloc _) fun j h _ hj hh => Runs.loopC WN hh fun i h _ hi hh => ?_
      rw [ofM_get A (by omega) hj, ok_bind]
      exact hh.wr _ (hA _ _)
    refine ((orthes_runs (by omega) hh.1 (by simp [alloc])).and (orthes_nan hh.2)).bind ?_
    rintro ⟨h, v⟩ ⟨⟨hg, hv⟩, hw⟩
    dsimp only at hg hv hw ⊢
    refine Runs.bind (P := fun _ => False) ?_ fun _ h => h.elim
    unfold hqr2
    refine (hqrNorm_runs hg).bindT fun norm => Runs.bind (P := fun _ => False) ?_ fun _ h => h.elim
    obtain ⟨k, rfl⟩ : ∃ k, n = k + 1 := ⟨n - 1, by omega⟩
    have := hqrLoop_nan (norm := norm) (nn := k + 1) (n := k) (by omega) (by omega) fuel
      (⟨alloc α (k + 1), alloc α (k + 1), h, v, 0, 0⟩ : Hqr α) (hw.mono fun i x hx => HN.of hx)
    exact ((hqrLoop_runs (E := fun e => e = .fuel) fuel (k + 1) _ (Or.inl rfl) le_rfl
      ⟨(VB.alloc _).mono fun i hi h => by omega, (VB.alloc _).mono fun i hi h => by omega, hg, hv⟩).and this).mono fun _ h => h.2

end Eigen

namespace SVD

/-- `k` iterations of the main loop. -/
def iterRun (m n pp : Nat) : Nat → Nat → Main α → R (Nat × Main α)
  | 0, p, st => .ok (p, st)
  | _ + 1, 0, _ => .error .fuel
  | k + 1, p + 1, st => do
    let (p', st) ← step m n pp (p + 1) st
    iterRun m n pp k p' st

/-- The tall case up to the `k`-th iteration of the main loop. -/
def runTo (k : Nat) (a : Mat α) : R (Nat × Main α) := do
  let m := a.rows
  let n ← a.cols
  assert (decide (m ≥ n))
  let nct := min (← usub m 1) n
  let nrt := (max 0 (min ((n : Int) - 2) (m : Int))).toNat
  let p := min n (m + 1)
  let b ← bidiag m n nct nrt p a.data
  let u ← genU m nct b.s b.u
  let v ← genV n nrt b.e b.v
  iterRun m n (← usub p 1) k p ⟨b.s, b.e, u, v⟩

theorem iterRun_loop {m n pp p' : Nat} {st' : Main α} : ∀ (k p : Nat) (st : Main α), iterRun m n pp k p st = .ok (p', st') →
    ∀ f, iterate m n pp (f + k) p st = iterate m n pp f p' st'
  | 0, p, st, h, f => by rw [iterRun] at h; cases h; rfl
  | k + 1, 0, st, h, f => by rw [iterRun] at h; cases h
  | k + 1, p + 1, st, h, f => by
    rw [iterRun] at h
    obtain ⟨⟨q, s⟩, hs, h⟩ := Eigen.bind_ok_inv h
    rw [← Nat.add_assoc, iterate, hs, ok_bind]
    exact iterRun_loop k q s h f

theorem newTall_of_runTo {k p : Nat} {a : Mat α} {st : Main α} (h : runTo k a = .ok (p, st)) :
    ∃ m n pp, ∃ g : Main α → R (SVD α), ∀ f, newTall (f + k) a = iterate m n pp f p st >>= g := by
  unfold runTo at h
  dsimp only at h
  obtain ⟨n, hn, h⟩ := Eigen.bind_ok_inv h
  obtain ⟨_, h1, h⟩ := Eigen.bind_ok_inv h
  obtain ⟨m1, h2, h⟩ := Eigen.bind_ok_inv h
  obtain ⟨b, h3, h⟩ := Eigen.bind_ok_inv h
  obtain ⟨u, h4, h⟩ := Eigen.bind_ok_inv h
  obtain ⟨v, h5, h⟩ := Eigen.bind_ok_inv h
  obtain ⟨pp, h6, h⟩ := Eigen.bind_ok_inv h
  refine ⟨a.rows, n, pp, fun st => (do return ⟨← Mat.new a.rows a.rows (← freeze st.u), ← Mat.blockDiag a.rows n (← freeze st.s), ← Mat.new n n (← freeze st.v)⟩),
    fun f => ?_⟩
  unfold newTall
  dsimp only
  rw [hn, ok_bind, h1, ok_bind, h2, ok_bind, h3, ok_bind, h4, ok_bind, h5, ok_bind, h6, ok_bind, iterRun_loop k _ _ h f]

/-- After `k` iterations the active part of the bidiagonal matrix is NaN. -/
def nanAfter (k : Nat) (a : Mat F64) : Bool :=
  match runTo k a with
  | .ok (p, st) => decide (2 ≤ p) && ((List.range p).all fun i => decide (st.s[i]? = some (some F64.nan))) &&
      (List.range (p - 1)).all fun i => decide (st.e[i]? = some (some F64.nan))
  | _ => false

theorem newTall_of_nanAfter {k : Nat} {a : Mat F64} (h : nanAfter k a = true) (fuel : Nat) :
    Runs Any (newTall (fuel + k) a) fun _ => False := by
  unfold nanAfter at h
  cases hr : runTo k a with
  | error e => rw [hr] at h; simp at h
  | ok x =>
    obtain ⟨p, st⟩ := x
    rw [hr] at h
    simp only [Bool.and_eq_true, decide_eq_true_eq, List.all_eq_true, List.mem_range] at h
    obtain ⟨⟨h1, h2⟩, h3⟩ := h
    obtain ⟨m, n, pp, g, hg⟩ := newTall_of_runTo hr
    rw [hg fuel]
    refine (iterate_nan h1 fuel st ⟨fun i x hx hi => ?_, fun i x hx hi => ?_⟩).bind fun _ h => h.elim
    · have := h2 i hi
      rw [hx] at this
      have : x = F64.nan := by simpa using this
      exact this
    · have := h3 i (by omega)
      rw [hx] at this
      have : x = F64.nan := by simpa using this
      exact this

end SVD
end LA
