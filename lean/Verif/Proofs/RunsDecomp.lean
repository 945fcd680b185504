import Verif.Proofs.Runs

/-! # LU, Cholesky and QR never panic, for arbitrary (total) element operations -/

namespace LA
set_option linter.unusedSectionVars false
variable {α : Type} [Zero α] [One α] [Add α] [Sub α] [Neg α] [Mul α] [FloatOps α] {E : Err → Prop} [Elem E α]

/-- One step of a `do` block over initialised grids. -/
macro "nxt" : tactic => `(tactic| first
  | refine (idxG (by assumption) (by omega) (by omega)).bindT fun _ => ?_
  | exact idxG (by assumption) (by omega) (by omega)
  | refine (rdivR _ _).bindT fun _ => ?_
  | refine (sqrtR _).bindT fun _ => ?_
  | refine (setG (by assumption) (by omega) (by omega) _).bind fun _ _ => ?_
  | exact setG (by assumption) (by omega) (by omega) _
  | exact Runs.ok trivial)

namespace LU

theorem column_runs {m n j : Nat} {d : List α} (hd : d.length = m * n) (hj : j < n) :
    Runs E (column m n j d) fun d => d.length = m * n := by
  refine Runs.loopC (fun d : List α => d.length = m * n) hd fun i d _ hi hd => ?_
  refine Runs.bindT (Runs.loopT fun k s _ hk => ?_) fun s => ?_
  · nxt; nxt; nxt
  · nxt; nxt

theorem pivot_runs {m n j : Nat} {d : List α} (hd : d.length = m * n) (hj : j < n) :
    Runs E (pivot m n j d) fun p => p = j ∨ (j < p ∧ p < m) := by
  refine Runs.loopC (fun p => p = j ∨ (j < p ∧ p < m)) (Or.inl rfl) fun i p _ hi hp => ?_
  nxt; nxt
  split
  · exact Runs.ok (Or.inr ⟨by omega, by omega⟩)
  · exact Runs.ok hp

theorem swapRows_runs {m n p j : Nat} {d : List α} (hd : d.length = m * n) (hp : p < m) (hj : j < m) :
    Runs E (swapRows n p j d) fun d => d.length = m * n := by
  refine Runs.loopC (fun d : List α => d.length = m * n) hd fun k d _ hk hd => ?_
  nxt; nxt; nxt; nxt

/-- `m` row numbers below `m`. -/
def PivOK (piv : List Nat) (m : Nat) : Prop := piv.length = m ∧ ∀ k ∈ piv, k < m

theorem PivOK.idx {piv : List Nat} {m i : Nat} (h : PivOK piv m) (hi : i < m) : Runs E (LA.idx piv i) fun k => k < m := by
  have hi' : i < piv.length := by rw [h.1]; exact hi
  unfold LA.idx; rw [List.getElem?_eq_getElem hi']; exact Runs.ok (h.2 _ (List.getElem_mem hi'))

theorem PivOK.set {piv : List Nat} {m i k : Nat} (h : PivOK piv m) (hi : i < m) (hk : k < m) : Runs E (LA.setIdx piv i k) fun p => PivOK p m := by
  unfold LA.setIdx; rw [if_pos (by rw [h.1]; exact hi)]
  refine Runs.ok ⟨by simp [h.1], fun x hx => ?_⟩
  rcases List.mem_or_eq_of_mem_set hx with hx | rfl
  · exact h.2 x hx
  · exact hk

theorem swapPiv_runs {m p j : Nat} {piv : List Nat} (hd : PivOK piv m) (hp : p < m) (hj : j < m) :
    Runs E (swapPiv p j piv) fun v => PivOK v m :=
  (hd.idx hp).bind fun _ h => (hd.idx hj).bind fun _ h' => (hd.set hp h').bind fun _ hv => hv.set hj h

theorem scale_runs {m n j : Nat} {d : List α} (hd : d.length = m * n) (hj : j < n) :
    Runs E (scale m n j d) fun d => d.length = m * n := by
  unfold scale
  split
  · nxt
    split
    · refine Runs.loopC (fun d : List α => d.length = m * n) hd fun i d _ hi hd => ?_
      nxt; nxt; nxt; nxt
    · exact Runs.ok hd
  · exact Runs.ok hd

theorem step_runs {m n j : Nat} {s : List α × List Nat × Bool} (hd : s.1.length = m * n) (hp : PivOK s.2.1 m) (hj : j < n) :
    Runs E (step m n j s) fun s => s.1.length = m * n ∧ PivOK s.2.1 m := by
  unfold step
  refine (column_runs hd hj).bind fun d hd => (pivot_runs hd hj).bind fun p hpj => ?_
  refine Runs.bind (P := fun s : List α × List Nat × Bool => s.1.length = m * n ∧ PivOK s.2.1 m) ?_ ?_
  · split
    · next h =>
      have h' : p ≠ j := by simpa using h
      have : j < p ∧ p < m := hpj.resolve_left h'
      exact (swapRows_runs hd this.2 (by omega)).bind fun d hd => (swapPiv_runs hp this.2 (by omega)).bind fun v hv => Runs.ok ⟨hd, hv⟩
    · exact Runs.ok ⟨hd, hp⟩
  · rintro ⟨d, piv, pos⟩ ⟨h1, h2⟩
    exact (scale_runs h1 hj).bind fun d hd => Runs.ok ⟨hd, h2⟩

theorem new_runs {a : Mat α} {m n : Nat} (hr : a.rows = m) (hd : a.data.length = m * n) (hm : 0 < m) (hn : 0 < n) :
    Runs E (LU.new a) fun x => x.lu.rows = m ∧ x.lu.data.length = m * n ∧ PivOK x.piv m := by
  subst hr
  unfold LU.new
  dsimp only
  refine (Mat.cols_runs hd hm).bind fun c hc => ?_
  subst hc
  refine Runs.bind (P := fun d : Buf Nat => ∃ l : List Nat, d = l.map some ∧ PivOK l a.rows) ?_ ?_
  · refine Runs.of_eq (a := (List.range a.rows).map some) (fill_ok (n := a.rows) (f := fun i => .ok i) (fun i => i) (fun _ _ => rfl)) ⟨List.range a.rows, rfl, by simp [PivOK]⟩
  rintro d ⟨l, rfl, hl⟩
  refine (Runs.of_eq (P := fun l => PivOK l a.rows) (freeze_map_some l) hl).bind fun piv hpiv => ?_
  · refine Runs.bind (Runs.loopC (fun s : List α × List Nat × Bool => s.1.length = a.rows * c ∧ PivOK s.2.1 a.rows) ⟨hd, hpiv⟩
      fun j s _ hj hs => step_runs hs.1 hs.2 hj) ?_
    rintro ⟨d, piv, pos⟩ ⟨h1, h2⟩
    exact (Mat.new_runs h1 hm hn).bind fun b hb => Runs.ok ⟨hb.1, hb.2, h2⟩

theorem isNonSingular_runs {x : LU α} {m n : Nat} (hr : x.lu.rows = m) (hd : x.lu.data.length = m * n) (hm : 0 < m) (hmn : n ≤ m) :
    Runs E x.isNonSingular fun _ => True := by
  subst hr
  unfold isNonSingular
  refine (Mat.cols_runs hd hm).bind fun c hc => ?_
  subst hc
  refine Runs.bindT ((Runs.loopF (fun _ _ => True) (fun _ => True) (Nat.zero_le _) trivial fun j _ _ hj _ => ?_).mono fun _ _ => trivial) fun o => ?_
  · nxt
    split <;> exact Runs.ok trivial
  · cases o <;> exact Runs.ok trivial

theorem fill_runs {m n : Nat} {f : Nat → Nat → Buf α → R (Buf α)}
    (hf : ∀ i j d, i < m → j < n → ∀ S, GB d m n S → Runs E (f i j d) fun d' => GB d' m n fun a b => S a b ∨ (a = i ∧ b = j)) :
    Runs E (loop 0 m (alloc α (m * n)) fun i d => loop 0 n d fun j d => f i j d) fun d => GF d m n := by
  refine (Runs.loop (fun i d => GB d m n fun a b => a < i) (Nat.zero_le m) ((GB.alloc m n).mono fun i _ _ _ h => by omega) ?_).mono
    fun d h => h.mono fun i _ hi _ _ => hi
  intro i d _ hi hd
  refine (Runs.loop (fun j d => GB d m n fun a b => a < i ∨ (a = i ∧ b < j)) (Nat.zero_le n) (hd.mono fun a b _ _ h => by omega) ?_).mono
    fun d h => h.mono fun a b _ _ _ => by omega
  intro j d _ hj hd
  exact (hf i j d hi hj _ hd).mono fun d' h => h.mono fun a b _ _ _ => by omega

theorem getL_runs {x : LU α} {m n : Nat} (hr : x.lu.rows = m) (hd : x.lu.data.length = m * n) (hm : 0 < m) (hn : 0 < n) :
    Runs E x.getL fun b => b.rows = m ∧ b.data.length = m * min m n := by
  subst hr
  unfold getL
  dsimp only
  refine (Mat.cols_runs hd hm).bind fun c hc => ?_
  subst hc
  have e : (if x.lu.rows ≥ c then c else x.lu.rows) = min x.lu.rows c := by split <;> omega
  rw [e]
  refine Runs.bind (fill_runs fun i j d hi hj S hS => ?_) fun d hd => hd.freeze.bind fun l hl => Mat.new_runs hl hm (by omega)
  refine Runs.bindT ?_ fun v => hS.wr hi hj v
  split
  · nxt
  · split <;> exact Runs.ok trivial

theorem getU_runs {x : LU α} {m n : Nat} (hr : x.lu.rows = m) (hd : x.lu.data.length = m * n) (hm : 0 < m) (hn : 0 < n) :
    Runs E x.getU fun b => b.rows = min m n ∧ b.data.length = min m n * n := by
  subst hr
  unfold getU
  dsimp only
  refine (Mat.cols_runs hd hm).bind fun c hc => ?_
  subst hc
  have e : (if x.lu.rows ≥ c then c else x.lu.rows) = min x.lu.rows c := by split <;> omega
  rw [e]
  refine Runs.bind (fill_runs fun i j d hi hj S hS => ?_) fun d hd => hd.freeze.bind fun l hl => Mat.new_runs hl (by omega) hn
  refine Runs.bindT ?_ fun v => hS.wr hi hj v
  split
  · nxt
  · exact Runs.ok trivial

theorem det_runs {x : LU α} {n : Nat} (hr : x.lu.rows = n) (hd : x.lu.data.length = n * n) (hn : 0 < n) : Runs E x.det fun _ => True := by
  subst hr
  unfold det
  refine (Mat.cols_runs hd hn).bind fun c hc => (Runs.assert (by simp [hc])).bindT fun _ => (Mat.cols_runs hd hn).bind fun c hc => ?_
  subst hc
  refine Runs.loopT fun j s _ hj => ?_
  nxt; nxt

theorem rhs_runs {piv : List Nat} {m nx : Nat} {b : Mat α} (h : piv.length = m) (hp : ∀ k ∈ piv, k < m) (hm : 0 < m)
    (hr : b.rows = m) (hd : b.data.length = m * nx) : Runs E (rhs piv m nx b) fun l => l.length = m * nx := by
  subst h
  unfold rhs
  refine Runs.bind (P := fun s : Buf α × Nat => VF s.1 (piv.length * nx)) ?_ ?_
  · refine (Runs.loop (fun i (s : Buf α × Nat) => VB s.1 (piv.length * nx) (fun k => k < s.2) ∧ s.2 = i * nx) (Nat.zero_le _)
      ⟨(VB.alloc _).mono fun i _ h => by simp at h, by simp⟩ ?_).mono ?_
    · rintro i ⟨d, di⟩ - hi ⟨h1, h2⟩
      refine (Runs.loop (fun j (s : Buf α × Nat) => VB s.1 (piv.length * nx) (fun k => k < s.2) ∧ s.2 = i * nx + j) (Nat.zero_le nx)
        ⟨h1, by simpa using h2⟩ ?_).mono ?_
      · rintro j ⟨d, dj⟩ - hj ⟨h1, h2⟩
        dsimp only at h1 h2 ⊢
        have hlt := lt2 hi hj
        refine (Runs.of_eq (a := piv[i]) (P := fun x => x = piv[i]) (by unfold LA.idx; rw [List.getElem?_eq_getElem hi]) rfl).bind fun k hk => ?_
        have hk' : k < piv.length := by rw [hk]; exact hp _ (List.getElem_mem hi)
        refine (Mat.cols_runs (n := nx) (by rw [hd, hr]) (by omega)).bind fun c hc => ?_
        subst hc
        nxt
        refine (h1.wr (i := dj) (by omega) _).bind fun d' hd' => Runs.ok ⟨hd'.mono fun i _ h => ?_, by dsimp only; omega⟩
        dsimp only at h; omega
      · rintro ⟨d, dj⟩ ⟨h1, h2⟩
        exact ⟨h1, by rw [h2, Nat.add_mul, Nat.one_mul]⟩
    · rintro ⟨d, dj⟩ ⟨h1, h2⟩
      exact h1.mono fun i hi _ => by dsimp only at h2 ⊢; omega
  · rintro ⟨d, di⟩ hd
    exact hd.freeze

theorem forward_runs {lu : List α} {n nx : Nat} {x : List α} (hl : lu.length = n * n) (hx : x.length = n * nx) :
    Runs E (forward lu n n nx x) fun x => x.length = n * nx := by
  refine Runs.loopC (fun d : List α => d.length = n * nx) hx fun k x _ hk hx => ?_
  refine Runs.loopC (fun d : List α => d.length = n * nx) hx fun i x _ hi hx => ?_
  refine Runs.loopC (fun d : List α => d.length = n * nx) hx fun j x _ hj hx => ?_
  nxt; nxt; nxt; nxt

theorem backward_runs {lu : List α} {n nx : Nat} {x : List α} (hl : lu.length = n * n) (hx : x.length = n * nx) :
    Runs E (backward lu n n nx x) fun x => x.length = n * nx := by
  refine Runs.loopRevC (fun d : List α => d.length = n * nx) hx fun k x _ hk hx => ?_
  refine Runs.bind (Runs.loopC (fun d : List α => d.length = n * nx) hx fun j x _ hj hx => ?_) fun x hx => ?_
  · nxt; nxt; nxt; nxt
  · refine Runs.loopC (fun d : List α => d.length = n * nx) hx fun i x _ hi hx => ?_
    refine Runs.loopC (fun d : List α => d.length = n * nx) hx fun j x _ hj hx => ?_
    nxt; nxt; nxt; nxt

theorem solve_runs {x : LU α} {b : Mat α} {n nx : Nat} (hr : x.lu.rows = n) (hd : x.lu.data.length = n * n) (hn : 0 < n)
    (hp : PivOK x.piv n) (hbr : b.rows = n) (hbd : b.data.length = n * nx) (hnx : 0 < nx) :
    Runs E (x.solve b) fun o => ∀ y, o = some y → y.rows = n ∧ y.data.length = n * nx := by
  subst hr
  unfold solve
  dsimp only
  refine (Mat.cols_runs hd hn).bind fun c hc => (Runs.assert (by simp [hbr])).bindT fun _ => (isNonSingular_runs rfl hd hn le_rfl).bindT fun ns => ?_
  subst hc
  split
  · exact Runs.ok nofun
  · refine (Mat.cols_runs (by rw [hbr]; exact hbd) (by omega)).bind fun c hc => ?_
    subst hc
    refine (rhs_runs hp.1 hp.2 hn hbr hbd).bind fun xd hx => (Mat.cols_runs hd hn).bind fun c' hc => ?_
    subst hc
    refine (forward_runs hd hx).bind fun xd hx => (Mat.cols_runs hd hn).bind fun c' hc => ?_
    subst hc
    refine (backward_runs hd hx).bind fun xd hx => (Mat.cols_runs (by rw [hbr]; exact hbd) (by omega)).bind fun c' hc => ?_
    subst hc
    exact (Mat.new_runs hx hn hnx).bind fun y hy => Runs.ok (by rintro z hz; cases hz; exact hy)

end LU

namespace Cholesky

theorem new_runs {a : Mat α} {m n : Nat} (hr : a.rows = m) (hd : a.data.length = m * n) (hm : 0 < m) (hn : 0 < n) :
    Runs E (Cholesky.new a) fun o => ∀ x, o = some x → m = n ∧ x.l.rows = n ∧ x.l.data.length = n * n := by
  subst hr
  have get : ∀ i j, i < a.rows → j < n → Runs E (a.get i j) fun _ => True := by
    intro i j hi hj
    unfold Mat.get
    refine (Runs.assert (by simp [hi])).bindT fun _ => (Mat.cols_runs hd hm).bind fun c hc => ?_
    subst hc
    refine (Runs.assert (by simp [hj])).bindT fun _ => ?_
    nxt
  unfold Cholesky.new
  refine (Mat.cols_runs hd hm).bind fun c hc => ?_
  subst hc
  split
  · exact Runs.ok nofun
  · next hne =>
    have e : a.rows = c := by simpa using hne
    rw [e] at get
    rw [e]
    refine Runs.bind (Runs.loopF (fun j d => GB d c c fun i _ => i < j) (fun _ => True) (Nat.zero_le _) ((GB.alloc _ _).mono fun i _ _ _ h => by omega)
      fun j d _ hj hd => ?_) fun o ho => ?_
    · unfold step row
      refine Runs.bind (Runs.loopF (fun k (s : Buf α × α) => GB s.1 c c fun i l => i < j ∨ (i = j ∧ l < k)) (fun _ => True) (Nat.zero_le _)
        (hd.mono fun a b _ _ h => by omega) ?_) fun o ho => ?_
      · rintro k ⟨d, s⟩ - hk hd
        dsimp only at hd ⊢
        refine Runs.bindT (Runs.loopT fun i s _ hi => ?_) fun s => ?_
        · exact (hd.rd (by omega) (by omega) (by omega)).bindT fun _ => (hd.rd (by omega) (by omega) (by omega)).bindT fun _ => Runs.ok trivial
        · refine (get _ _ (by omega) (by omega)).bindT fun _ => (hd.rd (by omega) (by omega) (by omega)).bindT fun _ => (rdivR _ _).bindT fun v =>
            (hd.wr (by omega) (by omega) v).bind fun d' hd' => (get _ _ (by omega) (by omega)).bindT fun _ => (get _ _ (by omega) (by omega)).bindT fun _ => ?_
          split
          · exact Runs.ok trivial
          · exact Runs.ok (hd'.mono fun a b _ _ h => by omega)
      · match o, ho with
        | .ret (), _ => exact Runs.ok trivial
        | .next (d, s), hd =>
          dsimp only at hd ⊢
          refine (get _ _ (by omega) (by omega)).bindT fun _ => ?_
          split
          · exact Runs.ok trivial
          · refine (sqrtR _).bindT fun v => (hd.wr (by omega) (by omega) v).bind fun d hd => ?_
            refine Runs.bind (Runs.loop (fun k d => GB d c c fun i l => i < j ∨ (i = j ∧ l < k)) hj (hd.mono fun a b _ _ h => by omega)
              fun k d _ hk hd => (hd.wr (by omega) (by omega) _).mono fun d h => h.mono fun a b _ _ h => by omega) fun d hd => Runs.ok ?_
            exact hd.mono fun a b _ _ h => by omega
    · match o, ho with
      | .ret (), _ => exact Runs.ok nofun
      | .next d, hd =>
        refine (GB.freeze (hd.mono fun a b h _ _ => h)).bind fun l hl => (Mat.new_runs hl hn hn).bind fun b hb => Runs.ok ?_
        rintro x hx; cases hx; exact ⟨rfl, hb⟩

theorem solve_runs {x : Cholesky α} {b : Mat α} {n nx : Nat} (hr : x.l.rows = n) (hd : x.l.data.length = n * n) (hn : 0 < n)
    (hbr : b.rows = n) (hbd : b.data.length = n * nx) (hnx : 0 < nx) :
    Runs E (x.solve b) fun y => y.rows = n ∧ y.data.length = n * nx := by
  unfold solve
  rw [hr]
  refine (Runs.assert (by simp [hbr])).bindT fun _ => (Mat.cols_runs (by rw [hbr]; exact hbd) (by omega)).bind fun c hc => ?_
  subst hc
  refine Runs.bind (P := fun d : List α => d.length = n * c) ?_ fun d h => Runs.bind (P := fun d : List α => d.length = n * c) ?_ fun d h => Mat.new_runs h hn hnx
  · refine Runs.loopC (fun d : List α => d.length = n * c) hbd fun k d _ hk h => Runs.loopC (fun d : List α => d.length = n * c) h fun j d _ hj h => ?_
    refine Runs.bind (Runs.loopC (fun d : List α => d.length = n * c) h fun i d _ hi h => ?_) fun d h => ?_
    · nxt; nxt; nxt; nxt
    · nxt; nxt; nxt; nxt
  · refine Runs.loopRevC (fun d : List α => d.length = n * c) h fun k d _ hk h => Runs.loopC (fun d : List α => d.length = n * c) h fun j d _ hj h => ?_
    refine Runs.bind (Runs.loopC (fun d : List α => d.length = n * c) h fun i d _ hi h => ?_) fun d h => ?_
    · nxt; nxt; nxt; nxt
    · nxt; nxt; nxt; nxt

end Cholesky

namespace QR

theorem new_runs {a : Mat α} {m n : Nat} (hr : a.rows = m) (hd : a.data.length = m * n) (hm : 0 < m) (hn : 0 < n) :
    Runs E (QR.new a) fun x => x.qr.rows = m ∧ x.qr.data.length = m * n ∧ x.rdiag.length = min m n := by
  subst hr
  unfold QR.new
  refine (Mat.cols_runs hd hm).bind fun c hc => ?_
  subst hc
  dsimp only
  refine Runs.bind (Runs.loop (fun k (s : List α × Buf α) => s.1.length = a.rows * c ∧ VB s.2 (min a.rows c) fun i => i < k) (Nat.zero_le _)
    ⟨hd, (VB.alloc _).mono fun i _ h => by omega⟩ ?_) ?_
  · rintro k ⟨q, r⟩ - hk ⟨h1, h2⟩
    dsimp only at h1 h2 ⊢
    unfold reflect
    refine Runs.bindT (Runs.loopT fun i s _ hi => ?_) fun nrm => Runs.bindT ?_ fun x => (h2.wr hk x).bind fun r hr => ?_
    · nxt; nxt
    · nxt
      split
      · nxt; nxt
      · exact sqrtR _
    · split
      · nxt
        refine (setG h1 (by omega) (by omega) _).bind fun q hq => Runs.bind (P := fun q : List α => q.length = a.rows * c) ?_ fun q hq => Runs.ok ⟨hq, hr.mono fun i _ h => by omega⟩
        refine Runs.loopC (fun q : List α => q.length = a.rows * c) hq fun j q _ hj hq => ?_
        unfold reflectColumn
        refine Runs.bindT (Runs.loopT fun i s _ hi => ?_) fun s => ?_
        · nxt; nxt; nxt
        · nxt; nxt
          refine Runs.loopC (fun q : List α => q.length = a.rows * c) hq fun i q _ hi hq => ?_
          nxt; nxt; nxt
      · exact Runs.ok ⟨h1, hr.mono fun i _ h => by omega⟩
  · rintro ⟨q, r⟩ ⟨h1, h2⟩
    exact (Mat.new_runs h1 hm hn).bind fun b hb => (VB.freeze (h2.mono fun i hi _ => hi)).bind fun l hl => Runs.ok ⟨hb.1, hb.2, hl⟩

theorem getH_runs {x : QR α} {m n : Nat} (hr : x.qr.rows = m) (hd : x.qr.data.length = m * n) (hm : 0 < m) (hn : 0 < n) :
    Runs E x.getH fun b => b.rows = m ∧ b.data.length = m * n := by
  subst hr
  unfold getH
  dsimp only
  refine (Mat.cols_runs hd hm).bind fun c hc => ?_
  subst hc
  refine Runs.bind (LU.fill_runs fun i j d hi hj S hS => ?_) fun d hd => hd.freeze.bind fun l hl => Mat.new_runs hl hm hn
  refine Runs.bindT ?_ fun v => hS.wr hi hj v
  split
  · nxt
  · exact Runs.ok trivial

theorem getR_runs {x : QR α} {m n : Nat} (hr : x.qr.rows = m) (hd : x.qr.data.length = m * n) (hl : x.rdiag.length = min m n) (hm : 0 < m) (hn : 0 < n) :
    Runs E x.getR fun b => b.rows = m ∧ b.data.length = m * n := by
  subst hr
  unfold getR
  dsimp only
  refine (Mat.cols_runs hd hm).bind fun c hc => ?_
  subst hc
  refine Runs.bind (LU.fill_runs fun i j d hi hj S hS => ?_) fun d hd => hd.freeze.bind fun l hl => Mat.new_runs hl hm hn
  refine Runs.bindT ?_ fun v => hS.wr hi hj v
  split
  · nxt
  · split
    · exact Runs.idx (by omega)
    · exact Runs.ok trivial

theorem getQ_runs {x : QR α} {m n : Nat} (hr : x.qr.rows = m) (hd : x.qr.data.length = m * n) (hl : x.rdiag.length = min m n) (hm : 0 < m) (hn : 0 < n) :
    Runs E x.getQ fun b => b.rows = m ∧ b.data.length = m * m := by
  subst hr
  unfold getQ
  dsimp only
  refine (Mat.cols_runs hd hm).bind fun c hc => ?_
  subst hc
  refine Runs.bind (Runs.loopC (fun q : List α => q.length = x.qr.rows * x.qr.rows) (by simp) fun k q _ hk hq => ?_) fun q hq =>
    Runs.bind (Runs.loopRevC (fun q : List α => q.length = x.qr.rows * x.qr.rows) hq fun k q _ hk hq => ?_) fun q hq => Mat.new_runs hq hm hm
  · nxt
  · nxt
    split
    · refine Runs.loopC (fun q : List α => q.length = x.qr.rows * x.qr.rows) hq fun j q _ hj hq => ?_
      unfold unreflectColumn
      refine Runs.bindT (Runs.loopT fun i s _ hi => ?_) fun s => ?_
      · nxt; nxt; nxt
      · refine (Runs.idx (by omega)).bindT fun _ => ?_
        nxt; nxt
        refine Runs.loopC (fun q : List α => q.length = x.qr.rows * x.qr.rows) hq fun i q _ hi hq => ?_
        nxt; nxt; nxt
    · exact Runs.ok hq

end QR

end LA
