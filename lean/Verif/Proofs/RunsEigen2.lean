import Verif.Proofs.RunsEigen

/-! # The nonsymmetric eigendecomposition for arbitrary element operations -/

namespace LA
set_option linter.unusedSectionVars false
variable {α : Type} [Zero α] [One α] [Add α] [Sub α] [Neg α] [Mul α] [FloatOps α] {E : Err → Prop} [Elem E α]

theorem Runs.ite {β : Type} {c : Prop} [Decidable c] {x y : R β} {P : β → Prop} (h1 : c → Runs E x P) (h2 : ¬ c → Runs E y P) :
    Runs E (if c then x else y) P := by
  split
  · exact h1 (by assumption)
  · exact h2 (by assumption)

namespace Eigen

/-! ## `orthes` -/

theorem orthScale_runs {n m : Nat} {scale : α} {h ort : Buf α} (hmn : m ≤ n) (hm : 1 ≤ m) {S : Nat → Prop} (hh : GF h n n) (ho : VB ort n S) :
    Runs E (orthScale n m scale h ort) fun x => VB x.1 n fun i => S i ∨ m ≤ i := by
  unfold orthScale
  refine Runs.loopRev (fun i (x : Buf α × α) => VB x.1 n fun j => S j ∨ i ≤ j) (by omega) (ho.mono fun j hj h => h.resolve_right (by omega)) ?_
  rintro i ⟨ort, s⟩ h1 h2 ho
  dsimp only at ho ⊢
  refine (GF.rd hh (by omega) (by omega)).bindT fun _ => (rdivR _ _).bindT fun _ => (ho.wr h2 _).bind fun ort ho => ?_
  refine (ho.rd h2 (Or.inr rfl)).bindT fun _ => (ho.rd h2 (Or.inr rfl)).bindT fun _ => Runs.ok (ho.mono fun j hj h => ?_)
  rcases h with h | h
  · exact Or.inl (Or.inl h)
  · rcases Nat.lt_or_ge i j with h' | h'
    · exact Or.inl (Or.inr h')
    · exact Or.inr (by omega)

theorem orthCol_runs {n m j : Nat} {hn : α} {h ort : Buf α} {S : Nat → Prop} (hS : ∀ i, m ≤ i → S i) (hj : j < n) (hh : GF h n n) (ho : VB ort n S) :
    Runs E (orthCol n m j hn ort h) fun h => GF h n n := by
  unfold orthCol
  refine Runs.bindT (Runs.loopRevT fun i f h1 hi => ?_) fun f => (rdivR _ _).bindT fun f => Runs.loopC (fun h => GF h n n) hh fun i h h1 hi hh => ?_
  · exact (ho.rd hi (hS i h1)).bindT fun _ => (GF.rd hh hi hj).bindT fun _ => Runs.ok trivial
  · exact (GF.rd hh hi hj).bindT fun _ => (ho.rd hi (hS i h1)).bindT fun _ => GF.wr hh hi hj _

theorem orthRow_runs {n m i : Nat} {hn : α} {h ort : Buf α} {S : Nat → Prop} (hS : ∀ i, m ≤ i → S i) (hi : i < n) (hh : GF h n n) (ho : VB ort n S) :
    Runs E (orthRow n m i hn ort h) fun h => GF h n n := by
  unfold orthRow
  refine Runs.bindT (Runs.loopRevT fun j f h1 hj => ?_) fun f => (rdivR _ _).bindT fun f => Runs.loopC (fun h => GF h n n) hh fun j h h1 hj hh => ?_
  · exact (ho.rd hj (hS j h1)).bindT fun _ => (GF.rd hh hi hj).bindT fun _ => Runs.ok trivial
  · exact (GF.rd hh hi hj).bindT fun _ => (ho.rd hj (hS j h1)).bindT fun _ => GF.wr hh hi hj _

/-- Laws of signs and sums of absolute values that IEEE floating point shares with the reals. -/
class _root_.LA.Signs (α : Type) [Zero α] [Add α] [Neg α] [FloatOps α] : Prop where
  zero : FloatOps.lt (0 : α) 0 = false
  sqrt : ∀ x z : α, FloatOps.sqrt x = .ok z → FloatOps.lt z 0 = false
  neg : ∀ x : α, FloatOps.lt x 0 = false → FloatOps.lt 0 (-x) = false
  add_abs : ∀ s x : α, FloatOps.lt s 0 = false → FloatOps.lt (s + FloatOps.abs x) 0 = false
  add_abs_eq : ∀ s x : α, FloatOps.lt s 0 = false → FloatOps.eq (s + FloatOps.abs x) 0 = true →
    FloatOps.eq s 0 = true ∧ FloatOps.eq x 0 = true

/-- The subdiagonal entries with row in `Z` test equal to zero. -/
def SubZ (n : Nat) (Z : Nat → Prop) (k : Nat) (x : α) : Prop := ∀ m, Z m → k = m * n + (m - 1) → FloatOps.eq x 0 = true

theorem SubZ.ne {n m i j : Nat} {Z : Nat → Prop} {x : α} (hZ : ∀ k, Z k → 1 ≤ k ∧ k < m) (hm : m ≤ n) (hj : m ≤ j + 1) (hjn : j < n) : SubZ n Z (i * n + j) x := by
  intro k hk e
  obtain ⟨h1, h2⟩ := hZ k hk
  have := lt2_inj hjn (by omega) e
  omega

theorem orthCol_keep {n m j : Nat} {hn : α} {h ort : Buf α} {Z : Nat → Prop} (hZ : ∀ k, Z k → 1 ≤ k ∧ k < m) (hm : m ≤ n) (hj : m ≤ j) (hjn : j < n)
    (hh : Wd (SubZ n Z) h) : Runs Any (orthCol n m j hn ort h) (Wd (SubZ n Z)) := by
  unfold orthCol
  refine Runs.bindT Runs.any fun f => Runs.bindT Runs.any fun f => Runs.loopC (Wd (SubZ n Z)) hh fun i h h1 hi hh => ?_
  exact Runs.bindT Runs.any fun _ => Runs.bindT Runs.any fun _ => hh.wr _ (SubZ.ne hZ hm (by omega) hjn)

theorem orthRow_keep {n m i : Nat} {hn : α} {h ort : Buf α} {Z : Nat → Prop} (hZ : ∀ k, Z k → 1 ≤ k ∧ k < m) (hm : m ≤ n)
    (hh : Wd (SubZ n Z) h) : Runs Any (orthRow n m i hn ort h) (Wd (SubZ n Z)) := by
  unfold orthRow
  refine Runs.bindT Runs.any fun f => Runs.bindT Runs.any fun f => Runs.loopC (Wd (SubZ n Z)) hh fun j h h1 hj hh => ?_
  exact Runs.bindT Runs.any fun _ => Runs.bindT Runs.any fun _ => hh.wr _ (SubZ.ne hZ hm (by omega) hj)

/-- After the steps below `m`: a subdiagonal entry is zero or its reflector has been stored. -/
def OrthI (n m : Nat) (h ort : Buf α) : Prop :=
  GF h n n ∧ ∃ Z : Nat → Prop, (∀ k, Z k → 1 ≤ k ∧ k < m) ∧ Wd (SubZ n Z) h ∧ VB ort n fun i => ¬ Z i ∧ 1 ≤ i ∧ i < m

theorem orthStep_runs [Signs α] {n m : Nat} {h ort : Buf α} (hm : 1 ≤ m) (hmn : m < n) (hi : OrthI n m h ort) :
    Runs E (orthStep n m h ort) fun x => OrthI n (m + 1) x.1 x.2 := by
  obtain ⟨hh, Z, hZ, hz, ho⟩ := hi
  unfold orthStep
  -- the sum of absolute values vanishes only if the first term does
  refine Runs.bind (P := fun s => FloatOps.eq s 0 = true → Wd (SubZ n fun k => Z k ∨ k = m) h) ?_ fun scale hs => ?_
  · refine (Runs.loop (fun i s => FloatOps.lt s 0 = false ∧ (m < i → FloatOps.eq s 0 = true → Wd (SubZ n fun k => Z k ∨ k = m) h)) hmn.le
      ⟨Signs.zero, fun h => by omega⟩ fun i s h1 h2 ⟨hs, hw⟩ => ?_).mono fun s h => h.2 hmn
    obtain ⟨x, hx⟩ := hh.2 i (m - 1) h2 (by omega) trivial
    rw [rd_eq hx, ok_bind]
    refine Runs.ok ⟨Signs.add_abs _ _ hs, fun _ he => ?_⟩
    obtain ⟨e1, e2⟩ := Signs.add_abs_eq _ _ hs he
    rcases Nat.lt_or_ge m i with h' | h'
    · exact hw h' e1
    · have : i = m := by omega
      subst this
      intro k y hy p hp e
      rcases hp with hp | hp
      · exact hz k y hy p hp e
      · subst hp; subst e
        rw [hx] at hy
        have : x = y := by simpa using hy
        exact this ▸ e2
  split
  · refine (orthScale_runs (by omega) hm hh ho).bind ?_
    rintro ⟨ort, hn⟩ ho
    dsimp only at ho ⊢
    refine (sqrtR _).bindT fun g => (ho.rd (by omega) (Or.inr le_rfl)).bindT fun om => (ho.wr (by omega) _).bind fun ort ho => ?_
    refine Runs.bind (Runs.loopC (fun h => GF h n n ∧ Wd (SubZ n Z) h) ⟨hh, hz⟩ fun j h h1 hj hh =>
      (orthCol_runs (fun i h => Or.inl (Or.inr h)) hj hh.1 ho).and (orthCol_keep hZ (by omega) h1 hj hh.2)) fun h hh => ?_
    refine Runs.bind (Runs.loopC (fun h => GF h n n ∧ Wd (SubZ n Z) h) hh fun i h _ hi hh =>
      (orthRow_runs (fun i h => Or.inl (Or.inr h)) hi hh.1 ho).and (orthRow_keep hZ (by omega) hh.2)) fun h hh => ?_
    refine (ho.rd (by omega) (Or.inr rfl)).bindT fun _ => (ho.wr (by omega) _).bind fun ort ho => ?_
    refine ((GF.wr hh.1 (by omega) (by omega) _).and (hh.2.wr _ ?_)).bind fun h hh => Runs.ok ⟨hh.1, Z, fun k hk => ?_, hh.2, ho.mono fun i hi h => ?_⟩
    · intro k hk e
      obtain ⟨h1, h2⟩ := hZ k hk
      have := lt2_inj (by omega) (by omega) e
      omega
    · have := hZ k hk; omega
    · rcases Nat.lt_or_ge i m with h' | h'
      · exact Or.inl (Or.inl (Or.inl ⟨h.1, h.2.1, h'⟩))
      · exact Or.inr (by omega)
  · next hc =>
    simp only [Bool.not_eq_true', Bool.not_eq_false] at hc
    refine Runs.ok ⟨hh, fun k => Z k ∨ k = m, fun k hk => ?_, hs hc, ho.mono fun i hi h => ⟨fun hz => h.1 (Or.inl hz), h.2.1, ?_⟩⟩
    · rcases hk with hk | hk
      · have := hZ k hk; omega
      · omega
    · have : i ≠ m := fun e => h.1 (Or.inr e)
      omega

theorem orthAcc_runs {n m : Nat} {h ort v : Buf α} {Z : Nat → Prop} (hm : 1 ≤ m) (hmn : m < n) (hh : GF h n n) (hz : Wd (SubZ n Z) h)
    {S : Nat → Prop} (ho : VB ort n S) (hS : ¬ Z m → S m) (hv : GF v n n) :
    Runs E (orthAcc n m h ort v) fun x => VB x.1 n S ∧ GF x.2 n n := by
  unfold orthAcc
  obtain ⟨x, hx⟩ := hh.2 m (m - 1) hmn (by omega) trivial
  rw [rd_eq hx, ok_bind]
  split
  · next hc =>
    have hnz : ¬ Z m := fun h => by rw [hz _ x hx m h rfl] at hc; simp at hc
    refine Runs.bind (Runs.loop (fun k o => VB o n fun i => S i ∨ (m + 1 ≤ i ∧ i < k)) (by omega) (ho.mono fun i hi h => h.resolve_right (by omega))
      fun i o h1 h2 ho => ?_) fun o ho => ?_
    · refine (GF.rd hh h2 (by omega)).bindT fun _ => (ho.wr h2 _).mono fun o ho => ho.mono fun j hj h => ?_
      rcases h with h | h
      · exact Or.inl (Or.inl h)
      · rcases Nat.lt_or_ge j i with h' | h'
        · exact Or.inl (Or.inr ⟨h.1, h'⟩)
        · exact Or.inr (by omega)
    have hoi : ∀ i, m ≤ i → i < n → S i ∨ (m + 1 ≤ i ∧ i < n) := fun i h1 h2 => by
      rcases Nat.eq_or_lt_of_le h1 with e | h
      · subst e; exact Or.inl (hS hnz)
      · exact Or.inr ⟨h, h2⟩
    refine Runs.bind (Runs.loopC (fun v => GF v n n) hv fun j v _ hj hv => ?_) fun v hv => Runs.ok ⟨ho.mono fun i _ h => Or.inl h, hv⟩
    unfold orthAccCol
    refine Runs.bindT (Runs.loopT fun i g h1 hi => ?_) fun g => ?_
    · exact (ho.rd hi (hoi i h1 hi)).bindT fun _ => (GF.rd hv hi hj).bindT fun _ => Runs.ok trivial
    refine (ho.rd hmn (hoi m le_rfl hmn)).bindT fun _ => (rdivR _ _).bindT fun g => (GF.rd hh hmn (by omega)).bindT fun _ => (rdivR _ _).bindT fun g => ?_
    refine Runs.loopC (fun v => GF v n n) hv fun i v h1 hi hv => ?_
    exact (GF.rd hv hi hj).bindT fun _ => (ho.rd hi (hoi i h1 hi)).bindT fun _ => GF.wr hv hi hj _
  · exact Runs.ok ⟨ho, hv⟩

theorem orthes_runs [Signs α] {n : Nat} {h v : Buf α} (hn : 0 < n) (hh : GF h n n) (hv : v.length = n * n) :
    Runs E (orthes n h v) fun x => GF x.1 n n ∧ GF x.2 n n := by
  unfold orthes
  refine (Runs.usub (show 1 ≤ n by omega)).bind fun hi e => ?_
  subst e
  refine Runs.bind (P := fun x : Buf α × Buf α => ∃ m, n - 1 ≤ m ∧ OrthI n m x.1 x.2) ?_ ?_
  · have h0 : OrthI n 1 h (alloc α n) := ⟨hh, fun _ => False, fun k h => h.elim, fun k x _ m h => h.elim, (VB.alloc n).mono fun i _ h => by omega⟩
    by_cases h1 : 1 ≤ n - 1
    · refine (Runs.loop (fun m (x : Buf α × Buf α) => OrthI n m x.1 x.2) h1 h0 ?_).mono fun x hx => ⟨_, le_rfl, hx⟩
      rintro m ⟨h, ort⟩ hm1 hm2 hI
      exact orthStep_runs hm1 (by omega) hI
    · rw [loop_empty (by omega)]
      exact Runs.ok ⟨1, by omega, h0⟩
  rintro ⟨h, ort⟩ ⟨m, hm, hh, Z, hZ, hz, ho⟩
  dsimp only at hh hz ho ⊢
  refine Runs.bind (Runs.loop (fun i v => GB v n n fun a _ => a < i) (Nat.zero_le _) ⟨hv, fun _ _ _ _ h => by omega⟩ fun i v _ hi hv => ?_) fun v hv => ?_
  · refine (Runs.loop (fun j v => GB v n n fun a b => a < i ∨ (a = i ∧ b < j)) (Nat.zero_le _) (hv.mono fun a b _ _ h => by omega) fun j v _ hj hv => ?_).mono
      fun v hv => hv.mono fun a b _ hb h => by omega
    exact (hv.wr hi hj _).mono fun v hv => hv.mono fun a b _ _ h => by omega
  have hv : GF v n n := hv.mono fun a b ha _ _ => ha
  refine Runs.bind (Runs.loopRevC (fun x : Buf α × Buf α => (VB x.1 n fun i => ¬ Z i ∧ 1 ≤ i ∧ i < m) ∧ GF x.2 n n) ⟨ho, hv⟩ ?_) ?_
  · rintro k ⟨ort, v⟩ h1 h2 ⟨ho, hv⟩
    exact orthAcc_runs h1 (by omega) hh hz ho (fun h => ⟨h, h1, by omega⟩) hv
  · rintro ⟨ort, v⟩ ⟨ho, hv⟩
    exact Runs.ok ⟨hh, hv⟩

/-! ## `hqr2`: reduction to quasi-triangular form -/

theorem hqrNorm_runs {n : Nat} {h : Buf α} (hh : GF h n n) : Runs E (hqrNorm n h) fun _ => True := by
  unfold hqrNorm
  exact Runs.loopT fun i s _ hi => Runs.loopT fun j s _ hj => (GF.rd hh hi hj).bindT fun _ => Runs.ok trivial

theorem findL_runs {nn : Nat} {norm : α} {h : Buf α} (hh : GF h nn nn) : ∀ n, n < nn → Runs E (findL nn norm h n) fun l => l ≤ n
  | 0, _ => by rw [findL]; exact Runs.ok le_rfl
  | l + 1, hl => by
    rw [findL]
    nxb; nxb; nxb
    refine Runs.ite (fun _ => ?_) fun _ => ?_
    · exact Runs.ok le_rfl
    · exact (findL_runs hh l (by omega)).mono fun r hr => by omega

/-- The state of the outer loop: the eigenvalues from `c` on are known. -/
def HqrI (nn c : Nat) (st : Hqr α) : Prop :=
  (VB st.d nn fun i => c ≤ i) ∧ (VB st.e nn fun i => c ≤ i) ∧ GF st.h nn nn ∧ GF st.v nn nn

theorem oneRoot_runs {nn n : Nat} {st : Hqr α} (hn : n < nn) (hst : HqrI nn (n + 1) st) : Runs E (oneRoot nn n st) (HqrI nn n) := by
  obtain ⟨hd, he, hh, hv⟩ := hst
  unfold oneRoot
  nxb
  refine (GF.wr hh (by omega) (by omega) _).bind fun h hh => ?_
  nxb
  exact (hd.wr hn _).bind fun d hd => (he.wr hn _).bind fun e he => Runs.ok ⟨hd.mono fun i _ h => by omega, he.mono fun i _ h => by omega, hh, hv⟩

theorem rootRows_runs {nn n : Nat} {p q : α} {h : Buf α} (hn : n < nn) (hh : GF h nn nn) : Runs E (rootRows nn n p q h) fun h => GF h nn nn := by
  unfold rootRows
  refine Runs.loopC (fun h => GF h nn nn) hh fun j h _ hj hh => ?_
  nxb; nxb
  refine (GF.wr hh (by omega) (by omega) _).bind fun h hh => ?_
  nxb
  exact GF.wr hh (by omega) (by omega) _

theorem rootCols_runs {nn n hi : Nat} {p q : α} {h : Buf α} (hn : n < nn) (hhi : hi ≤ nn) (hh : GF h nn nn) :
    Runs E (rootCols nn n hi p q h) fun h => GF h nn nn := by
  unfold rootCols
  refine Runs.loopC (fun h => GF h nn nn) hh fun j h _ hj hh => ?_
  nxb; nxb
  refine (GF.wr hh (by omega) (by omega) _).bind fun h hh => ?_
  nxb
  exact GF.wr hh (by omega) (by omega) _

theorem realPair_runs {nn n : Nat} {p w z x : α} {st : Hqr α} (hn : n < nn) (h1 : 1 ≤ n) (hst : HqrI nn (n + 1) st) :
    Runs E (realPair nn n p w z x st) (HqrI nn (n - 1)) := by
  obtain ⟨hd, he, hh, hv⟩ := hst
  unfold realPair
  refine (hd.wr (by omega) _).bind fun d hd => (hd.rd (by omega) (Or.inr rfl)).bindT fun _ => (hd.wr hn _).bind fun d hd => ?_
  have hd : VB d nn fun i => n - 1 ≤ i := hd.mono fun i _ h => by omega
  refine Runs.bind (P := fun d => VB d nn fun i => n - 1 ≤ i) ?_ fun d hd => ?_
  · refine Runs.ite (fun _ => ?_) fun _ => ?_
    · exact (rdivR _ _).bindT fun _ => (hd.wr hn _).mono fun d hd => hd.mono fun i _ h => Or.inl h
    · exact Runs.ok hd
  refine (he.wr (by omega) _).bind fun e he => (he.wr hn _).bind fun e he => ?_
  have he : VB e nn fun i => n - 1 ≤ i := he.mono fun i _ h => by omega
  nxb; nxb; nxb; nxb; nxb; nxb
  refine (rootRows_runs hn hh).bind fun h hh => (rootCols_runs hn (by omega) hh).bind fun h hh => (rootCols_runs hn le_rfl hv).bind fun v hv => ?_
  exact Runs.ok ⟨hd, he, hh, hv⟩

theorem twoRoots_runs {nn n : Nat} {st : Hqr α} (hn : n < nn) (h1 : 1 ≤ n) (hst : HqrI nn (n + 1) st) :
    Runs E (twoRoots nn n st) (HqrI nn (n - 1)) := by
  obtain ⟨hd, he, hh, hv⟩ := hst
  unfold twoRoots
  nxb; nxb; nxb; nxb; nxb; nxb; nxb
  refine (GF.wr hh (by omega) (by omega) _).bind fun h hh => ?_
  nxb
  refine (GF.wr hh (by omega) (by omega) _).bind fun h hh => ?_
  nxb
  refine Runs.bind (P := HqrI nn (n - 1)) ?_ fun st h => Runs.ok h
  split
  · exact realPair_runs hn h1 ⟨hd, he, hh, hv⟩
  · refine (hd.wr (by omega) _).bind fun d hd => (hd.wr hn _).bind fun d hd => (he.wr (by omega) _).bind fun e he => (he.wr hn _).bind fun e he => ?_
    exact Runs.ok ⟨hd.mono fun i _ h => by omega, he.mono fun i _ h => by omega, hh, hv⟩

theorem subDiag_runs {nn n : Nat} {x : α} {h : Buf α} (hn : n < nn) (hh : GF h nn nn) : Runs E (subDiag nn n x h) fun h => GF h nn nn := by
  unfold subDiag
  refine Runs.loopC (fun h => GF h nn nn) hh fun i h _ hi hh => ?_
  nxb
  exact GF.wr hh (by omega) (by omega) _

theorem hqrShift_runs {nn n iter : Nat} {ex : α} {h : Buf α} (hn : n < nn) (h2 : 2 ≤ n) (hh : GF h nn nn) :
    Runs E (hqrShift nn n iter h ex) fun x => GF x.1 nn nn := by
  unfold hqrShift
  nxb; nxb; nxb; nxb
  refine Runs.bind (P := fun x : Buf α × α × α × α × α => GF x.1 nn nn) ?_ ?_
  · split
    · refine (subDiag_runs hn hh).bind fun h hh => ?_
      nxb; nxb
      exact Runs.ok hh
    · exact Runs.ok hh
  · rintro ⟨h, ex, x, y, w⟩ hh
    dsimp only at hh ⊢
    split
    · nxb
      split
      · nxb; nxb; nxb
        exact (subDiag_runs hn hh).bind fun h hh => Runs.ok hh
      · exact Runs.ok hh
    · exact Runs.ok hh

theorem firstCol_runs {nn m : Nat} {x y w : α} {h : Buf α} (hm : m + 2 < nn) (hh : GF h nn nn) : Runs E (firstCol nn m x y w h) fun _ => True := by
  unfold firstCol
  nxb; nxb; nxb; nxb; nxb; nxb; nxb; nxb; nxb
  exact Runs.ok trivial

theorem findStart_runs {nn l : Nat} {x y w : α} {h : Buf α} (hh : GF h nn nn) : ∀ k, l + k + 2 < nn →
    Runs E (findStart nn l x y w h k) fun r => l ≤ r.1 ∧ r.1 ≤ l + k
  | 0, hk => by rw [findStart]; exact (firstCol_runs hk hh).bindT fun _ => Runs.ok ⟨le_rfl, le_rfl⟩
  | k + 1, hk => by
    rw [findStart]
    refine (firstCol_runs (by omega) hh).bindT ?_
    rintro ⟨p, q, r, z⟩
    dsimp only
    nxb; nxb; nxb
    split
    · exact Runs.ok ⟨by omega, by omega⟩
    · exact (findStart_runs hh k (by omega)).mono fun r hr => by omega

theorem clearSub_runs {nn n m : Nat} {h : Buf α} (hn : n < nn) (hh : GF h nn nn) : Runs E (clearSub nn n m h) fun h => GF h nn nn := by
  unfold clearSub
  refine Runs.loopC (fun h => GF h nn nn) hh fun i h _ hi hh => ?_
  refine (GF.wr hh (by omega) (by omega) _).bind fun h hh => ?_
  split
  · exact GF.wr hh (by omega) (by omega) _
  · exact Runs.ok hh

theorem qrRows_runs {nn k : Nat} {nl : Bool} {q r x y z : α} {h : Buf α} (hk : k + 1 < nn) (hnl : nl = true → k + 2 < nn) (hh : GF h nn nn) :
    Runs E (qrRows nn k nl q r x y z h) fun h => GF h nn nn := by
  unfold qrRows
  refine Runs.loopC (fun h => GF h nn nn) hh fun j h _ hj hh => ?_
  nxb; nxb
  refine Runs.bind (P := fun x : α × Buf α => GF x.2 nn nn) ?_ ?_
  · split
    · have := hnl (by assumption)
      nxb; nxb
      exact (GF.wr hh (by omega) (by omega) _).bind fun h hh => Runs.ok hh
    · exact Runs.ok hh
  · rintro ⟨p, h⟩ hh
    dsimp only at hh ⊢
    nxb
    refine (GF.wr hh (by omega) (by omega) _).bind fun h hh => ?_
    nxb
    exact GF.wr hh (by omega) (by omega) _

theorem qrCols_runs {nn k hi : Nat} {nl : Bool} {q r x y z : α} {h : Buf α} (hk : k + 1 < nn) (hnl : nl = true → k + 2 < nn) (hhi : hi ≤ nn) (hh : GF h nn nn) :
    Runs E (qrCols nn k hi nl q r x y z h) fun h => GF h nn nn := by
  unfold qrCols
  refine Runs.loopC (fun h => GF h nn nn) hh fun j h _ hj hh => ?_
  nxb; nxb
  refine Runs.bind (P := fun x : α × Buf α => GF x.2 nn nn) ?_ ?_
  · split
    · have := hnl (by assumption)
      nxb; nxb
      exact (GF.wr hh (by omega) (by omega) _).bind fun h hh => Runs.ok hh
    · exact Runs.ok hh
  · rintro ⟨p, h⟩ hh
    dsimp only at hh ⊢
    nxb
    refine (GF.wr hh (by omega) (by omega) _).bind fun h hh => ?_
    nxb
    exact GF.wr hh (by omega) (by omega) _

theorem qrReflect_runs {nn n l m k : Nat} {p q r x : α} {h v : Buf α} (hn : n < nn) (hk : k < n) (hh : GF h nn nn) (hv : GF v nn nn) :
    Runs E (qrReflect nn n l m k p q r x h v) fun x => GF x.1 nn nn ∧ GF x.2 nn nn := by
  unfold qrReflect
  nxb
  refine Runs.ite (fun _ => ?_) fun _ => ?_
  · refine Runs.bind (P := fun h => GF h nn nn) ?_ fun h hh => ?_
    · split
      · exact GF.wr hh (by omega) (by omega) _
      · split
        · nxb
          exact GF.wr hh (by omega) (by omega) _
        · exact Runs.ok hh
    nxb; nxb; nxb; nxb; nxb
    have hnl : decide (k ≠ n - 1) = true → k + 2 < nn := fun h => by have := of_decide_eq_true h; omega
    exact (qrRows_runs (by omega) hnl hh).bind fun h hh => (qrCols_runs (by omega) hnl (by omega) hh).bind fun h hh =>
      (qrCols_runs (by omega) hnl le_rfl hv).bind fun v hv => Runs.ok ⟨hh, hv⟩
  · exact Runs.ok ⟨hh, hv⟩

theorem qrStep_runs {nn n l m k : Nat} {p q r : α} {h v : Buf α} (hn : n < nn) (hk : k < n) (hh : GF h nn nn) (hv : GF v nn nn) :
    Runs E (qrStep nn n l m p q r k h v) fun x => GF x.1 nn nn ∧ GF x.2 nn nn := by
  unfold qrStep
  split
  · nxb; nxb
    refine Runs.bindT ?_ fun r => ?_
    · split
      · nxb
      · exact Runs.ok trivial
    refine Runs.ite (fun _ => ?_) fun _ => ?_
    · exact Runs.ok ⟨hh, hv⟩
    · nxb; nxb; nxb
      exact qrReflect_runs hn hk hh hv
  · exact qrReflect_runs hn hk hh hv

theorem qrIter_runs {nn n l : Nat} {st : Hqr α} (hn : n < nn) (hl : l + 2 ≤ n) (hst : HqrI nn (n + 1) st) :
    Runs E (qrIter nn n l st) (HqrI nn (n + 1)) := by
  obtain ⟨hd, he, hh, hv⟩ := hst
  unfold qrIter
  refine (hqrShift_runs hn (by omega) hh).bind ?_
  rintro ⟨h, ex, x, y, w⟩ hh
  dsimp only at hh ⊢
  refine (findStart_runs hh _ (by omega)).bind ?_
  rintro ⟨m, p, q, r⟩ hm
  dsimp only at hm ⊢
  refine (clearSub_runs hn hh).bind fun h hh => ?_
  refine Runs.bind (Runs.loopC (fun x : Buf α × Buf α => GF x.1 nn nn ∧ GF x.2 nn nn) ⟨hh, hv⟩ ?_) ?_
  · rintro k ⟨h, v⟩ _ hk ⟨hh, hv⟩
    exact qrStep_runs hn hk hh hv
  · rintro ⟨h, v⟩ ⟨hh, hv⟩
    exact Runs.ok ⟨hd, he, hh, hv⟩

theorem hqrLoop_runs {nn : Nat} {norm : α} : ∀ (fuel c : Nat) (st : Hqr α), (E .fuel ∨ (c ≤ 2 ∧ c ≤ fuel)) → c ≤ nn → HqrI nn c st →
    Runs E (hqrLoop nn norm fuel c st) (HqrI nn 0)
  | fuel, 0, st, _, _, h => by rw [hqrLoop]; exact Runs.ok h
  | 0, n + 1, st, hF, _, _ => by rw [hqrLoop]; exact hF.resolve_right (by omega)
  | fuel + 1, n + 1, st, hF, hc, h => by
    rw [hqrLoop]
    refine (findL_runs h.2.2.1 n (by omega)).bind fun l hl => ?_
    split
    · exact (oneRoot_runs (by omega) h).bind fun st h => hqrLoop_runs fuel n st (hF.imp id fun h => by omega) (by omega) h
    · split
      · exact (twoRoots_runs (by omega) (by omega) h).bind fun st h => hqrLoop_runs fuel (n - 1) st (hF.imp id fun h => by omega) (by omega) h
      · exact (qrIter_runs (by omega) (by omega) h).bind fun st h => hqrLoop_runs fuel (n + 1) st (hF.imp id fun h => by omega) hc h

/-! ## Signs of the imaginary parts -/

/-- The first imaginary part is not negative, the last one not positive. -/
def EndSign (nn i : Nat) (x : α) : Prop := (i = 0 → FloatOps.lt x 0 = false) ∧ (i + 1 = nn → FloatOps.lt 0 x = false)

variable [Signs α]

theorem oneRoot_sign {nn n : Nat} {st : Hqr α} (h : Wd (EndSign nn) st.e) : Runs Any (oneRoot nn n st) fun st => Wd (EndSign nn) st.e := by
  unfold oneRoot
  refine Runs.bindT Runs.any fun _ => Runs.bindT Runs.any fun _ => Runs.bindT Runs.any fun _ => Runs.bindT Runs.any fun _ => ?_
  exact (h.wr n ⟨fun _ => Signs.zero, fun _ => Signs.zero⟩).bind fun e he => Runs.ok he

theorem twoRoots_sign {nn n : Nat} {st : Hqr α} (hn : n < nn) (h1 : 1 ≤ n) (h : Wd (EndSign nn) st.e) :
    Runs Any (twoRoots nn n st) fun st => Wd (EndSign nn) st.e := by
  unfold twoRoots
  refine Runs.bindT Runs.any fun _ => Runs.bindT Runs.any fun _ => Runs.bindT Runs.any fun _ => Runs.bindT Runs.any fun _ => Runs.bindT Runs.any fun _ => ?_
  refine Runs.bind (P := fun z : α => FloatOps.lt z 0 = false) ?_ fun z hz => ?_
  · generalize hq : (FloatOps.sqrt _ : R α) = r
    cases r with
    | ok z => exact Signs.sqrt _ z hq
    | error e => trivial
  refine Runs.bindT Runs.any fun _ => Runs.bindT Runs.any fun _ => Runs.bindT Runs.any fun _ => Runs.bindT Runs.any fun _ => Runs.bindT Runs.any fun _ => ?_
  refine Runs.bind (P := fun st : Hqr α => Wd (EndSign nn) st.e) ?_ fun st h => Runs.ok h
  split
  · unfold realPair
    refine Runs.bindT Runs.any fun _ => Runs.bindT Runs.any fun _ => Runs.bindT Runs.any fun _ => Runs.bindT Runs.any fun _ => ?_
    refine (h.wr _ ⟨fun _ => Signs.zero, fun _ => Signs.zero⟩).bind fun e he => (he.wr _ ⟨fun _ => Signs.zero, fun _ => Signs.zero⟩).bind fun e he => ?_
    refine Runs.bindT Runs.any fun _ => Runs.bindT Runs.any fun _ => Runs.bindT Runs.any fun _ => Runs.bindT Runs.any fun _ => Runs.bindT Runs.any fun _ => ?_
    exact Runs.bindT Runs.any fun _ => Runs.bindT Runs.any fun _ => Runs.bindT Runs.any fun _ => Runs.bindT Runs.any fun _ => Runs.ok he
  · refine Runs.bindT Runs.any fun _ => Runs.bindT Runs.any fun _ => ?_
    refine (h.wr (n - 1) ⟨fun _ => hz, fun _ => by omega⟩).bind fun e he => (he.wr n ⟨fun _ => by omega, fun _ => Signs.neg z hz⟩).bind fun e he => Runs.ok he

theorem hqrLoop_sign {nn : Nat} {norm : α} : ∀ (fuel c : Nat) (st : Hqr α), c ≤ nn → Wd (EndSign nn) st.e →
    Runs Any (hqrLoop nn norm fuel c st) fun st => Wd (EndSign nn) st.e
  | fuel, 0, st, _, h => by rw [hqrLoop]; exact Runs.ok h
  | 0, n + 1, st, _, _ => by rw [hqrLoop]; trivial
  | fuel + 1, n + 1, st, hc, h => by
    rw [hqrLoop]
    refine Runs.bindT Runs.any fun l => ?_
    split
    · exact (oneRoot_sign h).bind fun st h => hqrLoop_sign fuel n st (by omega) h
    · split
      · exact (twoRoots_sign (by omega) (by omega) h).bind fun st h => hqrLoop_sign fuel (n - 1) st (by omega) h
      · refine Runs.bind (P := fun s : Hqr α => s.e = st.e) ?_ fun st' h' => hqrLoop_sign fuel (n + 1) st' hc (h' ▸ h)
        unfold qrIter
        exact Runs.bindT Runs.any fun _ => Runs.bindT Runs.any fun _ => Runs.bindT Runs.any fun _ => Runs.bindT Runs.any fun _ => Runs.ok rfl

end Eigen
end LA
