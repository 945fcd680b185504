import Verif.Proofs.RunsEigen2

/-! # `EigenDecomposition::new` and `get_d` for arbitrary element operations -/

namespace LA
set_option linter.unusedSectionVars false
variable {α : Type} [Zero α] [One α] [Add α] [Sub α] [Neg α] [Mul α] [FloatOps α] {E : Err → Prop} [Elem E α]

namespace Eigen

theorem cdivR (a b c d : α) : Runs E (cdiv a b c d) fun _ => True := by
  unfold cdiv
  split
  · nxb; nxb; nxb; exact Runs.ok trivial
  · nxb; nxb; nxb; exact Runs.ok trivial

theorem divCol_runs {nn n i c : Nat} {t : α} {h : Buf α} (hn : n < nn) (hc : c < nn) (hh : GF h nn nn) : Runs E (divCol nn n i c t h) fun h => GF h nn nn := by
  unfold divCol
  refine Runs.loopC (fun h => GF h nn nn) hh fun j h _ hj hh => ?_
  nxb; nxb
  exact GF.wr hh (by omega) (by omega) _

theorem realComp_runs {nn n i : Nat} {norm p w r ei : α} {z s : α} {d h : Buf α} (hn : n < nn) (hi : i < n) (hd : VF d nn) (hh : GF h nn nn) :
    Runs E (realComp nn n i norm p w r ei z s d h) fun h => GF h nn nn := by
  unfold realComp
  split
  · split
    · nxb; exact GF.wr hh (by omega) (by omega) _
    · nxb; exact GF.wr hh (by omega) (by omega) _
  · nxb; nxb; nxb; nxb
    refine (GF.wr hh (by omega) (by omega) _).bind fun h hh => ?_
    split
    · nxb; exact GF.wr hh (by omega) (by omega) _
    · nxb; exact GF.wr hh (by omega) (by omega) _

theorem realVec_runs {jk : Left α} {nn n : Nat} {norm p : α} {d e h : Buf α} (hn : n < nn) (hd : VF d nn) (he : VF e nn) (hh : GF h nn nn) :
    Runs E (realVec jk nn n norm p d e h) fun h => GF h nn nn := by
  unfold realVec
  refine (GF.wr hh (by omega) (by omega) _).bind fun h hh => ?_
  refine Runs.bind (Runs.loopRevC (fun x : Buf α × Nat × α × α => GF x.1 nn nn) hh ?_) ?_
  · rintro i ⟨h, l, z, s⟩ _ hi hh
    unfold realStep
    dsimp only at hh ⊢
    nxb
    refine Runs.bindT (Runs.loopT fun j r _ hj => ?_) fun r => ?_
    · nxb; nxb; exact Runs.ok trivial
    nxb
    refine Runs.ite (fun _ => Runs.ok hh) fun _ => (realComp_runs hn hi hd hh).bind fun h hh => ?_
    nxb
    refine Runs.bind (P := fun h => GF h nn nn) (Runs.ite (fun _ => divCol_runs hn hn hh) fun _ => Runs.ok hh) fun h hh => Runs.ok hh
  · rintro ⟨h, l, z, s⟩ hh
    exact Runs.ok hh

theorem complexLast_runs {nn n : Nat} {p q : α} {h : Buf α} (hn : n < nn) (hh : GF h nn nn) : Runs E (complexLast nn n p q h) fun h => GF h nn nn := by
  unfold complexLast
  nxb; nxb
  refine Runs.bind (P := fun h => GF h nn nn) ?_ fun h hh => (GF.wr hh (by omega) (by omega) _).bind fun h hh => GF.wr hh (by omega) (by omega) _
  split
  · nxb
    refine (GF.wr hh (by omega) (by omega) _).bind fun h hh => ?_
    nxb; nxb
    exact GF.wr hh (by omega) (by omega) _
  · nxb
    refine (cdivR _ _ _ _).bindT fun c => (GF.wr hh (by omega) (by omega) _).bind fun h hh => GF.wr hh (by omega) (by omega) _

theorem complexComp_runs {nn n i : Nat} {norm p q w ra sa ei : α} {z r s : α} {d h : Buf α} (hn : n < nn) (hi : i < n) (hd : VF d nn)
    (hh : GF h nn nn) : Runs E (complexComp nn n i norm p q w ra sa ei z r s d h) fun h => GF h nn nn := by
  unfold complexComp
  split
  · exact (cdivR _ _ _ _).bindT fun c => (GF.wr hh (by omega) (by omega) _).bind fun h hh => GF.wr hh (by omega) (by omega) _
  · nxb; nxb; nxb
    refine (cdivR _ _ _ _).bindT fun c => (GF.wr hh (by omega) (by omega) _).bind fun h hh => (GF.wr hh (by omega) (by omega) _).bind fun h hh => ?_
    refine Runs.ite (fun _ => ?_) fun _ => ?_
    · nxb; nxb; nxb
      refine (GF.wr hh (by omega) (by omega) _).bind fun h hh => ?_
      nxb; nxb; nxb
      exact GF.wr hh (by omega) (by omega) _
    · nxb; nxb
      exact (cdivR _ _ _ _).bindT fun c => (GF.wr hh (by omega) (by omega) _).bind fun h hh => GF.wr hh (by omega) (by omega) _

theorem complexVec_runs {jk : Left α} {nn n : Nat} {norm p q : α} {d e h : Buf α} (hn : n < nn) (h1 : 1 ≤ n) (hd : VF d nn) (he : VF e nn) (hh : GF h nn nn) :
    Runs E (complexVec jk nn n norm p q d e h) fun h => GF h nn nn := by
  unfold complexVec
  refine (Runs.usub h1).bind fun n1 hn1 => (complexLast_runs hn hh).bind fun h hh => ?_
  subst hn1
  refine Runs.bind (Runs.loopRevC (fun x : Buf α × Nat × α × α × α => GF x.1 nn nn) hh ?_) ?_
  · rintro i ⟨h, l, z, r, s⟩ _ hi hh
    unfold complexStep
    dsimp only at hh ⊢
    refine Runs.bindT (Runs.loopT fun j r _ hj => ?_) ?_
    · obtain ⟨ra, sa⟩ := r
      dsimp only
      nxb; nxb; nxb; nxb; exact Runs.ok trivial
    rintro ⟨ra, sa⟩
    dsimp only
    nxb; nxb
    refine Runs.ite (fun _ => Runs.ok hh) fun _ => (complexComp_runs hn (by omega) hd hh).bind fun h hh => ?_
    nxb; nxb
    refine Runs.bind (P := fun h => GF h nn nn) (Runs.ite (fun _ => ?_) fun _ => Runs.ok hh) fun h hh => Runs.ok hh
    refine Runs.loopC (fun h => GF h nn nn) hh fun j h _ hj hh => ?_
    nxb; nxb
    refine (GF.wr hh (by omega) (by omega) _).bind fun h hh => ?_
    nxb; nxb
    exact GF.wr hh (by omega) (by omega) _
  · rintro ⟨h, l, z, r, s⟩ hh
    exact Runs.ok hh

theorem vecStep_runs {jk : Nat → Left α} {nn n : Nat} {norm : α} {d e h : Buf α} (hn : n < nn) (hd : VF d nn) (he : VF e nn) (hs : Wd (EndSign nn) e) (hh : GF h nn nn) :
    Runs E (vecStep jk nn norm d e n h) fun h => GF h nn nn := by
  unfold vecStep
  nxb
  refine Runs.bind ((VF.rd (E := E) he hn).and (hs.rd n)) fun q hq => ?_
  refine Runs.ite (fun _ => realVec_runs hn hd he hh) fun _ => Runs.ite (fun hlt => ?_) fun _ => Runs.ok hh
  refine complexVec_runs hn ?_ hd he hh
  by_contra h0
  rw [hq.2.1 (by omega)] at hlt
  exact absurd hlt (by simp)

theorem backTransform_runs {nn : Nat} {h v : Buf α} (hh : GF h nn nn) (hv : GF v nn nn) : Runs E (backTransform nn h v) fun v => GF v nn nn := by
  unfold backTransform
  refine Runs.loopRevC (fun v => GF v nn nn) hv fun j v _ hj hv => Runs.loopC (fun v => GF v nn nn) hv fun i v _ hi hv => ?_
  refine Runs.bindT (Runs.loopT fun k z _ hk => ?_) fun z => GF.wr hv (by omega) (by omega) _
  nxb; nxb; exact Runs.ok trivial

theorem hqr2_runs [Signs α] {jk : Nat → Left α} {nn fuel : Nat} (hF : E .fuel ∨ (nn ≤ 2 ∧ nn ≤ fuel)) {st : Dev α} {h : Buf α} (hd : st.d = alloc α nn) (he : st.e = alloc α nn)
    (hh : GF h nn nn) (hv : GF st.v nn nn) :
    Runs E (hqr2 jk fuel nn st h) fun st => DevW nn st ∧ Wd (EndSign nn) st.e := by
  unfold hqr2
  refine (hqrNorm_runs hh).bindT fun norm => ?_
  have h0 : HqrI nn nn (⟨st.d, st.e, h, st.v, 0, 0⟩ : Hqr α) := by
    refine ⟨?_, ?_, hh, hv⟩
    · rw [hd]; exact (VB.alloc nn).mono fun i hi h => by omega
    · rw [he]; exact (VB.alloc nn).mono fun i hi h => by omega
  have h1 : Wd (EndSign nn) (⟨st.d, st.e, h, st.v, 0, 0⟩ : Hqr α).e := by rw [he]; exact Wd.alloc _
  refine Runs.bind ((hqrLoop_runs fuel nn _ hF le_rfl h0).and (hqrLoop_sign fuel nn _ le_rfl h1)) fun x hx => ?_
  obtain ⟨⟨hd, he, hh, hv⟩, hs⟩ := hx
  have hd : VF x.d nn := hd.mono fun _ _ _ => Nat.zero_le _
  have he : VF x.e nn := he.mono fun _ _ _ => Nat.zero_le _
  refine Runs.ite (fun _ => Runs.ok ⟨⟨hd, he, hv⟩, hs⟩) fun _ => ?_
  refine Runs.bind (Runs.loopRevC (fun h => GF h nn nn) hh fun n h _ hn hh => vecStep_runs hn hd he hs hh) fun h hh => ?_
  exact (backTransform_runs hh hv).bind fun v hv => Runs.ok ⟨⟨hd, he, hv⟩, hs⟩

/-! ## Signs on the symmetric path: all imaginary parts are zero -/

/-- The first `l` cells are zero. -/
def PreZ (l i : Nat) (x : α) : Prop := i < l → x = 0

theorem tqlStep_zero {n l i : Nat} {x : Sweep α} (hi : l ≤ i) (h : Wd (PreZ l) x.st.e) : Runs Any (tqlStep n i x) fun x => Wd (PreZ l) x.st.e := by
  unfold tqlStep
  refine Runs.bindT Runs.any fun _ => Runs.bindT Runs.any fun _ => ?_
  refine (h.wr (i + 1) fun h => by omega).bind fun e he => ?_
  exact Runs.bindT Runs.any fun _ => Runs.bindT Runs.any fun _ => Runs.bindT Runs.any fun _ => Runs.bindT Runs.any fun _ => Runs.bindT Runs.any fun _ =>
    Runs.bindT Runs.any fun _ => Runs.bindT Runs.any fun _ => Runs.ok he

theorem tqlIter_zero {n l m : Nat} {st : Dev α} {f : α} (h : Wd (PreZ l) st.e) : Runs Any (tqlIter n l m st f) fun x => Wd (PreZ l) x.1.e := by
  unfold tqlIter
  refine Runs.bindT Runs.any fun _ => Runs.bindT Runs.any fun _ => Runs.bindT Runs.any fun _ => Runs.bindT Runs.any fun _ => ?_
  refine Runs.bind (Runs.loopRevC (fun x : Sweep α => Wd (PreZ l) x.st.e) h fun i x hi _ hx => tqlStep_zero hi hx) fun x hx => ?_
  refine Runs.bindT Runs.any fun _ => Runs.bindT Runs.any fun _ => ?_
  exact (hx.wr l fun h => by omega).bind fun e he => Runs.bindT Runs.any fun _ => Runs.ok he

theorem tqlLoop_zero {n l m : Nat} {t : α} : ∀ (fuel : Nat) (st : Dev α) (f : α), Wd (PreZ l) st.e → Runs Any (tqlLoop n l m t fuel st f) fun x => Wd (PreZ l) x.1.e
  | 0, st, f, _ => by rw [tqlLoop]; trivial
  | fuel + 1, st, f, h => by
    rw [tqlLoop]
    refine (tqlIter_zero h).bind ?_
    rintro ⟨st, f⟩ h
    dsimp only at h ⊢
    refine Runs.bindT Runs.any fun _ => Runs.ite (fun _ => Runs.ok h) fun _ => tqlLoop_zero fuel st f h

theorem tqlOne_zero {n l fuel : Nat} {x : Dev α × α × α} (h : Wd (PreZ l) x.1.e) : Runs Any (tqlOne fuel n l x) fun x => Wd (PreZ (l + 1)) x.1.e := by
  obtain ⟨st, f, t⟩ := x
  unfold tqlOne
  dsimp only at h ⊢
  refine Runs.bindT Runs.any fun _ => Runs.bindT Runs.any fun _ => Runs.bindT Runs.any fun m => ?_
  refine Runs.bind (P := fun x : Dev α × α => Wd (PreZ l) x.1.e) (Runs.ite (fun _ => tqlLoop_zero fuel st f h) fun _ => Runs.ok h) ?_
  rintro ⟨st, f⟩ h
  dsimp only at h ⊢
  refine Runs.bindT Runs.any fun _ => Runs.bindT Runs.any fun _ => ?_
  exact (h.wr' (Q := PreZ (l + 1)) l (fun _ => rfl) fun j y hj h hl => h (by omega)).bind fun e he => Runs.ok he

theorem tql2_zero {n fuel : Nat} {st : Dev α} : Runs Any (tql2 fuel n st) fun st => Wd (PreZ n) st.e := by
  unfold tql2
  refine Runs.bindT Runs.any fun e => Runs.bindT Runs.any fun _ => Runs.bindT Runs.any fun e => ?_
  refine Runs.bind (Runs.loop (fun l (x : Dev α × α × α) => Wd (PreZ l) x.1.e) (Nat.zero_le _) (fun i x _ h => by omega) fun l x _ _ hx => tqlOne_zero hx) ?_
  rintro ⟨st, f, t⟩ h
  dsimp only at h ⊢
  exact Runs.bindT Runs.any fun _ => Runs.bindT Runs.any fun _ => Runs.ok h

/-! ## `new` -/

/-- The leading square block is symmetric, as far as `==` can tell. -/
def TestsSymm {m n : Nat} (A : Matrix (Fin m) (Fin n) α) (hmn : n ≤ m) : Prop :=
  ∀ (i j : Nat) (hi : i < n) (hj : j < n), FloatOps.eq (A ⟨i, by omega⟩ ⟨j, hj⟩) (A ⟨j, by omega⟩ ⟨i, hi⟩) = true

theorem isSymm_runs {m n : Nat} (A : Matrix (Fin m) (Fin n) α) (hmn : n ≤ m) :
    Runs E (isSymm n (ofM A)) fun b => b = true ↔ TestsSymm A hmn := by
  unfold isSymm
  refine Runs.bind (Runs.loopF (fun k _ => ∀ (i j : Nat) (hi : i < n) (hj : j < n), j < k → FloatOps.eq (A ⟨i, by omega⟩ ⟨j, hj⟩) (A ⟨j, by omega⟩ ⟨i, hi⟩) = true)
    (fun b : Bool => b = false ∧ ¬ TestsSymm A hmn) (Nat.zero_le n) (fun i j _ _ h => by omega) fun j _ _ hj hI => ?_) ?_
  · refine Runs.bind (Runs.loopF (fun k _ => ∀ (i : Nat) (hi : i < n), i < k → FloatOps.eq (A ⟨i, by omega⟩ ⟨j, hj⟩) (A ⟨j, by omega⟩ ⟨i, hi⟩) = true)
      (fun b : Bool => b = false ∧ ¬ TestsSymm A hmn) (Nat.zero_le n) (fun i _ h => by omega) fun i _ _ hi hJ => ?_) ?_
    · rw [ofM_get A (by omega) hj, ofM_get A (by omega) hi, ok_bind, ok_bind]
      refine Runs.ite (fun hc => Runs.ok ?_) fun hc => Runs.ok ⟨rfl, fun h => hc (h i j hi hj)⟩
      intro i' hi' hlt
      rcases Nat.lt_or_ge i' i with h | h
      · exact hJ i' hi' h
      · have : i' = i := by omega
        subst this; exact hc
    · rintro (_ | b) h
      · refine Runs.ok ?_
        intro i' j' hi' hj' hlt
        rcases Nat.lt_or_ge j' j with h' | h'
        · exact hI i' j' hi' hj' h'
        · have : j' = j := by omega
          subst this; exact h i' hi' hi'
      · exact Runs.ok h
  · rintro (_ | b) h
    · exact Runs.ok ⟨fun _ i j hi hj => h i j hi hj hj, fun _ => rfl⟩
    · refine Runs.ok ⟨fun hb => ?_, fun hs => absurd hs h.2⟩
      rw [h.1] at hb; exact absurd hb (by simp)

/-- What a returned decomposition looks like. -/
def Returned (n : Nat) (x : Eigen α) : Prop :=
  x.n = n ∧ x.d.length = n ∧ x.e.length = n ∧ x.v.rows = n ∧ x.v.data.length = n * n ∧ Ld (EndSign n) x.e

theorem freeze_inv : ∀ {d : Buf α} {l : List α}, freeze d = .ok l → d = l.map some
  | [], l, h => by rw [freeze] at h; cases h; rfl
  | none :: d, l, h => by rw [freeze] at h; cases h
  | some x :: d, l, h => by
    rw [freeze] at h
    cases hf : freeze d with
    | error e => rw [hf] at h; cases h
    | ok r => rw [hf] at h; cases h; rw [freeze_inv hf]; rfl

theorem freeze_ld {P : Nat → α → Prop} {d : Buf α} (h : Wd P d) : Runs Any (freeze d) fun l => Ld P l := by
  cases hf : freeze d with
  | error e => trivial
  | ok l =>
    have : d = l.map some := freeze_inv hf
    intro i x hx
    exact h i x (by rw [this, List.getElem?_map, hx]; rfl)

theorem fill_runs {m n : Nat} (A : Matrix (Fin m) (Fin n) α) (hmn : n ≤ m) :
    Runs E (loop 0 n (alloc α (n * n)) fun i v => loop 0 n v fun j v => do wr v (i * n + j) (← (ofM A).get i j)) fun v => GF v n n := by
  refine (Runs.loop (fun i v => GB v n n fun a _ => a < i) (Nat.zero_le _) ((GB.alloc n n).mono fun _ _ _ _ h => by omega) fun i v _ hi hv => ?_).mono
    fun v hv => hv.mono fun a b ha _ _ => ha
  refine (Runs.loop (fun j v => GB v n n fun a b => a < i ∨ (a = i ∧ b < j)) (Nat.zero_le _) (hv.mono fun a b _ _ h => by omega) fun j v _ hj hv => ?_).mono
    fun v hv => hv.mono fun a b _ hb h => by omega
  rw [ofM_get A (by omega) hj, ok_bind]
  exact (hv.wr hi hj _).mono fun v hv => hv.mono fun a b _ _ h => by omega

theorem fillT_runs {m n : Nat} (A : Matrix (Fin m) (Fin n) α) (hmn : n ≤ m) :
    Runs E (loop 0 n (alloc α (n * n)) fun j v => loop 0 n v fun i v => do wr v (i * n + j) (← (ofM A).get i j)) fun v => GF v n n := by
  refine (Runs.loop (fun j v => GB v n n fun _ b => b < j) (Nat.zero_le _) ((GB.alloc n n).mono fun _ _ _ _ h => by omega) fun j v _ hj hv => ?_).mono
    fun v hv => hv.mono fun a b _ hb _ => hb
  refine (Runs.loop (fun i v => GB v n n fun a b => b < j ∨ (b = j ∧ a < i)) (Nat.zero_le _) (hv.mono fun a b _ _ h => by omega) fun i v _ hi hv => ?_).mono
    fun v hv => hv.mono fun a b ha _ h => by omega
  rw [ofM_get A (by omega) hj, ok_bind]
  exact (hv.wr hi hj _).mono fun v hv => hv.mono fun a b _ _ h => by omega

theorem close_runs {n : Nat} {st : Dev α} (hn : 0 < n) (h : DevW n st) (hs : Wd (EndSign n) st.e) :
    Runs E (do return ⟨n, ← freeze st.d, ← freeze st.e, ← Mat.new n n (← freeze st.v)⟩ : R (Eigen α)) (Returned n) := by
  obtain ⟨hd, he, hv⟩ := h
  refine (VB.freeze hd).bind fun d hd => ((VB.freeze he).and (freeze_ld hs)).bind fun e he => (GB.freeze hv).bind fun v hv => ?_
  exact (Mat.new_runs hv hn hn).bind fun v hv => Runs.ok ⟨rfl, hd, he.1, hv.1, hv.2, he.2⟩

theorem new_runs [Signs α] {m n : Nat} (A : Matrix (Fin m) (Fin n) α) (hn : 0 < n) (hmn : n ≤ m) (fuel : Nat) (hF : TestsSymm A hmn → E .fuel)
    (hO : TestsSymm A hmn → E .oob) (hU : ¬ TestsSymm A hmn → E .fuel ∨ (n ≤ 2 ∧ n ≤ fuel)) : Runs E (new fuel (ofM A)) (Returned n) := by
  unfold new newWith
  rw [ofM_cols A (by omega), ok_bind]
  dsimp only
  refine (isSymm_runs A hmn).bind fun b hb => Runs.ite (fun hc => ?_) fun hc => ?_
  · have hO := hO (hb.1 hc)
    have hF := hF (hb.1 hc)
    refine (fill_runs A hmn).bind fun v hv => (tred2_runs hn (VB.alloc n) (VB.alloc n) hv).bind fun st hst => ?_
    refine ((tql2_runs hn hO hF hst).and tql2_zero).bind fun st hst => close_runs hn hst.1 ?_
    intro i x hx
    have hi : i < n := by
      rw [← hst.1.2.1.1]
      by_contra h
      rw [List.getElem?_eq_none (by omega)] at hx
      simp at hx
    rw [hst.2 i x hx hi]
    exact ⟨fun _ => Signs.zero, fun _ => Signs.zero⟩
  · have hU := hU fun h => hc (hb.2 h)
    refine (fillT_runs A hmn).bind fun h hh => (orthes_runs hn hh (by simp [alloc])).bind ?_
    rintro ⟨h, v⟩ ⟨hh, hv⟩
    exact (hqr2_runs hU rfl rfl hh hv).bind fun st hst => close_runs hn hst.1 hst.2

theorem getD_runs {n : Nat} {x : Eigen α} (hn : 0 < n) (h : Returned n x) : Runs E x.getD fun b => b.rows = n ∧ b.data.length = n * n := by
  obtain ⟨h1, h2, h3, h4, h5, h6⟩ := h
  unfold getD
  rw [h1]
  refine Runs.bind (Runs.loop (fun i v => GB v n n fun a _ => a < i) (Nat.zero_le _) ((GB.alloc n n).mono fun _ _ _ _ h => by omega) fun i v _ hi hv => ?_) fun v hv => ?_
  · refine Runs.bind (Runs.loop (fun j v => GB v n n fun a b => a < i ∨ (a = i ∧ b < j)) (Nat.zero_le _) (hv.mono fun a b _ _ h => by omega) fun j v _ hj hv => ?_)
      fun v hv => ?_
    · exact (hv.wr hi hj _).mono fun v hv => hv.mono fun a b _ _ h => by omega
    have hv : GB v n n fun a b => a < i + 1 := hv.mono fun a b _ hb h => by omega
    refine (Runs.idx (by omega)).bindT fun _ => (hv.wr hi hi _).bind fun v hv => ?_
    have hv : GB v n n fun a b => a < i + 1 := hv.mono fun a b _ hb h => Or.inl h
    have hie : i < x.e.length := by omega
    have hx : x.e[i]? = some x.e[i] := List.getElem?_eq_getElem hie
    have hs := h6 i _ hx
    have hid : idx x.e i = .ok x.e[i] := by unfold idx; rw [hx]
    rw [hid, ok_bind]
    refine Runs.ite (fun hc => ?_) fun _ => ?_
    · rw [ok_bind]
      have : i + 1 ≠ n := fun e => by rw [hs.2 e] at hc; exact absurd hc (by simp)
      exact (hv.wr hi (by omega) _).mono fun v hv => hv.mono fun a b _ _ h => Or.inl h
    · rw [ok_bind]
      refine Runs.ite (fun hc => ?_) fun _ => Runs.ok hv
      have : i ≠ 0 := fun e => by rw [hs.1 e] at hc; exact absurd hc (by simp)
      refine (Runs.usub (by omega)).bind fun k hk => ?_
      rw [ok_bind]
      exact (hv.wr hi (by omega) _).mono fun v hv => hv.mono fun a b _ _ h => Or.inl h
  · have hv : GF v n n := hv.mono fun a b ha _ _ => ha
    exact (GB.freeze hv).bind fun l hl => Mat.new_runs hl hn hn

end Eigen
end LA
