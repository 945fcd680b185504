import Verif.Proofs.RunsEigen3

/-! # The nonsymmetric eigendecomposition does not end once the active block is NaN -/

namespace LA
set_option linter.unusedSectionVars false
variable {α : Type} [Zero α] [One α] [Add α] [Sub α] [Neg α] [Mul α] [FloatOps α] [NaNs α]
open NaNs

instance : Elem Any α := ⟨fun _ _ => Runs.any, fun _ => Runs.any⟩

namespace Eigen

/-- The Hessenberg part of the active block (rows and columns `0..=n`) is NaN. -/
def HN (nn n k : Nat) (x : α) : Prop := ∀ i j, k = i * nn + j → j < nn → j ≤ n → i ≤ n → i ≤ j + 1 → nan x

theorem HN.of {nn n k : Nat} {x : α} (h : nan x) : HN nn n k x := fun _ _ _ _ _ _ _ => h

theorem HN.rd {nn n : Nat} {h : Buf α} (hh : Wd (HN nn n) h) {i j : Nat} (hn : n < nn) (hj : j ≤ n) (hi : i ≤ n) (hij : i ≤ j + 1) :
    Runs Any (rd h (i * nn + j)) nan := (hh.rd _).mono fun x hx => hx i j rfl (by omega) hj hi hij

variable {nn n : Nat}

/-- Reading a NaN of the Hessenberg part. -/
macro "hn" : tactic => `(tactic| first
  | refine (HN.rd (by assumption) (by assumption) (by omega) (by omega) (by omega)).bind fun _ _ => ?_
  | refine Runs.bindT Runs.any fun _ => ?_)

theorem findL_nan {norm : α} {h : Buf α} (hn : n < nn) (hh : Wd (HN nn n) h) : ∀ c, c ≤ n → Runs Any (findL nn norm h c) fun l => l = 0
  | 0, _ => by rw [findL]; exact rfl
  | l + 1, hl => by
    rw [findL]
    hn; hn; hn
    refine Runs.ite (fun hc => ?_) fun _ => findL_nan hn hh l (by omega)
    rw [lt_l _ _ (by nn)] at hc
    exact absurd hc (by simp)

theorem subDiag_nan {x : α} {h : Buf α} (hx : nan x) (hh : Wd (HN nn n) h) : Runs Any (subDiag nn n x h) (Wd (HN nn n)) := by
  unfold subDiag
  exact Runs.loopC (Wd (HN nn n)) hh fun i h _ _ hh => Runs.bindT Runs.any fun _ => hh.wr _ (HN.of (by nn))

theorem hqrShift_nan {iter : Nat} {h : Buf α} {ex : α} (hn : n < nn) (h2 : 2 ≤ n) (hh : Wd (HN nn n) h) :
    Runs Any (hqrShift nn n iter h ex) fun x => Wd (HN nn n) x.1 ∧ nan x.2.2.1 ∧ nan x.2.2.2.1 ∧ nan x.2.2.2.2 := by
  unfold hqrShift
  hn; hn; hn; hn
  refine Runs.bind (P := fun x : Buf α × α × α × α × α => Wd (HN nn n) x.1 ∧ nan x.2.2.1 ∧ nan x.2.2.2.1 ∧ nan x.2.2.2.2) ?_ ?_
  · refine Runs.ite (fun _ => ?_) fun _ => Runs.ok ⟨hh, by assumption, by assumption, by nn⟩
    refine (subDiag_nan (by assumption) hh).bind fun h hh => ?_
    hn; hn
    exact Runs.ok ⟨hh, by nn, by nn, by nn⟩
  · rintro ⟨h, ex, x, y, w⟩ ⟨hh, hx, hy, hw⟩
    dsimp only at hh hx hy hw ⊢
    refine Runs.ite (fun _ => ?_) fun _ => Runs.ok ⟨hh, hx, hy, hw⟩
    refine Runs.bindT Runs.any fun s => Runs.ite (fun hc => ?_) fun _ => Runs.ok ⟨hh, hx, hy, hw⟩
    rw [lt_r _ _ (by nn)] at hc
    exact absurd hc (by simp)

theorem firstCol_nan {m : Nat} {x y w : α} {h : Buf α} (hn : n < nn) (hm : m + 2 ≤ n) (hh : Wd (HN nn n) h) :
    Runs Any (firstCol nn m x y w h) fun r => nan r.1 ∧ nan r.2.1 ∧ nan r.2.2.1 ∧ nan r.2.2.2 := by
  unfold firstCol
  hn; hn
  refine (rdivN_r (by assumption)).bind fun p hp => ?_
  hn; hn; hn
  refine (rdivN_l (by nn)).bind fun p hp => (rdivN_l (by nn)).bind fun q hq => (rdivN_l (by assumption)).bind fun r hr => Runs.ok ⟨hp, hq, hr, by assumption⟩

theorem findStart_nan {x y w : α} {h : Buf α} (hn : n < nn) (hh : Wd (HN nn n) h) : ∀ k, k + 2 ≤ n →
    Runs Any (findStart nn 0 x y w h k) fun r => r.1 = 0 ∧ nan r.2.1 ∧ nan r.2.2.1 ∧ nan r.2.2.2
  | 0, hk => by
    rw [findStart]
    refine (firstCol_nan hn (by omega) hh).bind ?_
    rintro ⟨p, q, r, z⟩ ⟨hp, hq, hr, _⟩
    exact Runs.ok ⟨rfl, hp, hq, hr⟩
  | k + 1, hk => by
    rw [findStart]
    refine (firstCol_nan hn (by omega) hh).bind ?_
    rintro ⟨p, q, r, z⟩ ⟨hp, hq, hr, _⟩
    dsimp only at hp hq hr ⊢
    hn; hn; hn
    refine Runs.ite (fun hc => ?_) fun _ => findStart_nan hn hh k (by omega)
    rw [lt_l _ _ (by nn)] at hc
    exact absurd hc (by simp)

theorem clearSub_nan {m : Nat} {h : Buf α} (hn : n < nn) (hh : Wd (HN nn n) h) : Runs Any (clearSub nn n m h) (Wd (HN nn n)) := by
  unfold clearSub
  refine Runs.loopC (Wd (HN nn n)) hh fun i h h1 h2 hh => ?_
  have key : ∀ k, 2 ≤ k → k ≤ i → HN nn n (i * nn + (i - k)) (0 : α) := fun k hk hki i' j' e hj' _ _ hij => by
    have := lt2_inj (by omega) hj' e
    omega
  refine (hh.wr _ (key 2 (by omega) (by omega))).bind fun h hh => Runs.ite (fun hc => ?_) fun _ => Runs.ok hh
  exact hh.wr _ (key 3 (by omega) (by omega))

theorem qrRows_nan {k : Nat} {nl : Bool} {q r x y z : α} {h : Buf α} (hq : nan q) (hr : nan r) (hx : nan x) (hy : nan y) (hz : nan z) (hh : Wd (HN nn n) h) :
    Runs Any (qrRows nn k nl q r x y z h) (Wd (HN nn n)) := by
  unfold qrRows
  refine Runs.loopC (Wd (HN nn n)) hh fun j h _ _ hh => ?_
  refine Runs.bindT Runs.any fun a => Runs.bindT Runs.any fun b => ?_
  refine Runs.bind (P := fun x : α × Buf α => Wd (HN nn n) x.2) (Runs.ite (fun _ => ?_) fun _ => Runs.ok hh) ?_
  · exact Runs.bindT Runs.any fun c => Runs.bindT Runs.any fun d => (hh.wr _ (HN.of (by nn))).bind fun h hh => Runs.ok hh
  · rintro ⟨p, h⟩ hh
    dsimp only at hh ⊢
    exact Runs.bindT Runs.any fun c => (hh.wr _ (HN.of (by nn))).bind fun h hh => Runs.bindT Runs.any fun d => hh.wr _ (HN.of (by nn))

theorem qrCols_nan {k hi : Nat} {nl : Bool} {q r x y z : α} {h : Buf α} (hq : nan q) (hr : nan r) (hx : nan x) (hy : nan y) (hz : nan z) (hh : Wd (HN nn n) h) :
    Runs Any (qrCols nn k hi nl q r x y z h) (Wd (HN nn n)) := by
  unfold qrCols
  refine Runs.loopC (Wd (HN nn n)) hh fun j h _ _ hh => ?_
  refine Runs.bindT Runs.any fun a => Runs.bindT Runs.any fun b => ?_
  refine Runs.bind (P := fun x : α × Buf α => nan x.1 ∧ Wd (HN nn n) x.2) (Runs.ite (fun _ => ?_) fun _ => Runs.ok ⟨by nn, hh⟩) ?_
  · exact Runs.bindT Runs.any fun c => Runs.bindT Runs.any fun d => (hh.wr _ (HN.of (by nn))).bind fun h hh => Runs.ok ⟨by nn, hh⟩
  · rintro ⟨p, h⟩ ⟨hp, hh⟩
    dsimp only at hp hh ⊢
    exact Runs.bindT Runs.any fun c => (hh.wr _ (HN.of (by nn))).bind fun h hh => Runs.bindT Runs.any fun d => hh.wr _ (HN.of (by nn))

theorem qrReflect_nan {l m k : Nat} {p q r x : α} {h v : Buf α} (hl : l = m) (hp : nan p) (hx : k ≠ m → nan x) (hh : Wd (HN nn n) h) :
    Runs Any (qrReflect nn n l m k p q r x h v) fun x => Wd (HN nn n) x.1 := by
  unfold qrReflect
  refine (sqrtN (by nn)).bind fun s hs => ?_
  have key : ∀ s : α, nan s → Runs Any (if (!(FloatOps.eq s 0)) = true then (do
    let h ← (do
      if k ≠ m then wr h (k * nn + (k - 1)) (-s * x)
      else if l ≠ m then wr h (k * nn + (k - 1)) (-(← rd h (k * nn + (k - 1))))
      else return h)
    let p := p + s
    let x ← RDiv.rdiv p s
    let y ← RDiv.rdiv q s
    let z ← RDiv.rdiv r s
    let q ← RDiv.rdiv q p
    let r ← RDiv.rdiv r p
    let h ← qrRows nn k (decide (k ≠ n - 1)) q r x y z h
    let h ← qrCols nn k (min n (k + 3) + 1) (decide (k ≠ n - 1)) q r x y z h
    let v ← qrCols nn k nn (decide (k ≠ n - 1)) q r x y z v
    return (h, v))
    else return (h, v)) fun x => Wd (HN nn n) x.1 := by
    intro s hs
    refine Runs.ite (fun _ => ?_) fun _ => Runs.ok hh
    refine Runs.bind (P := Wd (HN nn n)) (Runs.ite (fun _ => hh.wr _ (HN.of (by nn))) fun _ => Runs.ite (fun h => absurd hl h) fun _ => Runs.ok hh) fun h hh => ?_
    refine (rdivN_r hs).bind fun x hx => (rdivN_r hs).bind fun y hy => (rdivN_r hs).bind fun z hz => ?_
    have hps : nan (p + s) := by nn
    refine (rdivN_r hps).bind fun q hq => (rdivN_r hps).bind fun r hr => ?_
    refine (qrRows_nan hq hr hx hy hz hh).bind fun h hh => (qrCols_nan hq hr hx hy hz hh).bind fun h hh => ?_
    exact Runs.bindT Runs.any fun v => Runs.ok hh
  refine key _ ?_
  split
  · nn
  · exact hs

theorem qrStep_nan {k : Nat} {p q r : α} {h v : Buf α} (hn : n < nn) (hk : k < n) (hp : nan p) (hh : Wd (HN nn n) h) :
    Runs Any (qrStep nn n 0 0 p q r k h v) fun x => Wd (HN nn n) x.1 := by
  unfold qrStep
  refine Runs.ite (fun hk0 => ?_) fun hk0 => qrReflect_nan rfl hp (fun h => absurd h hk0) hh
  hn
  refine Runs.bindT Runs.any fun q => Runs.bindT Runs.any fun r => Runs.ite (fun _ => Runs.ok hh) fun _ => ?_
  refine (rdivN_l (by assumption)).bind fun p hp => Runs.bindT Runs.any fun q => Runs.bindT Runs.any fun r => ?_
  exact qrReflect_nan rfl hp (fun _ => by nn) hh

theorem qrIter_nan {st : Hqr α} (hn : n < nn) (h2 : 2 ≤ n) (hh : Wd (HN nn n) st.h) : Runs Any (qrIter nn n 0 st) fun st => Wd (HN nn n) st.h := by
  unfold qrIter
  refine (hqrShift_nan hn h2 hh).bind ?_
  rintro ⟨h, ex, x, y, w⟩ ⟨hh, _⟩
  dsimp only at hh ⊢
  refine (findStart_nan hn hh _ (by omega)).bind ?_
  rintro ⟨m, p, q, r⟩ ⟨hm, hp, _⟩
  dsimp only at hm hp ⊢
  subst hm
  refine (clearSub_nan hn hh).bind fun h hh => ?_
  refine Runs.bind (Runs.loopC (fun x : Buf α × Buf α => Wd (HN nn n) x.1) hh ?_) ?_
  · rintro k ⟨h, v⟩ _ hk hh
    exact qrStep_nan hn hk hp hh
  · rintro ⟨h, v⟩ hh
    exact Runs.ok hh

/-- The outer loop does not leave a NaN state. -/
theorem hqrLoop_nan {norm : α} (hn : n < nn) (h2 : 2 ≤ n) : ∀ (fuel : Nat) (st : Hqr α), Wd (HN nn n) st.h →
    Runs Any (hqrLoop nn norm fuel (n + 1) st) fun _ => False
  | 0, st, _ => by rw [hqrLoop]; trivial
  | fuel + 1, st, h => by
    rw [hqrLoop]
    refine (findL_nan hn h n le_rfl).bind fun l hl => ?_
    subst hl
    rw [if_neg (by omega), if_neg (by omega)]
    exact (qrIter_nan hn h2 h).bind fun st h => hqrLoop_nan hn h2 fuel st h

/-! ## The reduction of a NaN matrix to Hessenberg form -/

/-- Every written cell is NaN. -/
abbrev WN (d : Buf α) : Prop := Wd (fun _ => nan) d

theorem orthCol_nan {n m j : Nat} {hn : α} {h ort : Buf α} (hh : WN h) : Runs Any (orthCol n m j hn ort h) WN := by
  unfold orthCol
  refine Runs.bindT Runs.any fun f => Runs.bindT Runs.any fun f => Runs.loopC WN hh fun i h _ _ hh => ?_
  exact (hh.rd _).bind fun x hx => Runs.bindT Runs.any fun y => hh.wr _ (by nn)

theorem orthRow_nan {n m i : Nat} {hn : α} {h ort : Buf α} (hh : WN h) : Runs Any (orthRow n m i hn ort h) WN := by
  unfold orthRow
  refine Runs.bindT Runs.any fun f => Runs.bindT Runs.any fun f => Runs.loopC WN hh fun i h _ _ hh => ?_
  exact (hh.rd _).bind fun x hx => Runs.bindT Runs.any fun y => hh.wr _ (by nn)

theorem orthStep_nan {n m : Nat} {h ort : Buf α} (hm : m < n) (hh : WN h) : Runs Any (orthStep n m h ort) fun x => WN x.1 := by
  unfold orthStep
  refine Runs.bind (P := nan) ?_ fun scale hs => Runs.ite (fun _ => ?_) fun _ => Runs.ok hh
  · refine (Runs.loop (fun i s => m < i → nan s) hm.le (fun h => by omega) fun i s _ _ _ => ?_).mono fun s h => h hm
    exact (hh.rd _).bind fun x hx => Runs.ok fun _ => by nn
  · refine Runs.bindT Runs.any ?_
    rintro ⟨ort, hn⟩
    dsimp only
    refine Runs.bindT Runs.any fun g => Runs.bindT Runs.any fun om => Runs.bindT Runs.any fun ort => ?_
    refine Runs.bind (Runs.loopC WN hh fun j h _ _ hh => orthCol_nan hh) fun h hh => ?_
    refine Runs.bind (Runs.loopC WN hh fun j h _ _ hh => orthRow_nan hh) fun h hh => ?_
    exact Runs.bindT Runs.any fun _ => Runs.bindT Runs.any fun _ => (hh.wr _ (by nn)).bind fun h hh => Runs.ok hh

theorem orthes_nan {n : Nat} {h v : Buf α} (hh : WN h) : Runs Any (orthes n h v) fun x => WN x.1 := by
  unfold orthes
  refine Runs.bind (P := fun hi => hi < n ∨ hi = 0) ?_ fun hi hhi => ?_
  · unfold usub
    split
    · exact Runs.ok (by omega)
    · trivial
  refine Runs.bind (Runs.loopC (fun x : Buf α × Buf α => WN x.1) hh ?_) ?_
  · rintro m ⟨h, ort⟩ _ hm hh
    exact orthStep_nan (by omega) hh
  · rintro ⟨h, ort⟩ hh
    exact Runs.bindT Runs.any fun v => Runs.bindT Runs.any fun _ => Runs.ok hh

theorem new_nan {m n : Nat} (A : Matrix (Fin m) (Fin n) α) (hn : 3 ≤ n) (hmn : n ≤ m) (fuel : Nat) (hA : ∀ i j, nan (A i j)) :
    Runs Any (new fuel (ofM A)) fun _ => False := by
  unfold new newWith
  rw [ofM_cols A (by omega), ok_bind]
  dsimp only
  refine (isSymm_runs A hmn).bind fun b hb => Runs.ite (fun hc => ?_) fun hc => ?_
  · have := hb.1 hc 0 0 (by omega) (by omega)
    rw [eq_l _ _ (hA _ _)] at this
    exact absurd this (by simp)
  · refine Runs.bind (P := WN) ?_ fun h hh => ?_
    · refine Runs.loopC WN (Wd.alloc _) fun j h _ hj hh => Runs.loopC WN hh fun i h _ hi hh => ?_
      rw [ofM_get A (by omega) hj, ok_bind]
      exact hh.wr _ (hA _ _)
    refine (orthes_nan hh).bind ?_
    rintro ⟨h, v⟩ hh
    dsimp only at hh ⊢
    refine Runs.bind (P := fun _ => False) ?_ fun _ h => h.elim
    unfold hqr2
    refine Runs.bindT Runs.any fun norm => Runs.bind (P := fun _ => False) ?_ fun _ h => h.elim
    obtain ⟨k, rfl⟩ : ∃ k, n = k + 1 := ⟨n - 1, by omega⟩
    exact hqrLoop_nan (by omega) (by omega) fuel _ (hh.mono fun i x hx => HN.of hx)

end Eigen
end LA
