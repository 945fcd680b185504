import Verif.Proofs.NaN
import Verif.Model.Eigen

/-! # The eigendecomposition for arbitrary element operations

The symmetric path may index out of bounds (when NaN keeps `findM` from finding a negligible entry); the other errors are excluded.
The nonsymmetric path does not panic. -/

namespace LA
set_option linter.unusedSectionVars false
variable {α : Type} [Zero α] [One α] [Add α] [Sub α] [Neg α] [Mul α] [FloatOps α] {E : Err → Prop} [Elem E α]

theorem VF.rdE {d : Buf α} {N : Nat} (h : VF d N) (hE : E .oob) (i : Nat) : Runs E (LA.rd d i) fun _ => True := by
  by_cases hi : i < N
  · exact VF.rd h hi
  · unfold LA.rd
    rw [List.getElem?_eq_none (by rw [h.1]; omega)]
    exact hE

theorem VF.wrE {d : Buf α} {N : Nat} (h : VF d N) (hE : E .oob) (i : Nat) (x : α) : Runs E (LA.wr d i x) fun d' => VF d' N := by
  by_cases hi : i < N
  · exact VF.wr h hi x
  · unfold LA.wr
    rw [if_neg (by rw [h.1]; omega)]
    exact hE

namespace Eigen

/-! ## `tred2` -/

theorem tredZero_runs {n i : Nat} {st : Dev α} (hi : 1 ≤ i) (hin : i < n) (hd : VF st.d n) (he : VB st.e n fun j => i < j) (hv : GF st.v n n) :
    Runs E (tredZero n i st) fun st => VF st.d n ∧ (VB st.e n fun j => i ≤ j) ∧ GF st.v n n := by
  unfold tredZero
  nxb; nxb
  refine (he.wr (by omega) _).bind fun e he => ?_
  refine Runs.bind (Runs.loopC (fun x : Buf α × Buf α => VF x.1 n ∧ GF x.2 n n) ⟨hd, hv⟩ ?_) ?_
  · rintro j ⟨d, v⟩ _ hj ⟨hd, hv⟩
    dsimp only at hd hv ⊢
    nxb; nxb
    refine (VF.wr hd (by omega) _).bind fun d hd => (GF.wr hv (by omega) (by omega) _).bind fun v hv => (GF.wr hv (by omega) (by omega) _).bind fun v hv =>
      Runs.ok ⟨hd, hv⟩
  · rintro ⟨d, v⟩ ⟨hd, hv⟩
    exact (VF.wr hd (by omega) _).bind fun d hd => Runs.ok ⟨hd, he.mono fun j _ h => by omega, hv⟩

theorem tredScale_runs {n i : Nat} {scale : α} {d : Buf α} (hin : i < n) (hd : VF d n) : Runs E (tredScale i scale d) fun x => VF x.1 n := by
  unfold tredScale
  refine Runs.loopC (fun x : Buf α × α => VF x.1 n) hd ?_
  rintro k ⟨d, h⟩ _ hk hd
  dsimp only at hd ⊢
  nxb; nxb
  refine (VF.wr hd (by omega) _).bind fun d hd => ?_
  nxb; nxb
  exact Runs.ok hd

theorem tredSymv_runs {n i : Nat} {d e v : Buf α} (hin : i < n) (hd : VF d n) (he : VF e n) (hv : GF v n n) :
    Runs E (tredSymv n i d e v) fun x => VF x.1 n ∧ GF x.2 n n := by
  unfold tredSymv
  refine Runs.loopC (fun x : Buf α × Buf α => VF x.1 n ∧ GF x.2 n n) ⟨he, hv⟩ ?_
  rintro j ⟨e, v⟩ _ hj ⟨he, hv⟩
  dsimp only at he hv ⊢
  nxb
  refine (GF.wr hv (by omega) (by omega) _).bind fun v hv => ?_
  refine (VF.rd he (by omega)).bindT fun _ => ?_
  nxb
  refine Runs.bind (Runs.loopC (fun x : α × Buf α => VF x.2 n) he ?_) ?_
  · rintro k ⟨g, e⟩ _ hk he
    dsimp only at he ⊢
    nxb; nxb; nxb; nxb
    exact (VF.wr he (by omega) _).bind fun e he => Runs.ok he
  · rintro ⟨g, e⟩ he
    exact (VF.wr he (by omega) _).bind fun e he => Runs.ok ⟨he, hv⟩

theorem tredQ_runs {n i : Nat} {h : α} {d e : Buf α} (hin : i < n) (hd : VF d n) (he : VF e n) : Runs E (tredQ i h d e) fun e => VF e n := by
  unfold tredQ
  refine Runs.bind (Runs.loopC (fun x : Buf α × α => VF x.1 n) he ?_) ?_
  · rintro j ⟨e, f⟩ _ hj he
    dsimp only at he ⊢
    refine (VF.rd he (by omega)).bindT fun _ => ?_
    nxb
    refine (VF.wr he (by omega) _).bind fun e he => (VF.rd he (by omega)).bindT fun _ => ?_
    nxb
    exact Runs.ok he
  · rintro ⟨e, f⟩ he
    dsimp only at he ⊢
    nxb
    refine Runs.loopC (fun e => VF e n) he fun j e _ hj he => ?_
    refine (VF.rd he (by omega)).bindT fun _ => (VF.rd hd (by omega)).bindT fun _ => VF.wr he (by omega) _

theorem tredRank2_runs {n i : Nat} {d e v : Buf α} (hi : 1 ≤ i) (hin : i < n) (hd : VF d n) (he : VF e n) (hv : GF v n n) :
    Runs E (tredRank2 n i d e v) fun x => VF x.1 n ∧ GF x.2 n n := by
  unfold tredRank2
  refine Runs.loopC (fun x : Buf α × Buf α => VF x.1 n ∧ GF x.2 n n) ⟨hd, hv⟩ ?_
  rintro j ⟨d, v⟩ _ hj ⟨hd, hv⟩
  dsimp only at hd hv ⊢
  nxb; nxb
  refine Runs.bind (Runs.loopC (fun v => GF v n n) hv fun k v _ hk hv => ?_) fun v hv => ?_
  · nxb; nxb; nxb
    exact GF.wr hv (by omega) (by omega) _
  · nxb; nxb
    exact (VF.wr hd (by omega) _).bind fun d hd => (GF.wr hv (by omega) (by omega) _).bind fun v hv => Runs.ok ⟨hd, hv⟩

theorem tredHouse_runs {n i : Nat} {scale : α} {st : Dev α} (hi : 1 ≤ i) (hin : i < n) (hd : VF st.d n) (he : VB st.e n fun j => i < j) (hv : GF st.v n n) :
    Runs E (tredHouse n i scale st) fun st => VF st.d n ∧ (VB st.e n fun j => i ≤ j) ∧ GF st.v n n := by
  unfold tredHouse
  refine (tredScale_runs hin hd).bind ?_
  rintro ⟨d, h⟩ hd
  dsimp only at hd ⊢
  nxb; nxb; nxb
  refine (he.wr (by omega) _).bind fun e he => ?_
  nxb
  refine (VF.wr hd (by omega) _).bind fun d hd => ?_
  refine Runs.bind (Runs.loop (fun k e => VB e n fun j => i ≤ j ∨ j < k) (Nat.zero_le _) (he.mono fun j _ h => by omega) fun k e _ hk he => ?_) fun e he => ?_
  · exact (he.wr (by omega) _).mono fun e he => he.mono fun j _ h => by omega
  have he : VF e n := he.mono fun j _ _ => by omega
  refine (tredSymv_runs hin hd he hv).bind ?_
  rintro ⟨e, v⟩ ⟨he, hv⟩
  dsimp only at he hv ⊢
  refine (tredQ_runs hin hd he).bind fun e he => (tredRank2_runs hi hin hd he hv).bind ?_
  rintro ⟨d, v⟩ ⟨hd, hv⟩
  exact (VF.wr hd (by omega) _).bind fun d hd => Runs.ok ⟨hd, VB.mono he fun j _ _ => trivial, hv⟩

theorem tredStep_runs {n i : Nat} {st : Dev α} (hi : 1 ≤ i) (hin : i < n) (hd : VF st.d n) (he : VB st.e n fun j => i < j) (hv : GF st.v n n) :
    Runs E (tredStep n i st) fun st => VF st.d n ∧ (VB st.e n fun j => i ≤ j) ∧ GF st.v n n := by
  unfold tredStep
  refine Runs.bindT (Runs.loopT fun k s _ hk => ?_) fun scale => ?_
  · nxb; exact Runs.ok trivial
  split
  · exact tredZero_runs hi hin hd he hv
  · exact tredHouse_runs hi hin hd he hv

theorem tredAcc_runs {n i : Nat} {d v : Buf α} (hin : i + 1 < n) (hd : VF d n) (hv : GF v n n) :
    Runs E (tredAcc n i d v) fun x => VF x.1 n ∧ GF x.2 n n := by
  unfold tredAcc
  nxb; nxb
  refine (GF.wr hv (by omega) (by omega) _).bind fun v hv => (GF.wr hv (by omega) (by omega) _).bind fun v hv => ?_
  nxb
  refine Runs.bind (P := fun x : Buf α × Buf α => VF x.1 n ∧ GF x.2 n n) ?_ ?_
  · split
    · refine Runs.bind (Runs.loopC (fun d => VF d n) hd fun k d _ hk hd => ?_) fun d hd => ?_
      · nxb; nxb; exact VF.wr hd (by omega) _
      refine Runs.bind (Runs.loopC (fun v => GF v n n) hv fun j v _ hj hv => ?_) fun v hv => Runs.ok ⟨hd, hv⟩
      unfold tredApply
      refine Runs.bindT (Runs.loopT fun k g _ hk => ?_) fun g => Runs.loopC (fun v => GF v n n) hv fun k v _ hk hv => ?_
      · nxb; nxb; exact Runs.ok trivial
      · nxb; nxb; exact GF.wr hv (by omega) (by omega) _
    · exact Runs.ok ⟨hd, hv⟩
  · rintro ⟨d, v⟩ ⟨hd, hv⟩
    dsimp only at hd hv ⊢
    refine Runs.bind (Runs.loopC (fun v => GF v n n) hv fun k v _ hk hv => ?_) fun v hv => Runs.ok ⟨hd, hv⟩
    exact GF.wr hv (by omega) (by omega) _

theorem tred2_runs {n : Nat} {st : Dev α} (hn : 0 < n) (hd : VB st.d n fun _ => False) (he : VB st.e n fun _ => False) (hv : GF st.v n n) :
    Runs E (tred2 n st) fun st => VF st.d n ∧ VF st.e n ∧ GF st.v n n := by
  unfold tred2
  refine Runs.bind (Runs.loop (fun k d => VB d n fun j => j < k) (Nat.zero_le _) (hd.mono fun j _ h => by omega) fun j d _ hj hd => ?_) fun d hd => ?_
  · nxb; nxb; exact (hd.wr (by omega) _).mono fun d hd => hd.mono fun j _ h => by omega
  have hd : VF d n := hd.mono fun j hj _ => hj
  refine Runs.bind (Runs.loopRev (fun i st => VF st.d n ∧ (VB st.e n fun j => i ≤ j) ∧ GF st.v n n) (by omega) ⟨hd, he.mono fun j _ h => by omega, hv⟩
    fun i st h1 h2 h => tredStep_runs h1 h2 h.1 (h.2.1.mono fun j _ h => by omega) h.2.2) fun st h => ?_
  obtain ⟨hd, he, hv⟩ := h
  nxb
  refine Runs.bind (Runs.loopC (fun x : Buf α × Buf α => VF x.1 n ∧ GF x.2 n n) ⟨hd, hv⟩ ?_) ?_
  · rintro i ⟨d, v⟩ _ hi ⟨hd, hv⟩
    exact tredAcc_runs (by omega) hd hv
  rintro ⟨d, v⟩ ⟨hd, hv⟩
  dsimp only at hd hv ⊢
  refine Runs.bind (Runs.loopC (fun x : Buf α × Buf α => VF x.1 n ∧ GF x.2 n n) ⟨hd, hv⟩ ?_) ?_
  · rintro i ⟨d, v⟩ _ hi ⟨hd, hv⟩
    dsimp only at hd hv ⊢
    nxb; nxb
    refine (VF.wr hd (by omega) _).bind fun d hd => ?_
    nxb
    exact (GF.wr hv (by omega) (by omega) _).bind fun v hv => Runs.ok ⟨hd, hv⟩
  rintro ⟨d, v⟩ ⟨hd, hv⟩
  dsimp only at hd hv ⊢
  nxb; nxb
  refine (GF.wr hv (by omega) (by omega) _).bind fun v hv => (he.wr (by omega) _).bind fun e he => Runs.ok ⟨hd, he.mono fun j _ _ => by omega, hv⟩

/-! ## `tql2` -/

theorem findM_runs {n : Nat} {e : Buf α} {t : α} (he : VF e n) : ∀ k m, m + k ≤ n → Runs E (findM e t k m) fun r => m ≤ r ∧ r ≤ m + k
  | 0, m, _ => by rw [findM]; exact Runs.ok ⟨le_rfl, le_rfl⟩
  | k + 1, m, h => by
    rw [findM]
    refine (VF.rd he (by omega)).bindT fun _ => ?_
    split
    · exact Runs.ok ⟨le_rfl, by omega⟩
    · exact (findM_runs he k (m + 1) (by omega)).mono fun r hr => by omega

/-- All buffers written. -/
def DevW (n : Nat) (st : Dev α) : Prop := VF st.d n ∧ VF st.e n ∧ GF st.v n n

theorem tqlStep_runs {n i : Nat} {x : Sweep α} (hi : i + 1 < n) (h : DevW n x.st) : Runs E (tqlStep n i x) fun x => DevW n x.st := by
  obtain ⟨hd, he, hv⟩ := h
  unfold tqlStep
  nxb; nxb
  refine (VF.wr he (by omega) _).bind fun e he => ?_
  nxb; nxb; nxb; nxb; nxb
  refine (VF.wr hd (by omega) _).bind fun d hd => ?_
  unfold tqlRot
  refine Runs.bind (Runs.loopC (fun v => GF v n n) hv fun k v _ hk hv => ?_) fun v hv => Runs.ok ⟨hd, he, hv⟩
  nxb; nxb
  refine (GF.wr hv (by omega) (by omega) _).bind fun v hv => ?_
  nxb
  exact GF.wr hv (by omega) (by omega) _

theorem tqlShift_runs {n l : Nat} {d e : Buf α} {f : α} (hl : l < n) (hE : l + 1 < n ∨ E .oob) (hd : VF d n) (he : VF e n) :
    Runs E (tqlShift n l d e f) fun x => VF x.1 n := by
  unfold tqlShift
  nxb; nxb
  have hrd : ∀ d : Buf α, VF d n → Runs E (rd d (l + 1)) fun _ => True := fun d hd => by
    rcases hE with h | h
    · exact VF.rd hd h
    · exact VF.rdE hd h _
  have hwr : ∀ (d : Buf α) (x : α), VF d n → Runs E (wr d (l + 1) x) fun d => VF d n := fun d x hd => by
    rcases hE with h | h
    · exact VF.wr hd h x
    · exact VF.wrE hd h _ x
  refine (hrd d hd).bindT fun _ => ?_
  nxb; nxb; nxb
  refine (VF.wr hd (by omega) _).bind fun d hd => (hwr d _ hd).bind fun d hd => ?_
  refine (VF.rd hd (by omega)).bindT fun _ => ?_
  refine Runs.bind (Runs.loopC (fun d => VF d n) hd fun i d _ hi hd => ?_) fun d hd => Runs.ok hd
  refine (VF.rd hd (by omega)).bindT fun _ => VF.wr hd (by omega) _

theorem tqlIter_runs {n l m : Nat} {st : Dev α} {f : α} (hlm : l < m) (hm : m ≤ n) (hE : m < n ∨ E .oob) (h : DevW n st) :
    Runs E (tqlIter n l m st f) fun x => DevW n x.1 := by
  obtain ⟨hd, he, hv⟩ := h
  unfold tqlIter
  refine (tqlShift_runs (by omega) (hE.imp_left fun h => by omega) hd he).bind ?_
  rintro ⟨d, f⟩ hd
  dsimp only at hd ⊢
  rcases hE with hE | hE
  · nxb; nxb; nxb
    refine Runs.bind (Runs.loopRevC (fun x : Sweep α => DevW n x.st) ⟨hd, he, hv⟩ fun i x _ hi hx => tqlStep_runs (by omega) hx) fun x hx => ?_
    obtain ⟨hd, he, hv⟩ := hx
    nxb; nxb
    exact (VF.wr he (by omega) _).bind fun e he => (VF.wr hd (by omega) _).bind fun d hd => Runs.ok ⟨hd, he, hv⟩
  · rcases Nat.lt_or_ge m n with hlt | hge
    · nxb; nxb; nxb
      refine Runs.bind (Runs.loopRevC (fun x : Sweep α => DevW n x.st) ⟨hd, he, hv⟩ fun i x _ hi hx => tqlStep_runs (by omega) hx) fun x hx => ?_
      obtain ⟨hd, he, hv⟩ := hx
      nxb; nxb
      exact (VF.wr he (by omega) _).bind fun e he => (VF.wr hd (by omega) _).bind fun d hd => Runs.ok ⟨hd, he, hv⟩
    · refine (VF.rdE hd hE _).bindT fun _ => ?_
      have : rd d m = .error .oob := by
        unfold LA.rd; rw [List.getElem?_eq_none (by rw [hd.1]; omega)]
      rw [this]
      exact hE

theorem tqlLoop_runs {n l m : Nat} {t : α} (hlm : l < m) (hm : m ≤ n) (hE : m < n ∨ E .oob) (hF : E .fuel) : ∀ (fuel : Nat) (st : Dev α) (f : α), DevW n st →
    Runs E (tqlLoop n l m t fuel st f) fun x => DevW n x.1
  | 0, st, f, _ => by rw [tqlLoop]; exact hF
  | fuel + 1, st, f, h => by
    rw [tqlLoop]
    refine (tqlIter_runs hlm hm hE h).bind ?_
    rintro ⟨st, f⟩ h
    dsimp only at h ⊢
    refine (VF.rd h.2.1 (by omega)).bindT fun _ => ?_
    split
    · exact Runs.ok h
    · exact tqlLoop_runs hlm hm hE hF fuel st f h

theorem tqlOne_runs {n l fuel : Nat} {x : Dev α × α × α} (hl : l < n) (hE : E .oob) (hF : E .fuel) (h : DevW n x.1) :
    Runs E (tqlOne fuel n l x) fun x => DevW n x.1 := by
  obtain ⟨st, f, t⟩ := x
  obtain ⟨hd, he, hv⟩ := h
  unfold tqlOne
  dsimp only at hd he hv ⊢
  nxb; nxb
  refine (findM_runs he (n - l) l (by omega)).bind fun m hm => ?_
  refine Runs.bind (P := fun x : Dev α × α => DevW n x.1) ?_ ?_
  · split
    · exact tqlLoop_runs (by assumption) (by omega) (Or.inr hE) hF fuel st f ⟨hd, he, hv⟩
    · exact Runs.ok ⟨hd, he, hv⟩
  · rintro ⟨st, f⟩ ⟨hd, he, hv⟩
    dsimp only at hd he hv ⊢
    nxb
    exact (VF.wr hd (by omega) _).bind fun d hd => (VF.wr he (by omega) _).bind fun e he => Runs.ok ⟨hd, he, hv⟩

theorem tqlSort_runs {n i : Nat} {d v : Buf α} (hi : i < n) (hd : VF d n) (hv : GF v n n) : Runs E (tqlSort n i d v) fun x => VF x.1 n ∧ GF x.2 n n := by
  unfold tqlSort
  nxb
  refine Runs.bind (Runs.loopC (fun x : Nat × α => x.1 < n) hi ?_) ?_
  · rintro j ⟨k, p⟩ _ hj hk
    dsimp only at hk ⊢
    nxb
    split
    · nxb; exact Runs.ok hj
    · exact Runs.ok hk
  · rintro ⟨k, p⟩ hk
    dsimp only at hk ⊢
    split
    · nxb
      refine (VF.wr hd (by omega) _).bind fun d hd => (VF.wr hd (by omega) _).bind fun d hd => ?_
      unfold swap2
      refine Runs.bind (Runs.loopC (fun v => GF v n n) hv fun j v _ hj hv => ?_) fun v hv => Runs.ok ⟨hd, hv⟩
      nxb; nxb
      exact (GF.wr hv (by omega) (by omega) _).bind fun v hv => GF.wr hv (by omega) (by omega) _
    · exact Runs.ok ⟨hd, hv⟩

theorem tql2_runs {n fuel : Nat} {st : Dev α} (hn : 0 < n) (hE : E .oob) (hF : E .fuel) (h : DevW n st) : Runs E (tql2 fuel n st) fun st => DevW n st := by
  obtain ⟨hd, he, hv⟩ := h
  unfold tql2
  refine Runs.bind (Runs.loopC (fun e => VF e n) he fun i e h1 hi he => ?_) fun e he => ?_
  · nxb; nxb; exact VF.wr he (by omega) _
  nxb
  refine (VF.wr he (by omega) _).bind fun e he => ?_
  refine Runs.bind (Runs.loopC (fun x : Dev α × α × α => DevW n x.1) ⟨hd, he, hv⟩ fun l x _ hl hx => tqlOne_runs hl hE hF hx) ?_
  rintro ⟨st, f, t⟩ ⟨hd, he, hv⟩
  dsimp only at hd he hv ⊢
  nxb
  refine Runs.bind (Runs.loopC (fun x : Buf α × Buf α => VF x.1 n ∧ GF x.2 n n) ⟨hd, hv⟩ ?_) ?_
  · rintro i ⟨d, v⟩ _ hi ⟨hd, hv⟩
    exact tqlSort_runs (by omega) hd hv
  · rintro ⟨d, v⟩ ⟨hd, hv⟩
    exact Runs.ok ⟨hd, he, hv⟩

end Eigen
end LA
