import Verif.Proofs.RunsDecomp

/-! # SVD never panics, for arbitrary (total) element operations -/

namespace LA
set_option linter.unusedSectionVars false
variable {α : Type} [Zero α] [One α] [Add α] [Sub α] [Neg α] [Mul α] [FloatOps α] {E : Err → Prop} [Elem E α]

/-- One step of a `do` block over buffers. -/
macro "nxb" : tactic => `(tactic| first
  | refine (idxG (by assumption) (by omega) (by omega)).bindT fun _ => ?_
  | refine (GF.rd (by assumption) (by omega) (by omega)).bindT fun _ => ?_
  | refine (VF.rd (by assumption) (by omega)).bindT fun _ => ?_
  | refine (GB.rd (by assumption) (by omega) (by omega) (by omega)).bindT fun _ => ?_
  | refine (VB.rd (by assumption) (by omega) (by omega)).bindT fun _ => ?_
  | exact (GF.rd (by assumption) (by omega) (by omega))
  | exact (VF.rd (by assumption) (by omega))
  | exact (GB.rd (by assumption) (by omega) (by omega) (by omega))
  | exact (VB.rd (by assumption) (by omega) (by omega))
  | refine (rdivR _ _).bindT fun _ => ?_
  | refine (sqrtR _).bindT fun _ => ?_
  | refine (hypotR _ _).bindT fun _ => ?_
  | refine (GF.wr (by assumption) (by omega) (by omega) _).bind fun _ _ => ?_
  | refine (VF.wr (by assumption) (by omega) _).bind fun _ _ => ?_
  | refine (setG (by assumption) (by omega) (by omega) _).bind fun _ _ => ?_
  | refine (GB.wr (by assumption) (by omega) (by omega) _).bind fun _ _ => ?_
  | refine (VB.wr (by assumption) (by omega) _).bind fun _ _ => ?_
  | exact GF.wr (by assumption) (by omega) (by omega) _
  | exact VF.wr (by assumption) (by omega) _
  | exact setG (by assumption) (by omega) (by omega) _
  | exact (GB.wr (by assumption) (by omega) (by omega) _).mono fun _ h => h.mono fun _ _ _ _ _ => by omega
  | exact (VB.wr (by assumption) (by omega) _).mono fun _ h => h.mono fun _ _ _ => by omega
  | refine (Runs.usub (by omega)).bind fun _ h => ?_; subst h
  | exact Runs.ok trivial)

namespace SVD

theorem colTransform_runs {m n k : Nat} {a : List α} {s : Buf α} {S : Nat → Prop} (ha : a.length = m * n) (hs : VB s n S) (hk : k < n) (hm : n ≤ m) :
    Runs E (colTransform m n k a s) fun x => x.1.length = m * n ∧ VB x.2 n fun i => S i ∨ i = k := by
  unfold colTransform
  refine (hs.wr hk _).bind fun s hs => ?_
  refine Runs.bind (Runs.loopC (fun s => VB s n fun i => S i ∨ i = k) hs fun i s _ hi hs => ?_) fun s hs => ?_
  · refine (hs.rd hk (Or.inr rfl)).bindT fun _ => ?_
    nxb; nxb
    exact (hs.wr hk _).mono fun _ h => h.mono fun i _ hi => Or.inl hi
  refine Runs.bind (P := fun x : List α × Buf α => x.1.length = m * n ∧ VB x.2 n fun i => S i ∨ i = k) ?_ ?_
  · refine (hs.rd hk (Or.inr rfl)).bindT fun _ => ?_
    split
    · refine Runs.bind (P := fun s => VB s n fun i => S i ∨ i = k) ?_ fun s hs => ?_
      · nxb
        split
        · refine (hs.rd hk (Or.inr rfl)).bindT fun _ => ?_
          exact (hs.wr hk _).mono fun _ h => h.mono fun i _ hi => Or.inl hi
        · exact Runs.ok hs
      · refine Runs.bind (Runs.loopC (fun a : List α => a.length = m * n) ha fun i a _ hi ha => ?_) fun a ha => ?_
        · nxb
          refine (hs.rd hk (Or.inr rfl)).bindT fun _ => ?_
          nxb; nxb
        · nxb
          refine (setG ha (by omega) (by omega) _).bind fun a ha => Runs.ok ⟨ha, hs⟩
    · exact Runs.ok ⟨ha, hs⟩
  · rintro ⟨a, s⟩ ⟨ha, hs⟩
    refine (hs.rd hk (Or.inr rfl)).bindT fun _ => (hs.wr hk _).bind fun s hs => Runs.ok ⟨ha, hs.mono fun i _ hi => Or.inl hi⟩

theorem applyCol_runs {m n k j : Nat} {a : List α} (ha : a.length = m * n) (hk : k < n) (hkm : k < m) (hj : j < n) :
    Runs E (applyCol m n k j a) fun a => a.length = m * n := by
  unfold applyCol
  refine Runs.bindT (Runs.loopT fun i t _ hi => ?_) fun t => ?_
  · nxb; nxb; nxb
  · nxb; nxb
    refine Runs.loopC (fun a : List α => a.length = m * n) ha fun i a _ hi ha => ?_
    nxb; nxb; nxb

theorem applyCols_runs {m n nct k : Nat} {a : List α} {s e : Buf α} {S T : Nat → Prop} (ha : a.length = m * n) (hs : VB s n S) (he : VB e n T)
    (hk : k < n) (hkm : k < m) (hS : k < nct → S k) :
    Runs E (applyCols m n nct k a s e) fun x => x.1.length = m * n ∧ VB x.2 n fun i => T i ∨ k < i := by
  unfold applyCols
  refine (Runs.loop (fun j (x : List α × Buf α) => x.1.length = m * n ∧ VB x.2 n fun i => T i ∨ (k < i ∧ i < j)) (by omega)
    ⟨ha, he.mono fun i _ h => h.resolve_right (by omega)⟩ ?_).mono fun x h => ⟨h.1, h.2.mono fun i hi h => h.imp_right fun h => ⟨h, hi⟩⟩
  rintro j ⟨a, e⟩ h1 hj ⟨ha, he⟩
  dsimp only at ha he ⊢
  refine Runs.bind (P := fun a : List α => a.length = m * n) ?_ fun a ha => ?_
  · split
    · next hc =>
      refine (hs.rd hk (hS hc)).bindT fun _ => ?_
      split
      · exact applyCol_runs ha hk hkm hj
      · exact Runs.ok ha
    · exact Runs.ok ha
  · nxb
    refine (he.wr hj _).bind fun e he => Runs.ok ⟨ha, he.mono fun i _ h => ?_⟩
    rcases h with h | h
    · exact Or.inl (Or.inl h)
    · by_cases e : i = j
      · exact Or.inr e
      · exact Or.inl (Or.inr ⟨h.1, by omega⟩)

theorem rowTransform_runs {n k : Nat} {e : Buf α} {T : Nat → Prop} (he : VB e n fun i => T i ∨ k < i) (hk : k + 1 < n) :
    Runs E (rowTransform n k e) fun e => VB e n fun i => T i ∨ k ≤ i := by
  unfold rowTransform
  have keep : ∀ {e : Buf α}, (VB e n fun i => T i ∨ k ≤ i) → ∀ i x, i < n → Runs E (wr e i x) fun e => VB e n fun i => T i ∨ k ≤ i :=
    fun he i x hi => (he.wr hi x).mono fun _ h => h.mono fun _ _ h => Or.inl h
  have rdk : ∀ {e : Buf α}, (VB e n fun i => T i ∨ k ≤ i) → ∀ i, k ≤ i → i < n → Runs E (rd e i) fun _ => True :=
    fun he i h hi => he.rd hi (Or.inr h)
  refine (he.wr (by omega) _).bind fun e he => ?_
  replace he : VB e n fun i => T i ∨ k ≤ i := he.mono fun i _ h => by
    rcases h with h | h
    · exact Or.inl (Or.inl h)
    · by_cases e : i = k
      · exact Or.inr e
      · exact Or.inl (Or.inr (by omega))
  refine Runs.bind (Runs.loopC (fun e => VB e n fun i => T i ∨ k ≤ i) he fun i e _ hi he => ?_) fun e he => ?_
  · refine (rdk he _ (by omega) (by omega)).bindT fun _ => (rdk he _ (by omega) (by omega)).bindT fun _ => ?_
    nxb
    exact keep he _ _ (by omega)
  refine Runs.bind (P := fun e => VB e n fun i => T i ∨ k ≤ i) ?_ fun e he => ?_
  · refine (rdk he _ (by omega) (by omega)).bindT fun _ => ?_
    split
    · refine Runs.bind (P := fun e => VB e n fun i => T i ∨ k ≤ i) ?_ fun e he => ?_
      · refine (rdk he _ (by omega) (by omega)).bindT fun _ => ?_
        split
        · exact (rdk he _ (by omega) (by omega)).bindT fun _ => keep he _ _ (by omega)
        · exact Runs.ok he
      · refine Runs.bind (Runs.loopC (fun e => VB e n fun i => T i ∨ k ≤ i) he fun i e _ hi he => ?_) fun e he => ?_
        · refine (rdk he _ (by omega) (by omega)).bindT fun _ => (rdk he _ (by omega) (by omega)).bindT fun _ => ?_
          nxb
          exact keep he _ _ (by omega)
        · exact (rdk he _ (by omega) (by omega)).bindT fun _ => keep he _ _ (by omega)
    · exact Runs.ok he
  · exact (rdk he _ (by omega) (by omega)).bindT fun _ => keep he _ _ (by omega)

theorem applyRow_runs {m n k : Nat} {a : List α} {e w : Buf α} {T W : Nat → Prop} (ha : a.length = m * n) (he : VB e n fun i => T i ∨ k ≤ i)
    (hw : VB w m W) (hk : k + 1 < n) :
    Runs E (applyRow m n k a e w) fun x => x.1.length = m * n ∧ VB x.2 m fun _ => False := by
  have rdk : ∀ i, k ≤ i → i < n → Runs E (rd e i) fun _ => True := fun i h hi => he.rd hi (Or.inr h)
  unfold applyRow
  split
  · refine (rdk _ (by omega) (by omega)).bindT fun _ => ?_
    split
    · refine Runs.bind (Runs.loop (fun j w => VB w m fun i => k + 1 ≤ i ∧ i < j) (by omega) (hw.mono fun i _ h => by omega) fun j w _ hj hw => ?_) fun w hw => ?_
      · nxb
      refine Runs.bind (Runs.loopC (fun w => VB w m fun i => k + 1 ≤ i ∧ i < m) hw fun j w _ hj hw => ?_) fun w hw => ?_
      · refine Runs.loopC (fun w => VB w m fun i => k + 1 ≤ i ∧ i < m) hw fun i w _ hi hw => ?_
        nxb
        refine (rdk _ (by omega) (by omega)).bindT fun _ => ?_
        nxb; nxb
      · refine Runs.bind (P := fun a : List α => a.length = m * n) ?_ fun a ha => Runs.ok ⟨ha, hw.mono fun _ _ h => h.elim⟩
        refine Runs.loopC (fun a : List α => a.length = m * n) ha fun j a _ hj ha => ?_
        refine (rdk _ (by omega) (by omega)).bindT fun _ => (rdk _ (by omega) (by omega)).bindT fun _ => ?_
        nxb
        refine Runs.loopC (fun a : List α => a.length = m * n) ha fun i a _ hi ha => ?_
        nxb; nxb; nxb
    · exact Runs.ok ⟨ha, hw.mono fun _ _ h => h.elim⟩
  · exact Runs.ok ⟨ha, hw.mono fun _ _ h => h.elim⟩

/-- What has been written after `k` steps of the reduction. -/
structure BidW (m n nct nrt k : Nat) (b : Bid α) : Prop where
  a : b.a.length = m * n
  s : VB b.s n fun i => i < k ∧ i < nct
  e : VB b.e n fun i => 0 < k ∧ (1 ≤ i ∨ 0 < nrt)
  u : GB b.u m m fun i j => j < k ∧ j < nct ∧ j ≤ i
  v : GB b.v n n fun i j => j < k ∧ j < nrt ∧ j < i
  w : VB b.w m fun _ => False

theorem bidStep_runs {m n nct nrt k : Nat} {b : Bid α} (hm : n ≤ m) (hn : 0 < n) (h1 : nct = min (m - 1) n) (h2 : nrt = n - 2) (hk : k < max nct nrt)
    (h : BidW m n nct nrt k b) : Runs E (bidStep m n nct nrt k b) fun b => BidW m n nct nrt (k + 1) b := by
  obtain ⟨ha, hs, he, hu, hv, hw⟩ := h
  unfold bidStep
  have hkn : k < n := by omega
  have hkm : k < m := by omega
  refine Runs.bind (P := fun x : List α × Buf α => x.1.length = m * n ∧ VB x.2 n fun i => i < k + 1 ∧ i < nct) ?_ ?_
  · split
    · refine (colTransform_runs ha hs hkn hm).mono fun x h => ⟨h.1, h.2.mono fun i _ hi => by omega⟩
    · exact Runs.ok ⟨ha, hs.mono fun i _ hi => by omega⟩
  rintro ⟨a, s⟩ ⟨ha, hs⟩
  refine (applyCols_runs (nct := nct) ha hs he hkn hkm (fun h => ⟨by omega, h⟩)).bind ?_
  rintro ⟨a, e⟩ ⟨ha, he⟩
  dsimp only at ha hs he ⊢
  refine Runs.bind (P := fun u => GB u m m fun i j => j < k + 1 ∧ j < nct ∧ j ≤ i) ?_ fun u hu => ?_
  · split
    · refine (Runs.loop (fun r u => GB u m m fun i j => (j < k ∧ j < nct ∧ j ≤ i) ∨ (j = k ∧ k ≤ i ∧ i < r)) hkm.le (hu.mono fun i j _ _ h => by omega) ?_).mono
        fun u hu => hu.mono fun i j _ _ h => by omega
      intro i u _ hi hu
      nxb; nxb
    · exact Runs.ok (hu.mono fun i j _ _ h => by omega)
  split
  · next hkr =>
    refine (rowTransform_runs he (by omega)).bind fun e he => (applyRow_runs ha he hw (by omega)).bind ?_
    rintro ⟨a, w⟩ ⟨ha, hw⟩
    refine Runs.bind (P := fun v => GB v n n fun i j => j < k + 1 ∧ j < nrt ∧ j < i) ?_ fun v hv => ?_
    · refine (Runs.loop (fun r v => GB v n n fun i j => (j < k ∧ j < nrt ∧ j < i) ∨ (j = k ∧ k < i ∧ i < r)) (by omega) (hv.mono fun i j _ _ h => by omega) ?_).mono
        fun v hv => hv.mono fun i j _ _ h => by omega
      intro i v _ hi hv
      nxb; nxb
    · exact Runs.ok ⟨ha, hs, he.mono fun i _ h => by omega, hu, hv, hw⟩
  · exact Runs.ok ⟨ha, hs, he.mono fun i _ h => by omega, hu, hv.mono fun i j _ _ h => by omega, hw⟩

theorem finish_runs {m n nct nrt p : Nat} {b : Bid α} (hm : n ≤ m) (hn : 0 < n) (h1 : nct = min (m - 1) n) (h2 : nrt = n - 2) (hp : p = n)
    (h : BidW m n nct nrt (max nct nrt) b) :
    Runs E (finish m n nct nrt p b) fun b => VF b.s n ∧ VF b.e n ∧ (GB b.u m m fun i j => j < nct ∧ j ≤ i) ∧ GB b.v n n fun i j => j < nrt ∧ j < i := by
  obtain ⟨ha, hs, he, hu, hv, hw⟩ := h
  unfold finish
  subst hp
  refine Runs.bind (P := fun s => VF s p) ?_ fun s hs => Runs.bind (P := fun s => VF s p) ?_ fun s hs => Runs.bind (P := fun e => VB e p fun i => i < p - 1) ?_ fun e he => ?_
  · split
    · nxb; nxb
    · exact Runs.ok (hs.mono fun i hi _ => by omega)
  · rw [if_neg (by omega)]; exact Runs.ok hs
  · split
    · nxb; nxb; nxb
    · exact Runs.ok (he.mono fun i hi _ => by omega)
  · nxb
    refine (he.wr (by omega) _).bind fun e he => Runs.ok ⟨hs, he.mono fun i hi _ => by omega, hu.mono fun i j _ _ h => by omega, hv.mono fun i j _ _ h => by omega⟩

theorem reflectCol_runs {N lo k j : Nat} {d : Buf α} {S : Nat → Nat → Prop} (hd : GB d N N S) (hlo : lo < N) (hk : k < N) (hj : j < N)
    (h1 : ∀ i, lo ≤ i → i < N → S i k) (h2 : ∀ i, lo ≤ i → i < N → S i j) : Runs E (reflectCol N lo k j d) fun d => GB d N N S := by
  unfold reflectCol
  refine Runs.bindT (Runs.loopT fun i t hl hi => ?_) fun t => ?_
  · exact (hd.rd hi hk (h1 i hl hi)).bindT fun _ => (hd.rd hi hj (h2 i hl hi)).bindT fun _ => Runs.ok trivial
  · refine (hd.rd hlo hk (h1 _ le_rfl hlo)).bindT fun _ => (rdivR _ _).bindT fun t => ?_
    refine Runs.loopC (fun d => GB d N N S) hd fun i d hl hi hd => ?_
    exact (hd.rd hi hj (h2 i hl hi)).bindT fun _ => (hd.rd hi hk (h1 i hl hi)).bindT fun _ => (hd.wr hi hj _).mono fun _ h => h.mono fun _ _ _ _ h => Or.inl h

theorem unitCol_runs {N k : Nat} {d : Buf α} {S : Nat → Nat → Prop} (hd : GB d N N S) (hk : k < N) :
    Runs E (unitCol N k d) fun d => GB d N N fun i j => S i j ∨ j = k := by
  unfold unitCol
  refine Runs.bind (Runs.loop (fun r d => GB d N N fun i j => S i j ∨ (j = k ∧ i < r)) (Nat.zero_le N)
    (hd.mono fun i j _ _ h => h.resolve_right (by omega)) fun r d _ hr hd => ?_) fun d hd => ?_
  · refine (hd.wr hr hk _).mono fun _ h => h.mono fun i j _ _ h => ?_
    rcases h with h | h
    · exact Or.inl (Or.inl h)
    · by_cases e : i = r
      · exact Or.inr ⟨e, h.1⟩
      · exact Or.inl (Or.inr ⟨h.1, by omega⟩)
  · exact (hd.wr hk hk _).mono fun _ h => h.mono fun i j hi _ h => Or.inl (h.imp_right fun h => ⟨h, hi⟩)

theorem genU_runs {m n nct : Nat} {s u : Buf α} (hs : VF s n) (hu : GB u m m fun i j => j < nct ∧ j ≤ i) (h1 : nct ≤ m) (h2 : nct ≤ n) :
    Runs E (genU m nct s u) fun u => GF u m m := by
  unfold genU
  refine Runs.bind (Runs.loop (fun r u => GB u m m fun i j => (j < nct ∧ j ≤ i) ∨ (nct ≤ j ∧ j < r)) h1 (hu.mono fun i j _ _ h => by omega) fun r u _ hr hu => ?_) fun u hu => ?_
  · exact (unitCol_runs hu hr).mono fun _ h => h.mono fun i j _ _ h => by omega
  refine (Runs.loopRev (fun k u => GB u m m fun i j => k ≤ j ∨ j ≤ i) (Nat.zero_le nct) (hu.mono fun i j _ _ h => by omega) ?_).mono
    fun u h => h.mono fun _ _ _ _ _ => Or.inl (by omega)
  intro k u _ hk hu
  nxb
  split
  · refine Runs.bind (Runs.loopC (fun u => GB u m m fun i j => k + 1 ≤ j ∨ j ≤ i) hu fun j u _ hj hu => ?_) fun u hu => ?_
    · exact reflectCol_runs hu (by omega) (by omega) hj (fun i _ _ => by omega) (fun i _ _ => by omega)
    refine Runs.bind (Runs.loopC (fun u => GB u m m fun i j => k + 1 ≤ j ∨ j ≤ i) hu fun j u _ hj hu => ?_) fun u hu => ?_
    · nxb; nxb
    nxb
    refine (hu.wr (by omega) (by omega) _).bind fun u hu => ?_
    refine (Runs.loop (fun r u => GB u m m fun i j => k + 1 ≤ j ∨ j ≤ i ∨ (j = k ∧ i < r)) (Nat.zero_le k) (hu.mono fun i j _ _ h => by omega) fun r u _ hr hu => ?_).mono
      fun u h => h.mono fun i j _ _ h => by omega
    nxb
  · exact (unitCol_runs hu (by omega)).mono fun _ h => h.mono fun i j _ _ h => by omega

theorem genV_runs {n nrt : Nat} {e v : Buf α} (he : VF e n) (hv : GB v n n fun i j => j < nrt ∧ j < i) (h2 : nrt = n - 2) :
    Runs E (genV n nrt e v) fun v => GF v n n := by
  unfold genV
  refine (Runs.loopRev (fun k u => GB u n n fun i j => k ≤ j ∨ (j < nrt ∧ j < i)) (Nat.zero_le n) (hv.mono fun i j _ _ h => by omega) ?_).mono
    fun u h => h.mono fun _ _ _ _ _ => Or.inl (by omega)
  intro k v _ hk hv
  refine Runs.bind (P := fun u => GB u n n fun i j => k + 1 ≤ j ∨ (j < nrt ∧ j < i)) ?_ fun v hv => ?_
  · split
    · nxb
      split
      · refine Runs.loopC (fun u => GB u n n fun i j => k + 1 ≤ j ∨ (j < nrt ∧ j < i)) hv fun j u _ hj hu => ?_
        exact reflectCol_runs hu (by omega) (by omega) hj (fun i _ _ => by omega) (fun i _ _ => by omega)
      · exact Runs.ok hv
    · exact Runs.ok hv
  · exact (unitCol_runs hv (by omega)).mono fun _ h => h.mono fun i j _ _ h => by omega

theorem findE_runs {n : Nat} {s : Buf α} (hs : VF s n) : ∀ (c : Nat) (e : Buf α), VF e n → c < n →
    Runs E (findE s c e) fun x => x.1 ≤ c ∧ VF x.2 n
  | 0, e, he, _ => Runs.ok ⟨le_rfl, he⟩
  | c + 1, e, he, hc => by
    rw [findE]
    nxb; nxb; nxb
    split
    · exact (VF.wr he (by omega) _).bind fun e he => Runs.ok ⟨le_rfl, he⟩
    · exact (findE_runs hs c e he (by omega)).mono fun x h => ⟨by omega, h.2⟩

theorem findS_runs {n p k1 : Nat} {e : Buf α} (he : VF e n) : ∀ (c : Nat) (s : Buf α), VF s n → k1 + c ≤ n →
    Runs E (findS p k1 e c s) fun x => (∀ ks, x.1 = some ks → k1 ≤ ks ∧ ks < k1 + c) ∧ VF x.2 n
  | 0, s, hs, _ => Runs.ok ⟨nofun, hs⟩
  | c + 1, s, hs, hc => by
    rw [findS]
    refine Runs.bindT ?_ fun t1 => Runs.bindT ?_ fun t2 => ?_
    · split
      · nxb; exact Runs.ok trivial
      · exact Runs.ok trivial
    · split
      · next h =>
        have : k1 + c ≠ k1 := by simpa using h
        nxb; nxb; exact Runs.ok trivial
      · exact Runs.ok trivial
    nxb
    split
    · refine (VF.wr hs (by omega) _).bind fun s hs => Runs.ok ⟨?_, hs⟩
      rintro ks h; cases h; omega
    · exact (findS_runs he c s hs (by omega)).mono fun x h => ⟨fun ks hk => by have := h.1 ks hk; omega, h.2⟩

theorem rotCols_runs {N a b : Nat} {cs sn : α} {d : Buf α} (hd : GF d N N) (ha : a < N) (hb : b < N) : Runs E (rotCols N a b cs sn d) fun d => GF d N N := by
  refine Runs.loopC (fun d => GF d N N) hd fun i d _ hi hd => ?_
  nxb; nxb; nxb; nxb; nxb; nxb

theorem swapCols_runs {N k : Nat} {d : Buf α} (hd : GF d N N) (hk : k + 1 < N) : Runs E (swapCols N k d) fun d => GF d N N := by
  refine Runs.loopC (fun d => GF d N N) hd fun i d _ hi hd => ?_
  nxb; nxb; nxb; nxb

/-- All buffers of the main loop are written. -/
structure MainW (m n : Nat) (st : Main α) : Prop where
  s : VF st.s n
  e : VF st.e n
  u : GF st.u m m
  v : GF st.v n n

theorem kase1_runs {m n p k : Nat} {st : Main α} (h : MainW m n st) (hp : 2 ≤ p) (hpn : p ≤ n) (hk : k < p) : Runs E (kase1 n p k st) fun st => MainW m n st := by
  obtain ⟨hs, he, hu, hv⟩ := h
  unfold kase1
  nxb; nxb; nxb
  refine (VF.wr he (by omega) _).bind fun e he => ?_
  nxb
  refine Runs.bind (Runs.loopRevC (fun x : Buf α × Buf α × Buf α × α => VF x.1 n ∧ VF x.2.1 n ∧ GF x.2.2.1 n n) ⟨hs, he, hv⟩ ?_) ?_
  · rintro j ⟨s, e, v, f⟩ hkj hj ⟨hs, he, hv⟩
    dsimp only at hs he hv ⊢
    nxb; nxb; nxb; nxb; nxb
    refine (VF.wr hs (by omega) _).bind fun s hs => ?_
    refine Runs.bind (P := fun x : Buf α × α => VF x.1 n) ?_ ?_
    · split
      · next h =>
        have : j ≠ k := by simpa using h
        nxb; nxb; nxb; nxb; nxb
        exact (VF.wr he (by omega) _).bind fun e he => Runs.ok he
      · exact Runs.ok he
    · rintro ⟨e, f⟩ he
      dsimp only at he ⊢
      nxb
      exact (rotCols_runs hv (by omega) (by omega)).bind fun v hv => Runs.ok ⟨hs, he, hv⟩
  · rintro ⟨s, e, v, f⟩ ⟨hs, he, hv⟩
    exact Runs.ok ⟨hs, he, hu, hv⟩

theorem kase2_runs {m n p k : Nat} {st : Main α} (h : MainW m n st) (hm : n ≤ m) (hpn : p ≤ n) (hk : k < p) (hk0 : 0 < k) : Runs E (kase2 m p k st) fun st => MainW m n st := by
  obtain ⟨hs, he, hu, hv⟩ := h
  unfold kase2
  nxb; nxb; nxb
  refine (VF.wr he (by omega) _).bind fun e he => ?_
  refine Runs.bind (Runs.loopC (fun x : Buf α × Buf α × Buf α × α => VF x.1 n ∧ VF x.2.1 n ∧ GF x.2.2.1 m m) ⟨hs, he, hu⟩ ?_) ?_
  · rintro j ⟨s, e, u, f⟩ hkj hj ⟨hs, he, hu⟩
    dsimp only at hs he hu ⊢
    nxb; nxb; nxb; nxb; nxb
    refine (VF.wr hs (by omega) _).bind fun s hs => ?_
    nxb; nxb
    refine (VF.wr he (by omega) _).bind fun e he => ?_
    nxb
    exact (rotCols_runs hu (by omega) (by omega)).bind fun v hv => Runs.ok ⟨hs, he, hv⟩
  · rintro ⟨s, e, u, f⟩ ⟨hs, he, hu⟩
    exact Runs.ok ⟨hs, he, hu, hv⟩

theorem shiftFG_runs {n p k : Nat} {s e : Buf α} (hs : VF s n) (he : VF e n) (hp : 2 ≤ p) (hpn : p ≤ n) (hk : k < p) : Runs E (shiftFG p k s e) fun _ => True := by
  unfold shiftFG
  nxb; nxb; nxb; nxb; nxb; nxb; nxb; nxb
  nxb; nxb; nxb; nxb; nxb; nxb
  refine Runs.bindT ?_ fun _ => Runs.ok trivial
  split
  · nxb; exact rdivR _ _
  · exact Runs.ok trivial

theorem chase_runs {m n k j : Nat} {x : Main α × α × α} (h : MainW m n x.1) (hm : n ≤ m) (hkj : k ≤ j) (hj : j + 1 < n) :
    Runs E (chase m n k j x) fun x => MainW m n x.1 := by
  obtain ⟨st, f, g⟩ := x
  obtain ⟨hs, he, hu, hv⟩ := h
  unfold chase
  dsimp only at hs he hu hv ⊢
  nxb; nxb; nxb
  refine Runs.bind (P := fun e => VF e n) ?_ fun e he => ?_
  · split
    · next h =>
      have : j ≠ k := by simpa using h
      nxb; nxb
    · exact Runs.ok he
  nxb; nxb; nxb; nxb
  refine (VF.wr he (by omega) _).bind fun e he => ?_
  nxb; nxb
  refine (VF.wr hs (by omega) _).bind fun s hs => (rotCols_runs hv (by omega) (by omega)).bind fun v hv => ?_
  nxb; nxb; nxb
  refine (VF.wr hs (by omega) _).bind fun s hs => ?_
  nxb; nxb; nxb; nxb
  refine (VF.wr hs (by omega) _).bind fun s hs => ?_
  nxb; nxb
  refine (VF.wr he (by omega) _).bind fun e he => ?_
  refine Runs.bind (P := fun u => GF u m m) ?_ fun u hu => Runs.ok ⟨hs, he, hu, hv⟩
  split
  · exact rotCols_runs hu (by omega) (by omega)
  · exact Runs.ok hu

theorem kase3_runs {m n p k : Nat} {st : Main α} (h : MainW m n st) (hm : n ≤ m) (hp : 2 ≤ p) (hpn : p ≤ n) (hk : k < p) : Runs E (kase3 m n p k st) fun st => MainW m n st := by
  unfold kase3
  refine (shiftFG_runs h.s h.e hp hpn hk).bindT ?_
  rintro ⟨f, g⟩
  dsimp only
  nxb
  refine Runs.bind (Runs.loopC (fun x : Main α × α × α => MainW m n x.1) h fun j x hkj hj hx => chase_runs hx hm hkj (by omega)) ?_
  rintro ⟨st, f, g⟩ ⟨hs, he, hu, hv⟩
  dsimp only at hs he hu hv ⊢
  nxb
  exact (VF.wr he (by omega) _).bind fun e he => Runs.ok ⟨hs, he, hu, hv⟩

theorem fixSign_runs {m n pp k : Nat} {st : Main α} (h : MainW m n st) (hpp : pp < n) (hk : k < n) : Runs E (fixSign n pp k st) fun st => MainW m n st := by
  obtain ⟨hs, he, hu, hv⟩ := h
  unfold fixSign
  nxb
  split
  · refine (VF.wr hs (by omega) _).bind fun s hs => ?_
    refine Runs.bind (Runs.loopC (fun v => GF v n n) hv fun i v _ hi hv => ?_) fun v hv => Runs.ok ⟨hs, he, hu, hv⟩
    nxb; nxb
  · exact Runs.ok ⟨hs, he, hu, hv⟩

theorem order_runs {m n pp k : Nat} {st : Main α} (h : MainW m n st) (hpp : pp < n) (hk : k ≤ pp) : Runs E (order m n pp k st) fun st => MainW m n st := by
  unfold order
  refine Runs.bind (Runs.loopF (fun _ st => MainW m n st) (fun st => MainW m n st) hk h ?_) ?_
  · rintro j st hj1 hj ⟨hs, he, hu, hv⟩
    nxb; nxb
    split
    · exact Runs.ok ⟨hs, he, hu, hv⟩
    · refine (VF.wr hs (by omega) _).bind fun s hs => (VF.wr hs (by omega) _).bind fun s hs => ?_
      refine Runs.bind (P := fun v => GF v n n) ?_ fun v hv => Runs.bind (P := fun u => GF u m m) ?_ fun u hu => Runs.ok ⟨hs, he, hu, hv⟩
      · split
        · exact swapCols_runs hv (by omega)
        · exact Runs.ok hv
      · split
        · exact swapCols_runs hu (by omega)
        · exact Runs.ok hu
  · intro o ho
    cases o with
    | next st => exact Runs.ok ho
    | ret st => exact Runs.ok ho

theorem step_runs {m n p : Nat} {st : Main α} (h : MainW m n st) (hm : n ≤ m) (hp : 0 < p) (hpn : p ≤ n) :
    Runs E (step m n (n - 1) p st) fun x => (x.1 ≤ n ∧ (p ≤ 1 → x.1 = 0)) ∧ MainW m n x.2 := by
  unfold step
  refine (findE_runs h.s (p - 1) st.e h.e (by omega)).bind ?_
  rintro ⟨k1, e⟩ ⟨hk, he⟩
  dsimp only at hk he ⊢
  split
  · have h' : MainW m n { st with e := e } := ⟨h.s, he, h.u, h.v⟩
    exact (fixSign_runs h' (by omega) (by omega)).bind fun st h => (order_runs h (by omega) (by omega)).bind fun st h => Runs.ok ⟨⟨by dsimp only; omega, fun h1 => by dsimp only; omega⟩, h⟩
  · have hk2 : ¬ p ≤ 1 := by omega
    refine (findS_runs he (p - k1) st.s h.s (by omega)).bind ?_
    rintro ⟨o, s⟩ ⟨ho, hs⟩
    have h' : MainW m n { st with s := s, e := e } := ⟨hs, he, h.u, h.v⟩
    cases o with
    | none => exact (kase3_runs h' hm (by omega) hpn (by omega)).bind fun st h => Runs.ok ⟨⟨hpn, fun h1 => absurd h1 hk2⟩, h⟩
    | some ks =>
      have := ho ks rfl
      dsimp only
      split
      · exact (kase1_runs h' (by omega) hpn (by omega)).bind fun st h => Runs.ok ⟨⟨hpn, fun h1 => absurd h1 hk2⟩, h⟩
      · exact (kase2_runs h' hm hpn (by omega) (by omega)).bind fun st h => Runs.ok ⟨⟨hpn, fun h1 => absurd h1 hk2⟩, h⟩

theorem iterate_runs {m n : Nat} (hm : n ≤ m) : ∀ (fuel p : Nat) (st : Main α), (E .fuel ∨ (p ≤ 1 ∧ p ≤ fuel)) → p ≤ n → MainW m n st →
    Runs E (iterate m n (n - 1) fuel p st) fun st => MainW m n st
  | _, 0, st, _, _, h => by rw [iterate]; exact Runs.ok h
  | 0, p + 1, st, hE, _, _ => by rw [iterate]; exact hE.resolve_right (by omega)
  | fuel + 1, p + 1, st, hE, hp, h => by
    rw [iterate]
    refine (step_runs h hm (by omega) hp).bind ?_
    rintro ⟨p', st⟩ ⟨hp', h⟩
    exact iterate_runs hm fuel p' st (hE.imp id fun h => by have := hp'.2 h.1; omega) hp'.1 h

theorem blockDiag_runs {m n : Nat} {d : List α} (h : d.length = min m n) (hm : 0 < m) (hn : 0 < n) :
    Runs E (Mat.blockDiag m n d) fun b => b.rows = m ∧ b.data.length = m * n := by
  unfold Mat.blockDiag Mat.zeroFill
  refine (Runs.assert (by simp [h])).bindT fun _ => ?_
  refine Runs.bind (Runs.loop (fun k d => VB d (m * n) fun i => i < k) (Nat.zero_le _) ((VB.alloc _).mono fun i _ h => by omega) fun k d _ hk hd => ?_) fun z hz => ?_
  · nxb
  have hz : GF z m n := ⟨hz.1, fun i j hi hj _ => hz.2 _ (lt2 hi hj) (lt2 hi hj)⟩
  refine Runs.bind (Runs.loopC (fun d => GF d m n) hz fun i d _ hi hd => ?_) fun z hz => hz.freeze.bind fun l hl => Mat.new_runs hl hm hn
  exact (Runs.idx (by omega)).bindT fun _ => GF.wr hd (by omega) (by omega) _

theorem newTall_runs {a : Mat α} {m n : Nat} (fuel : Nat) (hr : a.rows = m) (hd : a.data.length = m * n) (hn : 0 < n) (hm : n ≤ m) (hE : E .fuel ∨ (n ≤ 1 ∧ n ≤ fuel)) :
    Runs E (newTall fuel a) fun x => x.u.rows = m ∧ x.u.data.length = m * m ∧ x.s.rows = m ∧ x.s.data.length = m * n ∧ x.v.rows = n ∧ x.v.data.length = n * n := by
  subst hr
  unfold newTall
  dsimp only
  refine (Mat.cols_runs hd (by omega)).bind fun c hc => ?_
  subst hc
  refine (Runs.assert (by simp [hm])).bindT fun _ => ?_
  nxb
  have e1 : (max 0 (min ((c : Int) - 2) (a.rows : Int))).toNat = c - 2 := by omega
  have e2 : min c (a.rows + 1) = c := by omega
  rw [e1, e2]
  have e3 : min a.rows c = c := by omega
  generalize hnct : min (a.rows - 1) c = nct
  refine Runs.bind (P := fun b : Bid α => VF b.s c ∧ VF b.e c ∧ (GB b.u a.rows a.rows fun i j => j < nct ∧ j ≤ i) ∧ GB b.v c c fun i j => j < c - 2 ∧ j < i) ?_ ?_
  · unfold bidiag
    dsimp only
    rw [e3]
    refine Runs.bind (Runs.loop (fun k b => BidW a.rows c nct (c - 2) k b) (Nat.zero_le _) ⟨hd, ?_, ?_, ?_, ?_, ?_⟩ fun k b _ hk hb =>
      bidStep_runs hm hn hnct.symm rfl hk hb) fun b hb => finish_runs hm hn hnct.symm rfl rfl hb
    · exact (VB.alloc _).mono fun i _ h => by omega
    · exact (VB.alloc _).mono fun i _ h => by omega
    · exact (GB.alloc _ _).mono fun i _ _ _ h => by omega
    · exact (GB.alloc _ _).mono fun i _ _ _ h => by omega
    · exact VB.alloc _
  rintro b ⟨hs, he, hu, hv⟩
  refine (genU_runs hs hu (by omega) (by omega)).bind fun u hu => (genV_runs he hv rfl).bind fun v hv => ?_
  nxb
  refine (iterate_runs hm fuel c ⟨b.s, b.e, u, v⟩ hE le_rfl ⟨hs, he, hu, hv⟩).bind fun st h => ?_
  exact h.u.freeze.bind fun l hl => (Mat.new_runs hl (by omega) (by omega)).bind fun u hu => h.s.freeze.bind fun l hl =>
    (blockDiag_runs (by omega) (by omega) hn).bind fun s hs => h.v.freeze.bind fun l hl => (Mat.new_runs hl hn hn).bind fun v hv =>
    Runs.ok ⟨hu.1, hu.2, hs.1, hs.2, hv.1, hv.2⟩

end SVD
end LA
