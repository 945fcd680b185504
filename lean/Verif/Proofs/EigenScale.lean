import Verif.Proofs.ScaleSim
import Verif.Model.Eigen
import Verif.Proofs.EigDiag

/-! # The symmetric eigenvalue problem in other units -/

namespace LA
open Fu

namespace Fu

theorem BRel.wr' {e e' : Nat → ℤ} {d d' : Buf Fu} (h : BRel e d d') (p : Nat) {x x' : Fu} {k : ℤ} (hx : Sc k x x') (hk : e' p = k)
    (he : ∀ q, q ≠ p → e' q = e q) : Sim2 (LA.wr d p x) (LA.wr d' p x') (BRel e') := by
  subst hk
  unfold LA.wr
  rw [← h.1]
  split
  · rename_i hp
    refine Sim2.ok ⟨by simpa using h.1, fun q a b => ?_⟩
    by_cases hq : p = q
    · subst hq
      rw [List.getElem?_set_self hp, List.getElem?_set_self (by rw [← h.1]; exact hp)]
      intro h1 h2
      cases h1; cases h2
      exact hx
    · rw [List.getElem?_set_ne hq, List.getElem?_set_ne hq, he q (Ne.symm hq)]
      exact h.2 q a b
  · exact Sim2.err _

theorem BRel.congr {e e' : Nat → ℤ} {d d' : Buf Fu} (h : BRel e d d') (he : ∀ p, e' p = e p) : BRel e' d d' := by
  obtain rfl : e' = e := funext he
  exact h

/-- A square buffer, entry `(i, j)` scaled by `2^(E i j)`. -/
def GRel (n : Nat) (E : Nat → Nat → ℤ) (d d' : Buf Fu) : Prop := BRel (fun p => E (p / n) (p % n)) d d'

theorem GRel.congr {n : Nat} (hn : 0 < n) {E E' : Nat → Nat → ℤ} {d d' : Buf Fu} (h : GRel n E d d') (he : ∀ r c, c < n → E' r c = E r c) : GRel n E' d d' :=
  BRel.congr h fun p => he _ _ (Nat.mod_lt _ hn)

theorem GRel.rd {n : Nat} {E : Nat → Nat → ℤ} {d d' : Buf Fu} (h : GRel n E d d') {i j : Nat} (hj : j < n) {k : ℤ} (hk : E i j = k) :
    Sim2 (LA.rd d (i * n + j)) (LA.rd d' (i * n + j)) (Sc k) :=
  BRel.rd h _ (by rw [row_div hj, col_mod hj]; exact hk)

theorem GRel.wr {n : Nat} {E E' : Nat → Nat → ℤ} {d d' : Buf Fu} (h : GRel n E d d') {i j : Nat} (hj : j < n) {x x' : Fu} {k : ℤ} (hx : Sc k x x')
    (hk : E' i j = k) (he : ∀ r c, c < n → (r ≠ i ∨ c ≠ j) → E' r c = E r c) : Sim2 (LA.wr d (i * n + j) x) (LA.wr d' (i * n + j) x') (GRel n E') := by
  refine BRel.wr' h _ hx (by rw [row_div hj, col_mod hj]; exact hk) fun q hq => he _ _ (Nat.mod_lt _ (by omega)) ?_
  by_contra h2
  push Not at h2
  apply hq
  rw [← Nat.div_add_mod' q n, h2.1, h2.2]

theorem GRel.wr0 {n : Nat} {E : Nat → Nat → ℤ} {d d' : Buf Fu} (h : GRel n E d d') {i j : Nat} (hj : j < n) {x x' : Fu} {k : ℤ} (hx : Sc k x x')
    (hk : E i j = k) : Sim2 (LA.wr d (i * n + j) x) (LA.wr d' (i * n + j) x') (GRel n E) :=
  h.wr hj hx hk fun _ _ _ _ => rfl

theorem BRel.eq {d d' : Buf Fu} (h : BRel (fun _ => 0) d d') : d = d' := by
  refine List.ext_getElem? fun p => ?_
  cases h5 : d[p]? <;> cases h6 : d'[p]?
  · rfl
  · rw [List.getElem?_eq_none_iff] at h5
    rw [List.getElem?_eq_some_iff] at h6
    obtain ⟨h6, -⟩ := h6
    have := h.1
    omega
  · rw [List.getElem?_eq_none_iff] at h6
    rw [List.getElem?_eq_some_iff] at h5
    obtain ⟨h5, -⟩ := h5
    have := h.1
    omega
  · rename_i a b
    have := h.2 p a b h5 h6
    cases a <;> cases b
    · rfl
    · exact this.elim
    · exact this.elim
    · exact congrArg (fun x => some (some x)) (Sc.eq this).symm

theorem Sc.max {k : ℤ} {x x' y y' : Fu} (h : Sc k x x') (g : Sc k y y') : Sc k (FloatOps.max x y) (FloatOps.max x' y') := by
  show Max.max x'.q y'.q = Max.max x.q y.q * _
  rw [h, g, max_mul_of_nonneg _ _ (two_pos k).le]

theorem hypot_sim {k : ℤ} {x x' y y' : Fu} (h : Sc k x x') (g : Sc k y y') : Sim2 (hypot x y) (hypot x' y') (Sc k) := by
  unfold hypot
  rw [g.abs.lt h.abs, g.feq (Sc.zero k)]
  have one : Sc 0 (1 : Fu) 1 := Sc.refl _
  split
  · refine (g.rdiv h).bind fun r r' hr => ?_
    have hr' : Sc 0 r r' := hr.cast (sub_self k)
    obtain rfl := hr'.eq
    exact Sim2.same.bind fun s s' hs => by subst hs; exact Sim2.ok ((h.abs.mul (Sc.refl s)).cast (add_zero k))
  · split
    · refine (h.rdiv g).bind fun r r' hr => ?_
      have hr' : Sc 0 r r' := hr.cast (sub_self k)
      obtain rfl := hr'.eq
      exact Sim2.same.bind fun s s' hs => by subst hs; exact Sim2.ok ((g.abs.mul (Sc.refl s)).cast (add_zero k))
    · exact Sim2.ok (Sc.zero k)

end Fu

namespace Eigen.Scale
variable {n : Nat} {K : ℤ}


/-- Exponents of `v` during the reduction: rows and columns up to `i` still hold the matrix, except column `i` up to `a` and row `i` up to `b`. -/
def P (n : Nat) (K : ℤ) (i a b r c : Nat) : ℤ := if r < n ∧ (r = c ∨ (r ≤ i ∧ c ≤ i ∧ ¬(c = i ∧ r < a) ∧ ¬(r = i ∧ c < b))) then K else 0

/-- Exponents of `d`: entries `b..=i` hold the row of the matrix. -/
def D (n : Nat) (K : ℤ) (i b p : Nat) : ℤ := if (b ≤ p ∧ p ≤ i) ∨ n ≤ p then K else 0

structure DRel (n : Nat) (K : ℤ) (i : Nat) (x y : Dev Fu) : Prop where
  d : BRel (D n K i 0) x.d y.d
  e : BRel (fun _ => K) x.e y.e
  v : GRel n (P n K i 0 0) x.v y.v

theorem tredZero_sim {i : Nat} (h0 : 0 < i) (hi : i < n) {x y : Dev Fu} (h : DRel n K i x y) :
    Sim2 (tredZero n i x) (tredZero n i y) (DRel n K (i - 1)) := by
  unfold tredZero
  simp only [usub_ok (show 1 ≤ i by omega), ok_bind]
  refine (h.d.rd (i - 1) (k := K) (by unfold D; rw [if_pos (by omega)])).bind fun a a' ha => ?_
  refine (h.e.wr i ha rfl).bind fun e e' he => ?_
  refine Sim2.bind (P := fun (p q : Buf Fu × Buf Fu) => BRel (D n K i 0) p.1 q.1 ∧ GRel n (P n K i i i) p.2 q.2) ?_ ?_
  · refine Sim2.loop' (fun j (p q : Buf Fu × Buf Fu) => BRel (D n K i 0) p.1 q.1 ∧ GRel n (P n K i j j) p.2 q.2) (Nat.zero_le i) ⟨h.d, h.v⟩ ?_
    rintro j ⟨d, v⟩ ⟨d', v'⟩ - hj ⟨h1, h2⟩
    dsimp only at h1 h2 ⊢
    refine (h2.rd (by omega) (k := K) (by unfold P; rw [if_pos (by omega)])).bind fun b b' hb => ?_
    refine (h1.wr j hb (by unfold D; rw [if_pos (by omega)])).bind fun d d' hd => ?_
    refine Sim2.bind (P := GRel n (P n K i j (j + 1))) (h2.wr (by omega) (Sc.zero 0) (by unfold P; rw [if_neg (by omega)]) fun r c hc hrc => ?_) fun v v' hv => ?_
    · unfold P; congr 1; rw [eq_iff_iff]; omega
    refine Sim2.bind (P := GRel n (P n K i (j + 1) (j + 1))) (hv.wr (by omega) (Sc.zero 0) (by unfold P; rw [if_neg (by omega)]) fun r c hc hrc => ?_) fun v v' hv => ?_
    · unfold P; congr 1; rw [eq_iff_iff]; omega
    exact Sim2.ok ⟨hd, hv⟩
  · rintro ⟨d, v⟩ ⟨d', v'⟩ ⟨h1, h2⟩
    dsimp only at h1 h2 ⊢
    refine (h1.wr' (e' := D n K (i - 1) 0) i (Sc.zero 0) (by unfold D; rw [if_neg (by omega)]) fun q hq => ?_).bind fun d d' hd => ?_
    · unfold D; congr 1; rw [eq_iff_iff]; omega
    refine Sim2.ok ⟨hd, he, h2.congr (by omega) fun r c hc => ?_⟩
    unfold P; congr 1; rw [eq_iff_iff]; omega

theorem tredScale_sim {i : Nat} (hi : i < n) {s s' : Fu} (hs : Sc K s s') {d d' : Buf Fu} (h : BRel (D n K i 0) d d') :
    Sim2 (tredScale i s d) (tredScale i s' d') fun p q => BRel (D n K i i) p.1 q.1 ∧ Sc 0 p.2 q.2 := by
  unfold tredScale
  refine Sim2.loop' (fun j (p q : Buf Fu × Fu) => BRel (D n K i j) p.1 q.1 ∧ Sc 0 p.2 q.2) (Nat.zero_le i) ⟨h, Sc.zero _⟩ ?_
  rintro j ⟨d, a⟩ ⟨d', a'⟩ - hj ⟨h1, h2⟩
  dsimp only at h1 h2 ⊢
  refine (h1.rd j (k := K) (by unfold D; rw [if_pos (by omega)])).bind fun x x' hx => ?_
  refine (hx.rdiv hs).bind fun y y' hy => ?_
  have hj' : D n K i (j + 1) j = 0 := by unfold D; rw [if_neg (by omega)]
  refine (h1.wr' (e' := D n K i (j + 1)) j (hy.cast (sub_self K)) hj' fun q hq => ?_).bind fun d d' hd => ?_
  · unfold D; congr 1; rw [eq_iff_iff]; omega
  refine (hd.rd j hj').bind fun z z' hz => (hd.rd j hj').bind fun w w' hw => Sim2.ok ⟨hd, ?_⟩
  exact h2.add ((hz.mul hw).cast (add_zero 0))

theorem tredSymv_sim {i : Nat} (hi : i < n) {d d' e e' v v' : Buf Fu} (hd : BRel (D n K i i) d d') (he : BRel (fun _ => K) e e')
    (hv : GRel n (P n K i 0 0) v v') :
    Sim2 (tredSymv n i d e v) (tredSymv n i d' e' v') fun p q => BRel (fun _ => K) p.1 q.1 ∧ GRel n (P n K i i 0) p.2 q.2 := by
  unfold tredSymv
  have hD : ∀ j, j < i → D n K i i j = 0 := fun j hj => by unfold D; rw [if_neg (by omega)]
  refine Sim2.loop' (fun j (p q : Buf Fu × Buf Fu) => BRel (fun _ => K) p.1 q.1 ∧ GRel n (P n K i j 0) p.2 q.2) (Nat.zero_le i) ⟨he, hv⟩ ?_
  rintro j ⟨e, v⟩ ⟨e', v'⟩ - hj ⟨h1, h2⟩
  dsimp only at h1 h2 ⊢
  refine (hd.rd j (hD j hj)).bind fun f f' hf => ?_
  refine Sim2.bind (P := GRel n (P n K i (j + 1) 0)) (h2.wr (by omega) hf (by unfold P; rw [if_neg (by omega)]) fun r c hc hrc => ?_) fun v v' hv => ?_
  · unfold P; congr 1; rw [eq_iff_iff]; omega
  have hP : ∀ k, j ≤ k → k < i → P n K i (j + 1) 0 k j = K := fun k hk hk' => by unfold P; rw [if_pos (by omega)]
  refine (h1.rd j rfl).bind fun a a' ha => (hv.rd (by omega) (hP j le_rfl hj)).bind fun b b' hb => ?_
  refine Sim2.bind (P := fun (p q : Fu × Buf Fu) => Sc K p.1 q.1 ∧ BRel (fun _ => K) p.2 q.2) ?_ ?_
  · refine Sim2.loop _ ⟨ha.add ((hb.mul hf).cast (add_zero K)), h1⟩ ?_
    rintro k ⟨g, e⟩ ⟨g', e'⟩ hk1 hk2 ⟨h3, h4⟩
    dsimp only at h3 h4 ⊢
    refine (hv.rd (by omega) (hP k (by omega) hk2)).bind fun x x' hx => (hd.rd k (hD k hk2)).bind fun y y' hy => ?_
    refine (h4.rd k rfl).bind fun z z' hz => (hv.rd (by omega) (hP k (by omega) hk2)).bind fun w w' hw => ?_
    refine (h4.wr k (hz.add ((hw.mul hf).cast (add_zero K))) rfl).bind fun e e' he => Sim2.ok ⟨h3.add ((hx.mul hy).cast (add_zero K)), he⟩
  · rintro ⟨g, e⟩ ⟨g', e'⟩ ⟨h3, h4⟩
    exact (h4.wr j h3 rfl).bind fun e e' he => Sim2.ok ⟨he, hv⟩

theorem tredQ_sim {i : Nat} (hi : i < n) {h h' : Fu} (hh : Sc 0 h h') {d d' e e' : Buf Fu} (hd : BRel (D n K i i) d d') (he : BRel (fun _ => K) e e') :
    Sim2 (tredQ i h d e) (tredQ i h' d' e') (BRel fun _ => K) := by
  unfold tredQ
  have hD : ∀ j, j < i → D n K i i j = 0 := fun j hj => by unfold D; rw [if_neg (by omega)]
  refine Sim2.bind (P := fun (p q : Buf Fu × Fu) => BRel (fun _ => K) p.1 q.1 ∧ Sc K p.2 q.2) ?_ ?_
  · refine Sim2.loop _ ⟨he, Sc.zero _⟩ ?_
    rintro j ⟨e, f⟩ ⟨e', f'⟩ - hj ⟨h1, h2⟩
    dsimp only at h1 h2 ⊢
    refine (h1.rd j rfl).bind fun a a' ha => (ha.rdiv hh).bind fun b b' hb => (h1.wr j (hb.cast (sub_zero K)) rfl).bind fun e e' he => ?_
    exact (he.rd j rfl).bind fun x x' hx => (hd.rd j (hD j hj)).bind fun y y' hy => Sim2.ok ⟨he, h2.add ((hx.mul hy).cast (add_zero K))⟩
  · rintro ⟨e, f⟩ ⟨e', f'⟩ ⟨h1, h2⟩
    dsimp only at h1 h2 ⊢
    refine (h2.rdiv (hh.add hh)).bind fun a a' ha => ?_
    refine Sim2.loop _ h1 fun j e e' _ hj h1 => ?_
    exact (h1.rd j rfl).bind fun x x' hx => (hd.rd j (hD j hj)).bind fun y y' hy => h1.wr j (hx.sub ((ha.mul hy).cast (by ring))) rfl

theorem tredRank2_sim {i : Nat} (hi : i < n) {d d' e e' v v' : Buf Fu} (hd : BRel (D n K i i) d d') (he : BRel (fun _ => K) e e')
    (hv : GRel n (P n K i i 0) v v') :
    Sim2 (tredRank2 n i d e v) (tredRank2 n i d' e' v') fun p q => BRel (D n K i 0) p.1 q.1 ∧ GRel n (P n K i i i) p.2 q.2 := by
  unfold tredRank2
  refine (Sim2.loop' (fun j (p q : Buf Fu × Buf Fu) => BRel (fun p => if p < j ∨ p = i ∨ n ≤ p then K else 0) p.1 q.1 ∧ GRel n (P n K i i j) p.2 q.2)
    (Nat.zero_le i) ⟨hd.congr fun p => ?_, hv⟩ ?_).mono ?_
  · unfold D; congr 1; rw [eq_iff_iff]; omega
  · rintro j ⟨d, v⟩ ⟨d', v'⟩ - hj ⟨h1, h2⟩
    dsimp only at h1 h2 ⊢
    have hD : ∀ k, j ≤ k → k < i → (if k < j ∨ k = i ∨ n ≤ k then K else 0) = 0 := fun k hk hk' => by rw [if_neg (by omega)]
    have hP : ∀ k, j ≤ k → k < i → P n K i i j k j = K := fun k hk hk' => by unfold P; rw [if_pos (by omega)]
    refine (h1.rd j (hD j le_rfl hj)).bind fun f f' hf => (he.rd j rfl).bind fun g g' hg => ?_
    refine Sim2.bind (P := GRel n (P n K i i j)) (Sim2.loop _ h2 fun k v v' hk1 hk2 hv => ?_) fun v v' hv => ?_
    · refine (hv.rd (by omega) (hP k hk1 hk2)).bind fun o o' ho => (he.rd k rfl).bind fun x x' hx => (h1.rd k (hD k hk1 hk2)).bind fun y y' hy => ?_
      exact hv.wr0 (by omega) (ho.sub (((hf.mul hx).cast (zero_add K)).add ((hg.mul hy).cast (add_zero K)))) (hP k hk1 hk2)
    · simp only [usub_ok (show 1 ≤ i by omega), ok_bind]
      refine (hv.rd (by omega) (k := K) (hP (i - 1) (by omega) (by omega))).bind fun b b' hb => ?_
      refine (h1.wr' (e' := fun p => if p < j + 1 ∨ p = i ∨ n ≤ p then K else 0) j hb (by rw [if_pos (by omega)]) fun q hq => ?_).bind fun d d' hd => ?_
      · congr 1; rw [eq_iff_iff]; omega
      refine Sim2.bind (P := GRel n (P n K i i (j + 1))) (hv.wr (by omega) (Sc.zero 0) (by unfold P; rw [if_neg (by omega)]) fun r c hc hrc => ?_) fun v v' hv => ?_
      · unfold P; congr 1; rw [eq_iff_iff]; omega
      exact Sim2.ok ⟨hd, hv⟩
  · rintro ⟨d, v⟩ ⟨d', v'⟩ ⟨h1, h2⟩
    refine ⟨h1.congr fun p => ?_, h2⟩
    unfold D; congr 1; rw [eq_iff_iff]; omega

theorem tredHouse_sim {i : Nat} (h0 : 0 < i) (hi : i < n) {s s' : Fu} (hs : Sc K s s') {x y : Dev Fu} (h : DRel n K i x y) :
    Sim2 (tredHouse n i s x) (tredHouse n i s' y) (DRel n K (i - 1)) := by
  unfold tredHouse
  simp only [usub_ok (show 1 ≤ i by omega), ok_bind]
  refine (tredScale_sim hi hs h.d).bind ?_
  rintro ⟨d, a⟩ ⟨d', a'⟩ ⟨hd, ha⟩
  dsimp only at hd ha ⊢
  have hD : D n K i i (i - 1) = 0 := by unfold D; rw [if_neg (by omega)]
  refine (hd.rd (i - 1) hD).bind fun f f' hf => ?_
  refine (ha.rsqrt (k := 0)).bind fun g g' hg => ?_
  obtain rfl := hf.eq
  obtain rfl := hg.eq
  obtain rfl := ha.eq
  generalize (if FloatOps.lt 0 f' = true then -g' else g') = g1
  refine (h.e.wr i ((hs.mul (Sc.refl g1)).cast (add_zero K)) rfl).bind fun e e' he => ?_
  refine (hd.wr (i - 1) (Sc.refl _) hD).bind fun d d' hd => ?_
  refine (Sim2.loop _ he fun j e e' _ _ he => he.wr j (Sc.zero _) rfl).bind fun e e' he => ?_
  refine (tredSymv_sim hi hd he h.v).bind ?_
  rintro ⟨e, v⟩ ⟨e', v'⟩ ⟨he, hv⟩
  dsimp only at he hv ⊢
  refine (tredQ_sim hi (Sc.refl _) hd he).bind fun e e' he => ?_
  refine (tredRank2_sim hi hd he hv).bind ?_
  rintro ⟨d, v⟩ ⟨d', v'⟩ ⟨hd, hv⟩
  dsimp only at hd hv ⊢
  refine (hd.wr' (e' := D n K (i - 1) 0) i (Sc.refl _) (by unfold D; rw [if_neg (by omega)]) fun q hq => ?_).bind fun d d' hd => ?_
  · unfold D; congr 1; rw [eq_iff_iff]; omega
  refine Sim2.ok ⟨hd, he, hv.congr (by omega) fun r c hc => ?_⟩
  unfold P; congr 1; rw [eq_iff_iff]; omega

theorem tredStep_sim {i : Nat} (h0 : 0 < i) (hi : i < n) {x y : Dev Fu} (h : DRel n K i x y) :
    Sim2 (tredStep n i x) (tredStep n i y) (DRel n K (i - 1)) := by
  unfold tredStep
  refine (Sim2.loop (Sc K) (Sc.zero K) fun k s s' _ hk hs => ?_).bind fun s s' hs => ?_
  · exact (h.d.rd k (k := K) (by unfold D; rw [if_pos (by omega)])).bind fun a a' ha => Sim2.ok (hs.add ha.abs)
  · rw [hs.feq (Sc.zero K)]
    split
    · exact tredZero_sim h0 hi h
    · exact tredHouse_sim h0 hi hs h

/-- Exponents of `v` during the accumulation. -/
def Q (n : Nat) (K : ℤ) (i b r c : Nat) : ℤ := if r < n ∧ ((r = c ∧ i ≤ r) ∨ (r = n - 1 ∧ c < b)) then K else 0

theorem tredAcc_sim {i : Nat} (hi : i + 1 < n) {d d' v v' : Buf Fu} {g : ℤ} (hd : BRel (fun p => if n ≤ p then K else if p = 0 then g else 0) d d') (hv : GRel n (Q n K i i) v v') :
    Sim2 (tredAcc n i d v) (tredAcc n i d' v') fun p q => (∃ g, BRel (fun p => if n ≤ p then K else if p = 0 then g else 0) p.1 q.1) ∧ GRel n (Q n K (i + 1) (i + 1)) p.2 q.2 := by
  unfold tredAcc
  simp only [usub_ok (show 1 ≤ n by omega), ok_bind]
  refine (hv.rd (by omega) (k := K) (by unfold Q; rw [if_pos (by omega)])).bind fun a a' ha => ?_
  refine Sim2.bind (P := GRel n (Q n K i (i + 1))) (hv.wr (by omega) ha (by unfold Q; rw [if_pos (by omega)]) fun r c hc hrc => ?_) fun v v' hv => ?_
  · unfold Q; congr 1; rw [eq_iff_iff]; omega
  refine Sim2.bind (P := GRel n (Q n K (i + 1) (i + 1))) (hv.wr (by omega) (Sc.refl _) (by unfold Q; rw [if_neg (by omega)]) fun r c hc hrc => ?_) fun v v' hv => ?_
  · unfold Q; congr 1; rw [eq_iff_iff]; omega
  have hQ : ∀ k j, k ≤ i → j ≤ i + 1 → k ≠ n - 1 → (j = i + 1 ∨ j ≤ i) → Q n K (i + 1) (i + 1) k j = 0 := fun k j h1 h2 h3 h4 => by
    unfold Q; rw [if_neg (by omega)]
  refine (hd.rd (i + 1) (k := 0) (by rw [if_neg (by omega), if_neg (by omega)])).bind fun h h' hh => ?_
  rw [hh.feq (Sc.zero 0)]
  refine Sim2.bind (P := fun (p q : Buf Fu × Buf Fu) => (∃ g, BRel (fun p => if n ≤ p then K else if p = 0 then g else 0) p.1 q.1) ∧ GRel n (Q n K (i + 1) (i + 1)) p.2 q.2) ?_ ?_
  · split
    · refine Sim2.bind (P := BRel fun p => if n ≤ p then K else 0) ?_ fun d d' hd => ?_
      · refine (Sim2.loop' (fun k => BRel fun p => if n ≤ p then K else if p = 0 ∧ k = 0 then g else 0) (Nat.zero_le (i + 1)) (hd.congr fun p => ?_) fun k d d' _ hk hd => ?_).mono
          fun a b hab => hab.congr fun p => ?_
        · simp
        · refine (hv.rd hi (hQ k (i + 1) (by omega) le_rfl (by omega) (Or.inl rfl))).bind fun x x' hx => (hx.rdiv hh).bind fun y y' hy => ?_
          refine hd.wr' k (hy.cast (sub_zero 0)) (by rw [if_neg (by omega), if_neg (by omega)]) fun q hq => ?_
          rw [if_neg (show ¬(q = 0 ∧ k + 1 = 0) by omega), if_neg (show ¬(q = 0 ∧ k = 0) by omega)]
        · rw [if_neg (show ¬(p = 0 ∧ i + 1 = 0) by omega)]
      · refine Sim2.bind (P := GRel n (Q n K (i + 1) (i + 1))) (Sim2.loop _ hv fun j v v' _ hj hv => ?_) fun v v' hv => Sim2.ok ⟨⟨0, hd.congr fun p => by simp⟩, hv⟩
        unfold tredApply
        refine Sim2.bind (P := Sc 0) (Sim2.loop _ (Sc.zero 0) fun k g g' _ hk hg => ?_) fun g g' hg => ?_
        · refine (hv.rd hi (hQ k (i + 1) (by omega) le_rfl (by omega) (Or.inl rfl))).bind fun x x' hx => ?_
          refine (hv.rd (by omega) (hQ k j (by omega) (by omega) (by omega) (Or.inr (by omega)))).bind fun y y' hy => Sim2.ok (hg.add ((hx.mul hy).cast (add_zero 0)))
        · refine Sim2.loop _ hv fun k v v' _ hk hv => ?_
          refine (hv.rd (by omega) (hQ k j (by omega) (by omega) (by omega) (Or.inr (by omega)))).bind fun o o' ho => ?_
          exact (hd.rd k (k := 0) (by rw [if_neg (by omega)])).bind fun y y' hy => hv.wr0 (by omega) (ho.sub ((hg.mul hy).cast (add_zero 0))) (hQ k j (by omega) (by omega) (by omega) (Or.inr (by omega)))
    · exact Sim2.ok ⟨⟨g, hd⟩, hv⟩
  · rintro ⟨d, v⟩ ⟨d', v'⟩ ⟨hd, hv⟩
    dsimp only at hd hv ⊢
    refine Sim2.bind (P := GRel n (Q n K (i + 1) (i + 1))) (Sim2.loop _ hv fun k v v' _ hk hv => ?_) fun v v' hv => Sim2.ok ⟨hd, hv⟩
    exact hv.wr0 hi (Sc.zero 0) (hQ k (i + 1) (by omega) le_rfl (by omega) (Or.inl rfl))

theorem tred2_sim (hn : 0 < n) {x y : Dev Fu} (hd : BRel (D n K (n - 1) 0) x.d y.d) (he : BRel (fun _ => K) x.e y.e)
    (hv : GRel n (fun r _ => if r < n then K else 0) x.v y.v) :
    Sim2 (tred2 n x) (tred2 n y) fun a b => BRel (fun _ => K) a.e b.e ∧ a.v = b.v ∧ BRel (fun _ => K) a.d b.d := by
  unfold tred2
  simp only [usub_ok (show 1 ≤ n by omega), ok_bind]
  refine Sim2.bind (P := BRel (D n K (n - 1) 0)) (Sim2.loop _ hd fun j d d' _ hj hd => ?_) fun d d' hd => ?_
  · exact (hv.rd hj (k := K) (by rw [if_pos (by omega)])).bind fun x x' hx => hd.wr j hx (by unfold D; rw [if_pos (by omega)])
  refine Sim2.bind (P := DRel n K 0) ?_ fun x1 y1 h => ?_
  · have h0 : DRel n K (n - 1) ⟨d, x.e, x.v⟩ ⟨d', y.e, y.v⟩ := ⟨hd, he, hv.congr hn fun r c hc => by unfold P; congr 1; rw [eq_iff_iff]; omega⟩
    have : ∀ k (hk : k + 1 ≤ n) (s t : Dev Fu), DRel n K k s t →
        Sim2 (loopRevN k 1 s fun i st => tredStep n i st) (loopRevN k 1 t fun i st => tredStep n i st) (DRel n K 0) := by
      intro k
      induction k with
      | zero => exact fun _ s t h => Sim2.ok h
      | succ k ih =>
        intro hk s t h
        unfold loopRevN
        refine (tredStep_sim (by omega) (by omega) (i := 1 + k) (by rwa [Nat.add_comm] at h)).bind fun a b hab => ih (by omega) a b ?_
        rwa [Nat.add_sub_cancel_left] at hab
    exact this (n - 1) (by omega) _ _ h0
  refine Sim2.bind (P := fun (p q : Buf Fu × Buf Fu) => (∃ g, BRel (fun p => if n ≤ p then K else if p = 0 then g else 0) p.1 q.1) ∧ GRel n (Q n K (n - 1) (n - 1)) p.2 q.2) ?_ ?_
  · refine Sim2.loop' (fun i (p q : Buf Fu × Buf Fu) => (∃ g, BRel (fun p => if n ≤ p then K else if p = 0 then g else 0) p.1 q.1) ∧ GRel n (Q n K i i) p.2 q.2)
      (Nat.zero_le _) ⟨⟨K, h.d.congr fun p => ?_⟩, h.v.congr hn fun r c hc => ?_⟩ ?_
    · unfold D; split_ifs <;> first | rfl | omega
    · unfold P Q; congr 1; rw [eq_iff_iff]; omega
    · rintro i ⟨d, v⟩ ⟨d', v'⟩ - hi ⟨⟨g, h1⟩, h2⟩
      exact tredAcc_sim (by omega) h1 h2
  rintro ⟨d, v⟩ ⟨d', v'⟩ ⟨⟨g, h1⟩, h2⟩
  dsimp only at h1 h2 ⊢
  refine Sim2.bind (P := fun (p q : Buf Fu × Buf Fu) => BRel (fun _ => K) p.1 q.1 ∧ GRel n (fun _ _ => 0) p.2 q.2) ?_ ?_
  · refine (Sim2.loop' (fun j (p q : Buf Fu × Buf Fu) => BRel (fun p => if p < j ∨ n ≤ p then K else if p = 0 then g else 0) p.1 q.1 ∧
      GRel n (fun r c => if r = n - 1 ∧ j ≤ c then K else 0) p.2 q.2) (Nat.zero_le n) ⟨h1.congr fun p => by split_ifs <;> first | rfl | omega, h2.congr hn fun r c hc => ?_⟩ ?_).mono ?_
    · unfold Q; congr 1; rw [eq_iff_iff]; omega
    · rintro j ⟨d, v⟩ ⟨d', v'⟩ - hj ⟨h3, h4⟩
      dsimp only at h3 h4 ⊢
      refine (h4.rd hj (k := K) (by rw [if_pos (by omega)])).bind fun a a' ha => ?_
      refine (h3.wr' (e' := fun p => if p < j + 1 ∨ n ≤ p then K else if p = 0 then g else 0) j ha (by rw [if_pos (by omega)]) fun q hq => ?_).bind fun d d' hd => ?_
      · split_ifs <;> first | rfl | omega
      refine Sim2.bind (P := GRel n (fun r c => if r = n - 1 ∧ j + 1 ≤ c then K else 0)) (h4.wr hj (Sc.zero 0) (by rw [if_neg (by omega)]) fun r c hc hrc => ?_) fun v v' hv => Sim2.ok ⟨hd, hv⟩
      congr 1; rw [eq_iff_iff]; omega
    · rintro ⟨d, v⟩ ⟨d', v'⟩ ⟨h3, h4⟩
      refine ⟨h3.congr fun p => ?_, h4.congr hn fun r c hc => by rw [if_neg (by omega)]⟩
      split_ifs <;> first | rfl | omega
  rintro ⟨d, v⟩ ⟨d', v'⟩ ⟨h3, h4⟩
  dsimp only at h3 h4 ⊢
  refine (h4.wr0 (by omega) (Sc.refl _) rfl).bind fun v v' hv => (h.e.wr 0 (Sc.zero _) rfl).bind fun e e' he => Sim2.ok ⟨he, BRel.eq hv, h3⟩

/-! ## `tql2` -/

/-- Diagonal and off-diagonal in the new unit; the same transformation. -/
def TRel (n : Nat) (K : ℤ) (x y : Dev Fu) : Prop := BRel (fun _ => K) x.d y.d ∧ BRel (fun _ => K) x.e y.e ∧ x.v = y.v

/-- The sweep variables. -/
structure SRel (n : Nat) (K : ℤ) (x y : Sweep Fu) : Prop where
  st : TRel n K x.st y.st
  p : Sc K x.p y.p
  c : x.c = y.c
  c2 : x.c2 = y.c2
  c3 : x.c3 = y.c3
  s : x.s = y.s
  s2 : x.s2 = y.s2

theorem dK {d d' : Buf Fu} (h : BRel (fun _ => K) d d') {i : Nat} : Sim2 (LA.rd d i) (LA.rd d' i) (Sc K) :=
  h.rd i rfl

theorem dW {d d' : Buf Fu} (h : BRel (fun _ => K) d d') {i : Nat} {x x' : Fu} (hx : Sc K x x') :
    Sim2 (LA.wr d i x) (LA.wr d' i x') (BRel (fun _ => K)) :=
  h.wr i hx rfl

theorem tqlStep_sim {i : Nat} {x y : Sweep Fu} (h : SRel n K x y) : Sim2 (tqlStep n i x) (tqlStep n i y) (SRel n K) := by
  obtain ⟨⟨hd, he, hv⟩, hp, hc, hc2, hc3, hs, hs2⟩ := h
  obtain ⟨⟨xd, xe, xv⟩, xp, xc, xc2, xc3, xs, xs2⟩ := x
  obtain ⟨⟨yd, ye, yv⟩, yp, yc, yc2, yc3, ys, ys2⟩ := y
  dsimp only at *
  subst hv hc hc2 hc3 hs hs2
  unfold tqlStep
  dsimp only
  refine (he.rd i rfl).bind fun a a' ha => (hypot_sim hp ha).bind fun r r' hr => ?_
  refine (he.wr (i + 1) (((Sc.refl xs).mul hr).cast (zero_add K)) rfl).bind fun e e' he => (he.rd i rfl).bind fun b b' hb => ?_
  refine (hb.rdiv hr).bind fun s s' hs => (hp.rdiv hr).bind fun c c' hc => ?_
  obtain rfl := (hs.cast (sub_self K)).eq
  obtain rfl := (hc.cast (sub_self K)).eq
  have hg : Sc K (xc * a) (xc * a') := ((Sc.refl xc).mul ha).cast (zero_add K)
  have hh : Sc K (xc * xp) (xc * yp) := ((Sc.refl xc).mul hp).cast (zero_add K)
  refine (dK hd).bind fun z z' hz => ?_
  have hp2 : Sc K (c' * z - s' * (xc * a)) (c' * z' - s' * (xc * a')) :=
    (((Sc.refl c').mul hz).cast (zero_add K)).sub (((Sc.refl s').mul hg).cast (zero_add K))
  refine (dK hd).bind fun z z' hz => ?_
  refine (dW hd (hh.add (((Sc.refl s').mul ((((Sc.refl c').mul hg).cast (zero_add K)).add (((Sc.refl s').mul hz).cast (zero_add K)))).cast (zero_add K)))).bind
    fun d d' hd => ?_
  refine Sim2.same.bind fun v v' hv => ?_
  subst hv
  exact Sim2.ok ⟨⟨hd, he, rfl⟩, hp2, rfl, rfl, rfl, rfl, rfl⟩

theorem tqlShift_sim {l : Nat} {d d' e e' : Buf Fu} (hd : BRel (fun _ => K) d d') (he : BRel (fun _ => K) e e') {f f' : Fu}
    (hf : Sc K f f') : Sim2 (tqlShift n l d e f) (tqlShift n l d' e' f') fun p q => BRel (fun _ => K) p.1 q.1 ∧ Sc K p.2 q.2 := by
  unfold tqlShift
  refine (dK hd).bind fun g g' hg => (he.rd l rfl).bind fun a a' ha => (dK hd).bind fun b b' hb => ?_
  refine ((hb.sub hg).rdiv (((Sc.refl (FloatOps.cst 2 1)).mul ha).cast (zero_add K))).bind fun p p' hp => ?_
  obtain rfl := (hp.cast (sub_self K)).eq
  refine Sim2.same.bind fun r r' hr => ?_
  subst hr
  generalize (if FloatOps.lt p' 0 = true then -r else r) = r
  refine (ha.rdiv (Sc.refl (p' + r))).bind fun q q' hq => ?_
  refine (dW hd (hq.cast (sub_zero K))).bind fun d d' hd => ?_
  refine (dW hd ((ha.mul (Sc.refl (p' + r))).cast (add_zero K))).bind fun d d' hd => ?_
  refine (dK hd).bind fun z z' hz => ?_
  refine Sim2.bind (P := BRel (fun _ => K)) (Sim2.loop _ hd fun i d d' _ hi hd => ?_) fun d d' hd => Sim2.ok ⟨hd, hf.add (hg.sub hz)⟩
  exact (dK hd).bind fun w w' hw => dW hd (hw.sub (hg.sub hz))

theorem tqlIter_sim {l m : Nat} (hl : l < m) {x y : Dev Fu} (h : TRel n K x y) {f f' : Fu} (hf : Sc K f f') :
    Sim2 (tqlIter n l m x f) (tqlIter n l m y f') fun p q => TRel n K p.1 q.1 ∧ Sc K p.2 q.2 := by
  obtain ⟨hd, he, hv⟩ := h
  unfold tqlIter
  refine (tqlShift_sim hd he hf).bind ?_
  rintro ⟨d, f⟩ ⟨d', f'⟩ ⟨hd, hf⟩
  dsimp only at hd hf ⊢
  refine (dK hd).bind fun a a' ha => (dK hd).bind fun p p' hp => (he.rd (l + 1) rfl).bind fun b b' hb => ?_
  refine Sim2.bind (P := SRel n K) (Sim2.loopRev _ ⟨⟨hd, he, hv⟩, hp, rfl, rfl, rfl, rfl, rfl⟩ fun i s t _ hi h => tqlStep_sim h) fun s t h => ?_
  obtain ⟨⟨hd, he, hv⟩, hp, hc, hc2, hc3, hs, hs2⟩ := h
  refine (he.rd l rfl).bind fun z z' hz => ?_
  rw [← hs, ← hs2, ← hc3, ← hc]
  refine Sim2.bind (P := Sc K) ((((((Sc.refl (-s.s * s.s2 * s.c3)).mul hb).mul hz).cast (by ring : 0 + K + K = K + K)).rdiv ha).mono fun _ _ h => h.cast (by ring)) fun p p' hp => ?_
  refine (he.wr l (((Sc.refl s.s).mul hp).cast (zero_add K)) rfl).bind fun e e' he => ?_
  refine (dW hd (((Sc.refl s.c).mul hp).cast (zero_add K))).bind fun d d' hd => Sim2.ok ⟨⟨hd, he, hv⟩, hf⟩

theorem tqlLoop_sim {l m : Nat} (hl : l < m) {t t' : Fu} (ht : Sc K t t') (fuel : Nat) {x y : Dev Fu} (h : TRel n K x y) {f f' : Fu} (hf : Sc K f f') :
    Sim2 (tqlLoop n l m t fuel x f) (tqlLoop n l m t' fuel y f') fun p q => TRel n K p.1 q.1 ∧ Sc K p.2 q.2 := by
  induction fuel generalizing x y f f' with
  | zero => exact Sim2.err _
  | succ fuel ih =>
    unfold tqlLoop
    refine (tqlIter_sim hl h hf).bind ?_
    rintro ⟨x, f⟩ ⟨y, f'⟩ ⟨h, hf⟩
    dsimp only at h hf ⊢
    refine (h.2.1.rd l rfl).bind fun z z' hz => ?_
    rw [hz.abs.le (((Sc.refl eps).mul ht).cast (zero_add K))]
    split
    · exact Sim2.ok ⟨h, hf⟩
    · exact ih h hf

theorem findM_sim {e e' : Buf Fu} (he : BRel (fun _ => K) e e') {t t' : Fu} (ht : Sc K t t') (k m : Nat) :
    Sim2 (findM e t k m) (findM e' t' k m) fun a b => a = b ∧ m ≤ a ∧ a ≤ m + k := by
  induction k generalizing m with
  | zero => exact Sim2.ok ⟨rfl, le_rfl, le_rfl⟩
  | succ k ih =>
    unfold findM
    refine (he.rd m rfl).bind fun z z' hz => ?_
    rw [hz.abs.le (((Sc.refl eps).mul ht).cast (zero_add K))]
    split
    · exact Sim2.ok ⟨rfl, le_rfl, by omega⟩
    · exact (ih (m + 1)).mono fun a b h => ⟨h.1, by omega, by omega⟩

theorem tqlOne_sim {fuel l : Nat} {x y : Dev Fu} (h : TRel n K x y) {f f' t t' : Fu} (hf : Sc K f f') (ht : Sc K t t') :
    Sim2 (tqlOne fuel n l (x, f, t)) (tqlOne fuel n l (y, f', t')) fun p q => TRel n K p.1 q.1 ∧ Sc K p.2.1 q.2.1 ∧ Sc K p.2.2 q.2.2 := by
  unfold tqlOne
  dsimp only
  refine (dK h.1).bind fun a a' ha => (h.2.1.rd l rfl).bind fun b b' hb => ?_
  have ht2 := ht.max (ha.abs.add hb.abs)
  refine (findM_sim h.2.1 ht2 _ _).bind fun m m' hm => ?_
  obtain ⟨rfl, -, -⟩ := hm
  refine Sim2.bind (P := fun (p q : Dev Fu × Fu) => TRel n K p.1 q.1 ∧ Sc K p.2 q.2) ?_ ?_
  · split
    · rename_i hl
      exact tqlLoop_sim hl ht2 fuel h hf
    · exact Sim2.ok ⟨h, hf⟩
  rintro ⟨x, f⟩ ⟨y, f'⟩ ⟨⟨h1, h2, h3⟩, hf⟩
  dsimp only at h1 h2 h3 hf ⊢
  refine (dK h1).bind fun c c' hc => (dW h1 (hc.add hf)).bind fun d d' hd => (h2.wr l (Sc.zero _) rfl).bind fun e e' he => Sim2.ok ⟨⟨hd, he, h3⟩, hf, ht2⟩

theorem tqlSort_sim {i : Nat} {d d' v : Buf Fu} (hd : BRel (fun _ => K) d d') :
    Sim2 (tqlSort n i d v) (tqlSort n i d' v) fun p q => BRel (fun _ => K) p.1 q.1 ∧ p.2 = q.2 := by
  unfold tqlSort
  refine (dK hd).bind fun a a' ha => ?_
  refine Sim2.bind (P := fun (p q : Nat × Fu) => p.1 = q.1 ∧ Sc K p.2 q.2) (Sim2.loop _ ⟨rfl, ha⟩ ?_) ?_
  · rintro j ⟨k, p⟩ ⟨k', p'⟩ - hj ⟨rfl, hp⟩
    dsimp only at hp ⊢
    refine (dK hd).bind fun b b' hb => ?_
    rw [hp.lt hb]
    split
    · exact (dK hd).bind fun c c' hc => Sim2.ok ⟨rfl, hc⟩
    · exact Sim2.ok ⟨rfl, hp⟩
  · rintro ⟨k, p⟩ ⟨k', p'⟩ ⟨rfl, hp⟩
    dsimp only at hp ⊢
    split
    · refine (dK hd).bind fun b b' hb => (dW hd hb).bind fun d d' hd => (dW hd hp).bind fun d d' hd => ?_
      exact Sim2.same.bind fun v v' hv => Sim2.ok ⟨hd, hv⟩
    · exact Sim2.ok ⟨hd, rfl⟩

theorem tql2_sim {fuel : Nat} {x y : Dev Fu} (h : TRel n K x y) : Sim2 (tql2 fuel n x) (tql2 fuel n y) (TRel n K) := by
  obtain ⟨hd, he, hv⟩ := h
  unfold tql2
  refine Sim2.bind (P := BRel fun _ => K) (Sim2.loop _ he fun i e e' _ _ he => ?_) fun e e' he => ?_
  · refine Sim2.same.bind fun a a' ha => ?_
    subst ha
    exact (he.rd i rfl).bind fun b b' hb => he.wr a hb rfl
  refine Sim2.same.bind fun a a' ha => ?_
  subst ha
  refine (he.wr a (Sc.zero _) rfl).bind fun e e' he => ?_
  refine Sim2.bind (P := fun (p q : Dev Fu × Fu × Fu) => TRel n K p.1 q.1 ∧ Sc K p.2.1 q.2.1 ∧ Sc K p.2.2 q.2.2)
    (Sim2.loop _ ⟨⟨hd, he, hv⟩, Sc.zero _, Sc.zero _⟩ ?_) ?_
  · rintro l ⟨x, f, t⟩ ⟨y, f', t'⟩ - - ⟨h1, h2, h3⟩
    exact tqlOne_sim h1 h2 h3
  rintro ⟨⟨xd, xe, xv⟩, f, t⟩ ⟨⟨yd, ye, yv⟩, f', t'⟩ ⟨⟨h1, h2, h3⟩, -, -⟩
  dsimp only at h1 h2 h3 ⊢
  subst h3
  refine Sim2.same.bind fun a a' ha => ?_
  subst ha
  refine Sim2.bind (P := fun (p q : Buf Fu × Buf Fu) => BRel (fun _ => K) p.1 q.1 ∧ p.2 = q.2) (Sim2.loop (s := (xd, xv)) (t := (yd, xv)) (fun (p q : Buf Fu × Buf Fu) => BRel (fun _ => K) p.1 q.1 ∧ p.2 = q.2) ⟨h1, rfl⟩ ?_) ?_
  · rintro i ⟨d, v⟩ ⟨d', v'⟩ - - ⟨hd, rfl⟩
    exact tqlSort_sim hd
  rintro ⟨d, v⟩ ⟨d', v'⟩ ⟨hd, hv⟩
  exact Sim2.ok ⟨hd, h2, hv⟩

/-- The results. -/
def ERel (K : ℤ) (x y : Eigen Fu) : Prop := x.n = y.n ∧ LRel (fun _ => K) x.d y.d ∧ LRel (fun _ => K) x.e y.e ∧ x.v = y.v

theorem new_sim (hn : 0 < n) {A A' : Matrix (Fin n) (Fin n) Fu} (h : ∀ i j, Sc K (A i j) (A' i j)) (hA : ∀ i j, A i j = A j i) (fuel : Nat) :
    Sim2 (Eigen.new fuel (ofM A)) (Eigen.new fuel (ofM A')) (ERel K) := by
  have hA' : ∀ i j, A' i j = A' j i := fun i j => by
    have h1 := h i j
    have h2 := h j i
    rw [hA j i] at h2
    have : (A' i j).q = (A' j i).q := h1.trans h2.symm
    cases h3 : A' i j; cases h4 : A' j i
    rw [h3, h4] at this
    simpa using this
  have hs : ∀ A : Matrix (Fin n) (Fin n) Fu, (∀ i j, A i j = A j i) → isSymm n (ofM A) = .ok true := fun A hA => by
    unfold isSymm
    rw [loopF_next]
    · rfl
    intro j _ hj
    rw [loopF_next]
    · rfl
    intro i _ hi
    rw [ofM_get A hi hj, ok_bind, ofM_get A hj hi, ok_bind, if_pos (by rw [hA]; exact decide_eq_true rfl)]
    rfl
  unfold Eigen.new Eigen.newWith
  simp only [ofM_cols A hn, ofM_cols A' hn, ok_bind, hs A hA, hs A' hA', if_true]
  refine Sim2.bind (P := GRel n fun r _ => if r < n then K else 0) ?_ fun v v' hv => ?_
  · refine (Sim2.loop (GRel n fun r _ => if r < n then K else 0) (BRel.alloc _ _) fun i v v' _ hi hv => Sim2.loop _ hv fun j v v' _ hj hv => ?_)
    refine (MRel.get (e := fun _ _ => K) h hi hj rfl).bind fun a a' ha => hv.wr0 hj ha (by rw [if_pos hi])
  refine (tred2_sim hn (x := ⟨alloc Fu n, alloc Fu n, v⟩) (y := ⟨alloc Fu n, alloc Fu n, v'⟩) (BRel.alloc _ _) (BRel.alloc _ _) hv).bind fun x y hxy => ?_
  refine (tql2_sim (x := x) (y := y) ⟨hxy.2.2, hxy.1, hxy.2.1⟩).bind fun x y hxy => ?_
  obtain ⟨h1, h2, h3⟩ := hxy
  refine h1.freeze.bind fun d d' hd => h2.freeze.bind fun e e' he => ?_
  rw [h3]
  refine Sim2.same.bind fun w w' hw => ?_
  subst hw
  refine Sim2.same.bind fun u u' hu => ?_
  subst hu
  exact Sim2.ok ⟨rfl, hd, he, rfl⟩

end Eigen.Scale
end LA
