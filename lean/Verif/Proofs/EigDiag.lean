import Verif.Proofs.EigNew
import Verif.Proofs.EigTri2

/-! # Diagonal matrices: the symmetric branch does nothing but sort -/

namespace LA
set_option linter.unusedSectionVars false

/-- Arithmetic in which ordinary numbers are ordered and zeros are negligible. -/
class Ranks (α : Type) [Zero α] [Add α] [Mul α] [FloatOps α] where
  /-- a number -/
  good : α → Prop
  /-- not negative -/
  nn : α → Prop
  zero : (0 : α) + 0 = 0
  eq : FloatOps.eq (0 : α) 0 = true
  good_add : ∀ x : α, good x → good (x + 0)
  nn_zero : nn 0
  nn_max : ∀ t x : α, nn t → good x → nn (FloatOps.max t (FloatOps.abs x + 0))
  thr : ∀ t : α, nn t → FloatOps.le 0 (Eigen.eps * t) = true
  trans : ∀ a b c : α, good a → good b → good c → FloatOps.lt a b = false → FloatOps.lt b c = false → FloatOps.lt a c = false
  asym : ∀ a b : α, good a → good b → FloatOps.lt a b = true → FloatOps.lt b a = false
  irrefl : ∀ a : α, good a → FloatOps.lt a a = false

variable {α : Type} [Zero α] [One α] [Add α] [Sub α] [Neg α] [Mul α] [FloatOps α] [Ranks α]

namespace Eigen

/-- Zeros off the diagonal. -/
structure DiagT (n : Nat) (F : Nat → Nat → α) : Prop where
  off : ∀ i j, i ≠ j → i < n → j < n → FloatOps.abs (F i j) = 0
  good : ∀ i, i < n → Ranks.good (F i i)

/-- State of `tred2`. -/
structure TredD (n : Nat) (F : Nat → Nat → α) (i : Nat) (st : Dev α) : Prop where
  d : Vect st.d n fun a => some (if a < i then F (i - 1) a else 0)
  e : ∃ g, Vect st.e n g ∧ ∀ a, i ≤ a → a < n → g a = some (F a (a - 1))
  v : Grid st.v n n fun a b => some (if a = b then F a a else if a < i ∧ b < i then F a b else 0)

theorem tredStep_diag {n i : Nat} {F : Nat → Nat → α} (hF : DiagT n F) (h1 : 1 ≤ i) (hi : i < n) {st : Dev α} (h : TredD n F (i + 1) st) :
    Post (tredStep n i st) (TredD n F i) := by
  unfold tredStep
  have : (loop 0 i (0 : α) fun k s => do return s + FloatOps.abs (← rd st.d k)) = .ok 0 := by
    refine Post.eq_ok (loop_post_const (fun s => s = 0) rfl fun k s h2 h3 hs => ?_)
    rw [h.d.rd (i := k) (by omega) rfl, ok_bind, if_pos (by omega), hs, show i + 1 - 1 = i by omega, hF.off i k (by omega) hi (by omega)]
    exact Post.ok Ranks.zero
  rw [this, ok_bind, if_pos Ranks.eq]
  unfold tredZero
  obtain ⟨g, hg, hgv⟩ := h.e
  simp only [usub_ok h1, ok_bind]
  rw [h.d.rd (i := i - 1) (by omega) rfl, ok_bind, if_pos (by omega), show i + 1 - 1 = i by omega]
  obtain ⟨e1, hr, he1⟩ := hg.wr (i := i) hi (F i (i - 1))
  rw [hr, ok_bind]
  have hl : Post (loop 0 i (st.d, st.v) fun j (x : Buf α × Buf α) => (do
      let (d, v) := x
      let d ← wr d j (← rd v ((i - 1) * n + j))
      let v ← wr v (i * n + j) 0
      let v ← wr v (j * n + i) 0
      return (d, v) : R (Buf α × Buf α))) fun x => Vect x.1 n (fun a => some (if a < i then F (i - 1) a else if a < i + 1 then F i a else 0)) ∧
        Grid x.2 n n fun a b => some (if a = b then F a a else if a < i ∧ b < i then F a b else 0) := by
    refine (loop_post (fun k (x : Buf α × Buf α) => Vect x.1 n (fun a => some (if a < k then F (i - 1) a else if a < i + 1 then F i a else 0)) ∧
        Grid x.2 n n fun a b => some (if a = b then F a a else if a < i ∧ b < i then F a b else if a < i + 1 ∧ b < i + 1 ∧ k ≤ a ∧ k ≤ b then F a b else 0))
      (Nat.zero_le i) ⟨h.d.congr fun a _ => by grind, h.v.congr fun a b _ _ => by grind⟩ ?_).mono fun x hx => ⟨hx.1, hx.2.congr fun a b _ _ => by grind⟩
    rintro j ⟨d, v⟩ - hj ⟨hd, hv⟩
    dsimp only at hd hv ⊢
    obtain ⟨d1, hr1, hd1⟩ := hd.wr (i := j) (by omega) (F (i - 1) j)
    obtain ⟨v1, hr2, hv1⟩ := hv.wr (i := i) (j := j) hi (by omega) 0
    obtain ⟨v2, hr3, hv2⟩ := hv1.wr (i := j) (j := i) (by omega) hi 0
    rw [hv.rd (i := i - 1) (j := j) (by omega) (by omega) rfl, ok_bind]
    have hx : (if i - 1 = j then F (i - 1) (i - 1) else if i - 1 < i ∧ j < i then F (i - 1) j else
      if i - 1 < i + 1 ∧ j < i + 1 ∧ j ≤ i - 1 ∧ j ≤ j then F (i - 1) j else 0) = F (i - 1) j := by grind
    rw [hx, hr1, ok_bind, hr2, ok_bind, hr3, ok_bind]
    refine Post.ok ⟨hd1.congr fun a _ => by unfold updv; grind, hv2.congr fun a b _ _ => by unfold upd; grind⟩
  obtain ⟨⟨d, v⟩, hr, hd, hv⟩ := hl
  erw [hr]
  rw [ok_bind]
  dsimp only at hd hv ⊢
  obtain ⟨d1, hr1, hd1⟩ := hd.wr (i := i) hi 0
  rw [hr1, ok_bind]
  refine Post.ok ⟨hd1.congr fun a _ => by unfold updv; grind, ⟨_, he1, fun a ha1 ha2 => ?_⟩, hv⟩
  unfold updv
  split
  · next h => rw [h]
  · exact hgv a (by omega) ha2

theorem tredAcc_diag {n i : Nat} {F : Nat → Nat → α} (hi : i + 1 < n) {d v : Buf α}
    (hd : Vect d n fun a => some (if a = 0 then F 0 0 else 0))
    (hv : Grid v n n fun a b => some (if a = n - 1 ∧ b < i then F b b else if a = b then (if a < i then 1 else F a a) else 0)) :
    Post (tredAcc n i d v) fun x => x.1 = d ∧
      Grid x.2 n n fun a b => some (if a = n - 1 ∧ b < i + 1 then F b b else if a = b then (if a < i + 1 then 1 else F a a) else 0) := by
  unfold tredAcc
  rw [usub_ok (by omega), ok_bind, hv.rd (i := i) (j := i) (by omega) (by omega) rfl, ok_bind]
  obtain ⟨v1, hr1, hv1⟩ := hv.wr (i := n - 1) (j := i) (by omega) (by omega) (if i = n - 1 ∧ i < i then F i i else if i = i then (if i < i then 1 else F i i) else 0)
  obtain ⟨v2, hr2, hv2⟩ := hv1.wr (i := i) (j := i) (by omega) (by omega) 1
  rw [hr1, ok_bind, hr2, ok_bind, hd.rd (i := i + 1) hi (x := 0) (by rw [if_neg (by omega)]), ok_bind, Ranks.eq]
  simp only [Bool.not_true, Bool.false_eq_true, if_false]
  erw [ok_bind]
  dsimp only
  have hl : Post (loop 0 (i + 1) v2 fun k v => wr v (k * n + (i + 1)) 0) fun v =>
      Grid v n n fun a b => some (if a = n - 1 ∧ b < i + 1 then F b b else if a = b then (if a < i + 1 then 1 else F a a) else 0) := by
    refine loop_post (fun _ v => Grid v n n fun a b => some (if a = n - 1 ∧ b < i + 1 then F b b else if a = b then (if a < i + 1 then 1 else F a a) else 0))
      (Nat.zero_le _) (hv2.congr fun a b _ _ => by unfold upd; grind) fun k v _ hk h => ?_
    refine (h.wr (i := k) (j := i + 1) (by omega) hi 0).mono fun v h => h.congr fun a b _ _ => by unfold upd; grind
  obtain ⟨v3, hr3, hv3⟩ := hl
  rw [hr3, ok_bind]
  exact Post.ok ⟨rfl, hv3⟩

theorem tred2_diag {n : Nat} {F : Nat → Nat → α} (hn : 0 < n) (hF : DiagT n F) {st : Dev α} (hd : st.d.length = n) (he : st.e.length = n)
    (hv : Grid st.v n n fun i j => some (F i j)) :
    Post (tred2 n st) fun s => Vect s.d n (fun a => some (F a a)) ∧ (∃ g : Nat → α, Vect s.e n (fun a => some (g a)) ∧ ∀ a, 1 ≤ a → a < n → FloatOps.abs (g a) = 0) ∧
      Grid s.v n n fun a b => some (if a = b then 1 else 0) := by
  unfold tred2
  have hany : ∀ {l : Buf α}, l.length = n → ∃ g, Vect l n g := fun {l} hl => ⟨fun i => (l[i]?).getD none, hl, fun i hi => by
    beta_reduce; rw [List.getElem?_eq_getElem (by omega)]; rfl⟩
  obtain ⟨g0, hg0⟩ := hany hd
  obtain ⟨g1, hg1⟩ := hany he
  have h1 : Post (loop 0 n st.d fun j d => do wr d j (← rd st.v ((← usub n 1) * n + j))) fun d => Vect d n fun a => some (F (n - 1) a) := by
    refine (loop_vect (lo := 0) (hi := n) (fun a => some (F (n - 1) a)) hg0 ?_).mono fun d h => h.congr fun a ha => by rw [if_pos ⟨Nat.zero_le _, ha⟩]
    intro i d' g' _ hi hg' _
    rw [usub_ok (by omega), ok_bind, hv.rd (i := n - 1) (j := i) (by omega) hi rfl, ok_bind]
    exact hg'.wr hi _
  obtain ⟨d, hr, hd1⟩ := h1
  rw [hr, ok_bind]
  obtain ⟨s1, hr, hs1⟩ := loopRev_post (lo := 1) (hi := n) (s := (⟨d, st.e, st.v⟩ : Dev α)) (f := fun i st => tredStep n i st) (fun i s => TredD n F i s) (by omega)
    ⟨hd1.congr fun a ha => by rw [if_pos ha], ⟨g1, hg1, fun a h1 h2 => by omega⟩, hv.congr fun a b ha hb => by grind⟩
    fun i s h1 h2 h3 => tredStep_diag hF h1 h2 h3
  rw [hr, ok_bind, usub_ok (by omega), ok_bind]
  have hd2 : Vect s1.d n fun a => some (if a = 0 then F 0 0 else 0) := hs1.d.congr fun a _ => by grind
  have h2 := loop_post (lo := 0) (hi := n - 1) (s := (s1.d, s1.v)) (f := fun i (x : Buf α × Buf α) => (do let (d, v) := x; tredAcc n i d v : R (Buf α × Buf α)))
    (fun i x => x.1 = s1.d ∧ Grid x.2 n n fun a b => some (if a = n - 1 ∧ b < i then F b b else if a = b then (if a < i then 1 else F a a) else 0)) (by omega)
    ⟨rfl, hs1.v.congr fun a b _ _ => by grind⟩ (by
      rintro i ⟨d, v⟩ - hi ⟨rfl, hv⟩
      exact tredAcc_diag (by omega) hd2 hv)
  obtain ⟨⟨d2, v2⟩, hr, e2, hv2⟩ := h2
  erw [hr]
  rw [ok_bind]
  dsimp only at e2 hv2 ⊢
  subst e2
  have h3 := loop_post (lo := 0) (hi := n) (s := (s1.d, v2)) (f := fun j (x : Buf α × Buf α) => (do
      let (d, v) := x
      let d ← wr d j (← rd v ((n - 1) * n + j))
      let v ← wr v ((n - 1) * n + j) 0
      return (d, v) : R (Buf α × Buf α)))
    (fun k x => Vect x.1 n (fun a => some (if a < k then F a a else if a = 0 then F 0 0 else 0)) ∧
      Grid x.2 n n fun a b => some (if a = n - 1 then (if b < k then 0 else F b b) else if a = b then 1 else 0)) (Nat.zero_le _)
    ⟨hd2.congr fun a _ => by grind, hv2.congr fun a b _ _ => by grind⟩ (by
      rintro j ⟨d, v⟩ - hj ⟨hd, hv⟩
      dsimp only at hd hv ⊢
      obtain ⟨d1, hr1, hd1⟩ := hd.wr (i := j) hj (F j j)
      obtain ⟨v1, hr2, hv1⟩ := hv.wr (i := n - 1) (j := j) (by omega) hj 0
      rw [hv.rd (i := n - 1) (j := j) (by omega) hj rfl, ok_bind, if_pos rfl, if_neg (by omega), hr1, ok_bind, hr2, ok_bind]
      exact Post.ok ⟨hd1.congr fun a _ => by unfold updv; grind, hv1.congr fun a b _ _ => by unfold upd; grind⟩)
  simp only [usub_ok (show 1 ≤ n by omega), ok_bind]
  obtain ⟨⟨d3, v3⟩, hr, hd3, hv3⟩ := h3
  erw [hr]
  rw [ok_bind]
  dsimp only at hd3 hv3 ⊢
  obtain ⟨v4, hr4, hv4⟩ := hv3.wr (i := n - 1) (j := n - 1) (by omega) (by omega) 1
  rw [hr4, ok_bind]
  obtain ⟨g, hg, hgv⟩ := hs1.e
  obtain ⟨e4, hr5, he4⟩ := hg.wr (i := 0) hn 0
  rw [hr5, ok_bind]
  refine Post.ok ⟨hd3.congr fun a ha => by rw [if_pos ha], ⟨fun a => if a = 0 then 0 else F a (a - 1), he4.congr fun a ha => ?_, fun a h1 h2 => ?_⟩,
    hv4.congr fun a b _ _ => by unfold upd; grind⟩
  · unfold updv
    beta_reduce
    by_cases e : a = 0
    · rw [if_pos e, if_pos e]
    · rw [if_neg e, if_neg e]; exact hgv a (by omega) ha
  · beta_reduce
    rw [if_neg (by omega)]
    exact hF.off _ _ (by omega) h2 (by omega)

/-- The buffers hold the diagonal of `f` in the order `σ`, and the matching permutation matrix. -/
structure Sorted (n : Nat) (f : Nat → α) (i : Nat) (d v : Buf α) (σ : Equiv.Perm (Fin n)) : Prop where
  d : Vect d n fun a => if h : a < n then some (f (σ ⟨a, h⟩)) else none
  v : Grid v n n fun a b => if h : b < n then some (if a = (σ ⟨b, h⟩).1 then 1 else 0) else none
  ord : ∀ a b : Fin n, a.1 < i → a < b → FloatOps.lt (f (σ a)) (f (σ b)) = false

theorem swap2_gen {n i k : Nat} {v : Buf α} {V : Nat → Nat → α} (hv : Grid v n n fun a b => some (V a b)) (hi : i < n) (hk : k < n) :
    Post (swap2 n i k v) fun r => Grid r n n (fun a b => some (V a (if b = i then k else if b = k then i else b))) := by
  unfold swap2
  refine (loop_post (fun j v => Grid v n n fun a b => some (V a (if a < j then (if b = i then k else if b = k then i else b) else b))) (Nat.zero_le n)
    (hv.congr fun a b _ _ => by rw [if_neg (by omega)]) ?_).mono fun r h => h.congr fun a b ha _ => by rw [if_pos ha]
  intro j d' _ hj hG
  obtain ⟨v1, hr1, hg1⟩ := hG.wr (i := j) (j := i) hj hi (V j k)
  obtain ⟨v2, hr2, hg2⟩ := hg1.wr (i := j) (j := k) hj hk (V j i)
  rw [hG.rd (i := j) (j := i) hj hi rfl, ok_bind, hG.rd (i := j) (j := k) hj hk rfl, ok_bind, if_neg (by omega), if_neg (by omega), hr1, ok_bind, hr2]
  refine Post.ok (hg2.congr fun a b _ _ => ?_)
  simp only [upd]
  grind

theorem tqlSort_gen {n i : Nat} {f : Nat → α} (hf : ∀ a, a < n → Ranks.good (f a)) {d v : Buf α} {σ : Equiv.Perm (Fin n)} (h : Sorted n f i d v σ) (hi : i < n) :
    Post (tqlSort n i d v) fun r => ∃ τ, Sorted n f (i + 1) r.1 r.2 τ ∧
      ((∀ a b : Fin n, a < b → FloatOps.lt (f (σ a)) (f (σ b)) = false) → τ = σ) := by
  unfold tqlSort
  have hrd : ∀ a (ha : a < n), rd d a = .ok (f (σ ⟨a, ha⟩)) := fun a ha => h.d.rd ha (by rw [dif_pos ha])
  have hg : ∀ a : Fin n, Ranks.good (f (σ a)) := fun a => hf _ (σ a).2
  rw [hrd i hi, ok_bind]
  have hl := loop_post (lo := i + 1) (hi := n) (s := (i, f (σ ⟨i, hi⟩))) (f := fun j (x : Nat × α) => (do
      let (k, p) := x
      if FloatOps.lt p (← rd d j) then return (j, ← rd d j) else return (k, p) : R (Nat × α)))
    (fun c x => i ≤ x.1 ∧ ∃ hx : x.1 < n, x.2 = f (σ ⟨x.1, hx⟩) ∧ (∀ a : Fin n, i ≤ a.1 → a.1 < c → FloatOps.lt x.2 (f (σ a)) = false) ∧
      ((∀ a b : Fin n, a < b → FloatOps.lt (f (σ a)) (f (σ b)) = false) → x.1 = i)) (by omega)
    ⟨le_rfl, hi, rfl, fun a h1 h2 => by
      have : a = ⟨i, hi⟩ := Fin.ext (by show a.1 = i; omega)
      rw [this]; exact Ranks.irrefl _ (hg _), fun _ => rfl⟩ (by
    rintro j ⟨k, p⟩ hj1 hj2 ⟨h1, h2, h3, h4, h40⟩
    dsimp only at h1 h2 h3 h4 h40 ⊢
    rw [hrd j hj2, ok_bind]
    by_cases hc : FloatOps.lt p (f (σ ⟨j, hj2⟩)) = true
    · rw [if_pos hc, ok_bind]
      refine Post.ok ⟨by show i ≤ j; omega, hj2, rfl, fun a h5 h6 => ?_, fun hs => ?_⟩
      swap
      · exfalso
        have e := h40 hs
        subst e
        rw [h3, hs _ _ (Fin.lt_def.2 (by show k < j; omega))] at hc
        cases hc
      show FloatOps.lt (f (σ ⟨j, hj2⟩)) (f (σ a)) = false
      by_cases e : a.1 = j
      · have : a = ⟨j, hj2⟩ := Fin.ext e
        rw [this]; exact Ranks.irrefl _ (hg _)
      · refine Ranks.trans _ p _ (hg _) (h3 ▸ hg _) (hg _) ?_ (h4 a h5 (by omega))
        exact Ranks.asym _ _ (h3 ▸ hg _) (hg _) hc
    · rw [if_neg hc]
      refine Post.ok ⟨h1, h2, h3, fun a h5 h6 => ?_, h40⟩
      show FloatOps.lt p (f (σ a)) = false
      by_cases e : a.1 = j
      · have : a = ⟨j, hj2⟩ := Fin.ext e
        rw [this]; simpa using hc
      · exact h4 a h5 (by omega))
  obtain ⟨⟨k, p⟩, hr, h1, h2, h3, h4, h40⟩ := hl
  dsimp only at h1 h2 h3 h4 h40
  erw [hr]
  rw [ok_bind]
  dsimp only
  by_cases hk : k = i
  · rw [if_neg (by simpa using hk)]
    refine Post.ok ⟨σ, ⟨h.d, h.v, fun a b ha hab => ?_⟩, fun _ => rfl⟩
    by_cases e : a.1 = i
    · have h5 := h4 b (by have := Fin.lt_def.1 hab; omega) b.2
      have : a = ⟨k, h2⟩ := Fin.ext (by show a.1 = k; omega)
      rw [this, ← h3]; exact h5
    · exact h.ord a b (by omega) hab
  · rw [if_pos (by simpa using hk)]
    have hV : Grid v n n fun a b => some ((fun a b => if h : b < n then (if a = (σ ⟨b, h⟩).1 then (1 : α) else 0) else 0) a b) :=
      h.v.congr fun a b _ hb => by simp only [dif_pos hb]
    obtain ⟨d1, hd1, hf1⟩ := h.d.wr (i := k) h2 (f (σ ⟨i, hi⟩))
    obtain ⟨d2, hd2, hf2⟩ := hf1.wr (i := i) hi p
    obtain ⟨v1, hv1, hg1⟩ := swap2_gen (i := i) (k := k) hV hi h2
    rw [ok_bind, hd1, ok_bind, hd2, ok_bind, hv1, ok_bind]
    have hsw : ∀ j : Fin n, ((Equiv.swap (⟨i, hi⟩ : Fin n) ⟨k, h2⟩ j : Fin n) : Nat) = if j.1 = i then k else if j.1 = k then i else j.1 := by
      intro j
      rw [Equiv.swap_apply_def]
      simp only [Fin.ext_iff]
      split
      · rfl
      · split <;> rfl
    refine Post.ok ⟨(Equiv.swap ⟨i, hi⟩ ⟨k, h2⟩).trans σ, ⟨hf2.congr fun a ha => ?_, hg1.congr fun a b ha hb => ?_, fun a b ha hab => ?_⟩,
      fun hs => absurd (h40 hs) hk⟩
    · rw [dif_pos ha, Equiv.trans_apply]
      unfold updv
      beta_reduce
      rw [Equiv.swap_apply_def]
      simp only [Fin.ext_iff]
      by_cases e : a = i
      · rw [if_pos e, if_pos e, h3]
      · rw [if_neg e, if_neg e]
        by_cases e2 : a = k
        · rw [if_pos e2, if_pos e2]
        · rw [if_neg e2, if_neg e2, dif_pos ha]
    · rw [dif_pos hb, Equiv.trans_apply]
      have h5 : ((Equiv.swap (⟨i, hi⟩ : Fin n) ⟨k, h2⟩ ⟨b, hb⟩ : Fin n) : Nat) = if b = i then k else if b = k then i else b := hsw ⟨b, hb⟩
      have h6 : (if b = i then k else if b = k then i else b) < n := by rw [← h5]; exact Fin.is_lt _
      have h7 : (⟨if b = i then k else if b = k then i else b, h6⟩ : Fin n) = Equiv.swap (⟨i, hi⟩ : Fin n) ⟨k, h2⟩ ⟨b, hb⟩ := Fin.ext h5.symm
      beta_reduce
      rw [dif_pos h6, h7]
    · rw [Equiv.trans_apply, Equiv.trans_apply]
      have hab' := Fin.lt_def.1 hab
      by_cases e : a.1 = i
      · have ea : Equiv.swap (⟨i, hi⟩ : Fin n) ⟨k, h2⟩ a = ⟨k, h2⟩ := Fin.ext (by rw [hsw, if_pos e])
        rw [ea, ← h3]
        refine h4 _ ?_ (Fin.is_lt _)
        rw [hsw]; split
        · exact h1
        · split <;> omega
      · have ea : Equiv.swap (⟨i, hi⟩ : Fin n) ⟨k, h2⟩ a = a := Fin.ext (by rw [hsw, if_neg e, if_neg (by omega)])
        rw [ea]
        refine h.ord a _ (by omega) (Fin.lt_def.2 ?_)
        rw [hsw]; split
        · omega
        · split <;> omega

theorem tql2_diag {fuel n : Nat} {f : Nat → α} (hn : 0 < n) (hf : ∀ a, a < n → Ranks.good (f a)) {st : Dev α} (hd : Vect st.d n fun a => some (f a)) {g : Nat → α}
    (he : Vect st.e n fun a => some (g a)) (hg : ∀ a, 1 ≤ a → a < n → FloatOps.abs (g a) = 0) (hz : FloatOps.abs (0 : α) = 0)
    (hv : Grid st.v n n fun a b => some (if a = b then 1 else 0)) :
    Post (tql2 fuel n st) fun s => (∃ σ, Sorted n (fun a => f a + 0) n s.d s.v σ ∧
      ((∀ a b : Fin n, a < b → FloatOps.lt (f a + 0) (f b + 0) = false) → σ = Equiv.refl _)) ∧ Vect s.e n fun _ => some 0 := by
  unfold tql2
  have h1 : Post (loop 1 n st.e fun i e => do wr e (← usub i 1) (← rd e i)) fun e => Vect e n fun a => some (if a + 1 < n then g (a + 1) else g a) := by
    refine loop_post (fun c e => Vect e n (fun a => some (if a + 1 < c then g (a + 1) else g a))) (by omega) (he.congr fun a _ => by rw [if_neg (by omega)]) ?_
    intro i e h1 h2 h3
    rw [usub_ok (by omega), ok_bind, h3.rd (i := i) h2 rfl, ok_bind, if_neg (by omega)]
    refine (h3.wr (i := i - 1) (by omega) (g i)).mono fun e h => h.congr fun a _ => ?_
    unfold updv
    grind
  obtain ⟨e1, hr, he1⟩ := h1
  simp only [usub_ok (show 1 ≤ n by omega), ok_bind] at hr ⊢
  rw [hr, ok_bind]
  obtain ⟨e2, hr, he2⟩ := he1.wr (i := n - 1) (by omega) 0
  rw [hr, ok_bind]
  have h2 := loop_post (lo := 0) (hi := n) (s := ((⟨st.d, e2, st.v⟩ : Dev α), (0 : α), (0 : α))) (f := fun l x => tqlOne fuel n l x)
    (fun l x => Vect x.1.d n (fun a => some (if a < l then f a + 0 else f a)) ∧ (∃ g : Nat → α, Vect x.1.e n (fun a => some (if a < l then 0 else g a)) ∧
      ∀ a, a < n → FloatOps.abs (g a) = 0) ∧ x.1.v = st.v ∧ x.2.1 = 0 ∧ Ranks.nn x.2.2) (Nat.zero_le _)
    ⟨hd.congr fun a _ => by rw [if_neg (by omega)], ⟨fun a => if a + 1 < n then g (a + 1) else 0, he2.congr fun a ha => by
        rw [if_neg (by omega)]
        unfold updv
        beta_reduce
        by_cases e : a = n - 1
        · rw [if_pos e, if_neg (by omega)]
        · rw [if_neg e, if_pos (by omega), if_pos (by omega)], fun a ha => by
        beta_reduce
        split
        · exact hg _ (by omega) (by omega)
        · exact hz⟩, rfl, rfl, Ranks.nn_zero⟩ (by
    rintro l ⟨⟨d, e, v⟩, fv, t⟩ - hl ⟨hd, ⟨g, he, hg⟩, rfl, rfl, ht⟩
    dsimp only at hd he ht ⊢
    unfold tqlOne
    dsimp only
    rw [hd.rd hl rfl, ok_bind, he.rd hl rfl, ok_bind, if_neg (by omega), if_neg (by omega), hg l hl]
    have ht' := Ranks.nn_max t (f l) ht (hf l hl)
    have hm : findM e (FloatOps.max t (FloatOps.abs (f l) + 0)) (n - l) l = .ok l := by
      rw [show n - l = (n - l - 1) + 1 by omega]
      unfold findM
      rw [he.rd hl (x := g l) (by rw [if_neg (by omega)]), ok_bind, hg l hl, if_pos (Ranks.thr _ ht')]
      rfl
    rw [hm, ok_bind, if_neg (by omega)]
    erw [ok_bind]
    dsimp only
    obtain ⟨d1, hr1, hd1⟩ := hd.wr (i := l) hl (f l + 0)
    obtain ⟨e1, hr2, he1⟩ := he.wr (i := l) hl 0
    rw [hd.rd hl rfl, ok_bind, if_neg (by omega), hr1, ok_bind, hr2, ok_bind]
    refine Post.ok ⟨hd1.congr fun a _ => by unfold updv; grind, ⟨g, he1.congr fun a _ => by unfold updv; grind, hg⟩, rfl, rfl, ht'⟩)
  obtain ⟨⟨s1, f1, t1⟩, hr, hd1, ⟨g1, he1, -⟩, hv1, -, -⟩ := h2
  rw [hr, ok_bind]
  dsimp only at hd1 he1 hv1 ⊢
  have h3 := loop_post (lo := 0) (hi := n - 1) (s := (s1.d, s1.v)) (f := fun i (x : Buf α × Buf α) => (do let (d, v) := x; tqlSort n i d v : R (Buf α × Buf α)))
    (fun i x => ∃ σ, Sorted n (fun a => f a + 0) i x.1 x.2 σ ∧ ((∀ a b : Fin n, a < b → FloatOps.lt (f a + 0) (f b + 0) = false) → σ = Equiv.refl _)) (Nat.zero_le _)
    ⟨Equiv.refl _, ⟨hd1.congr fun a ha => by rw [if_pos ha, dif_pos ha]; rfl, by
      rw [hv1]; exact hv.congr fun a b _ hb => by rw [dif_pos hb]; rfl, fun a b h => by omega⟩, fun _ => rfl⟩ (by
    rintro i ⟨d, v⟩ - hi ⟨σ, h, hr⟩
    refine (tqlSort_gen (fun a ha => Ranks.good_add _ (hf a ha)) h (by omega)).mono ?_
    rintro r ⟨τ, h1, h2⟩
    refine ⟨τ, h1, fun hs => ?_⟩
    have := hr hs
    subst this
    exact h2 fun a b hab => hs a b hab)
  obtain ⟨⟨d2, v2⟩, hr3, σ, h2, h2r⟩ := h3
  erw [hr3]
  rw [ok_bind]
  refine Post.ok ⟨⟨σ, ⟨h2.d, h2.v, fun a b _ hab => h2.ord a b (by have := Fin.lt_def.1 hab; omega) hab⟩, h2r⟩, he1.congr fun a ha => by rw [if_pos ha]⟩

end Eigen
end LA
