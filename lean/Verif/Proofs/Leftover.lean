import Verif.Proofs.F64Laws
import Verif.Exact

/-! # The left-over variables of the back-substitution do not matter -/

namespace LA
set_option linter.unusedSectionVars false

/-- Two runs that fail in the same way, or return related values. -/
def Sim {β : Type} (Q : β → β → Prop) : R β → R β → Prop
  | .ok a, .ok b => Q a b
  | .error e, .error e' => e = e'
  | _, _ => False

theorem Sim.eq {β : Type} {x y : R β} (h : Sim Eq x y) : x = y := by
  cases x <;> cases y <;> first | exact congrArg _ h | exact h.elim

theorem Sim.rfl {β : Type} {Q : β → β → Prop} (hQ : ∀ a, Q a a) {x : R β} : Sim Q x x := by
  cases x
  · exact Eq.refl _
  · exact hQ _

theorem Sim.bind {β γ : Type} {Q : β → β → Prop} {S : γ → γ → Prop} {x y : R β} {f g : β → R γ} (h : Sim Q x y)
    (hf : ∀ a b, Q a b → Sim S (f a) (g b)) : Sim S (x >>= f) (y >>= g) := by
  cases x <;> cases y
  · exact h
  · exact h.elim
  · exact h.elim
  · exact hf _ _ h

theorem Sim.same {β γ : Type} {S : γ → γ → Prop} {x : R β} {f g : β → R γ} (hf : ∀ a, x = .ok a → Sim S (f a) (g a)) :
    Sim S (x >>= f) (x >>= g) := by
  cases x
  · exact Eq.refl _
  · exact hf _ (Eq.refl _)

theorem Sim.loopRevN {σ : Type} {Q : Nat → σ → σ → Prop} {f g : Nat → σ → R σ} : ∀ (k : Nat) {s t : σ}, Q k s t →
    (∀ i s t, i < k → Q (i + 1) s t → Sim (Q i) (f i s) (g i t)) → Sim (Q 0) (loopRevN k 0 s f) (loopRevN k 0 t g)
  | 0, _, _, h, _ => h
  | k + 1, s, t, h, hb => by
    show Sim (Q 0) (f (0 + k) s >>= _) (g (0 + k) t >>= _)
    rw [Nat.zero_add]
    exact (hb k s t (by omega) h).bind fun a b hab => Sim.loopRevN k hab fun i s t hi => hb i s t (by omega)

theorem Sim.loopRev {σ : Type} {Q : Nat → σ → σ → Prop} {f g : Nat → σ → R σ} {k : Nat} {s t : σ} (h : Q k s t)
    (hb : ∀ i s t, i < k → Q (i + 1) s t → Sim (Q i) (f i s) (g i t)) : Sim (Q 0) (loopRev 0 k s f) (loopRev 0 k t g) :=
  Sim.loopRevN k h hb

theorem wr_rd {α : Type} {d d' : Buf α} {i : Nat} {x : α} (h : wr d i x = .ok d') (j : Nat) : rd d' j = if j = i then .ok x else rd d j := by
  unfold wr at h
  split at h
  · next hi =>
    cases h
    by_cases e : j = i
    · subst e; rw [if_pos rfl]; unfold rd; rw [List.getElem?_set_self (by simpa using hi)]
    · rw [if_neg e]; unfold rd; rw [List.getElem?_set_ne (Ne.symm e)]
  · cases h

/-- Arithmetic with at most one NaN, in which square roots have a sign. -/
class Carry (α : Type) [Zero α] [Add α] [Sub α] [Neg α] [Mul α] [FloatOps α] extends NaNs α where
  uniq : ∀ x y, nan x → nan y → x = y
  div_ok : ∀ a x y : α, nan a → ∃ z, RDiv.rdiv x y = .ok z
  eq_zero : FloatOps.eq (0 : α) 0 = true
  lt_eq : ∀ x : α, FloatOps.lt x 0 = true → FloatOps.eq x 0 = false
  sqrt_abs : ∀ q z : α, FloatOps.sqrt (FloatOps.abs q) = .ok z →
    (nan z ∧ nan (-z)) ∨ (FloatOps.eq z 0 = true ∧ FloatOps.eq (-z) 0 = true) ∨ FloatOps.lt (-z) 0 = true

namespace F64

instance : Carry F64 where
  uniq x y h h' := by change x = .nan at h; change y = .nan at h'; rw [h, h']
  div_ok _ _ _ _ := ⟨_, rfl⟩
  eq_zero := rfl
  lt_eq x h := by
    rcases x with _ | s | ⟨s, a, hr⟩
    · rfl
    · cases s <;> rfl
    · rw [lt_zero_fin] at h
      change decide (sgn s a = 0) = false
      have := of_decide_eq_true h
      exact decide_eq_false (by omega)
  sqrt_abs q z e := by
    cases e
    rcases q with _ | s | ⟨s, a, hr⟩
    · exact Or.inl ⟨rfl, rfl⟩
    · exact Or.inr (Or.inr rfl)
    · change _ ∨ _ ∨ FloatOps.lt (-(sqrt (.fin false a hr))) 0 = true
      change (sqrt (.fin false a hr) = .nan ∧ -(sqrt (.fin false a hr)) = .nan) ∨ (FloatOps.eq (sqrt (.fin false a hr)) 0 = true ∧ FloatOps.eq (-(sqrt (.fin false a hr))) 0 = true) ∨ FloatOps.lt (-(sqrt (.fin false a hr))) 0 = true
      rw [sqrt_eq]
      split
      · next h0 =>
        subst h0
        exact Or.inr (Or.inl ⟨rfl, rfl⟩)
      · next h0 =>
        rw [if_neg (by simp)]
        refine Or.inr (Or.inr ?_)
        unfold mk
        split
        · change decide (sgn (!false) (rnd _ 2) < 0) = true
          have h1 := (abs_le.mp (sqrt_err (big_N h0)).1).1
          have h2 : (0 : ℝ) < Real.sqrt ((a * 2 ^ 1074 : Nat) : ℝ) := Real.sqrt_pos.2 (by exact_mod_cast Nat.mul_pos (by omega) (Nat.two_pow_pos _))
          have h3 : (0 : ℝ) < (rnd (rootArg (a * 2 ^ 1074)) 2 : ℝ) := by
            generalize Real.sqrt _ = x at h1 h2
            linarith
          have h4 : 0 < rnd (rootArg (a * 2 ^ 1074)) 2 := by exact_mod_cast h3
          rw [decide_eq_true_iff]
          simp only [sgn]
          generalize rnd _ 2 = r at h4 ⊢
          simp
          omega
        · rfl

end F64

/-- Exact reals: there is no NaN. -/
noncomputable instance : NaNs ℝ where
  nan _ := False
  add_l _ _ h := h
  add_r _ _ h := h
  sub_l _ _ h := h
  sub_r _ _ h := h
  mul_l _ _ h := h
  mul_r _ _ h := h
  neg _ h := h
  abs _ h := h
  div_l _ _ _ h := h.elim
  div_r _ _ _ h := h.elim
  sqrt _ _ h := h.elim
  max _ _ h _ := h
  lt_l _ _ h := h.elim
  lt_r _ _ h := h.elim
  le_l _ _ h := h.elim
  le_r _ _ h := h.elim
  eq_l _ _ h := h.elim
  eq_r _ _ h := h.elim

instance : Signs ℝ where
  zero := by simp [FloatOps.lt]
  sqrt x z h := by
    simp only [FloatOps.sqrt] at h
    split at h
    · cases h
    · cases h; simp [FloatOps.lt, Real.sqrt_nonneg]
  neg x h := by simpa [FloatOps.lt] using h
  add_abs s x h := by
    simp only [FloatOps.lt, FloatOps.abs, decide_eq_false_iff_not, not_lt] at h ⊢
    positivity
  add_abs_eq s x h h' := by
    simp only [FloatOps.lt, FloatOps.eq, FloatOps.abs, decide_eq_false_iff_not, not_lt, decide_eq_true_eq] at h h' ⊢
    have := abs_nonneg x
    exact ⟨by linarith, abs_eq_zero.1 (by linarith)⟩

noncomputable instance : Carry ℝ where
  uniq _ _ h := h.elim
  div_ok _ _ _ h := h.elim
  eq_zero := by simp [FloatOps.eq]
  lt_eq x h := by
    simp only [FloatOps.lt, FloatOps.eq, decide_eq_true_eq, decide_eq_false_iff_not] at h ⊢
    exact h.ne
  sqrt_abs q z h := by
    simp only [FloatOps.sqrt, FloatOps.abs] at h
    rw [if_neg (not_lt.2 (abs_nonneg q))] at h
    cases h
    rcases eq_or_ne q 0 with h0 | h0
    · subst h0
      exact Or.inr (Or.inl (by simp [FloatOps.eq]))
    · refine Or.inr (Or.inr ?_)
      simp only [FloatOps.lt, decide_eq_true_eq]
      have := Real.sqrt_pos.2 (abs_pos.2 h0)
      linarith

variable {α : Type} [Zero α] [One α] [Add α] [Sub α] [Neg α] [Mul α] [FloatOps α]

namespace Eigen
open NaNs Carry

section nan
variable [Carry α]

theorem rdiv_nan_r {x q : α} (h : nan q) : RDiv.rdiv x q = .ok q := by
  obtain ⟨z, hz⟩ := div_ok q x q h
  rw [hz, uniq z q (div_r _ _ _ h hz) h]

theorem rdiv_nan_l {x q : α} (h : nan x) : RDiv.rdiv x q = .ok x := by
  obtain ⟨z, hz⟩ := div_ok x x q h
  rw [hz, uniq z x (div_l _ _ _ h hz) h]

theorem cdiv_nan_den {a b y v : α} (h : nan y) : cdiv a b y v = .ok (y, y) := by
  unfold cdiv
  rw [lt_r _ _ (NaNs.abs _ h)]
  simp only [Bool.false_eq_true, if_false]
  rw [rdiv_nan_l h, ok_bind]
  have hd : nan (v + y * y) := add_r _ _ (mul_l _ _ h)
  simp only [rdiv_nan_r hd, ok_bind]
  rw [uniq _ _ hd h]
  rfl

theorem cdiv_nan_num {a y v : α} (h : nan a) : cdiv a a y v = .ok (a, a) := by
  unfold cdiv
  split
  · obtain ⟨r, hr⟩ := div_ok a v y h
    rw [hr, ok_bind]
    have h1 : nan (a + r * a) := add_l _ _ h
    have h2 : nan (a - r * a) := sub_l _ _ h
    dsimp only
    rw [rdiv_nan_l h1, ok_bind, rdiv_nan_l h2, ok_bind, uniq _ _ h1 h, uniq _ _ h2 h]
    rfl
  · obtain ⟨r, hr⟩ := div_ok a y v h
    rw [hr, ok_bind]
    have h1 : nan (r * a + a) := add_r _ _ h
    have h2 : nan (r * a - a) := sub_r _ _ h
    dsimp only
    rw [rdiv_nan_l h1, ok_bind, rdiv_nan_l h2, ok_bind, uniq _ _ h1 h, uniq _ _ h2 h]
    rfl

theorem realComp_nan {nn n i : Nat} {norm p w r ei z s z' s' : α} {d h : Buf α} (hn : nan ei) :
    realComp nn n i norm p w r ei z s d h = realComp nn n i norm p w r ei z' s' d h := by
  unfold realComp
  rw [eq_l _ _ hn]
  simp only [Bool.false_eq_true, if_false]
  refine (Sim.same fun x _ => Sim.same fun y _ => Sim.same fun di _ => ?_ : Sim Eq _ _).eq
  have hq : nan ((di - p) * (di - p) + ei * ei) := add_r _ _ (mul_l _ _ hn)
  rw [rdiv_nan_r hq, rdiv_nan_r hq, ok_bind, ok_bind]
  refine Sim.same fun h' _ => ?_
  have h1 : ∀ a b : α, nan (a - b * ((di - p) * (di - p) + ei * ei)) := fun a b => sub_r _ _ (mul_r _ _ hq)
  have e : ∀ z s : α, (if FloatOps.lt (FloatOps.abs z) (FloatOps.abs x) = true then do
        let t ← RDiv.rdiv (-r - w * ((di - p) * (di - p) + ei * ei)) x
        wr h' ((i + 1) * nn + n) t
      else do
        let t ← RDiv.rdiv (-s - y * ((di - p) * (di - p) + ei * ei)) z
        wr h' ((i + 1) * nn + n) t) = wr h' ((i + 1) * nn + n) ((di - p) * (di - p) + ei * ei) := by
    intro z s
    split
    · rw [rdiv_nan_l (h1 _ _), ok_bind, uniq _ _ (h1 _ _) hq]
    · rw [rdiv_nan_l (h1 _ _), ok_bind, uniq _ _ (h1 _ _) hq]
  rw [e, e]
  exact Sim.rfl fun _ => rfl

theorem complexComp_nan {nn n i : Nat} {norm p q w ra sa ei z r s z' r' s' : α} {d h : Buf α} (hn : nan ei) :
    complexComp nn n i norm p q w ra sa ei z r s d h = complexComp nn n i norm p q w ra sa ei z' r' s' d h := by
  unfold complexComp
  rw [eq_l _ _ hn]
  simp only [Bool.false_eq_true, if_false]
  refine (Sim.same fun x _ => Sim.same fun y _ => Sim.same fun di _ => ?_ : Sim Eq _ _).eq
  have hq : nan ((di - p) * (di - p) + ei * ei - q * q) := sub_l _ _ (add_r _ _ (mul_l _ _ hn))
  simp only [eq_l _ _ hq, Bool.false_and, Bool.false_eq_true, if_false]
  rw [cdiv_nan_den hq, cdiv_nan_den hq, ok_bind, ok_bind]
  generalize (di - p) * (di - p) + ei * ei - q * q = v at hq
  refine Sim.same fun h1 e1 => Sim.same fun h2 e2 => ?_
  have r2 : rd h2 (i * nn + n) = .ok v := by rw [wr_rd e2, if_pos rfl]
  have r1 : rd h2 (i * nn + (n - 1)) = .ok v := by
    rw [wr_rd e2]
    split
    · rfl
    · rw [wr_rd e1, if_pos rfl]
  have u1 : -ra - w * v + q * v = v := uniq _ _ (add_l _ _ (sub_r _ _ (mul_r _ _ hq))) hq
  have u2 : ∀ a : α, a - w * v - q * v = v := fun a => uniq _ _ (sub_l _ _ (sub_r _ _ (mul_r _ _ hq))) hq
  have u3 : ∀ a : α, a - y * v = v := fun a => uniq _ _ (sub_r _ _ (mul_r _ _ hq)) hq
  have e : ∀ z r s : α, (if FloatOps.lt (FloatOps.abs z + FloatOps.abs q) (FloatOps.abs x) = true then do
        let h ← wr h2 ((i + 1) * nn + (n - 1)) (← RDiv.rdiv
          (-ra - w * (← rd h2 (i * nn + (n - 1))) + q * (← rd h2 (i * nn + n))) x)
        wr h ((i + 1) * nn + n) (← RDiv.rdiv
          (-sa - w * (← rd h (i * nn + n)) - q * (← rd h (i * nn + (n - 1)))) x)
      else do
        let (cr, ci) ← cdiv (-r - y * (← rd h2 (i * nn + (n - 1)))) (-s - y * (← rd h2 (i * nn + n))) z q
        let h ← wr h2 ((i + 1) * nn + (n - 1)) cr
        wr h ((i + 1) * nn + n) ci) = (do
        let h ← wr h2 ((i + 1) * nn + (n - 1)) v
        wr h ((i + 1) * nn + n) v) := by
    intro z r s
    split
    · rw [r1, ok_bind, r2, ok_bind, u1, rdiv_nan_l hq, ok_bind]
      refine (Sim.same fun h3 e3 => ?_ : Sim Eq _ _).eq
      have r3 : rd h3 (i * nn + n) = .ok v := by
        rw [wr_rd e3]; split
        · rfl
        · exact r2
      have r4 : rd h3 (i * nn + (n - 1)) = .ok v := by
        rw [wr_rd e3]; split
        · rfl
        · exact r1
      rw [r3, ok_bind, r4, ok_bind, u2, rdiv_nan_l hq, ok_bind]
      exact Sim.rfl fun _ => rfl
    · rw [r1, ok_bind, r2, ok_bind, u3, u3, cdiv_nan_num hq, ok_bind]
  rw [e, e]
  exact Sim.rfl fun _ => rfl

/-! ## The signs of the imaginary parts -/

/-- The entries `c..nn` of `e` are: NaN, zero, or pairs of a nonnegative and a negative number. -/
def Prd (nn c : Nat) (e : Buf α) : Prop := ∀ i, c ≤ i → i < nn → ∀ a, rd e i = .ok a →
  (nan a ∨ FloatOps.eq a 0 = true ∨ FloatOps.lt a 0 = true ∨ (i + 1 < nn ∧ ∃ b, rd e (i + 1) = .ok b ∧ FloatOps.lt b 0 = true)) ∧
  (FloatOps.lt a 0 = true → c + 1 ≤ i ∧ ∃ b, rd e (i - 1) = .ok b ∧ FloatOps.lt b 0 = false)

variable [Signs α]

theorem Prd.one {nn n : Nat} {e e' : Buf α} (h : Prd nn (n + 1) e) (hw : wr e n 0 = .ok e') : Prd nn n e' := by
  intro i hi hin a ha
  rw [wr_rd hw] at ha
  by_cases hc : i = n
  · rw [if_pos hc] at ha
    cases ha
    exact ⟨Or.inr (Or.inl eq_zero), fun hl => by rw [Signs.zero] at hl; cases hl⟩
  · rw [if_neg hc] at ha
    obtain ⟨h1, h2⟩ := h i (by omega) hin a ha
    refine ⟨?_, fun hl => ?_⟩
    · rw [wr_rd hw, if_neg (by omega)]; exact h1
    · obtain ⟨h3, h4⟩ := h2 hl
      rw [wr_rd hw, if_neg (by omega)]
      exact ⟨by omega, h4⟩

theorem Prd.two {nn n : Nat} {e e1 e2 : Buf α} {z q : α} (h : Prd nn (n + 2) e) (hn : n + 1 < nn) (hz : FloatOps.sqrt (FloatOps.abs q) = .ok z)
    (hw : wr e n z = .ok e1) (hw' : wr e1 (n + 1) (-z) = .ok e2) : Prd nn n e2 := by
  have hs : FloatOps.lt z 0 = false := Signs.sqrt _ _ hz
  have hr : ∀ j, rd e2 j = if j = n + 1 then .ok (-z) else if j = n then .ok z else rd e j := by
    intro j; rw [wr_rd hw', wr_rd hw]
  intro i hi hin a ha
  rw [hr] at ha
  by_cases hc : i = n
  · rw [if_neg (by omega), if_pos hc] at ha
    cases ha
    refine ⟨?_, fun hl => by rw [hs] at hl; cases hl⟩
    rw [hr, if_pos (by omega)]
    rcases sqrt_abs q _ hz with h | h | h
    · exact Or.inl h.1
    · exact Or.inr (Or.inl h.1)
    · exact Or.inr (Or.inr (Or.inr ⟨by omega, _, rfl, h⟩))
  · by_cases hc' : i = n + 1
    · rw [if_pos hc'] at ha
      cases ha
      refine ⟨?_, fun hl => ⟨by omega, z, ?_, hs⟩⟩
      · rcases sqrt_abs q _ hz with h | h | h
        · exact Or.inl h.2
        · exact Or.inr (Or.inl h.2)
        · exact Or.inr (Or.inr (Or.inl h))
      · rw [hr, if_neg (by omega), if_pos (by omega)]
    · rw [if_neg hc', if_neg hc] at ha
      obtain ⟨h1, h2⟩ := h i (by omega) hin a ha
      refine ⟨?_, fun hl => ?_⟩
      · rw [hr, if_neg (by omega), if_neg (by omega)]; exact h1
      · obtain ⟨h3, h4⟩ := h2 hl
        rw [hr, if_neg (by omega), if_neg (by omega)]
        exact ⟨by omega, h4⟩

theorem Runs.wr' {d : Buf α} {i : Nat} {x : α} {P : Buf α → Prop} (h : ∀ d', wr d i x = .ok d' → P d') : Runs Any (wr d i x) P := by
  cases e : wr d i x with
  | ok d' => exact h d' e
  | error _ => trivial

theorem oneRoot_prd {nn n : Nat} {st : Hqr α} (h : Prd nn (n + 1) st.e) : Runs Any (oneRoot nn n st) fun st => Prd nn n st.e := by
  unfold oneRoot
  refine Runs.bindT Runs.any fun _ => Runs.bindT Runs.any fun _ => Runs.bindT Runs.any fun _ => Runs.bindT Runs.any fun _ => ?_
  exact (Runs.wr' (P := fun e => Prd nn n e) fun e he => h.one he).bind fun e he => Runs.ok he

theorem twoRoots_prd {nn n : Nat} {st : Hqr α} (hn : n + 1 < nn) (h : Prd nn (n + 2) st.e) :
    Runs Any (twoRoots nn (n + 1) st) fun st => Prd nn n st.e := by
  unfold twoRoots
  refine Runs.bindT Runs.any fun _ => Runs.bindT Runs.any fun _ => Runs.bindT Runs.any fun _ => Runs.bindT Runs.any fun _ => Runs.bindT Runs.any fun p => ?_
  generalize hq : p * p + _ = q
  refine Runs.bind (P := fun z : α => FloatOps.sqrt (FloatOps.abs q) = .ok z) ?_ fun z hz => ?_
  · cases hq : (FloatOps.sqrt (FloatOps.abs q) : R α) with
    | ok z => exact rfl
    | error e => trivial
  refine Runs.bindT Runs.any fun _ => Runs.bindT Runs.any fun _ => Runs.bindT Runs.any fun _ => Runs.bindT Runs.any fun _ => Runs.bindT Runs.any fun _ => ?_
  refine Runs.bind (P := fun st : Hqr α => Prd nn n st.e) ?_ fun st h => Runs.ok h
  split
  · unfold realPair
    refine Runs.bindT Runs.any fun _ => Runs.bindT Runs.any fun _ => Runs.bindT Runs.any fun _ => Runs.bindT Runs.any fun _ => ?_
    refine Runs.bind (P := fun e => wr st.e n (0 : α) = .ok e) (Runs.wr' fun e he => he) fun e he => Runs.bind (P := fun e' => Prd nn n e') (Runs.wr' fun e' he' => ?_) fun e he => ?_
    · intro i hi hin a ha
      have hr : ∀ j, rd e' j = if j = n + 1 then .ok 0 else if j = n then .ok 0 else rd st.e j := by
        intro j; rw [wr_rd he', wr_rd he]
      rw [hr] at ha
      by_cases hc : i = n + 1 ∨ i = n
      · have : a = 0 := by
          rcases hc with hc | hc
          · rw [if_pos hc] at ha; cases ha; rfl
          · rw [if_neg (by omega), if_pos hc] at ha; cases ha; rfl
        subst this
        exact ⟨Or.inr (Or.inl eq_zero), fun hl => by rw [Signs.zero] at hl; cases hl⟩
      · rw [if_neg (by omega), if_neg (by omega)] at ha
        obtain ⟨h1, h2⟩ := h i (by omega) hin a ha
        refine ⟨?_, fun hl => ?_⟩
        · rw [hr, if_neg (by omega), if_neg (by omega)]; exact h1
        · obtain ⟨h3, h4⟩ := h2 hl
          rw [hr, if_neg (by omega), if_neg (by omega)]
          exact ⟨by omega, h4⟩
    refine Runs.bindT Runs.any fun _ => Runs.bindT Runs.any fun _ => Runs.bindT Runs.any fun _ => Runs.bindT Runs.any fun _ => Runs.bindT Runs.any fun _ => ?_
    exact Runs.bindT Runs.any fun _ => Runs.bindT Runs.any fun _ => Runs.bindT Runs.any fun _ => Runs.bindT Runs.any fun _ => Runs.ok he
  · refine Runs.bindT Runs.any fun _ => Runs.bindT Runs.any fun _ => ?_
    refine Runs.bind (P := fun e => wr st.e n z = .ok e) (Runs.wr' fun e he => he) fun e he => Runs.bind (P := fun e' => Prd nn n e') (Runs.wr' fun e' he' => ?_) fun e he => Runs.ok he
    exact h.two hn hz he he'

theorem hqrLoop_prd {nn : Nat} {norm : α} : ∀ (fuel c : Nat) (st : Hqr α), c ≤ nn → Prd nn c st.e →
    Runs Any (hqrLoop nn norm fuel c st) fun st => Prd nn 0 st.e
  | fuel, 0, st, _, h => by rw [hqrLoop]; exact Runs.ok h
  | 0, n + 1, st, _, _ => by rw [hqrLoop]; trivial
  | fuel + 1, n + 1, st, hc, h => by
    rw [hqrLoop]
    refine Runs.bindT Runs.any fun l => ?_
    split
    · exact (oneRoot_prd h).bind fun st h => hqrLoop_prd fuel n st (by omega) h
    · split
      · next hl =>
        subst hl
        exact (twoRoots_prd (by omega) h).bind fun st h => hqrLoop_prd fuel l st (by omega) h
      · refine Runs.bind (P := fun s : Hqr α => s.e = st.e) ?_ fun st' h' => hqrLoop_prd fuel (n + 1) st' hc (h' ▸ h)
        unfold qrIter
        exact Runs.bindT Runs.any fun _ => Runs.bindT Runs.any fun _ => Runs.bindT Runs.any fun _ => Runs.bindT Runs.any fun _ => Runs.ok rfl

/-! ## Back-substitution -/

theorem realVec_left {nn n : Nat} {norm p q : α} {d e h : Buf α} (j k : Left α) (he : Prd nn 0 e) (hn : n < nn) (hq : rd e n = .ok q) (h0 : FloatOps.eq q 0 = true) :
    realVec j nn n norm p d e h = realVec k nn n norm p d e h := by
  unfold realVec
  refine (Sim.same fun h _ => Sim.bind (Sim.loopRev (Q := fun i x y => x.1 = y.1 ∧ x.2.1 = y.2.1 ∧
    (i < n → ∀ a, rd e i = .ok a → FloatOps.lt a 0 = true → x.2.2 = y.2.2)) ⟨rfl, rfl, fun h => absurd h (lt_irrefl _)⟩ ?_) ?_ : Sim Eq _ _).eq
  · rintro i ⟨h, l, z, s⟩ ⟨h', l', z', s'⟩ hi ⟨e1, e2, e3⟩
    cases e1; cases e2
    unfold realStep
    dsimp only
    refine Sim.same fun w _ => Sim.same fun r _ => Sim.same fun ei hei => ?_
    by_cases hl : FloatOps.lt ei 0 = true
    · rw [if_pos hl, if_pos hl]
      exact ⟨rfl, rfl, fun _ _ _ _ => rfl⟩
    · rw [if_neg hl, if_neg hl]
      have key : realComp nn n i norm p (w - p) r ei z s d h = realComp nn n i norm p (w - p) r ei z' s' d h := by
        rcases (he i (by omega) (by omega) ei hei).1 with hx | hx | hx | ⟨h1, b, hb, hb0⟩
        · exact realComp_nan hx
        · unfold realComp; rw [if_pos hx, if_pos hx]
        · exact absurd hx hl
        · by_cases h2 : i + 1 < n
          · have := e3 h2 b hb hb0
            cases this; rfl
          · have : i + 1 = n := by omega
            rw [this, hq] at hb
            cases hb
            rw [lt_eq _ hb0] at h0
            cases h0
      rw [key]
      refine Sim.same fun h1 _ => Sim.same fun t _ => Sim.same fun h2 _ => ⟨rfl, rfl, fun _ a ha hl' => ?_⟩
      rw [hei] at ha; cases ha
      exact absurd hl' hl
  · rintro ⟨h, l, z, s⟩ ⟨h', l', z', s'⟩ ⟨e1, e2, e3⟩
    exact e1

theorem complexVec_left {nn n : Nat} {norm p q : α} {d e h : Buf α} (j k : Left α) (he : Prd nn 0 e) (hn : n < nn) (hq : rd e n = .ok q) (h0 : FloatOps.lt q 0 = true) :
    complexVec j nn n norm p q d e h = complexVec k nn n norm p q d e h := by
  obtain ⟨b0, hb0, hbl⟩ := ((he n (by omega) hn q hq).2 h0).2
  unfold complexVec
  refine (Sim.same fun n1 hn1 => Sim.same fun h _ => Sim.bind (Sim.loopRev (Q := fun i x y => x.1 = y.1 ∧ x.2.1 = y.2.1 ∧
    (i < n1 → ∀ a, rd e i = .ok a → FloatOps.lt a 0 = true → x.2.2 = y.2.2)) ⟨rfl, rfl, fun h => absurd h (lt_irrefl _)⟩ ?_) ?_ : Sim Eq _ _).eq
  · have hn1 : n1 = n - 1 := by
      unfold usub at hn1
      split at hn1
      · cases hn1; rfl
      · cases hn1
    rintro i ⟨h, l, z, r, s⟩ ⟨h', l', z', r', s'⟩ hi ⟨e1, e2, e3⟩
    cases e1; cases e2
    unfold complexStep
    dsimp only
    refine Sim.same fun rs _ => Sim.same fun w _ => Sim.same fun ei hei => ?_
    by_cases hl : FloatOps.lt ei 0 = true
    · rw [if_pos hl, if_pos hl]
      exact ⟨rfl, rfl, fun _ _ _ _ => rfl⟩
    · rw [if_neg hl, if_neg hl]
      have key : complexComp nn n i norm p q (w - p) rs.1 rs.2 ei z r s d h = complexComp nn n i norm p q (w - p) rs.1 rs.2 ei z' r' s' d h := by
        rcases (he i (by omega) (by omega) ei hei).1 with hx | hx | hx | ⟨h1, b, hb, hb0'⟩
        · exact complexComp_nan hx
        · unfold complexComp; rw [if_pos hx, if_pos hx]
        · exact absurd hx hl
        · by_cases h2 : i + 1 < n1
          · have := e3 h2 b hb hb0'
            cases this; rfl
          · have : i + 1 = n - 1 := by omega
            rw [this, hb0] at hb
            cases hb
            rw [hbl] at hb0'
            cases hb0'
      rw [key]
      refine Sim.same fun h1 _ => Sim.same fun t _ => Sim.same fun t' _ => Sim.same fun h2 _ => ⟨rfl, rfl, fun _ a ha hl' => ?_⟩
      rw [hei] at ha; cases ha
      exact absurd hl' hl
  · rintro ⟨h, l, z, r, s⟩ ⟨h', l', z', r', s'⟩ ⟨e1, e2, e3⟩
    exact e1

theorem hqr2_left (j k : Nat → Left α) (fuel nn : Nat) (st : Dev α) (h : Buf α) (he : st.e = alloc α nn) : hqr2 j fuel nn st h = hqr2 k fuel nn st h := by
  unfold hqr2
  refine (Sim.same fun norm _ => Sim.same fun x hx => ?_ : Sim Eq _ _).eq
  have h0 : Prd nn nn (⟨st.d, st.e, h, st.v, 0, 0⟩ : Hqr α).e := fun i h1 h2 => by omega
  have hp : Prd nn 0 x.e := by
    have := hqrLoop_prd (norm := norm) fuel nn _ le_rfl h0
    rw [hx] at this
    exact this
  split
  · exact Sim.rfl fun _ => rfl
  · refine Sim.bind (Q := Eq) (Sim.loopRev (Q := fun _ => Eq) rfl ?_) fun a b e => e ▸ Sim.rfl fun _ => rfl
    rintro n h _ hn rfl
    unfold vecStep
    refine Sim.same fun p _ => Sim.same fun q hq => ?_
    by_cases h1 : FloatOps.eq q 0 = true
    · rw [if_pos h1, if_pos h1, realVec_left (j n) (k n) hp hn hq h1]
      exact Sim.rfl fun _ => rfl
    · rw [if_neg h1, if_neg h1]
      by_cases h2 : FloatOps.lt q 0 = true
      · rw [if_pos h2, if_pos h2, complexVec_left (j n) (k n) hp hn hq h2]
        exact Sim.rfl fun _ => rfl
      · rw [if_neg h2, if_neg h2]
        exact Sim.rfl fun _ => rfl

theorem newWith_left (j k : Nat → Left α) (fuel : Nat) (a : Mat α) : newWith j fuel a = newWith k fuel a := by
  unfold newWith
  refine (Sim.same fun n _ => ?_ : Sim Eq _ _).eq
  dsimp only
  refine Sim.same fun b _ => ?_
  split
  · exact Sim.rfl fun _ => rfl
  · refine Sim.same fun h _ => Sim.same fun hv _ => ?_
    rw [hqr2_left j k fuel n _ _ rfl]
    exact Sim.rfl fun _ => rfl

end nan
end Eigen
end LA
