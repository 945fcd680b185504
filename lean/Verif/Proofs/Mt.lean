import Verif.Proofs.Blocks
import Mathlib.GroupTheory.Perm.Cycle.Basic
import Mathlib.Dynamics.PeriodicPts.Lemmas

/-! # In-place transposition: following the cycles of `i ↦ rows * i mod (rows * cols - 1)` -/

namespace LA
variable {α : Type}

theorem mul_mod_inv {a b last i : Nat} (h : a * b = last + 1) (hi : i < last) : a * (b * i % last) % last = i := by
  rw [Nat.mul_mod_mod, ← Nat.mul_assoc, h, Nat.add_mul, Nat.one_mul, Nat.add_comm, Nat.add_mul_mod_self_left,
    Nat.mod_eq_of_lt hi]

/-- The permutation of storage positions performed by transposing an `m × n` matrix in place (last position excluded). -/
def mtPerm (m n last : Nat) (h : m * n = last + 1) : Equiv.Perm (Fin last) where
  toFun i := ⟨m * i.1 % last, Nat.mod_lt _ (by have := i.2; omega)⟩
  invFun i := ⟨n * i.1 % last, Nat.mod_lt _ (by have := i.2; omega)⟩
  left_inv i := Fin.ext (mul_mod_inv (a := n) (b := m) (by rwa [Nat.mul_comm]) i.2)
  right_inv i := Fin.ext (mul_mod_inv h i.2)

theorem mtPerm_val {m n last : Nat} (h : m * n = last + 1) (i : Fin last) :
    (mtPerm m n last h i).1 = m * i.1 % last := rfl

theorem mtPerm_symm_val {m n last : Nat} (h : m * n = last + 1) (i : Fin last) :
    ((mtPerm m n last h)⁻¹ i).1 = n * i.1 % last := rfl

section Cycle
variable {last : Nat} (σ : Equiv.Perm (Fin last)) (c : Fin last)

/-- Length of the cycle through `c`. -/
noncomputable def period : Nat := Function.minimalPeriod σ c

theorem pow_apply_iter (t : Nat) : (σ ^ t) c = σ^[t] c := by
  rw [Equiv.Perm.iterate_eq_pow]

theorem period_pos : 0 < period σ c := by
  refine Function.minimalPeriod_pos_of_mem_periodicPts ?_
  refine ⟨orderOf σ, orderOf_pos σ, ?_⟩
  change σ^[orderOf σ] c = c
  rw [← pow_apply_iter, pow_orderOf_eq_one]; rfl

theorem pow_period : (σ ^ period σ c) c = c := by
  rw [pow_apply_iter]; exact Function.iterate_minimalPeriod

theorem pow_ne_of_lt {s : Nat} (h0 : 0 < s) (h : s < period σ c) : (σ ^ s) c ≠ c := by
  intro e
  rw [pow_apply_iter] at e
  exact absurd (Function.IsPeriodicPt.minimalPeriod_le h0 e) (by unfold period at h; omega)

theorem pow_inj {s t : Nat} (hs : s < t) (h1 : t - s < period σ c) : (σ ^ s) c ≠ (σ ^ t) c := by
  intro e
  refine pow_ne_of_lt σ c (s := t - s) (by omega) h1 ?_
  have : (σ ^ s) ((σ ^ (t - s)) c) = (σ ^ s) c := by
    rw [← Equiv.Perm.mul_apply, ← pow_add, show s + (t - s) = t by omega, e]
  exact (σ ^ s).injective this

theorem period_le : period σ c ≤ last := by
  have hinj : Function.Injective (fun t : Fin (period σ c) => (σ ^ t.1) c) := by
    intro a b hab
    rcases lt_trichotomy a.1 b.1 with h | h | h
    · exact absurd hab (pow_inj σ c h (by have := b.2; omega))
    · exact Fin.ext h
    · exact absurd hab.symm (pow_inj σ c h (by have := a.2; omega))
  simpa using Fintype.card_le_of_injective _ hinj

theorem pow_mod_period (t : Nat) : (σ ^ t) c = (σ ^ (t % period σ c)) c := by
  rw [pow_apply_iter, pow_apply_iter]
  exact Function.iterate_mod_minimalPeriod_eq.symm

/-- Invariant of the inner loop after `s` steps along the cycle of `c`: `l` original data, `D0`, `V0` data and marks at
the start of the cycle. -/
structure CycInv (l D0 : List α) (V0 : List Bool) (s : Nat) (data : List α) (vis : List Bool) : Prop where
  len : data.length = last + 1
  vlen : vis.length = last + 1
  moved : ∀ t, 1 ≤ t → t ≤ s → data[((σ ^ t) c).1]? = l[((σ ^ (t - 1)) c).1]?
  rest : ∀ p, (∀ t, 1 ≤ t → t ≤ s → p ≠ ((σ ^ t) c).1) → data[p]? = D0[p]?
  mark : ∀ t, 1 ≤ t → t ≤ s → t < period σ c → vis[((σ ^ t) c).1]? = some true
  vrest : ∀ p, (∀ t, 1 ≤ t → t ≤ s → t < period σ c → p ≠ ((σ ^ t) c).1) → vis[p]? = V0[p]?

theorem mtCycle_post (rows : Nat) (hσ : ∀ i : Fin last, (σ i).1 = rows * i.1 % last) (l D0 : List α) (V0 : List Bool)
    (hl : l.length = last + 1) (hD0 : ∀ t, D0[((σ ^ t) c).1]? = l[((σ ^ t) c).1]?) :
    ∀ (r s fuel : Nat) (prev : α) (data : List α) (vis : List Bool), s + r = period σ c → 0 < r → r ≤ fuel →
      l[((σ ^ s) c).1]? = some prev → CycInv σ c l D0 V0 s data vis →
      Post (Mat.mtCycle rows last c.1 fuel ((σ ^ s) c).1 prev data vis)
        (fun o => CycInv σ c l D0 V0 (period σ c) o.1 o.2) := by
  intro r
  induction r with
  | zero => intro s fuel prev data vis _ h; omega
  | succ r ih =>
    intro s fuel prev data vis hsr _ hfuel hprev inv
    obtain ⟨fuel, rfl⟩ : ∃ f, fuel = f + 1 := ⟨fuel - 1, by omega⟩
    have hlast : last ≠ 0 := by have := c.2; omega
    have hstep : rows * ((σ ^ s) c).1 % last = ((σ ^ (s + 1)) c).1 := by
      rw [← hσ, pow_succ', Equiv.Perm.mul_apply]
    have hlt : ((σ ^ (s + 1)) c).1 < last := ((σ ^ (s + 1)) c).2
    have hfresh : ∀ t, 1 ≤ t → t ≤ s → ((σ ^ (s + 1)) c).1 ≠ ((σ ^ t) c).1 := by
      intro t h1 h2 e
      exact pow_inj σ c (s := t) (t := s + 1) (by omega) (by omega) (Fin.ext e.symm)
    have hcur : data[((σ ^ (s + 1)) c).1]? = l[((σ ^ (s + 1)) c).1]? := by
      rw [inv.rest _ hfresh, hD0]
    have hcur' : data[((σ ^ (s + 1)) c).1]? = some (data[((σ ^ (s + 1)) c).1]'(by rw [inv.len]; omega)) :=
      List.getElem?_eq_getElem _
    simp only [Mat.mtCycle, umod_ok hlast, ok_bind, hstep, idx_eq hcur']
    rw [setIdx_lt (by rw [inv.len]; omega), ok_bind]
    have hlen' : (data.set ((σ ^ (s + 1)) c).1 prev).length = last + 1 := by simpa using inv.len
    have hmoved : ∀ t, 1 ≤ t → t ≤ s + 1 →
        (data.set ((σ ^ (s + 1)) c).1 prev)[((σ ^ t) c).1]? = l[((σ ^ (t - 1)) c).1]? := by
      intro t h1 h2
      by_cases e : t = s + 1
      · subst e
        rw [List.getElem?_set_self (by rw [inv.len]; omega), Nat.add_sub_cancel, hprev]
      · rw [List.getElem?_set_ne (hfresh t h1 (by omega))]
        exact inv.moved t h1 (by omega)
    have hrest : ∀ p, (∀ t, 1 ≤ t → t ≤ s + 1 → p ≠ ((σ ^ t) c).1) →
        (data.set ((σ ^ (s + 1)) c).1 prev)[p]? = D0[p]? := by
      intro p hp
      rw [List.getElem?_set_ne (hp (s + 1) (by omega) le_rfl).symm]
      exact inv.rest p fun t h1 h2 => hp t h1 (by omega)
    by_cases hr : r = 0
    · have hs : s + 1 = period σ c := by omega
      rw [if_pos (by rw [hs, pow_period])]
      refine Post.ok ?_
      rw [← hs]
      refine ⟨hlen', inv.vlen, hmoved, hrest, ?_, ?_⟩
      · intro t h1 h2 h3; exact inv.mark t h1 (by omega) h3
      · intro p hp; exact inv.vrest p fun t h1 h2 h3 => hp t h1 (by omega) h3
    · rw [if_neg (fun e => pow_ne_of_lt σ c (s := s + 1) (by omega) (by omega) (Fin.ext e))]
      rw [setIdx_lt (by rw [inv.vlen]; omega), ok_bind]
      refine ih (s + 1) fuel _ _ _ (by omega) (by omega) (by omega) (hcur.symm.trans hcur')
        ⟨hlen', by simpa using inv.vlen, hmoved, hrest, ?_, ?_⟩
      · intro t h1 h2 h3
        by_cases e : t = s + 1
        · subst e; rw [List.getElem?_set_self (by rw [inv.vlen]; omega)]
        · rw [List.getElem?_set_ne (hfresh t h1 (by omega))]
          exact inv.mark t h1 (by omega) h3
      · intro p hp
        rw [List.getElem?_set_ne (hp (s + 1) (by omega) le_rfl (by omega)).symm]
        exact inv.vrest p fun t h1 h2 h3 => hp t h1 (by omega) h3

end Cycle

section Outer
variable {last : Nat} (σ : Equiv.Perm (Fin last))

/-- Position `p` lies on a cycle through some start in `1..c`. -/
def Done (c : Nat) (p : Fin last) : Prop := ∃ q : Fin last, 1 ≤ q.1 ∧ q.1 < c ∧ σ.SameCycle q p

/-- Invariant of the outer loop. -/
structure MtInv (l : List α) (c : Nat) (data : List α) (vis : List Bool) : Prop where
  len : data.length = last + 1
  vlen : vis.length = last + 1
  done : ∀ p : Fin last, Done σ c p → data[p.1]? = l[(σ⁻¹ p).1]?
  todo : ∀ p : Fin last, ¬ Done σ c p → data[p.1]? = l[p.1]?
  final : data[last]? = l[last]?
  vtrue : ∀ p : Fin last, c ≤ p.1 → Done σ c p → vis[p.1]? = some true
  vfalse : ∀ p : Fin last, c ≤ p.1 → ¬ Done σ c p → vis[p.1]? = some false

theorem done_succ {c : Fin last} (hc1 : 1 ≤ c.1) {p : Fin last} :
    Done σ (c.1 + 1) p ↔ Done σ c.1 p ∨ σ.SameCycle c p := by
  constructor
  · rintro ⟨q, h1, h2, h3⟩
    by_cases e : q = c
    · subst e; exact Or.inr h3
    · exact Or.inl ⟨q, h1, by have := Fin.val_ne_of_ne e; omega, h3⟩
  · rintro (⟨q, h1, h2, h3⟩ | h)
    · exact ⟨q, h1, by omega, h3⟩
    · exact ⟨c, hc1, by omega, h⟩

theorem mtLoop_post (rows : Nat) (hσ : ∀ i : Fin last, (σ i).1 = rows * i.1 % last) (l : List α)
    (hl : l.length = last + 1) (fuel : Nat) (hf : last ≤ fuel) :
    Post (loop 1 last (l, List.replicate (last + 1) false) fun cycleIdx (data, visited) => do
        if ← idx visited cycleIdx then
          return (data, visited)
        else
          let prev ← idx data cycleIdx
          Mat.mtCycle rows last cycleIdx fuel cycleIdx prev data visited)
      (fun s => s.1.length = last + 1 ∧ (∀ p : Fin last, 1 ≤ p.1 → s.1[p.1]? = l[(σ⁻¹ p).1]?) ∧
        (∀ p : Fin last, p.1 = 0 → s.1[p.1]? = l[p.1]?) ∧ s.1[last]? = l[last]?) := by
  have hz : ∀ p q : Fin last, q.1 = 0 → σ.SameCycle p q → p = q := by
    intro p q hq ⟨i, hi⟩
    have hfix : σ q = q := Fin.ext (by rw [hσ, hq]; simp)
    have : (σ ^ (-i)) q = q := Equiv.Perm.zpow_apply_eq_self_of_apply_eq_self hfix _
    rw [← hi, ← Equiv.Perm.mul_apply, ← zpow_add, neg_add_cancel, zpow_zero, hi] at this
    exact this
  have hzero : ∀ (c : Nat) (p : Fin last), p.1 = 0 → ¬ Done σ c p := by
    rintro c p hp ⟨q, h1, h2, h3⟩
    have := hz q p hp h3
    rw [this] at h1; omega
  by_cases hle : 1 ≤ last
  swap
  · obtain rfl : last = 0 := by omega
    rw [loop_empty (by omega)]
    exact Post.ok ⟨hl, fun p => p.elim0, fun p => p.elim0, rfl⟩
  refine Post.mono (loop_post (fun c (s : List α × List Bool) => MtInv σ l c s.1 s.2) hle ?_ ?_) ?_
  · have hn : ∀ p : Fin last, ¬ Done σ 1 p := by rintro p ⟨q, h1, h2, -⟩; omega
    refine ⟨hl, by simp, fun p h => absurd h (hn p), fun _ _ => rfl, rfl, fun p _ h => absurd h (hn p), ?_⟩
    intro p _ _
    rw [List.getElem?_replicate_of_lt (by have := p.2; omega)]
  · rintro c ⟨data, vis⟩ h1 h2 inv
    dsimp only at inv ⊢
    let cf : Fin last := ⟨c, h2⟩
    by_cases hd : Done σ c cf
    · rw [idx_eq (inv.vtrue cf le_rfl hd), ok_bind, if_pos rfl]
      refine Post.ok ?_
      have heq : ∀ p, Done σ (c + 1) p ↔ Done σ c p := by
        intro p
        rw [done_succ σ (c := cf) h1]
        constructor
        · rintro (h | h)
          · exact h
          · obtain ⟨q, q1, q2, q3⟩ := hd
            exact ⟨q, q1, q2, q3.trans h⟩
        · exact Or.inl
      exact ⟨inv.len, inv.vlen, fun p h => inv.done p ((heq p).1 h), fun p h => inv.todo p (fun h' => h ((heq p).2 h')),
        inv.final, fun p hp h => inv.vtrue p (by omega) ((heq p).1 h),
        fun p hp h => inv.vfalse p (by omega) (fun h' => h ((heq p).2 h'))⟩
    · rw [idx_eq (inv.vfalse cf le_rfl hd), ok_bind, if_neg (by simp)]
      have hnd : ∀ p, σ.SameCycle cf p → ¬ Done σ c p := by
        rintro p hp ⟨q, q1, q2, q3⟩
        exact hd ⟨q, q1, q2, q3.trans hp.symm⟩
      have hlc : l[c]? = some (l[c]'(by omega)) := List.getElem?_eq_getElem _
      have hdc : data[c]? = some (l[c]'(by omega)) := (inv.todo cf hd).trans hlc
      rw [idx_eq hdc, ok_bind]
      have hpow : ∀ t, σ.SameCycle cf ((σ ^ t) cf) := fun t => ⟨t, by simp⟩
      have := mtCycle_post σ cf rows hσ l data vis hl (fun t => inv.todo _ (hnd _ (hpow t)))
        (period σ cf) 0 fuel (l[c]'(by omega)) data vis (by omega) (period_pos σ cf)
        (le_trans (period_le σ cf) hf) (by simpa [cf] using hlc)
        ⟨inv.len, inv.vlen, fun t _ _ => by omega, fun _ _ => rfl, fun t _ _ => by omega, fun _ _ => rfl⟩
      refine Post.mono this ?_
      rintro ⟨data', vis'⟩ cyc
      dsimp only at cyc ⊢
      -- every point of the cycle is `σ^t c` with `1 ≤ t ≤ period`
      have hrep : ∀ p, σ.SameCycle cf p → ∃ t, 1 ≤ t ∧ t ≤ period σ cf ∧ p = (σ ^ t) cf := by
        intro p hp
        obtain ⟨i, hi⟩ := hp.exists_nat_pow_eq
        by_cases hm : i % period σ cf = 0
        · refine ⟨period σ cf, period_pos σ cf, le_rfl, ?_⟩
          rw [pow_period, ← hi, pow_mod_period, hm]; rfl
        · refine ⟨i % period σ cf, by omega, (Nat.mod_lt _ (period_pos σ cf)).le, ?_⟩
          rw [← hi, pow_mod_period]
      have hnot : ∀ p : Fin last, ¬ σ.SameCycle cf p → ∀ t, p.1 ≠ ((σ ^ t) cf).1 := by
        intro p hp t e
        exact hp (Fin.ext e ▸ hpow t)
      refine ⟨cyc.len, cyc.vlen, ?_, ?_, ?_, ?_, ?_⟩
      · intro p hp
        by_cases hs : σ.SameCycle cf p
        · obtain ⟨t, t1, t2, rfl⟩ := hrep p hs
          rw [cyc.moved t t1 t2]
          congr 2
          obtain ⟨u, rfl⟩ : ∃ u, t = u + 1 := ⟨t - 1, by omega⟩
          rw [pow_succ', Equiv.Perm.mul_apply, Nat.add_sub_cancel]; exact (σ.symm_apply_apply _).symm
        · have hp' : Done σ c p := ((done_succ σ (c := cf) h1).1 hp).resolve_right hs
          rw [cyc.rest p.1 fun t _ _ => hnot p hs t]
          exact inv.done p hp'
      · intro p hp
        have hs : ¬ σ.SameCycle cf p := fun h => hp ((done_succ σ (c := cf) h1).2 (Or.inr h))
        rw [cyc.rest p.1 fun t _ _ => hnot p hs t]
        exact inv.todo p fun h => hp ((done_succ σ (c := cf) h1).2 (Or.inl h))
      · rw [cyc.rest last fun t _ _ e => ?_]
        · exact inv.final
        · have := ((σ ^ t) cf).2; omega
      · intro p hcp hp
        by_cases hs : σ.SameCycle cf p
        · obtain ⟨t, t1, t2, rfl⟩ := hrep p hs
          refine cyc.mark t t1 t2 ?_
          rcases Nat.lt_or_ge t (period σ cf) with h | h
          · exact h
          · rw [show t = period σ cf by omega, pow_period] at hcp
            simp [cf] at hcp
        · rw [cyc.vrest p.1 fun t _ _ _ => hnot p hs t]
          exact inv.vtrue p (by omega) (((done_succ σ (c := cf) h1).1 hp).resolve_right hs)
      · intro p hcp hp
        have hs : ¬ σ.SameCycle cf p := fun h => hp ((done_succ σ (c := cf) h1).2 (Or.inr h))
        rw [cyc.vrest p.1 fun t _ _ _ => hnot p hs t]
        exact inv.vfalse p (by omega) fun h => hp ((done_succ σ (c := cf) h1).2 (Or.inl h))
  · rintro ⟨data, vis⟩ inv
    refine ⟨inv.len, fun p hp => inv.done p ⟨p, hp, p.2, Equiv.Perm.SameCycle.refl σ p⟩,
      fun p hp => inv.todo p (hzero _ p hp), inv.final⟩

end Outer

theorem mt_ofM {m n : Nat} (hm : 0 < m) (hn : 0 < n) (A : Matrix (Fin m) (Fin n) α) (fuel : Nat) (hf : m * n ≤ fuel + 1) :
    (ofM A).mt fuel = .ok (ofM A.transpose) := by
  have hmn : 0 < m * n := Nat.mul_pos hm hn
  obtain ⟨last, hlast⟩ : ∃ last, m * n = last + 1 := ⟨m * n - 1, by omega⟩
  unfold Mat.mt
  simp only [ofM_length, hlast, ofM_rows]
  rw [usub_ok (by omega), Nat.add_sub_cancel, ok_bind]
  obtain ⟨⟨data, vis⟩, hrun, hlen, hpos, hzero, hfin⟩ := mtLoop_post (mtPerm m n last hlast) m (mtPerm_val hlast)
    (ofM A).data (by simpa using hlast) fuel (by omega)
  rw [hrun, ok_bind]
  simp only [Mat.cols]
  simp only at hlen
  rw [udiv_ok (by omega), hlen, ← hlast, Nat.mul_div_cancel_left _ hm, ok_bind]
  congr 1
  have hlen' : data.length = n * m := by rw [Nat.mul_comm, hlast]; exact hlen
  refine mk_eq_ofM _ hlen' ?_
  intro j i
  have hlt : j.1 * m + i.1 < last + 1 := by rw [← hlast, Nat.mul_comm m n]; exact rm_lt j.2 i.2
  have hlt' : i.1 * n + j.1 < last + 1 := by rw [← hlast]; exact rm_lt i.2 j.2
  have hjm : j.1 * m + m ≤ last + 1 := by
    rw [← hlast, Nat.mul_comm m n]
    calc j.1 * m + m = (j.1 + 1) * m := by ring
      _ ≤ n * m := Nat.mul_le_mul_right m j.2
  have hin : i.1 * n + n ≤ last + 1 := by
    rw [← hlast]
    calc i.1 * n + n = (i.1 + 1) * n := by ring
      _ ≤ m * n := Nat.mul_le_mul_right n i.2
  have hi := i.2
  have hj := j.2
  rw [Matrix.transpose_apply, ← ofM_getElem? A i j]
  by_cases hl : j.1 * m + i.1 = last
  · -- the last element stays in place
    have h1 : i.1 + 1 = m := by omega
    have h2 : (j.1 + 1) * m = n * m := by rw [Nat.mul_comm n m, hlast]; rw [Nat.add_mul]; omega
    have h3 : j.1 + 1 = n := Nat.eq_of_mul_eq_mul_right hm h2
    have : i.1 * n + j.1 = last := by
      have : (i.1 + 1) * n = last + 1 := by rw [h1, hlast]
      rw [Nat.add_mul] at this; omega
    rw [hl, this]; exact hfin
  · have hp : j.1 * m + i.1 < last := by omega
    have hne : i.1 * n + j.1 ≠ last := by
      intro e
      apply hl
      have h1 : j.1 + 1 = n := by omega
      have h2 : (i.1 + 1) * n = m * n := by rw [hlast, Nat.add_mul]; omega
      have h3 : i.1 + 1 = m := Nat.eq_of_mul_eq_mul_right hn h2
      have : (j.1 + 1) * m = last + 1 := by rw [h1, Nat.mul_comm, hlast]
      rw [Nat.add_mul] at this; omega
    by_cases h0 : j.1 * m + i.1 = 0
    · have hz := hzero ⟨0, by omega⟩ rfl
      have hi0 : i.1 = 0 := by omega
      have hj0 : j.1 = 0 := by
        rcases Nat.eq_zero_or_pos j.1 with h | h
        · exact h
        · have := Nat.mul_pos h hm; omega
      simpa [hi0, hj0] using hz
    · have := hpos ⟨j.1 * m + i.1, hp⟩ (by dsimp only; omega)
      dsimp only at this
      rw [this, mtPerm_symm_val]
      congr 1
      have e : n * (j.1 * m + i.1) = j.1 * last + (i.1 * n + j.1) := by
        calc n * (j.1 * m + i.1) = j.1 * (m * n) + i.1 * n := by ring
          _ = j.1 * last + (i.1 * n + j.1) := by rw [hlast]; ring
      simp only [e]
      rw [rm_mod (by omega)]

end LA
