import Verif.Proofs.Basic
import Verif.Model.Direct
import Verif.Model.Eigen

/-! # A larger step budget does not change the outcome -/

namespace LA
set_option linter.unusedSectionVars false
variable {α β σ : Type}

/-- `x` runs out of budget or equals `y`. -/
def Upto (x y : R α) : Prop := x = .error .fuel ∨ x = y

namespace Upto

theorem rfl {x : R α} : Upto x x := Or.inr (Eq.refl _)

theorem bind {x y : R α} {f g : α → R β} (h : Upto x y) (hf : ∀ a, Upto (f a) (g a)) : Upto (x >>= f) (y >>= g) := by
  rcases h with h | h
  · rw [h]; exact Or.inl (Eq.refl _)
  · rw [h]
    cases y with
    | ok a => exact hf a
    | error e => exact Or.inr (Eq.refl _)

theorem ite {c : Prop} [Decidable c] {x y x' y' : R α} (h1 : Upto x x') (h2 : Upto y y') : Upto (if c then x else y) (if c then x' else y') := by
  split
  · exact h1
  · exact h2

theorem loop {lo hi : Nat} {s : σ} {f g : Nat → σ → R σ} (h : ∀ i s, Upto (f i s) (g i s)) : Upto (LA.loop lo hi s f) (LA.loop lo hi s g) := by
  unfold LA.loop
  generalize hi - lo = k
  induction k generalizing lo s with
  | zero => exact rfl
  | succ k ih => exact (h lo s).bind fun s => ih

theorem trans {x y z : R α} (h1 : Upto x y) (h2 : Upto y z) : Upto x z := by
  rcases h1 with h | h
  · exact Or.inl h
  · subst h; exact h2

end Upto

/-- A budgeted computation whose outcome does not depend on the budget, once that is large enough. -/
theorem upto_le {f : Nat → R α} (h : ∀ k, Upto (f k) (f (k + 1))) {k l : Nat} (hkl : k ≤ l) : Upto (f k) (f l) := by
  induction l, hkl using Nat.le_induction with
  | base => exact Upto.rfl
  | succ l _ ih => exact ih.trans (h l)

variable [Zero α] [One α] [Add α] [Sub α] [Neg α] [Mul α] [FloatOps α]

namespace Mat

theorem mtCycle_upto {rows last ci : Nat} : ∀ (fuel i : Nat) (prev : α) (d : List α) (v : List Bool),
    Upto (mtCycle rows last ci fuel i prev d v) (mtCycle rows last ci (fuel + 1) i prev d v)
  | 0, _, _, _, _ => Or.inl rfl
  | fuel + 1, i, prev, d, v => by
    conv => lhs; unfold mtCycle
    conv => rhs; unfold mtCycle
    exact Upto.rfl.bind fun _ => Upto.rfl.bind fun _ => Upto.rfl.bind fun _ => Upto.ite Upto.rfl (Upto.rfl.bind fun _ => mtCycle_upto fuel _ _ _ _)

theorem mt_upto (a : Mat α) (fuel : Nat) : Upto (a.mt fuel) (a.mt (fuel + 1)) := by
  unfold mt
  refine Upto.rfl.bind fun _ => (Upto.loop fun i s => ?_).bind fun _ => Upto.rfl
  exact Upto.rfl.bind fun _ => Upto.ite Upto.rfl (Upto.rfl.bind fun _ => mtCycle_upto fuel _ _ _ _)

end Mat

namespace SVD

theorem iterate_upto {m n pp : Nat} : ∀ (fuel p : Nat) (st : Main α), Upto (iterate m n pp fuel p st) (iterate m n pp (fuel + 1) p st)
  | _, 0, st => by rw [iterate, iterate]; exact Upto.rfl
  | 0, _ + 1, _ => Or.inl (by rw [iterate])
  | fuel + 1, p + 1, st => by
    conv => lhs; unfold iterate
    conv => rhs; unfold iterate
    exact Upto.rfl.bind fun _ => iterate_upto fuel _ _

theorem newTall_upto (a : Mat α) (fuel : Nat) : Upto (newTall fuel a) (newTall (fuel + 1) a) := by
  unfold newTall
  exact Upto.rfl.bind fun _ => Upto.rfl.bind fun _ => Upto.rfl.bind fun _ => Upto.rfl.bind fun _ => Upto.rfl.bind fun _ => Upto.rfl.bind fun _ =>
    Upto.rfl.bind fun _ => (iterate_upto fuel _ _).bind fun _ => Upto.rfl

theorem new_upto (a : Mat α) (fuel : Nat) : Upto (new fuel a) (new (fuel + 1) a) := by
  unfold new
  exact Upto.rfl.bind fun _ => Upto.ite (Upto.rfl.bind fun _ => (newTall_upto _ fuel).bind fun _ => Upto.rfl) (newTall_upto a fuel)

end SVD

namespace Eigen

theorem tqlLoop_upto {n l m : Nat} {t : α} : ∀ (fuel : Nat) (st : Dev α) (f : α), Upto (tqlLoop n l m t fuel st f) (tqlLoop n l m t (fuel + 1) st f)
  | 0, _, _ => Or.inl rfl
  | fuel + 1, st, f => by
    conv => lhs; unfold tqlLoop
    conv => rhs; unfold tqlLoop
    exact Upto.rfl.bind fun _ => Upto.rfl.bind fun _ => Upto.ite Upto.rfl (tqlLoop_upto fuel _ _)

theorem tql2_upto {n : Nat} {st : Dev α} (fuel : Nat) : Upto (tql2 fuel n st) (tql2 (fuel + 1) n st) := by
  unfold tql2
  refine Upto.rfl.bind fun _ => Upto.rfl.bind fun _ => Upto.rfl.bind fun _ => (Upto.loop fun l x => ?_).bind fun _ => Upto.rfl
  obtain ⟨st, f, t⟩ := x
  unfold tqlOne
  exact Upto.rfl.bind fun _ => Upto.rfl.bind fun _ => Upto.rfl.bind fun _ => (Upto.ite (tqlLoop_upto fuel _ _) Upto.rfl).bind fun _ => Upto.rfl

theorem hqrLoop_upto {nn : Nat} {norm : α} : ∀ (fuel c : Nat) (st : Hqr α), Upto (hqrLoop nn norm fuel c st) (hqrLoop nn norm (fuel + 1) c st)
  | _, 0, st => by rw [hqrLoop, hqrLoop]; exact Upto.rfl
  | 0, _ + 1, _ => Or.inl (by rw [hqrLoop])
  | fuel + 1, c + 1, st => by
    conv => lhs; unfold hqrLoop
    conv => rhs; unfold hqrLoop
    exact Upto.rfl.bind fun _ => Upto.ite (Upto.rfl.bind fun _ => hqrLoop_upto fuel _ _)
      (Upto.ite (Upto.rfl.bind fun _ => hqrLoop_upto fuel _ _) (Upto.rfl.bind fun _ => hqrLoop_upto fuel _ _))

theorem hqr2_upto {jk : Nat → Left α} {nn : Nat} {st : Dev α} {h : Buf α} (fuel : Nat) : Upto (hqr2 jk fuel nn st h) (hqr2 jk (fuel + 1) nn st h) := by
  unfold hqr2
  exact Upto.rfl.bind fun _ => (hqrLoop_upto fuel _ _).bind fun _ => Upto.rfl

theorem new_upto (a : Mat α) (fuel : Nat) : Upto (new fuel a) (new (fuel + 1) a) := by
  unfold new newWith
  exact Upto.rfl.bind fun _ => Upto.rfl.bind fun _ => Upto.ite
    (Upto.rfl.bind fun _ => Upto.rfl.bind fun _ => (tql2_upto fuel).bind fun _ => Upto.rfl)
    (Upto.rfl.bind fun _ => Upto.rfl.bind fun _ => (hqr2_upto fuel).bind fun _ => Upto.rfl)

end Eigen

namespace SVD

theorem directTall_upto (a : Mat α) (fuel : Nat) : Upto (directTall fuel a) (directTall (fuel + 1) a) := by
  unfold directTall
  exact Upto.rfl.bind fun _ => Upto.rfl.bind fun _ => (Eigen.new_upto _ fuel).bind fun _ => Upto.rfl

theorem direct_upto (a : Mat α) (fuel : Nat) : Upto (direct fuel a) (direct (fuel + 1) a) := by
  unfold direct
  exact Upto.rfl.bind fun _ => Upto.ite (Upto.rfl.bind fun _ => (directTall_upto _ fuel).bind fun _ => Upto.rfl) (directTall_upto a fuel)

end SVD
end LA
