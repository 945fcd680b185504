import Verif.Proofs.Basic

/-! # Runs with a step budget -/

set_option linter.unusedSectionVars false

namespace LA
variable {α β σ : Type}

/-- `g` has one result, which satisfies `P` and is found with every budget that is large enough; with a smaller budget
`g` finds it or runs out of budget. -/
def PostE (g : Nat → R α) (P : α → Prop) : Prop :=
  ∃ N r, P r ∧ ∀ fuel, g fuel = .ok r ∨ (fuel < N ∧ g fuel = .error .fuel)

theorem Post.toE {x : R α} {P : α → Prop} (h : Post x P) : PostE (fun _ => x) P := by
  obtain ⟨a, h1, h2⟩ := h
  exact ⟨0, a, h2, fun _ => Or.inl h1⟩

theorem PostE.mono {g : Nat → R α} {P Q : α → Prop} (h : PostE g P) (h2 : ∀ a, P a → Q a) : PostE g Q := by
  obtain ⟨N, r, h3, h4⟩ := h
  exact ⟨N, r, h2 r h3, h4⟩

theorem PostE.bind {g : Nat → R α} {f : Nat → α → R β} {P : α → Prop} {Q : β → Prop} (h : PostE g P)
    (h2 : ∀ a, P a → PostE (fun fuel => f fuel a) Q) : PostE (fun fuel => g fuel >>= f fuel) Q := by
  obtain ⟨N, r, h3, h4⟩ := h
  obtain ⟨N', r', h5, h6⟩ := h2 r h3
  refine ⟨max N N', r', h5, fun fuel => ?_⟩
  dsimp only at h6 ⊢
  rcases h4 fuel with h | ⟨h, h'⟩
  · rw [h, ok_bind]
    rcases h6 fuel with h | ⟨h, h'⟩
    · exact Or.inl h
    · exact Or.inr ⟨lt_of_lt_of_le h (le_max_right _ _), h'⟩
  · rw [h']
    exact Or.inr ⟨lt_of_lt_of_le h (le_max_left _ _), rfl⟩

theorem PostE.congr {g g' : Nat → R α} {P : α → Prop} (h : PostE g P) (he : ∀ fuel, g' fuel = g fuel) : PostE g' P := by
  obtain ⟨N, r, h3, h4⟩ := h
  exact ⟨N, r, h3, fun fuel => by rw [he]; exact h4 fuel⟩

theorem loop_postE {lo hi : Nat} {s : σ} {f : Nat → Nat → σ → R σ} (Inv : Nat → σ → Prop) (hle : lo ≤ hi)
    (h0 : Inv lo s) (hstep : ∀ i s, lo ≤ i → i < hi → Inv i s → PostE (fun fuel => f fuel i s) (Inv (i + 1))) :
    PostE (fun fuel => loop lo hi s (f fuel)) (Inv hi) := by
  induction hi, hle using Nat.le_induction with
  | base => exact (Post.ok h0).toE.congr fun fuel => loop_self _ _ _
  | succ k hk ih =>
    refine PostE.congr ?_ fun fuel => loop_succ hk s (f fuel)
    refine PostE.bind (ih fun i s h1 h2 h3 => hstep i s h1 (by omega) h3) ?_
    intro a ha
    exact hstep k a hk (by omega) ha

end LA
