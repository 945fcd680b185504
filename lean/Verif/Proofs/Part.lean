import Verif.Proofs.SVDMain

/-! # Partially initialised vectors -/

set_option linter.unusedSectionVars false

namespace LA
open Finset

/-- The cells of `d` (length `n`) selected by `P` hold `f`. -/
def Part (d : Buf ℝ) (n : Nat) (P : Nat → Prop) (f : Nat → ℝ) : Prop :=
  d.length = n ∧ ∀ i, i < n → P i → d[i]? = some (some (f i))

theorem Part.rd {d : Buf ℝ} {n : Nat} {P : Nat → Prop} {f : Nat → ℝ} (h : Part d n P f) {i : Nat} (hi : i < n) (hP : P i) :
    rd d i = .ok (f i) := rd_eq (h.2 i hi hP)

theorem Part.wr {d : Buf ℝ} {n : Nat} {P : Nat → Prop} {f : Nat → ℝ} (h : Part d n P f) {i : Nat} (hi : i < n) (x : ℝ) :
    ∃ d', LA.wr d i x = .ok d' ∧ Part d' n (fun k => P k ∨ k = i) (updv f i x) := by
  refine ⟨d.set i (some x), wr_lt (by rw [h.1]; exact hi) x, by simpa using h.1, ?_⟩
  intro k hk hP
  by_cases e : k = i
  · subst e; simp [h.1, hk]
  · rw [List.getElem?_set_ne (Ne.symm e), updv_ne e]
    exact h.2 k hk (hP.resolve_right e)

theorem Part.mono {d : Buf ℝ} {n : Nat} {P Q : Nat → Prop} {f g : Nat → ℝ} (h : Part d n P f)
    (hQ : ∀ i, i < n → Q i → P i ∧ f i = g i) : Part d n Q g :=
  ⟨h.1, fun i hi hq => by rw [h.2 i hi (hQ i hi hq).1, (hQ i hi hq).2]⟩

theorem part_alloc (n : Nat) (f : Nat → ℝ) : Part (alloc ℝ n) n (fun _ => False) f :=
  ⟨by simp [alloc], fun _ _ h => h.elim⟩

theorem Part.full {d : Buf ℝ} {n : Nat} {P : Nat → Prop} {f : Nat → ℝ} (h : Part d n P f) (hP : ∀ i, i < n → P i) :
    Full d n f := ⟨h.1, fun i hi => h.2 i hi (hP i hi)⟩

theorem Full.part {d : Buf ℝ} {n : Nat} {f : Nat → ℝ} (h : Full d n f) : Part d n (fun _ => True) f :=
  ⟨h.1, fun i hi _ => h.2 i hi⟩

theorem Full.mono {d : Buf ℝ} {n : Nat} {P : Nat → Prop} {f g : Nat → ℝ} (h : Full d n f)
    (hQ : ∀ i, i < n → P i → f i = g i) : Part d n P g := h.part.mono fun i hi hp => ⟨trivial, hQ i hi hp⟩

/-- A loop that writes cells `lo..hi`, each from cells not yet rewritten. -/
theorem loop_part {lo hi n : Nat} {d : Buf ℝ} {P : Nat → Prop} {f : Nat → ℝ} {body : Nat → Buf ℝ → R (Buf ℝ)}
    (T : Nat → ℝ) (hd : Part d n P f)
    (hstep : ∀ i d', lo ≤ i → i < hi → Part d' n (fun r => P r ∨ (lo ≤ r ∧ r < i)) (fun r => if lo ≤ r ∧ r < i then T r else f r) →
      ∃ x, body i d' = LA.wr d' i x ∧ x = T i) (hhi : hi ≤ n) :
    Post (loop lo hi d body) fun d' => Part d' n (fun r => P r ∨ (lo ≤ r ∧ r < hi)) (fun r => if lo ≤ r ∧ r < hi then T r else f r) := by
  by_cases hle : lo ≤ hi
  swap
  · rw [loop_empty (by omega)]
    refine Post.ok (hd.mono fun r _ hr => ⟨hr.resolve_right (by omega), by rw [if_neg (by omega)]⟩)
  refine loop_post (fun i d' => Part d' n (fun r => P r ∨ (lo ≤ r ∧ r < i)) (fun r => if lo ≤ r ∧ r < i then T r else f r)) hle
    (hd.mono fun r _ hr => ⟨hr.resolve_right (by omega), by rw [if_neg (by omega)]⟩) ?_
  intro i d' h1 h2 hG
  obtain ⟨x, hx, rfl⟩ := hstep i d' h1 h2 hG
  obtain ⟨d2, hd2, hp2⟩ := hG.wr (i := i) (by omega) (T i)
  rw [hx, hd2]
  refine Post.ok (hp2.mono fun r _ hr => ?_)
  simp only [updv]
  clear hstep hx hd hG hd2 hp2
  refine ⟨?_, ?_⟩
  · rcases hr with hr | hr
    · exact Or.inl (Or.inl hr)
    · by_cases e : r = i
      · exact Or.inr e
      · exact Or.inl (Or.inr (by omega))
  · by_cases e : r = i
    · subst e; rw [if_pos rfl, if_pos (by omega)]
    · rw [if_neg e]
      by_cases h3 : lo ≤ r ∧ r < i
      · rw [if_pos h3, if_pos (by omega)]
      · rw [if_neg h3, if_neg (by omega)]

/-- A loop that rewrites column `j` of a table in step `j`. -/
theorem loopG_cols {lo hi m n : Nat} {d : Buf ℝ} {G : Nat → Nat → ℝ} {f : Nat → Buf ℝ → R (Buf ℝ)}
    (T : Nat → Nat → ℝ) (hd : FullG d m n G)
    (hstep : ∀ j d' G', lo ≤ j → j < hi → FullG d' m n G' → (∀ r c, ¬(lo ≤ c ∧ c < j) → G' r c = G r c) →
      Post (f j d') fun d'' => FullG d'' m n (fun r c => if c = j then T r j else G' r c)) :
    Post (loop lo hi d f) fun d' => FullG d' m n (fun r c => if lo ≤ c ∧ c < hi then T r c else G r c) := by
  by_cases hle : lo ≤ hi
  swap
  · rw [loop_empty (by omega)]
    exact Post.ok (hd.congr fun r c _ _ => by rw [if_neg (by omega)])
  refine loop_post (fun j d' => FullG d' m n (fun r c => if lo ≤ c ∧ c < j then T r c else G r c)) hle
    (hd.congr fun r c _ _ => by rw [if_neg (by omega)]) ?_
  intro j d' h1 h2 hG
  refine (hstep j d' _ h1 h2 hG (fun r c h => if_neg h)).mono fun d'' h => h.congr fun r c _ _ => ?_
  by_cases e : c = j
  · subst e; rw [if_pos rfl, if_pos (by omega)]
  · rw [if_neg e]
    by_cases h3 : lo ≤ c ∧ c < j
    · rw [if_pos h3, if_pos (by omega)]
    · rw [if_neg h3, if_neg (by omega)]

/-- A loop that rewrites row `i` of a table in step `i`. -/
theorem loopG_rows {lo hi m n : Nat} {d : Buf ℝ} {G : Nat → Nat → ℝ} {f : Nat → Buf ℝ → R (Buf ℝ)}
    (T : Nat → Nat → ℝ) (hd : FullG d m n G)
    (hstep : ∀ i d' G', lo ≤ i → i < hi → FullG d' m n G' → (∀ r c, ¬(lo ≤ r ∧ r < i) → G' r c = G r c) →
      Post (f i d') fun d'' => FullG d'' m n (fun r c => if r = i then T i c else G' r c)) :
    Post (loop lo hi d f) fun d' => FullG d' m n (fun r c => if lo ≤ r ∧ r < hi then T r c else G r c) := by
  by_cases hle : lo ≤ hi
  swap
  · rw [loop_empty (by omega)]
    exact Post.ok (hd.congr fun r c _ _ => by rw [if_neg (by omega)])
  refine loop_post (fun i d' => FullG d' m n (fun r c => if lo ≤ r ∧ r < i then T r c else G r c)) hle
    (hd.congr fun r c _ _ => by rw [if_neg (by omega)]) ?_
  intro i d' h1 h2 hG
  refine (hstep i d' _ h1 h2 hG (fun r c h => if_neg h)).mono fun d'' h => h.congr fun r c _ _ => ?_
  by_cases e : r = i
  · subst e; rw [if_pos rfl, if_pos (by omega)]
  · rw [if_neg e]
    by_cases h3 : lo ≤ r ∧ r < i
    · rw [if_pos h3, if_pos (by omega)]
    · rw [if_neg h3, if_neg (by omega)]

/-- A reflection vector `u` on the index set `s`, pivot `π`, built from `x`. -/
theorem house2 {s : Finset Nat} {π : Nat} (hπ : π ∈ s) {x u : Nat → ℝ} {g h : ℝ} (hg : g ^ 2 = ∑ t ∈ s, x t * x t)
    (hs : x π * g ≤ 0) (hne : g ≠ 0) (hu : ∀ t ∈ s, u t = if t = π then x t - g else x t)
    (hh : h = (∑ t ∈ s, x t * x t) - x π * g) :
    0 < h ∧ ∑ t ∈ s, u t * u t = 2 * h ∧ ∑ t ∈ s, u t * x t = h ∧ u π ≠ 0 ∧ u π * g = -h := by
  have h0 : 0 < h := by
    have : 0 < g ^ 2 := by positivity
    rw [hh, ← hg]; linarith
  have h1 : ∀ v : Nat → ℝ, ∑ t ∈ s, u t * v t = (∑ t ∈ s, x t * v t) - g * v π := by
    intro v
    have : ∀ t ∈ s, u t * v t = x t * v t - if t = π then g * v t else 0 := by
      intro t ht
      rw [hu t ht]
      split <;> ring
    rw [Finset.sum_congr rfl this, Finset.sum_sub_distrib, Finset.sum_ite_eq', if_pos hπ]
  have h2 : ∑ t ∈ s, u t * x t = h := by rw [h1, hh]; ring
  have hup : u π = x π - g := by rw [hu π hπ, if_pos rfl]
  have h3 : u π * g = -h := by rw [hup, hh, ← hg]; ring
  refine ⟨h0, ?_, h2, ?_, h3⟩
  · rw [h1, Finset.sum_congr rfl fun t _ => mul_comm (x t) (u t), h2, hup, hh, ← hg]; ring
  · intro h4
    rw [h4, zero_mul] at h3
    linarith

end LA
