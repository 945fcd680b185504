import Verif.Proofs.EigDiag

/-! # `EigenDecomposition::new` and `get_d` on diagonal matrices -/

namespace LA
set_option linter.unusedSectionVars false

namespace Eigen
section get
variable {α : Type} [Zero α] [FloatOps α]

/-- `get_d` when no imaginary part is positive or negative. -/
theorem getD_none {n : Nat} (hn : 0 < n) (d e : Fin n → α) (h1 : ∀ i, FloatOps.lt (0 : α) (e i) = false) (h2 : ∀ i, FloatOps.lt (e i) (0 : α) = false)
    (v : Mat α) : getD ⟨n, List.ofFn d, List.ofFn e, v⟩ = .ok (ofM (Matrix.diagonal d)) := by
  unfold getD
  dsimp only
  have hd : ∀ i (hi : i < n), idx (List.ofFn d) i = .ok (d ⟨i, hi⟩) := fun i hi => idx_eq (by
    rw [List.getElem?_ofFn, dif_pos hi])
  have he : ∀ i (hi : i < n), idx (List.ofFn e) i = .ok (e ⟨i, hi⟩) := fun i hi => idx_eq (by
    rw [List.getElem?_ofFn, dif_pos hi])
  have hl : Post (loop 0 n (alloc α (n * n)) fun i d' => do
      let d' ← loop 0 n d' fun j d' => wr d' (i * n + j) 0
      let d' ← wr d' (i * n + i) (← idx (List.ofFn d) i)
      if FloatOps.lt 0 (← idx (List.ofFn e) i) then wr d' (i * n + (i + 1)) (← idx (List.ofFn e) i)
      else if FloatOps.lt (← idx (List.ofFn e) i) 0 then wr d' (i * n + (← usub i 1)) (← idx (List.ofFn e) i)
      else return d') fun r => Grid r n n fun a b => some (if h : a < n then (if a = b then d ⟨a, h⟩ else 0) else 0) := by
    refine (loop_rows (lo := 0) (hi := n) (fun a b => some (if h : a < n then (if a = b then d ⟨a, h⟩ else 0) else 0)) (grid_alloc n n) ?_).mono fun r h =>
      h.congr fun a b ha _ => by rw [if_pos ⟨by omega, ha⟩]
    intro i d1 G1 _ hi hG1 _
    have hw := loop_post (lo := 0) (hi := n) (s := d1) (f := fun j d' => wr d' (i * n + j) (0 : α))
      (fun k d' => Grid d' n n fun a b => if a = i ∧ b < k then some 0 else G1 a b) (Nat.zero_le _) (hG1.congr fun a b _ _ => by rw [if_neg (by omega)])
      fun j d' _ hj h => (h.wr (i := i) (j := j) hi hj 0).mono fun d' h => h.congr fun a b _ _ => by unfold upd; grind
    obtain ⟨d2, hr, hd2⟩ := hw
    obtain ⟨d3, hr3, hd3⟩ := hd2.wr (i := i) (j := i) hi hi (d ⟨i, hi⟩)
    rw [hr, ok_bind, hd i hi, ok_bind, hr3, ok_bind, he i hi, ok_bind, if_neg (by simp [h1]), ok_bind, if_neg (by simp [h2])]
    refine Post.ok (hd3.congr fun a b _ _ => ?_)
    unfold upd
    beta_reduce
    by_cases e : a = i
    · subst e
      by_cases e2 : b = a
      · subst e2; simp [hi]
      · have e3 : ¬ a = b := fun h => e2 h.symm
        have hb : b < n := by assumption
        simp [hi, hb, e2, e3]
    · simp [e]
  obtain ⟨r, hr, hg⟩ := hl
  rw [hr, ok_bind, Grid.freeze hg (Matrix.diagonal d) (fun i j => ?_), ok_bind, Props.C01_new_ofM hn hn]
  rw [dif_pos i.2, Matrix.diagonal_apply]
  simp only [Fin.ext_iff]

/-- `get_d` when all imaginary parts are zero. -/
theorem getD_zero {n : Nat} (hn : 0 < n) (h0 : FloatOps.lt (0 : α) 0 = false) (d : Fin n → α) (v : Mat α) :
    getD ⟨n, List.ofFn d, List.replicate n 0, v⟩ = .ok (ofM (Matrix.diagonal d)) := by
  have := getD_none hn d (fun _ => 0) (fun _ => h0) (fun _ => h0) v
  rwa [List.ofFn_const] at this

end get

variable {α : Type} [Zero α] [One α] [Add α] [Sub α] [Neg α] [Mul α] [FloatOps α] [Ranks α]

theorem isSymm_tests {n : Nat} {A : Matrix (Fin n) (Fin n) α} (hA : TestsSymm A le_rfl) : isSymm n (ofM A) = .ok true := by
  unfold isSymm
  rw [loopF_next]
  · rfl
  intro j _ hj
  rw [loopF_next]
  · rfl
  intro i _ hi
  rw [ofM_get A hi hj, ok_bind, ofM_get A hj hi, ok_bind, if_pos (hA i j hi hj)]
  rfl

theorem fillV_gen {n : Nat} (A : Matrix (Fin n) (Fin n) α) :
    Post (loop 0 n (alloc α (n * n)) fun i v => loop 0 n v fun j v => do wr v (i * n + j) (← (ofM A).get i j)) fun v =>
      Grid v n n fun i j => some (ext A i j) := by
  refine (loop_rows (lo := 0) (hi := n) (fun a b => some (ext A a b)) (grid_alloc n n) ?_).mono fun r h =>
    h.congr fun a b ha _ => by rw [if_pos ⟨by omega, ha⟩]
  intro i d' G' _ hi hG _
  refine (loop_cols (lo := 0) (hi := n) (fun a b => if a = i then some (ext A a b) else G' a b) hG ?_).mono fun r h =>
    h.congr fun a b _ hb => by
      by_cases e : a = i
      · subst e; rw [if_pos ⟨by omega, hb⟩, if_pos rfl]
      · rw [if_pos ⟨by omega, hb⟩, if_neg e, if_neg e]
  intro j d2 G2 _ hj hG2 h2
  rw [ofM_get A hi hj, ok_bind]
  refine (hG2.wr hi hj _).mono fun r h => h.congr fun a b ha hb => ?_
  have h3 := h2 a b
  have h4 := ext_eq A hi hj
  clear h2
  by_cases e : b = j
  · subst e
    rw [if_pos rfl]
    by_cases e2 : a = i
    · subst e2; simp [h4]
    · rw [upd_ne (by omega), if_neg e2, h3 (by omega)]
  · rw [upd_ne (by omega), if_neg e]

/-- On a diagonal matrix the symmetric branch does not iterate at all: it sorts. -/
theorem new_diag {n : Nat} (hn : 0 < n) (A : Matrix (Fin n) (Fin n) α) (hF : DiagT n (ext A)) (hS : TestsSymm A le_rfl) (hz : FloatOps.abs (0 : α) = 0) (fuel : Nat) :
    ∃ σ : Equiv.Perm (Fin n), new fuel (ofM A) = .ok ⟨n, List.ofFn (fun i => A (σ i) (σ i) + 0), List.replicate n 0,
        ofM (Matrix.of fun i j => if i = σ j then 1 else 0)⟩ ∧
      (∀ i j, i < j → FloatOps.lt (A (σ i) (σ i) + 0) (A (σ j) (σ j) + 0) = false) ∧
      ((∀ i j, i < j → FloatOps.lt (A i i + 0) (A j j + 0) = false) → σ = Equiv.refl _) := by
  unfold new newWith
  rw [ofM_cols A hn, ok_bind]
  dsimp only
  rw [isSymm_tests hS, ok_bind, if_pos rfl]
  obtain ⟨v, hr, hv⟩ := fillV_gen A
  rw [hr, ok_bind]
  obtain ⟨s1, hr, hd, ⟨g, he, hg⟩, hv⟩ := tred2_diag (st := (⟨alloc α n, alloc α n, v⟩ : Dev α)) hn hF (by simp [alloc]) (by simp [alloc]) hv
  rw [hr, ok_bind]
  obtain ⟨s2, hr, ⟨σ, hs, hrf⟩, he⟩ := tql2_diag (fuel := fuel) hn hF.good hd he hg hz hv
  rw [hr, ok_bind]
  have hd' : freeze s2.d = .ok (List.ofFn fun i => A (σ i) (σ i) + 0) := by
    have := Vect.freeze hs.d (fun a => if h : a < n then ext A (σ ⟨a, h⟩) (σ ⟨a, h⟩) + 0 else 0) fun a ha => by rw [dif_pos ha, dif_pos ha]
    rw [this]
    congr 2
    funext i
    rw [dif_pos i.2, ext_fin]
  refine ⟨σ, ?_, fun i j hij => ?_, fun h => hrf fun a b hab => by simpa only [ext_fin] using h a b hab⟩
  · rw [hd', ok_bind, Vect.freeze he (fun _ => 0) (fun i _ => rfl), ok_bind,
      Grid.freeze hs.v (Matrix.of fun i j => if i = σ j then 1 else 0) (fun i j => by rw [dif_pos j.2]; simp only [Fin.ext_iff, Matrix.of_apply]), ok_bind,
      Props.C01_new_ofM hn hn, ok_bind, List.ofFn_const]
    rfl
  · have := hs.ord i j i.2 hij
    simpa only [ext_fin] using this

end Eigen

noncomputable instance : Ranks ℝ where
  good _ := True
  nn x := 0 ≤ x
  zero := add_zero 0
  eq := by rw [eq_eq]; simp
  good_add _ _ := trivial
  nn_zero := le_rfl
  nn_max t x ht _ := by rw [Exact.max_eq]; exact le_max_of_le_left ht
  thr t ht := by rw [le_eq]; simpa using mul_nonneg Eigen.eps_pos.le ht
  trans a b c _ _ _ h1 h2 := by rw [lt_eq] at *; simp only [decide_eq_false_iff_not, not_lt] at *; exact h2.trans h1
  asym a b _ _ h := by rw [lt_eq] at *; simp only [decide_eq_false_iff_not, decide_eq_true_eq, not_lt] at *; exact h.le
  irrefl a _ := by rw [lt_eq]; simp

namespace F64

/-- Zero, positive or `+∞`. -/
def Nonneg (x : F64) : Prop := x = .inf false ∨ ∃ k h, x = .fin false k h

theorem mk_nonneg (a b : Nat) : Nonneg (mk false a b) := by
  unfold mk
  split
  · exact Or.inr ⟨_, _, rfl⟩
  · exact Or.inl rfl

theorem Nonneg.le {x : F64} (h : Nonneg x) : FloatOps.le 0 x = true := by
  rcases h with rfl | ⟨k, hk, rfl⟩
  · decide +kernel
  · show decide (sgn false 0 ≤ sgn false k) = true
    simp [sgn]

theorem lt_fin (s t : Bool) (a b : Nat) (ha hb) : FloatOps.lt (F64.fin s a ha) (.fin t b hb) = decide (sgn s a < sgn t b) := rfl

theorem lt_trans' (a b c : F64) (ha : a ≠ .nan) (hb : b ≠ .nan) (hc : c ≠ .nan) (h1 : FloatOps.lt a b = false) (h2 : FloatOps.lt b c = false) :
    FloatOps.lt a c = false := by
  rcases a with _ | s | ⟨s, i, hi⟩
  · exact absurd rfl ha
  · rcases c with _ | u | ⟨u, k, hk⟩
    · exact absurd rfl hc
    · cases s <;> cases u <;> first | rfl | skip
      rcases b with _ | t | ⟨t, j, hj⟩
      · exact absurd rfl hb
      · cases t <;> first | (exfalso; revert h1; decide +kernel) | exact h2
      · cases h1
    · cases s <;> first | rfl | skip
      rcases b with _ | t | ⟨t, j, hj⟩
      · exact absurd rfl hb
      · cases t <;> first | (exfalso; revert h1; decide +kernel) | exact h2
      · cases h1
  · rcases b with _ | t | ⟨t, j, hj⟩
    · exact absurd rfl hb
    · cases t
      · cases h1
      · rcases c with _ | u | ⟨u, k, hk⟩
        · exact absurd rfl hc
        · cases u <;> first | rfl | cases h2
        · cases h2
    · rcases c with _ | u | ⟨u, k, hk⟩
      · exact absurd rfl hc
      · cases u <;> first | rfl | cases h2
      · rw [lt_fin] at *
        simp only [decide_eq_false_iff_not, not_lt] at *
        omega

theorem lt_asymm' (x y : F64) (h : FloatOps.lt x y = true) : FloatOps.lt y x = false := by
  rcases x with _ | s | ⟨s, a, ha⟩ <;> rcases y with _ | t | ⟨t, b, hb⟩ <;> try rfl
  · cases s <;> cases t <;> first | rfl | cases h
  · cases s <;> first | rfl | cases h
  · cases t <;> first | rfl | cases h
  · rw [lt_fin] at *
    simp only [decide_eq_true_eq, decide_eq_false_iff_not] at h ⊢
    omega

theorem lt_irrefl' (z : F64) : FloatOps.lt z z = false := by
  rcases z with _ | s | ⟨s, k, h⟩
  · rfl
  · cases s <;> rfl
  · rw [lt_fin]; simp

theorem add_zero_good {x : F64} (h : x ≠ .nan) : x + 0 ≠ .nan := by
  by_cases h0 : isZero x
  · obtain ⟨s, rfl⟩ := isZero_iff.1 h0
    cases s <;> decide +kernel
  · rw [show (0 : F64) = zero false from rfl, add_zero' x false h0]; exact h

theorem abs_nonneg' {x : F64} (h : x ≠ .nan) : Nonneg (FloatOps.abs x) := by
  rcases x with _ | s | ⟨s, k, hk⟩
  · exact absurd rfl h
  · exact Or.inl rfl
  · exact Or.inr ⟨k, hk, rfl⟩

theorem Nonneg.add_zero {x : F64} (h : Nonneg x) : Nonneg (x + 0) := by
  rcases h with rfl | ⟨k, hk, rfl⟩
  · exact Or.inl rfl
  · by_cases h0 : k = 0
    · subst h0
      have : ∀ hk, (F64.fin false 0 hk : F64) + 0 = 0 := by decide +kernel
      rw [this]; exact Or.inr ⟨0, by decide +kernel, rfl⟩
    · rw [show (0 : F64) = zero false from rfl, add_zero' (F64.fin false k hk) false h0]; exact Or.inr ⟨k, hk, rfl⟩

theorem Nonneg.max {x y : F64} (hx : Nonneg x) (hy : Nonneg y) : Nonneg (FloatOps.max x y) := by
  rcases (max_spec x y).1 with h | h <;> rw [h] <;> assumption

theorem Nonneg.eps_mul {x : F64} (hx : Nonneg x) : Nonneg (Eigen.eps * x) := by
  rw [eps_eq]
  rcases hx with rfl | ⟨k, hk, rfl⟩
  · exact Or.inl (by decide +kernel)
  · exact mk_nonneg _ _

instance : Ranks F64 where
  good x := x ≠ .nan
  nn := Nonneg
  zero := by decide +kernel
  eq := by decide +kernel
  good_add _ h := add_zero_good h
  nn_zero := Or.inr ⟨0, by decide +kernel, rfl⟩
  nn_max _ _ ht hx := ht.max (abs_nonneg' hx).add_zero
  thr _ ht := ht.eps_mul.le
  trans := lt_trans'
  asym a b _ _ := lt_asymm' a b
  irrefl a _ := lt_irrefl' a

end F64
end LA
