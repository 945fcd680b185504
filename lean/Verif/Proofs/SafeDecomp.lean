import Verif.Proofs.Safe
import Verif.Proofs.RunsEigen3
import Verif.Proofs.RunsSVD
import Verif.Model.Direct

/-! # SVD and eigenvalues read no uninitialised memory, on any matrix -/

namespace LA
set_option linter.unusedSectionVars false
variable {α : Type} [Zero α] [One α] [Add α] [Sub α] [Neg α] [Mul α] [FloatOps α] [Clean α]

/-- Every error but the read of an uninitialised cell. -/
abbrev NotUninit : Err → Prop := fun e => e ≠ .uninit

theorem NU.iff {β : Type} {x : R β} {P : β → Prop} : NU x P ↔ Runs NotUninit x P := by
  cases x with
  | ok a => exact ⟨fun h => h.2 a rfl, fun h => NU.ok h⟩
  | error e => exact ⟨fun h he => h.1 (by rw [he]), fun h => NU.error h⟩

instance : Elem NotUninit α where
  rdiv x y := NU.iff.1 (rdiv_nu x y)
  sqrt x := NU.iff.1 (sqrt_nu x)

namespace Eigen

theorem get_nu (a : Mat α) (i j : Nat) : Runs NotUninit (a.get i j) fun _ => True := NU.iff.1 ((Mat.get_nu a i j).mono fun _ _ => trivial)

theorem isSymm_nu (n : Nat) (a : Mat α) : Runs NotUninit (isSymm n a) fun _ => True := by
  unfold isSymm
  refine Runs.bind (Runs.loopF (fun _ _ => True) (fun _ => True) (Nat.zero_le _) trivial fun j _ _ hj _ => ?_) ?_
  · refine Runs.bind (Runs.loopF (fun _ _ => True) (fun _ => True) (Nat.zero_le _) trivial fun i _ _ hi _ => ?_) ?_
    · refine (get_nu a i j).bindT fun _ => (get_nu a j i).bindT fun _ => Runs.ite (fun _ => Runs.ok trivial) fun _ => Runs.ok trivial
    · rintro (_ | b) _ <;> exact Runs.ok trivial
  · rintro (_ | b) _ <;> exact Runs.ok trivial

theorem fill_nu (n : Nat) (a : Mat α) :
    Runs NotUninit (loop 0 n (alloc α (n * n)) fun i v => loop 0 n v fun j v => do wr v (i * n + j) (← a.get i j)) fun v => GF v n n := by
  refine (Runs.loop (fun i v => GB v n n fun a _ => a < i) (Nat.zero_le _) ((GB.alloc n n).mono fun _ _ _ _ h => by omega) fun i v _ hi hv => ?_).mono
    fun v hv => hv.mono fun a b ha _ _ => ha
  refine (Runs.loop (fun j v => GB v n n fun a b => a < i ∨ (a = i ∧ b < j)) (Nat.zero_le _) (hv.mono fun a b _ _ h => by omega) fun j v _ hj hv => ?_).mono
    fun v hv => hv.mono fun a b _ hb h => by omega
  exact (get_nu a i j).bindT fun _ => (hv.wr hi hj _).mono fun v hv => hv.mono fun a b _ _ h => by omega

theorem fillT_nu (n : Nat) (a : Mat α) :
    Runs NotUninit (loop 0 n (alloc α (n * n)) fun j v => loop 0 n v fun i v => do wr v (i * n + j) (← a.get i j)) fun v => GF v n n := by
  refine (Runs.loop (fun j v => GB v n n fun _ b => b < j) (Nat.zero_le _) ((GB.alloc n n).mono fun _ _ _ _ h => by omega) fun j v _ hj hv => ?_).mono
    fun v hv => hv.mono fun a b _ hb _ => hb
  refine (Runs.loop (fun i v => GB v n n fun a b => b < j ∨ (b = j ∧ a < i)) (Nat.zero_le _) (hv.mono fun a b _ _ h => by omega) fun i v _ hi hv => ?_).mono
    fun v hv => hv.mono fun a b ha _ h => by omega
  exact (get_nu a i j).bindT fun _ => (hv.wr hi hj _).mono fun v hv => hv.mono fun a b _ _ h => by omega

/-- `EigenDecomposition::new` on any matrix value. -/
theorem new_nu [Signs α] (fuel : Nat) (a : Mat α) : NU (new fuel a) fun x => 0 < a.data.length / a.rows ∧ Returned (a.data.length / a.rows) x := by
  refine NU.iff.2 ?_
  unfold new newWith
  refine (NU.iff.1 (NU.cols a)).bind fun n hcn => ?_
  rw [← hcn.2]
  dsimp only
  rcases Nat.eq_zero_or_pos n with h0 | hn
  · subst h0
    show NotUninit .arith
    exact nofun
  refine (isSymm_nu n a).bindT fun b => Runs.ite (fun hc => ?_) fun hc => ?_
  · refine (fill_nu n a).bind fun v hv => (tred2_runs hn (VB.alloc n) (VB.alloc n) hv).bind fun st hst => ?_
    refine ((tql2_runs hn nofun nofun hst).and tql2_zero).bind fun st hst => (close_runs hn hst.1 ?_).mono fun x hx => ⟨hn, hx⟩
    intro i x hx
    have hi : i < n := by
      rw [← hst.1.2.1.1]
      by_contra h
      rw [List.getElem?_eq_none (by omega)] at hx
      simp at hx
    rw [hst.2 i x hx hi]
    exact ⟨fun _ => Signs.zero, fun _ => Signs.zero⟩
  · refine (fillT_nu n a).bind fun h hh => (orthes_runs hn hh (by simp [alloc])).bind ?_
    rintro ⟨h, v⟩ ⟨hh, hv⟩
    exact (hqr2_runs (Or.inl nofun) rfl rfl hh hv).bind fun st hst => (close_runs hn hst.1 hst.2).mono fun x hx => ⟨hn, hx⟩

theorem getD_nu {n : Nat} {x : Eigen α} (hn : 0 < n) (h : Returned n x) : NU x.getD fun b => b.rows = n ∧ b.data.length = n * n :=
  NU.iff.2 (getD_runs hn h)

end Eigen

namespace SVD

/-- What a returned decomposition of an `m × n` matrix looks like. -/
def Returned (m n : Nat) (x : SVD α) : Prop :=
  x.u.rows = m ∧ x.u.data.length = m * m ∧ x.s.rows = m ∧ x.s.data.length = m * n ∧ x.v.rows = n ∧ x.v.data.length = n * n

theorem newTall_nu {a : Mat α} {n : Nat} (fuel : Nat) (hd : a.data.length = a.rows * n) : NU (newTall fuel a) fun x => 0 < a.rows ∧ 0 < n ∧ Returned a.rows n x := by
  refine NU.iff.2 ?_
  rcases Nat.eq_zero_or_pos a.rows with h0 | hm
  · unfold newTall Mat.cols udiv
    rw [if_pos h0]
    show NotUninit .arith
    exact nofun
  have hc : a.cols = .ok n := by
    unfold Mat.cols udiv
    rw [if_neg (by omega), hd, Nat.mul_div_cancel_left _ hm]
  rcases Nat.eq_zero_or_pos n with h0 | hn
  · subst h0
    unfold newTall
    rw [hc, ok_bind]
    simp [assert, usub, show 1 ≤ a.rows from hm, bidiag, finish, loop, loopN]
    exact nofun
  by_cases hmn : n ≤ a.rows
  · exact (newTall_runs (E := NotUninit) fuel rfl hd hn hmn (Or.inl nofun)).mono fun x hx => ⟨hm, hn, hx⟩
  · unfold newTall
    rw [hc, ok_bind]
    simp [assert, hmn]
    exact nofun

/-- `SVD::new` on a matrix of complete rows. -/
theorem new_nu {a : Mat α} {n : Nat} (fuel : Nat) (hd : a.data.length = a.rows * n) : NU (new fuel a) fun x => 0 < a.rows ∧ 0 < n ∧ Returned a.rows n x := by
  unfold new
  refine (NU.cols a).bind fun c hc => ?_
  have hcn : c = n := by rw [hc.2, hd, Nat.mul_div_cancel_left _ hc.1]
  subst hcn
  split
  · refine (Mat.t_nu a).bind fun b hb => ?_
    have e1 : b.rows = c := by rw [hb.1, hd, Nat.mul_div_cancel_left _ hc.1]
    refine (newTall_nu (n := a.rows) fuel (by rw [hb.2.1, hd, e1, Nat.mul_comm])).bind fun x hx => ?_
    rw [e1] at hx
    obtain ⟨h1, h2, h3, h4, h5, h6, h7, h8⟩ := hx
    refine (Mat.t_nu x.s).bind fun s hs => NU.ok ⟨h2, h1, h7, h8, ?_, ?_, h3, h4⟩
    · show s.rows = _
      rw [hs.1, h6, h5, Nat.mul_div_cancel_left _ h1]
    · show s.data.length = _
      rw [hs.2.1, h6, Nat.mul_comm]
  · exact newTall_nu fuel hd

theorem unwrap_nu {β : Type} (o : Option β) : NU (unwrap o) fun x => o = some x := by
  cases o with
  | none => exact NU.error nofun
  | some x => exact NU.ok rfl

theorem mapM_nu {β γ : Type} {f : β → R γ} (hf : ∀ x, NU (f x) fun _ => True) : ∀ l : List β, NU (l.mapM f) fun r => r.length = l.length
  | [] => NU.ok rfl
  | x :: l => by
    rw [List.mapM_cons]
    exact (hf x).bind fun y _ => (mapM_nu hf l).bind fun r hr => NU.ok (by simp [hr])

theorem WF.div' {a : Mat α} (h : WF a) : ∃ c, 0 < c ∧ a.data.length = a.rows * c ∧ a.data.length / a.rows = c := by
  obtain ⟨h1, c, h2, h3⟩ := h
  exact ⟨c, h2, h3, by rw [h3, Nat.mul_div_cancel_left _ h1]⟩

theorem pad_nu {a s t : Mat α} (hs : WF s) (ht : WF t) : NU (pad a s t) fun x => WF x.1 ∧ WF x.2 := by
  obtain ⟨c, hc, h1, h2⟩ := WF.div' hs
  obtain ⟨d, hd, h3, h4⟩ := WF.div' ht
  unfold pad
  refine (NU.cols a).bind fun k _ => ?_
  split
  · exact NU.ok ⟨hs, ht⟩
  · refine (NU.cols a).bind fun _ _ => (NU.usub _ _).bind fun r hr => (NU.cols s).bind fun c' hc' => (Mat.zero_nu _ _).bind fun z hz => (Mat.cb_nu s z).bind fun s2 h5 => ?_
    refine (NU.cols a).bind fun _ _ => (NU.usub _ _).bind fun r' hr' => (Mat.zero_nu _ _).bind fun z' hz' => (Mat.cr_nu t z' h3 (c' := r') (by rw [hz'.1, hz'.2])).bind fun t2 h6 => NU.ok ⟨?_, ?_⟩
    · refine ⟨by show 0 < s2.rows; rw [h5.1]; omega, c, hc, ?_⟩
      have e : c' = c := by rw [hc'.2, h2]
      show s2.data.length = s2.rows * c
      rw [h5.2.1, h5.1, h1, hz.1, hz.2, e, Nat.add_mul]
    · refine ⟨by show 0 < t2.rows; rw [h6.1]; exact ht.1, d + r', by omega, ?_⟩
      show t2.data.length = t2.rows * _
      rw [h6.2.1, h6.1]

theorem mul_wf {a b : Mat α} (hb : WF b) : NU (a.mul b) WF := by
  refine (Mat.mul_nu a b).mono fun c hc => ⟨by rw [hc.1]; exact hc.2.2.1, _, ?_, by rw [hc.2.1, hc.1]⟩
  obtain ⟨d, hd, _, h⟩ := WF.div' hb
  rw [h]; exact hd

/-- `SVD::direct` for `m ≥ n`. -/
theorem directTall_nu [Signs α] (fuel : Nat) (a : Mat α) : NU (directTall fuel a) fun x => WF x.u ∧ WF x.s ∧ WF x.v := by
  unfold directTall
  refine (Mat.t_nu a).bind fun b hb => (Mat.mul_nu b a).bind fun g hg => (Eigen.new_nu fuel g).bind ?_
  generalize g.data.length / g.rows = n
  rintro x ⟨hn, h1, h2, h3, h4, h5, h6⟩
  have hv : WF x.v := ⟨by rw [h4]; exact hn, n, hn, by rw [h5, h4]⟩
  refine (mapM_nu (fun x => sqrt_nu x) x.d).bind fun sv hsv => (Mat.blockDiag_nu _ _ _).bind fun s hs => (Mat.inverse_nu s).bind fun o ho => ?_
  refine (unwrap_nu o).bind fun t ht => (pad_nu (a := a) ⟨by rw [hs.1]; exact hs.2.2.1, _, hs.2.2.2, by rw [hs.2.1, hs.1]⟩ (ho t ht)).bind ?_
  rintro ⟨s2, t2⟩ ⟨hs2, ht2⟩
  exact (mul_wf hv).bind fun u _ => (mul_wf ht2).bind fun u hu => NU.ok ⟨hu, hs2, hv⟩

theorem t_wf {a : Mat α} (ha : WF a) : NU a.t WF := by
  obtain ⟨c, hc, h1, h2⟩ := WF.div' ha
  exact (Mat.t_nu a).mono fun b hb => ⟨by rw [hb.1, h2]; exact hc, a.rows, ha.1, by rw [hb.2.1, hb.1, h2, h1, Nat.mul_comm]⟩

/-- `SVD::direct` on any matrix value. -/
theorem direct_nu [Signs α] (fuel : Nat) (a : Mat α) : NU (direct fuel a) fun x => WF x.u ∧ WF x.s ∧ WF x.v := by
  unfold direct
  refine (NU.cols a).bind fun c hc => ?_
  split
  · exact (Mat.t_nu a).bind fun b hb => (directTall_nu fuel b).bind fun x hx => (t_wf hx.2.1).bind fun s hs => NU.ok ⟨hx.2.2, hs, hx.1⟩
  · exact directTall_nu fuel a

end SVD
end LA
