import Verif.Model.Word
import Verif.Props.Blocks

/-!
# C02, C14: what machine arithmetic changes
-/

namespace LA.Props
open LA
variable {α : Type}

/-! ## C02 -/

/-- C02, debug builds: whatever `Matrix::new` returns really stores `r * c` elements, and it accepts exactly what the
unbounded model accepts. -/
theorem C02_new_debug (w r c : Nat) (data : List α) (hlen : data.length < 2 ^ w) (a : Mat α) :
    Mat.newW .debug w r c data = .ok a ↔
      a = ⟨r, data⟩ ∧ data.length = r * c ∧ 0 < r ∧ 0 < c := by
  unfold Mat.newW mulW
  by_cases h : r * c < 2 ^ w
  · simp only [h, if_true, ok_bind]
    by_cases h1 : r * c = data.length
    · rw [assert_of (by simpa using h1), ok_bind]
      by_cases h2 : 0 < r ∧ 0 < c
      · rw [assert_of (by simpa using h2), ok_bind]
        simp only [pure_eq_ok, Except.ok.injEq]
        constructor
        · rintro rfl; exact ⟨rfl, h1.symm, h2⟩
        · rintro ⟨rfl, -⟩; rfl
      · rw [assert_not (by simpa using h2)]
        constructor
        · intro h'; exact nomatch h'
        · rintro ⟨-, -, h3⟩; exact absurd h3 h2
    · rw [assert_beq_ne h1]
      constructor
      · intro h'; exact nomatch h'
      · rintro ⟨-, h3, -⟩; exact absurd h3.symm h1
  · simp only [h, if_false]
    constructor
    · intro h'; exact nomatch h'
    · rintro ⟨-, h3, -⟩; omega

/-- C02, release builds, the part that holds: when the true product fits in a word. Missing: products that do not fit,
see `C02_refuted_release`. -/
theorem C02_new_release_partial (w r c : Nat) (data : List α) (hfit : r * c < 2 ^ w) (a : Mat α)
    (h : Mat.newW .release w r c data = .ok a) : a.rows = r ∧ a.data = data ∧ data.length = r * c := by
  unfold Mat.newW mulW at h
  rw [Nat.mod_eq_of_lt hfit] at h
  simp only [bind_eq_ok] at h
  obtain ⟨p, hp, u, hu, v, hv, h⟩ := h
  cases hp
  cases h
  refine ⟨rfl, rfl, ?_⟩
  by_contra hc
  rw [assert_beq_ne (Ne.symm hc)] at hu
  exact nomatch hu

/-- C02 is false in release builds, for every even word size: `new(2^h, 2^h, vec![])` succeeds although `2^(2h)` elements
are required; every access to the result panics. -/
theorem C02_refuted_release (h : Nat) :
    ∃ a : Mat α, Mat.newW .release (2 * h) (2 ^ h) (2 ^ h) ([] : List α) = .ok a ∧
      a.data.length ≠ 2 ^ h * 2 ^ h ∧ a.cols = .ok 0 ∧ ∀ i j, a.get i j = .error .assert := by
  have hp : 2 ^ h * 2 ^ h = 2 ^ (2 * h) := by rw [← pow_add]; congr 1; omega
  have hpos : 0 < 2 ^ h := Nat.pow_pos (by decide)
  have hc : (⟨2 ^ h, []⟩ : Mat α).cols = .ok 0 := by
    unfold Mat.cols; rw [udiv_ok (by dsimp only; omega)]; simp
  refine ⟨⟨2 ^ h, []⟩, ?_, ?_, hc, ?_⟩
  · unfold Mat.newW mulW
    rw [hp, Nat.mod_self]
    simp [hpos]
  · simp
  · intro i j
    unfold Mat.get
    by_cases hi : i < 2 ^ h
    · rw [assert_lt hi, ok_bind, hc, ok_bind, assert_not_lt (by omega)]; rfl
    · rw [assert_not_lt hi]; rfl

/-- The same for `Matrix::zero` in release builds. -/
theorem C02_refuted_release_zero [Zero α] (h : Nat) :
    ∃ a : Mat α, Mat.zeroW .release (2 * h) (2 ^ h) (2 ^ h) = .ok a ∧ a.data.length ≠ 2 ^ h * 2 ^ h := by
  have hp : 2 ^ h * 2 ^ h = 2 ^ (2 * h) := by rw [← pow_add]; congr 1; omega
  have hpos : 0 < 2 ^ h := Nat.pow_pos (by decide)
  refine ⟨⟨2 ^ h, []⟩, ?_, by simp⟩
  unfold Mat.zeroW mulW
  rw [hp, Nat.mod_self]
  rfl

example : Mat.newW .release 64 (2 ^ 32) (2 ^ 32) ([] : List Nat) = .ok ⟨2 ^ 32, []⟩ := by decide
example : Mat.newW .debug 64 2 2 [1, 2, 3, 4] = .ok ⟨2, [1, 2, 3, 4]⟩ := by decide

/-! ## C14 -/

theorem mtCycleW_eq (mode : Mode) (w rows last c : Nat)
    (h : ∀ i, i < last → mulW mode w rows i = .ok (rows * i)) :
    ∀ (fuel i : Nat) (prev : α) (data : List α) (vis : List Bool), i < last →
      Mat.mtCycleW mode w rows last c fuel i prev data vis = Mat.mtCycle rows last c fuel i prev data vis := by
  intro fuel
  induction fuel with
  | zero => intros; rfl
  | succ fuel ih =>
    intro i prev data vis hi
    simp only [Mat.mtCycleW, Mat.mtCycle, h i hi, ok_bind, umod_ok (show last ≠ 0 by omega)]
    have hlt : rows * i % last < last := Nat.mod_lt _ (by omega)
    congr 1; funext cur
    congr 1; funext data
    split
    · rfl
    · congr 1; funext vis
      exact ih _ _ _ _ hlt

theorem mtW_eq_mt (mode : Mode) (w : Nat) (a : Mat α) (fuel : Nat)
    (h : ∀ i, i < a.data.length - 1 → mulW mode w a.rows i = .ok (a.rows * i)) : a.mtW mode w fuel = a.mt fuel := by
  unfold Mat.mtW Mat.mt
  by_cases hl : 1 ≤ a.data.length
  · simp only [usub_ok hl, ok_bind]
    congr 1
    refine loop_congr ?_
    rintro i ⟨data, vis⟩ h1 h2
    dsimp only
    congr 1; funext b
    cases b
    · simp only [Bool.false_eq_true, if_false]
      congr 1; funext prev
      exact mtCycleW_eq mode w a.rows _ i h fuel i prev data vis h2
    · rfl
  · simp only [usub, if_neg hl, error_bind]

/-- C14, the part that holds: in both build modes `mt()` is `t()` as long as `rows * (rows*cols - 2)` fits in a word.
Missing: larger matrices, for which the property is false (`C14_refuted_*`). -/
theorem C14_mt_word_partial (mode : Mode) (w : Nat) (a : Mat α) (hwf : WF a) (fuel : Nat)
    (hf : a.data.length ≤ fuel + 1) (hfit : a.rows * (a.data.length - 2) < 2 ^ w) : a.mtW mode w fuel = a.t := by
  rw [mtW_eq_mt, C13_mt a hwf fuel hf]
  intro i hi
  have h1 : a.rows * i ≤ a.rows * (a.data.length - 2) := Nat.mul_le_mul_left _ (by omega)
  have h2 : a.rows * i < 2 ^ w := by omega
  cases mode
  · simp [mulW, h2]
  · simp [mulW, Nat.mod_eq_of_lt h2]

theorem mtCycleW_succ {mode : Mode} {w rows last c fuel i p i' : Nat} {prev : α} {data : List α} {vis : List Bool}
    (hm : mulW mode w rows i = .ok p) (hl : last ≠ 0) (hi : p % last = i') (hd : i' < data.length) :
    Mat.mtCycleW mode w rows last c (fuel + 1) i prev data vis =
      if i' = c then .ok (data.set i' prev, vis)
      else (setIdx vis i' true >>= fun vis => Mat.mtCycleW mode w rows last c fuel i' data[i'] (data.set i' prev) vis) := by
  subst hi
  simp only [Mat.mtCycleW, hm, ok_bind, umod_ok hl, idx_lt hd, setIdx_lt hd, pure_eq_ok]

theorem mtCycleW_debug_or (w rows last c : Nat) (hlast : last ≠ 0) :
    ∀ (fuel i : Nat) (prev : α) (data : List α) (vis : List Bool),
      Mat.mtCycleW .debug w rows last c fuel i prev data vis = Mat.mtCycle rows last c fuel i prev data vis ∨
      Mat.mtCycleW .debug w rows last c fuel i prev data vis = .error .arith := by
  intro fuel
  induction fuel with
  | zero => intros; exact Or.inl rfl
  | succ fuel ih =>
    intro i prev data vis
    simp only [Mat.mtCycleW, Mat.mtCycle, mulW]
    by_cases h : rows * i < 2 ^ w
    · simp only [h, if_true, ok_bind, umod_ok hlast]
      cases idx data (rows * i % last) with
      | error e => exact Or.inl rfl
      | ok cur =>
        simp only [ok_bind]
        cases setIdx data (rows * i % last) prev with
        | error e => exact Or.inl rfl
        | ok data' =>
          simp only [ok_bind]
          split
          · exact Or.inl rfl
          · cases setIdx vis (rows * i % last) true with
            | error e => exact Or.inl rfl
            | ok vis' => exact ih _ _ _ _
    · simp only [h, if_false, error_bind]
      exact Or.inr trivial

theorem loop_or {σ : Type} {lo hi : Nat} {e : Err} {f g : Nat → σ → R σ}
    (h : ∀ i s, lo ≤ i → i < hi → f i s = g i s ∨ f i s = .error e) (s : σ) :
    loop lo hi s f = loop lo hi s g ∨ loop lo hi s f = .error e := by
  by_cases hle : lo ≤ hi
  · induction hi, hle using Nat.le_induction with
    | base => simp
    | succ k hk ih =>
      rw [loop_succ hk, loop_succ hk]
      rcases ih fun i s h1 h2 => h i s h1 (by omega) with h1 | h1
      · rw [h1]
        cases loop lo k s g with
        | error e => exact Or.inl rfl
        | ok s' => exact h k s' hk (by omega)
      · rw [h1]; exact Or.inr rfl
  · rw [loop_empty (by omega), loop_empty (by omega)]; exact Or.inl rfl

theorem mulW_debug_ok {w a b p : Nat} (h : mulW .debug w a b = .ok p) : a * b < 2 ^ w := by
  unfold mulW at h
  by_contra hc
  simp only [hc, if_false] at h
  exact nomatch h

/-- In a successful debug run, every marked index has been multiplied without overflow. -/
theorem mtCycleW_debug_marks (w rows last c : Nat) :
    ∀ (fuel i : Nat) (prev : α) (data : List α) (vis : List Bool) (out : List α × List Bool),
      (∀ p, vis[p]? = some true → rows * p < 2 ^ w ∨ p = i) →
      Mat.mtCycleW .debug w rows last c fuel i prev data vis = .ok out →
      rows * i < 2 ^ w ∧ out.2.length = vis.length ∧ ∀ p, out.2[p]? = some true → rows * p < 2 ^ w := by
  intro fuel
  induction fuel with
  | zero => intro i prev data vis out _ h; exact nomatch h
  | succ fuel ih =>
    intro i prev data vis out hv h
    simp only [Mat.mtCycleW, bind_eq_ok] at h
    obtain ⟨p, hp, i', -, cur, -, data', -, h⟩ := h
    have hi := mulW_debug_ok hp
    refine ⟨hi, ?_⟩
    split at h
    · cases h
      refine ⟨rfl, fun p hp => ?_⟩
      rcases hv p hp with h | h
      · exact h
      · rw [h]; exact hi
    · rw [bind_eq_ok] at h
      obtain ⟨vis', hvis', h⟩ := h
      have hlt : i' < vis.length := by
        by_contra hc
        simp [setIdx, hc] at hvis'
      rw [setIdx_lt hlt] at hvis'
      cases hvis'
      have := ih i' cur data' (vis.set i' true) out (fun p hp => ?_) h
      · exact ⟨by simpa using this.2.1, this.2.2⟩
      · by_cases e : p = i'
        · exact Or.inr e
        · rw [List.getElem?_set_ne (Ne.symm e)] at hp
          rcases hv p hp with h' | h'
          · exact Or.inl h'
          · rw [h']; exact Or.inl hi

/-- C14, debug builds, exact characterisation: on a well-formed matrix `mt()` is `t()` when `rows * (rows*cols - 2)` fits in
a word and panics with an arithmetic overflow otherwise. -/
theorem C14_mt_debug (w : Nat) (a : Mat α) (hwf : WF a) (fuel : Nat) (hf : a.data.length ≤ fuel + 1) :
    (a.rows * (a.data.length - 2) < 2 ^ w → a.mtW .debug w fuel = a.t) ∧
    (¬ a.rows * (a.data.length - 2) < 2 ^ w → a.mtW .debug w fuel = .error .arith) := by
  refine ⟨C14_mt_word_partial .debug w a hwf fuel hf, fun hover => ?_⟩
  have hlen : 2 < a.data.length := by
    by_contra hc
    apply hover
    rw [show a.data.length - 2 = 0 by omega, Nat.mul_zero]
    exact Nat.pow_pos (by decide)
  unfold Mat.mtW
  simp only [usub_ok (show 1 ≤ a.data.length by omega), ok_bind]
  have hmt := C13_mt a hwf fuel hf
  obtain ⟨m, n, hm, hn, A, rfl⟩ := hwf.exists_ofM'
  rw [t_ofM hm] at hmt
  unfold Mat.mt at hmt
  simp only [usub_ok (show 1 ≤ (ofM A).data.length by omega), ok_bind] at hmt
  rw [bind_eq_ok] at hmt
  obtain ⟨s, hs, -⟩ := hmt
  generalize hlast : (ofM A).data.length - 1 = last at *
  rcases loop_or (e := .arith) (lo := 1) (hi := last)
    (f := fun cycleIdx (x : List α × List Bool) => do
      if ← idx x.2 cycleIdx then
        return (x.1, x.2)
      else
        let prev ← idx x.1 cycleIdx
        Mat.mtCycleW .debug w (ofM A).rows last cycleIdx fuel cycleIdx prev x.1 x.2)
    (g := fun cycleIdx (x : List α × List Bool) => do
      if ← idx x.2 cycleIdx then
        return (x.1, x.2)
      else
        let prev ← idx x.1 cycleIdx
        Mat.mtCycle (ofM A).rows last cycleIdx fuel cycleIdx prev x.1 x.2) (by
      rintro i ⟨data, vis⟩ h1 h2
      dsimp only
      cases idx vis i with
      | error e => exact Or.inl rfl
      | ok b =>
        simp only [ok_bind]
        cases b
        · simp only [Bool.false_eq_true, if_false]
          cases idx data i with
          | error e => exact Or.inl rfl
          | ok prev => exact mtCycleW_debug_or w _ last i (by omega) fuel i prev data vis
        · exact Or.inl rfl) ((ofM A).data, List.replicate (ofM A).data.length false) with h | h
  · exfalso
    rw [hs] at h
    obtain ⟨⟨data, vis⟩, s', hv, hstep⟩ := loop_state_ok
      (fun _ (x : List α × List Bool) => ∀ p, x.2[p]? = some true → (ofM A).rows * p < 2 ^ w) h
      (by intro p hp
          rw [List.getElem?_replicate] at hp
          split at hp <;> simp at hp)
      (by
        rintro i ⟨data, vis⟩ s' hv hstep
        simp only [bind_eq_ok] at hstep
        obtain ⟨b, hb, hstep⟩ := hstep
        cases b
        · simp only [Bool.false_eq_true, if_false, bind_eq_ok] at hstep
          obtain ⟨prev, -, hstep⟩ := hstep
          exact (mtCycleW_debug_marks w _ last i fuel i prev data vis s' (fun p hp => Or.inl (hv p hp)) hstep).2.2
        · cases hstep; exact hv)
      (last - 1) (by omega) (by omega)
    apply hover
    rw [show (ofM A).data.length - 2 = last - 1 by omega]
    simp only [bind_eq_ok] at hstep
    obtain ⟨b, hb, hstep⟩ := hstep
    cases b
    · simp only [Bool.false_eq_true, if_false, bind_eq_ok] at hstep
      obtain ⟨prev, -, hstep⟩ := hstep
      exact (mtCycleW_debug_marks w _ last _ fuel _ prev data vis s' (fun p hp => Or.inl (hv p hp)) hstep).1
    · exact hv _ (idx_eq_ok.1 hb)
  · rw [h]; rfl

example : (⟨5, [1, 2, 3, 4, 5]⟩ : Mat Nat).mtW .debug 4 5 = .ok ⟨1, [1, 2, 3, 4, 5]⟩ := by decide
example : (⟨6, [1, 2, 3, 4, 5, 6]⟩ : Mat Nat).mtW .debug 4 6 = .error .arith := by decide

/-- C14 is false in release builds: for every word size `w ≥ 3`, on a column vector of `2^(w-1)` elements `mt()` never
terminates (the model runs out of every step budget). -/
theorem C14_refuted_release (w : Nat) (hw : 3 ≤ w) (v : Fin (2 ^ (w - 1)) → α) (fuel : Nat) :
    (ofM (colVec v)).mtW .release w fuel = .error .fuel := by
  obtain ⟨k, rfl⟩ : ∃ k, w = k + 3 := ⟨w - 3, by omega⟩
  have hM : 2 ^ (k + 3 - 1) = 4 * 2 ^ k := by
    rw [show k + 3 - 1 = k + 2 by omega, pow_add]; omega
  have hW : 2 ^ (k + 3) = 2 * (4 * 2 ^ k) := by rw [pow_add]; omega
  have hk : 0 < 2 ^ k := Nat.pow_pos (by decide)
  revert v
  rw [hM]
  intro v
  generalize hN : 4 * 2 ^ k = N at *
  have hN4 : 4 ≤ N := by omega
  unfold Mat.mtW
  simp only [ofM_length, Nat.mul_one, ofM_rows]
  rw [usub_ok (by omega), ok_bind]
  -- once the walk reaches position 0 it stays there
  have hstuck : ∀ (fuel : Nat) (prev : α) (data : List α) (vis : List Bool), data.length = N → vis.length = N →
      Mat.mtCycleW .release (k + 3) N (N - 1) 2 fuel 0 prev data vis = .error .fuel := by
    intro fuel
    induction fuel with
    | zero => intros; rfl
    | succ fuel ih =>
      intro prev data vis hd hv
      rw [mtCycleW_succ (p := 0) (i' := 0) (by simp [mulW]) (by omega) (by simp) (by omega), if_neg (by decide),
        setIdx_lt (by omega), ok_bind]
      exact ih _ _ _ (by simpa using hd) (by simpa using hv)
  cases fuel with
  | zero =>
    rw [loop_error (e := .fuel) (j := 1) (fun _ s => s = ((ofM (colVec v)).data, List.replicate N false)) le_rfl (by omega)
      rfl (fun _ _ h1 h2 => by omega) ?_]
    · rfl
    · rintro ⟨data, vis⟩ hs
      simp only [Prod.mk.injEq] at hs
      obtain ⟨rfl, rfl⟩ := hs
      dsimp only
      rw [idx_eq (x := false) (by rw [List.getElem?_replicate_of_lt (by omega)]), ok_bind, if_neg (by decide),
        idx_lt (by simp; omega), ok_bind]
      rfl
  | succ fuel =>
    rw [loop_error (e := .fuel) (j := 2) (fun _ (s : List α × List Bool) => s.1.length = N ∧
      s.2 = List.replicate N false) (by omega) (by omega) ⟨by simp, rfl⟩ ?_ ?_]
    · rfl
    · rintro i ⟨data, vis⟩ h1 h2 ⟨hd, hv⟩
      simp only at hd hv
      obtain rfl : i = 1 := by omega
      subst hv
      dsimp only
      rw [idx_eq (x := false) (by rw [List.getElem?_replicate_of_lt (by omega)]), ok_bind, if_neg (by decide),
        idx_lt (by omega), ok_bind]
      have e : N % (N - 1) = 1 := by
        obtain ⟨q, rfl⟩ : ∃ q, N = q + 1 := ⟨N - 1, by omega⟩
        rw [Nat.add_sub_cancel, Nat.add_mod_left, Nat.mod_eq_of_lt (by omega)]
      rw [mtCycleW_succ (p := N) (i' := 1) (by simp only [mulW, Nat.mul_one, hW]; rw [Nat.mod_eq_of_lt (by omega)])
        (by omega) e (by omega), if_pos rfl]
      exact Post.ok ⟨by simpa using hd, rfl⟩
    · rintro ⟨data, vis⟩ ⟨hd, hv⟩
      simp only at hd hv
      subst hv
      dsimp only
      rw [idx_eq (x := false) (by rw [List.getElem?_replicate_of_lt (by omega)]), ok_bind, if_neg (by decide),
        idx_lt (by omega), ok_bind]
      rw [mtCycleW_succ (p := 0) (i' := 0) (by simp only [mulW, hW]; rw [show N * 2 = 2 * N by omega, Nat.mod_self])
        (by omega) (by simp) (by omega), if_neg (by decide), setIdx_lt (by simp; omega), ok_bind]
      exact hstuck fuel _ _ _ (by simpa using hd) (by simp)

example : (⟨2, [1, 2, 3, 4, 5, 6]⟩ : Mat Nat).mtW .release 64 5 = .ok ⟨3, [1, 4, 2, 5, 3, 6]⟩ := by decide
example : (⟨2, [1, 2, 3, 4, 5, 6]⟩ : Mat Nat).rows * ((⟨2, [1, 2, 3, 4, 5, 6]⟩ : Mat Nat).data.length - 2) < 2 ^ 64 := by
  decide

end LA.Props
