import Verif.Proofs.Leftover
import Verif.Proofs.SafeDecomp
import Verif.Proofs.F64Laws
import Verif.Exact

/-! # C22 (well-formedness along histories) and C23 (no uninitialised memory is observed)

The element operations are arbitrary (floating point with NaN, integers, …). -/

namespace LA.Props
open LA
set_option linter.unusedSectionVars false

variable {α : Type} [Zero α] [One α] [Add α] [Sub α] [Neg α] [Mul α] [FloatOps α]

/-- The stored elements form complete rows. -/
def Rect (a : Mat α) : Prop := ∃ c, a.data.length = a.rows * c

/-- The call does not ask for an empty matrix: dimensions are positive and index selections are not empty. -/
def Nonempty (st : Store α) : Op α → Prop
  | .ident m n | .zero m n | .random _ m n => 0 < m ∧ 0 < n
  | .zeroVector n | .oneVector n => 0 < n
  | .permuteRows _ l | .permuteColumns _ l => l ≠ []
  | .filterRows i f => ∀ a, st[i]? = some a → ∃ r < a.rows, f a r = true
  | .filterColumns i f => ∀ a, st[i]? = some a → ∃ c, a.cols = .ok c ∧ ∃ j < c, f a j = true
  | .selectRows _ s | .selectColumns _ s => true ∈ s
  | _ => True

/-- The call keeps the number of stored elements if it writes through `get_mut_data`; if it computes eigenvalues, the element
arithmetic satisfies the laws of signs. -/
def Tame (st : Store α) : Op α → Prop
  | .setData i d => ∀ a, st[i]? = some a → d.length = a.data.length
  | .directU _ _ | .directS _ _ | .directV _ _ | .eigV _ _ | .eigD _ _ => Signs α
  | _ => True

/-- Every call of the history is tame. -/
def TameHistory (st : Store α) : List (Op α) → Prop
  | [] => True
  | op :: ops => Tame st op ∧ ∀ st', exec st op = .ok st' → TameHistory st' ops

/-- No call of the history asks for an empty matrix. -/
def NonemptyHistory (st : Store α) : List (Op α) → Prop
  | [] => True
  | op :: ops => Nonempty st op ∧ ∀ st', exec st op = .ok st' → NonemptyHistory st' ops

theorem WF.rect {a : Mat α} (h : WF a) : Rect a := by obtain ⟨-, c, -, h⟩ := h; exact ⟨c, h⟩

theorem WF.div {a : Mat α} (h : WF a) : ∃ c, 0 < c ∧ a.data.length = a.rows * c ∧ a.data.length / a.rows = c := by
  obtain ⟨h1, c, h2, h3⟩ := h
  exact ⟨c, h2, h3, by rw [h3, Nat.mul_div_cancel_left _ h1]⟩

theorem rect_mul_div {a : Mat α} (h : Rect a) : a.data.length = a.data.length / a.rows * a.rows := by
  obtain ⟨c, h⟩ := h
  rcases Nat.eq_zero_or_pos a.rows with e | e
  · rw [e] at h ⊢; simp at h; simp [h]
  · rw [h, Nat.mul_div_cancel_left _ e, Nat.mul_comm]

theorem nu_some {β : Type} {x : R β} {P : β → Prop} (h : NU x P) : NU (some <$> x) fun o => ∀ b, o = some b → P b := by
  cases x with
  | ok a => exact NU.ok (by rintro b hb; cases hb; exact h.2 a rfl)
  | error e => exact NU.error (by rintro rfl; exact h.1 rfl)

theorem nu_some' {β : Type} {x : R β} {P : β → Prop} (h : NU x P) : NU (x >>= fun a => pure (some a)) fun o => ∀ b, o = some b → P b :=
  h.bind fun a ha => NU.ok (by rintro b hb; cases hb; exact ha)

theorem nu_get {β : Type} {x : R β} {g : β → Mat α} {P : Mat α → Prop} (h : NU x fun a => P (g a)) :
    NU (x >>= fun a => pure (some (g a))) fun o => ∀ b, o = some b → P b :=
  h.bind fun a ha => NU.ok (by rintro b hb; cases hb; exact ha)

theorem getElem?_mem {st : Store α} {i : Nat} {a : Mat α} (h : st[i]? = some a) : a ∈ st := List.mem_of_getElem? h

/-- Reading a register of the store. -/
theorem reg {st : Store α} {P : Mat α → Prop} (hst : ∀ a ∈ st, P a) (i : Nat) {β : Type} {f : Mat α → R β} {Q : β → Prop}
    (hf : ∀ a, st[i]? = some a → P a → NU (f a) Q) : NU (idx st i >>= f) Q :=
  (NU.idx st i).bind fun a ha => hf a ha (hst a (getElem?_mem ha))

section
variable [Clean α]

/-- Every call on rectangular matrices yields a rectangular matrix and observes no uninitialised cell. -/
theorem eval_rect {st : Store α} (hst : ∀ a ∈ st, Rect a) (op : Op α) (ht : Tame st op) :
    NU (op.eval st) fun o => ∀ b, o = some b → Rect b := by
  have same : ∀ {a : Mat α}, Rect a → ∀ b : Mat α, b.rows = a.rows ∧ b.data.length = a.data.length → Rect b := by
    rintro a ⟨c, h⟩ b ⟨h1, h2⟩; exact ⟨c, by rw [h1, h2, h]⟩
  have mk' : ∀ {b : Mat α} (r c : Nat), b.rows = r → b.data.length = r * c → 0 < r → 0 < c → Rect b := by
    rintro b r c rfl h2 _ _; exact ⟨c, h2⟩
  cases op with
  | new r c d => exact nu_some ((new_wf r c d).mono fun _ h => WF.rect h.2)
  | vector d => exact nu_some ((Mat.vector_nu d).mono fun b h => ⟨1, by rw [h.1, h.2.1]; simp⟩)
  | rowVector d => exact nu_some ((Mat.rowVector_nu d).mono fun b h => ⟨d.length, by rw [h.1, h.2.1]; simp⟩)
  | lit rows => exact nu_some ((mMacro_nu rows).mono fun b ⟨c, _, _, h⟩ => ⟨c, h⟩)
  | readCsv c ws file p => exact nu_some ((readCsv_nu c ws file fun s => (NU.unwrap _).mono fun _ _ => trivial).mono fun b ⟨c, _, _, h⟩ => ⟨c, h⟩)
  | ident m n => exact nu_some ((Mat.id_nu m n).mono fun b h => ⟨n, by rw [h.1, h.2]⟩)
  | zero m n => exact nu_some ((Mat.zero_nu m n).mono fun b h => ⟨n, by rw [h.1, h.2]⟩)
  | diag d => exact nu_some ((Mat.diag_nu d).mono fun b h => ⟨d.length, by rw [h.1, h.2.1]⟩)
  | blockDiag m n d => exact nu_some ((Mat.blockDiag_nu m n d).mono fun b h => ⟨n, by rw [h.1, h.2.1]⟩)
  | zeroVector n => exact nu_some ((Mat.zeroVector_nu n).mono fun b h => ⟨1, by rw [h.1, h.2]; simp⟩)
  | oneVector n => exact nu_some ((Mat.oneVector_nu n).mono fun b h => ⟨1, by rw [h.1, h.2]; simp⟩)
  | random draw m n => exact nu_some ((Mat.random_nu draw m n).mono fun b h => ⟨n, by rw [h.1, h.2]⟩)
  | map i f => exact reg hst i fun a _ ha => nu_some' ((Mat.map_nu a f).mono (same ha))
  | reduce i init f => exact reg hst i fun a _ ha => nu_some' ((Mat.reduce_nu a init f).mono fun b h => ⟨b.data.length, by rw [h.1]; simp⟩)
  | scale i k => exact reg hst i fun a _ ha => nu_some' ((Mat.scale_nu a k).mono (same ha))
  | neg i => exact reg hst i fun a _ ha => nu_some' ((Mat.neg_nu a).mono (same ha))
  | t i => exact reg hst i fun a _ ha => nu_some' ((Mat.t_nu a).mono fun b h => ⟨a.rows, by rw [h.1, h.2.1]; exact rect_mul_div ha⟩)
  | minor i r c => exact reg hst i fun a _ ha => nu_some' ((Mat.minor_nu a r c).mono fun b h => ⟨_, by rw [h.1, h.2.1]⟩)
  | subMatrix i sr sc er ec => exact reg hst i fun a _ ha => nu_some' ((Mat.subMatrix_nu a sr sc er ec).mono fun b h => ⟨_, by rw [h.1, h.2.1]⟩)
  | getColumn i c => exact reg hst i fun a _ ha => nu_some' ((Mat.getColumn_nu a c).mono fun b h => ⟨1, by rw [h.1, h.2.1]; simp⟩)
  | permuteRows i l => exact reg hst i fun a _ ha => nu_some' ((Mat.permuteRows_nu a l).mono fun b h => ⟨_, by rw [h.1, h.2.1]⟩)
  | permuteColumns i l => exact reg hst i fun a _ ha => nu_some' ((Mat.permuteColumns_nu a l).mono fun b h => ⟨_, by rw [h.1, h.2]⟩)
  | filterRows i f => exact reg hst i fun a _ ha => nu_some' ((Mat.filterRows_nu a f).mono fun b h => ⟨_, h.1⟩)
  | filterColumns i f => exact reg hst i fun a _ ha => nu_some' ((Mat.filterColumns_nu a f).mono fun b ⟨_, _, c, h, _⟩ => ⟨c, h⟩)
  | selectRows i s => exact reg hst i fun a _ ha => nu_some' ((Mat.selectRows_nu a s).mono fun b h => ⟨_, h.1⟩)
  | selectColumns i s => exact reg hst i fun a _ ha => nu_some' ((Mat.selectColumns_nu a s).mono fun b ⟨_, _, c, h, _⟩ => ⟨c, h⟩)
  | add i j => exact reg hst i fun a _ ha => reg hst j fun m _ _ => nu_some' ((Mat.add_nu a m).mono (same ha))
  | sub i j => exact reg hst i fun a _ ha => reg hst j fun m _ _ => nu_some' ((Mat.sub_nu a m).mono (same ha))
  | mul i j => exact reg hst i fun a _ ha => reg hst j fun m _ _ => nu_some' ((Mat.mul_nu a m).mono fun b h => ⟨_, by rw [h.1, h.2.1]⟩)
  | elemMul i j => exact reg hst i fun a _ ha => reg hst j fun m _ _ => nu_some' ((Mat.elemMul_nu a m).mono (same ha))
  | elemDiv i j => exact reg hst i fun a _ ha => reg hst j fun m _ _ => nu_some' ((Mat.elemDiv_nu rdiv_nu a m).mono (same ha))
  | cr i j =>
    exact reg hst i fun a _ ⟨c, ha⟩ => reg hst j fun m _ ⟨c', hm⟩ => nu_some' ((Mat.cr_nu a m ha hm).mono fun b h => ⟨c + c', by rw [h.1, h.2.1]⟩)
  | cb i j =>
    refine reg hst i fun a _ ⟨c, ha⟩ => reg hst j fun m _ ⟨c', hm⟩ => nu_some' ((Mat.cb_nu a m).mono fun b h => ?_)
    obtain ⟨h1, h2, h3, h4, h5⟩ := h
    rw [ha, hm, Nat.mul_div_cancel_left _ h3, Nat.mul_div_cancel_left _ h4] at h5
    exact ⟨c, by rw [h1, h2, ha, hm, ← h5, Nat.add_mul]⟩
  | solve i j => exact reg hst i fun a _ ha => reg hst j fun m _ _ => (Mat.solve_nu a m).mono fun o h y hy => WF.rect (h y hy)
  | inverse i => exact reg hst i fun a _ ha => (Mat.inverse_nu a).mono fun o h y hy => WF.rect (h y hy)
  | pinverse i => exact reg hst i fun a _ ⟨c, ha⟩ => nu_some' ((Mat.pinverse_nu a ha).mono fun b h => ⟨_, h.2.1⟩)
  | luL i => exact reg hst i fun a _ ha => (LU.new_nu a).bind fun x _ => nu_some' ((LU.getL_nu x).mono fun _ => WF.rect)
  | luU i => exact reg hst i fun a _ ha => (LU.new_nu a).bind fun x _ => nu_some' ((LU.getU_nu x).mono fun _ => WF.rect)
  | luP i => exact reg hst i fun a _ ha => (LU.new_nu a).bind fun x hx => nu_some' ((LU.getP_nu x (by rw [hx.2.2, ← hx.1]; exact hx.2.1.1)).mono fun _ => WF.rect)
  | cholL i =>
    refine reg hst i fun a _ ha => (Cholesky.new_nu a).bind fun o ho => NU.ok fun b hb => ?_
    cases o with
    | none => cases hb
    | some x => cases hb; exact WF.rect (ho x rfl)
  | cholSolve i j =>
    refine reg hst i fun a _ ha => (Cholesky.new_nu a).bind fun o ho => ?_
    cases o with
    | none => exact NU.ok nofun
    | some x => exact reg hst j fun m _ _ => nu_some' ((Cholesky.solve_nu x m).mono fun _ => WF.rect)
  | qrH i => exact reg hst i fun a _ ha => (QR.new_nu a).bind fun x _ => nu_some' ((QR.getH_nu x).mono fun _ => WF.rect)
  | qrR i => exact reg hst i fun a _ ha => (QR.new_nu a).bind fun x _ => nu_some' ((QR.getR_nu x).mono fun _ => WF.rect)
  | qrQ i => exact reg hst i fun a _ ha => (QR.new_nu a).bind fun x _ => nu_some' ((QR.getQ_nu x).mono fun _ => WF.rect)
  | qrSolve i j => exact reg hst i fun a _ ha => (QR.new_nu a).bind fun x _ => reg hst j fun m _ _ => (QR.solve_nu x m).mono fun o h y hy => WF.rect (h y hy)
  | svdU fuel i => exact reg hst i fun a _ ⟨c, ha⟩ => nu_get ((SVD.new_nu fuel ha).mono fun x h => mk' a.rows a.rows h.2.2.1 h.2.2.2.1 h.1 h.1)
  | svdS fuel i => exact reg hst i fun a _ ⟨c, ha⟩ => nu_get ((SVD.new_nu fuel ha).mono fun x h => mk' a.rows c h.2.2.2.2.1 h.2.2.2.2.2.1 h.1 h.2.1)
  | svdV fuel i => exact reg hst i fun a _ ⟨c, ha⟩ => nu_get ((SVD.new_nu fuel ha).mono fun x h => mk' c c h.2.2.2.2.2.2.1 h.2.2.2.2.2.2.2 h.2.1 h.2.1)
  | directU fuel i => have : Signs α := ht; exact reg hst i fun a _ _ => nu_get ((SVD.direct_nu fuel a).mono fun x h => WF.rect h.1)
  | directS fuel i => have : Signs α := ht; exact reg hst i fun a _ _ => nu_get ((SVD.direct_nu fuel a).mono fun x h => WF.rect h.2.1)
  | directV fuel i => have : Signs α := ht; exact reg hst i fun a _ _ => nu_get ((SVD.direct_nu fuel a).mono fun x h => WF.rect h.2.2)
  | eigV fuel i => have : Signs α := ht; exact reg hst i fun a _ _ => nu_get ((Eigen.new_nu fuel a).mono fun x h => mk' _ _ h.2.2.2.2.1 h.2.2.2.2.2.1 h.1 h.1)
  | eigD fuel i =>
    have : Signs α := ht
    exact reg hst i fun a _ _ => (Eigen.new_nu fuel a).bind fun x h => nu_some' ((Eigen.getD_nu h.1 h.2).mono fun b hb => mk' _ _ hb.1 hb.2 h.1 h.1)
  | setData i d => exact reg hst i fun a hi ha => NU.ok (by rintro b hb; cases hb; exact same ha _ ⟨rfl, ht a hi⟩)
  | set i r c v => exact reg hst i fun a _ ha => nu_some' ((Mat.set_nu a r c v).mono (same ha))
  | mmap i f => exact reg hst i fun a _ ha => nu_some' ((Mat.mmap_nu a f).mono (same ha))
  | mneg i => exact reg hst i fun a _ ha => nu_some' ((Mat.mneg_nu a).mono (same ha))
  | mscale i k => exact reg hst i fun a _ ha => nu_some' ((Mat.mscale_nu a k).mono (same ha))
  | madd i j => exact reg hst i fun a _ ha => reg hst j fun m _ _ => nu_some' ((Mat.madd_nu a m).mono (same ha))
  | msub i j => exact reg hst i fun a _ ha => reg hst j fun m _ _ => nu_some' ((Mat.msub_nu a m).mono (same ha))
  | melemMul i j => exact reg hst i fun a _ ha => reg hst j fun m _ _ => nu_some' ((Mat.melemMul_nu a m).mono (same ha))
  | melemDiv i j => exact reg hst i fun a _ ha => reg hst j fun m _ _ => nu_some' ((Mat.melemDiv_nu rdiv_nu a m).mono (same ha))
  | mmul i j => exact reg hst i fun a _ ha => reg hst j fun m _ _ => nu_some' ((Mat.mmul_nu a m).mono fun b h => ⟨_, by rw [h.1, h.2.1]⟩)
  | mt fuel i => exact reg hst i fun a _ ha => nu_some' ((Mat.mt_nu fuel a).mono fun b h => ⟨a.rows, by rw [h.1, h.2.1]; exact rect_mul_div ha⟩)

/-- Every call on well-formed matrices that does not ask for an empty matrix yields a well-formed matrix. -/
theorem eval_wf {st : Store α} (hst : ∀ a ∈ st, WF a) (op : Op α) (ht : Tame st op) (hop : Nonempty st op) :
    NU (op.eval st) fun o => ∀ b, o = some b → WF b := by
  have same : ∀ {a : Mat α}, WF a → ∀ b : Mat α, b.rows = a.rows ∧ b.data.length = a.data.length → WF b := by
    rintro a ⟨h, c, hc, hl⟩ b ⟨h1, h2⟩; exact ⟨by rwa [h1], c, hc, by rw [h1, h2, hl]⟩
  have mk : ∀ {b : Mat α} (r c : Nat), b.rows = r → b.data.length = r * c → 0 < r → 0 < c → WF b := by
    rintro b r c rfl h2 h3 h4; exact ⟨h3, c, h4, h2⟩
  cases op with
  | new r c d => exact nu_some ((new_wf r c d).mono fun _ h => h.2)
  | vector d => exact nu_some ((Mat.vector_nu d).mono fun b h => mk _ 1 h.1 (by rw [h.2.1]; simp) h.2.2 Nat.one_pos)
  | rowVector d => exact nu_some ((Mat.rowVector_nu d).mono fun b h => mk 1 d.length h.1 (by rw [h.2.1]; simp) Nat.one_pos h.2.2)
  | lit rows => exact nu_some ((mMacro_nu rows).mono fun b ⟨c, h1, h2, h⟩ => ⟨h1, c, h2, h⟩)
  | readCsv c ws file p => exact nu_some ((readCsv_nu c ws file fun s => (NU.unwrap _).mono fun _ _ => trivial).mono fun b ⟨c, h1, h2, h⟩ => ⟨h1, c, h2, h⟩)
  | ident m n => exact nu_some ((Mat.id_nu m n).mono fun b h => mk m n h.1 h.2 hop.1 hop.2)
  | zero m n => exact nu_some ((Mat.zero_nu m n).mono fun b h => mk m n h.1 h.2 hop.1 hop.2)
  | diag d => exact nu_some ((Mat.diag_nu d).mono fun b h => mk _ _ h.1 h.2.1 h.2.2 h.2.2)
  | blockDiag m n d => exact nu_some ((Mat.blockDiag_nu m n d).mono fun b h => mk _ _ h.1 h.2.1 h.2.2.1 h.2.2.2)
  | zeroVector n => exact nu_some ((Mat.zeroVector_nu n).mono fun b h => mk n 1 h.1 (by rw [h.2]; simp) hop Nat.one_pos)
  | oneVector n => exact nu_some ((Mat.oneVector_nu n).mono fun b h => mk n 1 h.1 (by rw [h.2]; simp) hop Nat.one_pos)
  | random draw m n => exact nu_some ((Mat.random_nu draw m n).mono fun b h => mk m n h.1 h.2 hop.1 hop.2)
  | map i f => exact reg hst i fun a _ ha => nu_some' ((Mat.map_nu a f).mono (same ha))
  | reduce i init f =>
    refine reg hst i fun a _ ha => nu_some' ((Mat.reduce_nu a init f).mono fun b h => ?_)
    obtain ⟨c, hc, -, h'⟩ := WF.div ha
    exact mk 1 c h.1 (by rw [h.2.1, h']; simp) Nat.one_pos hc
  | scale i k => exact reg hst i fun a _ ha => nu_some' ((Mat.scale_nu a k).mono (same ha))
  | neg i => exact reg hst i fun a _ ha => nu_some' ((Mat.neg_nu a).mono (same ha))
  | t i =>
    refine reg hst i fun a _ ha => nu_some' ((Mat.t_nu a).mono fun b h => ?_)
    obtain ⟨c, hc, h1, h'⟩ := WF.div ha
    exact mk c a.rows (by rw [h.1, h']) (by rw [h.2.1, h1, Nat.mul_comm]) hc ha.1
  | minor i r c => exact reg hst i fun a _ ha => nu_some' ((Mat.minor_nu a r c).mono fun b h => mk _ _ h.1 h.2.1 (by omega) (by omega))
  | subMatrix i sr sc er ec => exact reg hst i fun a _ ha => nu_some' ((Mat.subMatrix_nu a sr sc er ec).mono fun b h => mk _ _ h.1 h.2.1 (by omega) (by omega))
  | getColumn i c => exact reg hst i fun a _ ha => nu_some' ((Mat.getColumn_nu a c).mono fun b h => mk _ 1 h.1 (by rw [h.2.1]; simp) h.2.2 Nat.one_pos)
  | permuteRows i l =>
    refine reg hst i fun a _ ha => nu_some' ((Mat.permuteRows_nu a l).mono fun b h => ?_)
    obtain ⟨c, hc, -, h'⟩ := WF.div ha
    exact mk _ _ h.1 h.2.1 (List.length_pos_of_ne_nil hop) (by rw [h']; exact hc)
  | permuteColumns i l => exact reg hst i fun a _ ha => nu_some' ((Mat.permuteColumns_nu a l).mono fun b h => mk _ _ h.1 h.2 ha.1 (List.length_pos_of_ne_nil hop))
  | filterRows i f =>
    refine reg hst i fun a hi ha => nu_some' ((Mat.filterRows_nu a f).mono fun b h => ?_)
    obtain ⟨c, hc, -, h'⟩ := WF.div ha
    obtain ⟨r, hr, hr'⟩ := hop a hi
    exact mk _ _ rfl h.1 (h.2.2 ⟨r, hr, hr'⟩) (by rw [h']; exact hc)
  | filterColumns i f =>
    refine reg hst i fun a hi ha => nu_some' ((Mat.filterColumns_nu a f).mono fun b ⟨h1, h2, c, h3, h4⟩ => ?_)
    obtain ⟨c', hc', j, hj, hj'⟩ := hop a hi
    refine mk _ c rfl h3 (by rw [h1]; exact h2) (h4 ⟨j, ?_, hj'⟩)
    rw [((NU.cols a).2 c' hc').2] at hj; exact hj
  | selectRows i s =>
    refine reg hst i fun a _ ha => nu_some' ((Mat.selectRows_nu a s).mono fun b h => ?_)
    obtain ⟨c, hc, -, h'⟩ := WF.div ha
    exact mk _ _ rfl h.1 (h.2.2 hop) (by rw [h']; exact hc)
  | selectColumns i s =>
    exact reg hst i fun a _ ha => nu_some' ((Mat.selectColumns_nu a s).mono fun b ⟨h1, h2, c, h3, h4⟩ => mk _ c rfl h3 (by rw [h1]; exact h2) (h4 hop))
  | add i j => exact reg hst i fun a _ ha => reg hst j fun m _ _ => nu_some' ((Mat.add_nu a m).mono (same ha))
  | sub i j => exact reg hst i fun a _ ha => reg hst j fun m _ _ => nu_some' ((Mat.sub_nu a m).mono (same ha))
  | mul i j =>
    refine reg hst i fun a _ ha => reg hst j fun m _ hm => nu_some' ((Mat.mul_nu a m).mono fun b h => ?_)
    obtain ⟨c, hc, -, h'⟩ := WF.div hm
    exact mk _ _ h.1 h.2.1 ha.1 (by rw [h']; exact hc)
  | elemMul i j => exact reg hst i fun a _ ha => reg hst j fun m _ _ => nu_some' ((Mat.elemMul_nu a m).mono (same ha))
  | elemDiv i j => exact reg hst i fun a _ ha => reg hst j fun m _ _ => nu_some' ((Mat.elemDiv_nu rdiv_nu a m).mono (same ha))
  | cr i j =>
    refine reg hst i fun a _ ha => reg hst j fun m _ hm => ?_
    obtain ⟨c, hc, h1, -⟩ := WF.div ha
    obtain ⟨c', -, h1', -⟩ := WF.div hm
    exact nu_some' ((Mat.cr_nu a m h1 h1').mono fun b h => mk _ _ h.1 h.2.1 ha.1 (by omega))
  | cb i j =>
    refine reg hst i fun a _ ha => reg hst j fun m _ hm => nu_some' ((Mat.cb_nu a m).mono fun b h => ?_)
    obtain ⟨c, hc, h1, h1'⟩ := WF.div ha
    obtain ⟨c', -, h2, h2'⟩ := WF.div hm
    have := h.2.2.2.2
    rw [h1', h2'] at this
    exact mk _ c h.1 (by rw [h.2.1, h1, h2, this, Nat.add_mul]) (by omega) hc
  | solve i j => exact reg hst i fun a _ ha => reg hst j fun m _ _ => Mat.solve_nu a m
  | inverse i => exact reg hst i fun a _ ha => Mat.inverse_nu a
  | pinverse i =>
    refine reg hst i fun a _ ha => ?_
    obtain ⟨c, hc, h1, -⟩ := WF.div ha
    exact nu_some' ((Mat.pinverse_nu a h1).mono fun b h => mk _ _ rfl h.2.1 h.1 h.2.2)
  | luL i => exact reg hst i fun a _ ha => (LU.new_nu a).bind fun x _ => nu_some' (LU.getL_nu x)
  | luU i => exact reg hst i fun a _ ha => (LU.new_nu a).bind fun x _ => nu_some' (LU.getU_nu x)
  | luP i => exact reg hst i fun a _ ha => (LU.new_nu a).bind fun x hx => nu_some' (LU.getP_nu x (by rw [hx.2.2, ← hx.1]; exact hx.2.1.1))
  | cholL i =>
    refine reg hst i fun a _ ha => (Cholesky.new_nu a).bind fun o ho => NU.ok fun b hb => ?_
    cases o with
    | none => cases hb
    | some x => cases hb; exact ho x rfl
  | cholSolve i j =>
    refine reg hst i fun a _ ha => (Cholesky.new_nu a).bind fun o ho => ?_
    cases o with
    | none => exact NU.ok nofun
    | some x => exact reg hst j fun m _ _ => nu_some' (Cholesky.solve_nu x m)
  | qrH i => exact reg hst i fun a _ ha => (QR.new_nu a).bind fun x _ => nu_some' (QR.getH_nu x)
  | qrR i => exact reg hst i fun a _ ha => (QR.new_nu a).bind fun x _ => nu_some' (QR.getR_nu x)
  | qrQ i => exact reg hst i fun a _ ha => (QR.new_nu a).bind fun x _ => nu_some' (QR.getQ_nu x)
  | qrSolve i j => exact reg hst i fun a _ ha => (QR.new_nu a).bind fun x _ => reg hst j fun m _ _ => QR.solve_nu x m
  | svdU fuel i => exact reg hst i fun a _ ⟨_, c, _, ha⟩ => nu_get ((SVD.new_nu fuel ha).mono fun x h => mk a.rows a.rows h.2.2.1 h.2.2.2.1 h.1 h.1)
  | svdS fuel i => exact reg hst i fun a _ ⟨_, c, _, ha⟩ => nu_get ((SVD.new_nu fuel ha).mono fun x h => mk a.rows c h.2.2.2.2.1 h.2.2.2.2.2.1 h.1 h.2.1)
  | svdV fuel i => exact reg hst i fun a _ ⟨_, c, _, ha⟩ => nu_get ((SVD.new_nu fuel ha).mono fun x h => mk c c h.2.2.2.2.2.2.1 h.2.2.2.2.2.2.2 h.2.1 h.2.1)
  | directU fuel i => have : Signs α := ht; exact reg hst i fun a _ _ => nu_get ((SVD.direct_nu fuel a).mono fun x h => h.1)
  | directS fuel i => have : Signs α := ht; exact reg hst i fun a _ _ => nu_get ((SVD.direct_nu fuel a).mono fun x h => h.2.1)
  | directV fuel i => have : Signs α := ht; exact reg hst i fun a _ _ => nu_get ((SVD.direct_nu fuel a).mono fun x h => h.2.2)
  | eigV fuel i => have : Signs α := ht; exact reg hst i fun a _ _ => nu_get ((Eigen.new_nu fuel a).mono fun x h => mk _ _ h.2.2.2.2.1 h.2.2.2.2.2.1 h.1 h.1)
  | eigD fuel i =>
    have : Signs α := ht
    exact reg hst i fun a _ _ => (Eigen.new_nu fuel a).bind fun x h => nu_some' ((Eigen.getD_nu h.1 h.2).mono fun b hb => mk _ _ hb.1 hb.2 h.1 h.1)
  | setData i d => exact reg hst i fun a hi ha => NU.ok (by rintro b hb; cases hb; exact same ha _ ⟨rfl, ht a hi⟩)
  | set i r c v => exact reg hst i fun a _ ha => nu_some' ((Mat.set_nu a r c v).mono (same ha))
  | mmap i f => exact reg hst i fun a _ ha => nu_some' ((Mat.mmap_nu a f).mono (same ha))
  | mneg i => exact reg hst i fun a _ ha => nu_some' ((Mat.mneg_nu a).mono (same ha))
  | mscale i k => exact reg hst i fun a _ ha => nu_some' ((Mat.mscale_nu a k).mono (same ha))
  | madd i j => exact reg hst i fun a _ ha => reg hst j fun m _ _ => nu_some' ((Mat.madd_nu a m).mono (same ha))
  | msub i j => exact reg hst i fun a _ ha => reg hst j fun m _ _ => nu_some' ((Mat.msub_nu a m).mono (same ha))
  | melemMul i j => exact reg hst i fun a _ ha => reg hst j fun m _ _ => nu_some' ((Mat.melemMul_nu a m).mono (same ha))
  | melemDiv i j => exact reg hst i fun a _ ha => reg hst j fun m _ _ => nu_some' ((Mat.melemDiv_nu rdiv_nu a m).mono (same ha))
  | mmul i j =>
    refine reg hst i fun a _ ha => reg hst j fun m _ hm => nu_some' ((Mat.mmul_nu a m).mono fun b h => ?_)
    obtain ⟨c, hc, -, h'⟩ := WF.div hm
    exact mk _ _ h.1 h.2.1 ha.1 (by rw [h']; exact hc)
  | mt fuel i =>
    refine reg hst i fun a _ ha => nu_some' ((Mat.mt_nu fuel a).mono fun b h => ?_)
    obtain ⟨c, hc, h1, h'⟩ := WF.div ha
    exact mk c a.rows (by rw [h.1, h']) (by rw [h.2.1, h1, Nat.mul_comm]) hc ha.1

theorem exec_nu {P : Mat α → Prop} {st : Store α} (hst : ∀ a ∈ st, P a) {op : Op α}
    (h : NU (op.eval st) fun o => ∀ b, o = some b → P b) : NU (exec st op) fun st' => ∀ a ∈ st', P a := by
  unfold exec
  refine h.bind fun o ho => ?_
  cases o with
  | none => exact NU.ok hst
  | some b =>
    have hb := ho b rfl
    dsimp only
    cases op.dest with
    | fresh =>
      refine NU.ok fun a ha => ?_
      rcases List.mem_append.1 ha with ha | ha
      · exact hst a ha
      · rw [List.mem_singleton.1 ha]; exact hb
    | inPlace i =>
      dsimp only
      unfold setIdx
      split
      · refine NU.ok fun a ha => ?_
        rcases List.mem_or_eq_of_mem_set ha with ha | ha
        · exact hst a ha
        · rw [ha]; exact hb
      · exact NU.error nofun

theorem run_nu (st : Store α) (hst : ∀ a ∈ st, Rect a) (ops : List (Op α)) (ht : TameHistory st ops) :
    NU (run st ops) fun st' => ∀ a ∈ st', Rect a := by
  induction ops generalizing st with
  | nil => exact NU.ok hst
  | cons op ops ih =>
    rw [run, List.foldlM_cons]
    have h := exec_nu hst (eval_rect hst op ht.1)
    exact ⟨fun hu => by
      rcases hx : exec st op with e | s
      · rw [hx] at hu; exact h.1 (hx.trans hu)
      · rw [hx] at hu; exact (ih s (h.2 s hx) (ht.2 s hx)).1 hu, fun st' h' => by
      obtain ⟨s, hs, h'⟩ := bind_eq_ok.1 h'
      exact (ih s (h.2 s hs) (ht.2 s hs)).2 st' h'⟩

/-- The call neither writes through `get_mut_data` nor computes eigenvalues. -/
def Plain : Op α → Prop
  | .setData _ _ | .directU _ _ | .directS _ _ | .directV _ _ | .eigV _ _ | .eigD _ _ => False
  | _ => True

/-- The call does not write through `get_mut_data`. -/
def NoRawWrite : Op α → Prop
  | .setData _ _ => False
  | _ => True

theorem tame_of (ops : List (Op α)) (h : ∀ op ∈ ops, ∀ st : Store α, Tame st op) (st : Store α) : TameHistory st ops := by
  induction ops generalizing st with
  | nil => trivial
  | cons op ops ih => exact ⟨h op (by simp) st, fun s _ => ih (fun o ho => h o (by simp [ho])) s⟩

theorem tame_plain {ops : List (Op α)} (h : ∀ op ∈ ops, Plain op) (st : Store α) : TameHistory st ops := by
  refine tame_of ops (fun op ho s => ?_) st
  have := h op ho
  cases op <;> first | trivial | exact this.elim

theorem tame_signs [Signs α] {ops : List (Op α)} (h : ∀ op ∈ ops, NoRawWrite op) (st : Store α) : TameHistory st ops := by
  refine tame_of ops (fun op ho s => ?_) st
  have := h op ho
  cases op <;> first | trivial | assumption | exact this.elim

/-- C23: no history of calls reads an uninitialised cell or returns a matrix with one, whatever the calls, arguments and element
operations.  Two restrictions: writes through `get_mut_data` keep the number of elements (see `C23_refuted_raw`), and where
eigenvalues are computed the element operations satisfy the laws of signs. -/
theorem C23_no_uninit_partial (st : Store α) (hst : ∀ a ∈ st, WF a) (ops : List (Op α)) (ht : TameHistory st ops) : run st ops ≠ .error .uninit :=
  (run_nu st (fun a ha => WF.rect (hst a ha)) ops ht).1

/-- C23, any element operations: histories without eigenvalues and raw writes. -/
theorem C23_plain_partial (ops : List (Op α)) (h : ∀ op ∈ ops, Plain op) : run [] ops ≠ .error .uninit :=
  (run_nu [] (by simp) ops (tame_plain h [])).1

/-- C23, element operations with the laws of signs (reals, IEEE doubles): histories without raw writes. -/
theorem C23_signs_partial [Signs α] (ops : List (Op α)) (h : ∀ op ∈ ops, NoRawWrite op) : run [] ops ≠ .error .uninit :=
  (run_nu [] (by simp) ops (tame_signs h [])).1

/-- C22 (partial, all tame histories): the elements of every matrix form complete rows. -/
theorem C22_rectangular_partial (ops : List (Op α)) (st : Store α) (ht : TameHistory [] ops) (h : run [] ops = .ok st) :
    ∀ a ∈ st, ∃ c, a.data.length = a.rows * c := (run_nu [] (by simp) ops ht).2 st h

/-- C22 (partial): well-formedness is preserved along every tame history in which no call asks for an empty matrix. -/
theorem C22_wf_partial (st st' : Store α) (hst : ∀ a ∈ st, WF a) (ops : List (Op α)) (ht : TameHistory st ops) (hops : NonemptyHistory st ops)
    (h : run st ops = .ok st') : ∀ a ∈ st', WF a := by
  induction ops generalizing st with
  | nil => cases h; exact hst
  | cons op ops ih =>
    rw [run, List.foldlM_cons] at h
    obtain ⟨s, hs, h⟩ := bind_eq_ok.1 h
    exact ih s ((exec_nu hst (eval_wf hst op ht.1 hops.1)).2 s hs) (ht.2 s hs) (hops.2 s hs) h

end

/-- C23 is false of the code as stated: after `get_mut_data().push(y)` on the `2 × 1` matrix `[x; x]`, `cr` reads memory that was never
written (its buffer has six cells, its loops write four). -/
theorem C23_refuted_raw (x y : α) : run [] [.new 2 1 [x, x], .setData 0 [x, x, y], .cr 0 0] = .error .uninit := by
  simp [run, exec, Op.eval, Op.dest, Mat.new, idx, setIdx, Mat.cr, Mat.cols, udiv, alloc, freeze, assert, loop, loopN, wr]

/-- C22 is false of the code as stated: `get_mut_data` lets the caller store any number of elements. -/
theorem C22_refuted_raw (x y : α) : ∃ a : Mat α, run [] [.new 2 1 [x, x], .setData 0 [x, x, y]] = .ok [a] ∧ a.cols = .ok 1 ∧ ¬ WF a := by
  refine ⟨⟨2, [x, x, y]⟩, ?_, by simp [Mat.cols, udiv], ?_⟩
  · simp [run, exec, Op.eval, Op.dest, Mat.new, idx, setIdx]
  · rintro ⟨-, c, -, h⟩
    simp only [List.length_cons, List.length_nil] at h
    omega

/-- C22 is false of the code as stated: `permute_rows(&[])` of a well-formed matrix gives a matrix without rows, whose
`cols()` panics. -/
theorem C22_refuted_permute (x : α) : ∃ a : Mat α,
    run [] [.new 1 1 [x], .permuteRows 0 []] = .ok [⟨1, [x]⟩, a] ∧ a.rows = 0 ∧ ¬ WF a ∧ a.cols = .error .arith :=
  ⟨⟨0, []⟩, by simp [run, exec, Op.eval, Op.dest, Mat.new, idx, Mat.permuteRows, Mat.cols, udiv, alloc, freeze], rfl, fun h => absurd h.1 (by simp), rfl⟩

/-- C22 is false of the code as stated: `Matrix::zero(0, n)` is accepted. -/
theorem C22_refuted_zero (n : Nat) : ∃ a : Mat α, run [] [.zero 0 n] = .ok [a] ∧ ¬ WF a ∧ a.cols = .error .arith := by
  refine ⟨⟨0, []⟩, ?_, fun h => absurd h.1 (by simp), rfl⟩
  simp [run, exec, Op.eval, Op.dest, Mat.zero, Mat.zeroFill, alloc, freeze]

/-! ## C55: calls change nothing but their receiver -/

/-- The `&mut self` methods of src/matrix.rs (`set`, `mmap`, `mneg`, `mscale`, `madd`, `msub`, `melem_mul`, `melem_div`,
`mmul`, `mt`, `get_mut_data`) and their receiver; every other function takes `&self` or no matrix. -/
def receiver : Op α → Option Nat
  | .set i _ _ _ => some i
  | .mmap i _ => some i
  | .mneg i => some i
  | .mscale i _ => some i
  | .madd i _ => some i
  | .msub i _ => some i
  | .melemMul i _ => some i
  | .melemDiv i _ => some i
  | .mmul i _ => some i
  | .mt _ i => some i
  | .setData i _ => some i
  | _ => none

theorem setIdx_ok_eq {β : Type} {l l' : List β} {i : Nat} {x : β} (h : setIdx l i x = .ok l') : l' = l.set i x ∧ i < l.length := by
  unfold setIdx at h
  split at h
  · cases h; exact ⟨rfl, ‹_›⟩
  · exact nomatch h

/-- C55: a call without a mutable receiver leaves every existing matrix as it is and adds at most one. -/
theorem C55_pure_call (st st' : Store α) (op : Op α) (hop : receiver op = none) (h : exec st op = .ok st') :
    st' = st ∨ ∃ a, st' = st ++ [a] := by
  unfold exec at h
  obtain ⟨o, h1, h2⟩ := bind_eq_ok.1 h
  cases o with
  | none => cases h2; exact Or.inl rfl
  | some a =>
    right
    refine ⟨a, ?_⟩
    cases op
    all_goals first
      | (exfalso; simp [receiver] at hop; done)
      | (cases h2; rfl)

/-- C55: a call on a mutable receiver changes the receiver only. -/
theorem C55_mut_call (st st' : Store α) (op : Op α) (i : Nat) (hop : receiver op = some i) (h : exec st op = .ok st') :
    st'.length = st.length ∧ ∀ j, j ≠ i → st'[j]? = st[j]? := by
  unfold exec at h
  obtain ⟨o, h1, h2⟩ := bind_eq_ok.1 h
  cases o with
  | none => cases h2; exact ⟨rfl, fun _ _ => rfl⟩
  | some a =>
    cases op
    all_goals first
      | (exfalso; simp [receiver] at hop; done)
      | (simp only [receiver, Option.some.injEq] at hop
         subst hop
         obtain ⟨rfl, -⟩ := setIdx_ok_eq h2
         exact ⟨by simp, fun j hj => List.getElem?_set_ne (Ne.symm hj)⟩)

/-- C55: along any history, a matrix that is never the receiver of a mutating call keeps its value. -/
theorem C55_history (st st' : Store α) (ops : List (Op α)) (j : Nat) (hj : j < st.length)
    (hops : ∀ op ∈ ops, receiver op ≠ some j) (h : run st ops = .ok st') : st'[j]? = st[j]? := by
  induction ops generalizing st with
  | nil => cases h; rfl
  | cons op ops ih =>
    rw [run, List.foldlM_cons] at h
    obtain ⟨s, hs, h⟩ := bind_eq_ok.1 h
    have key : s[j]? = st[j]? ∧ j < s.length := by
      cases hr : receiver op with
      | none =>
        rcases C55_pure_call st s op hr hs with rfl | ⟨a, rfl⟩
        · exact ⟨rfl, hj⟩
        · exact ⟨List.getElem?_append_left hj, by simp; omega⟩
      | some i =>
        obtain ⟨h1, h2⟩ := C55_mut_call st s op i hr hs
        refine ⟨h2 j ?_, by omega⟩
        rintro rfl
        exact hops op (by simp) hr
    rw [ih s key.2 (fun o ho => hops o (by simp [ho])) h, key.1]

/-- C55: what a mutating call leaves at its receiver is what the corresponding method computes from the old values. -/
theorem C55_mut_value (st st' : Store α) (op : Op α) (i : Nat) (hop : receiver op = some i) (h : exec st op = .ok st') :
    ∃ a, op.eval st = .ok (some a) ∧ st'[i]? = some a := by
  unfold exec at h
  obtain ⟨o, h1, h2⟩ := bind_eq_ok.1 h
  cases o with
  | none =>
    exfalso
    cases op
    all_goals first
      | (simp [receiver] at hop; done)
      | (simp only [Op.eval] at h1
         simp only [bind_eq_ok, pure_eq_ok, Except.ok.injEq, reduceCtorEq, and_false, exists_false] at h1)
  | some a =>
    refine ⟨a, h1, ?_⟩
    cases op
    all_goals first
      | (exfalso; simp [receiver] at hop; done)
      | (simp only [receiver, Option.some.injEq] at hop
         subst hop
         obtain ⟨rfl, hlt⟩ := setIdx_ok_eq h2
         simp [hlt])

instance : Clean ℝ where
  rdiv x y := by simp only [RDiv.rdiv]; split <;> nofun
  sqrt x := by simp only [FloatOps.sqrt]; split <;> nofun

instance : Clean ℚ where
  rdiv x y := by simp only [RDiv.rdiv]; split <;> nofun
  sqrt x := nofun

instance : Clean F64 where
  rdiv _ _ := nofun
  sqrt _ := nofun

/-- A history over IEEE doubles with an eigenvalue and a singular value decomposition and a raw write: it is tame. -/
example : TameHistory ([] : Store F64) [.lit [[1, 0], [1, 1]], .setData 0 [1, 1, 1, 0], .eigV 20 0, .svdS 20 0] :=
  ⟨trivial, fun st h => ⟨fun a ha => by
    have e : exec ([] : Store F64) (.lit [[1, 0], [1, 1]]) = .ok [⟨2, [1, 0, 1, 1]⟩] := by decide +kernel
    rw [e] at h
    cases h
    simp at ha
    simp [← ha], fun _ _ => ⟨inferInstanceAs (Signs F64), fun _ _ => ⟨trivial, fun _ _ => trivial⟩⟩⟩⟩

/-- And it returns. -/
example : (run ([] : Store F64) [.lit [[1, 0], [1, 1]], .setData 0 [1, 1, 1, 0], .eigV 20 0, .svdS 20 0]).isOk := by decide +kernel

/-- A history with construction, multiplication, in-place transposition and a decomposition. -/
example : run ([] : Store ℚ) [.lit [[2, 1, 0], [0, 1, 3]], .t 0, .mul 0 1, .inverse 2, .mt 6 0, .filterRows 0 fun _ i => i == 1] =
    .ok [⟨3, [2, 0, 1, 1, 0, 3]⟩, ⟨3, [2, 0, 1, 1, 0, 3]⟩, ⟨2, [5, 1, 1, 10]⟩, ⟨2, [10/49, -1/49, -1/49, 5/49]⟩, ⟨1, [1, 1]⟩] := by
  decide +kernel

example : NonemptyHistory ([] : Store ℚ) [.lit [[2, 1]], .selectColumns 0 [false, true]] :=
  ⟨trivial, fun _ _ => ⟨show true ∈ [false, true] by simp, fun _ _ => trivial⟩⟩

/-- A history in which matrix 0 is never a receiver, so `C55_history` applies to it, and matrix 1 is. -/
example : run ([] : Store ℚ) [.lit [[2, 1], [0, 1]], .t 0, .madd 1 0] = .ok [⟨2, [2, 1, 0, 1]⟩, ⟨2, [4, 1, 1, 2]⟩] ∧
    receiver (.madd 1 0 : Op ℚ) = some 1 := ⟨by decide +kernel, rfl⟩

end LA.Props
