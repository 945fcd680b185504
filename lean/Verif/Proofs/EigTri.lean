import Verif.Proofs.RunsEigen3
import Verif.Proofs.Vec

/-! # `EigenDecomposition::new` on an upper triangular matrix: every iteration deflates -/

namespace LA
set_option linter.unusedSectionVars false

/-- Arithmetic with a notion of numbers far enough from zero for the deflation test. -/
class Deflates (α : Type) [Zero α] [Add α] [Mul α] [FloatOps α] where
  /-- positive and not too small -/
  big : α → Prop
  zero : (0 : α) + 0 = 0
  left : ∀ x : α, big x → big (0 + x)
  right : ∀ x : α, big x → big (x + 0)
  add : ∀ x y : α, big x → big y → big (x + y)
  eq : FloatOps.eq (0 : α) 0 = true
  ne : ∀ x : α, big x → FloatOps.eq x 0 = false
  gap : ∀ x : α, big x → FloatOps.lt 0 (Eigen.eps * x) = true

variable {α : Type} [Zero α] [One α] [Add α] [Sub α] [Neg α] [Mul α] [FloatOps α] [Deflates α]

/-- Zero, or far from it. -/
def Sized (x : α) : Prop := x = 0 ∨ Deflates.big x

theorem Sized.add {x y : α} (hx : Sized x) (hy : Sized y) : Sized (x + y) := by
  rcases hx with rfl | hx <;> rcases hy with rfl | hy
  · exact Or.inl Deflates.zero
  · exact Or.inr (Deflates.left _ hy)
  · exact Or.inr (Deflates.right _ hx)
  · exact Or.inr (Deflates.add _ _ hx hy)

theorem Sized.big_left {x y : α} (hx : Deflates.big x) (hy : Sized y) : Deflates.big (x + y) := by
  rcases hy with rfl | hy
  · exact Deflates.right _ hx
  · exact Deflates.add _ _ hx hy

theorem Sized.big_right {x y : α} (hx : Sized x) (hy : Deflates.big y) : Deflates.big (x + y) := by
  rcases hx with rfl | hx
  · exact Deflates.left _ hy
  · exact Deflates.add _ _ hx hy

namespace Eigen

/-- An upper triangular table. -/
structure TriT (n : Nat) (F : Nat → Nat → α) : Prop where
  low : ∀ i j, j < i → i < n → FloatOps.abs (F i j) = 0 ∧ FloatOps.eq (F i j) 0 = true
  up : ∀ i j, i ≤ j → j < n → Sized (FloatOps.abs (F i j))

theorem TriT.all {n : Nat} {F : Nat → Nat → α} (hF : TriT n F) {i j : Nat} (hi : i < n) (hj : j < n) : Sized (FloatOps.abs (F i j)) := by
  rcases Nat.lt_or_ge j i with h | h
  · exact Or.inl (hF.low i j h hi).1
  · exact hF.up i j h hj

theorem orthStep_tri {n m : Nat} {h ort : Buf α} {F : Nat → Nat → α} (hF : TriT n F) (hh : Grid h n n fun i j => some (F i j)) (h1 : 1 ≤ m) (hm : m < n) :
    orthStep n m h ort = .ok (h, ort) := by
  unfold orthStep
  have : (loop m n (0 : α) fun i s => do return s + FloatOps.abs (← rd h (i * n + (m - 1)))) = .ok 0 := by
    refine Post.eq_ok (loop_post_const (fun s => s = 0) rfl fun i s h2 h3 hs => ?_)
    rw [hh.rd h3 (show m - 1 < n by omega) rfl, ok_bind, (hF.low i (m - 1) (by omega) h3).1, hs]
    exact Post.ok Deflates.zero
  rw [this, ok_bind, Deflates.eq]
  rfl

theorem orthAcc_tri {n m : Nat} {h ort v : Buf α} {F : Nat → Nat → α} (hF : TriT n F) (hh : Grid h n n fun i j => some (F i j)) (h1 : 1 ≤ m) (hm : m < n) :
    orthAcc n m h ort v = .ok (ort, v) := by
  unfold orthAcc
  rw [hh.rd hm (show m - 1 < n by omega) rfl, ok_bind, (hF.low m (m - 1) (by omega) hm).2]
  rfl

theorem fillId {n : Nat} {v : Buf α} {G : Nat → Nat → Option α} (hv : Grid v n n G) :
    Post (loop 0 n v fun i v => loop 0 n v fun j v => wr v (i * n + j) (if i = j then 1 else 0)) fun v =>
      Grid v n n fun i j => some (if i = j then 1 else 0) := by
  refine (loop_rows (lo := 0) (hi := n) (fun a b => some (if a = b then (1 : α) else 0)) hv ?_).mono fun r h =>
    h.congr fun a b ha _ => by rw [if_pos ⟨by omega, ha⟩]
  intro i d' G' _ hi hG _
  refine (loop_cols (lo := 0) (hi := n) (fun a b => if a = i then some (if i = b then (1 : α) else 0) else G' a b) hG ?_).mono fun r h =>
    h.congr fun a b _ hb => by
      by_cases e : a = i
      · subst e; rw [if_pos ⟨by omega, hb⟩, if_pos rfl]
      · rw [if_pos ⟨by omega, hb⟩, if_neg e]
  intro j d2 G2 _ hj hG2 h2
  refine (hG2.wr hi hj _).mono fun r h => h.congr fun a b ha hb => ?_
  have h3 := h2 a b
  unfold upd
  clear h2
  by_cases e : a = i
  · subst e
    by_cases e2 : b = j
    · subst e2; simp
    · rw [if_neg (by omega), if_neg e2]
  · by_cases e2 : b = j
    · subst e2; rw [if_neg (by omega), if_pos rfl, if_neg e]; exact h3 (by omega)
    · rw [if_neg (by omega), if_neg e2]

theorem orthes_tri {n : Nat} {h v : Buf α} {F : Nat → Nat → α} {G : Nat → Nat → Option α} (hn : 0 < n) (hF : TriT n F)
    (hh : Grid h n n fun i j => some (F i j)) (hv : Grid v n n G) :
    Post (orthes n h v) fun r => r.1 = h ∧ Grid r.2 n n fun i j => some (if i = j then 1 else 0) := by
  unfold orthes
  rw [usub_ok (show 1 ≤ n by omega), ok_bind]
  have h1 : (loop 1 (n - 1) (h, alloc α n) fun m (x : Buf α × Buf α) => (do let (h, ort) := x; orthStep n m h ort : R (Buf α × Buf α))) = .ok (h, alloc α n) := by
    refine Post.eq_ok (loop_post_const (fun s => s = (h, alloc α n)) rfl fun i s h2 h3 hs => ?_)
    subst hs
    dsimp only
    rw [orthStep_tri hF hh h2 (by omega)]
    exact Post.ok rfl
  erw [h1]
  rw [ok_bind]
  dsimp only
  refine (fillId hv).bind fun v hv => ?_
  have h2 : Post (loopRev 1 (n - 1) (alloc α n, v) fun m (x : Buf α × Buf α) => (do let (ort, v) := x; orthAcc n m h ort v : R (Buf α × Buf α))) fun s => s = (alloc α n, v) := by
    by_cases h1 : 1 ≤ n - 1
    · refine loopRev_post (fun _ s => s = (alloc α n, v)) h1 rfl fun i s h2 h3 hs => ?_
      subst hs
      dsimp only
      rw [orthAcc_tri hF hh h2 (by omega)]
      exact Post.ok rfl
    · unfold loopRev
      rw [show n - 1 - 1 = 0 by omega]
      exact Post.ok rfl
  erw [Post.eq_ok h2]
  exact Post.ok ⟨rfl, hv⟩

theorem hqrNorm_tri {n : Nat} {h : Buf α} {F : Nat → Nat → α} (hF : TriT n F) (hh : Grid h n n fun i j => some (F i j)) :
    Post (hqrNorm n h) fun N => Sized N ∧ ∀ i j, i ≤ j → j < n → Deflates.big (FloatOps.abs (F i j)) → Deflates.big N := by
  unfold hqrNorm
  refine (loop_post (fun k N => Sized N ∧ ∀ i j, i < k → i ≤ j → j < n → Deflates.big (FloatOps.abs (F i j)) → Deflates.big N) (Nat.zero_le n)
    ⟨Or.inl rfl, fun i j h => absurd h (Nat.not_lt_zero _)⟩ ?_).mono fun N hN => ⟨hN.1, fun i j h1 h2 => hN.2 i j (by omega) h1 h2⟩
  intro i N _ hi ⟨hN, hb⟩
  refine (loop_post (fun k N' => Sized N' ∧ (Deflates.big N → Deflates.big N') ∧ ∀ j, i ≤ j → j < k → Deflates.big (FloatOps.abs (F i j)) → Deflates.big N')
    (show i - 1 ≤ n by omega) ⟨hN, id, fun j h1 h2 => by omega⟩ ?_).mono fun N' hN' => ⟨hN'.1, fun a b h1 h2 h3 h4 => ?_⟩
  · intro j N' h1 hj ⟨g1, g2, g3⟩
    rw [hh.rd hi hj rfl, ok_bind]
    have hs := hF.all hi hj
    refine Post.ok ⟨g1.add hs, fun h => Sized.big_left (g2 h) hs, fun b h2 h3 h4 => ?_⟩
    rcases Nat.lt_or_ge b j with h5 | h5
    · exact Sized.big_left (g3 b h2 h5 h4) hs
    · have : b = j := by omega
      subst this
      exact Sized.big_right g1 h4
  · rcases Nat.lt_or_ge a i with h5 | h5
    · exact hN'.2.1 (hb a b h5 h2 h3 h4)
    · have : a = i := by omega
      subst this
      exact hN'.2.2 b h2 h3 h4

theorem findL_tri {nn n : Nat} {norm : α} {h : Buf α} {F G : Nat → Nat → α} (hF : TriT nn F) (hb : Deflates.big norm) (hn : n < nn)
    (hh : Grid h nn nn fun i j => some (G i j)) (hG : ∀ i j, i ≤ n → j ≤ n → G i j = F i j) : findL nn norm h n = .ok n := by
  rcases n with _ | l
  · rw [findL]
  · rw [findL, hh.rd (show l < nn by omega) (show l < nn by omega) rfl, ok_bind, hh.rd hn hn rfl, ok_bind, hh.rd hn (show l < nn by omega) rfl, ok_bind,
      hG _ _ (by omega) (by omega), hG _ _ (by omega) (by omega), hG _ _ (by omega) (by omega), (hF.low (l + 1) l (by omega) hn).1]
    have hs : Sized (FloatOps.abs (F l l) + FloatOps.abs (F (l + 1) (l + 1))) := (hF.all (by omega) (by omega)).add (hF.all hn hn)
    rcases hs with h0 | h0
    · rw [h0, Deflates.eq, if_pos rfl, Deflates.gap _ hb]; rfl
    · rw [Deflates.ne _ h0, if_neg (show ¬ (false = true) by simp), Deflates.gap _ h0]; rfl

/-- The table with `0` added to the diagonal entries from `c` on. -/
def bump (c : Nat) (F : Nat → Nat → α) : Nat → Nat → α := fun i j => if i = j ∧ c ≤ i then F i i + 0 else F i j

theorem hqrLoop_tri {nn : Nat} {norm : α} {F : Nat → Nat → α} (hF : TriT nn F) (hb : Deflates.big norm) : ∀ (fuel c : Nat) (st : Hqr α), c ≤ fuel → c ≤ nn →
    st.ex = 0 → (Grid st.h nn nn fun i j => some (bump c F i j)) → (∃ D : Nat → Option α, Vect st.d nn fun i => if c ≤ i then some (F i i + 0) else D i) →
    (∃ D : Nat → Option α, Vect st.e nn fun i => if c ≤ i then some 0 else D i) →
    Post (hqrLoop nn norm fuel c st) fun o => o.v = st.v ∧ (Grid o.h nn nn fun i j => some (bump 0 F i j)) ∧ (Vect o.d nn fun i => some (F i i + 0)) ∧
      Vect o.e nn fun _ => some 0 := by
  intro fuel
  induction fuel with
  | zero =>
    rintro c st h1 h2 h3 h4 ⟨D, h5⟩ ⟨D', h6⟩
    have : c = 0 := by omega
    subst this
    rw [hqrLoop]
    exact Post.ok ⟨rfl, h4, h5.congr fun i _ => if_pos (Nat.zero_le _), h6.congr fun i _ => if_pos (Nat.zero_le _)⟩
  | succ fuel ih =>
    rintro c st h1 h2 h3 h4 ⟨D, h5⟩ ⟨D', h6⟩
    rcases c with _ | n
    · rw [hqrLoop]
      exact Post.ok ⟨rfl, h4, h5.congr fun i _ => if_pos (Nat.zero_le _), h6.congr fun i _ => if_pos (Nat.zero_le _)⟩
    · have hn : n < nn := by omega
      rw [hqrLoop, findL_tri hF hb hn h4 (fun i j hi hj => by unfold bump; rw [if_neg (by omega)]), ok_bind, if_pos rfl]
      have hone : Post (oneRoot nn n st) fun o => o.v = st.v ∧ o.ex = 0 ∧ (Grid o.h nn nn fun i j => some (bump n F i j)) ∧
          (∃ D : Nat → Option α, Vect o.d nn fun i => if n ≤ i then some (F i i + 0) else D i) ∧ (∃ D : Nat → Option α, Vect o.e nn fun i => if n ≤ i then some 0 else D i) := by
        unfold oneRoot
        have e1 : bump (n + 1) F n n = F n n := by unfold bump; rw [if_neg (by omega)]
        rw [h4.rd hn hn rfl, ok_bind, e1, h3]
        refine (h4.wr hn hn _).bind fun h hg => ?_
        rw [hg.rd hn hn (upd_same _ _ _ _), ok_bind]
        refine (h5.wr hn _).bind fun d hd => (h6.wr hn _).bind fun e he => Post.ok ⟨rfl, rfl, hg.congr fun i j _ _ => ?_, ⟨D, hd.congr fun i _ => ?_⟩, ⟨D', he.congr fun i _ => ?_⟩⟩
        · unfold upd bump
          beta_reduce
          by_cases hi : i = n ∧ j = n
          · rw [if_pos hi, if_pos (by omega), hi.1]
          · rw [if_neg hi]
            congr 1
            by_cases hc : i = j ∧ n + 1 ≤ i
            · rw [if_pos hc, if_pos (by omega)]
            · rw [if_neg hc, if_neg (by omega)]
        · unfold updv
          beta_reduce
          by_cases hi : i = n
          · rw [if_pos hi, if_pos (by omega), hi]
          · rw [if_neg hi]
            by_cases hc : n + 1 ≤ i
            · rw [if_pos hc, if_pos (by omega)]
            · rw [if_neg hc, if_neg (by omega)]
        · unfold updv
          beta_reduce
          by_cases hi : i = n
          · rw [if_pos hi, if_pos (by omega)]
          · rw [if_neg hi]
            by_cases hc : n + 1 ≤ i
            · rw [if_pos hc, if_pos (by omega)]
            · rw [if_neg hc, if_neg (by omega)]
      refine hone.bind fun o ho => ?_
      obtain ⟨g1, g2, g3, g4, g5⟩ := ho
      exact (ih n o (by omega) (by omega) g2 g3 g4 g5).mono fun o' h => ⟨h.1.trans g1, h.2⟩

theorem fillT_tri {n : Nat} (A : Matrix (Fin n) (Fin n) α) :
    Post (loop 0 n (alloc α (n * n)) fun j h => loop 0 n h fun i h => do wr h (i * n + j) (← (ofM A).get i j)) fun v =>
      Grid v n n fun i j => some (ext A i j) := by
  refine (loop_cols (lo := 0) (hi := n) (fun a b => some (ext A a b)) (grid_alloc n n) ?_).mono fun r h =>
    h.congr fun a b _ hb => by rw [if_pos ⟨by omega, hb⟩]
  intro j d' G' _ hj hG _
  refine (loop_rows (lo := 0) (hi := n) (fun a b => if b = j then some (ext A a b) else G' a b) hG ?_).mono fun r h =>
    h.congr fun a b ha _ => by
      by_cases e : b = j
      · subst e; rw [if_pos ⟨by omega, ha⟩, if_pos rfl]
      · rw [if_pos ⟨by omega, ha⟩, if_neg e, if_neg e]
  intro i d2 G2 _ hi hG2 h2
  rw [ofM_get A hi hj, ok_bind]
  refine (hG2.wr hi hj _).mono fun r h => h.congr fun a b ha hb => ?_
  have h3 := h2 a b
  have h4 := ext_eq A hi hj
  clear h2
  by_cases e : a = i
  · subst e
    rw [if_pos rfl]
    by_cases e2 : b = j
    · subst e2; simp [h4]
    · rw [upd_ne (by omega), if_neg e2, h3 (by omega)]
  · rw [upd_ne (by omega), if_neg e]

theorem Grid.toGF {d : Buf α} {m n : Nat} {F : Nat → Nat → α} (h : Grid d m n fun i j => some (F i j)) : GF d m n :=
  ⟨h.1, fun i j hi hj _ => ⟨_, h.2 i j hi hj⟩⟩

theorem Vect.toVF {d : Buf α} {n : Nat} {f : Nat → α} (h : Vect d n fun i => some (f i)) : VF d n := ⟨h.1, fun i hi _ => ⟨_, h.2 i hi⟩⟩

variable {E : Err → Prop} [Elem E α] [Signs α]

/-- On an upper triangular matrix that is not diagonal, the first phase takes `n` steps; the rest cannot fail except by division. -/
theorem new_tri {n : Nat} (hn : 0 < n) (A : Matrix (Fin n) (Fin n) α) (hF : TriT n (ext A)) (hS : ¬ TestsSymm A le_rfl)
    (hb : ∃ i j, i ≤ j ∧ j < n ∧ Deflates.big (FloatOps.abs (ext A i j))) (fuel : Nat) (hf : n ≤ fuel) :
    Runs E (new fuel (ofM A)) fun x => x.n = n ∧ x.d = List.ofFn (fun i : Fin n => A i i + 0) ∧ x.e = List.replicate n 0 ∧
      x.v.rows = n ∧ x.v.data.length = n * n := by
  unfold new newWith
  rw [ofM_cols A hn, ok_bind]
  dsimp only
  refine (isSymm_runs A le_rfl).bind fun b hb' => Runs.ite (fun hc => absurd (hb'.1 hc) hS) fun _ => ?_
  obtain ⟨h, hr, hh⟩ := fillT_tri A
  erw [hr]
  rw [ok_bind]
  obtain ⟨⟨h1, v⟩, hr, e1, hv⟩ := orthes_tri hn hF hh (grid_alloc n n)
  rw [hr, ok_bind]
  dsimp only at e1 hv ⊢
  subst e1
  unfold hqr2
  obtain ⟨N, hr, hN, hbig⟩ := hqrNorm_tri hF hh
  obtain ⟨i, j, hij, hj, hb⟩ := hb
  have hbN := hbig i j hij hj hb
  dsimp only
  rw [hr, ok_bind]
  obtain ⟨o, hr, o1, o2, o3, o4⟩ := hqrLoop_tri hF hbN fuel n (⟨alloc α n, alloc α n, h1, v, 0, 0⟩ : Hqr α) hf le_rfl rfl
    (hh.congr fun i j _ _ => by unfold bump; rw [if_neg (by omega)])
    ⟨fun _ => none, (vect_alloc n).congr fun i hi => by rw [if_neg (by omega)]⟩ ⟨fun _ => none, (vect_alloc n).congr fun i hi => by rw [if_neg (by omega)]⟩
  rw [hr, ok_bind, Deflates.ne _ hbN, if_neg (by simp)]
  have hs : Wd (EndSign n) o.e := by
    intro i x hx
    have hi : i < n := by
      rw [← o4.1]
      by_contra h
      rw [List.getElem?_eq_none (by omega)] at hx
      simp at hx
    rw [o4.2 i hi] at hx
    have : x = 0 := by simpa using hx.symm
    subst this
    exact ⟨fun _ => Signs.zero, fun _ => Signs.zero⟩
  refine Runs.bind (P := fun st : Dev α => st.d = o.d ∧ st.e = o.e ∧ GF st.v n n) ?_ ?_
  · refine Runs.bind (Runs.loopRevC (fun h => GF h n n) (Grid.toGF o2) fun k h _ hk hh => vecStep_runs hk (Vect.toVF o3) (Vect.toVF o4) hs hh) fun h hh => ?_
    refine (backTransform_runs hh ?_).bind fun v hv => Runs.ok ⟨rfl, rfl, hv⟩
    rw [o1]
    exact Grid.toGF hv
  · rintro ⟨d, e, v⟩ ⟨rfl, rfl, hv⟩
    dsimp only at hv ⊢
    rw [Vect.freeze o3 (fun i => ext A i i + 0) (fun i _ => rfl), ok_bind, Vect.freeze o4 (fun _ => 0) (fun i _ => rfl), ok_bind]
    refine (GB.freeze hv).bind fun l hl => (Mat.new_runs hl hn hn).bind fun w hw => Runs.ok ⟨rfl, ?_, ?_, hw.1, hw.2⟩
    · simp only [ext_fin]
    · simp [List.ofFn_const]

end Eigen
end LA
