import Verif.Props.Effects
import Verif.Props.Sizes

/-!
# C82: what a panic leaves behind

The state of the receiver after a call, whether it returned or panicked.
-/

namespace LA.Props
open LA Act
set_option linter.unusedSectionVars false
variable {σ α β : Type}

/-- Updates of the elements one after another, in place: `fs` are the updates, `xs` the elements.  If an update panics, this element and
those after it are as before. -/
def inPlace : List (α → Act σ α) → List α → σ → R Unit × σ × List α
  | f :: fs, x :: xs, s =>
    match f x s with
    | (.ok y, s') => let r := inPlace fs xs s'; (r.1, r.2.1, y :: r.2.2)
    | (.error e, s') => (.error e, s', x :: xs)
  | _, xs, s => (.ok (), s, xs)

theorem forN_inPlace (r : Nat) (fs : List (α → Act σ α)) (xs pre : List α) (s : σ) (h : fs.length = xs.length)
    (b : Nat → Unit → Act (σ × Mat α) Unit)
    (hb : ∀ j (hj : j < fs.length), b (pre.length + j) () =
      (Mat.peek (pre.length + j) >>= fun x => world (fs[j] x) >>= fun y => Mat.poke (pre.length + j) y)) :
    forN xs.length pre.length () b (s, ⟨r, pre ++ xs⟩) =
      ((inPlace fs xs s).1, (inPlace fs xs s).2.1, ⟨r, pre ++ (inPlace fs xs s).2.2⟩) := by
  induction fs generalizing xs pre s with
  | nil => obtain rfl : xs = [] := List.eq_nil_of_length_eq_zero h.symm; rfl
  | cons f fs ih =>
    rcases xs with _ | ⟨x, xs⟩
    · simp at h
    have h0 := hb 0 (by simp)
    simp only [Nat.add_zero, List.getElem_cons_zero] at h0
    rw [List.length_cons, forN_succ, h0]
    have hp : (Mat.peek pre.length : Act (σ × Mat α) α) (s, ⟨r, pre ++ x :: xs⟩) = (.ok x, s, ⟨r, pre ++ x :: xs⟩) := by
      unfold Mat.peek idx; simp
    rw [bind_apply, bind_apply, hp]
    dsimp only
    rw [bind_apply]
    have hw : (world (f x) : Act (σ × Mat α) α) (s, ⟨r, pre ++ x :: xs⟩) = ((f x s).1, (f x s).2, ⟨r, pre ++ x :: xs⟩) := rfl
    rw [hw]
    unfold inPlace
    rcases f x s with ⟨e | y, s'⟩
    · rfl
    · dsimp only
      have hk : (Mat.poke pre.length y : Act (σ × Mat α) Unit) (s', ⟨r, pre ++ x :: xs⟩) = (.ok (), s', ⟨r, (pre ++ [y]) ++ xs⟩) := by
        unfold Mat.poke; simp
      rw [hk]
      dsimp only
      have := ih xs (pre ++ [y]) s' (by simpa using h) (fun j hj => by
        have := hb (j + 1) (by simpa using hj)
        rw [List.length_append, List.length_singleton, show pre.length + 1 + j = pre.length + (j + 1) by omega, this]; rfl)
      rw [List.length_append, List.length_singleton] at this
      rw [this]
      simp

/-- The outcome of a sweep over the receiver. -/
def swept (fs : List (α → Act σ α)) (a : Mat α) (s : σ) : R Unit × σ × Mat α :=
  ((inPlace fs a.data s).1, (inPlace fs a.data s).2.1, ⟨a.rows, (inPlace fs a.data s).2.2⟩)

theorem for0_inPlace (fs : List (α → Act σ α)) (a : Mat α) (s : σ) (h : fs.length = a.data.length)
    (b : Nat → Unit → Act (σ × Mat α) Unit)
    (hb : ∀ j (hj : j < fs.length), b j () = (Mat.peek j >>= fun x => world (fs[j] x) >>= fun y => Mat.poke j y)) :
    for0 a.data.length () b (s, a) = swept fs a s := by
  have := forN_inPlace a.rows fs a.data [] s h b (fun j hj => by simpa using hb j hj)
  simpa [swept, for0] using this

/-- C82: `mmap`. -/
theorem C82_mmap (f : α → Act σ α) (a : Mat α) (s : σ) :
    Mat.mmapA f (s, a) = swept (a.data.map fun _ => f) a s := by
  show for0 a.data.length () _ (s, a) = _
  exact for0_inPlace _ a s (by simp) _ fun j hj => by simp

section
variable [ElemOps σ α]

/-- C82: `mneg`, `mscale`. -/
theorem C82_unary (a : Mat α) (s : σ) (k : α) :
    Mat.mnegA (s, a) = swept (a.data.map fun _ => ElemOps.neg) a s ∧
    Mat.mscaleA k (s, a) = swept (a.data.map fun _ x => ElemOps.mul k x) a s := by
  constructor
  · show for0 a.data.length () _ (s, a) = _
    exact for0_inPlace _ a s (by simp) _ fun j hj => by simp
  · show for0 a.data.length () _ (s, a) = _
    exact for0_inPlace _ a s (by simp) _ fun j hj => by simp

theorem binary_aux {m n : Nat} (A B : Matrix (Fin m) (Fin n) α) (s : σ) (op : α → α → Act σ α) :
    for0 (ofM A).data.length () (fun i _ => do
      let y ← world (op (← Mat.peek i) (← lift (idx (ofM B).data i)))
      Mat.poke i y) (s, ofM A) = swept ((ofM B).data.map fun y x => op x y) (ofM A) s := by
  refine for0_inPlace _ _ s (by simp [ofM_length]) _ fun j hj => ?_
  have hj' : j < (ofM B).data.length := by simpa using hj
  rw [idx_lt hj']
  simp

/-- C82: `madd`, `msub`, `melem_mul`, `melem_div` of matrices of one shape. -/
theorem C82_binary {m n : Nat} (hm : 0 < m) (A B : Matrix (Fin m) (Fin n) α) (s : σ) :
    Mat.maddA (ofM B) (s, ofM A) = swept ((ofM B).data.map fun y x => ElemOps.add x y) (ofM A) s ∧
    Mat.msubA (ofM B) (s, ofM A) = swept ((ofM B).data.map fun y x => ElemOps.sub x y) (ofM A) s ∧
    Mat.melemMulA (ofM B) (s, ofM A) = swept ((ofM B).data.map fun y x => ElemOps.mul x y) (ofM A) s ∧
    Mat.melemDivA (ofM B) (s, ofM A) = swept ((ofM B).data.map fun y x => ElemOps.div x y) (ofM A) s := by
  have hs : Mat.assertSameShape (ofM A) (ofM B) = .ok () := by
    unfold Mat.assertSameShape
    rw [ofM_cols A hm, ofM_cols B hm, ofM_rows, ofM_rows]
    simp [assert]
  have key : ∀ op : α → α → Act σ α, (do
      let a ← Mat.self
      lift (Mat.assertSameShape a (ofM B))
      for0 a.data.length () fun i _ => do
        let y ← world (op (← Mat.peek i) (← lift (idx (ofM B).data i)))
        Mat.poke i y : Act (σ × Mat α) Unit) (s, ofM A) = swept ((ofM B).data.map fun y x => op x y) (ofM A) s := by
    intro op
    rw [bind_apply]
    show (lift (Mat.assertSameShape (ofM A) (ofM B)) >>= _ : Act (σ × Mat α) Unit) (s, ofM A) = _
    rw [hs, lift_ok_bind]
    exact binary_aux A B s op
  exact ⟨key _, key _, key _, key _⟩

/-- C82: `madd`, `msub`, `melem_mul`, `melem_div` of matrices of different shapes panic before anything is changed. -/
theorem C82_shapes {m n p q : Nat} (hm : 0 < m) (hp : 0 < p) (A : Matrix (Fin m) (Fin n) α) (B : Matrix (Fin p) (Fin q) α) (s : σ)
    (h : ¬ (m = p ∧ n = q)) :
    Mat.maddA (ofM B) (s, ofM A) = (.error .assert, s, ofM A) ∧ Mat.msubA (ofM B) (s, ofM A) = (.error .assert, s, ofM A) ∧
    Mat.melemMulA (ofM B) (s, ofM A) = (.error .assert, s, ofM A) ∧ Mat.melemDivA (ofM B) (s, ofM A) = (.error .assert, s, ofM A) := by
  have hs : Mat.assertSameShape (ofM A) (ofM B) = .error .assert := by
    unfold Mat.assertSameShape
    rw [ofM_cols A hm, ofM_cols B hp, ofM_rows, ofM_rows]
    by_cases h1 : m = p
    · have h2 : n ≠ q := fun e => h ⟨h1, e⟩
      simp [assert, h1, h2]
    · simp [assert, h1]
  have key : ∀ k : Mat α → Act (σ × Mat α) Unit, (do
      let a ← Mat.self
      lift (Mat.assertSameShape a (ofM B))
      k a : Act (σ × Mat α) Unit) (s, ofM A) = (.error .assert, s, ofM A) := by
    intro k
    rw [bind_apply]
    show (lift (Mat.assertSameShape (ofM A) (ofM B)) >>= _ : Act (σ × Mat α) Unit) (s, ofM A) = _
    rw [hs]; rfl
  exact ⟨key _, key _, key _, key _⟩

/-- The steps of the product in the matrix of the result, in storage order. -/
theorem nest_fill (m n : Nat) (g : Nat → Nat → Act σ β) :
    ((for0 m (alloc β (m * n)) fun row d => for0 n d fun col d => do let y ← g row col; lift (wr d (row * n + col) y)) >>= fun d =>
      lift (freeze d)) = ((List.range (m * n)).mapM (fun t => g (t / n) (t % n)) : Act σ (List β)) := by
  rw [← fill]
  congr 1
  unfold for0
  have := forN_nest m n 0 (alloc β (m * n)) fun t d => (do let y ← g (t / n) (t % n); lift (wr d t y) : Act σ _)
  rw [Nat.zero_mul] at this
  rw [← this]
  refine forN_congr fun i d _ hi => ?_
  unfold for0
  refine forN_congr fun j d _ hj => ?_
  have hn : 0 < n := by omega
  have h1 : (i * n + j) / n = i := by rw [Nat.mul_comm, Nat.mul_add_div hn, Nat.div_eq_of_lt (by omega)]; rfl
  have h2 : (i * n + j) % n = j := by rw [Nat.mul_comm, Nat.mul_add_mod]; exact Nat.mod_eq_of_lt (by omega)
  rw [h1, h2]

theorem range_product (m q : Nat) :
    (List.finRange m ×ˢ List.finRange q).map (fun p => p.1.val * q + p.2.val) = List.range (m * q) := by
  have h1 : ∀ m q : Nat, (List.range m).flatMap (fun i => (List.range q).map fun j => i * q + j) = List.range (m * q) := by
    intro m q
    induction m with
    | zero => simp
    | succ m ih => rw [List.range_succ, List.flatMap_append, ih, Nat.succ_mul, List.range_add]; simp
  rw [← h1 m q, ← List.map_coe_finRange_eq_range, ← List.map_coe_finRange_eq_range]
  simp [-List.map_coe_finRange_eq_range, SProd.sprod, List.product, List.map_flatMap, List.flatMap_map, Function.comp_def]

/-- C83: the product: the entries of the result in storage order, and for each the products of the row and the column, added from the left
to zero.  If the inner dimensions differ it panics before any element operation. -/
theorem C83_mul {m n p q : Nat} (hm : 0 < m) (hp : 0 < p) (A : Matrix (Fin m) (Fin n) α) (B : Matrix (Fin p) (Fin q) α) :
    (∀ h : n = p, (ofM A).mulA (ofM B) = (do
      let d ← (List.finRange m ×ˢ List.finRange q).mapM fun ij =>
        (List.finRange n).foldlM (fun res k => do
          let x ← ElemOps.mul (A ij.1 k) (B (Fin.cast h k) ij.2)
          ElemOps.add res x) (ElemOps.zero σ)
      return ⟨m, d⟩ : Act σ (Mat α))) ∧
    (n ≠ p → ((ofM A).mulA (ofM B) : Act σ (Mat α)) = lift (.error .assert)) := by
  constructor
  · rintro rfl
    unfold Mat.mulA
    rw [ofM_cols A hm, ofM_cols B hp, ofM_rows, ofM_rows]
    simp only [lift_ok_bind, beq_self_eq_true]
    rw [show assert true = .ok () from rfl, lift_ok_bind, ← bind_assoc, nest_fill, ← range_product, List.mapM_map]
    congr 1
    refine congrArg (fun f => List.mapM f _) ?_
    funext ⟨i, j⟩
    have hq : 0 < q := j.pos
    dsimp only [Function.comp_apply]
    have h1 : (i.val * q + j.val) / q = i.val := by rw [Nat.mul_comm, Nat.mul_add_div hq, Nat.div_eq_of_lt j.2]; rfl
    have h2 : (i.val * q + j.val) % q = j.val := by rw [Nat.mul_comm, Nat.mul_add_mod]; exact Nat.mod_eq_of_lt j.2
    rw [h1, h2, for0_finRange]
    congr 1
    funext res k
    have e1 : (ofM A).getRef i.val k.val = .ok (A i k) := ofM_get A i.2 k.2
    have e2 : (ofM B).getRef k.val j.val = .ok (B k j) := ofM_get B k.2 j.2
    rw [e1, e2]
    rfl
  · intro h
    unfold Mat.mulA
    rw [ofM_cols A hm, ofM_rows, lift_ok_bind,
      show assert (n == p) = .error .assert by unfold assert; rw [if_neg (by simpa using h)], lift_err_bind]

/-- C83: the entrywise operations call the element operation in storage order; the binary ones check the shapes first. -/
theorem C83_entrywise (a : Mat α) (k : α) :
    a.negA = (do return ⟨a.rows, ← a.data.mapM ElemOps.neg⟩ : Act σ (Mat α)) ∧
    a.scaleA k = (do return ⟨a.rows, ← a.data.mapM fun x => ElemOps.mul k x⟩ : Act σ (Mat α)) := by
  constructor
  · have := fill_list a.data (fun i => do (ElemOps.neg : α → Act σ α) (← lift (idx a.data i))) ElemOps.neg (fun j hj => by rw [idx_lt hj, lift_ok_bind]) rfl
    rw [← this]
    unfold Mat.negA
    simp only [bind_assoc]
  · have := fill_list a.data (fun i => do (ElemOps.mul k : α → Act σ α) (← lift (idx a.data i))) (ElemOps.mul k) (fun j hj => by rw [idx_lt hj, lift_ok_bind]) rfl
    rw [← this]
    unfold Mat.scaleA
    simp only [bind_assoc]

theorem sameShape_ok {m n : Nat} (hm : 0 < m) (A B : Matrix (Fin m) (Fin n) α) : Mat.assertSameShape (ofM A) (ofM B) = .ok () := by
  unfold Mat.assertSameShape
  rw [ofM_cols A hm, ofM_cols B hm, ofM_rows, ofM_rows]
  simp [assert]

theorem sameShape_err {m n p q : Nat} (hm : 0 < m) (hp : 0 < p) (A : Matrix (Fin m) (Fin n) α) (B : Matrix (Fin p) (Fin q) α)
    (h : ¬ (m = p ∧ n = q)) : Mat.assertSameShape (ofM A) (ofM B) = .error .assert := by
  unfold Mat.assertSameShape
  rw [ofM_cols A hm, ofM_cols B hp, ofM_rows, ofM_rows]
  by_cases h1 : m = p
  · have h2 : n ≠ q := fun e => h ⟨h1, e⟩
    simp [assert, h1, h2]
  · simp [assert, h1]

/-- C83: the binary entrywise operations. -/
theorem C83_binary {m n : Nat} (hm : 0 < m) (A B : Matrix (Fin m) (Fin n) α) :
    (ofM A).addA (ofM B) = (do return ⟨m, ← ((ofM A).data.zip (ofM B).data).mapM fun p => ElemOps.add p.1 p.2⟩ : Act σ (Mat α)) ∧
    (ofM A).subA (ofM B) = (do return ⟨m, ← ((ofM A).data.zip (ofM B).data).mapM fun p => ElemOps.sub p.1 p.2⟩ : Act σ (Mat α)) ∧
    (ofM A).elemMulA (ofM B) = (do return ⟨m, ← ((ofM A).data.zip (ofM B).data).mapM fun p => ElemOps.mul p.1 p.2⟩ : Act σ (Mat α)) ∧
    (ofM A).elemDivA (ofM B) = (do return ⟨m, ← ((ofM A).data.zip (ofM B).data).mapM fun p => ElemOps.div p.1 p.2⟩ : Act σ (Mat α)) := by
  have key : ∀ op : α → α → Act σ α, (do
      lift (Mat.assertSameShape (ofM A) (ofM B))
      let elems := (ofM A).data.length
      let d ← for0 elems (alloc α elems) fun i d => do
        let y ← op (← lift (idx (ofM A).data i)) (← lift (idx (ofM B).data i))
        lift (wr d i y)
      return ⟨(ofM A).rows, ← lift (freeze d)⟩ : Act σ (Mat α)) =
      (do return ⟨m, ← ((ofM A).data.zip (ofM B).data).mapM fun p => op p.1 p.2⟩ : Act σ (Mat α)) := by
    intro op
    have := fill_list ((ofM A).data.zip (ofM B).data) (fun i => do op (← lift (idx (ofM A).data i)) (← lift (idx (ofM B).data i))) (fun p => op p.1 p.2)
      (n := (ofM A).data.length)
      (fun j hj => by
        rw [List.length_zip] at hj
        rw [idx_lt (show j < (ofM A).data.length by omega), idx_lt (show j < (ofM B).data.length by omega), lift_ok_bind, lift_ok_bind, List.getElem_zip])
      (by simp [ofM_length])
    rw [← this, sameShape_ok hm]
    simp only [bind_assoc]
    rfl
  exact ⟨key _, key _, key _, key _⟩

/-- C83: the binary entrywise operations of matrices of different shapes. -/
theorem C83_shapes {m n p q : Nat} (hm : 0 < m) (hp : 0 < p) (A : Matrix (Fin m) (Fin n) α) (B : Matrix (Fin p) (Fin q) α)
    (h : ¬ (m = p ∧ n = q)) :
    (ofM A).addA (ofM B) = (lift (.error .assert) : Act σ (Mat α)) ∧ (ofM A).subA (ofM B) = (lift (.error .assert) : Act σ (Mat α)) ∧
    (ofM A).elemMulA (ofM B) = (lift (.error .assert) : Act σ (Mat α)) ∧ (ofM A).elemDivA (ofM B) = (lift (.error .assert) : Act σ (Mat α)) := by
  unfold Mat.addA Mat.subA Mat.elemMulA Mat.elemDivA
  rw [sameShape_err hm hp A B h]
  exact ⟨rfl, rfl, rfl, rfl⟩

/-- C82: `mmul` computes the whole product before it touches the receiver: it acts on the world as `*` does; if that panics, the receiver
is as before, otherwise it is the product. -/
theorem C82_mmul (a m : Mat α) (s : σ) :
    Mat.mmulA m (s, a) = match a.mulA m s with
      | (.ok c, s') => (.ok (), s', c)
      | (.error e, s') => (.error e, s', a) := by
  have hget : ∀ (x : Mat α) i j, x.get i j = x.getRef i j := fun _ _ _ => rfl
  have hw : ∀ {δ : Type} (n : Nat) (d : δ) (body : Nat → δ → Act σ δ),
      (world (for0 n d body) : Act (σ × Mat α) δ) = for0 n d fun j d => world (body j d) := fun n d body => (forN_world n 0 d body).symm
  obtain ⟨X, hX, hX'⟩ : ∃ X : Act σ (List α), a.mulA m = (X >>= fun d => pure ⟨a.rows, d⟩) ∧
      Mat.mmulA m (s, a) = (world X >>= Mat.setData : Act (σ × Mat α) Unit) (s, a) := by
    refine ⟨do
      let ac ← lift a.cols
      lift (assert (ac == m.rows))
      let mc ← lift m.cols
      let d ← for0 a.rows (alloc α (a.rows * mc)) fun row d =>
        for0 mc d fun col d => do
          let res ← for0 ac (ElemOps.zero σ) fun k res => do
            let p ← ElemOps.mul (← lift (a.getRef row k)) (← lift (m.getRef k col))
            ElemOps.add res p
          lift (wr d (row * mc + col) res)
      lift (freeze d), ?_, ?_⟩
    · unfold Mat.mulA
      simp only [bind_assoc]
    · simp only [world_bind, world_lift, hw, bind_assoc]
      rfl
  rw [hX, hX', bind_apply, bind_apply]
  have : (world X : Act (σ × Mat α) (List α)) (s, a) = ((X s).1, (X s).2, a) := rfl
  rw [this]
  rcases X s with ⟨e | d, s'⟩ <;> rfl

end

/-! ## What the sweeps leave behind -/

/-- C82: after a sweep, also after one that ended in a panic, the receiver has as many rows and elements as before; there is a position
before which the elements are updated and from which on they are as before; it is the end if the call returned, and the position of the
update that panicked otherwise. -/
theorem C82_partway (fs : List (α → Act σ α)) (a : Mat α) (s : σ) (h : fs.length = a.data.length) :
    (swept fs a s).2.2.rows = a.rows ∧ (swept fs a s).2.2.data.length = a.data.length ∧
    ∃ k, k ≤ a.data.length ∧ (∀ j, k ≤ j → (swept fs a s).2.2.data[j]? = a.data[j]?) ∧
      (∀ j, j < k → ∃ f x y s₁ s₂, fs[j]? = some f ∧ a.data[j]? = some x ∧ (swept fs a s).2.2.data[j]? = some y ∧ f x s₁ = (.ok y, s₂)) ∧
      ((swept fs a s).1 = .ok () ∧ k = a.data.length ∨
        ∃ e f x s₁, (swept fs a s).1 = .error e ∧ fs[k]? = some f ∧ a.data[k]? = some x ∧ f x s₁ = (.error e, (swept fs a s).2.1)) := by
  refine ⟨rfl, ?_⟩
  unfold swept
  obtain ⟨r, xs⟩ := a
  dsimp only at h ⊢
  induction fs generalizing xs s with
  | nil =>
    obtain rfl : xs = [] := List.eq_nil_of_length_eq_zero h.symm
    exact ⟨rfl, 0, le_rfl, fun _ _ => rfl, fun _ h => absurd h (by omega), Or.inl ⟨rfl, rfl⟩⟩
  | cons f fs ih =>
    rcases xs with _ | ⟨x, xs⟩
    · simp at h
    unfold inPlace
    rcases hf : f x s with ⟨e | y, s'⟩
    · dsimp only
      exact ⟨rfl, 0, Nat.zero_le _, fun _ _ => rfl, fun _ h => absurd h (by omega), Or.inr ⟨e, f, x, s, rfl, rfl, rfl, hf⟩⟩
    · dsimp only
      obtain ⟨h1, k, hk, h2, h3, h4⟩ := ih s' xs (by simpa using h)
      refine ⟨by simpa using h1, k + 1, by simpa using hk, ?_, ?_, ?_⟩
      · rintro (_ | j) hj
        · omega
        · simpa using h2 j (by omega)
      · rintro (_ | j) hj
        · exact ⟨f, x, y, s, s', rfl, rfl, rfl, hf⟩
        · simpa using h3 j (by omega)
      · rcases h4 with ⟨h4, h5⟩ | ⟨e, g, z, s₁, h4, h5, h6, h7⟩
        · exact Or.inl ⟨h4, by simp [h5]⟩
        · exact Or.inr ⟨e, g, z, s₁, h4, by simpa using h5, by simpa using h6, h7⟩

/-- C82: `set` (and writing through `get_mref`) changes the element or, if it panics, nothing. -/
theorem C82_set (a : Mat α) (row col : Nat) (v : α) (s : σ) :
    Mat.setA row col v (s, a) = match a.set row col v with
      | .ok b => (.ok (), s, b)
      | .error e => (.error e, s, a) := by
  unfold Mat.setA Mat.set
  show (lift (assert (decide (row < a.rows))) >>= _ : Act (σ × Mat α) Unit) (s, a) = _
  rcases assert (decide (row < a.rows)) with e | u
  · rfl
  rw [lift_ok_bind, ok_bind]
  rcases a.cols with e | c
  · rfl
  rw [lift_ok_bind, ok_bind]
  rcases assert (decide (col < c)) with e | u
  · rfl
  rw [lift_ok_bind, ok_bind]
  unfold Mat.poke setIdx
  dsimp only
  split <;> rfl

/-! ## In-place transpose -/

/-- A run that keeps a property of the state, whatever its outcome, and returns values with another property. -/
def Keeps {τ γ : Type} (P : τ → Prop) (Q : γ → Prop) (x : Act τ γ) : Prop := ∀ st, P st → P (x st).2 ∧ ∀ b, (x st).1 = .ok b → Q b

theorem Keeps.lift {τ γ : Type} {P : τ → Prop} (r : R γ) : Keeps P (fun _ => True) (Act.lift r) := fun _ h => ⟨h, fun _ _ => trivial⟩

theorem Keeps.pure {τ γ : Type} {P : τ → Prop} {Q : γ → Prop} {b : γ} (h : Q b) : Keeps P Q (Pure.pure b : Act τ γ) :=
  fun _ hs => ⟨hs, fun c hc => by cases hc; exact h⟩

theorem Keeps.bind {τ γ δ : Type} {P : τ → Prop} {Q : γ → Prop} {Q' : δ → Prop} {x : Act τ γ} {f : γ → Act τ δ} (h : Keeps P Q x)
    (hf : ∀ b, Q b → Keeps P Q' (f b)) : Keeps P Q' (x >>= f) := by
  intro st hst
  obtain ⟨h1, h2⟩ := h st hst
  rw [bind_apply]
  rcases hx : x st with ⟨e | b, st'⟩
  · rw [hx] at h1; exact ⟨h1, fun _ h => by cases h⟩
  · rw [hx] at h1 h2; exact hf b (h2 b rfl) st' h1

theorem Keeps.forN {τ δ : Type} {P : τ → Prop} {k i : Nat} {d : δ} {body : Nat → δ → Act τ δ}
    (h : ∀ i d, Keeps P (fun _ => True) (body i d)) : Keeps P (fun _ => True) (Act.forN k i d body) := by
  induction k generalizing i d with
  | zero => exact Keeps.pure trivial
  | succ k ih => exact Keeps.bind (h i d) fun _ _ => ih

/-- C82: in-place transpose, with machine arithmetic, whether it returns or panics: it touches only the receiver, the number of elements
is as before and every element was there before; if it panics so is the number of rows, if it returns the receiver has as many rows as it had columns. -/
theorem C82_mt (mode : Mode) (w fuel : Nat) (a : Mat α) (s : σ) :
    (Mat.mtA mode w fuel (s, a)).2.1 = s ∧
    (Mat.mtA mode w fuel (s, a)).2.2.data.length = a.data.length ∧
    (∀ x ∈ (Mat.mtA mode w fuel (s, a)).2.2.data, x ∈ a.data) ∧
    (∀ e, (Mat.mtA mode w fuel (s, a)).1 = .error e → (Mat.mtA mode w fuel (s, a)).2.2.rows = a.rows) ∧
    ((Mat.mtA mode w fuel (s, a)).1 = .ok () → a.cols = .ok (Mat.mtA mode w fuel (s, a)).2.2.rows) := by
  let P : σ × Mat α → Prop := fun st => st.1 = s ∧ st.2.data.length = a.data.length ∧ (∀ x ∈ st.2.data, x ∈ a.data) ∧ st.2.rows = a.rows
  have hpeek : ∀ i, Keeps P (fun x => x ∈ a.data) (Mat.peek i) := by
    intro i st hst
    refine ⟨hst, fun b hb => hst.2.2.1 b ?_⟩
    unfold Mat.peek idx at hb
    dsimp only at hb
    split at hb
    · next hx => cases hb; exact List.mem_of_getElem? hx
    · cases hb
  have hpoke : ∀ i x, x ∈ a.data → Keeps P (fun _ => True) (Mat.poke i x) := by
    intro i x hx st hst
    refine ⟨?_, fun _ _ => trivial⟩
    unfold Mat.poke
    split
    · refine ⟨hst.1, by simpa using hst.2.1, fun y hy => ?_, hst.2.2.2⟩
      rcases List.mem_or_eq_of_mem_set hy with h | h
      · exact hst.2.2.1 y h
      · exact h ▸ hx
    · exact hst
  have hcyc : ∀ last c fuel i prev visited, prev ∈ a.data → Keeps P (fun _ => True) (Mat.mtCycleA mode w a.rows last c fuel i prev visited) := by
    intro last c fuel
    induction fuel with
    | zero => intro i prev visited _; exact Keeps.lift _
    | succ fuel ih =>
      intro i prev visited hp
      unfold Mat.mtCycleA
      refine Keeps.bind (Keeps.lift _) fun _ _ => Keeps.bind (Keeps.lift _) fun _ _ => Keeps.bind (hpeek _) fun cur hcur =>
        Keeps.bind (hpoke _ _ hp) fun _ _ => ?_
      split
      · exact Keeps.pure trivial
      · exact Keeps.bind (Keeps.lift _) fun _ _ => ih _ _ _ hcur
  have hP : P (s, a) := ⟨rfl, rfl, fun _ h => h, rfl⟩
  obtain ⟨X, hX, hK⟩ : ∃ X : Act (σ × Mat α) (Mat α), Mat.mtA mode w fuel (s, a) = (X >>= fun a' => lift a'.cols >>= Mat.setRows : Act (σ × Mat α) Unit) (s, a) ∧
      Keeps P (fun a' => a'.cols = a.cols) X := by
    refine ⟨do
      let last ← lift (usub a.data.length 1)
      let _ ← forN (last - 1) 1 (List.replicate a.data.length false) fun cycleIdx visited => do
        if ← lift (idx visited cycleIdx) then
          return visited
        else
          let prev ← Mat.peek cycleIdx
          Mat.mtCycleA mode w a.rows last cycleIdx fuel cycleIdx prev visited
      Mat.self, ?_, ?_⟩
    · simp only [bind_assoc]; rfl
    · refine Keeps.bind (Keeps.lift _) fun last _ => Keeps.bind (Keeps.forN fun i d => ?_) fun _ _ => fun st h => ⟨h, fun a' ha' => ?_⟩
      swap
      · cases ha'; unfold Mat.cols; rw [h.2.1, h.2.2.2]
      refine Keeps.bind (Keeps.lift _) fun b _ => ?_
      split
      · exact Keeps.pure trivial
      · exact Keeps.bind (hpeek _) fun prev hp => hcyc _ _ _ _ _ _ hp
  obtain ⟨h1, h2⟩ := hK _ hP
  rw [hX, bind_apply]
  rcases hx : X (s, a) with ⟨e | a', st⟩ <;> rw [hx] at h1 h2
  · exact ⟨h1.1, h1.2.1, h1.2.2.1, fun _ _ => h1.2.2.2, fun h => by cases h⟩
  · dsimp only
    rw [bind_apply, h2 a' rfl]
    rcases a.cols with e | c
    · exact ⟨h1.1, h1.2.1, h1.2.2.1, fun _ _ => h1.2.2.2, fun h => by cases h⟩
    · exact ⟨h1.1, h1.2.1, h1.2.2.1, fun _ h => (by cases h), fun _ => rfl⟩

/-! ## Agreement with the model without side effects -/

/-- A loop over the receiver follows the loop of `Verif/Model/Matrix.lean` over its elements. -/
theorem forN_tracks (r : Nat) (b : Nat → Unit → Act (σ × Mat α) Unit) (body : Nat → List α → R (List α)) (k i : Nat) (d : List α) (s : σ)
    (h : ∀ j d s, (∀ d', body j d = .ok d' → b j () (s, ⟨r, d⟩) = (.ok (), s, ⟨r, d'⟩)) ∧ (∀ e, body j d = .error e → (b j () (s, ⟨r, d⟩)).1 = .error e)) :
    (∀ d', loopN k i d body = .ok d' → forN k i () b (s, ⟨r, d⟩) = (.ok (), s, ⟨r, d'⟩)) ∧
    (∀ e, loopN k i d body = .error e → (forN k i () b (s, ⟨r, d⟩)).1 = .error e) := by
  induction k generalizing i d with
  | zero => exact ⟨fun d' h => (by cases h; rfl), fun e h => by cases h⟩
  | succ k ih =>
    have e1 : loopN (k + 1) i d body = body i d >>= fun d' => loopN k (i + 1) d' body := rfl
    rw [e1, forN_succ, bind_apply]
    obtain ⟨h1, h2⟩ := h i d s
    rcases hb : body i d with e | d1
    · refine ⟨fun d' h => (by cases h), fun e' h => ?_⟩
      cases h
      have := h2 _ hb
      rcases hx : b i () (s, ⟨r, d⟩) with ⟨e' | u, st⟩ <;> rw [hx] at this
      · exact this
      · cases this
    · rw [h1 _ hb]
      exact ih (i + 1) d1

/-- Element operations without side effects, in which only the division may panic. -/
def plainOps (σ α : Type) [Zero α] [Neg α] [Add α] [Sub α] [Mul α] [RDiv α] : ElemOps σ α where
  zero := 0
  neg x := pure (-x)
  add x y := pure (x + y)
  sub x y := pure (x - y)
  mul x y := pure (x * y)
  div x y := lift (RDiv.rdiv x y)

/-- A run with effects gives what the run without effects gives. -/
def Follows (x : R Unit × σ × Mat α) (s : σ) (y : R (Mat α)) : Prop :=
  (∀ b, y = .ok b → x = (.ok (), s, b)) ∧ (∀ e, y = .error e → x.1 = .error e)

theorem follows_loop (a : Mat α) (s : σ) (b : Nat → Unit → Act (σ × Mat α) Unit) (g : Nat → α → R α)
    (hb : ∀ j, b j () = (Mat.peek j >>= fun x => lift (g j x) >>= fun y => Mat.poke j y)) :
    Follows (for0 a.data.length () b (s, a)) s (loop 0 a.data.length a.data (fun i d => do setIdx d i (← g i (← idx d i))) >>= fun d => pure ⟨a.rows, d⟩) := by
  obtain ⟨r, data⟩ := a
  have := forN_tracks r b (fun i d => do setIdx d i (← g i (← idx d i))) data.length 0 data s ?_
  · unfold Follows for0 loop
    rw [Nat.sub_zero]
    dsimp only
    obtain ⟨h1, h2⟩ := this
    rcases hl : loopN data.length 0 data (fun i d => do setIdx d i (← g i (← idx d i))) with e | d
    · exact ⟨fun _ h => (by cases h), fun e' h => by cases h; exact h2 _ hl⟩
    · exact ⟨fun _ h => (by cases h; exact h1 _ hl), fun e' h => by cases h⟩
  · intro j d s
    rw [hb, bind_apply]
    have hp : (Mat.peek j : Act (σ × Mat α) α) (s, ⟨r, d⟩) = (idx d j, s, ⟨r, d⟩) := rfl
    rw [hp]
    rcases idx d j with e | x
    · exact ⟨fun _ h => (by cases h), fun _ h => by cases h; rfl⟩
    dsimp only
    rw [ok_bind]
    rcases g j x with e | y
    · exact ⟨fun _ h => (by cases h), fun _ h => by cases h; rfl⟩
    rw [lift_ok_bind, ok_bind]
    unfold Mat.poke setIdx
    dsimp only
    split
    · exact ⟨fun _ h => (by cases h; rfl), fun _ h => by cases h⟩
    · exact ⟨fun _ h => (by cases h), fun _ h => by cases h; rfl⟩

/-- C82: with closures and element operations without side effects, the calls do what the other theorems say about them. -/
theorem C82_agrees [Zero α] [Neg α] [Add α] [Sub α] [Mul α] [RDiv α] (a m : Mat α) (s : σ) (f : α → α) (k : α) :
    letI := plainOps σ α
    Follows (Mat.mmapA (fun x => pure (f x)) (s, a)) s (a.mmap f) ∧
    Follows (Mat.mnegA (s, a)) s a.mneg ∧ Follows (Mat.mscaleA k (s, a)) s (a.mscale k) ∧
    Follows (Mat.maddA m (s, a)) s (a.madd m) ∧ Follows (Mat.msubA m (s, a)) s (a.msub m) ∧
    Follows (Mat.melemMulA m (s, a)) s (a.melemMul m) ∧ Follows (Mat.melemDivA m (s, a)) s (a.melemDiv m) := by
  have key : ∀ g : Nat → α → R α, Follows
      ((do
        let a ← Mat.self
        lift (Mat.assertSameShape a m)
        for0 a.data.length () fun j _ => Mat.peek j >>= fun x => lift (g j x) >>= fun y => Mat.poke j y : Act (σ × Mat α) Unit) (s, a)) s
      (do
        Mat.assertSameShape a m
        let d ← loop 0 a.data.length a.data fun i d => do setIdx d i (← g i (← idx d i))
        return ⟨a.rows, d⟩) := by
    intro g
    rw [bind_apply]
    show Follows ((lift (Mat.assertSameShape a m) >>= _ : Act (σ × Mat α) Unit) (s, a)) s _
    rcases Mat.assertSameShape a m with e | u
    · exact ⟨fun _ h => (by cases h), fun _ h => by cases h; rfl⟩
    · rw [lift_ok_bind, ok_bind]
      exact follows_loop a s _ g fun _ => rfl
  have key1 : ∀ g : α → α, Follows
      ((do
        let a ← Mat.self
        for0 a.data.length () fun j _ => Mat.peek j >>= fun x => lift (.ok (g x)) >>= fun y => Mat.poke j y : Act (σ × Mat α) Unit) (s, a)) s
      (do
        let d ← loop 0 a.data.length a.data fun i d => do setIdx d i (g (← idx d i))
        return ⟨a.rows, d⟩) := by
    intro g
    exact follows_loop a s _ (fun _ x => .ok (g x)) fun _ => rfl
  have key2 : ∀ op : α → α → R α, Follows
      ((do
        let a ← Mat.self
        lift (Mat.assertSameShape a m)
        for0 a.data.length () fun i _ => do
          let y ← world (lift (op (← Mat.peek i) (← lift (idx m.data i))))
          Mat.poke i y : Act (σ × Mat α) Unit) (s, a)) s
      (do
        Mat.assertSameShape a m
        let d ← loop 0 a.data.length a.data fun i d => do setIdx d i (← op (← idx d i) (← idx m.data i))
        return ⟨a.rows, d⟩) := by
    intro op
    have := key fun i x => do op x (← idx m.data i)
    have e : ∀ j x, (lift (do op x (← idx m.data j)) >>= fun y => Mat.poke j y : Act (σ × Mat α) Unit) =
        (lift (idx m.data j) >>= fun z => world (lift (op x z)) >>= fun y => Mat.poke j y) := by
      intro j x; rw [lift_bind, bind_assoc]; rfl
    simp only [e] at this
    simp only [bind_assoc] at this ⊢
    exact this
  exact ⟨key1 _, key1 _, key1 _, key2 fun x y => .ok (x + y), key2 fun x y => .ok (x - y), key2 fun x y => .ok (x * y), key2 fun x y => RDiv.rdiv x y⟩

theorem mtCycle_tracks (mode : Mode) (w r rows last c : Nat) (s : σ) (fuel i : Nat) (prev : α) (visited : List Bool) (d : List α) :
    (∀ d' v', Mat.mtCycleW mode w rows last c fuel i prev d visited = .ok (d', v') →
      Mat.mtCycleA mode w rows last c fuel i prev visited (s, ⟨r, d⟩) = (.ok v', s, ⟨r, d'⟩)) ∧
    (∀ e, Mat.mtCycleW mode w rows last c fuel i prev d visited = .error e →
      (Mat.mtCycleA mode w rows last c fuel i prev visited (s, ⟨r, d⟩)).1 = .error e) := by
  induction fuel generalizing i prev visited d with
  | zero => exact ⟨fun _ _ h => (by cases h), fun _ h => (by cases h; rfl)⟩
  | succ fuel ih =>
    unfold Mat.mtCycleW Mat.mtCycleA
    rcases mulW mode w rows i with e | q
    · exact ⟨fun _ _ h => (by cases h), fun _ h => (by cases h; rfl)⟩
    simp only [lift_ok_bind, ok_bind]
    rcases umod q last with e | i'
    · exact ⟨fun _ _ h => (by cases h), fun _ h => (by cases h; rfl)⟩
    simp only [lift_ok_bind, ok_bind]
    rw [bind_apply]
    have hp : (Mat.peek i' : Act (σ × Mat α) α) (s, ⟨r, d⟩) = (idx d i', s, ⟨r, d⟩) := rfl
    rw [hp]
    rcases idx d i' with e | cur
    · exact ⟨fun _ _ h => (by cases h), fun _ h => (by cases h; rfl)⟩
    dsimp only
    rw [ok_bind, bind_apply]
    unfold setIdx Mat.poke
    dsimp only
    by_cases hi : i' < d.length
    swap
    · rw [if_neg hi, if_neg hi]; exact ⟨fun _ _ h => (by cases h), fun _ h => (by cases h; rfl)⟩
    rw [if_pos hi, if_pos hi]
    dsimp only
    rw [ok_bind]
    by_cases hc : i' = c
    · rw [if_pos hc, if_pos hc]; exact ⟨fun _ _ h => (by cases h; rfl), fun _ h => (by cases h)⟩
    rw [if_neg hc, if_neg hc]
    by_cases hv : i' < visited.length
    swap
    · rw [if_neg hv]; exact ⟨fun _ _ h => (by cases h), fun _ h => (by cases h; rfl)⟩
    rw [if_pos hv, ok_bind, lift_ok_bind]
    exact ih _ _ _ _

/-- C82: in-place transpose returns, and panics, as without the observation of the receiver (C13, C14). -/
theorem C82_mt_agrees (mode : Mode) (w fuel : Nat) (a : Mat α) (s : σ) : Follows (Mat.mtA mode w fuel (s, a)) s (a.mtW mode w fuel) := by
  unfold Mat.mtA Mat.mtW
  show Follows ((lift (usub a.data.length 1) >>= _ : Act (σ × Mat α) Unit) (s, a)) s _
  rcases usub a.data.length 1 with e | last
  · exact ⟨fun _ h => (by cases h), fun _ h => (by cases h; rfl)⟩
  rw [lift_ok_bind, ok_bind]
  obtain ⟨r, data⟩ := a
  have key : ∀ (k i : Nat) (visited : List Bool) (d : List α),
      (∀ d' v', (loopN k i (d, visited) fun cycleIdx (data, visited) => do
          if ← idx visited cycleIdx then return (data, visited)
          else
            let prev ← idx data cycleIdx
            Mat.mtCycleW mode w r last cycleIdx fuel cycleIdx prev data visited) = .ok (d', v') →
        (forN k i visited fun cycleIdx visited => do
          if ← lift (idx visited cycleIdx) then return visited
          else
            let prev ← Mat.peek cycleIdx
            Mat.mtCycleA mode w r last cycleIdx fuel cycleIdx prev visited : Act (σ × Mat α) _) (s, ⟨r, d⟩) = (.ok v', s, ⟨r, d'⟩)) ∧
      (∀ e, (loopN k i (d, visited) fun cycleIdx (data, visited) => do
          if ← idx visited cycleIdx then return (data, visited)
          else
            let prev ← idx data cycleIdx
            Mat.mtCycleW mode w r last cycleIdx fuel cycleIdx prev data visited) = .error e →
        ((forN k i visited fun cycleIdx visited => do
          if ← lift (idx visited cycleIdx) then return visited
          else
            let prev ← Mat.peek cycleIdx
            Mat.mtCycleA mode w r last cycleIdx fuel cycleIdx prev visited : Act (σ × Mat α) _) (s, ⟨r, d⟩)).1 = .error e) := by
    intro k
    induction k with
    | zero => intro i visited d; exact ⟨fun _ _ h => (by cases h; rfl), fun _ h => (by cases h)⟩
    | succ k ih =>
      intro i visited d
      rw [forN_succ, bind_apply]
      unfold loopN
      dsimp only
      rcases idx visited i with e | b
      · exact ⟨fun _ _ h => (by cases h), fun _ h => (by cases h; rfl)⟩
      rw [lift_ok_bind, ok_bind]
      cases b
      swap
      · exact ih (i + 1) visited d
      simp only [Bool.false_eq_true, if_false]
      rw [bind_apply]
      have hp : (Mat.peek i : Act (σ × Mat α) α) (s, ⟨r, d⟩) = (idx d i, s, ⟨r, d⟩) := rfl
      rw [hp]
      rcases idx d i with e | prev
      · exact ⟨fun _ _ h => (by cases h), fun _ h => (by cases h; rfl)⟩
      dsimp only
      rw [ok_bind]
      obtain ⟨h1, h2⟩ := mtCycle_tracks mode w r r last i s fuel i prev visited d
      rcases hb : Mat.mtCycleW mode w r last i fuel i prev d visited with e | ⟨d1, v1⟩
      · refine ⟨fun _ _ h => (by cases h), fun e' h => ?_⟩
        cases h
        have := h2 _ hb
        rcases hx : Mat.mtCycleA mode w r last i fuel i prev visited (s, ⟨r, d⟩) with ⟨e' | u, st⟩ <;> rw [hx] at this
        · exact this
        · cases this
      · rw [h1 _ _ hb, ok_bind]
        exact ih (i + 1) v1 d1
  obtain ⟨h1, h2⟩ := key (last - 1) 1 (List.replicate data.length false) data
  unfold loop
  dsimp only
  rw [bind_apply]
  rcases hb : (loopN (last - 1) 1 (data, List.replicate data.length false) fun cycleIdx (data, visited) => do
          if ← idx visited cycleIdx then return (data, visited)
          else
            let prev ← idx data cycleIdx
            Mat.mtCycleW mode w r last cycleIdx fuel cycleIdx prev data visited) with e | ⟨d1, v1⟩
  · refine ⟨fun _ h => (by cases h), fun e' h => ?_⟩
    cases h
    have := h2 _ hb
    generalize (forN (last - 1) 1 (List.replicate data.length false) fun cycleIdx visited => do
          if ← lift (idx visited cycleIdx) then return visited
          else
            let prev ← Mat.peek cycleIdx
            Mat.mtCycleA mode w r last cycleIdx fuel cycleIdx prev visited : Act (σ × Mat α) _) (s, ⟨r, data⟩) = X at this ⊢
    rcases X with ⟨e' | u, st⟩
    · cases this; rfl
    · cases this
  · rw [h1 _ _ hb]
    dsimp only
    rw [ok_bind]
    show Follows ((lift (Mat.cols ⟨r, d1⟩) >>= _ : Act (σ × Mat α) Unit) (s, ⟨r, d1⟩)) s _
    dsimp only
    rcases Mat.cols (⟨r, d1⟩ : Mat α) with e | c
    · exact ⟨fun _ h => (by cases h), fun _ h => (by cases h; rfl)⟩
    · exact ⟨fun _ h => (by cases h; rfl), fun _ h => (by cases h)⟩

theorem mt_loses (w q r : Nat) (hq : 0 < q) (hqr : q * 2 = r) (hsq : r * r = 2 ^ w) (A : Matrix (Fin r) (Fin 2) α) (s : σ) (fuel : Nat) :
    Mat.mtA .debug w (fuel + 2) (s, ofM A) = (.error .arith, s, ofM fun i j => if i.val = q ∧ j = 0 then A ⟨0, by omega⟩ 1 else A i j) := by
  have hr : 2 ≤ r := by omega
  have hlt : r < 2 ^ w := by rw [← hsq]; exact lt_of_lt_of_le (by omega) (Nat.mul_le_mul_right r hr)
  have hlen : (ofM A).data.length = r * 2 := ofM_length A
  have i0 : idx (ofM A).data 1 = .ok (A ⟨0, by omega⟩ 1) := by
    have := idx_ofM A (i := 0) (j := 1) (by omega) (by omega)
    simpa using this
  have i1 : idx (ofM A).data r = .ok (A ⟨q, by omega⟩ 0) := by
    have := idx_ofM A (i := q) (j := 0) (by omega) (by omega)
    rw [hqr] at this
    simpa using this
  have hset : (⟨r, (ofM A).data.set r (A ⟨0, by omega⟩ 1)⟩ : Mat α) =
      ofM (fun (i : Fin r) (j : Fin 2) => if i.val = q ∧ j = 0 then A ⟨0, by omega⟩ 1 else A i j) := by
    have h1 := C04_set A q 0 (A ⟨0, by omega⟩ 1)
    rw [if_pos ⟨by omega, by omega⟩] at h1
    unfold Mat.set at h1
    rw [ofM_cols A (by omega), ofM_rows] at h1
    have hlt' : q < r := by omega
    simp [assert, hlt', setIdx, hqr, hlen] at h1
    rw [if_pos (by omega)] at h1
    have h2 := Except.ok.inj h1
    rw [h2]
    congr 1
  have m1 : mulW .debug w r 1 = .ok r := by rw [mulW_fits _ (by omega)]; simp
  have m2 : mulW .debug w r r = .error .arith := by
    show (if r * r < 2 ^ w then (.ok (r * r) : R Nat) else .error .arith) = _
    rw [if_neg (by omega)]
  have u1 : umod r (r * 2 - 1) = .ok r := by
    unfold umod; rw [if_neg (by omega), Nat.mod_eq_of_lt (by omega)]
  have v1 : idx (List.replicate (r * 2) false) 1 = .ok false := by unfold idx; rw [List.getElem?_replicate, if_pos (by omega)]
  have p1 : (Mat.peek 1 : Act (σ × Mat α) α) (s, ofM A) = (.ok (A ⟨0, by omega⟩ 1), s, ofM A) := by
    unfold Mat.peek; dsimp only; rw [i0]
  have p2 : (Mat.peek r : Act (σ × Mat α) α) (s, ofM A) = (.ok (A ⟨q, by omega⟩ 0), s, ofM A) := by
    unfold Mat.peek; dsimp only; rw [i1]
  have p3 : (Mat.poke r (A ⟨0, by omega⟩ 1) : Act (σ × Mat α) Unit) (s, ofM A) = (.ok (), s, ⟨r, (ofM A).data.set r (A ⟨0, by omega⟩ 1)⟩) := by
    unfold Mat.poke; dsimp only; rw [if_pos (by omega)]; rfl
  rw [← hset]
  unfold Mat.mtA
  show (lift (usub (ofM A).data.length 1) >>= _ : Act (σ × Mat α) Unit) (s, ofM A) = _
  rw [hlen, show usub (r * 2) 1 = .ok (r * 2 - 1) by unfold usub; rw [if_pos (by omega)], lift_ok_bind]
  obtain ⟨k, hk⟩ : ∃ k, r * 2 - 1 - 1 = k + 1 := ⟨r * 2 - 3, by omega⟩
  rw [hk, forN_succ]
  dsimp only
  rw [v1]
  simp only [lift_ok_bind, Bool.false_eq_true, if_false, bind_assoc]
  rw [bind_apply, p1]
  dsimp only
  unfold Mat.mtCycleA
  rw [ofM_rows, m1]
  simp only [lift_ok_bind, bind_assoc, u1]
  rw [bind_apply, p2]
  dsimp only
  rw [bind_apply, p3]
  dsimp only
  rw [if_neg (by omega), show setIdx (List.replicate (r * 2) false) r true = .ok ((List.replicate (r * 2) false).set r true) by
    unfold setIdx; rw [if_pos (by simp; omega)]]
  rw [lift_ok_bind]
  unfold Mat.mtCycleA
  rw [m2]
  rfl

/-- C82, refuted for in-place transpose: on a `2h`-bit machine, in a debug build, transposing a matrix of `2^h` rows and two columns panics
in the product `no_rows * idx` while one element is held in a local variable.  That element, the first of row `2^(h-1)`, is lost: the
second element of the first row is stored in its place as well. -/
theorem C82_refuted_mt (h : Nat) (hh : 0 < h) (A : Matrix (Fin (2 ^ h)) (Fin 2) α) (s : σ) (fuel : Nat) :
    Mat.mtA .debug (2 * h) (fuel + 2) (s, ofM A) = (.error .arith, s,
      ofM fun i j => if i.val = 2 ^ (h - 1) ∧ j = 0 then A ⟨0, by positivity⟩ 1 else A i j) := by
  refine mt_loses (2 * h) (2 ^ (h - 1)) (2 ^ h) (by positivity) ?_ ?_ A s fuel
  · rw [← pow_succ]; congr 1; omega
  · rw [← pow_add]; congr 1; omega

/-- C83: with closures and element operations without side effects, the calls do what the other theorems say about them. -/
theorem C83_agrees [Zero α] [Neg α] [Add α] [Sub α] [Mul α] [RDiv α] (a m : Mat α) (k : α) :
    letI := plainOps σ α
    a.negA = (lift a.neg : Act σ (Mat α)) ∧ a.scaleA k = (lift (a.scale k) : Act σ (Mat α)) ∧
    a.addA m = (lift (a.add m) : Act σ (Mat α)) ∧ a.subA m = (lift (a.sub m) : Act σ (Mat α)) ∧
    a.elemMulA m = (lift (a.elemMul m) : Act σ (Mat α)) ∧ a.elemDivA m = (lift (a.elemDiv m) : Act σ (Mat α)) ∧
    a.mulA m = (lift (a.mul m) : Act σ (Mat α)) := by
  letI := plainOps σ α
  refine ⟨?_, ?_, ?_, ?_, ?_, ?_, ?_⟩ <;>
  simp only [Mat.negA, Mat.neg, Mat.scaleA, Mat.scale, Mat.addA, Mat.add, Mat.subA, Mat.sub, Mat.elemMulA, Mat.elemMul, Mat.elemDivA,
    Mat.elemDiv, Mat.mulA, Mat.mul, ← for0_lift, lift_bind, lift_pure, lift_ok, bind_assoc, pure_bind] <;> rfl

/-! ## Histories in which panics are caught -/

/-- The mutating operations. -/
inductive Mut (σ α : Type) where
  /-- `a.mmap(f)` -/
  | mmap (f : α → Act σ α)
  /-- `a.mneg()` -/
  | mneg
  /-- `a.mscale(k)` -/
  | mscale (k : α)
  /-- `a.madd(m)` -/
  | madd (m : Mat α)
  /-- `a.msub(m)` -/
  | msub (m : Mat α)
  /-- `a.melem_mul(m)` -/
  | melemMul (m : Mat α)
  /-- `a.melem_div(m)` -/
  | melemDiv (m : Mat α)
  /-- `a.mmul(m)` -/
  | mmul (m : Mat α)
  /-- `a.mt()` -/
  | mt (mode : Mode) (w fuel : Nat)
  /-- `a.set(row, col, v)`, `*a.get_mref(row, col) = v` -/
  | set (row col : Nat) (v : α)

/-- The call. -/
def Mut.exec [ElemOps σ α] : Mut σ α → Act (σ × Mat α) Unit
  | .mmap f => Mat.mmapA f
  | .mneg => Mat.mnegA
  | .mscale k => Mat.mscaleA k
  | .madd m => Mat.maddA m
  | .msub m => Mat.msubA m
  | .melemMul m => Mat.melemMulA m
  | .melemDiv m => Mat.melemDivA m
  | .mmul m => Mat.mmulA m
  | .mt mode w fuel => Mat.mtA mode w fuel
  | .set row col v => Mat.setA row col v

/-- The operand of a product is a matrix with rows and columns. -/
def Mut.Operand : Mut σ α → Prop
  | .mmul m => WF m
  | _ => True

/-- The state after a sequence of calls, each of which may have ended in a panic that was caught. -/
def afterAll [ElemOps σ α] (ops : List (Mut σ α)) (st : σ × Mat α) : σ × Mat α := ops.foldl (fun st op => (op.exec st).2) st

theorem mulA_rows [ElemOps σ α] (a m : Mat α) (s s' : σ) (c : Mat α) (ha : WF a) (hm : WF m) (h : a.mulA m s = (.ok c, s')) : WF c := by
  obtain ⟨n, hn, A, hA⟩ := ha.exists_ofM
  obtain ⟨q, hq, B, hB⟩ := hm.exists_ofM
  have key := C83_mul (σ := σ) ha.1 hm.1 A B
  rw [← hA, ← hB] at key
  by_cases hp : n = m.rows
  · rw [key.1 hp] at h
    have hl : ∀ (l : List (Fin a.rows × Fin q)) (g : Fin a.rows × Fin q → Act σ α) d s s', l.mapM g s = (.ok d, s') → d.length = l.length := by
      intro l g
      induction l with
      | nil => intro d s s' h; cases h; rfl
      | cons x l ih =>
        intro d s s' h
        rw [List.mapM_cons, bind_apply] at h
        rcases hx : g x s with ⟨e | y, s1⟩ <;> rw [hx] at h
        · cases h
        · dsimp only at h
          rw [bind_apply] at h
          rcases hy : l.mapM g s1 with ⟨e | d1, s2⟩ <;> rw [hy] at h
          · cases h
          · cases h
            simp [ih _ _ _ hy]
    rw [bind_apply] at h
    generalize hX : (List.mapM _ (List.finRange a.rows ×ˢ List.finRange q) : Act σ (List α)) s = X at h
    rcases X with ⟨e | d, s1⟩
    · cases h
    · cases h
      refine ⟨ha.1, q, hq, ?_⟩
      have := hl _ _ _ _ _ hX
      rw [this, List.length_product]
      simp
  · rw [key.2 hp] at h
    cases h

/-- C82: after any sequence of mutating calls on a matrix with rows and columns, any number of which may have ended in a (caught) panic of
a closure, an element operation or a check, the receiver is again a matrix with rows and columns, all rows complete. -/
theorem C82_history [ElemOps σ α] (ops : List (Mut σ α)) (hops : ∀ op ∈ ops, op.Operand) (s : σ) (a : Mat α) (ha : WF a) :
    WF (afterAll ops (s, a)).2 := by
  let P : σ × Mat α → Prop := fun st => WF st.2
  have hpeek : ∀ i, Keeps P (fun _ => True) (Mat.peek i) := fun i st h => ⟨h, fun _ _ => trivial⟩
  have hworld : ∀ x : Act σ α, Keeps P (fun _ => True) (world x) := fun x st h => ⟨h, fun _ _ => trivial⟩
  have hself : Keeps P (fun _ => True) Mat.self := fun st h => ⟨h, fun _ _ => trivial⟩
  have hpoke : ∀ i x, Keeps P (fun _ => True) (Mat.poke i x) := by
    intro i x st hst
    refine ⟨?_, fun _ _ => trivial⟩
    unfold Mat.poke
    split
    · obtain ⟨h1, c, h2, h3⟩ := hst
      exact ⟨h1, c, h2, by simpa using h3⟩
    · exact hst
  have sweep1 : ∀ g : α → Act σ α, Keeps P (fun _ => True) (do
      let a ← Mat.self
      for0 a.data.length () fun i _ => do
        let y ← world (g (← Mat.peek i))
        Mat.poke i y) := fun g =>
    hself.bind fun _ _ => Keeps.forN fun i _ => (hpeek i).bind fun _ _ => (hworld _).bind fun _ _ => hpoke _ _
  have sweep2 : ∀ (g : α → α → Act σ α) (m : Mat α), Keeps P (fun _ => True) (do
      let a ← Mat.self
      lift (Mat.assertSameShape a m)
      for0 a.data.length () fun i _ => do
        let y ← world (g (← Mat.peek i) (← lift (idx m.data i)))
        Mat.poke i y) := fun g m =>
    hself.bind fun _ _ => (Keeps.lift _).bind fun _ _ => Keeps.forN fun i _ => (hpeek i).bind fun _ _ => (Keeps.lift _).bind fun _ _ =>
      (hworld _).bind fun _ _ => hpoke _ _
  have step : ∀ op : Mut σ α, op.Operand → ∀ st : σ × Mat α, WF st.2 → WF (op.exec st).2.2 := by
    intro op hop st hst
    cases op with
    | mmap f => exact (sweep1 _ st hst).1
    | mneg => exact (sweep1 _ st hst).1
    | mscale k => exact (sweep1 _ st hst).1
    | madd m => exact (sweep2 _ m st hst).1
    | msub m => exact (sweep2 _ m st hst).1
    | melemMul m => exact (sweep2 _ m st hst).1
    | melemDiv m => exact (sweep2 _ m st hst).1
    | mmul m =>
      show WF (Mat.mmulA m (st.1, st.2)).2.2
      rw [C82_mmul]
      rcases h : st.2.mulA m st.1 with ⟨e | c, s'⟩
      · exact hst
      · exact mulA_rows _ _ _ _ _ hst hop h
    | mt mode w fuel =>
      show WF (Mat.mtA mode w fuel (st.1, st.2)).2.2
      obtain ⟨-, h1, -, h2, h3⟩ := C82_mt mode w fuel st.2 st.1
      obtain ⟨h4, c, h5, h6⟩ := hst
      rcases h : (Mat.mtA mode w fuel (st.1, st.2)).1 with e | u
      · exact ⟨by rw [h2 e h]; exact h4, c, h5, by rw [h2 e h, h1, h6]⟩
      · have h7 := h3 h
        unfold Mat.cols udiv at h7
        rw [if_neg (by omega), h6, Nat.mul_div_cancel_left _ h4] at h7
        have h8 := Except.ok.inj h7
        exact ⟨by omega, st.2.rows, h4, by rw [← h8, h1, h6, Nat.mul_comm]⟩
    | set row col v =>
      refine ((hself.bind fun _ _ => (Keeps.lift _).bind fun _ _ => (Keeps.lift _).bind fun _ _ => (Keeps.lift _).bind fun _ _ => hpoke _ _) st hst).1
  unfold afterAll
  induction ops generalizing s a with
  | nil => exact ha
  | cons op ops ih =>
    rw [List.foldl_cons]
    have := step op (hops op (by simp)) (s, a) ha
    exact ih (fun o ho => hops o (by simp [ho])) _ _ this

/-- `mmap` on `[[1, 2], [3, 4]]` with a closure that panics at 3: the first row has been mapped, the second has not. -/
example : Mat.mmapA logUnless3 ([], ⟨2, [1, 2, 3, 4]⟩) = (.error .assert, [1, 2, 3], ⟨2, [10, 20, 3, 4]⟩) := rfl

/-- The loss on a 4-bit machine: `[[0, 1], [2, 3], [4, 5], [6, 7]]`; the element 4 is gone, 1 is there twice. -/
example : Mat.mtA .debug 4 20 ((), (⟨4, [0, 1, 2, 3, 4, 5, 6, 7]⟩ : Mat Int)) = (.error .arith, (), ⟨4, [0, 1, 2, 3, 1, 5, 6, 7]⟩) := by
  decide +kernel

/-- Element operations that log themselves: `[[1, 2]] * [[3], [4]]`. -/
example :
    letI : ElemOps (List String) Int := {
      zero := 0
      neg := fun x s => (.ok (-x), s ++ ["neg"])
      add := fun x y s => (.ok (x + y), s ++ [s!"{x} + {y}"])
      sub := fun x y s => (.ok (x - y), s ++ [s!"{x} - {y}"])
      mul := fun x y s => (.ok (x * y), s ++ [s!"{x} * {y}"])
      div := fun x y s => (.ok (x / y), s ++ [s!"{x} / {y}"]) }
    Mat.mulA (⟨1, [1, 2]⟩ : Mat Int) ⟨2, [3, 4]⟩ [] = (.ok ⟨1, [11]⟩, ["1 * 3", "0 + 3", "2 * 4", "3 + 8"]) := by
  decide +kernel

end LA.Props
