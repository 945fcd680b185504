import Verif.Model.Effects
import Verif.Proofs.Basic

/-!
# Lemmas about runs with side effects
-/

namespace LA.Act
set_option linter.unusedSectionVars false
variable {σ τ β γ δ : Type}

theorem bind_apply (x : Act σ β) (f : β → Act σ γ) (s : σ) :
    (x >>= f) s = match x s with | (.ok b, s') => f b s' | (.error e, s') => (.error e, s') := rfl

theorem pure_apply (b : β) (s : σ) : (pure b : Act σ β) s = (.ok b, s) := rfl

theorem ext {x y : Act σ β} (h : ∀ s, x s = y s) : x = y := funext h

instance : LawfulMonad (Act σ) := LawfulMonad.mk'
  (id_map := fun x => by
    funext s
    show (x >>= fun b => pure b) s = _
    rw [bind_apply]
    rcases x s with ⟨r | r, s'⟩ <;> rfl)
  (pure_bind := fun b f => rfl)
  (bind_assoc := fun x f g => by
    funext s
    simp only [bind_apply]
    rcases x s with ⟨r | r, s'⟩ <;> rfl)

@[simp] theorem lift_ok_bind (b : β) (f : β → Act σ γ) : (lift (.ok b) >>= f) = f b := rfl
@[simp] theorem lift_err_bind (e : Err) (f : β → Act σ γ) : (lift (.error e) >>= f) = lift (.error e) := rfl
theorem lift_ok (b : β) : (lift (.ok b) : Act σ β) = pure b := rfl
theorem lift_pure (b : β) : (lift (pure b) : Act σ β) = pure b := rfl
theorem lift_bind (r : R β) (f : β → R γ) : (lift (r >>= f) : Act σ γ) = lift r >>= fun b => lift (f b) := by
  cases r <;> rfl

theorem forN_zero (i : Nat) (d : δ) (body : Nat → δ → Act σ δ) : forN 0 i d body = pure d := rfl
theorem forN_succ (k i : Nat) (d : δ) (body : Nat → δ → Act σ δ) :
    forN (k + 1) i d body = body i d >>= fun d' => forN k (i + 1) d' body := rfl

/-- A loop without side effects. -/
theorem forN_lift (k i : Nat) (d : δ) (body : Nat → δ → R δ) :
    forN k i d (fun i d => (lift (body i d) : Act σ δ)) = lift (loopN k i d body) := by
  induction k generalizing i d with
  | zero => rfl
  | succ k ih =>
    rw [forN_succ]
    show _ = lift (body i d >>= fun d' => loopN k (i + 1) d' body)
    rw [lift_bind]
    congr 1; funext d'; exact ih _ _

theorem for0_lift (n : Nat) (d : δ) (body : Nat → δ → R δ) :
    for0 n d (fun i d => (lift (body i d) : Act σ δ)) = lift (loop 0 n d body) := forN_lift n 0 d body

theorem forN_congr {k i : Nat} {d : δ} {f g : Nat → δ → Act σ δ} (h : ∀ j d, i ≤ j → j < i + k → f j d = g j d) :
    forN k i d f = forN k i d g := by
  induction k generalizing i d with
  | zero => rfl
  | succ k ih =>
    rw [forN_succ, forN_succ, h i d (by omega) (by omega)]
    congr 1; funext d'
    exact ih fun j d h1 h2 => h j d (by omega) (by omega)

theorem for0_congr {n : Nat} {d : δ} {f g : Nat → δ → Act σ δ} (h : ∀ j d, j < n → f j d = g j d) : for0 n d f = for0 n d g :=
  forN_congr fun j d _ h2 => h j d (by omega)

/-- Filling a fresh buffer from left to right. -/
theorem forN_fill (g : Nat → Act σ β) (k : Nat) (pre : List β) :
    (forN k pre.length (pre.map some ++ List.replicate k none) fun i d => do let y ← g i; lift (wr d i y)) =
      ((List.range' pre.length k).mapM g >>= fun l => pure ((pre ++ l).map some) : Act σ (Buf β)) := by
  induction k generalizing pre with
  | zero => simp [forN_zero]
  | succ k ih =>
    rw [forN_succ, List.range'_succ, List.mapM_cons]
    simp only [bind_assoc, pure_bind]
    congr 1; funext y
    have hw : wr (pre.map some ++ List.replicate (k + 1) none) pre.length y = .ok ((pre ++ [y]).map some ++ List.replicate k none) := by
      unfold wr
      rw [if_pos (by simp)]
      simp [List.replicate_succ]
    rw [hw, lift_ok_bind]
    have := ih (pre ++ [y])
    rw [List.length_append] at this
    simp only [List.length_singleton] at this
    rw [this]
    congr 1; funext l; simp

theorem freeze_some (l : List β) : freeze (l.map some) = .ok l := by
  induction l with
  | nil => rfl
  | cons x l ih =>
    show (freeze (l.map some) >>= fun l => .ok (x :: l)) = _
    rw [ih]; rfl

/-- Filling a fresh buffer and handing it out. -/
theorem fill (g : Nat → Act σ β) (n : Nat) :
    ((for0 n (alloc β n) fun i d => do let y ← g i; lift (wr d i y)) >>= fun d => lift (freeze d)) =
      ((List.range n).mapM g : Act σ (List β)) := by
  have := forN_fill g n []
  simp only [List.length_nil, List.map_nil, List.nil_append] at this
  show forN n 0 (List.replicate n none) _ >>= _ = _
  rw [this, bind_assoc, List.range_eq_range']
  simp only [pure_bind, freeze_some, lift_ok]
  exact bind_pure _

/-- Visiting the elements of a list by their indices. -/
theorem mapM_range' (xs : List γ) (g : Nat → Act σ β) (f : γ → Act σ β) (i : Nat) (h : ∀ j (hj : j < xs.length), g (i + j) = f xs[j]) :
    (List.range' i xs.length).mapM g = xs.mapM f := by
  induction xs generalizing i with
  | nil => rfl
  | cons x xs ih =>
    rw [List.length_cons, List.range'_succ, List.mapM_cons, List.mapM_cons]
    rw [show g i = f x from h 0 (by simp)]
    rw [ih (i + 1) fun j hj => by
      have := h (j + 1) (by simpa using hj)
      rw [show i + 1 + j = i + (j + 1) by omega, this]; rfl]

theorem mapM_range (xs : List γ) (g : Nat → Act σ β) (f : γ → Act σ β) (h : ∀ j (hj : j < xs.length), g j = f xs[j]) :
    (List.range xs.length).mapM g = xs.mapM f := by
  rw [List.range_eq_range']
  exact mapM_range' xs g f 0 fun j hj => by rw [Nat.zero_add]; exact h j hj

/-- A filled buffer from the elements of a list. -/
theorem fill_list (xs : List γ) (g : Nat → Act σ β) (f : γ → Act σ β) (h : ∀ j (hj : j < xs.length), g j = f xs[j]) {n : Nat} (hn : xs.length = n) :
    ((for0 n (alloc β n) fun i d => do let y ← g i; lift (wr d i y)) >>= fun d => lift (freeze d)) = (xs.mapM f : Act σ (List β)) := by
  subst hn
  rw [fill, mapM_range xs g f h]

theorem world_pure (b : β) : (world (pure b) : Act (σ × τ) β) = pure b := rfl
theorem world_lift (b : R β) : (world (lift b) : Act (σ × τ) β) = lift b := rfl
theorem world_bind (x : Act σ β) (f : β → Act σ γ) : (world (x >>= f) : Act (σ × τ) γ) = world x >>= fun b => world (f b) := by
  funext s
  have h : (world x : Act (σ × τ) β) s = ((x s.1).1, (x s.1).2, s.2) := rfl
  rw [bind_apply, h]
  show (((x >>= f) s.1).1, ((x >>= f) s.1).2, s.2) = _
  rw [bind_apply]
  rcases x s.1 with ⟨r | r, s'⟩ <;> rfl

theorem forN_add (k l i : Nat) (d : δ) (body : Nat → δ → Act σ δ) :
    forN (k + l) i d body = forN k i d body >>= fun d => forN l (i + k) d body := by
  induction k generalizing i d with
  | zero => rw [Nat.zero_add, forN_zero, pure_bind]; rfl
  | succ k ih =>
    rw [Nat.succ_add, forN_succ, forN_succ, bind_assoc]
    congr 1; funext d'
    rw [ih, show i + (k + 1) = i + 1 + k by omega]

theorem forN_shift (n off i : Nat) (d : δ) (b : Nat → δ → Act σ δ) : forN n i d (fun c => b (off + c)) = forN n (off + i) d b := by
  induction n generalizing i d with
  | zero => rfl
  | succ n ih =>
    rw [forN_succ, forN_succ]
    congr 1; funext d'
    rw [ih]; rfl

/-- Two nested loops that visit an array in storage order. -/
theorem forN_nest (k n i : Nat) (d : δ) (b : Nat → δ → Act σ δ) :
    forN k i d (fun row d => for0 n d fun col d => b (row * n + col) d) = forN (k * n) (i * n) d b := by
  induction k generalizing i d with
  | zero => simp [forN_zero]
  | succ k ih =>
    rw [forN_succ, Nat.succ_mul, Nat.add_comm (k * n), forN_add]
    unfold for0
    have hs := forN_shift n (i * n) 0 d b
    rw [Nat.add_zero] at hs
    rw [hs]
    congr 1; funext d'
    have := ih (i + 1) d'
    unfold for0 at this
    rw [this, Nat.succ_mul]

theorem forN_world (k i : Nat) (d : δ) (body : Nat → δ → Act σ δ) :
    (forN k i d (fun j d => world (body j d)) : Act (σ × τ) δ) = world (forN k i d body) := by
  induction k generalizing i d with
  | zero => rfl
  | succ k ih =>
    rw [forN_succ, forN_succ, world_bind]
    congr 1; funext d'; exact ih _ _

theorem forN_foldlM (k i : Nat) (d : δ) (b : Nat → δ → Act σ δ) : forN k i d b = (List.range' i k).foldlM (fun d j => b j d) d := by
  induction k generalizing i d with
  | zero => rfl
  | succ k ih =>
    rw [forN_succ, List.range'_succ, List.foldlM_cons]
    congr 1; funext d'; exact ih _ _

theorem for0_finRange (n : Nat) (d : δ) (b : Nat → δ → Act σ δ) : for0 n d b = (List.finRange n).foldlM (fun d j => b j.val d) d := by
  unfold for0
  rw [forN_foldlM, ← List.range_eq_range', ← List.map_coe_finRange_eq_range, List.foldlM_map]

/-- The positions, counted from `i`, of the `true`s of a list. -/
def picks : Nat → List Bool → List Nat
  | _, [] => []
  | i, b :: bs => if b then i :: picks (i + 1) bs else picks (i + 1) bs

/-- Collecting indices. -/
theorem forN_filter (f : Nat → Act σ Bool) (k i : Nat) (v : List Nat) :
    (forN k i v fun j v => do if ← f j then return v ++ [j] else return v) =
      ((List.range' i k).mapM f >>= fun l => pure (v ++ picks i l) : Act σ (List Nat)) := by
  induction k generalizing i v with
  | zero => simp [forN_zero, picks]
  | succ k ih =>
    rw [forN_succ, List.range'_succ, List.mapM_cons]
    simp only [bind_assoc, pure_bind]
    congr 1; funext b
    cases b
    · simp only [Bool.false_eq_true, if_false, pure_bind, ih, picks]
    · simp only [if_true, pure_bind, ih, picks, List.append_assoc, List.singleton_append]

/-- What follows a `mapM` may use the length of its result. -/
theorem mapM_bind_congr (f : γ → Act σ β) (l : List γ) {k k' : List β → Act σ δ} (h : ∀ bs, bs.length = l.length → k bs = k' bs) :
    (l.mapM f >>= k) = (l.mapM f >>= k') := by
  induction l generalizing k k' with
  | nil => simp only [List.mapM_nil, pure_bind]; exact h [] rfl
  | cons x l ih =>
    rw [List.mapM_cons]
    simp only [bind_assoc, pure_bind]
    congr 1; funext b
    exact ih fun bs hb => h _ (by simp [hb])

theorem collect_picks (bs : List Bool) : Mat.collect bs.length (fun i => idx bs i) = .ok (picks 0 bs) := by
  have key : ∀ (bs pre : List Bool) (v : List Nat),
      loopN bs.length pre.length v (fun i v => do if ← idx (pre ++ bs) i then return v ++ [i] else return v) = .ok (v ++ picks pre.length bs) := by
    intro bs
    induction bs with
    | nil => intro pre v; simp [loopN, picks]
    | cons b bs ih =>
      intro pre v
      have h1 : idx (pre ++ b :: bs) pre.length = .ok b := by unfold idx; simp
      have h2 := ih (pre ++ [b])
      simp only [List.append_assoc, List.singleton_append, List.length_append, List.length_singleton] at h2
      show ((do if ← idx (pre ++ b :: bs) pre.length then return v ++ [pre.length] else return v) >>= fun d => _) = _
      rw [h1, ok_bind]
      cases b
      · simp only [Bool.false_eq_true, if_false, picks]; exact h2 v
      · simp only [if_true, picks]; exact (h2 _).trans (by simp)
  exact key bs [] []

end LA.Act
