import Verif.Proofs.Effects
import Verif.Props.Blocks

/-!
# C81-C83: closures and element operations that panic or have side effects

Runs are compared as functions of the world `σ`: equal runs make the same calls with the same arguments in the same order, end in the same
world and return the same value or the same panic.  The specification uses the standard `List.mapM`, `List.foldlM`: the calls one after
another, up to the first that panics.
-/

namespace LA.Props
open LA Act
set_option linter.unusedSectionVars false
variable {σ α β : Type}

theorem idx_lt {l : List α} {i : Nat} (h : i < l.length) : idx l i = .ok l[i] := by
  unfold idx; rw [List.getElem?_eq_getElem h]

/-- C81: `map` calls the closure on the elements in storage order. -/
theorem C81_map (f : α → Act σ β) (a : Mat α) :
    a.mapA f = (do return ⟨a.rows, ← a.data.mapM f⟩) := by
  have := fill_list a.data (fun i => do f (← lift (idx a.data i))) f (fun j hj => by rw [idx_lt hj, lift_ok_bind]) rfl
  rw [← this]
  unfold Mat.mapA
  simp only [bind_assoc]

/-- C81: `random` draws the elements in storage order. -/
theorem C81_random (draw : Act σ α) (m n : Nat) :
    Mat.randomA draw m n = (do return ⟨m, ← (List.range (m * n)).mapM fun _ => draw⟩) := by
  rw [← fill]
  unfold Mat.randomA
  simp only [bind_assoc]

theorem selectRows_picks (a : Mat α) (bs : List Bool) (h : bs.length = a.rows) : a.selectRows bs = a.permuteRows (picks 0 bs) := by
  unfold Mat.selectRows
  rw [collect_picks]
  simp [h, assert]

/-- C81: `filter_rows` asks the closure about the rows from the first to the last, and selects with the answers. -/
theorem C81_filterRows (f : Mat α → Nat → Act σ Bool) (a : Mat α) :
    a.filterRowsA f = (do lift (a.selectRows (← (List.range a.rows).mapM (f a)))) := by
  unfold Mat.filterRowsA for0
  rw [forN_filter, List.range_eq_range', bind_assoc]
  simp only [pure_bind]
  refine mapM_bind_congr _ _ fun bs hb => ?_
  rw [selectRows_picks a bs (by simpa using hb), List.nil_append]

/-- C81: `filter_columns` in the same way. -/
theorem C81_filterColumns (f : Mat α → Nat → Act σ Bool) (a : Mat α) :
    a.filterColumnsA f = (do
      let n ← lift a.cols
      lift (a.selectColumns (← (List.range n).mapM (f a)))) := by
  unfold Mat.filterColumnsA for0
  rcases h : a.cols with e | c
  · rfl
  simp only [lift_ok_bind]
  rw [forN_filter, List.range_eq_range', bind_assoc]
  simp only [pure_bind]
  refine mapM_bind_congr _ _ fun bs hb => ?_
  unfold Mat.selectColumns
  rw [h, collect_picks]
  rw [List.length_range'] at hb
  simp [hb, assert]

/-- One row of `reduce`. -/
theorem reduce_row (f : β → α → Act σ β) (data : List α) (n i : Nat) (rest : List β) (pre : List β) (xs : List α)
    (hn : pre.length + rest.length = n) (hr : rest ≠ []) (hx : xs.length = rest.length)
    (hi : ∀ j (hj : j < xs.length), idx data (i + j) = .ok xs[j]) :
    (forN rest.length i (pre ++ rest, pre.length) fun i (data', k) => do
      let y ← f (← lift (idx data' k)) (← lift (idx data i))
      let data' ← lift (setIdx data' k y)
      let k ← lift (umod (k + 1) data'.length)
      return (data', k)) =
    ((rest.zip xs).mapM (fun p => f p.1 p.2) >>= fun l => pure (pre ++ l, 0) : Act σ (List β × Nat)) := by
  induction rest generalizing pre xs i with
  | nil => exact absurd rfl hr
  | cons b rest ih =>
    rcases xs with _ | ⟨x, xs⟩
    · simp at hx
    have h1 : idx (pre ++ b :: rest) pre.length = .ok b := by unfold idx; simp
    have h2 : idx data i = .ok x := by have := hi 0 (by simp); simpa using this
    have h3 : ∀ y, setIdx (pre ++ b :: rest) pre.length y = .ok (pre ++ [y] ++ rest) := by intro y; unfold setIdx; simp
    rw [List.length_cons, forN_succ, List.zip_cons_cons, List.mapM_cons]
    dsimp only
    rw [h1, h2]
    simp only [lift_ok_bind, bind_assoc, h3, pure_bind]
    congr 1; funext y
    have h4 : (pre ++ [y] ++ rest).length = n := by simp at hn ⊢; omega
    rw [h4, show umod (pre.length + 1) n = .ok ((pre.length + 1) % n) by unfold umod; rw [if_neg]; simp at hn; omega]
    rw [lift_ok_bind]
    rcases rest with _ | ⟨c, rest⟩
    · simp only [List.length_nil, forN_zero, List.zip_nil_left, List.mapM_nil, pure_bind, List.append_nil]
      simp at hn
      rw [hn, Nat.mod_self]
    · rw [Nat.mod_eq_of_lt (by simp at hn; omega)]
      have := ih (i + 1) (pre ++ [y]) xs (by simp at hn ⊢; omega) (by simp) (by simpa using hx) (fun j hj => by
        have := hi (j + 1) (by simpa using hj)
        rw [show i + 1 + j = i + (j + 1) by omega, this]; rfl)
      rw [List.length_append, List.length_singleton] at this
      rw [this]
      simp

/-- Several rows of `reduce`. -/
theorem reduce_rows (f : β → α → Act σ β) (data : List α) (n : Nat) (row : Nat → List α) (k i : Nat) (acc : List β) (hn : 0 < n)
    (hacc : acc.length = n) (hrow : ∀ r, i ≤ r → r < i + k → (row r).length = n)
    (hi : ∀ r, i ≤ r → r < i + k → ∀ j (hj : j < (row r).length), idx data (r * n + j) = .ok (row r)[j]) :
    (forN (k * n) (i * n) (acc, 0) fun i (data', k) => do
      let y ← f (← lift (idx data' k)) (← lift (idx data i))
      let data' ← lift (setIdx data' k y)
      let k ← lift (umod (k + 1) data'.length)
      return (data', k)) =
    ((List.range' i k).foldlM (fun acc i => (acc.zip (row i)).mapM fun p => f p.1 p.2) acc >>= fun l => pure (l, 0) : Act σ (List β × Nat)) := by
  induction k generalizing i acc with
  | zero => simp [forN_zero]
  | succ k ih =>
    rw [Nat.succ_mul, Nat.add_comm, forN_add, List.range'_succ, List.foldlM_cons, bind_assoc]
    have h1 := reduce_row f data n (i * n) acc [] (row i) (by simpa using hacc) (by rintro rfl; simp at hacc; omega)
      (by rw [hrow i (by omega) (by omega), hacc]) (hi i (by omega) (by omega))
    rw [hacc] at h1
    simp only [List.nil_append, List.length_nil] at h1
    rw [h1, bind_assoc]
    refine mapM_bind_congr _ _ fun l hl => ?_
    rw [pure_bind, show i * n + n = (i + 1) * n by ring]
    refine ih (i + 1) l ?_ (fun r h1 h2 => hrow r (by omega) (by omega)) (fun r h1 h2 => hi r (by omega) (by omega))
    rw [hl, List.length_zip, hacc, hrow i (by omega) (by omega), Nat.min_self]

/-- C81: `reduce` goes through the rows from the first to the last, and in each row through the columns, and calls the closure with the
accumulator of the column and the element.  If the number of accumulators is wrong it panics without a call. -/
theorem C81_reduce {m n : Nat} (hm : 0 < m) (A : Matrix (Fin m) (Fin n) α) (init : List β) (f : β → α → Act σ β) :
    (init.length = n → (ofM A).reduceA init f = (do
      let acc ← (List.finRange m).foldlM (fun acc i => (acc.zip (List.ofFn (A i))).mapM fun p => f p.1 p.2) init
      return ⟨1, acc⟩)) ∧
    (init.length ≠ n → (ofM A).reduceA init f = lift (.error .assert)) := by
  constructor
  · intro hinit
    unfold Mat.reduceA
    rw [ofM_cols A hm, lift_ok_bind, hinit]
    simp only [beq_self_eq_true]
    rw [show assert true = .ok () from rfl, lift_ok_bind]
    rcases Nat.eq_zero_or_pos n with rfl | hn
    · obtain rfl : init = [] := List.eq_nil_of_length_eq_zero hinit
      have h0 : (ofM A).data.length = 0 := by rw [ofM_length]; simp
      rw [h0]
      unfold for0
      rw [forN_zero, pure_bind]
      have : ∀ l : List (Fin m), (l.foldlM (fun acc i => (acc.zip (List.ofFn (A i))).mapM fun p => f p.1 p.2) [] : Act σ (List β)) = pure [] := by
        intro l; induction l with
        | nil => rfl
        | cons x l ih => rw [List.foldlM_cons]; simpa using ih
      rw [this, pure_bind]
    · have key := reduce_rows f (ofM A).data n (fun i => if h : i < m then List.ofFn (A ⟨i, h⟩) else []) m 0 init hn hinit
        (fun r _ hr => by rw [dif_pos (by omega)]; simp) (fun r _ hr j hj => by
          have hr' : r < m := by omega
          simp only [dif_pos hr'] at hj ⊢
          have hj' : j < n := by simpa using hj
          rw [idx_ofM A hr' hj']; simp)
      unfold for0
      rw [ofM_length]
      rw [Nat.zero_mul] at key
      rw [key, bind_assoc]
      simp only [pure_bind]
      congr 1
      rw [← List.range_eq_range', ← List.map_coe_finRange_eq_range, List.foldlM_map]
      congr 1
      funext acc i
      simp
  · intro h
    unfold Mat.reduceA
    rw [ofM_cols A hm, lift_ok_bind]
    rw [show assert (init.length == n) = .error .assert by unfold assert; rw [if_neg (by simpa using h)], lift_err_bind]

/-! ## `read_csv` -/

/-- The cells of a line: the pieces between commas, trimmed. -/
def cells (ws : Char → Bool) (line : List Char) : List (List Char) := (splitOn ',' line).map (trim ws)

theorem push_mapM {γ : Type} (g : γ → Act σ α) (items : List γ) (d : List α) :
    (items.foldlM (fun data item => do return data ++ [← g item]) d : Act σ (List α)) = items.mapM g >>= fun l => pure (d ++ l) := by
  induction items generalizing d with
  | nil => simp
  | cons x items ih =>
    rw [List.foldlM_cons, List.mapM_cons]
    simp only [bind_assoc, pure_bind, ih]
    simp

theorem csvLineA_eq (ws : Char → Bool) (parser : List Char → Act σ α) (d : List α) (r : Nat) (cc : Option Nat) (line : List Char) :
    csvLineA ws parser (d, r, cc) line = ((cells ws line).mapM parser >>= fun l =>
      if cc = none ∨ cc = some (cells ws line).length then pure (d ++ l, r + 1, some (cells ws line).length) else lift (.error .assert)) := by
  unfold csvLineA cells
  dsimp only
  rw [push_mapM, List.mapM_map, bind_assoc]
  refine mapM_bind_congr _ _ fun l hl => ?_
  rw [pure_bind]
  have hu : usub (d ++ l).length d.length = .ok l.length := by unfold usub; rw [if_pos (by simp)]; simp
  rw [hu, lift_ok_bind, List.length_map, hl]
  cases cc with
  | none => simp
  | some c =>
    by_cases h : c = (splitOn ',' line).length
    · rw [if_pos (Or.inr (by rw [h])), h]
      simp only [beq_self_eq_true]
      rfl
    · rw [if_neg (by simpa using h)]
      dsimp only
      rw [show assert (c == (splitOn ',' line).length) = .error .assert by unfold assert; rw [if_neg (by simpa using h)]]
      rfl

theorem csvLines_eq (ws : Char → Bool) (parser : List Char → Act σ α) (c : Nat) (ls : List (List Char)) (d : List α) (r : Nat)
    (h : ∀ l ∈ ls, (cells ws l).length = c) :
    ls.foldlM (csvLineA ws parser) (d, r, some c) = ((ls.flatMap (cells ws)).mapM parser >>= fun l => pure (d ++ l, r + ls.length, some c) : Act σ _) := by
  induction ls generalizing d r with
  | nil => simp
  | cons x ls ih =>
    rw [List.foldlM_cons, csvLineA_eq, List.flatMap_cons, List.mapM_append, bind_assoc, bind_assoc]
    congr 1; funext l
    rw [h x (by simp), if_pos (Or.inr rfl), pure_bind, ih _ _ fun l hl => h l (by simp [hl]), bind_assoc]
    congr 1; funext l'
    rw [pure_bind, List.append_assoc, List.length_cons, show r + 1 + ls.length = r + (ls.length + 1) by omega]

/-- C81: `read_csv` calls the parser on the trimmed cells, line by line and from left to right.  If the lines have equally many cells it
returns the parsed cells; a line with another number of cells is still parsed, then the call panics and the lines after it are not looked at.
Without a file, or with an empty one, it panics without a call. -/
theorem C81_readCsv (cr : Bool) (ws : Char → Bool) (parser : List Char → Act σ α) :
    (∀ text c, lines cr text ≠ [] → (∀ l ∈ lines cr text, (cells ws l).length = c) →
      readCsvA cr ws (some text) parser = (do
        let data ← ((lines cr text).flatMap (cells ws)).mapM parser
        return ⟨(lines cr text).length, data⟩)) ∧
    (∀ text c good bad rest, good ≠ [] → lines cr text = good ++ bad :: rest → (∀ l ∈ good, (cells ws l).length = c) →
      (cells ws bad).length ≠ c →
      readCsvA cr ws (some text) parser = (do
        let _ ← ((good ++ [bad]).flatMap (cells ws)).mapM parser
        lift (.error .assert))) ∧
    (∀ text, lines cr text = [] → readCsvA cr ws (some text) parser = lift (.error .assert)) ∧
    readCsvA cr ws none parser = lift (.error .unwrap) := by
  have start : ∀ x ls c, (∀ l ∈ x :: ls, (cells ws l).length = c) →
      (x :: ls).foldlM (csvLineA ws parser) ([], 0, none) =
        (((x :: ls).flatMap (cells ws)).mapM parser >>= fun l => pure (l, ls.length + 1, some c) : Act σ _) := by
    intro x ls c h
    rw [List.foldlM_cons, csvLineA_eq, List.flatMap_cons, List.mapM_append, bind_assoc, bind_assoc]
    congr 1; funext l
    rw [if_pos (Or.inl rfl), pure_bind, h x (by simp), csvLines_eq ws parser c ls _ _ fun l hl => h l (by simp [hl]), bind_assoc]
    congr 1; funext l'
    rw [pure_bind, List.nil_append, show 0 + 1 + ls.length = ls.length + 1 by omega]
  refine ⟨?_, ?_, ?_, rfl⟩
  · intro text c hne h
    unfold readCsvA
    rw [show unwrap (some text) = .ok text from rfl, lift_ok_bind]
    rcases hl : lines cr text with _ | ⟨x, ls⟩
    · exact absurd hl hne
    rw [hl] at h
    rw [start x ls c h, bind_assoc]
    refine mapM_bind_congr _ _ fun d hd => ?_
    rw [pure_bind]
    have hlen : d.length = (ls.length + 1) * c := by
      rw [hd, List.length_flatMap]
      have : (x :: ls).map (fun l => (cells ws l).length) = (x :: ls).map (fun _ => c) := List.map_congr_left h
      rw [this]; simp; ring
    have hc : c ≠ 0 := by
      rw [← h x (by simp)]
      unfold cells
      rw [List.length_map]
      cases x with
      | nil => simp [splitOn]
      | cons y x => simp only [splitOn]; split
                    · simp
                    · split <;> simp
    have hn : Mat.new (ls.length + 1) c d = .ok ⟨ls.length + 1, d⟩ := by
      unfold Mat.new
      rw [hlen]
      simp [assert, Nat.pos_of_ne_zero hc]
    show lift (assert true) >>= (fun _ => lift (.ok c) >>= fun c => lift (Mat.new (ls.length + 1) c d)) = _
    rw [lift_ok_bind, hn]
    rfl
  · intro text c good bad rest hg hl h hb
    unfold readCsvA
    rw [show unwrap (some text) = .ok text from rfl, lift_ok_bind, hl]
    rcases good with _ | ⟨x, ls⟩
    · exact absurd rfl hg
    rw [List.foldlM_append, start x ls c h, List.flatMap_append, List.mapM_append]
    simp only [bind_assoc, pure_bind, List.foldlM_cons, csvLineA_eq, List.flatMap_cons, List.flatMap_nil, List.append_nil]
    congr 1; funext d
    congr 1; funext d'
    rw [if_neg (by simpa using fun e => hb e.symm)]
    rfl
  · intro text hl
    unfold readCsvA
    rw [show unwrap (some text) = .ok text from rfl, lift_ok_bind, hl]
    rfl

/-- C81: closures without side effects. -/
theorem C81_agrees (a : Mat α) (f : α → β) (init : List β) (g : β → α → β) (p : Mat α → Nat → Bool) (cr : Bool) (ws : Char → Bool) 
    (file : Option (List Char)) (parser : List Char → R α) :
    a.mapA (fun x => pure (f x)) = (lift (a.map f) : Act σ (Mat β)) ∧ 
    a.reduceA init (fun b x => pure (g b x)) = (lift (a.reduce init g) : Act σ (Mat β)) ∧ 
    a.filterRowsA (fun a i => pure (p a i)) = (lift (a.filterRows p) : Act σ (Mat α)) ∧ 
    a.filterColumnsA (fun a i => pure (p a i)) = (lift (a.filterColumns p) : Act σ (Mat α)) ∧
    readCsvA cr ws file (fun s => lift (parser s)) = (lift (readCsv cr ws file parser) : Act σ (Mat α)) := by
  have hite : ∀ (b : Bool) (v w : List Nat), (lift (if b = true then pure v else pure w) : Act σ (List Nat)) = if b = true then pure v else pure w := by
    rintro (_ | _) v w <;> rfl
  refine ⟨?_, ?_, ?_, ?_, ?_⟩
  · simp only [Mat.mapA, Mat.map, ← for0_lift, lift_bind, lift_pure, lift_ok, bind_assoc, pure_bind]
  · simp only [Mat.reduceA, Mat.reduce, ← for0_lift, lift_bind, lift_pure, lift_ok, bind_assoc, pure_bind]
  · simp only [Mat.filterRowsA, Mat.filterRows, Mat.collect, ← for0_lift, hite, lift_bind, lift_pure, lift_ok, bind_assoc, pure_bind]
  · simp only [Mat.filterColumnsA, Mat.filterColumns, Mat.collect, ← for0_lift, hite, lift_bind, lift_pure, lift_ok, bind_assoc, pure_bind]
  · have hf : ∀ {γ δ : Type} (l : List γ) (b : δ) (f : δ → γ → R δ), (l.foldlM (fun b x => lift (f b x)) b : Act σ δ) = lift (l.foldlM f b) := by
      intro γ δ l b f
      induction l generalizing b with
      | nil => rfl
      | cons x l ih => rw [List.foldlM_cons, List.foldlM_cons, lift_bind]; congr 1; funext b; exact ih b
    have hl : ∀ s line, (csvLineA ws (fun s => lift (parser s)) s line : Act σ _) = lift (csvLine ws parser s line) := by
      rintro ⟨d, r, cc⟩ line
      simp only [csvLineA, csvLine]
      cases cc <;> simp only [lift_bind, lift_pure, lift_ok, ← hf, pure_bind]
    have hl' : (csvLineA ws (fun s => lift (parser s)) : _ → _ → Act σ _) = fun s line => lift (csvLine ws parser s line) := by
      funext s line; exact hl s line
    simp only [readCsvA, readCsv, hl', hf, lift_bind, lift_pure, lift_ok, bind_assoc, pure_bind]

/-- A closure that logs its argument and panics at 3. -/
def logUnless3 (x : Int) : Act (List Int) Int := fun s => (if x = 3 then .error .assert else .ok (10 * x), s ++ [x])

/-- `map` on `[[1, 2], [3, 4]]` and on `[[1, 2], [5, 4]]`: the log after a panic and after a return. -/
example : (Mat.mapA logUnless3 ⟨2, [1, 2, 3, 4]⟩ [] = (.error .assert, [1, 2, 3])) ∧
    (Mat.mapA logUnless3 ⟨2, [1, 2, 5, 4]⟩ [] = (.ok ⟨2, [10, 20, 50, 40]⟩, [1, 2, 5, 4])) := ⟨rfl, rfl⟩

/-- `reduce` on `[[1, 2], [5, 4]]` with a closure that logs both arguments. -/
example : Mat.reduceA [100, 200] (fun (b x : Int) (s : List (Int × Int)) => (.ok (b + x), s ++ [(b, x)])) ⟨2, [1, 2, 5, 4]⟩ [] =
    (.ok ⟨1, [106, 206]⟩, [(100, 1), (200, 2), (101, 5), (202, 4)]) := rfl

/-- `filter_rows` with a closure that counts its calls and keeps every other row. -/
example : Mat.filterRowsA (fun _ _ n => (.ok (n % 2 == 0), n + 1)) (⟨3, [1, 2, 3, 4, 5, 6]⟩ : Mat Int) 0 = (.ok ⟨2, [1, 2, 5, 6]⟩, 3) := by
  decide +kernel

end LA.Props
