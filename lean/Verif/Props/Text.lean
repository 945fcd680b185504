import Verif.Model.Text
import Verif.Props.Construction
import Mathlib.Data.Matrix.Basic

/-! # C52 (`read_csv`) and C53 (`Debug` formatting) -/

namespace LA.Props
open LA

variable {α : Type}

/-! ## C53 -/

/-- A cell: the rendering, right-aligned to `w` bytes after one blank. -/
def cell (render : α → List Char) (w : Nat) (x : α) : List Char :=
  List.replicate (1 + (w - blen (render x))) ' ' ++ render x

/-- One line of the formatted matrix. -/
def rowLine (render : α → List Char) (w : Nat) (xs : List α) : List Char :=
  ['|'] ++ (xs.map (cell render w)).flatten ++ [' ', '|', '\n']

theorem foldl_width (render : α → List Char) (l : List α) (k : Nat) :
    k ≤ l.foldl (fun maxlen elem => let l := blen (render elem); if maxlen > l then maxlen else l) k ∧
    (∀ x ∈ l, blen (render x) ≤ l.foldl (fun maxlen elem => let l := blen (render elem); if maxlen > l then maxlen else l) k) ∧
    (l.foldl (fun maxlen elem => let l := blen (render elem); if maxlen > l then maxlen else l) k = k ∨
      ∃ x ∈ l, blen (render x) = l.foldl (fun maxlen elem => let l := blen (render elem); if maxlen > l then maxlen else l) k) := by
  induction l generalizing k with
  | nil => simp
  | cons y l ih =>
    rw [List.foldl_cons]
    obtain ⟨h1, h2, h3⟩ := ih (let l := blen (render y); if k > l then k else l)
    dsimp only at h1 h2 h3 ⊢
    have hk : k ≤ (if k > blen (render y) then k else blen (render y)) ∧
        blen (render y) ≤ (if k > blen (render y) then k else blen (render y)) := by split <;> omega
    refine ⟨by omega, ?_, ?_⟩
    · intro x hx
      rcases List.mem_cons.1 hx with rfl | hx
      · omega
      · exact h2 x hx
    · rcases h3 with h | ⟨x, hx, h⟩
      · by_cases h' : k > blen (render y)
        · left; rw [h, if_pos h']
        · right
          exact ⟨y, List.mem_cons_self, by rw [h, if_neg h']⟩
      · right; exact ⟨x, List.mem_cons_of_mem _ hx, h⟩

theorem pad_loop (k : Nat) : loop 0 k [' '] (fun _ p => (return p ++ [' '] : R (List Char))) =
    .ok (List.replicate (1 + k) ' ') := by
  refine Post.eq_ok (loop_post (fun i p => p = List.replicate (1 + i) ' ') (Nat.zero_le k) rfl ?_)
  rintro i p - - rfl
  refine Post.ok ?_
  rw [← Nat.add_assoc, List.replicate_succ']

theorem blen_append (s t : List Char) : blen (s ++ t) = blen s + blen t := by simp [blen]

theorem blen_spaces (k : Nat) : blen (List.replicate k ' ') = k := by
  have : Char.utf8Size ' ' = 1 := by decide
  simp [blen, this]

/-- Every cell is exactly `w + 1` bytes wide. -/
theorem blen_cell (render : α → List Char) {w : Nat} {x : α} (h : blen (render x) ≤ w) : blen (cell render w x) = w + 1 := by
  rw [cell, blen_append, blen_spaces]; omega

/-- C53: formatting writes a line feed and then one line per row; every cell is right-aligned to the widest rendering `w`. -/
theorem C53_fmt (render : α → List Char) {m n : Nat} (hm : 0 < m) (hn : 0 < n) (A : Matrix (Fin m) (Fin n) α) :
    ∃ w, (∀ i j, blen (render (A i j)) ≤ w) ∧ (∃ i j, blen (render (A i j)) = w) ∧
      (ofM A).fmt render =
        .ok (['\n'] ++ (List.ofFn fun i => rowLine render w (List.ofFn fun j => A i j)).flatten) := by
  have hmem : ∀ x, x ∈ (ofM A).data ↔ ∃ i j, A i j = x := by
    intro x
    simp only [ofM, List.mem_flatten, List.mem_ofFn]
    constructor
    · rintro ⟨r, ⟨i, rfl⟩, hx⟩
      obtain ⟨j, rfl⟩ := List.mem_ofFn.1 hx
      exact ⟨i, j, rfl⟩
    · rintro ⟨i, j, rfl⟩
      exact ⟨_, ⟨i, rfl⟩, List.mem_ofFn.2 ⟨j, rfl⟩⟩
  obtain ⟨-, h2, h3⟩ := foldl_width render (ofM A).data 0
  set w := maxWidth render (ofM A).data with hw
  have hle : ∀ i j, blen (render (A i j)) ≤ w := fun i j => h2 _ ((hmem _).2 ⟨i, j, rfl⟩)
  refine ⟨w, hle, ?_, ?_⟩
  · rcases h3 with h | ⟨x, hx, h⟩
    · refine ⟨⟨0, hm⟩, ⟨0, hn⟩, ?_⟩
      have := hle ⟨0, hm⟩ ⟨0, hn⟩
      have h' : w = 0 := h
      omega
    · obtain ⟨i, j, rfl⟩ := (hmem x).1 hx
      exact ⟨i, j, h⟩
  · unfold Mat.fmt
    rw [← hw]
    refine Post.eq_ok ((loop_post (fun k out => out = ['\n'] ++ (((List.ofFn fun i => rowLine render w
      (List.ofFn fun j => A i j)).take k).flatten)) (Nat.zero_le m) (by simp) ?_).mono ?_)
    · rintro i out - hi rfl
      rw [ofM_cols A hm, ok_bind]
      set pre := ['\n'] ++ ((List.ofFn fun i => rowLine render w (List.ofFn fun j => A i j)).take i).flatten ++ ['|'] with hpre
      refine (loop_post (fun c out => out = pre ++ ((((List.ofFn fun j => A ⟨i, hi⟩ j).map (cell render w)).take c).flatten))
        (Nat.zero_le n) (by simp) ?_).bind ?_
      · rintro c out - hc rfl
        rw [ofM_getRef A hi hc, ok_bind]
        dsimp only
        rw [usub_ok (hle _ _), ok_bind, pad_loop, ok_bind]
        refine Post.ok ?_
        rw [List.take_succ, List.getElem?_map]
        simp [hc, cell]
      · rintro out rfl
        refine Post.ok ?_
        rw [List.take_succ, List.take_of_length_le (by simp)]
        simp [hi, rowLine, hpre]
    · rintro out rfl
      rw [List.take_of_length_le (by simp)]

/-- C53: all row lines have the same length in bytes, `n·(w+1) + 4`. -/
theorem C53_aligned (render : α → List Char) {m n : Nat} (A : Matrix (Fin m) (Fin n) α) (w : Nat)
    (hw : ∀ i j, blen (render (A i j)) ≤ w) (i : Fin m) :
    blen (rowLine render w (List.ofFn fun j => A i j)) = n * (w + 1) + 4 := by
  have key : ∀ l : List α, (∀ x ∈ l, blen (render x) ≤ w) →
      blen ((l.map (cell render w)).flatten) = l.length * (w + 1) := by
    intro l hl
    induction l with
    | nil => simp [blen]
    | cons x l ih =>
      rw [List.map_cons, List.flatten_cons, blen_append, blen_cell render (hl x List.mem_cons_self),
        ih (fun y hy => hl y (List.mem_cons_of_mem _ hy)), List.length_cons]
      ring
  rw [rowLine, blen_append, blen_append, key _ (by
    intro x hx
    obtain ⟨j, rfl⟩ := List.mem_ofFn.1 hx
    exact hw i j), List.length_ofFn]
  have h1 : blen ['|'] = 1 := by decide
  have h2 : blen [' ', '|', '\n'] = 3 := by decide
  rw [h1, h2]; omega

/-- C53: formatting is total, also on matrices that are not well-formed (no rows, or no columns). -/
theorem C53_total (render : α → List Char) (a : Mat α) : ∃ s, a.fmt render = .ok s := by
  obtain ⟨-, h2, -⟩ := foldl_width render a.data 0
  have h2' : ∀ x ∈ a.data, blen (render x) ≤ maxWidth render a.data := h2
  have : Post (a.fmt render) fun _ => True := by
    unfold Mat.fmt
    refine loop_post_const (fun _ => True) trivial ?_
    intro i out _ hi _
    have hc : a.cols = .ok (a.data.length / a.rows) := by unfold Mat.cols; rw [udiv_ok (by omega)]
    rw [hc, ok_bind]
    refine Post.bind (P := fun _ => True) (loop_post_const (fun _ => True) trivial ?_) (fun _ _ => Post.ok trivial)
    intro j out _ hj _
    have hlt : i * (a.data.length / a.rows) + j < a.data.length :=
      lt_of_lt_of_le (rm_lt hi hj) (Nat.mul_div_le _ _)
    unfold Mat.getRef
    rw [assert_lt hi, hc]
    simp only [ok_bind]
    rw [assert_lt hj, ok_bind, idx_lt hlt, ok_bind, usub_ok (h2' _ (List.getElem_mem _)), ok_bind, pad_loop]
    exact Post.ok trivial
  obtain ⟨s, hs, -⟩ := this
  exact ⟨s, hs⟩

example : (⟨2, [1, 23, 456, 7]⟩ : Mat Nat).fmt (fun n => (toString n).toList) =
    .ok "\n|   1  23 |\n| 456   7 |\n".toList := by decide +kernel

/-! ## C52 -/

theorem splitOn_ne_nil (sep : Char) (s : List Char) : splitOn sep s ≠ [] := by
  cases s with
  | nil => simp [splitOn]
  | cons c s =>
    rw [splitOn]
    split
    · simp
    · split <;> simp

/-- No separator: one piece. -/
theorem splitOn_of_notMem {sep : Char} {f : List Char} (h : sep ∉ f) : splitOn sep f = [f] := by
  induction f with
  | nil => rfl
  | cons c f ih =>
    rw [List.mem_cons, not_or] at h
    rw [splitOn, if_neg (fun e => h.1 e.symm), ih h.2]

theorem splitOn_append {sep : Char} {f : List Char} (h : sep ∉ f) (s : List Char) :
    splitOn sep (f ++ sep :: s) = f :: splitOn sep s := by
  induction f with
  | nil => simp [splitOn]
  | cons c f ih =>
    rw [List.mem_cons, not_or] at h
    rw [List.cons_append, splitOn, if_neg (fun e => h.1 e.symm), ih h.2]

/-- The number of fields of a line is its number of commas plus one. -/
theorem splitOn_length (sep : Char) (s : List Char) : (splitOn sep s).length = s.count sep + 1 := by
  induction s with
  | nil => rfl
  | cons c s ih =>
    rw [splitOn]
    split
    · next h => subst h; simp [ih]
    · next h =>
      rw [List.count_cons_of_ne h]
      have := splitOn_ne_nil sep s
      match hs : splitOn sep s, ih, this with
      | p :: ps, ih, _ => simpa using ih

/-- Joining the pieces gives the text back. -/
def join (sep : Char) : List (List Char) → List Char
  | [] => []
  | [f] => f
  | f :: g :: fs => f ++ sep :: join sep (g :: fs)

theorem join_splitOn (sep : Char) (s : List Char) : join sep (splitOn sep s) = s := by
  induction s with
  | nil => rfl
  | cons c s ih =>
    rw [splitOn]
    have := splitOn_ne_nil sep s
    split
    · next h =>
      match hs : splitOn sep s, this with
      | p :: ps, _ => rw [join, ← hs, ih, h]; rfl
    · match hs : splitOn sep s, this with
      | [p], _ => rw [hs] at ih; simp only [join] at ih ⊢; rw [ih]
      | p :: q :: ps, _ => rw [hs] at ih; simp only [join] at ih ⊢; rw [List.cons_append, ih]

theorem splitOn_join {sep : Char} {fs : List (List Char)} (h0 : fs ≠ []) (h : ∀ f ∈ fs, sep ∉ f) :
    splitOn sep (join sep fs) = fs := by
  induction fs with
  | nil => exact absurd rfl h0
  | cons f fs ih =>
    cases fs with
    | nil => rw [join, splitOn_of_notMem (h f List.mem_cons_self)]
    | cons g fs =>
      rw [join, splitOn_append (h f List.mem_cons_self), ih (by simp) (fun x hx => h x (List.mem_cons_of_mem _ hx))]

/-- The lines of a text in which every line is ended by a line feed. -/
theorem lines_terminated {ls : List (List Char)} (h : ∀ l ∈ ls, '\n' ∉ l) :
    lines false ((ls.map (· ++ ['\n'])).flatten) = ls := by
  have key : splitOn '\n' ((ls.map (· ++ ['\n'])).flatten) = ls ++ [[]] := by
    induction ls with
    | nil => rfl
    | cons l ls ih =>
      rw [List.map_cons, List.flatten_cons, List.append_assoc, List.singleton_append,
        splitOn_append (h l List.mem_cons_self), ih (fun x hx => h x (List.mem_cons_of_mem _ hx))]
      rfl
  unfold lines
  rw [key]
  simp

/-- The lines of a text whose last line is not ended by a line feed. -/
theorem lines_unterminated {ls : List (List Char)} {l : List Char} (h : ∀ l ∈ ls, '\n' ∉ l) (hl : '\n' ∉ l) (hl0 : l ≠ []) :
    lines false ((ls.map (· ++ ['\n'])).flatten ++ l) = ls ++ [l] := by
  have key : splitOn '\n' ((ls.map (· ++ ['\n'])).flatten ++ l) = ls ++ [l] := by
    induction ls with
    | nil => simp [splitOn_of_notMem hl]
    | cons a ls ih =>
      rw [List.map_cons, List.flatten_cons, List.append_assoc, List.append_assoc, List.singleton_append,
        splitOn_append (h a List.mem_cons_self), ih (fun x hx => h x (List.mem_cons_of_mem _ hx))]
      rfl
  unfold lines
  rw [key]
  match l, hl0 with
  | c :: l, _ => simp

/-- Removing a final carriage return, as newer versions of `lines()` do. -/
def stripCr (l : List Char) : List Char := if l.getLast? == some '\r' then l.dropLast else l

theorem lines_of_split (cr : Bool) {text : List Char} {ls : List (List Char)} (h : splitOn '\n' text = ls ++ [[]]) :
    lines cr text = ls.map (fun l => if cr && l.getLast? == some '\r' then l.dropLast else l) := by
  unfold lines
  rw [h]
  dsimp only
  split
  · next hc => simp at hc
  · simp

theorem dropWhile_nil {ws : Char → Bool} {g : List Char} : g.dropWhile ws = [] ↔ ∀ x ∈ g, ws x = true := by
  induction g with
  | nil => simp
  | cons c g ih =>
    cases h : ws c
    · rw [List.dropWhile_cons_of_neg (by simp [h])]; simp [h]
    · rw [List.dropWhile_cons_of_pos h, ih]; simp [h]

variable (ws : Char → Bool) (p : List Char → α)

/-- The parsed fields of one line. -/
def fields (l : List Char) : List α := (splitOn ',' l).map fun f => p (trim ws f)

theorem fields_length (l : List Char) : (fields ws p l).length = l.count ',' + 1 := by
  rw [fields, List.length_map, splitOn_length]

theorem items_ok (items : List (List Char)) (data : List α) :
    items.foldlM (fun data item => (do return data ++ [← (.ok (p (trim ws item)) : R α)] : R (List α))) data =
      .ok (data ++ items.map fun f => p (trim ws f)) := by
  induction items generalizing data with
  | nil => simp
  | cons f fs ih =>
    rw [List.foldlM_cons]
    simp only [ok_bind, pure_eq_ok] at ih ⊢
    rw [ih]
    simp

theorem csvLine_first (data : List α) (rc : Nat) (l : List Char) :
    csvLine ws (fun s => .ok (p s)) (data, rc, none) l = .ok (data ++ fields ws p l, rc + 1, some (l.count ',' + 1)) := by
  unfold csvLine
  dsimp only
  rw [items_ok, ok_bind, usub_ok (by simp)]
  have : (data ++ (splitOn ',' l).map fun f => p (trim ws f)).length - data.length = l.count ',' + 1 := by
    simp [splitOn_length]
  simp only [ok_bind, pure_eq_ok, this]
  rfl

theorem csvLine_next (data : List α) (rc c : Nat) (l : List Char) :
    csvLine ws (fun s => .ok (p s)) (data, rc, some c) l =
      if c = l.count ',' + 1 then .ok (data ++ fields ws p l, rc + 1, some c) else .error .assert := by
  unfold csvLine
  dsimp only
  rw [items_ok, ok_bind, usub_ok (by simp)]
  have : (data ++ (splitOn ',' l).map fun f => p (trim ws f)).length - data.length = l.count ',' + 1 := by
    simp [splitOn_length]
  simp only [ok_bind, this]
  by_cases h : c = l.count ',' + 1
  · rw [if_pos h, assert_of (by simpa using h)]; rfl
  · rw [if_neg h, assert_not (by simpa using h)]; rfl

theorem csv_lines (ls : List (List Char)) (data : List α) (rc c : Nat) :
    ls.foldlM (csvLine ws (fun s => .ok (p s))) (data, rc, some c) =
      if ∀ l ∈ ls, l.count ',' + 1 = c then .ok (data ++ (ls.map (fields ws p)).flatten, rc + ls.length, some c)
      else .error .assert := by
  induction ls generalizing data rc with
  | nil => simp
  | cons l ls ih =>
    rw [List.foldlM_cons, csvLine_next]
    by_cases h : c = l.count ',' + 1
    · rw [if_pos h, ok_bind, ih]
      by_cases h' : ∀ l ∈ ls, l.count ',' + 1 = c
      · rw [if_pos h', if_pos (by simpa [h.symm] using h')]
        simp only [List.map_cons, List.flatten_cons, List.append_assoc, List.length_cons]
        rw [show rc + 1 + ls.length = rc + (ls.length + 1) by omega]
      · rw [if_neg h', if_neg (fun h'' => h' fun x hx => h'' x (List.mem_cons_of_mem _ hx))]
    · rw [if_neg h, error_bind, if_neg (fun h'' => h (h'' l List.mem_cons_self).symm)]

/-- C52, every text (with a parser that does not panic): `read_csv` yields one row per line with the parsed, trimmed fields
if there is a line and all lines have the same number of commas; otherwise it panics. -/
theorem C52_readCsv (cr : Bool) (text : List Char) :
    readCsv cr ws (some text) (fun s => .ok (p s)) =
      if lines cr text ≠ [] ∧ ∀ l ∈ lines cr text, ∀ l' ∈ lines cr text, l.count ',' = l'.count ','
      then .ok ⟨(lines cr text).length, ((lines cr text).map (fields ws p)).flatten⟩ else .error .assert := by
  unfold readCsv
  simp only [unwrap, ok_bind]
  match lines cr text with
  | [] => rfl
  | l :: ls =>
    rw [List.foldlM_cons, csvLine_first, ok_bind, csv_lines]
    by_cases h : ∀ x ∈ ls, x.count ',' + 1 = l.count ',' + 1
    · have h' : ∀ x ∈ l :: ls, x.count ',' = l.count ',' := by
        intro x hx
        rcases List.mem_cons.1 hx with rfl | hx
        · rfl
        · have := h x hx; omega
      rw [if_pos h, if_pos ⟨by simp, fun x hx y hy => (h' x hx).trans (h' y hy).symm⟩]
      simp only [ok_bind, Option.isSome_some, assert_true, List.nil_append]
      obtain ⟨a, ha, h1, -, h3, -⟩ := C01_new_spec (0 + 1 + ls.length) (l.count ',' + 1)
        (fields ws p l ++ (ls.map (fields ws p)).flatten) (by omega) (by omega) (by
          rw [List.length_append, fields_length, List.length_flatten]
          have : ((ls.map (fields ws p)).map List.length) = List.replicate ls.length (l.count ',' + 1) := by
            rw [List.map_map]
            refine List.eq_replicate_iff.2 ⟨by simp, ?_⟩
            intro n hn
            obtain ⟨x, hx, rfl⟩ := List.mem_map.1 hn
            rw [Function.comp_apply, fields_length, h x hx]
          rw [this, List.sum_replicate, smul_eq_mul]
          ring)
      rw [ha]
      cases a with
      | mk r d =>
        dsimp only at h1 h3
        rw [h1, h3, List.map_cons, List.flatten_cons, List.length_cons, Nat.zero_add, Nat.add_comm 1]
    · rw [if_neg h, if_neg (by
        rintro ⟨-, h2⟩
        exact h fun x hx => by rw [h2 x (List.mem_cons_of_mem _ hx) l List.mem_cons_self])]
      rfl

/-- C52: a text without lines (the empty file) panics. -/
theorem C52_empty (cr : Bool) : readCsv cr ws (some []) (fun s => .ok (p s)) = .error .assert := by
  rw [C52_readCsv, if_neg]
  rintro ⟨h, -⟩
  apply h
  cases cr <;> rfl

/-- C52: a file that cannot be opened panics. -/
theorem C52_noFile (cr : Bool) (parser : List Char → R α) : readCsv cr ws none parser = .error .unwrap := rfl

/-- The text of a table of fields. -/
def csvText {m n : Nat} (F : Matrix (Fin m) (Fin n) (List Char)) : List Char :=
  ((List.ofFn fun i => join ',' (List.ofFn fun j => F i j)).map (· ++ ['\n'])).flatten

theorem join_notMem {sep c : Char} (hc : c ≠ sep) {fs : List (List Char)} (h : ∀ f ∈ fs, c ∉ f) : c ∉ join sep fs := by
  induction fs with
  | nil => simp [join]
  | cons f fs ih =>
    cases fs with
    | nil => exact h f List.mem_cons_self
    | cons g fs =>
      rw [join, List.mem_append, List.mem_cons]
      rintro (h1 | h1 | h1)
      · exact h f List.mem_cons_self h1
      · exact hc h1
      · exact ih (fun x hx => h x (List.mem_cons_of_mem _ hx)) h1

theorem trim_dropLast {ws : Char → Bool} (hws : ws '\r' = true) {f : List Char} (h : f.getLast? = some '\r') :
    trim ws f.dropLast = trim ws f := by
  obtain ⟨g, rfl⟩ : ∃ g, f = g ++ ['\r'] := by
    obtain ⟨x, hx⟩ := List.getLast?_eq_some_iff.1 h
    exact ⟨x, hx⟩
  rw [List.dropLast_concat]
  unfold trim
  by_cases hall : ∀ x ∈ g, ws x = true
  · have h1 : (g ++ ['\r']).dropWhile ws = [] := dropWhile_nil.2 (by
      intro x hx
      rcases List.mem_append.1 hx with hx | hx
      · exact hall x hx
      · rw [List.mem_singleton.1 hx, hws])
    rw [dropWhile_nil.2 hall, h1]
  · have hne : g.dropWhile ws ≠ [] := fun e => hall (dropWhile_nil.1 e)
    have : (g ++ ['\r']).dropWhile ws = g.dropWhile ws ++ ['\r'] := by
      rw [List.dropWhile_append, if_neg (by simpa using hne)]
    rw [this, List.reverse_append, List.reverse_singleton, List.singleton_append, List.dropWhile_cons_of_pos hws]

theorem splitOn_stripCr {ws : Char → Bool} (hws : ws '\r' = true) {fs : List (List Char)} (h0 : fs ≠ []) (h : ∀ f ∈ fs, ',' ∉ f) :
    (splitOn ',' (stripCr (join ',' fs))).map (trim ws) = fs.map (trim ws) := by
  by_cases hl : (join ',' fs).getLast? = some '\r'
  swap
  · rw [stripCr, if_neg (by simpa using hl), splitOn_join h0 h]
  · rw [stripCr, if_pos (by simpa using hl)]
    clear h0
    induction fs with
    | nil => simp [join] at hl
    | cons f fs ih =>
      cases fs with
      | nil =>
        rw [join] at hl ⊢
        have hf := h f List.mem_cons_self
        rw [splitOn_of_notMem (fun hm => hf (List.dropLast_subset f hm))]
        simp [trim_dropLast hws hl]
      | cons g fs =>
        have hne : join ',' (g :: fs) ≠ [] := by
          intro e
          rw [join, e] at hl
          simp at hl
        have hl' : (join ',' (g :: fs)).getLast? = some '\r' := by
          rw [join, List.getLast?_append] at hl
          rw [List.getLast?_cons_of_ne_nil hne] at hl
          obtain ⟨x, hx⟩ : ∃ x, (join ',' (g :: fs)).getLast? = some x := ⟨_, List.getLast?_eq_some_getLast hne⟩
          rw [hx] at hl ⊢
          simpa using hl
        have := ih (fun x hx => h x (List.mem_cons_of_mem _ hx)) hl'
        rw [join, List.dropLast_append_of_ne_nil (by simp), List.dropLast_cons_of_ne_nil hne,
          splitOn_append (h f List.mem_cons_self), List.map_cons, this]
        rfl

/-- C52: reading the text of an `m × n` table gives the matrix of the parsed, trimmed fields (with or without removal of
carriage returns, which are white space). -/
theorem C52_table (cr : Bool) (hws : ws '\r' = true) {m n : Nat} (hm : 0 < m) (hn : 0 < n)
    (F : Matrix (Fin m) (Fin n) (List Char)) (hF : ∀ i j, ',' ∉ F i j ∧ '\n' ∉ F i j) :
    readCsv cr ws (some (csvText F)) (fun s => .ok (p s)) = .ok (ofM (F.map fun f => p (trim ws f))) := by
  set rows : List (List (List Char)) := List.ofFn fun i => List.ofFn fun j => F i j with hrows
  have hmem : ∀ r ∈ rows, r ≠ [] ∧ (∀ f ∈ r, ',' ∉ f) ∧ (∀ f ∈ r, '\n' ∉ f) ∧ r.length = n := by
    intro r hr
    obtain ⟨i, rfl⟩ := List.mem_ofFn.1 hr
    refine ⟨?_, ?_, ?_, by simp⟩
    · intro e
      have := congrArg List.length e
      simp at this; omega
    · intro f hf
      obtain ⟨j, rfl⟩ := List.mem_ofFn.1 hf
      exact (hF i j).1
    · intro f hf
      obtain ⟨j, rfl⟩ := List.mem_ofFn.1 hf
      exact (hF i j).2
  have htext : csvText F = ((rows.map (join ',')).map (· ++ ['\n'])).flatten := by
    simp only [csvText, hrows, List.map_ofFn, Function.comp_def]
  have hl : lines false (csvText F) = rows.map (join ',') := by
    rw [htext, lines_terminated]
    intro l hl
    obtain ⟨r, hr, rfl⟩ := List.mem_map.1 hl
    exact join_notMem (by decide) (hmem r hr).2.2.1
  have hfields : ∃ ls : List (List Char), lines cr (csvText F) = ls ∧ ls.length = m ∧
      ls.map (fun l => (splitOn ',' l).map (trim ws)) = rows.map (fun r => r.map (trim ws)) := by
    cases cr with
    | false =>
      refine ⟨_, hl, by simp [hrows], ?_⟩
      rw [List.map_map]
      refine List.map_congr_left fun r hr => ?_
      rw [Function.comp_apply, splitOn_join (hmem r hr).1 (hmem r hr).2.1]
    | true =>
      have hk : lines true (csvText F) = (rows.map (join ',')).map stripCr := by
        have key : splitOn '\n' (csvText F) = rows.map (join ',') ++ [[]] := by
          rw [htext]
          have : ∀ ls : List (List Char), (∀ l ∈ ls, '\n' ∉ l) → splitOn '\n' ((ls.map (· ++ ['\n'])).flatten) = ls ++ [[]] := by
            intro ls h
            induction ls with
            | nil => rfl
            | cons l ls ih =>
              rw [List.map_cons, List.flatten_cons, List.append_assoc, List.singleton_append,
                splitOn_append (h l List.mem_cons_self), ih (fun x hx => h x (List.mem_cons_of_mem _ hx))]
              rfl
          refine this _ fun l hl => ?_
          obtain ⟨r, hr, rfl⟩ := List.mem_map.1 hl
          exact join_notMem (by decide) (hmem r hr).2.2.1
        rw [lines_of_split true key]
        simp only [Bool.true_and]
        rfl
      refine ⟨_, hk, by simp [hrows], ?_⟩
      rw [List.map_map, List.map_map]
      refine List.map_congr_left fun r hr => ?_
      simp only [Function.comp_apply]
      exact splitOn_stripCr hws (hmem r hr).1 (hmem r hr).2.1
  obtain ⟨ls, hls, hlen, hmap⟩ := hfields
  have hf : ls.map (fields ws p) = rows.map (fun r => r.map (fun f => p (trim ws f))) := by
    have := congrArg (List.map (List.map p)) hmap
    simp only [List.map_map, Function.comp_def] at this
    exact this
  have hcount : ∀ l ∈ ls, l.count ',' + 1 = n := by
    intro l hl
    have : (fields ws p l) ∈ rows.map (fun r => r.map (fun f => p (trim ws f))) := by
      rw [← hf]; exact List.mem_map_of_mem hl
    obtain ⟨r, hr, hr'⟩ := List.mem_map.1 this
    rw [← fields_length ws p l, ← hr', List.length_map, (hmem r hr).2.2.2]
  rw [C52_readCsv, hls, if_pos, hf, hlen]
  · rw [hrows, List.map_ofFn]
    unfold ofM
    simp only [List.map_ofFn, Function.comp_def, Matrix.map_apply]
  · refine ⟨by intro e; rw [e] at hlen; simp at hlen; omega, fun l hl l' hl' => ?_⟩
    have h1 := hcount l hl
    have h2 := hcount l' hl'
    omega

/-- C52: writing a matrix as CSV and reading it back returns the matrix. -/
theorem C52_roundtrip (cr : Bool) (hws : ws '\r' = true) (render : α → List Char) {m n : Nat} (hm : 0 < m) (hn : 0 < n)
    (A : Matrix (Fin m) (Fin n) α) (hr : ∀ x, ',' ∉ render x ∧ '\n' ∉ render x ∧ trim ws (render x) = render x)
    (hp : ∀ x, p (render x) = x) :
    readCsv cr ws (some (csvText (A.map render))) (fun s => .ok (p s)) = .ok (ofM A) := by
  rw [C52_table ws p cr hws hm hn (A.map render) (fun i j => ⟨(hr _).1, (hr _).2.1⟩)]
  congr 2
  ext i j
  simp [(hr (A i j)).2.2, hp]

example : readCsv true Char.isWhitespace (some " 1, 2\r\n3,44\n".toList) (fun s => .ok (String.ofList s)) =
    .ok ⟨2, ["1", "2", "3", "44"]⟩ ∧
  readCsv false Char.isWhitespace (some "1,2\n3".toList) (fun s => .ok (String.ofList s)) = .error .assert := by
  decide +kernel

end LA.Props
