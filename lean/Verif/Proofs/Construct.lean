import Verif.Proofs.Grid
import Verif.Model.Macro

/-! # Helper lemmas for constructors -/

namespace LA
variable {α : Type}

theorem fill_const (n : Nat) (c : α) :
    loop 0 n (alloc α n) (fun i d => wr d i c) = .ok ((List.range n).map fun _ => some c) :=
  fill_ok (f := fun _ => .ok c) (fun _ => c) fun _ _ => rfl

theorem zeroFill_ok [Zero α] (n : Nat) : Mat.zeroFill (α := α) n = .ok ((List.range n).map fun _ => some 0) :=
  fill_const n 0

theorem grid_const (m n : Nat) (c : α) :
    Grid ((List.range (m * n)).map fun _ => c) m n (fun _ _ => c) :=
  ⟨by simp, fun i j hi hj => by rw [List.getElem?_map, List.getElem?_range (rm_lt hi hj)]; rfl⟩

/-- Writing a diagonal into an `m × n` buffer of zeros. -/
theorem diag_loop [Zero α] {m n k : Nat} (hk : k ≤ min m n) {f : Nat → R α} (g : Nat → α)
    (h : ∀ i, i < k → f i = .ok (g i)) :
    Post (loop 0 k ((List.range (m * n)).map fun _ => some (0 : α)) fun i d => do wr d (i * n + i) (← f i))
      (fun d => Grid d m n (fun i j => some (if i = j ∧ i < k then g i else 0))) := by
  refine Post.mono (loop_post (fun p d => Grid d m n (fun i j => some (if i = j ∧ i < p then g i else 0)))
    (Nat.zero_le k) ?_ ?_) fun d hd => hd
  · simpa using grid_const m n (some (0 : α))
  · rintro i d - hi hd
    rw [h i hi, ok_bind]
    refine Post.mono (hd.wr (by omega) (by omega) (g i)) fun d' hd' => hd'.congr ?_
    intro i' j' _ _
    unfold upd
    grind

end LA
