import Verif.Proofs.ScaleSim
import Verif.Model.Cholesky

/-! # Cholesky decomposition in other units -/

namespace LA
open Fu
namespace Cholesky.Scale

variable {n nx : Nat}

theorem dot_sim {e f : Nat → ℤ} {u v u' v' : Nat → R Fu} {lo hi : Nat} {k : ℤ} (h : ∀ i, lo ≤ i → i < hi → Sim2 (u i) (u' i) (Sc (e i)))
    (g : ∀ i, lo ≤ i → i < hi → Sim2 (v i) (v' i) (Sc (f i))) (hk : ∀ i, lo ≤ i → i < hi → e i + f i = k) :
    Sim2 (loop lo hi (0 : Fu) fun i s => do return s + (← u i) * (← v i)) (loop lo hi (0 : Fu) fun i s => do return s + (← u' i) * (← v' i)) (Sc k) := by
  refine Sim2.loop (Sc k) (Sc.zero _) fun i s s' h1 h2 hs => ?_
  exact (h i h1 h2).bind fun x x' hx => (g i h1 h2).bind fun y y' hy => Sim2.ok (hs.add ((hx.mul hy).cast (hk i h1 h2)))

section new
variable {A A' : Matrix (Fin n) (Fin n) Fu} {s : Nat → ℤ}

theorem row_sim (hA : ∀ i j : Fin n, Sc (s i + s j) (A i j) (A' i j)) {j : Nat} (hj : j < n) {d d' : Buf Fu} (hd : BRel (fun p => s (p / n)) d d') :
    Sim2 (row (ofM A) n j d) (row (ofM A') n j d')
      (Sim2.FRel (fun x y => BRel (fun p => s (p / n)) x.1 y.1 ∧ Sc (2 * s j) x.2 y.2) fun _ _ => True) := by
  unfold row
  refine Sim2.loopF _ _ ⟨hd, Sc.zero _⟩ ?_
  rintro k ⟨d, a⟩ ⟨d', a'⟩ - hk ⟨h1, h2⟩
  dsimp only at h1 h2 ⊢
  refine (dot_sim (k := s k + s j) (fun i _ hi => h1.rd (k * n + i) (k := s k) (by rw [row_div (by omega)]))
    (fun i _ hi => h1.rd (j * n + i) (k := s j) (by rw [row_div (by omega)])) fun _ _ _ => rfl).bind fun x x' hx => ?_
  refine (MRel.get (e := fun i j => s i + s j) hA hj (by omega) (k := s k + s j) (add_comm _ _)).bind fun y y' hy => ?_
  refine (h1.rd (k * n + k) (k := s k) (by rw [row_div (by omega)])).bind fun z z' hz => ?_
  refine ((hy.sub hx).rdiv hz).bind fun q q' hq => ?_
  have hq' : Sc (s j) q q' := hq.cast (by ring)
  refine (h1.wr (j * n + k) hq' (by rw [row_div (by omega)])).bind fun b b' hb => ?_
  refine (MRel.get (e := fun i j => s i + s j) hA (by omega) hj (k := s k + s j) rfl).bind fun y1 y1' hy1 => ?_
  refine (MRel.get (e := fun i j => s i + s j) hA hj (by omega) (k := s k + s j) (add_comm _ _)).bind fun y2 y2' hy2 => ?_
  rw [hy1.feq hy2]
  split
  · exact Sim2.ok trivial
  · exact Sim2.ok ⟨hb, h2.add ((hq'.mul hq').cast (by ring))⟩

theorem step_sim (hA : ∀ i j : Fin n, Sc (s i + s j) (A i j) (A' i j)) {j : Nat} (hj : j < n) {d d' : Buf Fu} (hd : BRel (fun p => s (p / n)) d d') :
    Sim2 (step (ofM A) n j d) (step (ofM A') n j d') (Sim2.FRel (BRel fun p => s (p / n)) fun _ _ => True) := by
  unfold step
  refine (row_sim hA hj hd).bind fun x y hxy => ?_
  rcases x with ⟨b, a⟩ | ⟨⟩ <;> rcases y with ⟨b', a'⟩ | ⟨⟩
  · obtain ⟨h1, h2⟩ := hxy
    dsimp only at h1 h2 ⊢
    refine (MRel.get (e := fun i j => s i + s j) hA hj hj (k := 2 * s j) (by ring)).bind fun y y' hy => ?_
    rw [(hy.sub h2).le (Sc.zero (2 * s j))]
    split
    · exact Sim2.ok trivial
    · refine (hy.sub h2).rsqrt.bind fun r r' hr => ?_
      refine (h1.wr (j * n + j) hr (by rw [row_div (by omega)])).bind fun c c' hc => ?_
      refine (Sim2.loop (BRel fun p => s (p / n)) hc fun k t t' _ _ ht => ht.wr (j * n + k) (Sc.zero _) rfl).bind fun t t' ht => Sim2.ok ht
  · exact hxy.elim
  · exact hxy.elim
  · exact Sim2.ok trivial

/-- The two results. -/
def CRel (n : Nat) (s : Nat → ℤ) : Option (Cholesky Fu) → Option (Cholesky Fu) → Prop
  | none, none => True
  | some x, some y => MRel n n (fun i _ => s i) x.l y.l
  | _, _ => False

theorem new_sim (hn : 0 < n) (hA : ∀ i j : Fin n, Sc (s i + s j) (A i j) (A' i j)) :
    Sim2 (Cholesky.new (ofM A)) (Cholesky.new (ofM A')) (CRel n s) := by
  unfold Cholesky.new
  rw [ofM_cols A hn, ofM_cols A' hn]
  simp only [ofM_rows, ok_bind, bne_self_eq_false, Bool.false_eq_true, if_false]
  refine (Sim2.loopF (BRel fun p => s (p / n)) (fun _ _ => True) (BRel.alloc _ _) fun j d d' _ hj hd => step_sim hA hj hd).bind fun x y hxy => ?_
  rcases x with b | ⟨⟩ <;> rcases y with b' | ⟨⟩
  · have hb : BRel (fun p => s (p / n)) b b' := hxy
    refine hb.freeze.bind fun l l' hl => (mrel_new hl).bind fun a a' ha => Sim2.ok ?_
    obtain ⟨X, X', h1, h2, h3⟩ := ha
    exact ⟨X, X', h1, h2, fun i j => (h3 i j).cast (by dsimp only; rw [row_div j.2])⟩
  · exact hxy.elim
  · exact hxy.elim
  · exact Sim2.ok trivial

end new

section solve
variable {s : Nat → ℤ} {r : Nat → ℤ} {l l' : List Fu}

theorem lt_lin {k q i j : Nat} (hj : j < nx) (hi : i < k) : i * nx + j < k * nx + q := by
  have := Nat.mul_le_mul_right nx (show i + 1 ≤ k by omega)
  rw [Nat.add_mul] at this
  omega

theorem forward_sim (hl : LRel (fun p => s (p / n)) l l') {x x' : List Fu} (hx : LRel (fun p => s (p / nx) + r (p % nx)) x x') :
    Sim2 (forward l n nx x) (forward l' n nx x')
      (LRel fun p => if p < n * nx then r (p % nx) else s (p / nx) + r (p % nx)) := by
  unfold forward
  refine Sim2.loop' (fun k => LRel fun p => if p < k * nx then r (p % nx) else s (p / nx) + r (p % nx)) (Nat.zero_le n)
    (hx.congr fun p _ => by rw [Nat.zero_mul, if_neg (by omega)]) fun k x x' _ hk h => ?_
  refine (Sim2.loop' (fun j => LRel fun p => if p < k * nx + j then r (p % nx) else s (p / nx) + r (p % nx)) (Nat.zero_le nx) h
    fun j x x' _ hj h => ?_).mono fun a b hab => by rwa [Nat.add_mul, Nat.one_mul]
  have ek : (if k * nx + j < k * nx + j then r ((k * nx + j) % nx) else s ((k * nx + j) / nx) + r ((k * nx + j) % nx)) = s k + r j := by
    rw [if_neg (lt_irrefl _), row_div hj, col_mod hj]
  refine (Sim2.loop (LRel fun p => if p < k * nx + j then r (p % nx) else s (p / nx) + r (p % nx)) h fun i x x' _ hi h => ?_).bind fun x x' h => ?_
  · refine (h.idx (k * nx + j) ek).bind fun y y' hy => ?_
    refine (h.idx (i * nx + j) (k := r j) (by rw [if_pos (lt_lin hj hi), col_mod hj])).bind fun z z' hz => ?_
    refine (hl.idx (k * n + i) (k := s k) (by rw [row_div (by omega)])).bind fun w w' hw => ?_
    exact h.setIdx _ (hy.sub ((hz.mul hw).cast (add_comm _ _))) ek
  · refine (h.idx (k * nx + j) ek).bind fun y y' hy => ?_
    refine (hl.idx (k * n + k) (k := s k) (by rw [row_div (by omega)])).bind fun w w' hw => ?_
    refine (hy.rdiv hw).bind fun q q' hq => ?_
    refine h.setIdx' _ hq (by rw [if_pos (by omega), col_mod hj]; ring) fun p hp => ?_
    by_cases hlt : p < k * nx + j
    · rw [if_pos hlt, if_pos (by omega)]
    · rw [if_neg hlt, if_neg (by omega)]

theorem backward_sim (hl : LRel (fun p => s (p / n)) l l') {x x' : List Fu} (hx : LRel (fun p => r (p % nx)) x x')
    (hlen : x.length = n * nx) :
    Sim2 (backward l n nx x) (backward l' n nx x') (LRel fun p => r (p % nx) - s (p / nx)) := by
  unfold backward
  refine (Sim2.loopRev' (fun k => LRel fun p => if k * nx ≤ p then r (p % nx) - s (p / nx) else r (p % nx))
    (hx.congr fun p hp => by rw [if_neg (by omega)]) fun k x x' hk h => ?_).mono fun a b hab => hab.congr fun p _ => by rw [if_pos (by omega)]
  refine (Sim2.loop' (fun j => LRel fun p => if k * nx ≤ p ∧ (p < k * nx + j ∨ (k + 1) * nx ≤ p) then r (p % nx) - s (p / nx) else r (p % nx))
    (Nat.zero_le nx) (h.congr fun p _ => ?_) fun j x x' _ hj h => ?_).mono fun a b hab => hab.congr fun p _ => ?_
  · rw [Nat.add_mul, Nat.one_mul]
    by_cases h1 : k * nx + nx ≤ p
    · rw [if_pos h1, if_pos (by omega)]
    · rw [if_neg h1, if_neg (by omega)]
  · have ek : (if k * nx ≤ k * nx + j ∧ (k * nx + j < k * nx + j ∨ (k + 1) * nx ≤ k * nx + j) then r ((k * nx + j) % nx) - s ((k * nx + j) / nx) else r ((k * nx + j) % nx)) = r j := by
      rw [if_neg (by rw [Nat.add_mul, Nat.one_mul]; omega), col_mod hj]
    refine (Sim2.loop (LRel fun p => if k * nx ≤ p ∧ (p < k * nx + j ∨ (k + 1) * nx ≤ p) then r (p % nx) - s (p / nx) else r (p % nx)) h
      fun i x x' hki hi h => ?_).bind fun x x' h => ?_
    · refine (h.idx (k * nx + j) ek).bind fun y y' hy => ?_
      have hm := Nat.mul_le_mul_right nx hki
      refine (h.idx (i * nx + j) (k := r j - s i) (by rw [if_pos (by rw [Nat.add_mul, Nat.one_mul] at *; omega), col_mod hj, row_div hj])).bind fun z z' hz => ?_
      refine (hl.idx (i * n + k) (k := s i) (by rw [row_div (by omega)])).bind fun w w' hw => ?_
      exact h.setIdx _ (hy.sub ((hz.mul hw).cast (by ring))) ek
    · refine (h.idx (k * nx + j) ek).bind fun y y' hy => ?_
      refine (hl.idx (k * n + k) (k := s k) (by rw [row_div (by omega)])).bind fun w w' hw => ?_
      refine (hy.rdiv hw).bind fun q q' hq => ?_
      refine h.setIdx' _ hq (by rw [if_pos (by omega), col_mod hj, row_div hj]) fun p hp => ?_
      by_cases hlt : k * nx ≤ p ∧ (p < k * nx + j ∨ (k + 1) * nx ≤ p)
      · rw [if_pos hlt, if_pos (by omega)]
      · rw [if_neg hlt, if_neg (by omega)]
  · rw [Nat.add_mul, Nat.one_mul]
    by_cases h1 : k * nx ≤ p
    · rw [if_pos h1, if_pos (by omega)]
    · rw [if_neg h1, if_neg (by omega)]

end solve
end Cholesky.Scale
end LA
