import Verif.Props.EigenUnits
import Verif.Props.Units
import Verif.Model.Power
import Verif.Proofs.Blocks

/-!
# C123: norms, products, the power method and the pseudo-inverse in other units

With unlimited exponents (`Fu`), for all matrices (also ones whose shape makes the operation panic): multiplying by a power of two commutes
exactly with every operation that is homogeneous on paper.
-/

namespace LA.Props
open LA Fu

/-- The matrix with every element multiplied by `2^k`. -/
def mtimes2 (k : ℤ) (a : Mat Fu) : Mat Fu := ⟨a.rows, a.data.map (times2 k)⟩

/-- Same shape, elements scaled. -/
def MatK (k : ℤ) (a a' : Mat Fu) : Prop := a'.rows = a.rows ∧ LRel (fun _ => k) a.data a'.data

theorem MatK.iff {k : ℤ} {a a' : Mat Fu} : MatK k a a' ↔ a' = mtimes2 k a := by
  constructor
  · rintro ⟨h1, h2⟩
    obtain ⟨r, d⟩ := a'
    dsimp only at h1 h2
    rw [h1, LRel.eq_map h2]
    rfl
  · rintro rfl
    refine ⟨rfl, (List.length_map _).symm, fun p => ?_⟩
    show ORel k _ (a.data.map _)[p]?
    rw [List.getElem?_map]
    cases a.data[p]? with
    | none => trivial
    | some x => exact rfl

theorem sc_iff_times {k : ℤ} {x x' : Fu} : Sc k x x' ↔ x' = times2 k x := by
  constructor
  · intro h
    cases x'
    exact congrArg _ h
  · rintro rfl
    rfl

theorem Sim2.map_eq {σ τ : Type} {x : R σ} {y : R τ} {f : σ → τ} (h : Sim2 x y fun a b => b = f a) : y = x.map f := by
  rcases h with ⟨e, rfl, rfl⟩ | ⟨a, b, rfl, rfl, rfl⟩ <;> rfl

theorem MatK.cols {k : ℤ} {a a' : Mat Fu} (h : MatK k a a') : a'.cols = a.cols := by
  unfold Mat.cols
  rw [h.1, h.2.1]

theorem MatK.getRef {k : ℤ} {a a' : Mat Fu} (h : MatK k a a') (i j : Nat) : Sim2 (a.getRef i j) (a'.getRef i j) (Sc k) := by
  unfold Mat.getRef
  rw [h.cols, h.1]
  refine Sim2.same.bind fun _ _ _ => Sim2.same.bind fun c c' hc => ?_
  subst hc
  exact Sim2.same.bind fun _ _ _ => h.2.idx _ rfl

theorem MatK.mul {k l : ℤ} {a a' b b' : Mat Fu} (h : MatK k a a') (g : MatK l b b') : Sim2 (a.mul b) (a'.mul b') (MatK (k + l)) := by
  unfold Mat.mul
  rw [h.cols, g.cols, h.1, g.1]
  refine Sim2.same.bind fun c c' hc => ?_
  subst hc
  refine Sim2.same.bind fun _ _ _ => Sim2.same.bind fun e e' he => ?_
  subst he
  refine Sim2.bind (P := BRel fun _ => k + l) (Sim2.loop _ (BRel.alloc _ _) fun i d d' _ _ hd => Sim2.loop _ hd fun j d d' _ _ hd => ?_) fun d d' hd => ?_
  · refine Sim2.bind (P := Sc (k + l)) (Sim2.loop _ (Sc.zero _) fun s x x' _ _ hx => ?_) fun x x' hx => hd.wr _ hx rfl
    exact (h.getRef i s).bind fun y y' hy => (g.getRef s j).bind fun z z' hz => Sim2.ok (hx.add (hy.mul hz))
  · exact hd.freeze.bind fun d d' hd => Sim2.ok ⟨rfl, hd⟩

theorem MatK.shape {k l : ℤ} {a a' b b' : Mat Fu} (h : MatK k a a') (g : MatK l b b') : a'.assertSameShape b' = a.assertSameShape b := by
  unfold Mat.assertSameShape
  rw [h.cols, g.cols, h.1, g.1]

theorem MatK.sub {k : ℤ} {a a' b b' : Mat Fu} (h : MatK k a a') (g : MatK k b b') : Sim2 (a.sub b) (a'.sub b') (MatK k) := by
  unfold Mat.sub
  rw [h.shape g, h.1, ← h.2.1]
  refine Sim2.same.bind fun _ _ _ => ?_
  refine Sim2.bind (P := BRel fun _ => k) (Sim2.loop _ (BRel.alloc _ _) fun i d d' _ _ hd => ?_) fun d d' hd => hd.freeze.bind fun d d' hd => Sim2.ok ⟨rfl, hd⟩
  exact (h.2.idx i rfl).bind fun y y' hy => (g.2.idx i rfl).bind fun z z' hz => hd.wr _ (hy.sub hz) rfl

theorem MatK.add {k : ℤ} {a a' b b' : Mat Fu} (h : MatK k a a') (g : MatK k b b') : Sim2 (a.add b) (a'.add b') (MatK k) := by
  unfold Mat.add
  rw [h.shape g, h.1, ← h.2.1]
  refine Sim2.same.bind fun _ _ _ => ?_
  refine Sim2.bind (P := BRel fun _ => k) (Sim2.loop _ (BRel.alloc _ _) fun i d d' _ _ hd => ?_) fun d d' hd => hd.freeze.bind fun d d' hd => Sim2.ok ⟨rfl, hd⟩
  exact (h.2.idx i rfl).bind fun y y' hy => (g.2.idx i rfl).bind fun z z' hz => hd.wr _ (hy.add hz) rfl

theorem MatK.mscale {k l : ℤ} {a a' : Mat Fu} {x x' : Fu} (h : MatK k a a') (hx : Sc l x x') : Sim2 (a.mscale x) (a'.mscale x') (MatK (l + k)) := by
  unfold Mat.mscale
  rw [h.1, ← h.2.1]
  have : Sim2 (LA.loop 0 a.data.length a.data fun i d => do setIdx d i (x * (← idx d i)))
      (LA.loop 0 a.data.length a'.data fun i d => do setIdx d i (x' * (← idx d i)))
      fun d d' => d.length = a.data.length ∧ LRel (fun p => if p < a.data.length then l + k else k) d d' := by
    refine Sim2.loop' (fun i d d' => d.length = a.data.length ∧ LRel (fun p => if p < i then l + k else k) d d') (Nat.zero_le _) ⟨rfl, h.2.congr fun p _ => if_neg (by omega)⟩ fun i d d' _ hi hd => ?_
    refine (hd.2.idx i (if_neg (lt_irrefl _))).bind fun y y' hy => ?_
    have hs := hd.2.setIdx' (e' := fun p => if p < i + 1 then l + k else k) i (hx.mul hy) (if_pos (by omega)) fun p hp => by
      by_cases h1 : p < i
      · rw [if_pos h1, if_pos (by omega)]
      · rw [if_neg h1, if_neg (by omega)]
    rcases hs with ⟨e, h1, h2⟩ | ⟨u, w, h1, h2, h3⟩
    · exact Or.inl ⟨e, h1, h2⟩
    · refine Or.inr ⟨u, w, h1, h2, ?_, h3⟩
      unfold LA.setIdx at h1
      split at h1
      · rw [← Except.ok.inj h1, List.length_set, hd.1]
      · cases h1
  refine this.bind fun d d' hd => Sim2.ok ⟨rfl, hd.2.congr fun p hp => (if_pos (by rw [← hd.1]; exact hp)).symm⟩

theorem MatK.scale {k l : ℤ} {a a' : Mat Fu} {x x' : Fu} (h : MatK k a a') (hx : Sc l x x') : Sim2 (a.scale x) (a'.scale x') (MatK (l + k)) := by
  unfold Mat.scale
  rw [h.1, ← h.2.1]
  refine Sim2.bind (P := BRel fun _ => l + k) (Sim2.loop _ (BRel.alloc _ _) fun i d d' _ _ hd => ?_) fun d d' hd => hd.freeze.bind fun d d' hd => Sim2.ok ⟨rfl, hd⟩
  exact (h.2.idx i rfl).bind fun y y' hy => hd.wr _ (hx.mul hy) rfl

theorem MatK.t {k : ℤ} {a a' : Mat Fu} (h : MatK k a a') : Sim2 a.t a'.t (MatK k) := by
  unfold Mat.t
  rw [h.cols, ← h.2.1]
  refine Sim2.bind (P := fun (p q : Buf Fu × Nat) => BRel (fun _ => k) p.1 q.1 ∧ p.2 = q.2) (Sim2.loop _ ⟨BRel.alloc _ _, rfl⟩ ?_) ?_
  · rintro i ⟨d, s⟩ ⟨d', s'⟩ - - ⟨hd, rfl⟩
    refine (h.2.idx s rfl).bind fun y y' hy => (hd.wr _ hy rfl).bind fun d d' hd => Sim2.same.bind fun c c' hc => ?_
    subst hc
    exact Sim2.ok ⟨hd, rfl⟩
  · rintro ⟨d, s⟩ ⟨d', s'⟩ ⟨hd, -⟩
    refine Sim2.same.bind fun c c' hc => ?_
    subst hc
    exact hd.freeze.bind fun d d' hd => Sim2.ok ⟨rfl, hd⟩

theorem MatK.squares {k : ℤ} {a a' : Mat Fu} (h : MatK k a a') :
    Sim2 (LA.loop 0 a.data.length (0 : Fu) fun i s => do return s + (← idx a.data i) * (← idx a.data i))
      (LA.loop 0 a.data.length (0 : Fu) fun i s => do return s + (← idx a'.data i) * (← idx a'.data i)) (Sc (2 * k)) := by
  refine Sim2.loop _ (Sc.zero _) fun i s s' _ _ hs => (h.2.idx i rfl).bind fun y y' hy => (h.2.idx i rfl).bind fun z z' hz => Sim2.ok (hs.add ((hy.mul hz).cast (by ring)))

theorem MatK.length {k : ℤ} {a a' : Mat Fu} (h : MatK k a a') : Sim2 a.length a'.length (Sc k) := by
  unfold Mat.length Mat.vectorEuclideanNorm
  rw [h.cols, ← h.2.1]
  refine Sim2.same.bind fun c c' hc => ?_
  subst hc
  exact Sim2.same.bind fun _ _ _ => h.squares.bind fun s s' hs => hs.rsqrt

theorem MatK.maxElem {k : ℤ} {a a' : Mat Fu} (h : MatK k a a') : Sim2 a.maxElem a'.maxElem (Sc k) := by
  unfold Mat.maxElem
  rw [h.1]
  refine (h.2.idx 0 rfl).bind fun y y' hy => Sim2.loop _ hy.abs fun i s s' _ _ hs => (h.2.idx 1 rfl).bind fun z z' hz => ?_
  dsimp only
  rw [hs.lt hz.abs]
  split
  · exact Sim2.ok hz.abs
  · exact Sim2.ok hs

/-- C123: trace and norms are multiplied by exactly the same power of two; they panic for the same matrices. -/
theorem C123_norms (a : Mat Fu) (k : ℤ) :
    (mtimes2 k a).trace = a.trace.map (times2 k) ∧
    (mtimes2 k a).length = a.length.map (times2 k) ∧
    (mtimes2 k a).vector1Norm = a.vector1Norm.map (times2 k) ∧
    (mtimes2 k a).vectorInfNorm = a.vectorInfNorm.map (times2 k) ∧
    (mtimes2 k a).frobeniusNorm = a.frobeniusNorm.map (times2 k) := by
  have h : MatK k a (mtimes2 k a) := MatK.iff.2 rfl
  generalize mtimes2 k a = a' at h
  refine ⟨Sim2.map_eq (Sim2.mono ?_ fun _ _ => sc_iff_times.1), Sim2.map_eq (h.length.mono fun _ _ => sc_iff_times.1), Sim2.map_eq (Sim2.mono ?_ fun _ _ => sc_iff_times.1),
    Sim2.map_eq (Sim2.mono ?_ fun _ _ => sc_iff_times.1), Sim2.map_eq (Sim2.mono ?_ fun _ _ => sc_iff_times.1)⟩
  · unfold Mat.trace
    rw [h.cols, h.1]
    refine Sim2.same.bind fun c c' hc => ?_
    subst hc
    refine Sim2.bind (P := fun (p q : Fu × Nat) => Sc k p.1 q.1 ∧ p.2 = q.2) (Sim2.loop _ ⟨Sc.zero _, rfl⟩ ?_) fun p q h => Sim2.ok h.1
    rintro i ⟨s, j⟩ ⟨s', j'⟩ - - ⟨hs, rfl⟩
    refine (h.2.idx j rfl).bind fun y y' hy => Sim2.same.bind fun c c' hc => ?_
    subst hc
    exact Sim2.ok ⟨hs.add hy, rfl⟩
  · unfold Mat.vector1Norm
    rw [h.cols, ← h.2.1]
    refine Sim2.same.bind fun c c' hc => ?_
    subst hc
    exact Sim2.same.bind fun _ _ _ => Sim2.loop _ (Sc.zero _) fun i s s' _ _ hs => (h.2.idx i rfl).bind fun y y' hy => Sim2.ok (hs.add hy.abs)
  · unfold Mat.vectorInfNorm
    rw [h.cols, ← h.2.1]
    refine Sim2.same.bind fun c c' hc => ?_
    subst hc
    refine Sim2.same.bind fun _ _ _ => (h.2.idx 0 rfl).bind fun y y' hy => Sim2.loop _ hy.abs fun i s s' _ _ hs => (h.2.idx i rfl).bind fun z z' hz => ?_
    dsimp only
    rw [hs.lt hz.abs]
    split
    · exact Sim2.ok hz.abs
    · exact Sim2.ok hs
  · unfold Mat.frobeniusNorm
    rw [← h.2.1]
    exact h.squares.bind fun s s' hs => hs.rsqrt

/-- C123: products, sums, differences, multiples and the transpose: the powers of two pass through. -/
theorem C123_arith (a b : Mat Fu) (x : Fu) (k l : ℤ) :
    (mtimes2 k a).mul (mtimes2 l b) = (a.mul b).map (mtimes2 (k + l)) ∧
    (mtimes2 k a).add (mtimes2 k b) = (a.add b).map (mtimes2 k) ∧
    (mtimes2 k a).sub (mtimes2 k b) = (a.sub b).map (mtimes2 k) ∧
    (mtimes2 k a).scale (times2 l x) = (a.scale x).map (mtimes2 (l + k)) ∧
    (mtimes2 k a).t = a.t.map (mtimes2 k) := by
  have h : ∀ (k : ℤ) a, MatK k a (mtimes2 k a) := fun _ _ => MatK.iff.2 rfl
  exact ⟨Sim2.map_eq (((h k a).mul (h l b)).mono fun _ _ => MatK.iff.1), Sim2.map_eq (((h k a).add (h k b)).mono fun _ _ => MatK.iff.1),
    Sim2.map_eq (((h k a).sub (h k b)).mono fun _ _ => MatK.iff.1), Sim2.map_eq (((h k a).scale (sc_iff_times.2 rfl)).mono fun _ _ => MatK.iff.1),
    Sim2.map_eq ((h k a).t.mono fun _ _ => MatK.iff.1)⟩

theorem power_sim {k : ℤ} {a a' : Mat Fu} (h : MatK k a a') (eps : Fu) (fuel : Nat) (w : Mat Fu) :
    Mat.powerLoop a' eps fuel w = Mat.powerLoop a eps fuel w := by
  have h0 : ∀ w, MatK 0 w w := fun w => ⟨rfl, rfl, fun p => by
    cases w.data[p]? with
    | none => trivial
    | some x => exact Sc.refl x⟩
  suffices H : ∀ w w', MatK 0 w w' → Sim2 (Mat.powerLoop a eps fuel w) (Mat.powerLoop a' eps fuel w') (MatK 0) by
    rcases H w w (h0 w) with ⟨e, h1, h2⟩ | ⟨u, w, h1, h2, h3, h4⟩
    · rw [h1, h2]
    · rw [h1, h2]
      obtain ⟨r, d⟩ := u
      obtain ⟨r', d'⟩ := w
      dsimp only at h3 h4
      subst h3
      congr 1
      congr 1
      refine List.ext_getElem? fun p => ?_
      have := h4.2 p
      cases h5 : d[p]? <;> cases h6 : d'[p]? <;> rw [h5, h6] at this
      · exact this.elim
      · exact this.elim
      · exact congrArg some (Sc.eq this)
  induction fuel with
  | zero => exact fun w w' hw => Sim2.err _
  | succ fuel ih =>
    intro w w' hw
    unfold Mat.powerLoop
    refine (h.mul hw).bind fun y y' hy => hy.maxElem.bind fun m m' hm => ((Sc.refl 1).rdiv hm).bind fun f f' hf => (hy.mscale hf).bind fun z z' hz => ?_
    have hz : MatK 0 z z' := ⟨hz.1, hz.2.congr fun p _ => by ring⟩
    refine (hz.sub hw).bind fun d d' hd => hd.length.bind fun s s' hs => ?_
    rw [hs.le (Sc.refl eps)]
    split
    · exact Sim2.ok hz
    · exact ih z z' hz

/-- C123: the power method takes the same steps and returns the same vector, whatever the units of the matrix and of the starting vector. -/
theorem C123_power (a q : Mat Fu) (eps : Fu) (fuel : Nat) (k l : ℤ) :
    Mat.powerMethod fuel (mtimes2 k a) (mtimes2 l q) eps = Mat.powerMethod fuel a q eps := by
  have ha : MatK k a (mtimes2 k a) := MatK.iff.2 rfl
  have hq : MatK l q (mtimes2 l q) := MatK.iff.2 rfl
  generalize mtimes2 k a = a' at ha
  generalize mtimes2 l q = q' at hq
  suffices H : Sim2 (Mat.powerMethod fuel a q eps) (Mat.powerMethod fuel a' q' eps) (fun x y => y = id x) by
    have := Sim2.map_eq H
    rw [this]
    cases Mat.powerMethod fuel a q eps <;> rfl
  unfold Mat.powerMethod
  rw [ha.cols, hq.cols, ha.1, hq.1]
  refine Sim2.same.bind fun c c' hc => ?_
  subst hc
  refine Sim2.same.bind fun _ _ _ => Sim2.same.bind fun c c' hc => ?_
  subst hc
  refine Sim2.same.bind fun _ _ _ => Sim2.same.bind fun c c' hc => ?_
  subst hc
  refine Sim2.same.bind fun _ _ _ => hq.maxElem.bind fun m m' hm => ((Sc.refl 1).rdiv hm).bind fun f f' hf => (hq.scale hf).bind fun z z' hz => ?_
  have hz : z' = z := by
    rw [MatK.iff.1 hz]
    obtain ⟨r, d⟩ := z
    unfold mtimes2
    congr 1
    conv_rhs => rw [← List.map_id d]
    refine List.map_congr_left fun x _ => ?_
    cases x
    simp [times2]
  subst hz
  rw [power_sim ha]
  exact Sim2.same.mono fun _ _ h => h.symm

/-- C123: the pseudo-inverse is multiplied by the inverse power of two. -/
theorem C123_pinverse {m n : Nat} (hm : 0 < m) (hn : 0 < n) (A : Matrix (Fin m) (Fin n) Fu) (k : ℤ) :
    (mtimes2 k (ofM A)).pinverse = (ofM A).pinverse.map (mtimes2 (-k)) := by
  have h : ∀ i j, ((Matrix.of fun i j => times2 k (A i j) : Matrix (Fin m) (Fin n) Fu) i j).q = (A i j).q * 2 ^ (fun _ : Fin n => k) j := fun _ _ => rfl
  have hA : mtimes2 k (ofM A) = ofM (Matrix.of fun i j => times2 k (A i j)) := by
    unfold mtimes2
    rw [ofM_rows]
    unfold ofM
    congr 1
    simp only [List.map_flatten, List.map_ofFn, Matrix.of_apply]
    congr 2
    funext i
    simp only [Function.comp_apply, List.map_ofFn]
    rfl
  have hAK : MatK k (ofM A) (mtimes2 k (ofM A)) := MatK.iff.2 rfl
  refine Sim2.map_eq (Sim2.mono ?_ fun _ _ => MatK.iff.1)
  unfold Mat.pinverse
  have hq := QR.Scale.new_sim (t := onNat fun _ : Fin n => k) hm fun i j => (show Sc k (A i j) _ from h i j).cast (onNat_val (fun _ : Fin n => k) j).symm
  rw [hA] at hAK ⊢
  refine hq.bind fun x x' hx => (QR.Scale.getR_sim hm hn hx).bind fun R R' hR => ?_
  obtain ⟨X, X', rfl, rfl, hX⟩ := hR
  have hX : ∀ i j, Sc k (X i j) (X' i j) := fun i j => (hX i j).cast (onNat_val _ j)
  rw [t_ofM hm X, t_ofM hm X', ok_bind, ok_bind]
  obtain ⟨C, C', h1, h2, h3⟩ := C121_mul hn hm (A := X.transpose) (A' := X'.transpose) (B := X) (B' := X') (a := fun _ => k) (b := fun _ => 0) (c := fun _ => k)
    (fun i j => (hX j i).cast (by ring)) (fun i j => (hX i j).cast (by ring))
  rw [h1, h2, ok_bind, ok_bind]
  rcases C121_inverse hn (t := fun _ => k + k) h3 with ⟨h4, h5⟩ | ⟨Y, Y', h4, h5, h6⟩
  · rw [h4, h5]
    exact Sim2.err _
  · rw [h4, h5]
    have hY : MatK (-(k + k)) (ofM Y) (ofM Y') := ⟨rfl, lrel_ofM fun i j => h6 i j⟩
    refine hAK.t.bind fun T T' hT => (hY.mul hT).mono fun _ _ h => ⟨h.1, h.2.congr fun _ _ => by ring⟩

/-- A rounded norm, and the power method on a matrix in two units. -/
example : (ofM !![(⟨1⟩ : Fu); ⟨2⟩]).length = .ok ⟨629397181890197 / 2 ^ 48⟩ ∧
    Mat.powerMethod 40 (ofM !![(⟨2⟩ : Fu), ⟨1⟩; ⟨1⟩, ⟨5⟩]) (ofM !![(⟨1⟩ : Fu); ⟨1⟩]) ⟨1 / 1024⟩ = .ok (ofM !![(⟨2728971261260923 / 2 ^ 53⟩ : Fu); ⟨1⟩]) := by
  refine ⟨?_, ?_⟩ <;> decide +kernel

/-- The tests with the tolerance `1e-6` are not independent of the units: `[1 2; 3 1]` is not symmetric, `2^-30` times it is. -/
example : (ofM !![(⟨1⟩ : Fu), ⟨2⟩; ⟨3⟩, ⟨1⟩]).isSymmetric = .ok false ∧
    (mtimes2 (-30) (ofM !![(⟨1⟩ : Fu), ⟨2⟩; ⟨3⟩, ⟨1⟩])).isSymmetric = .ok true := by
  refine ⟨?_, ?_⟩ <;> decide +kernel

/-- The pseudo-inverse of a tall matrix in two units. -/
example : (ofM !![(⟨3⟩ : Fu); ⟨1⟩]).pinverse = .ok (ofM !![(⟨2702159776422297 / 2 ^ 53⟩ : Fu), ⟨900719925474099 / 2 ^ 53⟩]) ∧
    (mtimes2 10 (ofM !![(⟨3⟩ : Fu); ⟨1⟩])).pinverse = .ok (ofM !![(⟨2702159776422297 / 2 ^ 63⟩ : Fu), ⟨900719925474099 / 2 ^ 63⟩]) := by
  refine ⟨?_, ?_⟩ <;> decide +kernel

end LA.Props
