import Verif.Proofs.CholScale
import Verif.Model.QR

/-! # QR decomposition in other units -/

namespace LA
open Fu
namespace QR.Scale

variable {m n : Nat} {t : Nat → ℤ}

/-- The exponents of the packed factors. -/
def eC (n : Nat) (t : Nat → ℤ) (p : Nat) : ℤ := t (p % n)

theorem eC_at {i j : Nat} (hj : j < n) : eC n t (i * n + j) = t j := by unfold eC; rw [col_mod hj]

theorem neg_fu {k : ℤ} {x x' : Fu} (h : Sc k x x') : Sc k (-x) (-x') := h.neg

theorem reflectColumn_sim {minor column : Nat} (hm : minor < n) (hc : column < n) (hne : minor < column) {a a' : Fu} (ha : Sc (t minor) a a') {q q' : List Fu}
    (h : LRel (eC n t) q q') :
    Sim2 (reflectColumn minor m n a column q) (reflectColumn minor m n a' column q') (LRel (eC n t)) := by
  unfold reflectColumn
  refine (Cholesky.Scale.dot_sim (e := fun _ => t minor) (f := fun _ => t column) (k := t minor + t column) (fun i _ _ => h.idx (i * n + minor) (eC_at hm))
    (fun i _ _ => h.idx (i * n + column) (eC_at hc)) fun _ _ _ => rfl).bind fun x x' hx => ?_
  refine (h.idx (minor * n + minor) (eC_at hm)).bind fun y y' hy => ?_
  refine (hx.rdiv (ha.mul hy)).bind fun f f' hf => ?_
  refine Sim2.loop (LRel (eC n t)) h fun i q q' _ _ h => ?_
  refine (h.idx (i * n + column) (eC_at hc)).bind fun z z' hz => ?_
  refine (h.idx (i * n + minor) (eC_at hm)).bind fun w w' hw => ?_
  exact h.setIdx _ (hz.add ((hf.mul hw).cast (by ring))) (eC_at hc)

theorem reflect_sim {minor : Nat} (hm : minor < n) {q q' : List Fu} {b b' : Buf Fu} (h : LRel (eC n t) q q') (hb : BRel t b b') :
    Sim2 (reflect minor q m n b) (reflect minor q' m n b') fun x y => LRel (eC n t) x.1 y.1 ∧ BRel t x.2 y.2 := by
  unfold reflect
  refine (Sim2.loop (Sc (2 * t minor)) (Sc.zero _) fun i s s' _ _ hs => ?_).bind fun s s' hs => ?_
  · exact (h.idx (i * n + minor) (eC_at hm)).bind fun c c' hc => Sim2.ok (hs.add ((hc.mul hc).cast (by ring)))
  refine Sim2.bind (P := Sc (t minor)) ?_ fun a a' ha => ?_
  · refine (h.idx (minor * n + minor) (eC_at hm)).bind fun c c' hc => ?_
    rw [(Sc.zero (t minor)).lt hc]
    split
    · exact hs.rsqrt.bind fun r r' hr => Sim2.ok hr.neg
    · exact hs.rsqrt
  refine (hb.wr minor ha rfl).bind fun b b' hb => ?_
  rw [ha.feq (Sc.zero (t minor))]
  split
  · refine (h.idx (minor * n + minor) (eC_at hm)).bind fun c c' hc => ?_
    refine (h.setIdx (minor * n + minor) (hc.sub ha) (eC_at hm)).bind fun q q' hq => ?_
    refine (Sim2.loop (LRel (eC n t)) hq fun j q q' h1 h2 hq => reflectColumn_sim hm h2 h1 ha hq).bind fun q q' hq => Sim2.ok ⟨hq, hb⟩
  · exact Sim2.ok ⟨h, hb⟩

/-- The two decompositions. -/
def QRel (m n : Nat) (t : Nat → ℤ) (x y : QR Fu) : Prop := MRel m n (fun _ j => t j) x.qr y.qr ∧ LRel t x.rdiag y.rdiag

theorem new_sim (hm : 0 < m) {A A' : Matrix (Fin m) (Fin n) Fu} (hA : ∀ (i : Fin m) (j : Fin n), Sc (t j) (A i j) (A' i j)) :
    Sim2 (QR.new (ofM A)) (QR.new (ofM A')) (QRel m n t) := by
  unfold QR.new
  rw [ofM_cols A hm, ofM_cols A' hm]
  simp only [ofM_rows, ok_bind]
  refine Sim2.bind (P := fun (x y : List Fu × Buf Fu) => LRel (eC n t) x.1 y.1 ∧ BRel t x.2 y.2) ?_ fun x y hxy => ?_
  · refine Sim2.loop _ ⟨lrel_ofM fun i j => (hA i j).cast (eC_at j.2).symm, BRel.alloc _ _⟩ ?_
    rintro i ⟨q, b⟩ ⟨q', b'⟩ - hi ⟨h1, h2⟩
    exact reflect_sim (by omega) h1 h2
  · obtain ⟨q, b⟩ := x
    obtain ⟨q', b'⟩ := y
    refine (mrel_new hxy.1).bind fun a a' ha => hxy.2.freeze.bind fun l l' hl => Sim2.ok ⟨?_, hl⟩
    obtain ⟨X, X', h1, h2, h3⟩ := ha
    exact ⟨X, X', h1, h2, fun i j => (h3 i j).cast (eC_at j.2)⟩

section parts
variable {x y : QR Fu} (hm : 0 < m) (hn : 0 < n) (h : QRel m n t x y)
include hm hn h

theorem getR_sim : Sim2 x.getR y.getR (MRel m n fun _ j => t j) := by
  obtain ⟨⟨X, X', h1, h2, h3⟩, h4⟩ := h
  have hd : LRel (eC n t) (ofM X).data (ofM X').data := lrel_ofM fun i j => (h3 i j).cast (eC_at j.2).symm
  unfold getR
  rw [h1, h2, ofM_cols X hm, ofM_cols X' hm]
  simp only [ofM_rows, ok_bind]
  refine Sim2.bind (P := BRel (eC n t)) (Sim2.loop _ (BRel.alloc _ _) fun i b b' _ _ hb => Sim2.loop _ hb fun j b b' _ hj hb => ?_) fun b b' hb => ?_
  · refine Sim2.bind (P := Sc (t j)) ?_ fun v v' hv => hb.wr _ hv (eC_at hj)
    split
    · exact hd.idx _ (eC_at hj)
    · split
      · rename_i h5 h6; exact h4.idx i (by rw [h6])
      · exact Sim2.ok (Sc.zero _)
  · refine hb.freeze.bind fun l l' hl => (mrel_new hl).mono ?_
    rintro a b ⟨Y, Y', g1, g2, g3⟩
    exact ⟨Y, Y', g1, g2, fun i j => (g3 i j).cast (eC_at j.2)⟩

theorem getH_sim : Sim2 x.getH y.getH (MRel m n fun _ j => t j) := by
  obtain ⟨⟨X, X', h1, h2, h3⟩, h4⟩ := h
  have hd : LRel (eC n t) (ofM X).data (ofM X').data := lrel_ofM fun i j => (h3 i j).cast (eC_at j.2).symm
  unfold getH
  rw [h1, h2, ofM_cols X hm, ofM_cols X' hm]
  simp only [ofM_rows, ok_bind]
  refine Sim2.bind (P := BRel (eC n t)) (Sim2.loop _ (BRel.alloc _ _) fun i b b' _ _ hb => Sim2.loop _ hb fun j b b' _ hj hb => ?_) fun b b' hb => ?_
  · refine Sim2.bind (P := Sc (t j)) ?_ fun v v' hv => hb.wr _ hv (eC_at hj)
    split
    · exact hd.idx _ (eC_at hj)
    · exact Sim2.ok (Sc.zero _)
  · refine hb.freeze.bind fun l l' hl => (mrel_new hl).mono ?_
    rintro a b ⟨Y, Y', g1, g2, g3⟩
    exact ⟨Y, Y', g1, g2, fun i j => (g3 i j).cast (eC_at j.2)⟩

theorem isFullRank_sim : Sim2 x.isFullRank y.isFullRank (· = ·) := by
  obtain ⟨⟨X, X', h1, h2, h3⟩, h4⟩ := h
  unfold isFullRank
  rw [h1, h2, ofM_cols X hm, ofM_cols X' hm]
  simp only [ok_bind]
  refine (Sim2.loopF (fun (_ _ : Unit) => True) (· = ·) trivial fun j _ _ _ _ _ => ?_).bind fun a b hab => ?_
  · refine (h4.idx j rfl).bind fun c c' hc => ?_
    rw [hc.feq (Sc.zero _)]
    split
    · exact Sim2.ok (by trivial)
    · exact Sim2.ok trivial
  · rcases a with a | a <;> rcases b with b | b
    · exact Sim2.ok rfl
    · exact hab.elim
    · exact hab.elim
    · have : a = b := hab
      subst this
      exact Sim2.ok rfl

theorem getQ_sim : Sim2 x.getQ y.getQ (· = ·) := by
  obtain ⟨⟨X, X', h1, h2, h3⟩, h4⟩ := h
  have hd : LRel (eC n t) (ofM X).data (ofM X').data := lrel_ofM fun i j => (h3 i j).cast (eC_at j.2).symm
  have hz : ∀ d d' : List Fu, LRel (fun _ => 0) d d' → d = d' := by
    intro d d' h
    refine List.ext_getElem? fun p => ?_
    have := h.2 p
    cases h5 : d[p]? <;> cases h6 : d'[p]? <;> rw [h5, h6] at this
    · exact this.elim
    · exact this.elim
    · exact congrArg some (Sc.eq this).symm
  have hr : ∀ d : List Fu, LRel (fun _ => 0) d d := fun d => ⟨rfl, fun p => by cases d[p]? <;> [trivial; exact Sc.refl _]⟩
  unfold getQ
  rw [h1, h2, ofM_cols X hm, ofM_cols X' hm]
  simp only [ofM_rows, ok_bind]
  refine (Sim2.same).bind fun q q' hq => ?_
  subst hq
  refine Sim2.bind (P := LRel fun _ => 0) (Sim2.loopRev _ (hr q) fun k q q' _ hk hq => ?_) fun q q' hq => ?_
  · refine (hd.idx (k * n + k) (eC_at (by omega))).bind fun c c' hc => ?_
    rw [hc.feq (Sc.zero _)]
    split
    · refine Sim2.loop _ hq fun j q q' _ _ hq => ?_
      unfold unreflectColumn
      rw [h1, h2]
      refine (Cholesky.Scale.dot_sim (e := fun _ => t k) (f := fun _ => 0) (k := t k) (fun i _ _ => hd.idx (i * n + k) (eC_at (by omega)))
        (fun i _ _ => hq.idx (i * m + j) rfl) fun _ _ _ => add_zero _).bind fun s s' hs => ?_
      refine (h4.idx k rfl).bind fun r r' hr => ?_
      refine (hd.idx (k * n + k) (eC_at (by omega))).bind fun c c' hc => ?_
      refine (hs.rdiv (hr.mul hc)).bind fun f f' hf => ?_
      refine Sim2.loop _ hq fun i q q' _ _ hq => ?_
      refine (hq.idx (i * m + j) rfl).bind fun z z' hz => ?_
      refine (hd.idx (i * n + k) (eC_at (by omega))).bind fun w w' hw => ?_
      exact hq.setIdx _ (hz.add ((hf.mul hw).cast (by ring))) rfl
    · exact Sim2.ok hq
  · rw [hz q q' hq]
    exact Sim2.same

end parts
end QR.Scale
end LA
