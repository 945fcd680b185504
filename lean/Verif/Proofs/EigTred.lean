import Verif.Model.Eigen
import Verif.Proofs.Part

/-! # `tred2`: the individual loops -/

set_option linter.unusedSectionVars false

namespace LA
open Finset Matrix
namespace Eigen

/-- The symmetric table whose lower triangle is `F`. -/
def sym (F : Nat → Nat → ℝ) : Nat → Nat → ℝ := fun a b => if b ≤ a then F a b else F b a

theorem sym_comm (F : Nat → Nat → ℝ) (a b : Nat) : sym F a b = sym F b a := by
  unfold sym; grind

theorem tredScale_post {n i : Nat} {scale : ℝ} {d : Buf ℝ} {f : Nat → ℝ} (hd : Full d n f) (hi : i ≤ n) (hs : scale ≠ 0) :
    Post (tredScale i scale d) fun r => Full r.1 n (fun k => if k < i then f k / scale else f k) ∧
      r.2 = ∑ t ∈ range i, f t / scale * (f t / scale) := by
  unfold tredScale
  refine (loop_post (lo := 0) (hi := i) (fun c (r : Buf ℝ × ℝ) => Full r.1 n (fun k => if k < c then f k / scale else f k) ∧
      r.2 = ∑ t ∈ range c, f t / scale * (f t / scale)) (Nat.zero_le _) ⟨hd.congr fun k _ => by simp, by simp⟩ ?_)
  rintro c ⟨d', h⟩ - hc ⟨h1, rfl⟩
  dsimp only at h1 ⊢
  have e1 : (if c < c then f c / scale else f c) = f c := if_neg (by omega)
  obtain ⟨d2, hd2, hf2⟩ := h1.wr (i := c) (by omega) (f c / scale)
  rw [h1.rd (i := c) (by omega), ok_bind, e1, rdiv_ok hs, ok_bind, hd2, ok_bind, hf2.rd (i := c) (by omega), ok_bind,
    ok_bind, updv_same]
  refine Post.ok ⟨hf2.congr fun k _ => ?_, by rw [Finset.sum_range_succ]⟩
  simp only [updv]
  grind

theorem tredSymv_post {n i : Nat} {d e v : Buf ℝ} {u : Nat → ℝ} {P : Nat → Prop} {ε : Nat → ℝ} {F : Nat → Nat → ℝ}
    (hd : Full d n u) (he : Part e n P ε) (hP : ∀ k, k < i → P k) (hz : ∀ k, k < i → ε k = 0) (hv : FullG v n n F) (hi : i < n) :
    Post (tredSymv n i d e v) fun r => Part r.1 n P (fun k => if k < i then ∑ b ∈ range i, sym F k b * u b else ε k) ∧
      FullG r.2 n n (fun a b => if b = i ∧ a < i then u a else F a b) := by
  unfold tredSymv
  refine (loop_post (lo := 0) (hi := i) (fun c r => Part r.1 n P (fun k => if k < c then ∑ b ∈ range i, sym F k b * u b
    else if k < i then ∑ b ∈ range c, sym F k b * u b else ε k) ∧ FullG r.2 n n (fun a b => if b = i ∧ a < c then u a else F a b))
    (Nat.zero_le _) ?_ ?_).mono ?_
  · refine ⟨he.mono fun k hk hp => ⟨hp, ?_⟩, hv.congr fun a b _ _ => by simp⟩
    by_cases h : k < i
    · simp [h, hz k h]
    · simp [h]
  · rintro c ⟨e1, v1⟩ - hc ⟨h1, h2⟩
    dsimp only at h1 h2 ⊢
    obtain ⟨v2, hv2, hg2⟩ := h2.wr (i := c) (j := i) (by omega) (by omega) (u c)
    rw [hd.rd (i := c) (by omega), ok_bind, hv2, ok_bind, h1.rd (i := c) (by omega) (hP c hc), ok_bind,
      hg2.rd (i := c) (j := c) (by omega) (by omega), ok_bind]
    set F2 := upd (fun a b => if b = i ∧ a < c then u a else F a b) c i (u c) with hF2
    have hlow : ∀ a b, b < i → F2 a b = F a b := by
      intro a b hb
      simp only [hF2, upd]
      rw [if_neg (by omega), if_neg (by omega)]
    rw [hlow c c hc]
    have e1' : (if c < c then ∑ b ∈ range i, sym F c b * u b else if c < i then ∑ b ∈ range c, sym F c b * u b else ε c) =
        ∑ b ∈ range c, sym F c b * u b := by rw [if_neg (by omega), if_pos hc]
    rw [e1']
    have hl := loop_post (lo := c + 1) (hi := i)
      (s := ((∑ b ∈ range c, sym F c b * u b) + F c c * u c, e1))
      (f := fun k (x : ℝ × Buf ℝ) => (do
        let (g, e) := x
        let g := g + (← rd v2 (k * n + c)) * (← rd d k)
        let e ← wr e k ((← rd e k) + (← rd v2 (k * n + c)) * u c)
        return (g, e) : R (ℝ × Buf ℝ)))
      (fun k x => x.1 = ∑ b ∈ range k, sym F c b * u b ∧
        Part x.2 n P (fun t => if t < c then ∑ b ∈ range i, sym F t b * u b
          else if c < t ∧ t < k then ∑ b ∈ range (c + 1), sym F t b * u b
          else if t < i then ∑ b ∈ range c, sym F t b * u b else ε t)) (by omega) ?_ ?_
    · obtain ⟨⟨g, e2⟩, hrun, hg, he2⟩ := hl
      dsimp only at hg he2
      obtain ⟨e3, he3, hp3⟩ := he2.wr (i := c) (by omega) g
      erw [hrun]
      rw [ok_bind]
      dsimp only
      rw [he3, ok_bind]
      refine Post.ok ⟨?_, ?_⟩
      · refine hp3.mono fun k hk hp => ⟨Or.inl hp, ?_⟩
        simp only [updv]
        by_cases e4 : k = c
        · subst e4
          rw [if_pos rfl, if_pos (by omega), hg]
        · rw [if_neg e4]
          by_cases h5 : k < c
          · rw [if_pos h5, if_pos (by omega)]
          · rw [if_neg h5, if_neg (show ¬ k < c + 1 by omega)]
            clear hlow hF2 hP hz
            by_cases h6 : k < i
            · rw [if_pos (show c < k ∧ k < i by omega), if_pos h6]
            · rw [if_neg (show ¬ (c < k ∧ k < i) by omega), if_neg h6, if_neg h6]
      · refine hg2.congr fun a b _ _ => ?_
        simp only [hF2, upd]
        clear hP hz hF2 hlow
        grind
    · refine ⟨?_, ?_⟩
      · rw [Finset.sum_range_succ]
        simp [sym]
      · refine h1.mono fun k hk hp => ⟨hp, ?_⟩
        by_cases h5 : k < c
        · rw [if_pos h5, if_pos h5]
        · rw [if_neg h5, if_neg h5, if_neg (show ¬ (c < k ∧ k < c + 1) by omega)]
    · rintro k ⟨g, e2⟩ hk1 hk2 ⟨rfl, hp⟩
      dsimp only at hp ⊢
      obtain ⟨e3, he3, hp3⟩ := hp.wr (i := k) (by omega) ((∑ b ∈ range c, sym F k b * u b) + F k c * u c)
      have e5 : (if k < c then ∑ b ∈ range i, sym F k b * u b
          else if c < k ∧ k < k then ∑ b ∈ range (c + 1), sym F k b * u b
          else if k < i then ∑ b ∈ range c, sym F k b * u b else ε k) = ∑ b ∈ range c, sym F k b * u b := by
        rw [if_neg (by omega), if_neg (by omega), if_pos hk2]
      rw [hg2.rd (i := k) (j := c) (by omega) (by omega), ok_bind, hd.rd (i := k) (by omega), ok_bind,
        hp.rd (i := k) (by omega) (hP k hk2), ok_bind, ok_bind, hlow k c hc, e5, he3, ok_bind]
      refine Post.ok ⟨?_, ?_⟩
      · dsimp only
        rw [Finset.sum_range_succ]
        simp only [sym]
        rw [if_neg (by omega)]
      · refine hp3.mono fun t ht hpt => ⟨Or.inl hpt, ?_⟩
        simp only [updv]
        by_cases e4 : t = k
        · subst e4
          rw [if_pos rfl, if_neg (by omega), if_pos (by omega), Finset.sum_range_succ]
          simp only [sym]
          rw [if_pos (show c ≤ t by omega)]
        · rw [if_neg e4]
          by_cases h5 : t < c
          · rw [if_pos h5, if_pos h5]
          · rw [if_neg h5, if_neg h5]
            by_cases h6 : c < t ∧ t < k
            · rw [if_pos h6, if_pos (by omega)]
            · rw [if_neg h6, if_neg (show ¬ (c < t ∧ t < k + 1) by omega)]
  · rintro ⟨e1, v1⟩ ⟨h1, h2⟩
    refine ⟨h1.mono fun k hk hp => ⟨hp, ?_⟩, h2⟩
    by_cases h5 : k < i
    · rw [if_pos h5, if_pos h5]
    · rw [if_neg h5, if_neg h5]

theorem tredQ_post {n i : Nat} {h : ℝ} {d e : Buf ℝ} {u : Nat → ℝ} {P : Nat → Prop} {p : Nat → ℝ}
    (hd : Full d n u) (he : Part e n P p) (hP : ∀ k, k < i → P k) (hh : 0 < h) (hi : i ≤ n) :
    Post (tredQ i h d e) fun r => Part r n P (fun k => if k < i then
      p k / h - (∑ t ∈ range i, p t / h * u t) / (h + h) * u k else p k) := by
  unfold tredQ
  have hl := loop_post (lo := 0) (hi := i) (s := (e, (0 : ℝ)))
    (f := fun j (x : Buf ℝ × ℝ) => (do
      let (e, f) := x
      let e ← wr e j (← RDiv.rdiv (← rd e j) h)
      let f := f + (← rd e j) * (← rd d j)
      return (e, f) : R (Buf ℝ × ℝ)))
    (fun c r => Part r.1 n P (fun k => if k < c then p k / h else p k) ∧
      r.2 = ∑ t ∈ range c, p t / h * u t) (Nat.zero_le _) ⟨he.mono fun k _ hp => ⟨hp, by simp⟩, by simp⟩ (by
    rintro c ⟨e', f⟩ - hc ⟨h1, rfl⟩
    dsimp only at h1 ⊢
    have e1 : (if c < c then p c / h else p c) = p c := if_neg (by omega)
    obtain ⟨d2, hd2, hf2⟩ := h1.wr (i := c) (by omega) (p c / h)
    rw [h1.rd (i := c) (by omega) (hP c hc), ok_bind, e1, rdiv_ok hh.ne', ok_bind, hd2, ok_bind,
      hf2.rd (i := c) (by omega) (Or.inr rfl), ok_bind, hd.rd (i := c) (by omega),
      ok_bind, updv_same]
    refine Post.ok ⟨hf2.mono fun k _ hp => ⟨Or.inl hp, ?_⟩, by rw [Finset.sum_range_succ]⟩
    simp only [updv]
    clear hP
    grind)
  obtain ⟨⟨e1, f1⟩, hrun, h1, h2⟩ := hl
  dsimp only at h1 h2
  erw [hrun]
  rw [ok_bind]
  dsimp only
  rw [rdiv_ok (by positivity), ok_bind, h2]
  refine (loop_part (lo := 0) (hi := i) (fun k => p k / h - (∑ t ∈ range i, p t / h * u t) / (h + h) * u k) h1 ?_ hi).mono ?_
  · intro k d' _ hk hp
    refine ⟨_, by rw [hp.rd (i := k) (by omega) (Or.inl (hP k hk)), ok_bind, hd.rd (i := k) (by omega), ok_bind], ?_⟩
    rw [if_neg (by omega), if_pos hk]
  · intro d' hp
    refine hp.mono fun k hk hpk => ⟨Or.inl hpk, ?_⟩
    by_cases h5 : k < i
    · rw [if_pos ⟨by omega, h5⟩, if_pos h5]
    · rw [if_neg (by omega), if_neg h5, if_neg h5]

theorem tredRank2_post {n i : Nat} {d e v : Buf ℝ} {u q : Nat → ℝ} {P : Nat → Prop} {F : Nat → Nat → ℝ}
    (hd : Full d n u) (he : Part e n P q) (hP : ∀ k, k < i → P k) (hv : FullG v n n F) (hi : i < n) (hi0 : 0 < i) :
    Post (tredRank2 n i d e v) fun r =>
      Full r.1 n (fun k => if k < i then F (i - 1) k - (u k * q (i - 1) + q k * u (i - 1)) else u k) ∧
      FullG r.2 n n (fun a b => if b ≤ a ∧ a < i then F a b - (u b * q a + q b * u a) else if a = i ∧ b < i then 0 else F a b) := by
  unfold tredRank2
  have hu1 : usub i 1 = .ok (i - 1) := usub_ok (by omega)
  refine (loop_post (lo := 0) (hi := i) (fun c r =>
    Full r.1 n (fun k => if k < c then F (i - 1) k - (u k * q (i - 1) + q k * u (i - 1)) else u k) ∧
    FullG r.2 n n (fun a b => if b ≤ a ∧ a < i ∧ b < c then F a b - (u b * q a + q b * u a) else if a = i ∧ b < c then 0 else F a b))
    (Nat.zero_le _) ⟨hd.congr fun k _ => by simp, hv.congr fun a b _ _ => by simp⟩ ?_).mono ?_
  · rintro c ⟨d1, v1⟩ - hc ⟨h1, h2⟩
    dsimp only at h1 h2 ⊢
    have e1 : (if c < c then F (i - 1) c - (u c * q (i - 1) + q c * u (i - 1)) else u c) = u c := if_neg (by omega)
    rw [h1.rd (i := c) (by omega), ok_bind, he.rd (i := c) (by omega) (hP c hc), ok_bind, e1]
    have hl := loop_post (lo := c) (hi := i) (s := v1)
      (f := fun k v => (do
        let orig ← rd v (k * n + c)
        wr v (k * n + c) (orig - (u c * (← rd e k) + q c * (← rd d1 k)))))
      (fun k v => FullG v n n (fun a b => if (b ≤ a ∧ a < i ∧ b < c) ∨ (b = c ∧ c ≤ a ∧ a < k) then F a b - (u b * q a + q b * u a)
        else if a = i ∧ b < c then 0 else F a b)) (by omega)
      (h2.congr fun a b _ _ => by
        by_cases h5 : b ≤ a ∧ a < i ∧ b < c
        · rw [if_pos h5, if_pos (Or.inl h5)]
        · rw [if_neg h5, if_neg (show ¬ ((b ≤ a ∧ a < i ∧ b < c) ∨ (b = c ∧ c ≤ a ∧ a < c)) by omega)]) (by
      intro k v hk1 hk2 hg
      have e2 : (if k < c then F (i - 1) k - (u k * q (i - 1) + q k * u (i - 1)) else u k) = u k := if_neg (by omega)
      rw [hg.rd (i := k) (j := c) (by omega) (by omega), ok_bind, he.rd (i := k) (by omega) (hP k hk2), ok_bind,
        h1.rd (i := k) (by omega), ok_bind, e2]
      obtain ⟨v3, hv3, hg3⟩ := hg.wr (i := k) (j := c) (by omega) (by omega) (F k c - (u c * q k + q c * u k))
      rw [if_neg (by omega), if_neg (by omega), hv3]
      refine Post.ok (hg3.congr fun a b _ _ => ?_)
      simp only [upd]
      clear hP
      by_cases h5 : a = k ∧ b = c
      · rw [if_pos h5, if_pos (by omega), h5.1, h5.2]
      · rw [if_neg h5]
        by_cases h6 : (b ≤ a ∧ a < i ∧ b < c) ∨ (b = c ∧ c ≤ a ∧ a < k)
        · rw [if_pos h6, if_pos (by omega)]
        · rw [if_neg h6, if_neg (show ¬ ((b ≤ a ∧ a < i ∧ b < c) ∨ (b = c ∧ c ≤ a ∧ a < k + 1)) by omega)])
    obtain ⟨v3, hv3, hg3⟩ := hl
    rw [hv3, ok_bind, hu1, ok_bind, hg3.rd (i := i - 1) (j := c) (by omega) (by omega), ok_bind]
    obtain ⟨d4, hd4, hf4⟩ := h1.wr (i := c) (by omega) (F (i - 1) c - (u c * q (i - 1) + q c * u (i - 1)))
    obtain ⟨v4, hv4, hg4⟩ := hg3.wr (i := i) (j := c) (by omega) (by omega) 0
    rw [if_pos (by omega), hd4, ok_bind, hv4, ok_bind]
    refine Post.ok ⟨hf4.congr fun k _ => ?_, hg4.congr fun a b _ _ => ?_⟩
    · simp only [updv]
      by_cases h5 : k = c
      · subst h5; rw [if_pos rfl, if_pos (by omega)]
      · rw [if_neg h5]
        by_cases h6 : k < c
        · rw [if_pos h6, if_pos (by omega)]
        · rw [if_neg h6, if_neg (by omega)]
    · simp only [upd]
      by_cases h5 : a = i ∧ b = c
      · rw [if_pos h5, if_neg (by omega), if_pos (by omega)]
      · rw [if_neg h5]
        by_cases h6 : (b ≤ a ∧ a < i ∧ b < c) ∨ (b = c ∧ c ≤ a ∧ a < i)
        · rw [if_pos h6, if_pos (by omega)]
        · rw [if_neg h6, if_neg (show ¬ (b ≤ a ∧ a < i ∧ b < c + 1) by omega)]
          by_cases h7 : a = i ∧ b < c
          · rw [if_pos h7, if_pos (by omega)]
          · rw [if_neg h7, if_neg (by omega)]
  · rintro ⟨d1, v1⟩ ⟨h1, h2⟩
    refine ⟨h1, h2.congr fun a b _ _ => ?_⟩
    by_cases h5 : b ≤ a ∧ a < i
    · rw [if_pos h5, if_pos (by omega)]
    · rw [if_neg h5, if_neg (by omega)]

theorem tredZero_post {n i : Nat} {st : Dev ℝ} {f ε : Nat → ℝ} {P : Nat → Prop} {F : Nat → Nat → ℝ}
    (hd : Full st.d n f) (he : Part st.e n P ε) (hv : FullG st.v n n F) (hi : i < n) (hi0 : 0 < i) :
    Post (tredZero n i st) fun r =>
      Full r.d n (fun k => if k < i then F (i - 1) k else if k = i then 0 else f k) ∧
      Part r.e n (fun k => P k ∨ k = i) (updv ε i (f (i - 1))) ∧
      FullG r.v n n (fun a b => if (a = i ∧ b < i) ∨ (b = i ∧ a < i) then 0 else F a b) := by
  unfold tredZero
  have hu1 : usub i 1 = .ok (i - 1) := usub_ok (by omega)
  obtain ⟨e1, he1, hp1⟩ := he.wr (i := i) hi (f (i - 1))
  rw [hu1, ok_bind, hd.rd (i := i - 1) (by omega), ok_bind, he1, ok_bind]
  have hl := loop_post (lo := 0) (hi := i) (s := (st.d, st.v))
    (f := fun j (x : Buf ℝ × Buf ℝ) => (do
      let (d, v) := x
      let d ← wr d j (← rd v ((← (Except.ok (i - 1) : R Nat)) * n + j))
      let v ← wr v (i * n + j) 0
      let v ← wr v (j * n + i) 0
      return (d, v) : R (Buf ℝ × Buf ℝ)))
    (fun c r => Full r.1 n (fun k => if k < c then F (i - 1) k else f k) ∧
      FullG r.2 n n (fun a b => if (a = i ∧ b < c) ∨ (b = i ∧ a < c) then 0 else F a b)) (Nat.zero_le _)
    ⟨hd.congr fun k _ => by simp, hv.congr fun a b _ _ => by simp⟩ (by
    rintro c ⟨d1, v1⟩ - hc ⟨h1, h2⟩
    dsimp only at h1 h2 ⊢
    rw [ok_bind, h2.rd (i := i - 1) (j := c) (by omega) (by omega), ok_bind, if_neg (by omega)]
    obtain ⟨d2, hd2, hf2⟩ := h1.wr (i := c) (by omega) (F (i - 1) c)
    obtain ⟨v2, hv2, hg2⟩ := h2.wr (i := i) (j := c) (by omega) (by omega) 0
    obtain ⟨v3, hv3, hg3⟩ := hg2.wr (i := c) (j := i) (by omega) (by omega) 0
    rw [hd2, ok_bind, hv2, ok_bind, hv3, ok_bind]
    refine Post.ok ⟨hf2.congr fun k _ => ?_, hg3.congr fun a b _ _ => ?_⟩
    · simp only [updv]
      by_cases h5 : k = c
      · subst h5; rw [if_pos rfl, if_pos (by omega)]
      · rw [if_neg h5]
        by_cases h6 : k < c
        · rw [if_pos h6, if_pos (by omega)]
        · rw [if_neg h6, if_neg (by omega)]
    · simp only [upd]
      grind)
  obtain ⟨⟨d1, v1⟩, hrun, h1, h2⟩ := hl
  erw [hrun]
  rw [ok_bind]
  dsimp only at h1 h2 ⊢
  obtain ⟨d2, hd2, hf2⟩ := h1.wr (i := i) hi 0
  rw [hd2, ok_bind]
  refine Post.ok ⟨hf2.congr fun k _ => ?_, hp1, h2⟩
  simp only [updv]
  grind

end Eigen
end LA
