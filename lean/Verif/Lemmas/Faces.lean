import Verif.Lemmas.HullRing
import Verif.Lemmas.SideJump

/-!
# Triangles that do not overlap
-/

set_option linter.unusedSectionVars false

namespace Verif

open Spec

variable {K : Type*} [Field K] [LinearOrder K] [IsStrictOrderedRing K]

/-- The point on the way from `q` to `c`. -/
def lerp (q c : Vertex K) (k : K) : Vertex K := ⟨q.x + k * (c.x - q.x), q.y + k * (c.y - q.y), false⟩

theorem cross_lerp (a b q c : Vertex K) (k : K) :
    cross a b (lerp q c k) = cross a b q + k * (cross a b c - cross a b q) := by
  simp only [cross, lerp]; ring

theorem onSegment_lerp {a b : Vertex K} {k : K} (h0 : 0 ≤ k) (h1 : k ≤ 1) : OnSegment a b (lerp a b k) :=
  ⟨k, h0, h1, rfl, rfl⟩

/-- The point is in the triangle or on its sides. -/
def Within (t : Tri (Vertex K)) (w : Vertex K) : Prop :=
  0 ≤ cross t.v1 t.v2 w ∧ 0 ≤ cross t.v2 t.v3 w ∧ 0 ≤ cross t.v3 t.v1 w

theorem within_of_inner {t : Tri (Vertex K)} {w : Vertex K} (h : Inner t w) : Within t w :=
  ⟨h.1.le, h.2.1.le, h.2.2.le⟩

/-- No two triangles overlap. -/
def Apart (T : List (Tri (Vertex K))) : Prop :=
  ∀ s ∈ T, ∀ t ∈ T, SolidTri s → SolidTri t → ∀ w, Inner s w → Inner t w → s = t

theorem Apart.sub {T S : List (Tri (Vertex K))} (h : Apart T) (hs : ∀ t ∈ S, t ∈ T) : Apart S :=
  fun s h1 t h2 => h s (hs s h1) t (hs t h2)

theorem apart_of_coverings {T : List (Tri (Vertex K))} (hc : ∀ w, coverings T w ≤ 1) : Apart T := by
  intro s hs t ht h1 h2 w w1 w2
  by_contra hne
  have hg : ∀ {t : Tri (Vertex K)}, SolidTri t → ¬ HasGhost t := by
    rintro t h (k | k | k)
    · simp [h.r1] at k
    · simp [h.r2] at k
    · simp [h.r3] at k
  obtain ⟨l1, l2, rfl⟩ := List.append_of_mem hs
  have hp : (l1 ++ s :: l2).Perm (s :: (l1 ++ l2)) := List.perm_middle
  have := hc w
  rw [coverings, hp.countP_eq, List.countP_cons_of_pos (by simpa using ⟨hg h1, w1⟩)] at this
  have h3 : t ∈ l1 ++ l2 := by
    have := hp.mem_iff.1 ht
    rcases List.mem_cons.1 this with h | h
    · exact absurd h.symm hne
    · exact h
  have h4 : 0 < (l1 ++ l2).countP fun t => decide (¬ HasGhost t ∧ Inner t w) :=
    List.countP_pos_iff.2 ⟨t, h3, by simpa using ⟨hg h2, w2⟩⟩
  omega

theorem small {a : K} (b : K) (ha : 0 < a) : ∃ d, 0 < d ∧ ∀ k, 0 ≤ k → k ≤ d → 0 < a + k * (b - a) := by
  have hp : 0 < |b - a| + 1 := by positivity
  refine ⟨a / 2 / (|b - a| + 1), by positivity, fun k k0 k1 => ?_⟩
  have h1 : k * (|b - a| + 1) ≤ a / 2 := (le_div_iff₀ hp).1 k1
  have h2 : -(k * |b - a|) ≤ k * (b - a) := by
    have := mul_le_mul_of_nonneg_left (neg_abs_le (b - a)) k0
    linarith
  nlinarith

theorem inner_lerp {t : Tri (Vertex K)} {q c : Vertex K} (hq : Within t q) (hc : Inner t c) {k : K} (h0 : 0 < k)
    (h1 : k ≤ 1) : Inner t (lerp q c k) := by
  have : 0 ≤ 1 - k := by linarith
  refine ⟨?_, ?_, ?_⟩ <;> rw [cross_lerp]
  · nlinarith [mul_pos h0 hc.1, mul_nonneg this hq.1]
  · nlinarith [mul_pos h0 hc.2.1, mul_nonneg this hq.2.1]
  · nlinarith [mul_pos h0 hc.2.2, mul_nonneg this hq.2.2]

theorem inner_open {t : Tri (Vertex K)} {q : Vertex K} (hq : Inner t q) (c : Vertex K) :
    ∃ d, 0 < d ∧ ∀ k, 0 ≤ k → k ≤ d → Inner t (lerp q c k) := by
  obtain ⟨d1, p1, h1⟩ := small (cross t.v1 t.v2 c) hq.1
  obtain ⟨d2, p2, h2⟩ := small (cross t.v2 t.v3 c) hq.2.1
  obtain ⟨d3, p3, h3⟩ := small (cross t.v3 t.v1 c) hq.2.2
  refine ⟨min d1 (min d2 d3), lt_min p1 (lt_min p2 p3), fun k k0 k1 => ?_⟩
  have l1 := k1.trans (min_le_left _ _)
  have l2 := k1.trans ((min_le_right _ _).trans (min_le_left _ _))
  have l3 := k1.trans ((min_le_right _ _).trans (min_le_right _ _))
  refine ⟨?_, ?_, ?_⟩ <;> rw [cross_lerp]
  · exact h1 k k0 l1
  · exact h2 k k0 l2
  · exact h3 k k0 l3

section

variable {T : List (Tri (Vertex K))}

/-- The inside of a triangle is clear of the others. -/
theorem Apart.face_clear (hA : Apart T) {s t : Tri (Vertex K)} (hs : s ∈ T) (ht : t ∈ T) (ss : SolidTri s)
    (st : SolidTri t) {q : Vertex K} (h1 : Inner s q) (h2 : Within t q) : s = t := by
  obtain ⟨d, hd, h⟩ := inner_open h1 (middle t)
  have hk : 0 < min d 1 := lt_min hd one_pos
  exact hA s hs t ht ss st _ (h (min d 1) hk.le (min_le_left _ _)) (inner_lerp h2 (inner_middle st) hk (min_le_right _ _))

/-- A counterclockwise triangle seen from one of its sides. -/
theorem SolidTri.side {t : Tri (Vertex K)} (h : SolidTri t) {e : Edge (Vertex K)} (he : IsSide t e) :
    ∃ c, IsCorner t c ∧ e.v1.isGhost = false ∧ e.v2.isGhost = false ∧ c.isGhost = false ∧ 0 < cross e.v1 e.v2 c ∧
      (∀ w, Inner t w ↔ 0 < cross e.v1 e.v2 w ∧ 0 < cross e.v2 c w ∧ 0 < cross c e.v1 w) ∧
      (∀ w, Within t w ↔ 0 ≤ cross e.v1 e.v2 w ∧ 0 ≤ cross e.v2 c w ∧ 0 ≤ cross c e.v1 w) ∧
      (∀ w, circleDet t.v1 t.v2 t.v3 w = circleDet e.v1 e.v2 c w) ∧
      (∀ p, IsCorner t p ↔ p = e.v1 ∨ p = e.v2 ∨ p = c) ∧
      (∀ f, IsSide t f ↔ f = e ∨ f = ⟨e.v2, c⟩ ∨ f = ⟨c, e.v1⟩) := by
  obtain ⟨a, b⟩ := e
  have r1 : cross t.v2 t.v3 t.v1 = cross t.v1 t.v2 t.v3 := cross_rotate _ _ _
  have r2 : cross t.v3 t.v1 t.v2 = cross t.v1 t.v2 t.v3 := by rw [cross_rotate, r1]
  have hf : ∀ (f : Edge (Vertex K)) (x y : Vertex K), f = ⟨x, y⟩ ↔ f.v1 = x ∧ f.v2 = y := by
    intro f x y; cases f; simp
  rcases he with ⟨h1, h2⟩ | ⟨h1, h2⟩ | ⟨h1, h2⟩ <;> simp only at h1 h2 <;> subst h1 h2
  · refine ⟨t.v3, Or.inr (Or.inr rfl), h.r1, h.r2, h.r3, h.ccw, fun w => Iff.rfl, fun w => Iff.rfl, fun w => rfl,
      fun p => Iff.rfl, fun f => ?_⟩
    simp only [hf, IsSide]
  · refine ⟨t.v1, Or.inl rfl, h.r2, h.r3, h.r1, r1 ▸ h.ccw, fun w => ?_, fun w => ?_, fun w => ?_, fun p => ?_, fun f => ?_⟩
    · simp only [Inner]; tauto
    · simp only [Within]; tauto
    · simp only; rw [circleDet_rotate t.v1 t.v2 t.v3]
    · simp only [IsCorner]; tauto
    · simp only [hf, IsSide]; tauto
  · refine ⟨t.v2, Or.inr (Or.inl rfl), h.r3, h.r1, h.r2, r2 ▸ h.ccw, fun w => ?_, fun w => ?_, fun w => ?_, fun p => ?_, fun f => ?_⟩
    · simp only [Inner]; tauto
    · simp only [Within]; tauto
    · simp only; rw [circleDet_rotate t.v2 t.v3 t.v1, circleDet_rotate t.v1 t.v2 t.v3]
    · simp only [IsCorner]; tauto
    · simp only [hf, IsSide]; tauto

/-- A point strictly on a side is strictly on the inner side of the two other ones. -/
theorem strict_others {a b c q : Vertex K} (h : 0 < cross a b c) (hq : StrictlyOn a b q) :
    cross a b q = 0 ∧ 0 < cross b c q ∧ 0 < cross c a q := by
  obtain ⟨⟨m, m0, m1, mx, my⟩, qa, qb⟩ := hq
  have hm0 : 0 < m := by
    refine lt_of_le_of_ne m0 fun h => qa ?_
    rw [← h] at mx my
    exact ⟨by linarith, by linarith⟩
  have hm1 : m < 1 := by
    refine lt_of_le_of_ne m1 fun h => qb ?_
    rw [h] at mx my
    exact ⟨by linarith, by linarith⟩
  have e1 : cross a b q = 0 := by simp only [cross, mx, my]; ring
  have e2 : cross b c q = (1 - m) * cross a b c := by simp only [cross, mx, my]; ring
  have e3 : cross c a q = m * cross a b c := by simp only [cross, mx, my]; ring
  exact ⟨e1, by rw [e2]; exact mul_pos (by linarith) h, by rw [e3]; exact mul_pos hm0 h⟩

/-- Beside a point of a side, on its left, is the inside of the triangle. -/
theorem SolidTri.beside {t : Tri (Vertex K)} (h : SolidTri t) {e : Edge (Vertex K)} (he : IsSide t e) {q c : Vertex K}
    (hq : StrictlyOn e.v1 e.v2 q) (hc : 0 < cross e.v1 e.v2 c) :
    ∃ d, 0 < d ∧ ∀ k, 0 < k → k ≤ d → Inner t (lerp q c k) := by
  obtain ⟨p, -, -, -, -, hp, hin, -⟩ := h.side he
  obtain ⟨z, z2, z3⟩ := strict_others hp hq
  obtain ⟨d2, p2, h2⟩ := small (cross e.v2 p c) z2
  obtain ⟨d3, p3, h3⟩ := small (cross p e.v1 c) z3
  refine ⟨min d2 d3, lt_min p2 p3, fun k k0 k1 => (hin _).2 ⟨?_, ?_, ?_⟩⟩ <;> rw [cross_lerp]
  · rw [z]; nlinarith [mul_pos k0 hc]
  · exact h2 k k0.le (k1.trans (min_le_left _ _))
  · exact h3 k k0.le (k1.trans (min_le_right _ _))

/-- Each triangle has inner points off a given line. -/
theorem exists_inner_off {t : Tri (Vertex K)} (h : SolidTri t) {a b : Vertex K} (hab : ¬ SamePoint a b) :
    ∃ c, Inner t c ∧ cross a b c ≠ 0 := by
  by_cases h0 : cross a b (middle t) = 0
  · have hex : ∃ p, cross a b p ≠ 0 := by
      refine ⟨⟨a.x - (b.y - a.y), a.y + (b.x - a.x), false⟩, ?_⟩
      have hd := dist2_pos hab
      simp only [cross]
      simp only [dist2] at hd
      intro h'
      nlinarith
    obtain ⟨p, hp⟩ := hex
    obtain ⟨d, hd, hi⟩ := inner_open (inner_middle h) p
    refine ⟨lerp (middle t) p d, hi d hd.le le_rfl, ?_⟩
    rw [cross_lerp, h0]
    simp only [sub_zero, zero_add]
    exact mul_ne_zero hd.ne' hp
  · exact ⟨_, inner_middle h, h0⟩

/-- Another triangle that touches the inside of a side is on the other side of it. -/
theorem Apart.edge_clear (hA : Apart T) {s t : Tri (Vertex K)} (hs : s ∈ T) (ht : t ∈ T) (ss : SolidTri s)
    (st : SolidTri t) {e : Edge (Vertex K)} (he : IsSide s e) {q : Vertex K} (hq : StrictlyOn e.v1 e.v2 q)
    (h2 : Within t q) (hne : s ≠ t) {c : Vertex K} (hc : Inner t c) : cross e.v1 e.v2 c ≤ 0 := by
  by_contra hpos
  push Not at hpos
  obtain ⟨d, hd, h⟩ := ss.beside he hq hpos
  have hk : 0 < min d 1 := lt_min hd one_pos
  exact hne (hA s hs t ht ss st _ (h _ hk (min_le_left _ _)) (inner_lerp h2 hc hk (min_le_right _ _)))

/-- An inner edge is clear of all triangles but the two beside it. -/
theorem Apart.edge_clear' (hA : Apart T) {s s' t : Tri (Vertex K)} (hs : s ∈ T) (hs' : s' ∈ T) (ht : t ∈ T)
    (ss : SolidTri s) (ss' : SolidTri s') (st : SolidTri t) {e : Edge (Vertex K)} (he : IsSide s e)
    (he' : IsSide s' e.opposite) {q : Vertex K} (hq : StrictlyOn e.v1 e.v2 q) (h2 : Within t q) : t = s ∨ t = s' := by
  by_contra hc
  push Not at hc
  obtain ⟨p, -, -, -, -, hp, -⟩ := ss.side he
  have hab : ¬ SamePoint e.v1 e.v2 := by
    intro h
    simp only [cross, h.1, h.2] at hp
    ring_nf at hp
    simp at hp
  obtain ⟨c, hi, h0⟩ := exists_inner_off st hab
  have h3 := hA.edge_clear hs ht ss st he hq h2 (Ne.symm hc.1) hi
  have hq' : StrictlyOn e.opposite.v1 e.opposite.v2 q := ⟨onSegment_symm hq.1, hq.2.2, hq.2.1⟩
  have h4 := hA.edge_clear hs' ht ss' st he' hq' h2 (Ne.symm hc.2) hi
  simp only [Edge.opposite] at h4
  rw [cross_swap] at h4
  exact h0 (le_antisymm h3 (by linarith))

/-- A point strictly on a side of a triangle is on no other side of it. -/
theorem SolidTri.side_only {t : Tri (Vertex K)} (h : SolidTri t) {e f : Edge (Vertex K)} (he : IsSide t e)
    (hf : IsSide t f) {q : Vertex K} (hq : StrictlyOn e.v1 e.v2 q) (h2 : OnSegment f.v1 f.v2 q) : f = e := by
  obtain ⟨p, -, -, -, -, hp, -, -, -, -, hsides⟩ := h.side he
  obtain ⟨z, z2, z3⟩ := strict_others hp hq
  have := onSegment_cross h2
  rcases (hsides f).1 hf with rfl | rfl | rfl
  · rfl
  · simp only at this; linarith
  · simp only at this; linarith

theorem within_side {t : Tri (Vertex K)} (h : SolidTri t) {e : Edge (Vertex K)} (he : IsSide t e) {q : Vertex K}
    (hq : OnSegment e.v1 e.v2 q) : Within t q := by
  obtain ⟨p, -, -, -, -, hp, -, hw, -⟩ := h.side he
  obtain ⟨m, m0, m1, mx, my⟩ := hq
  have e1 : cross e.v1 e.v2 q = 0 := by simp only [cross, mx, my]; ring
  have e2 : cross e.v2 p q = (1 - m) * cross e.v1 e.v2 p := by simp only [cross, mx, my]; ring
  have e3 : cross p e.v1 q = m * cross e.v1 e.v2 p := by simp only [cross, mx, my]; ring
  exact (hw q).2 ⟨e1.ge, by rw [e2]; exact mul_nonneg (by linarith) hp.le, by rw [e3]; exact mul_nonneg m0 hp.le⟩

/-- The inside of a triangle is clear of all edges. -/
theorem Apart.inner_off (hA : Apart T) {s t : Tri (Vertex K)} (hs : s ∈ T) (ht : t ∈ T) (ss : SolidTri s)
    (st : SolidTri t) {f : Edge (Vertex K)} (hf : IsSide t f) {q : Vertex K} (h1 : Inner s q) :
    ¬ OnSegment f.v1 f.v2 q := by
  intro h2
  have := hA.face_clear hs ht ss st h1 (within_side st hf h2)
  subst this
  obtain ⟨p, -, -, -, -, hp, hin, -⟩ := ss.side hf
  have h3 := ((hin q).1 h1).1
  rw [onSegment_cross h2] at h3
  exact lt_irrefl _ h3

/-- Two edges touch at most at their ends. -/
theorem Apart.edges_clear (hA : Apart T) {s s' t : Tri (Vertex K)} (hs : s ∈ T) (hs' : s' ∈ T) (ht : t ∈ T)
    (ss : SolidTri s) (ss' : SolidTri s') (st : SolidTri t) {e f : Edge (Vertex K)} (he : IsSide s e)
    (he' : IsSide s' e.opposite) (hf : IsSide t f) {q : Vertex K} (hq : StrictlyOn e.v1 e.v2 q)
    (h2 : OnSegment f.v1 f.v2 q) : f = e ∨ f = e.opposite := by
  rcases hA.edge_clear' hs hs' ht ss ss' st he he' hq (within_side st hf h2) with rfl | rfl
  · exact Or.inl (st.side_only he hf hq h2)
  · exact Or.inr (st.side_only he' hf ⟨onSegment_symm hq.1, hq.2.2, hq.2.1⟩ h2)

end

end Verif
