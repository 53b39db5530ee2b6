import Verif.Lemmas.Pocket

/-!
# Which triangles of a triangulated polygon see a point
-/

set_option linter.unusedSectionVars false

namespace Verif

open Spec Props

variable {K : Type*} [Field K] [LinearOrder K] [IsStrictOrderedRing K]

/-- A triangulation of the polygon that is locally Delaunay. -/
structure Fit (g : Vertex K) (l : List (Vertex K)) (M : List (Tri (Vertex K))) : Prop where
  poly : SimplePolygon l
  winds : WindsOnce l
  lot : Lot g l M
  apart : Apart M
  simple : Simple M
  locally : ∀ t ∈ M, ∀ t' ∈ M, SolidTri t → SolidTri t' → ∀ e, IsSide t e → IsSide t' e.opposite →
    ∀ p, IsCorner t' p → circleDet t.v1 t.v2 t.v3 p ≤ 0

/-- The edge runs along the polygon. -/
def Wall (l : List (Vertex K)) (e : Edge (Vertex K)) : Prop := (e.v1, e.v2) ∈ pairs l false

theorem circleDet_lerp (a b c p v : Vertex K) (k : K) :
    circleDet a b c (lerp p v k) =
      (1 - k) * circleDet a b c p + k * circleDet a b c v + k * (1 - k) * (cross a b c * dist2 p v) := by
  simp only [circleDet_btw, cross, btw, dist2, lerp]; ring

theorem circleDet_lerp_pos {a b c p v : Vertex K} (h : 0 < cross a b c) (hp : 0 < circleDet a b c p)
    (hv : 0 < circleDet a b c v) {k : K} (k0 : 0 ≤ k) (k1 : k ≤ 1) : 0 < circleDet a b c (lerp p v k) := by
  rw [circleDet_lerp]
  have h1 : 0 ≤ 1 - k := by linarith
  have hd : 0 ≤ dist2 p v := by simp only [dist2]; positivity
  have h2 : 0 ≤ k * (1 - k) * (cross a b c * dist2 p v) := by positivity
  have h3 : 0 < (1 - k) * circleDet a b c p + k * circleDet a b c v := by
    rcases k0.lt_or_eq with h' | h'
    · have := mul_pos h' hv
      have := mul_nonneg h1 hp.le
      linarith
    · rw [← h']; linarith
  linarith

/-- A point on the line of a side and strictly inside the circumcircle is strictly on the side. -/
theorem strictlyOn_of_circle {a b c q : Vertex K} (h : 0 < cross a b c) (h0 : cross a b q = 0)
    (hq : 0 < circleDet a b c q) : StrictlyOn a b q := by
  have hab : ¬ SamePoint a b := by
    intro hs
    simp only [cross, hs.1, hs.2] at h
    simp at h
  rw [strictlyOn_iff hab]
  refine ⟨h0, ?_⟩
  rw [circleDet_btw, h0] at hq
  by_contra hc
  push Not at hc
  nlinarith [mul_nonneg h.le hc]

theorem circle_of_strictlyOn {a b c q : Vertex K} (h : 0 < cross a b c) (hq : StrictlyOn a b q) :
    0 < circleDet a b c q := by
  have hab : ¬ SamePoint a b := by
    intro hs
    simp only [cross, hs.1, hs.2] at h
    simp at h
  rw [strictlyOn_iff hab] at hq
  rw [circleDet_btw, hq.1]
  nlinarith [mul_pos h (neg_pos.2 hq.2)]

theorem onSegment_tail {p v z q : Vertex K} {j k : K} (j1 : j < 1) (hjk : j ≤ k) (k1 : k ≤ 1)
    (hz : SamePoint z (lerp p v k)) (hq : SamePoint q (lerp p v j)) : OnSegment q v z := by
  have h1 : 0 < 1 - j := by linarith
  refine ⟨(k - j) / (1 - j), div_nonneg (by linarith) h1.le, (div_le_one h1).2 (by linarith), ?_, ?_⟩
  · rw [hz.1, hq.1]; simp only [lerp]; field_simp; ring
  · rw [hz.2, hq.2]; simp only [lerp]; field_simp; ring

/-- The point where the segment from `p` to `v` crosses a line. -/
theorem exists_crossing {a b p v : Vertex K} (hp : 0 ≤ cross a b p) (hv : cross a b v < 0) :
    ∃ k, 0 ≤ k ∧ k < 1 ∧ cross a b (lerp p v k) = 0 ∧ (∀ j, j ≤ k → 0 ≤ cross a b (lerp p v j)) ∧
      (∀ j, k ≤ j → cross a b (lerp p v j) ≤ 0) ∧ (0 < cross a b p → 0 < k) := by
  have hd : 0 < cross a b p - cross a b v := by linarith
  have e : ∀ j, cross a b (lerp p v j) =
      (cross a b p / (cross a b p - cross a b v) - j) * (cross a b p - cross a b v) := by
    intro j
    rw [cross_lerp]; field_simp; ring
  refine ⟨cross a b p / (cross a b p - cross a b v), div_nonneg hp hd.le, (div_lt_one hd).2 (by linarith), ?_, ?_, ?_,
    fun h => div_pos h hd⟩
  · rw [e]; ring
  · intro j hj
    rw [e]; exact mul_nonneg (by linarith) hd.le
  · intro j hj
    rw [e]; exact mul_nonpos_of_nonpos_of_nonneg (by linarith) hd.le

/-- All sides of a counterclockwise triangle. -/
theorem within_iff_sides {t : Tri (Vertex K)} {w : Vertex K} : Within t w ↔ ∀ e, IsSide t e → 0 ≤ cross e.v1 e.v2 w := by
  constructor
  · rintro ⟨h1, h2, h3⟩ e (⟨k1, k2⟩ | ⟨k1, k2⟩ | ⟨k1, k2⟩) <;> rw [k1, k2] <;> assumption
  · intro h
    exact ⟨h ⟨t.v1, t.v2⟩ (Or.inl ⟨rfl, rfl⟩), h ⟨t.v2, t.v3⟩ (Or.inr (Or.inl ⟨rfl, rfl⟩)),
      h ⟨t.v3, t.v1⟩ (Or.inr (Or.inr ⟨rfl, rfl⟩))⟩

theorem inner_iff_sides {t : Tri (Vertex K)} {w : Vertex K} : Inner t w ↔ ∀ e, IsSide t e → 0 < cross e.v1 e.v2 w := by
  constructor
  · rintro ⟨h1, h2, h3⟩ e (⟨k1, k2⟩ | ⟨k1, k2⟩ | ⟨k1, k2⟩) <;> rw [k1, k2] <;> assumption
  · intro h
    exact ⟨h ⟨t.v1, t.v2⟩ (Or.inl ⟨rfl, rfl⟩), h ⟨t.v2, t.v3⟩ (Or.inr (Or.inl ⟨rfl, rfl⟩)),
      h ⟨t.v3, t.v1⟩ (Or.inr (Or.inr ⟨rfl, rfl⟩))⟩

theorem SolidTri.side_ccw {t : Tri (Vertex K)} (h : SolidTri t) {e : Edge (Vertex K)} (he : IsSide t e) {q : Vertex K}
    (h0 : cross e.v1 e.v2 q = 0) (hq : 0 < circleDet t.v1 t.v2 t.v3 q) : StrictlyOn e.v1 e.v2 q := by
  obtain ⟨c, -, -, -, -, hc, -, -, hcd, -⟩ := h.side he
  exact strictlyOn_of_circle hc h0 (by rw [← hcd]; exact hq)

theorem SolidTri.circle_side {t : Tri (Vertex K)} (h : SolidTri t) {e : Edge (Vertex K)} (he : IsSide t e) {q : Vertex K}
    (hq : StrictlyOn e.v1 e.v2 q) : 0 < circleDet t.v1 t.v2 t.v3 q := by
  obtain ⟨c, -, -, -, -, hc, -, -, hcd, -⟩ := h.side he
  rw [hcd]
  exact circle_of_strictlyOn hc hq

theorem SolidTri.others {t : Tri (Vertex K)} (h : SolidTri t) {e f : Edge (Vertex K)} (he : IsSide t e)
    (hf : IsSide t f) (hne : f ≠ e) {q : Vertex K} (hq : StrictlyOn e.v1 e.v2 q) : 0 < cross f.v1 f.v2 q := by
  obtain ⟨c, -, -, -, -, hc, -, -, -, -, hsides⟩ := h.side he
  obtain ⟨z, z2, z3⟩ := strict_others hc hq
  rcases (hsides f).1 hf with rfl | rfl | rfl
  · exact absurd rfl hne
  · exact z2
  · exact z3

/-- A point strictly inside the circumcircle is beyond at most one side. -/
theorem SolidTri.one_special {t : Tri (Vertex K)} (h : SolidTri t) {v : Vertex K} (hv : 0 < circleDet t.v1 t.v2 t.v3 v)
    {e f : Edge (Vertex K)} (he : IsSide t e) (hf : IsSide t f) (h1 : cross e.v1 e.v2 v ≤ 0) (h2 : cross f.v1 f.v2 v ≤ 0) :
    e = f := by
  obtain ⟨k1, k2, k3⟩ := conf_one_special h ((conf_solid h).2 hv)
  have hx : ∀ {e f : Edge (Vertex K)}, e.v1 = f.v1 → e.v2 = f.v2 → e = f := by
    intro e f h1 h2
    cases e; cases f
    simp only at h1 h2
    rw [h1, h2]
  rcases he with ⟨a1, a2⟩ | ⟨a1, a2⟩ | ⟨a1, a2⟩ <;> rcases hf with ⟨b1, b2⟩ | ⟨b1, b2⟩ | ⟨b1, b2⟩ <;>
    rw [a1, a2] at h1 <;> rw [b1, b2] at h2
  · exact hx (a1.trans b1.symm) (a2.trans b2.symm)
  · exact absurd ⟨h1, h2⟩ k1
  · exact absurd ⟨h2, h1⟩ k3
  · exact absurd ⟨h2, h1⟩ k1
  · exact hx (a1.trans b1.symm) (a2.trans b2.symm)
  · exact absurd ⟨h1, h2⟩ k2
  · exact absurd ⟨h1, h2⟩ k3
  · exact absurd ⟨h2, h1⟩ k2
  · exact hx (a1.trans b1.symm) (a2.trans b2.symm)

theorem SolidTri.inner_circle {t : Tri (Vertex K)} (h : SolidTri t) {z : Vertex K} (hz : Inner t z) :
    0 < circleDet t.v1 t.v2 t.v3 z := by
  obtain ⟨h1, h2, h3⟩ := hz
  refine circleDet_inside h.ccw h1.le h2.le h3.le ?_ ?_ ?_ <;> intro hs
  · have : cross t.v1 t.v2 z = 0 := by simp only [cross, hs.1, hs.2]; ring
    linarith
  · have : cross t.v1 t.v2 z = 0 := by simp only [cross, hs.1, hs.2]; ring
    linarith
  · have : cross t.v2 t.v3 z = 0 := by simp only [cross, hs.1, hs.2]; ring
    linarith

section

variable {g : Vertex K} {l : List (Vertex K)} {M : List (Tri (Vertex K))}

/-- Triangles do not reach out of the polygon. -/
theorem Lot.not_beyond (h : Lot g l M) (hs : SimplePolygon l) (hA : Apart M) {t : Tri (Vertex K)} (ht : t ∈ M) (st : SolidTri t) {z : Vertex K}
    (hz : Within t z) : ¬ Beyond l z := by
  rintro ⟨hoff, h0⟩
  have hin : ∀ w, Inner t w → windingNumber (pairs l false) w ≠ 0 := fun w hw =>
    ((h.tiles (simplePolygon_back hs) hA).inside t ht st.noGhost w hw).2
  by_cases hsame : SamePoint z (middle t)
  · exact hin z ((inner_congr hsame).2 (inner_middle st)) h0
  · obtain ⟨d, hd, hroom⟩ := room_line (S := (z, middle t)) hsame (w := 0) (v := z) ⟨by simp, by simp⟩ hoff
    have hk : 0 < min d 1 := lt_min hd one_pos
    refine hin _ (inner_lerp hz (inner_middle st) hk (min_le_right _ _)) ?_
    rw [← h0]
    symm
    refine winding_const l fun s hm x hx hxp => ?_
    obtain ⟨j, j0, j1, hj⟩ := onSegment_lerp_iff hxp
    refine hroom s hm (j * min d 1) x ?_ ?_ ⟨?_, ?_⟩ hx
    · have := mul_nonneg j0 hk.le
      linarith
    · have : j * min d 1 ≤ 1 * min d 1 := mul_le_mul_of_nonneg_right j1 hk.le
      have := min_le_left d 1
      linarith
    · rw [hj.1]; simp only [lerp]; ring
    · rw [hj.2]; simp only [lerp]; ring

namespace Fit

theorem across (h : Fit g l M) {t : Tri (Vertex K)} (ht : t ∈ M) {e : Edge (Vertex K)} (he : IsSide t e) :
    ∃ t' ∈ M, IsSide t' e.opposite := by
  have hb := balanced_of_watertight h.lot.closed e
  have h1 : 0 < (sides M).count e := List.count_pos_iff.2 (mem_sides.2 ⟨t, ht, he⟩)
  rw [hb] at h1
  exact mem_sides.1 (List.count_pos_iff.1 h1)

/-- A side of a triangle runs along the polygon in the direction of the polygon. -/
theorem wall_back (h : Fit g l M) {t : Tri (Vertex K)} (ht : t ∈ M) (st : SolidTri t) {e : Edge (Vertex K)}
    (he : IsSide t e) : ¬ Wall l e.opposite := by
  intro hw
  have hg := h.lot.border _ hw
  have := h.simple.edgeDisjoint t ht _ hg e he (Or.inl ⟨rfl, rfl⟩)
  rw [this] at st
  exact st.noGhost (hasGhost_last h.lot.ghost)

theorem solid_across (h : Fit g l M) {t : Tri (Vertex K)} (ht : t ∈ M) (st : SolidTri t) {e : Edge (Vertex K)}
    (he : IsSide t e) (hn : ¬ Wall l e) : ∃ t' ∈ M, SolidTri t' ∧ IsSide t' e.opposite := by
  obtain ⟨t', ht', he'⟩ := h.across ht he
  refine ⟨t', ht', ?_, he'⟩
  rcases h.lot.shape t' ht' with k | ⟨s, hs, rfl⟩
  · exact k
  · exfalso
    obtain ⟨c, -, r1, r2, -⟩ := st.side he
    have hg := h.lot.ghost
    rcases he' with ⟨h1, h2⟩ | ⟨h1, h2⟩ | ⟨h1, h2⟩ <;> simp only [Edge.opposite] at h1 h2
    · apply hn
      unfold Wall
      rw [h1, h2]; exact hs
    · rw [h2, hg] at r1; simp at r1
    · rw [h1, hg] at r2; simp at r2

theorem tiles (h : Fit g l M) : TilesPolygon l M := h.lot.tiles (simplePolygon_back h.poly) h.apart

theorem not_beyond (h : Fit g l M) {t : Tri (Vertex K)} (ht : t ∈ M) (st : SolidTri t) {z : Vertex K}
    (hz : Within t z) : ¬ Beyond l z := h.lot.not_beyond h.poly h.apart ht st hz

/-- A point of a triangle that is no corner and not on the polygon sides of the triangle is off the polygon. -/
theorem off_polygon (h : Fit g l M) {t : Tri (Vertex K)} (ht : t ∈ M) (st : SolidTri t) {z : Vertex K}
    (hz : Within t z) (hc : 0 < circleDet t.v1 t.v2 t.v3 z)
    (hwall : ∀ e, IsSide t e → Wall l e → 0 < cross e.v1 e.v2 z) : ∀ s ∈ pairs l false, ¬ OnSegment s.1 s.2 z := by
  intro s hm hon
  obtain ⟨r, hr, sr, hside⟩ := h.lot.side (simplePolygon_back h.poly) hm
  by_cases hi : Inner t z
  · exact h.apart.inner_off ht hr st sr hside hi hon
  · rw [inner_iff_sides] at hi
    push Not at hi
    obtain ⟨f, hf, hf0⟩ := hi
    have hf0 := le_antisymm hf0 (within_iff_sides.1 hz f hf)
    have hso := st.side_ccw hf hf0 hc
    have hnw : ¬ Wall l f := fun hw => absurd hf0 (hwall f hf hw).ne'
    obtain ⟨t', ht', st', hf'⟩ := h.solid_across ht st hf hnw
    rcases h.apart.edges_clear ht ht' hr st st' sr hf hf' hside hso hon with k | k
    · exact hnw (by rw [← k]; exact hm)
    · exact h.wall_back ht st hf (by rw [← k]; exact hm)

theorem inside_polygon (h : Fit g l M) {t : Tri (Vertex K)} (ht : t ∈ M) (st : SolidTri t) {z : Vertex K}
    (hz : Within t z) (hc : 0 < circleDet t.v1 t.v2 t.v3 z)
    (hwall : ∀ e, IsSide t e → Wall l e → 0 < cross e.v1 e.v2 z) : InsidePolygon l z := by
  have h1 := h.off_polygon ht st hz hc hwall
  exact ⟨h1, fun h0 => h.not_beyond ht st hz ⟨h1, h0⟩⟩

end Fit

/-- The triangle is in conflict with `v` and sees it through triangles in conflict. -/
inductive Seer (l : List (Vertex K)) (M : List (Tri (Vertex K))) (v : Vertex K) : Tri (Vertex K) → Prop
  | here {t : Tri (Vertex K)} : t ∈ M → SolidTri t → 0 < circleDet t.v1 t.v2 t.v3 v → Within t v → Seer l M v t
  | step {t t' : Tri (Vertex K)} {e : Edge (Vertex K)} : t ∈ M → SolidTri t → 0 < circleDet t.v1 t.v2 t.v3 v →
      IsSide t e → ¬ Wall l e → cross e.v1 e.v2 v < 0 → Seer l M v t' → IsSide t' e.opposite → Seer l M v t

namespace Seer

variable {v : Vertex K}

theorem mem {t : Tri (Vertex K)} (h : Seer l M v t) : t ∈ M := by cases h <;> assumption

theorem solid {t : Tri (Vertex K)} (h : Seer l M v t) : SolidTri t := by cases h <;> assumption

theorem conf {t : Tri (Vertex K)} (h : Seer l M v t) : 0 < circleDet t.v1 t.v2 t.v3 v := by cases h <;> assumption

/-- A point off the polygon is strictly on the inner side of the polygon sides of triangles that see it. -/
theorem wall_side {t : Tri (Vertex K)} (h : Seer l M v t) (hoff : ∀ s ∈ pairs l false, ¬ OnSegment s.1 s.2 v)
    {e : Edge (Vertex K)} (he : IsSide t e) (hw : Wall l e) : 0 < cross e.v1 e.v2 v := by
  cases h with
  | here h1 h2 h3 h4 =>
    rcases (within_iff_sides.1 h4 e he).lt_or_eq with k | k
    · exact k
    · exact absurd (h2.side_ccw he k.symm h3).1 (hoff _ hw)
  | step h1 h2 h3 h4 h5 h6 h7 h8 =>
    by_contra hc
    push Not at hc
    have := h2.one_special h3 he h4 hc h6.le
    subst this
    exact h5 hw

/-- The way from a triangle to a point that it sees is inside the polygon. -/
theorem clear (hF : Fit g l M) {t : Tri (Vertex K)} (h : Seer l M v t)
    (hoff : ∀ s ∈ pairs l false, ¬ OnSegment s.1 s.2 v) : ∀ p, Within t p → 0 < circleDet t.v1 t.v2 t.v3 p →
      (∀ e, IsSide t e → Wall l e → 0 < cross e.v1 e.v2 p) → ∀ z, OnSegment p v z → InsidePolygon l z := by
  have fin : ∀ {t : Tri (Vertex K)}, Seer l M v t → ∀ p, 0 < circleDet t.v1 t.v2 t.v3 p →
      (∀ e, IsSide t e → Wall l e → 0 < cross e.v1 e.v2 p) → ∀ k, 0 ≤ k → k ≤ 1 → Within t (lerp p v k) → ∀ z,
      SamePoint z (lerp p v k) → InsidePolygon l z := by
    intro t hS p hp hw k k0 k1 hz z hs
    have := hF.inside_polygon hS.mem hS.solid hz (circleDet_lerp_pos hS.solid.ccw hp hS.conf k0 k1) (by
      intro e he hwe
      have h1 := hw e he hwe
      have h2 := hS.wall_side hoff he hwe
      rw [cross_lerp]
      rcases k0.lt_or_eq with h' | h'
      · nlinarith [mul_pos h' h2, mul_nonneg (sub_nonneg.2 k1) h1.le]
      · rw [← h']; linarith)
    refine ⟨fun s hm ho => this.1 s hm ((onSegment_congr ⟨rfl, rfl⟩ ⟨rfl, rfl⟩ hs).1 ho), ?_⟩
    have e : windingNumber (pairs l false) z = windingNumber (pairs l false) (lerp p v k) := by
      refine winding_const l fun s hm x hx hxp => ?_
      refine this.1 s hm ((onSegment_congr ⟨rfl, rfl⟩ ⟨rfl, rfl⟩ ?_).1 hx)
      obtain ⟨j, j0, j1, jx, jy⟩ := hxp
      exact ⟨by rw [jx, hs.1]; ring, by rw [jy, hs.2]; ring⟩
    rw [e]; exact this.2
  induction h with
  | @here t h1 h2 h3 h4 =>
    intro p hp hcp hw z hz
    obtain ⟨k, k0, k1, hk⟩ := onSegment_lerp_iff hz
    refine fin (Seer.here h1 h2 h3 h4) p hcp hw k k0 k1 (within_iff_sides.2 fun e he => ?_) z hk
    rw [cross_lerp]
    nlinarith [mul_nonneg k0 (within_iff_sides.1 h4 e he), mul_nonneg (sub_nonneg.2 k1) (within_iff_sides.1 hp e he)]
  | @step t t' e h1 h2 h3 h4 h5 h6 h7 h8 ih =>
    intro p hp hcp hw z hz
    have hS := Seer.step h1 h2 h3 h4 h5 h6 h7 h8
    obtain ⟨k, k0, k1, hk⟩ := onSegment_lerp_iff hz
    obtain ⟨j, j0, j1, jz, jle, -, -⟩ := exists_crossing (within_iff_sides.1 hp e h4) h6
    have hother : ∀ f, IsSide t f → f ≠ e → ∀ i, 0 ≤ i → i ≤ 1 → 0 ≤ cross f.v1 f.v2 (lerp p v i) := by
      intro f hf hne i i0 i1
      have : 0 < cross f.v1 f.v2 v := by
        by_contra hc
        push Not at hc
        exact hne (h2.one_special h3 hf h4 hc h6.le)
      rw [cross_lerp]
      nlinarith [mul_nonneg i0 this.le, mul_nonneg (sub_nonneg.2 i1) (within_iff_sides.1 hp f hf)]
    by_cases hkj : k ≤ j
    · refine fin hS p hcp hw k k0 k1 (within_iff_sides.2 fun f hf => ?_) z hk
      by_cases hne : f = e
      · rw [hne]; exact jle k hkj
      · exact hother f hf hne k k0 k1
    · push Not at hkj
      have hq : StrictlyOn e.v1 e.v2 (lerp p v j) :=
        h2.side_ccw h4 jz (circleDet_lerp_pos h2.ccw hcp h3 j0 j1.le)
      have hq' : StrictlyOn e.opposite.v1 e.opposite.v2 (lerp p v j) := ⟨onSegment_symm hq.1, hq.2.2, hq.2.1⟩
      refine ih (lerp p v j) (within_side h7.solid h8 hq'.1) (h7.solid.circle_side h8 hq') ?_ z
        (onSegment_tail j1 hkj.le k1 hk ⟨rfl, rfl⟩)
      intro f hf hwf
      refine h7.solid.others h8 hf ?_ hq'
      rintro rfl
      exact hF.wall_back h1 h2 h4 hwf

/-- A point is not on the outer side of the polygon sides of triangles that see it. -/
theorem wall_nonneg {t : Tri (Vertex K)} (h : Seer l M v t) {e : Edge (Vertex K)} (he : IsSide t e) (hw : Wall l e) :
    0 ≤ cross e.v1 e.v2 v := by
  cases h with
  | here h1 h2 h3 h4 => exact within_iff_sides.1 h4 e he
  | step h1 h2 h3 h4 h5 h6 h7 h8 =>
    by_contra hc
    push Not at hc
    have := h2.one_special h3 he h4 hc.le h6.le
    subst this
    exact h5 hw

/-- A point that is not on a polygon side of a triangle that sees it is on the inner side. -/
theorem wall_pos {t : Tri (Vertex K)} (h : Seer l M v t) {e : Edge (Vertex K)} (he : IsSide t e) (hw : Wall l e)
    (hoff : ¬ OnSegment e.v1 e.v2 v) : 0 < cross e.v1 e.v2 v := by
  rcases (h.wall_nonneg he hw).lt_or_eq with k | k
  · exact k
  · exact absurd (h.solid.side_ccw he k.symm h.conf).1 hoff

/-- The way from a triangle to a point that it sees is inside the polygon, until it gets there. -/
theorem clear_way (hF : Fit g l M) {t : Tri (Vertex K)} (h : Seer l M v t) :
    ∀ p, Within t p → 0 < circleDet t.v1 t.v2 t.v3 p →
      (∀ e, IsSide t e → Wall l e → 0 < cross e.v1 e.v2 p) → ∀ z, OnSegment p v z → ¬ SamePoint z v →
      InsidePolygon l z := by
  have fin : ∀ {t : Tri (Vertex K)}, Seer l M v t → ∀ p, 0 < circleDet t.v1 t.v2 t.v3 p →
      (∀ e, IsSide t e → Wall l e → 0 < cross e.v1 e.v2 p) → ∀ k, 0 ≤ k → k < 1 → Within t (lerp p v k) → ∀ z,
      SamePoint z (lerp p v k) → InsidePolygon l z := by
    intro t hS p hp hw k k0 k1 hz z hs
    have := hF.inside_polygon hS.mem hS.solid hz (circleDet_lerp_pos hS.solid.ccw hp hS.conf k0 k1.le) (by
      intro e he hwe
      have h1 := hw e he hwe
      have h2 := hS.wall_nonneg he hwe
      rw [cross_lerp]
      have := mul_pos (sub_pos.2 k1) h1
      have := mul_nonneg k0 h2
      linarith)
    refine ⟨fun s hm ho => this.1 s hm ((onSegment_congr ⟨rfl, rfl⟩ ⟨rfl, rfl⟩ hs).1 ho), ?_⟩
    have e : windingNumber (pairs l false) z = windingNumber (pairs l false) (lerp p v k) := by
      refine winding_const l fun s hm x hx hxp => ?_
      refine this.1 s hm ((onSegment_congr ⟨rfl, rfl⟩ ⟨rfl, rfl⟩ ?_).1 hx)
      obtain ⟨j, j0, j1, jx, jy⟩ := hxp
      exact ⟨by rw [jx, hs.1]; ring, by rw [jy, hs.2]; ring⟩
    rw [e]; exact this.2
  have hlt : ∀ {p z : Vertex K} {k : K}, k ≤ 1 → SamePoint z (lerp p v k) → ¬ SamePoint z v → k < 1 := by
    intro p z k k1 hk hz
    refine lt_of_le_of_ne k1 ?_
    rintro rfl
    exact hz ⟨by rw [hk.1]; simp [lerp], by rw [hk.2]; simp [lerp]⟩
  induction h with
  | @here t h1 h2 h3 h4 =>
    intro p hp hcp hw z hz hzv
    obtain ⟨k, k0, k1, hk⟩ := onSegment_lerp_iff hz
    refine fin (Seer.here h1 h2 h3 h4) p hcp hw k k0 (hlt k1 hk hzv) (within_iff_sides.2 fun e he => ?_) z hk
    rw [cross_lerp]
    nlinarith [mul_nonneg k0 (within_iff_sides.1 h4 e he), mul_nonneg (sub_nonneg.2 k1) (within_iff_sides.1 hp e he)]
  | @step t t' e h1 h2 h3 h4 h5 h6 h7 h8 ih =>
    intro p hp hcp hw z hz hzv
    have hS := Seer.step h1 h2 h3 h4 h5 h6 h7 h8
    obtain ⟨k, k0, k1, hk⟩ := onSegment_lerp_iff hz
    obtain ⟨j, j0, j1, jz, jle, -, -⟩ := exists_crossing (within_iff_sides.1 hp e h4) h6
    have hother : ∀ f, IsSide t f → f ≠ e → ∀ i, 0 ≤ i → i ≤ 1 → 0 ≤ cross f.v1 f.v2 (lerp p v i) := by
      intro f hf hne i i0 i1
      have : 0 < cross f.v1 f.v2 v := by
        by_contra hc
        push Not at hc
        exact hne (h2.one_special h3 hf h4 hc h6.le)
      rw [cross_lerp]
      nlinarith [mul_nonneg i0 this.le, mul_nonneg (sub_nonneg.2 i1) (within_iff_sides.1 hp f hf)]
    by_cases hkj : k ≤ j
    · refine fin hS p hcp hw k k0 (hlt k1 hk hzv) (within_iff_sides.2 fun f hf => ?_) z hk
      by_cases hne : f = e
      · rw [hne]; exact jle k hkj
      · exact hother f hf hne k k0 k1
    · push Not at hkj
      have hq : StrictlyOn e.v1 e.v2 (lerp p v j) :=
        h2.side_ccw h4 jz (circleDet_lerp_pos h2.ccw hcp h3 j0 j1.le)
      have hq' : StrictlyOn e.opposite.v1 e.opposite.v2 (lerp p v j) := ⟨onSegment_symm hq.1, hq.2.2, hq.2.1⟩
      refine ih (lerp p v j) (within_side h7.solid h8 hq'.1) (h7.solid.circle_side h8 hq') ?_ z
        (onSegment_tail j1 hkj.le k1 hk ⟨rfl, rfl⟩) hzv
      intro f hf hwf
      refine h7.solid.others h8 hf ?_ hq'
      rintro rfl
      exact hF.wall_back h1 h2 h4 hwf

/-- The neighbours in conflict of a triangle that sees the point see it. -/
theorem neighbour (hF : Fit g l M) {r t : Tri (Vertex K)} (hr : Seer l M v r) {e : Edge (Vertex K)} (he : IsSide r e)
    (ht : t ∈ M) (st : SolidTri t) (hte : IsSide t e.opposite)
    (hc : 0 < circleDet t.v1 t.v2 t.v3 v) : Seer l M v t := by
  rcases lt_trichotomy (cross e.v1 e.v2 v) 0 with h | h | h
  · cases hr with
    | here h1 h2 h3 h4 =>
      have := within_iff_sides.1 h4 e he
      linarith
    | step h1 h2 h3 h4 h5 h6 h7 h8 =>
      have := h2.one_special h3 he h4 h.le h6.le
      subst this
      have := hF.simple.edgeDisjoint _ h7.mem t ht _ h8 hte
      rw [← this]; exact h7
  · have hq := hr.solid.side_ccw he h hr.conf
    have hq' : StrictlyOn e.opposite.v1 e.opposite.v2 v := ⟨onSegment_symm hq.1, hq.2.2, hq.2.1⟩
    exact Seer.here ht st hc (within_side st hte hq'.1)
  · refine Seer.step ht st hc hte (hF.wall_back hr.mem hr.solid he) ?_ hr (by rw [opposite_opposite]; exact he)
    simp only [Edge.opposite]
    rw [cross_swap]; linarith

end Seer

/-- Beyond the side of a triangle that is not in conflict with the apex across, the conflict goes on. -/
theorem conflict_across {a b c d v : Vertex K} (hc : 0 < cross a b c) (hd : 0 < cross b a d)
    (hloc : circleDet a b c d ≤ 0) (hv : 0 < circleDet a b c v) (hb : cross a b v < 0) : 0 < circleDet b a d v := by
  have e := circleDet_pencil a b c d v
  rw [circleDet_swap]
  rw [cross_swap] at hd
  have h1 : circleDet a b c v * cross a b d < 0 := mul_neg_of_pos_of_neg hv (by linarith)
  have h2 : 0 ≤ circleDet a b c d * cross a b v := mul_nonneg_of_nonpos_of_nonpos hloc hb.le
  have h3 : circleDet a b d v * cross a b c < 0 := by rw [e]; linarith
  by_contra hn
  push Not at hn
  nlinarith [mul_nonneg (show 0 ≤ circleDet a b d v by linarith) hc.le]

/-- A way that crosses a side of the polygon outwards leaves the polygon. -/
theorem wall_leaves (hs : SimplePolygon l) (hw : WindsOnce l) {e : Edge (Vertex K)} (hwe : Wall l e) {v q : Vertex K}
    (hev : cross e.v1 e.v2 v < 0) (hq : StrictlyOn e.v1 e.v2 q) : ∃ z, OnSegment q v z ∧ Beyond l z := by
  have jz : cross e.v1 e.v2 q = 0 := onSegment_cross hq.1
  have hqv : ¬ SamePoint q v := by
    intro hs
    have : cross e.v1 e.v2 q = cross e.v1 e.v2 v := by simp only [cross, hs.1, hs.2]
    linarith
  have hother : ∀ t ∈ (pairs l false).filter (fun t => decide (t ≠ (e.v1, e.v2))),
      ¬ OnSegment t.1 t.2 q := by
    intro s hm ho
    rw [List.mem_filter, decide_eq_true_iff] at hm
    exact hm.2 (hs.only hwe hm.1 hq ho)
  obtain ⟨d, hd, hroom⟩ := room_line (S := (q, v)) hqv (w := 0) (v := q)
    ⟨by simp, by simp⟩ hother
  have hk : 0 < min d 1 := lt_min hd one_pos
  have hcross : ∀ i, cross e.v1 e.v2 (lerp q v i) = i * cross e.v1 e.v2 v := by
    intro i; rw [cross_lerp, jz]; ring
  have hmiss : ∀ i, 0 < i → i ≤ min d 1 → ∀ s ∈ pairs l false, ∀ x, SamePoint x (lerp q v i) →
      ¬ OnSegment s.1 s.2 x := by
    intro i i0 i1 s hm x hxs hx
    by_cases hse : s = (e.v1, e.v2)
    · subst hse
      have h0 := onSegment_cross hx
      have : cross e.v1 e.v2 x = cross e.v1 e.v2 (lerp q v i) := by
        simp only [cross, hxs.1, hxs.2]
      simp only at h0
      rw [this, hcross] at h0
      nlinarith [mul_pos i0 (neg_pos.2 hev)]
    · refine hroom s (by rw [List.mem_filter, decide_eq_true_iff]; exact ⟨hm, hse⟩) i x (by linarith)
        (by linarith [min_le_left d 1]) ⟨hxs.1, hxs.2⟩ hx
  have hval := (side_values hs hw hwe hq (c := lerp q v (min d 1)) (by
    intro s hm x hx hxp
    obtain ⟨i, i0, i1, hi⟩ := onSegment_lerp_iff hxp
    have hi' : SamePoint x (lerp q v (i * min d 1)) := by
      constructor
      · rw [hi.1]; simp only [lerp]; ring
      · rw [hi.2]; simp only [lerp]; ring
    rcases i0.lt_or_eq with k | k
    · exact absurd hx (hmiss (i * min d 1) (mul_pos k hk) (by nlinarith) s hm x hi')
    · rw [← k] at hi
      exact ⟨by rw [hi.1]; simp [lerp], by rw [hi.2]; simp [lerp]⟩)).1 (by
        simp only
        rw [hcross]
        exact mul_neg_of_pos_of_neg hk hev)
  refine ⟨_, onSegment_lerp hk.le (min_le_right d 1), fun s hm => ?_, hval⟩
  exact hmiss _ hk le_rfl s hm _ ⟨rfl, rfl⟩

@[inherit_doc wall_leaves]
theorem Fit.leaves (h : Fit g l M) {e : Edge (Vertex K)} (hwe : Wall l e) {v q : Vertex K} (hev : cross e.v1 e.v2 v < 0)
    (hq : StrictlyOn e.v1 e.v2 q) : ∃ z, OnSegment q v z ∧ Beyond l z := wall_leaves h.poly h.winds hwe hev hq

/-- A triangle in conflict with a point sees it, if the way to the point crosses no side of the polygon. -/
theorem Fit.seer_way (h : Fit g l M) {v : Vertex K} {n : ℕ} : ∀ {t : Tri (Vertex K)} {p : Vertex K}, t ∈ M → SolidTri t →
    0 < circleDet t.v1 t.v2 t.v3 v → Within t p → 0 < circleDet t.v1 t.v2 t.v3 p →
    (∀ e, IsSide t e → cross e.v1 e.v2 v < 0 → 0 < cross e.v1 e.v2 p) → 
    (∀ e, Wall l e → cross e.v1 e.v2 v < 0 → ∀ q, StrictlyOn e.v1 e.v2 q → OnSegment p v q → False) →
    (∀ S : Finset (Tri (Vertex K)), (∀ r ∈ S, r ∈ M ∧ ∃ z, OnSegment p v z ∧ Inner r z) → S.card ≤ n) →
    Seer l M v t := by
  classical
  induction n with
  | zero =>
    intro t p ht st hv hp hcp hside hway hn
    by_cases hw : Within t v
    · exact Seer.here ht st hv hw
    · exfalso
      rw [within_iff_sides] at hw
      push Not at hw
      obtain ⟨e, he, hev⟩ := hw
      have hpe := hside e he hev
      obtain ⟨j, j0, j1, jz, jle, jge, jpos⟩ := exists_crossing hpe.le hev
      have hq : StrictlyOn e.v1 e.v2 (lerp p v j) := st.side_ccw he jz (circleDet_lerp_pos st.ccw hcp hv j0 j1.le)
      obtain ⟨d, hd, hdi⟩ := st.beside he hq hpe
      have hk : 0 < min d 1 := lt_min hd one_pos
      have := hn {t} (by
        intro r hr
        rw [Finset.mem_singleton] at hr
        subst hr
        refine ⟨ht, _, ?_, hdi _ hk (min_le_left _ _)⟩
        refine ⟨j * (1 - min d 1), mul_nonneg j0 (by linarith [min_le_right d 1]), ?_, ?_, ?_⟩
        · nlinarith [min_le_right d 1, mul_nonneg j0 hk.le]
        · simp only [lerp]; ring
        · simp only [lerp]; ring)
      simp at this
  | succ n ih =>
    intro t p ht st hv hp hcp hside hway hn
    by_cases hw : Within t v
    · exact Seer.here ht st hv hw
    · rw [within_iff_sides] at hw
      push Not at hw
      obtain ⟨e, he, hev⟩ := hw
      have hpe := hside e he hev
      obtain ⟨j, j0, j1, jz, jle, jge, jpos⟩ := exists_crossing hpe.le hev
      have hq : StrictlyOn e.v1 e.v2 (lerp p v j) := st.side_ccw he jz (circleDet_lerp_pos st.ccw hcp hv j0 j1.le)
      have hq' : StrictlyOn e.opposite.v1 e.opposite.v2 (lerp p v j) := ⟨onSegment_symm hq.1, hq.2.2, hq.2.1⟩
      have htail : ∀ z, OnSegment (lerp p v j) v z → OnSegment p v z := by
        rintro z ⟨k, k0, k1, kx, ky⟩
        refine ⟨j + k * (1 - j), by nlinarith, by nlinarith, ?_, ?_⟩
        · rw [kx]; simp only [lerp]; ring
        · rw [ky]; simp only [lerp]; ring
      have hbelow : ∀ z, OnSegment (lerp p v j) v z → cross e.v1 e.v2 z ≤ 0 := by
        rintro z ⟨k, k0, k1, kx, ky⟩
        have : cross e.v1 e.v2 z = k * cross e.v1 e.v2 v := by
          have e1 : cross e.v1 e.v2 z = (1 - k) * cross e.v1 e.v2 (lerp p v j) + k * cross e.v1 e.v2 v := by
            simp only [cross, kx, ky]; ring
          rw [e1, jz]; ring
        rw [this]
        exact mul_nonpos_of_nonneg_of_nonpos k0 hev.le
      have hnw : ¬ Wall l e := fun hwe => hway e hwe hev _ hq (onSegment_lerp j0 j1.le)
      obtain ⟨t', ht', st', he'⟩ := h.solid_across ht st he hnw
      have hconf' : 0 < circleDet t'.v1 t'.v2 t'.v3 v := by
        obtain ⟨c, -, -, -, -, hc, -, -, hcd, -⟩ := st.side he
        obtain ⟨d, hdc, -, -, -, hd, -, -, hcd', -⟩ := st'.side he'
        have hloc := h.locally t ht t' ht' st st' e he he' d hdc
        rw [hcd] at hloc
        rw [hcd'] 
        rw [hcd] at hv
        exact conflict_across hc hd hloc hv hev
      refine Seer.step ht st hv he hnw hev (ih ht' st' hconf' (within_side st' he' hq'.1) (st'.circle_side he' hq') ?_
        (fun e hwe hev q hq hz => hway e hwe hev q hq (htail q hz)) ?_) he'
      · intro f hf hfv
        refine st'.others he' hf ?_ hq'
        rintro rfl
        simp only [Edge.opposite] at hfv
        rw [cross_swap] at hfv
        linarith
      · intro S hS
        have htS : t ∉ S := by
          intro hts
          obtain ⟨-, z, hz, hi⟩ := hS t hts
          have := inner_iff_sides.1 hi e he
          linarith [hbelow z hz]
        obtain ⟨d, hd, hdi⟩ := st.beside he hq hpe
        have hk : 0 < min d 1 := lt_min hd one_pos
        have := hn (insert t S) (by
          intro r hr
          rcases Finset.mem_insert.1 hr with rfl | hr
          · refine ⟨ht, _, ?_, hdi _ hk (min_le_left _ _)⟩
            refine ⟨j * (1 - min d 1), mul_nonneg j0 (by linarith [min_le_right d 1]), ?_, ?_, ?_⟩
            · nlinarith [min_le_right d 1, mul_nonneg j0 hk.le]
            · simp only [lerp]; ring
            · simp only [lerp]; ring
          · obtain ⟨a, z, hz, hi⟩ := hS r hr
            exact ⟨a, z, htail z hz, hi⟩)
        rw [Finset.card_insert_of_notMem htS] at this
        omega

/-- A triangle in conflict with a point sees it, if the way to the point does not leave the polygon. -/
theorem Fit.seer (h : Fit g l M) {v : Vertex K} {n : ℕ} {t : Tri (Vertex K)} {p : Vertex K} : t ∈ M → SolidTri t →
    0 < circleDet t.v1 t.v2 t.v3 v → Within t p → 0 < circleDet t.v1 t.v2 t.v3 p →
    (∀ e, IsSide t e → cross e.v1 e.v2 v < 0 → 0 < cross e.v1 e.v2 p) → (∀ z, OnSegment p v z → ¬ Beyond l z) →
    (∀ S : Finset (Tri (Vertex K)), (∀ r ∈ S, r ∈ M ∧ ∃ z, OnSegment p v z ∧ Inner r z) → S.card ≤ n) →
    Seer l M v t := by
  intro ht st hv hp hcp hside hseg hn
  refine h.seer_way ht st hv hp hcp hside (fun e hwe hev q hq hz => ?_) hn
  obtain ⟨z, hz', hb⟩ := h.leaves hwe hev hq
  exact hseg z (onSegment_trans hz (onSegment_right p v) hz') hb

/-- A triangle in conflict with a point sees it, if the way from its middle to the point does not leave the polygon. -/
theorem Fit.seer_middle (h : Fit g l M) {v : Vertex K} {t : Tri (Vertex K)} (ht : t ∈ M) (st : SolidTri t)
    (hv : 0 < circleDet t.v1 t.v2 t.v3 v) (hseg : ∀ z, OnSegment (middle t) v z → ¬ Beyond l z) : Seer l M v t := by
  classical
  have hi := inner_middle st
  refine h.seer (n := M.toFinset.card) ht st hv (within_of_inner hi) ?_ (fun e he _ => inner_iff_sides.1 hi e he) hseg ?_
  · exact st.inner_circle hi
  · intro S hS
    exact Finset.card_le_card fun r hr => List.mem_toFinset.2 (hS r hr).1

/-- A triangle in conflict with a point that is on the left of all sides sees it. -/
theorem Fit.seer_left (h : Fit g l M) {v : Vertex K} {t : Tri (Vertex K)} (ht : t ∈ M) (st : SolidTri t)
    (hv : 0 < circleDet t.v1 t.v2 t.v3 v) (hl : ∀ s ∈ pairs l false, 0 ≤ cross s.1 s.2 v) : Seer l M v t := by
  classical
  have hi := inner_middle st
  refine h.seer_way (n := M.toFinset.card) ht st hv (within_of_inner hi) (st.inner_circle hi)
    (fun e he _ => inner_iff_sides.1 hi e he) (fun e hwe hev q _ _ => ?_) ?_
  · have := hl _ hwe
    simp only at this
    linarith
  · intro S hS
    exact Finset.card_le_card fun r hr => List.mem_toFinset.2 (hS r hr).1

end

end Verif
