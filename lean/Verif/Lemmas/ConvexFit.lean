import Verif.Lemmas.SeerTotal

/-!
# Triangulations of a convex polygon
-/

set_option linter.unusedSectionVars false

namespace Verif

open Spec Props

variable {K : Type*} [Field K] [LinearOrder K] [IsStrictOrderedRing K]

section

variable {g : Vertex K} {l : List (Vertex K)} {M : List (Tri (Vertex K))}

/-- What is not outside of a convex polygon is on the left of its sides. -/
theorem ConvexPolygon.left (hc : ConvexPolygon l) (hs : SimplePolygon l) {p : Vertex K} (hp : ¬ Beyond l p) :
    ∀ s ∈ pairs l false, 0 ≤ cross s.1 s.2 p := by
  intro s hm
  by_contra hneg
  push Not at hneg
  have hl : ∀ v ∈ l, cross s.2 s.1 v ≤ 0 := fun v hv => by
    rw [cross_swap]
    linarith [hc s hm v hv]
  have hpos : 0 < cross s.2 s.1 p := by
    rw [cross_swap]
    linarith
  refine hp ⟨fun r hr ho => ?_, beyond_outside (fun h => hs.proper s hm ⟨h.1.symm, h.2.symm⟩) hl hpos⟩
  obtain ⟨k, k0, k1, kx, ky⟩ := ho
  obtain ⟨h1, h2⟩ := mem_pairs hr
  have e : cross s.2 s.1 p = (1 - k) * cross s.2 s.1 r.1 + k * cross s.2 s.1 r.2 := by simp only [cross, kx, ky]; ring
  nlinarith [mul_nonneg k0 (neg_nonneg.2 (hl _ h2)), mul_nonneg (sub_nonneg.2 k1) (neg_nonneg.2 (hl _ h1))]

/-- Each vertex of the mesh is a corner of a solid triangle. -/
theorem Fit.solid_corner (hF : Fit g l M) {p : Vertex K} (hp : Vx M p) : ∃ r ∈ M, SolidTri r ∧ IsCorner r p := by
  obtain ⟨⟨t, ht, hc⟩, hr⟩ := hp
  rcases hF.lot.shape t ht with st | ⟨s, hs, rfl⟩
  · exact ⟨t, ht, st, hc⟩
  · obtain ⟨r, hr', sr, hside⟩ := hF.lot.side (simplePolygon_back hF.poly) hs
    refine ⟨r, hr', sr, ?_⟩
    have hg := hF.lot.ghost
    rcases hc with rfl | rfl | rfl
    · rcases hside with ⟨-, k⟩ | ⟨-, k⟩ | ⟨-, k⟩ <;> simp only at k <;> rw [k] <;> simp [IsCorner]
    · rcases hside with ⟨k, -⟩ | ⟨k, -⟩ | ⟨k, -⟩ <;> simp only at k <;> rw [k] <;> simp [IsCorner]
    · rw [hg] at hr
      simp at hr

theorem within_corner {r : Tri (Vertex K)} (sr : SolidTri r) {q : Vertex K} (hq : IsCorner r q) : Within r q := by
  have e := cross_rotate r.v1 r.v2 r.v3
  have e' := cross_rotate r.v2 r.v3 r.v1
  have := sr.ccw
  rcases hq with k | k | k <;> rw [k] <;> simp only [Within]
  · exact ⟨by simp only [cross]; ring_nf; rfl, by rw [e]; exact this.le, by simp only [cross]; ring_nf; rfl⟩
  · exact ⟨by simp only [cross]; ring_nf; rfl, by simp only [cross]; ring_nf; rfl, by rw [e', e]; exact this.le⟩
  · exact ⟨this.le, by simp only [cross]; ring_nf; rfl, by simp only [cross]; ring_nf; rfl⟩

/-- The triangulation of a convex polygon is a Delaunay triangulation. -/
theorem Fit.good (hF : Fit g l M) (hc : ConvexPolygon l) : Good g M := by
  have hleft : ∀ p, Vx M p → ∀ s ∈ pairs l false, 0 ≤ cross s.1 s.2 p := by
    intro p hp
    obtain ⟨r, hr, sr, hcr⟩ := hF.solid_corner hp
    exact ConvexPolygon.left hc hF.poly (hF.not_beyond hr sr (within_corner sr hcr))
  have hempty : ∀ t ∈ M, SolidTri t → ∀ p, Vx M p → circleDet t.v1 t.v2 t.v3 p ≤ 0 := by
    intro t ht st p hp
    by_contra hpos
    push Not at hpos
    obtain ⟨r, hr, sr, hcr⟩ := hF.solid_corner hp
    exact (hF.seer_left ht st hpos (hleft p hp)).no_corner hF hr sr hcr
  refine ⟨hF.lot.ghost, hF.simple, hF.lot.closed, fun t ht => ?_, hempty, ?_⟩
  · rcases hF.lot.shape t ht with st | ⟨s, hs, rfl⟩
    · exact Or.inl st
    · obtain ⟨m1, m2⟩ := mem_pairs hs
      refine Or.inr ⟨hF.lot.real _ m2, hF.lot.real _ m1, ?_, rfl⟩
      intro e
      simp only at e
      exact hF.poly.proper s hs (by rw [e]; exact ⟨rfl, rfl⟩)
  · intro t ht gt p hp
    rcases hF.lot.shape t ht with st | ⟨s, hs, rfl⟩
    · have := st.r3
      rw [gt.g3, hF.lot.ghost] at this
      simp at this
    · simp only
      have h1 := hleft p hp s hs
      refine ⟨by rw [cross_swap]; linarith, fun h0 => ?_⟩
      by_contra hneg
      push Not at hneg
      obtain ⟨t, ht', st, hside⟩ := hF.lot.side (simplePolygon_back hF.poly) hs
      have := hempty t ht' st p hp
      obtain ⟨c, -, -, -, -, hcc, -, -, hcd, -⟩ := st.side hside
      simp only at hcc hcd
      rw [hcd, circleDet_btw] at this
      have h0' : cross s.1 s.2 p = 0 := by rw [cross_swap] at h0; linarith
      have hb : btw s.1 s.2 p = btw s.2 s.1 p := by simp only [btw]; ring
      rw [h0', hb] at this
      nlinarith [mul_pos hcc (neg_pos.2 hneg)]

end

section

variable {g : Vertex K} {b : Polyline (Vertex K)}

/-- Without a boundary to look at, insertions in a convex polygon go well. -/
theorem convex_court (hg : g.isGhost = true) (hreal : ∀ v ∈ b.vertices, v.isGhost = false) (hc : ConvexPolygon b.vertices)
    (f : Nat) : Court g b none f := by
  refine ⟨hg, hreal, fun {M v t} hF hv hin ht he => ?_, fun {M v t r} hF hv hin hS h => ?_⟩
  · obtain ⟨hcf, -⟩ := he
    have hleft := ConvexPolygon.left hc hF.poly (p := v) fun hb => hin.2 hb.2
    rcases hF.lot.shape t ht with st | ⟨s, hs, rfl⟩
    · refine hF.seer_left ht st ?_ hleft
      rw [← free_inside_solid f st]
      unfold conflicting at hcf
      rw [Bool.or_eq_true] at hcf
      rcases hcf with k | k
      · exact k
      · rw [Bool.and_eq_true] at k
        have := k.1
        simp only [geoPreds] at this
        rw [solid_notGhost st] at this
        simp at this
    · exfalso
      obtain ⟨m1, m2⟩ := mem_pairs hs
      have r1 := hreal _ m1
      have r2 := hreal _ m2
      have hgh : GhostTri g (⟨s.2, s.1, g⟩ : Tri (Vertex K)) := by
        refine ⟨r2, r1, ?_, rfl⟩
        intro e
        simp only at e
        exact hF.poly.proper s hs (by rw [e]; exact ⟨rfl, rfl⟩)
      unfold conflicting at hcf
      rw [Bool.or_eq_true] at hcf
      rcases hcf with k | k
      · have := (free_inside_ghost f hg hgh v).1 k
        simp only at this
        rw [cross_swap] at this
        linarith [hleft s hs]
      · rw [Bool.and_eq_true] at k
        have h2 : OnSegment s.2 s.1 v := (Props.C07_exact _ _).1 k.2
        exact absurd (onSegment_symm h2) (hin.1 s hs)
  · simp only [geoPreds, mayInsertTriangle, outsideHoles, Res.bind_ok, Bool.and_true, Res.ok.injEq] at h
    exact h.symm

end

end Verif
