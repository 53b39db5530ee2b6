import Verif.Lemmas.Pocket
import Verif.Spec.Domain

/-!
# Points that see a part of a side of a polygon
-/

set_option linter.unusedSectionVars false

namespace Verif

open Spec Props

variable {K : Type*} [Field K] [LinearOrder K] [IsStrictOrderedRing K]

/-- A part of a segment has the direction of the segment. -/
theorem along_scale {a b p q : Vertex K} (hp : OnSegment a b p) (hq : OnSegment p b q) (hne : ¬ SamePoint p q) :
    ∃ k : K, 0 < k ∧ ∀ x, cross p q x = k * cross a b x := by
  obtain ⟨i, i0, i1, ix, iy⟩ := hp
  obtain ⟨m, m0, m1, mx, my⟩ := hq
  refine ⟨m * (1 - i), lt_of_le_of_ne (mul_nonneg m0 (by linarith)) ?_, ?_⟩
  · intro h
    apply hne
    constructor
    · rw [mx, ix]; linear_combination (b.x - a.x) * h
    · rw [my, iy]; linear_combination (b.y - a.y) * h
  · intro x
    simp only [cross, mx, my, ix, iy]; ring

theorem cross_seg_nonpos {x y a b p : Vertex K} (hp : OnSegment a b p) (h1 : cross x y a ≤ 0) (h2 : cross x y b ≤ 0) :
    cross x y p ≤ 0 := by
  obtain ⟨k, k0, k1, kx, ky⟩ := hp
  have : cross x y p = (1 - k) * cross x y a + k * cross x y b := by simp only [cross, kx, ky]; ring
  rw [this]
  nlinarith [mul_nonneg (sub_nonneg.2 k1) (neg_nonneg.2 h1), mul_nonneg k0 (neg_nonneg.2 h2)]

section

variable {g : Vertex K} {T : List (Tri (Vertex K))} {b : Polyline (Vertex K)}

variable (hT : Good g T) {s0 : Tri (Vertex K)} (hs0 : s0 ∈ T) (hsol0 : SolidTri s0)
  (hreal : ∀ v ∈ b.vertices, v.isGhost = false) (hE : Edged T b.vertices)
  (hs : SimplePolygon b.vertices) (hw : WindsOnce b.vertices)

include hT hs0 hsol0 hreal hE hs hw

/-- A point of the polygon that is strictly on the right of a side does not see both ends of a part of the side. -/
theorem Edged.pocket_part (ha : 0 < shoelace b.vertices) {S s : Vertex K × Vertex K} (hm : S ∈ pairs b.vertices false)
    (a1 : OnSegment S.1 S.2 s.1) (a2 : OnSegment S.1 S.2 s.2) (a3 : OnSegment s.1 S.2 s.2) (hne : ¬ SamePoint s.1 s.2)
    (r1 : s.1.isGhost = false) (r2 : s.2.isGhost = false) {v : Vertex K} (hv : v.isGhost = false)
    (hin : ¬ Beyond b.vertices v)
    (hneg : cross s.1 s.2 v < 0) (h1 : ∀ p, OnSegment s.1 v p → ¬ Beyond b.vertices p)
    (h2 : ∀ p, OnSegment v s.2 p → ¬ Beyond b.vertices p) : False := by
  obtain ⟨m1, m2⟩ := mem_pairs hm
  obtain ⟨k, hk0, hk⟩ := along_scale a1 a3 hne
  have hneg' : cross S.1 S.2 v < 0 := by
    rw [hk] at hneg
    by_contra hc
    push Not at hc
    nlinarith [mul_nonneg hk0.le hc]
  have hhull : ∀ r ∈ T, GhostTri g r → ∀ p ∈ b.vertices, cross r.v1 r.v2 p ≤ 0 := fun r hr gr p hp =>
    (hT.hull r hr gr p (Edged.vertex hT hs0 hsol0 hreal hE hp)).1
  have hhull' : ∀ r ∈ T, GhostTri g r → cross r.v1 r.v2 v ≤ 0 := by
    intro r hr gr
    by_contra hc
    push Not at hc
    refine hin ⟨fun t ht ho => ?_, beyond_outside (real_ne gr.r1 gr.r2 gr.ne) (hhull r hr gr) hc⟩
    obtain ⟨n1, n2⟩ := mem_pairs ht
    exact absurd (cross_seg_nonpos ho (hhull r hr gr _ n1) (hhull r hr gr _ n2)) (not_le.2 hc)
  obtain ⟨t, ht, he⟩ := hE S hm
  obtain ⟨t', ht', he'⟩ := hT.across ht he
  have hon : ∀ p, OnSegment s.1 s.2 p → ¬ Beyond b.vertices p := fun p hp hb => hb.1 S hm (onSegment_trans a1 a2 hp)
  rcases hT.side_real ht' he' ⟨hreal _ m2, hreal _ m1⟩ with ⟨st, -⟩ | ⟨gt, k1, k2⟩
  · have hz := (Edged.at_side hT hs0 hsol0 hreal hE hs hw hm ht' st).2 he'
    have hx := Edged.all_exposed hT hs0 hsol0 hreal hE hs hw ha ht' st hz
    let c : List (Vertex K) := [s.2, s.1, v]
    have hcp : pairs c false = [(s.2, s.1), (s.1, v), (v, s.2)] := rfl
    have hc1 : ∀ r ∈ pairs c false, ∀ p, OnSegment r.1 r.2 p → ¬ Beyond b.vertices p := by
      intro r hr p hp
      rw [hcp] at hr
      simp only [List.mem_cons, List.not_mem_nil, or_false] at hr
      rcases hr with rfl | rfl | rfl
      · exact hon p (onSegment_symm hp)
      · exact h1 p hp
      · exact h2 p hp
    obtain ⟨-, h0⟩ := Edged.exposed hT hs0 hsol0 hreal hE hc1 (by
      intro r hr gr x hx
      simp only [c, List.mem_cons, List.not_mem_nil, or_false] at hx
      rcases hx with rfl | rfl | rfl
      · exact cross_seg_nonpos a2 (hhull r hr gr _ m1) (hhull r hr gr _ m2)
      · exact cross_seg_nonpos a1 (hhull r hr gr _ m1) (hhull r hr gr _ m2)
      · exact hhull' r hr gr) hx st
    -- a point inside both triangles
    have hsw : 0 < cross s.2 s.1 v := by rw [cross_swap]; linarith
    have sc : SolidTri (⟨s.2, s.1, v⟩ : Tri (Vertex K)) := ⟨r2, r1, hv, hsw⟩
    have hab : ¬ SamePoint s.2 s.1 := fun h => hne ⟨h.1.symm, h.2.symm⟩
    have hq := midpoint_strictlyOn hab
    obtain ⟨d, hd, hdi⟩ := sc.beside (e := ⟨s.2, s.1⟩) (Or.inl ⟨rfl, rfl⟩) hq (c := middle t')
      (by
        obtain ⟨p, -, -, -, -, -, hi, -⟩ := st.side he'
        have := ((hi _).1 (inner_middle st)).1
        simp only [Edge.opposite] at this
        rw [cross_swap] at this ⊢
        rw [hk]
        have := mul_pos hk0 this
        linarith)
    have hk : 0 < min d 1 := lt_min hd one_pos
    have i1 := hdi _ hk (min_le_left _ _)
    have i2 : Inner t' (lerp (Edge.midpoint ⟨s.2, s.1⟩) (middle t') (min d 1)) :=
      inner_lerp (within_side st he' (onSegment_symm (onSegment_trans a2 a1 hq.1))) (inner_middle st) hk (min_le_right _ _)
    have hoff := Edged.off hT hs0 hsol0 hreal hE ht' st i2
    have hbe : ∀ p, OnSegment (lerp (Edge.midpoint ⟨s.2, s.1⟩) (middle t') (min d 1)) (middle t') p →
        Beyond b.vertices p := fun p hp =>
      Edged.beyond_path hT hs0 hsol0 hreal hE ht' st hz (within_of_inner i2) hoff hp
    have e1 := winding_const c (v := lerp (Edge.midpoint ⟨s.2, s.1⟩) (middle t') (min d 1)) (w := middle t')
      fun r hr x hx hxp => hc1 r hr x hx (hbe x hxp)
    rw [h0, hcp] at e1
    have e2 := sum_crossings_ite sc (w := lerp (Edge.midpoint ⟨s.2, s.1⟩) (middle t') (min d 1)) (by
      intro f hf hfo
      obtain ⟨p, -, -, -, -, -, hi, -⟩ := sc.side hf
      have := ((hi _).1 i1).1
      rw [onSegment_cross hfo] at this
      exact lt_irrefl _ this)
    rw [if_pos i1] at e2
    simp only [windingNumber, List.map_cons, List.map_nil, List.sum_cons, List.sum_nil] at e1
    simp only at e2
    omega
  · have := hhull' t' ht' gt
    rw [← k1, ← k2] at this
    simp only [Edge.opposite] at this
    rw [cross_swap] at this
    linarith

end

end Verif
