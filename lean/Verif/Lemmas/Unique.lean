import Verif.Props.Sessions
import Verif.Lemmas.ConvexFit
import Verif.Props.Refinement
import Verif.Spec.Uniqueness

/-!
# A polygon with given vertices has only one constrained Delaunay triangulation, up to cocircular vertices
-/

set_option linter.unusedSectionVars false

namespace Verif

open Spec Props

variable {K : Type*} [Field K] [LinearOrder K] [IsStrictOrderedRing K]

/-- The points of a triangle within a polygon are seen from the inside of the triangle. -/
theorem sees_within {l : List (Vertex K)} {t : Tri (Vertex K)} (hin : ∀ w, Inner t w → InsidePolygon l w)
    {z p : Vertex K} (hz : Inner t z) (hp : Within t p) : Sees l z p := by
  have key : ∀ x, OnSegment p z x → SamePoint x p ∨ InsidePolygon l x := fun x hx =>
    (towards_inner hp hz hx).imp_right (hin x)
  intro x hx
  by_cases hon : ∃ s ∈ pairs l false, OnSegment s.1 s.2 x
  · exact Or.inr hon
  · left
    push Not at hon
    rcases key x (onSegment_symm hx) with h | h
    · refine ⟨hon, ?_⟩
      have e : windingNumber (pairs l false) x = windingNumber (pairs l false) z := by
        refine winding_const l fun s hs q hq hxz => ?_
        have hpz : OnSegment p z q := by
          obtain ⟨k, k0, k1, hk1, hk2⟩ := hxz
          exact ⟨k, k0, k1, by rw [hk1, h.1], by rw [hk2, h.2]⟩
        rcases key q hpz with e | e
        · refine hon s hs ?_
          obtain ⟨k, k0, k1, hk1, hk2⟩ := hq
          exact ⟨k, k0, k1, by rw [← hk1, h.1, e.1], by rw [← hk2, h.2, e.2]⟩
        · exact e.1 s hs hq
      rw [e]
      exact (hin z hz).2
    · exact h

/-- The difference of the powers with respect to two circles is an affine function. -/
theorem powers_affine (o o' a b c w : Vertex K) (r r' : K) :
    cross a b c * ((dist2 o w - r) - (dist2 o' w - r'))
      = cross b c w * ((dist2 o a - r) - (dist2 o' a - r')) + cross c a w * ((dist2 o b - r) - (dist2 o' b - r'))
        + cross a b w * ((dist2 o c - r) - (dist2 o' c - r')) := by
  simp only [cross, dist2]
  ring

theorem face_center {t : Tri (Vertex K)} (h : Face t) : ∃ o, Equidistant o t.v1 t.v2 t.v3 := by
  cases hc : circumcenter t.v1 t.v2 t.v3 with
  | none => exact absurd ((C03_none_iff _ _ _).1 hc) h.2.2.2.ne'
  | some c => exact ⟨c, (C03_some hc).1⟩

/-- The weighted sum of three numbers that are not positive. -/
theorem weights {p q r x y z f A : K} (hp : 0 < p) (hq : 0 < q) (hr : 0 < r) (hx : x ≤ 0) (hy : y ≤ 0) (hz : z ≤ 0)
    (hA : 0 < A) (h : A * f = p * x + q * y + r * z) : f ≤ 0 ∧ (f = 0 → x = 0 ∧ y = 0 ∧ z = 0) := by
  have h1 : p * x ≤ 0 := mul_nonpos_of_nonneg_of_nonpos hp.le hx
  have h2 : q * y ≤ 0 := mul_nonpos_of_nonneg_of_nonpos hq.le hy
  have h3 : r * z ≤ 0 := mul_nonpos_of_nonneg_of_nonpos hr.le hz
  constructor
  · by_contra hf
    push Not at hf
    have := mul_pos hA hf
    linarith
  · intro hf
    rw [hf, mul_zero] at h
    have e1 : p * x = 0 := by linarith
    have e2 : q * y = 0 := by linarith
    have e3 : r * z = 0 := by linarith
    exact ⟨(mul_eq_zero.1 e1).resolve_left hp.ne', (mul_eq_zero.1 e2).resolve_left hq.ne', (mul_eq_zero.1 e3).resolve_left hr.ne'⟩

/-- Two triangles that overlap, with no corner of one strictly in the circumcircle of the other, have the same circumcircle. -/
theorem overlap_circle {s t : Tri (Vertex K)} (hs : Face s) (ht : Face t) {w o o' : Vertex K} (ws : Inner s w)
    (wt : Inner t w) (ho : Equidistant o s.v1 s.v2 s.v3) (ho' : Equidistant o' t.v1 t.v2 t.v3)
    (h1 : ∀ p, IsCorner t p → dist2 o s.v1 ≤ dist2 o p) (h2 : ∀ p, IsCorner s p → dist2 o' t.v1 ≤ dist2 o' p) :
    (∀ p, IsCorner s p → dist2 o' t.v1 = dist2 o' p) ∧ ∀ p, IsCorner t p → dist2 o s.v1 = dist2 o p := by
  have a1 := powers_affine o o' s.v1 s.v2 s.v3 w (dist2 o s.v1) (dist2 o' t.v1)
  have a2 := powers_affine o' o t.v1 t.v2 t.v3 w (dist2 o' t.v1) (dist2 o s.v1)
  have s1 := h2 s.v1 (Or.inl rfl)
  have s2 := h2 s.v2 (Or.inr (Or.inl rfl))
  have s3 := h2 s.v3 (Or.inr (Or.inr rfl))
  have t1 := h1 t.v1 (Or.inl rfl)
  have t2 := h1 t.v2 (Or.inr (Or.inl rfl))
  have t3 := h1 t.v3 (Or.inr (Or.inr rfl))
  have e1 := ho.1
  have e2 := ho.2
  have e1' := ho'.1
  have e2' := ho'.2
  obtain ⟨k1, k2⟩ := weights ws.2.1 ws.2.2 ws.1 (by linarith) (by linarith) (by linarith) hs.2.2.2 a1
  obtain ⟨k1', k2'⟩ := weights wt.2.1 wt.2.2 wt.1 (by linarith) (by linarith) (by linarith) ht.2.2.2 a2
  obtain ⟨m1, m2, m3⟩ := k2 (by linarith)
  obtain ⟨n1, n2, n3⟩ := k2' (by linarith)
  constructor
  · rintro p (rfl | rfl | rfl) <;> linarith
  · rintro p (rfl | rfl | rfl) <;> linarith

theorem face_ne {t : Tri (Vertex K)} (h : Face t) : t.v1 ≠ t.v2 ∧ t.v2 ≠ t.v3 ∧ t.v3 ≠ t.v1 := by
  have h4 := h.2.2.2
  refine ⟨fun e => ?_, fun e => ?_, fun e => ?_⟩ <;> rw [e] at h4 <;> simp only [cross] at h4 <;> ring_nf at h4 <;>
    exact lt_irrefl _ h4

/-- A triangle is known by its corners. -/
theorem face_of_corners {s t : Tri (Vertex K)} (hs : Face s) (ht : Face t) (h : ∀ p, IsCorner s p → IsCorner t p) :
    SameTriangle s t := by
  obtain ⟨n1, n2, n3⟩ := face_ne hs
  have c1 := hs.2.2.2
  have c2 := ht.2.2.2
  have e1 : cross t.v1 t.v3 t.v2 = -cross t.v1 t.v2 t.v3 := by simp only [cross]; ring
  have e2 : cross t.v2 t.v1 t.v3 = -cross t.v1 t.v2 t.v3 := by simp only [cross]; ring
  have e3 : cross t.v3 t.v2 t.v1 = -cross t.v1 t.v2 t.v3 := by simp only [cross]; ring
  have x1 := h s.v1 (Or.inl rfl)
  have x2 := h s.v2 (Or.inr (Or.inl rfl))
  have x3 := h s.v3 (Or.inr (Or.inr rfl))
  obtain ⟨a, b, c⟩ := s
  simp only [IsCorner] at x1 x2 x3 n1 n2 n3 c1
  unfold SameTriangle
  rcases x1 with rfl | rfl | rfl <;> rcases x2 with rfl | rfl | rfl <;>
    first
    | exact absurd rfl n1
    | (rcases x3 with rfl | rfl | rfl <;>
        first
        | exact absurd rfl n2
        | exact absurd rfl n3
        | exact Or.inl rfl
        | exact Or.inr (Or.inl rfl)
        | exact Or.inr (Or.inr rfl)
        | (exfalso; linarith))

/-- Two meshes of the same polygon with the same vertices: triangles that overlap have the same circumcircle. -/
theorem common_circle {l : List (Vertex K)} {S T : List (Tri (Vertex K))} (hS : DelaunayInside l S) (hT : DelaunayInside l T)
    (hV : ∀ p, FaceVertex S p ↔ FaceVertex T p) {s t : Tri (Vertex K)} (ms : s ∈ S) (mt : t ∈ T) (hs : Face s) (ht : Face t)
    (is : ∀ w, Inner s w → InsidePolygon l w) (it : ∀ w, Inner t w → InsidePolygon l w) {w o o' : Vertex K}
    (ws : Inner s w) (wt : Inner t w) (ho : Equidistant o s.v1 s.v2 s.v3) (ho' : Equidistant o' t.v1 t.v2 t.v3) :
    (∀ p, IsCorner s p → dist2 o' t.v1 = dist2 o' p) ∧ ∀ p, IsCorner t p → dist2 o s.v1 = dist2 o p := by
  refine overlap_circle hs ht ws wt ho ho' (fun p hp => ?_) fun p hp => ?_
  · obtain ⟨r, hr, fr, hc⟩ := (hV p).2 ⟨t, mt, ht, hp⟩
    exact hS s ms hs o ho r hr fr p hc ⟨w, ws, sees_within it wt (within_corner (solid_iff.1 ht) hp)⟩
  · obtain ⟨r, hr, fr, hc⟩ := (hV p).1 ⟨s, ms, hs, hp⟩
    exact hT t mt ht o' ho' r hr fr p hc ⟨w, wt, sees_within is ws (within_corner (solid_iff.1 hs) hp)⟩

/-- A point inside one triangle and in another: some point is inside both. -/
theorem inner_both {s t : Tri (Vertex K)} (ht : SolidTri t) {w : Vertex K} (hs : Inner s w) (hw : Within t w) :
    ∃ z, Inner s z ∧ Inner t z := by
  obtain ⟨d, hd, h⟩ := inner_open hs (middle t)
  have hk : 0 < min d 1 := lt_min hd one_pos
  exact ⟨lerp w (middle t) (min d 1), h _ hk.le (min_le_left _ _), inner_lerp hw (inner_middle ht) hk (min_le_right _ _)⟩

theorem proper_half {b : Polyline (Vertex K)} {m m' : Mesh (Vertex K)} (h : Proper b m) (h' : Proper b m')
    (hV : ∀ p, FaceVertex m.tris p ↔ FaceVertex m'.tris p) (hg : NoFourOnCircle (FaceVertex m.tris)) {s : Tri (Vertex K)}
    (hs : s ∈ m.tris) (fs : Face s) : ∃ t ∈ m'.tris, SameTriangle s t := by
  have noGhost : ∀ {t : Tri (Vertex K)}, Face t → ¬ HasGhost t := by
    rintro t ⟨a, b, c, -⟩ (k | k | k)
    · rw [a] at k; cases k
    · rw [b] at k; cases k
    · rw [c] at k; cases k
  have is := (h.inside s hs (noGhost fs)).2
  have ws := inner_middle (solid_iff.1 fs)
  obtain ⟨t, ht, gt, hw⟩ := h'.covers _ (is _ ws)
  have ft := (h'.inside t ht gt).1
  have it := (h'.inside t ht gt).2
  obtain ⟨z, zs, zt⟩ := inner_both (solid_iff.1 ft) ws ((Lot.within_iff (solid_iff.1 ft)).1 hw)
  obtain ⟨o, ho⟩ := face_center fs
  obtain ⟨o', ho'⟩ := face_center ft
  obtain ⟨k1, -⟩ := common_circle h.delaunay h'.delaunay hV hs ht fs ft is it zs zt ho ho'
  refine ⟨t, ht, face_of_corners fs ft fun p hp => ?_⟩
  by_contra hn
  obtain ⟨n1, n2, n3⟩ := face_ne ft
  have hn1 : t.v1 ≠ p := fun e => hn (Or.inl e.symm)
  have hn2 : t.v2 ≠ p := fun e => hn (Or.inr (Or.inl e.symm))
  have hn3 : t.v3 ≠ p := fun e => hn (Or.inr (Or.inr e.symm))
  exact hg o' t.v1 t.v2 t.v3 p ((hV _).2 ⟨t, ht, ft, Or.inl rfl⟩) ((hV _).2 ⟨t, ht, ft, Or.inr (Or.inl rfl)⟩)
    ((hV _).2 ⟨t, ht, ft, Or.inr (Or.inr rfl)⟩) ⟨s, hs, fs, hp⟩ n1 n3.symm hn1 n2 hn2 hn3 ⟨ho'.1, ho'.2, k1 p hp⟩

/-- Two proper meshes of the same polygon with the same vertices in general position have the same triangles. -/
theorem proper_unique {b : Polyline (Vertex K)} {m m' : Mesh (Vertex K)} (h : Proper b m) (h' : Proper b m')
    (hV : ∀ p, FaceVertex m.tris p ↔ FaceVertex m'.tris p) (hg : NoFourOnCircle (FaceVertex m.tris)) :
    SameFaces m.tris m'.tris := by
  refine ⟨fun s hs fs => proper_half h h' hV hg hs fs, fun t ht ft => ?_⟩
  have hg' : NoFourOnCircle (FaceVertex m'.tris) := fun o a b c d ha hb hc hd =>
    hg o a b c d ((hV a).2 ha) ((hV b).2 hb) ((hV c).2 hc) ((hV d).2 hd)
  obtain ⟨s, hs, k⟩ := proper_half h' h (fun p => (hV p).symm) hg' ht ft
  refine ⟨s, hs, ?_⟩
  rcases k with rfl | rfl | rfl
  exacts [Or.inl rfl, Or.inr (Or.inr rfl), Or.inr (Or.inl rfl)]

end Verif
