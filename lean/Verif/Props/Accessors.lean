import Verif.Props.Predicates
import Verif.Model.Edge
import Verif.Spec.Mesh

/-!
# C77: what the accessors of edges and triangles return
-/

set_option linter.unusedSectionVars false

namespace Verif.Props

open Spec

variable {K : Type*} [Field K] [LinearOrder K] [IsStrictOrderedRing K]

theorem eqv_real {a b : Vertex K} (ha : a.isGhost = false) (hb : b.isGhost = false) :
    Vertex.eqv 0 a b = true ↔ a = b := by
  obtain ⟨x, y, g⟩ := a
  obtain ⟨x', y', g'⟩ := b
  simp only at ha hb
  subst ha; subst hb
  simp [Vertex.eqv, approxEq, sub_eq_zero]

/-- C77: with exact comparisons the vertex opposite to an edge is the third corner, when the edge is a side of the triangle
in its own direction; there is none for any other edge. -/
theorem C77_opposite_vertex {t : Tri (Vertex K)} {e : Edge (Vertex K)} {v : Vertex K}
    (h1 : t.v1.isGhost = false) (h2 : t.v2.isGhost = false) (h3 : t.v3.isGhost = false)
    (h4 : e.v1.isGhost = false) (h5 : e.v2.isGhost = false) (h12 : t.v1 ≠ t.v2) (h23 : t.v2 ≠ t.v3) (h31 : t.v3 ≠ t.v1) :
    t.oppositeVertex (Vertex.eqv 0) e = some v ↔
      t = ⟨e.v1, e.v2, v⟩ ∨ t = ⟨v, e.v1, e.v2⟩ ∨ t = ⟨e.v2, v, e.v1⟩ := by
  obtain ⟨a, b, c⟩ := t
  obtain ⟨p, q⟩ := e
  simp only [Tri.oppositeVertex, Edge.eqv, Bool.and_eq_true, eqv_real h4 h1, eqv_real h4 h2, eqv_real h4 h3,
    eqv_real h5 h1, eqv_real h5 h2, eqv_real h5 h3, Tri.mk.injEq] at *
  split_ifs with k1 k2 k3
  · obtain ⟨rfl, rfl⟩ := k1
    simp only [Option.some.injEq]
    constructor
    · rintro rfl; simp
    · rintro (h | h | h)
      · exact h.2.2
      · exact absurd h.2.1.symm h12
      · exact absurd h.1 h12
  · obtain ⟨rfl, rfl⟩ := k2
    simp only [Option.some.injEq]
    constructor
    · rintro rfl; simp
    · rintro (h | h | h)
      · exact absurd h.2.1 h23
      · exact h.1
      · exact absurd h.2.2.symm h23
  · obtain ⟨rfl, rfl⟩ := k3
    simp only [Option.some.injEq]
    constructor
    · rintro rfl; simp
    · rintro (h | h | h)
      · exact absurd h.1.symm h31
      · exact absurd h.2.2 h31
      · exact h.2.1
  · simp only [false_iff]
    rintro (⟨rfl, rfl, rfl⟩ | ⟨rfl, rfl, rfl⟩ | ⟨rfl, rfl, rfl⟩) <;> simp at k1 k2 k3

/-- C77: with exact comparisons the edge opposite to a vertex is the side that faces it, in the direction of the triangle;
there is none when the vertex is not a corner. -/
theorem C77_opposite_edge {t : Tri (Vertex K)} {e : Edge (Vertex K)} {v : Vertex K}
    (h1 : t.v1.isGhost = false) (h2 : t.v2.isGhost = false) (h3 : t.v3.isGhost = false)
    (h4 : v.isGhost = false) (h12 : t.v1 ≠ t.v2) (h23 : t.v2 ≠ t.v3) (h31 : t.v3 ≠ t.v1) :
    t.oppositeEdge (Vertex.eqv 0) v = some e ↔
      t = ⟨e.v1, e.v2, v⟩ ∨ t = ⟨v, e.v1, e.v2⟩ ∨ t = ⟨e.v2, v, e.v1⟩ := by
  obtain ⟨a, b, c⟩ := t
  obtain ⟨p, q⟩ := e
  simp only [Tri.oppositeEdge, eqv_real h4 h1, eqv_real h4 h2, eqv_real h4 h3, Tri.mk.injEq] at *
  split_ifs with k1 k2 k3
  · subst k1
    simp only [Option.some.injEq, Edge.mk.injEq]
    constructor
    · rintro ⟨rfl, rfl⟩; simp
    · rintro (h | h | h)
      · exact absurd h.2.2 h31
      · exact ⟨h.2.1, h.2.2⟩
      · exact absurd h.2.1.symm h12
  · subst k2
    simp only [Option.some.injEq, Edge.mk.injEq]
    constructor
    · rintro ⟨rfl, rfl⟩; simp
    · rintro (h | h | h)
      · exact absurd h.2.2.symm h23
      · exact absurd h.1 h12
      · exact ⟨h.2.2, h.1⟩
  · subst k3
    simp only [Option.some.injEq, Edge.mk.injEq]
    constructor
    · rintro ⟨rfl, rfl⟩; simp
    · rintro (h | h | h)
      · exact ⟨h.1, h.2.1⟩
      · exact absurd h.1.symm h31
      · exact absurd h.2.1 h23
  · simp only [false_iff]
    rintro (h | h | h)
    · exact k3 h.2.2.symm
    · exact k1 h.1.symm
    · exact k2 h.2.1.symm

/-- C77: the outer edges of a triangle are its sides in the reverse direction. -/
theorem C77_outer_edges {V : Type*} (t : Tri V) (a b : V) :
    ⟨a, b⟩ ∈ t.outerEdges ↔ IsSide t ⟨b, a⟩ := by
  simp [Tri.outerEdges, IsSide, and_comm]

/-- C77: the centre of a counterclockwise triangle is strictly inside it, and the three triangles it makes with the sides
have the same area. -/
theorem C77_center {t : Tri (Vertex K)} (h1 : t.v1.isGhost = false) (h2 : t.v2.isGhost = false)
    (h3 : t.v3.isGhost = false) :
    3 * cross t.v1 t.v2 t.center = cross t.v1 t.v2 t.v3 ∧ 3 * cross t.v2 t.v3 t.center = cross t.v1 t.v2 t.v3 ∧
      3 * cross t.v3 t.v1 t.center = cross t.v1 t.v2 t.v3 ∧
      (0 < cross t.v1 t.v2 t.v3 →
        0 < cross t.v1 t.v2 t.center ∧ 0 < cross t.v2 t.v3 t.center ∧ 0 < cross t.v3 t.v1 t.center) := by
  have e1 : 3 * cross t.v1 t.v2 t.center = cross t.v1 t.v2 t.v3 := by
    simp only [Tri.center, Tri.isGhost, h1, h2, h3, Bool.or_self, Bool.false_eq_true, if_false, cross, Vertex.mk']
    field_simp; ring
  have e2 : 3 * cross t.v2 t.v3 t.center = cross t.v1 t.v2 t.v3 := by
    simp only [Tri.center, Tri.isGhost, h1, h2, h3, Bool.or_self, Bool.false_eq_true, if_false, cross, Vertex.mk']
    field_simp; ring
  have e3 : 3 * cross t.v3 t.v1 t.center = cross t.v1 t.v2 t.v3 := by
    simp only [Tri.center, Tri.isGhost, h1, h2, h3, Bool.or_self, Bool.false_eq_true, if_false, cross, Vertex.mk']
    field_simp; ring
  exact ⟨e1, e2, e3, fun h => ⟨by linarith, by linarith, by linarith⟩⟩

/-- C77: the midpoint of an edge is on it, at the same distance from both ends, and is never a ghost. -/
theorem C77_midpoint (e : Edge (Vertex K)) :
    OnSegment e.v1 e.v2 e.midpoint ∧ dist2 e.v1 e.midpoint = dist2 e.v2 e.midpoint ∧
      4 * dist2 e.v1 e.midpoint = dist2 e.v1 e.v2 ∧ e.midpoint.isGhost = false := by
  refine ⟨⟨1 / 2, by norm_num, by norm_num, ?_, ?_⟩, ?_, ?_, rfl⟩
  · simp only [Edge.midpoint, Vertex.mk']; ring
  · simp only [Edge.midpoint, Vertex.mk']; ring
  · simp only [Edge.midpoint, Vertex.mk', dist2]; ring
  · simp only [Edge.midpoint, Vertex.mk', dist2]; ring

/-- C77: for a ghost triangle, with exact arithmetic, the points it encircles are those strictly on the left of the edge
between its two other corners, which leaves the corner at infinity out. -/
theorem C77_ghost_encircles {t : Tri (Vertex K)} (h : t.v3.isGhost = true) (v : Vertex K) :
    (t.encircles 0 v = .inside ↔ 0 < cross t.v1 t.v2 v) ∧ (t.encircles 0 v = .outside ↔ cross t.v1 t.v2 v < 0) ∧
      (t.encircles 0 v = .boundary ↔ cross t.v1 t.v2 v = 0) := by
  have h1 := C01_counterclockwise_iff (le_refl (0 : K)) t.v1 t.v2 v
  have h2 := C01_clockwise_iff (le_refl (0 : K)) t.v1 t.v2 v
  have h3 := C01_colinear_iff (eps := (0 : K)) t.v1 t.v2 v
  rw [neg_zero] at h2
  rw [abs_nonpos_iff] at h3
  rw [← h1, ← h2, ← h3]
  unfold Tri.encircles
  simp only [Tri.isGhost, h, Bool.or_true, Bool.not_true, Bool.false_eq_true, if_false]
  cases orientation 0 t.v1 t.v2 v <;> simp

/-- The triangle (0,0), (3,0), (0,3): the corner opposite to its second side, the side opposite to its first corner, its
centre, and a ghost triangle over its first side. -/
example :
    let v (a b : ℚ) : Vertex ℚ := ⟨a, b, false⟩
    let t : Tri (Vertex ℚ) := ⟨v 0 0, v 3 0, v 0 3⟩
    t.oppositeVertex (Vertex.eqv 0) ⟨v 3 0, v 0 3⟩ = some (v 0 0) ∧
      t.oppositeVertex (Vertex.eqv 0) ⟨v 0 3, v 3 0⟩ = none ∧
      t.oppositeEdge (Vertex.eqv 0) (v 0 0) = some ⟨v 3 0, v 0 3⟩ ∧ t.oppositeEdge (Vertex.eqv 0) (v 1 1) = none ∧
      t.center = v 1 1 ∧ (⟨v 3 0, v 0 3⟩ : Edge (Vertex ℚ)).midpoint = v (3 / 2) (3 / 2) ∧
      (⟨v 3 0, v 0 0, Vertex.ghost⟩ : Tri (Vertex ℚ)).encircles 0 (v 1 (-1)) = .inside ∧
      (⟨v 3 0, v 0 0, Vertex.ghost⟩ : Tri (Vertex ℚ)).encircles 0 (v 1 1) = .outside := by decide +kernel

end Verif.Props
