import Verif.Spec.Delaunay
import Verif.Spec.Regions

/-!
# Triangulations of a polygon
-/

namespace Verif.Spec

variable {K : Type*} [Field K] [LinearOrder K]

/-- The point is strictly inside the closed polygon with vertices `l`: it is on no side, and the polygon runs around it. -/
def InsidePolygon (l : List (Vertex K)) (w : Vertex K) : Prop :=
  (∀ s ∈ pairs l false, ¬ OnSegment s.1 s.2 w) ∧ windingNumber (pairs l false) w ≠ 0

/-- The point is strictly inside the triangle or on one of its sides. -/
def InOrOn (t : Tri (Vertex K)) (w : Vertex K) : Prop :=
  Inner t w ∨ ∃ e, IsSide t e ∧ OnSegment e.v1 e.v2 w

/-- The triangles of the mesh, ghosts apart, are a partition of the polygon with vertices `l`. -/
structure TilesPolygon (l : List (Vertex K)) (T : List (Tri (Vertex K))) : Prop where
  /-- each triangle is counterclockwise -/
  ccw : ∀ t ∈ T, ¬ HasGhost t → Face t
  /-- no two triangles overlap -/
  apart : ∀ s ∈ T, ∀ t ∈ T, ¬ HasGhost s → ¬ HasGhost t → ∀ w, Inner s w → Inner t w → s = t
  /-- no triangle reaches out of the polygon -/
  inside : ∀ t ∈ T, ¬ HasGhost t → ∀ w, Inner t w → InsidePolygon l w
  /-- the triangles cover the polygon -/
  covers : ∀ w, InsidePolygon l w → ∃ t ∈ T, ¬ HasGhost t ∧ InOrOn t w
  /-- the ghost triangles are those over the sides of the polygon -/
  border : ∀ t ∈ T, HasGhost t → ∃ s ∈ pairs l false, t.v1 = s.2 ∧ t.v2 = s.1 ∧ t.v3.isGhost = true

/-- No vertex of the polygon is on the right of one of its sides. -/
def ConvexPolygon (l : List (Vertex K)) : Prop :=
  ∀ s ∈ pairs l false, ∀ v ∈ l, 0 ≤ cross s.1 s.2 v

/-- The polygon `l` is the polygon `m` with more vertices on its sides. -/
structure Subdivides (l m : List (Vertex K)) : Prop where
  /-- no vertex of `m` is lost -/
  keeps : ∀ v ∈ m, v ∈ l
  /-- each side of `l` runs along a side of `m`, in the same direction -/
  along : ∀ s ∈ pairs l false, ∃ S ∈ pairs m false,
    OnSegment S.1 S.2 s.1 ∧ OnSegment S.1 S.2 s.2 ∧ OnSegment s.1 S.2 s.2
  /-- the sides of `l` and of `m` are made of the same points -/
  outline : ∀ q, (∃ s ∈ pairs l false, OnSegment s.1 s.2 q) ↔ ∃ S ∈ pairs m false, OnSegment S.1 S.2 q
  /-- the two polygons have the same inside and the same outside -/
  winding : ∀ q, windingNumber (pairs l false) q = windingNumber (pairs m false) q

/-- There is a circle through `a` and `b` that has all other points of the list strictly outside. -/
def FreeChord (l : List (Vertex K)) (a b : Vertex K) : Prop :=
  ∃ o : Vertex K, dist2 o a = dist2 o b ∧ ∀ p ∈ l, p ≠ a → p ≠ b → dist2 o a < dist2 o p

/-- The segment between the points does not leave the polygon. -/
def Sees (l : List (Vertex K)) (p q : Vertex K) : Prop :=
  ∀ x, OnSegment p q x → InsidePolygon l x ∨ ∃ s ∈ pairs l false, OnSegment s.1 s.2 x

/-- `T` is a constrained Delaunay triangulation inside the polygon: no vertex that is seen from the inside of a triangle
is strictly inside the circumcircle of the triangle. -/
def DelaunayInside (l : List (Vertex K)) (T : List (Tri (Vertex K))) : Prop :=
  ∀ t ∈ T, Face t → ∀ o, Equidistant o t.v1 t.v2 t.v3 → ∀ r ∈ T, Face r → ∀ p, IsCorner r p →
    (∃ z, Inner t z ∧ Sees l z p) → dist2 o t.v1 ≤ dist2 o p

/-- The point is strictly outside the closed polygon with vertices `l`. -/
def OutsidePolygon (l : List (Vertex K)) (w : Vertex K) : Prop :=
  (∀ s ∈ pairs l false, ¬ OnSegment s.1 s.2 w) ∧ windingNumber (pairs l false) w = 0

/-- The point is strictly inside the polygon `l` and strictly outside all holes. -/
def InsideDomain (l : List (Vertex K)) (H : List (List (Vertex K))) (w : Vertex K) : Prop :=
  InsidePolygon l w ∧ ∀ h ∈ H, OutsidePolygon h w

/-- The triangles of the mesh, ghosts apart, are a partition of the polygon `l` without the holes. -/
structure TilesDomain (l : List (Vertex K)) (H : List (List (Vertex K))) (T : List (Tri (Vertex K))) : Prop where
  /-- each triangle is counterclockwise -/
  ccw : ∀ t ∈ T, ¬ HasGhost t → Face t
  /-- no two triangles overlap -/
  apart : ∀ s ∈ T, ∀ t ∈ T, ¬ HasGhost s → ¬ HasGhost t → ∀ w, Inner s w → Inner t w → s = t
  /-- no triangle reaches out of the domain -/
  inside : ∀ t ∈ T, ¬ HasGhost t → ∀ w, Inner t w → InsideDomain l H w
  /-- the triangles cover the domain -/
  covers : ∀ w, InsideDomain l H w → ∃ t ∈ T, ¬ HasGhost t ∧ InOrOn t w
  /-- the ghost triangles are those over the sides of the polygon and of the holes -/
  border : ∀ t ∈ T, HasGhost t → t.v3.isGhost = true ∧
    ((t.v2, t.v1) ∈ pairs l false ∨ ∃ h ∈ H, (t.v1, t.v2) ∈ pairs h false)

end Verif.Spec
