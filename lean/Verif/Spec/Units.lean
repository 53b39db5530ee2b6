import Verif.Model.Histories

/-!
# The same input in another unit of length, with another origin

Specification: a vertex at `(x, y)` is at `(k x + a, k y + b)` afterwards, and everything that is made of vertices follows.
-/

namespace Verif.Spec

variable {K : Type*} [Field K] [LinearOrder K]

/-- The vertex in the new coordinates. The ghost has no place, so it stays as it is. -/
def moveVertex (k a b : K) (v : Vertex K) : Vertex K := if v.isGhost then v else ⟨k * v.x + a, k * v.y + b, false⟩

/-- The edge in the new coordinates. -/
def moveEdge (k a b : K) (e : Edge (Vertex K)) : Edge (Vertex K) := ⟨moveVertex k a b e.v1, moveVertex k a b e.v2⟩

/-- The triangle in the new coordinates. -/
def moveTri (k a b : K) (t : Tri (Vertex K)) : Tri (Vertex K) :=
  ⟨moveVertex k a b t.v1, moveVertex k a b t.v2, moveVertex k a b t.v3⟩

/-- The outline in the new coordinates. -/
def moveOutline (k a b : K) (p : Polyline (Vertex K)) : Polyline (Vertex K) :=
  ⟨p.vertices.map (moveVertex k a b), p.opened, by simpa using p.two_le⟩

/-- The call in the new coordinates: areas are multiplied by `k²`, the quality ratio has no unit. -/
def moveRequest (k a b : K) : Request K → Request K
  | .vertices vs => .vertices (vs.map (moveVertex k a b))
  | .segments ss => .segments (ss.map (moveEdge k a b))
  | .hole p => .hole (moveOutline k a b p)
  | .triangulate => .triangulate
  | .refine p => .refine ⟨p.maxArea.map fun area => k ^ 2 * area, p.qualityRatio⟩

/-- `T'` is `T` in the new coordinates: the same triangles, the same triangle beside each edge, and the same domain. -/
structure Moved (k a b : K) (T T' : Triangulator K) : Prop where
  triangles : T'.mesh.tris = T.mesh.tris.map (moveTri k a b)
  beside : ∀ e, T'.mesh.adj (moveEdge k a b e) = (T.mesh.adj e).map (moveTri k a b)
  boundary : T'.boundary = moveOutline k a b T.boundary
  holes : T'.holes = T.holes.map (moveOutline k a b)
  vertices : T'.vertices = T.vertices.map (moveVertex k a b)
  segments : T'.segments = T.segments.map (moveEdge k a b)

/-- Two runs end in the same way: both return, with related results, or both panic, or both run out of fuel. -/
def SameOutcome {α β : Type*} (R : α → β → Prop) : Res α → Res β → Prop
  | .ok r, .ok s => R r s
  | .panic, .panic => True
  | .diverged, .diverged => True
  | _, _ => False

/-- No ghost among the vertices of a call. -/
def Tangible : Request K → Prop
  | .vertices vs => ∀ v ∈ vs, v.isGhost = false
  | .segments ss => ∀ e ∈ ss, e.v1.isGhost = false ∧ e.v2.isGhost = false
  | .hole p => ∀ v ∈ p.vertices, v.isGhost = false
  | .triangulate => True
  | .refine _ => True

end Verif.Spec
