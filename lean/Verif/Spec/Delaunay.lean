import Verif.Spec.Geometry
import Verif.Spec.Mesh
import Verif.Spec.Winding

/-!
# Delaunay triangulations, as meshes closed by ghost triangles
-/

namespace Verif.Spec

variable {K : Type*} [Field K] [LinearOrder K]

/-- An ordinary vertex of the mesh. -/
def VertexOf (T : List (Tri (Vertex K))) (p : Vertex K) : Prop :=
  (∃ t ∈ T, IsCorner t p) ∧ p.isGhost = false

/-- A triangle of the plane: its corners are ordinary and in counterclockwise order. -/
def Face (t : Tri (Vertex K)) : Prop :=
  t.v1.isGhost = false ∧ t.v2.isGhost = false ∧ t.v3.isGhost = false ∧ 0 < cross t.v1 t.v2 t.v3

/-- A ghost triangle over the hull edge from `t.v1` to `t.v2`, which has the outside on its left. -/
def Outer (g : Vertex K) (t : Tri (Vertex K)) : Prop :=
  t.v1.isGhost = false ∧ t.v2.isGhost = false ∧ t.v1 ≠ t.v2 ∧ t.v3 = g

/-- `T` is a Delaunay triangulation of its ordinary vertices, closed by ghost triangles with ghost vertex `g`. -/
structure Delaunay (g : Vertex K) (T : List (Tri (Vertex K))) : Prop where
  ghost : g.isGhost = true
  /-- no directed edge is used twice -/
  simple : Simple T
  /-- each directed edge is used as often as its reverse -/
  closed : Watertight T
  /-- triangles are counterclockwise, or ghosts -/
  shape : ∀ t ∈ T, Face t ∨ Outer g t
  /-- no vertex is strictly inside the circumcircle of a triangle -/
  emptyCircle : ∀ t ∈ T, Face t → ∀ o, Equidistant o t.v1 t.v2 t.v3 → ∀ p, VertexOf T p →
    dist2 o t.v1 ≤ dist2 o p
  /-- the hull is convex: no vertex is to the left of a hull edge -/
  convex : ∀ t ∈ T, Outer g t → ∀ p, VertexOf T p → cross t.v1 t.v2 p ≤ 0
  /-- hull edges are elementary: no vertex is on them, except their ends -/
  elementary : ∀ t ∈ T, Outer g t → ∀ p, VertexOf T p → ¬ StrictlyOn t.v1 t.v2 p
  /-- there is some triangle, or the mesh is a single segment between two ghost triangles -/
  start : (∃ t ∈ T, Face t) ∨ ∃ a b, T.Perm [⟨a, b, g⟩, ⟨b, a, g⟩]

/-- The point is strictly inside the triangle. -/
def Inner (t : Tri (Vertex K)) (w : Vertex K) : Prop :=
  0 < cross t.v1 t.v2 w ∧ 0 < cross t.v2 t.v3 w ∧ 0 < cross t.v3 t.v1 w

/-- Some corner of the triangle is a ghost. -/
def HasGhost (t : Tri (Vertex K)) : Prop :=
  t.v1.isGhost = true ∨ t.v2.isGhost = true ∨ t.v3.isGhost = true

instance (t : Tri (Vertex K)) : Decidable (HasGhost t) := by unfold HasGhost; infer_instance

instance (t : Tri (Vertex K)) (w : Vertex K) : Decidable (Inner t w) := by unfold Inner; infer_instance

/-- The number of triangles without ghosts that have the point strictly inside. -/
def coverings (T : List (Tri (Vertex K))) (w : Vertex K) : Nat :=
  T.countP fun t => decide (¬ HasGhost t ∧ Inner t w)

/-- The outline of the mesh: the sides without ghosts of its ghost triangles, reversed so that the mesh is on their
left. -/
def outline (T : List (Tri (Vertex K))) : List (Vertex K × Vertex K) :=
  (T.filter fun t => decide (HasGhost t)).flatMap fun t =>
    [(t.v2, t.v1), (t.v3, t.v2), (t.v1, t.v3)].filter fun s => !s.1.isGhost && !s.2.isGhost

end Verif.Spec
