import Verif.Spec.Delaunay

/-!
# When two meshes have the same triangles
-/

namespace Verif.Spec

variable {K : Type*} [Field K] [LinearOrder K]

/-- The same corners in the same cyclic order. -/
def SameTriangle (s t : Tri (Vertex K)) : Prop :=
  s = t ∨ s = ⟨t.v2, t.v3, t.v1⟩ ∨ s = ⟨t.v3, t.v1, t.v2⟩

/-- Each triangle of one mesh, ghosts apart, is a triangle of the other. -/
def SameFaces (S T : List (Tri (Vertex K))) : Prop :=
  (∀ s ∈ S, Face s → ∃ t ∈ T, SameTriangle s t) ∧ ∀ t ∈ T, Face t → ∃ s ∈ S, SameTriangle s t

/-- The point is a corner of a triangle of the mesh, ghosts apart. -/
def FaceVertex (T : List (Tri (Vertex K))) (p : Vertex K) : Prop := ∃ t ∈ T, Face t ∧ IsCorner t p

/-- No four of the points lie on a circle. -/
def NoFourOnCircle (V : Vertex K → Prop) : Prop :=
  ∀ o a b c d, V a → V b → V c → V d → a ≠ b → a ≠ c → a ≠ d → b ≠ c → b ≠ d → c ≠ d →
    ¬ (dist2 o a = dist2 o b ∧ dist2 o a = dist2 o c ∧ dist2 o a = dist2 o d)

end Verif.Spec
