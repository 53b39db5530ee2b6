import Verif.Spec.Uniqueness
import Mathlib.Data.Finset.Basic

/-!
# Numbers of triangles and vertices of a mesh
-/

namespace Verif.Spec

variable {K : Type*} [Field K] [LinearOrder K]

instance (t : Tri (Vertex K)) : Decidable (HasGhost t) := by unfold HasGhost; infer_instance

/-- The number of triangles of the mesh, ghosts apart. -/
def numberOfFaces (T : List (Tri (Vertex K))) : ℕ := T.countP fun t => decide (¬ HasGhost t)

/-- The points of `V` are the vertices of the mesh. -/
def VerticesAre (T : List (Tri (Vertex K))) (V : Finset (Vertex K)) : Prop := ∀ p, p ∈ V ↔ FaceVertex T p

/-- The points of `B` are the vertices of the mesh that are on the sides of the polygon `l`. -/
def RimIs (l : List (Vertex K)) (T : List (Tri (Vertex K))) (B : Finset (Vertex K)) : Prop :=
  ∀ p, p ∈ B ↔ FaceVertex T p ∧ ∃ s ∈ pairs l false, OnSegment s.1 s.2 p

end Verif.Spec
