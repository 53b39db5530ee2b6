import Verif.Spec.Domain

/-!
# Strictly convex polygons
-/

namespace Verif.Spec

variable {K : Type*} [Field K] [LinearOrder K]

/-- Any three vertices, taken in the order of the list, make a left turn: the vertices are the corners of a convex
polygon, listed counterclockwise, and no three of them are on a line. -/
def StrictlyConvex (l : List (Vertex K)) : Prop :=
  ∀ p q r, [p, q, r].Sublist l → 0 < cross p q r

/-- The same, as a check of all triples. -/
def strictlyConvexCheck : List (Vertex K) → Bool
  | [] => true
  | a :: l => decide (l.Pairwise fun b c => 0 < cross a b c) && strictlyConvexCheck l

end Verif.Spec
