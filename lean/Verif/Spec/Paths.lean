import Verif.Model.Edge
import Verif.Spec.Geometry

/-!
# Paths of oriented edges
-/

namespace Verif.Spec

/-- The edges of the list lead, one after the other, from `a` to `b`. -/
def Path {V : Type*} (a : V) : List (Edge V) → V → Prop
  | [], b => a = b
  | e :: l, b => e.v1 = a ∧ Path e.v2 l b

variable {K : Type*} [Field K] [LinearOrder K]

/-- The edges `e` and `f` are parallel and point the same way. -/
def SameWay (e f : Edge (Vertex K)) : Prop :=
  Parallel e.v1 e.v2 f.v1 f.v2 ∧
    0 < (e.v2.x - e.v1.x) * (f.v2.x - f.v1.x) + (e.v2.y - e.v1.y) * (f.v2.y - f.v1.y)

/-- `f` starts where `e` ends and goes straight on. -/
def GoesOn (e f : Edge (Vertex K)) : Prop := f.v1 = e.v2 ∧ SameWay e f

end Verif.Spec
