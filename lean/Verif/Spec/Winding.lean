import Verif.Spec.Geometry

/-!
# Winding number, independently of the code

The winding number of a closed chain of segments around a point, counted on the vertical ray that starts
at the point and goes up, with the usual half-open convention for abscissae.
-/

namespace Verif.Spec

variable {K : Type*} [Field K] [LinearOrder K]

/-- Signed crossing of the upward ray from `v` by the segment `a b`: `+1` if the segment passes above `v`
from right to left, `-1` if it passes above `v` from left to right, `0` otherwise. -/
def crossingAbove (v a b : Vertex K) : ℤ :=
  if b.x ≤ v.x ∧ v.x < a.x ∧ 0 < cross a b v then 1
  else if a.x ≤ v.x ∧ v.x < b.x ∧ cross a b v < 0 then -1
  else 0

/-- Winding number around `v` of the closed chain with the given segments. -/
def windingNumber (l : List (Vertex K × Vertex K)) (v : Vertex K) : ℤ :=
  (l.map fun s => crossingAbove v s.1 s.2).sum

/-- `v` is within tolerance of the segment `a b`: it is on it if the segment is vertical; otherwise its
abscissa is spanned by the segment and twice the area of `a b v` is at most `eps`. -/
def NearSegment (eps : K) (a b v : Vertex K) : Prop :=
  (a.x = b.x ∧ OnSegment a b v) ∨
    (a.x ≠ b.x ∧ min a.x b.x ≤ v.x ∧ v.x ≤ max a.x b.x ∧ |cross a b v| ≤ eps)

end Verif.Spec
