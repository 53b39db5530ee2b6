import Verif.Model.Vertex

/-!
# Elementary plane geometry used to state the properties

Only coordinates are used; the `isGhost` flag plays no role here.
-/

namespace Verif.Spec

variable {K : Type*} [Field K] [LinearOrder K]

/-- Twice the signed area of the triangle `a b c` (cross product of two sides). -/
def cross (a b c : Vertex K) : K := (b.x - a.x) * (c.y - a.y) - (b.y - a.y) * (c.x - a.x)

/-- Squared distance. -/
def dist2 (a b : Vertex K) : K := (a.x - b.x) ^ 2 + (a.y - b.y) ^ 2

/-- `o` is at the same distance from the three points. -/
def Equidistant (o a b c : Vertex K) : Prop := dist2 o a = dist2 o b ∧ dist2 o a = dist2 o c

/-- `p` is on the closed segment `a b`. -/
def OnSegment (a b p : Vertex K) : Prop :=
  ∃ t : K, 0 ≤ t ∧ t ≤ 1 ∧ p.x = a.x + t * (b.x - a.x) ∧ p.y = a.y + t * (b.y - a.y)

/-- `p` is on the straight line through `a` and `b` (everywhere if `a = b`). -/
def OnLine (a b p : Vertex K) : Prop := cross a b p = 0

/-- Same place in the plane. -/
def SamePoint (a b : Vertex K) : Prop := a.x = b.x ∧ a.y = b.y

/-- The segments `a b` and `c d` have the same direction, or one of them is a point. -/
def Parallel (a b c d : Vertex K) : Prop :=
  (b.x - a.x) * (d.y - c.y) = (b.y - a.y) * (d.x - c.x)

/-- `p` is on one of the segments of the list. -/
def OnSome (l : List (Vertex K × Vertex K)) (p : Vertex K) : Prop :=
  ∃ s ∈ l, OnSegment s.1 s.2 p

/-- `p` is on the segment `a b` and it is not an end of it. -/
def StrictlyOn (a b p : Vertex K) : Prop :=
  OnSegment a b p ∧ ¬ SamePoint a p ∧ ¬ SamePoint b p

/-- `p` is in the axis-parallel rectangle with corners `lo` and `hi`. -/
def InBox (lo hi p : Vertex K) : Prop := lo.x ≤ p.x ∧ p.x ≤ hi.x ∧ lo.y ≤ p.y ∧ p.y ≤ hi.y

/-- The closed polygon with these vertices has no side of length zero and no side that runs straight back
along the previous one. -/
def NoFold (l : List (Vertex K)) : Prop :=
  ∀ (i : Nat) (u v w : Vertex K), l[i % l.length]? = some u → l[(i + 1) % l.length]? = some v →
    l[(i + 2) % l.length]? = some w →
    ¬ SamePoint u v ∧
      (cross u v w = 0 → 0 < (v.x - u.x) * (w.x - v.x) + (v.y - u.y) * (w.y - v.y))

end Verif.Spec
