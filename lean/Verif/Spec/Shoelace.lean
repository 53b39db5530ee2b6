import Verif.Model.Vertex

/-!
# The shoelace formula
-/

namespace Verif.Spec

variable {K : Type*} [Field K] [LinearOrder K]

/-- The rest of the shoelace sum, for the vertices `l` followed by `first`. -/
def shoelaceFrom (first : Vertex K) : List (Vertex K) → K
  | [] => 0
  | [a] => (a.x * first.y - first.x * a.y) / 2
  | a :: b :: l => (a.x * b.y - b.x * a.y) / 2 + shoelaceFrom first (b :: l)

/-- The signed area of the closed polygon with these vertices: positive when they run counterclockwise. -/
def shoelace : List (Vertex K) → K
  | [] => 0
  | a :: l => shoelaceFrom a (a :: l)

/-- The sum of the signed areas of the triangles with a corner in `o` and a side of the open chain. -/
def fan (o : Vertex K) : List (Vertex K) → K
  | [] => 0
  | [_] => 0
  | a :: b :: l =>
    ((a.x - o.x) * (b.y - o.y) - (a.y - o.y) * (b.x - o.x)) / 2 + fan o (b :: l)

/-- A polygon moved by `(dx, dy)`. -/
def translate (dx dy : K) (l : List (Vertex K)) : List (Vertex K) :=
  l.map fun v => ⟨v.x + dx, v.y + dy, v.isGhost⟩

end Verif.Spec
