import Verif.Model.BoundingBox

/-!
# `src/elements/edge.rs` and `src/elements/triangle.rs`

`Edge` and `Tri` are parametric in the type of vertices so that the mesh procedures can be studied
independently of the geometry.
-/

namespace Verif

/-- `struct Edge` (src/elements/edge.rs:16-20), oriented. -/
structure Edge (V : Type*) where
  v1 : V
  v2 : V
  deriving DecidableEq, Repr

/-- `struct Triangle` (src/elements/triangle.rs:10-15). Structural equality is what hashing
distinguishes (derived `Hash`, order dependent). -/
structure Tri (V : Type*) where
  v1 : V
  v2 : V
  v3 : V
  deriving DecidableEq, Repr

namespace Edge

variable {V : Type*}

/-- `Edge::opposite` (src/elements/edge.rs:45-50). -/
def opposite (e : Edge V) : Edge V := ⟨e.v2, e.v1⟩

/-- `impl PartialEq for Edge` (src/elements/edge.rs:22-27), given the vertex comparison. -/
def eqv (veq : V → V → Bool) (e f : Edge V) : Bool := veq e.v1 f.v1 && veq e.v2 f.v2

/-- `Edge::into_vertex_pairs` (src/elements/edge.rs:109-114). -/
def intoVertexPairs (l : List (Edge V)) : List (V × V) := l.map fun e => (e.v1, e.v2)

/-- `Edge::from_vertex_pairs` (src/elements/edge.rs:116-121). -/
def fromVertexPairs (l : List (V × V)) : List (Edge V) := l.map fun p => ⟨p.1, p.2⟩

/-- `Edge::from_vertices` (src/elements/edge.rs:93-107): consecutive pairs, the last one closing on the
first vertex (`v0`). -/
def fromVerticesAux (v0 : V) : List V → List (Edge V)
  | [] => []
  | [a] => [⟨a, v0⟩]
  | a :: b :: rest => ⟨a, b⟩ :: fromVerticesAux v0 (b :: rest)

/-- `Edge::from_vertices` (src/elements/edge.rs:93-107). -/
def fromVertices : List V → List (Edge V)
  | [] => []
  | v0 :: rest => fromVerticesAux v0 (v0 :: rest)

end Edge

namespace Tri

variable {V : Type*}

/-- `impl PartialEq for Triangle` (src/elements/triangle.rs:17-23): equality up to rotation. -/
def eqv (veq : V → V → Bool) (s t : Tri V) : Bool :=
  (veq s.v1 t.v1 && veq s.v2 t.v2 && veq s.v3 t.v3)
    || (veq s.v1 t.v2 && veq s.v2 t.v3 && veq s.v3 t.v1)
    || (veq s.v1 t.v3 && veq s.v2 t.v1 && veq s.v3 t.v2)

/-- `Triangle::is_ghost` (src/elements/triangle.rs:42-49). -/
def isGhost (g : V → Bool) (t : Tri V) : Bool := g t.v1 || g t.v2 || g t.v3

/-- `Triangle::inner_edges` (src/elements/triangle.rs:119-125), as a list. -/
def innerEdges (t : Tri V) : List (Edge V) := [⟨t.v1, t.v2⟩, ⟨t.v2, t.v3⟩, ⟨t.v3, t.v1⟩]

/-- `Triangle::outer_edges` (src/elements/triangle.rs:127-133), as a list. -/
def outerEdges (t : Tri V) : List (Edge V) := [⟨t.v2, t.v1⟩, ⟨t.v3, t.v2⟩, ⟨t.v1, t.v3⟩]

/-- The three corners (`vec![t.v1, t.v2, t.v3]`, e.g. src/planar/triangulation.rs:75). -/
def corners (t : Tri V) : List V := [t.v1, t.v2, t.v3]

/-- `Triangle::opposite_vertex` (src/elements/triangle.rs:149-160). -/
def oppositeVertex (veq : V → V → Bool) (t : Tri V) (e : Edge V) : Option V :=
  if Edge.eqv veq e ⟨t.v1, t.v2⟩ then some t.v3
  else if Edge.eqv veq e ⟨t.v2, t.v3⟩ then some t.v1
  else if Edge.eqv veq e ⟨t.v3, t.v1⟩ then some t.v2
  else none

/-- `Triangle::opposite_edge` (src/elements/triangle.rs:162-172). -/
def oppositeEdge (veq : V → V → Bool) (t : Tri V) (v : V) : Option (Edge V) :=
  if veq v t.v1 then some ⟨t.v2, t.v3⟩
  else if veq v t.v2 then some ⟨t.v3, t.v1⟩
  else if veq v t.v3 then some ⟨t.v1, t.v2⟩
  else none

end Tri

section geometry

variable {K : Type*} [Field K] [LinearOrder K]

namespace Edge

/-- `Edge::encroach` (src/elements/edge.rs:56-58). -/
def encroach (eps : K) (e : Edge (Vertex K)) (v : Vertex K) : Continence :=
  Verif.encroach eps e.v1 e.v2 v

/-- `Edge::midpoint` (src/elements/edge.rs:60-70). -/
def midpoint (e : Edge (Vertex K)) : Vertex K :=
  Vertex.mk' ((e.v1.x + e.v2.x) / 2) ((e.v1.y + e.v2.y) / 2)

/-- `Edge::contains` (src/elements/edge.rs:123-136). -/
def contains (eps : K) (e : Edge (Vertex K)) (v : Vertex K) : Bool :=
  match BBox.fromVertices [e.v1, e.v2] with
  | none => false
  | some b => b.contains v && decide (orientation eps e.v1 e.v2 v = .colinear)

/-- `Edge::from_coordinates` (src/elements/edge.rs:72-91). -/
def fromCoordinates (l : List K) : Res (List (Edge (Vertex K))) :=
  (Vertex.fromCoordinates l).bind fun vs => .ok (fromVertices vs)

end Edge

namespace Tri

/-- `Triangle::area` (src/elements/triangle.rs:51-56). -/
def area (t : Tri (Vertex K)) : Option K :=
  if t.isGhost Vertex.isGhost then none else some (areaTriangle t.v1 t.v2 t.v3)

/-- `Triangle::encircles` (src/elements/triangle.rs:58-76). -/
def encircles (eps : K) (t : Tri (Vertex K)) (v : Vertex K) : Continence :=
  if !t.isGhost Vertex.isGhost then continence eps t.v1 t.v2 t.v3 v
  else
    match orientation eps t.v1 t.v2 v with
    | .counterclockwise => .inside
    | .clockwise => .outside
    | .colinear => .boundary

/-- `Triangle::circumcenter` (src/elements/triangle.rs:82-87). -/
def circumcenter (t : Tri (Vertex K)) : Option (Vertex K) :=
  if t.isGhost Vertex.isGhost then none else Verif.circumcenter t.v1 t.v2 t.v3

/-- `Triangle::center` (src/elements/triangle.rs:135-147). -/
def center (t : Tri (Vertex K)) : Vertex K :=
  if t.isGhost Vertex.isGhost then
    Vertex.mk' ((t.v1.x + t.v2.x) / 2) ((t.v1.y + t.v2.y) / 2)
  else
    Vertex.mk' ((t.v1.x + t.v2.x + t.v3.x) / 3) ((t.v1.y + t.v2.y + t.v3.y) / 3)

/-- `Triangle::quality` (src/elements/triangle.rs:89-117); `dist` is `distance`
(src/properties/distance.rs:3-5), a parameter because `K` has no square root. -/
def quality (dist : Vertex K → Vertex K → K) (t : Tri (Vertex K)) : Option K :=
  if t.isGhost Vertex.isGhost then none
  else
    let a := dist t.v1 t.v2
    let b := dist t.v2 t.v3
    let c := dist t.v3 t.v1
    let area := areaTriangle t.v1 t.v2 t.v3
    if a ≤ b ∧ a ≤ c then some (b * c / (4 * area))
    else if b ≤ c then some (a * c / (4 * area))
    else some (a * b / (4 * area))

end Tri

end geometry

end Verif
