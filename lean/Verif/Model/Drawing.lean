import Verif.Model.Cli

/-!
# What is handed to the renderer (`src/glium_interface/vertex.rs`) and printed
(`src/planar/triangulation_data.rs`)

The conversion of a coordinate to `f32` is an arbitrary function `r`.
-/

namespace Verif

/-- The loop of `Vertex::from_coordinates` (src/glium_interface/vertex.rs:21-25): two values are taken at
every step, and the second `unwrap` fails when only one is left. -/
def fromCoordinates {F : Type*} : List F → Res (List (F × F))
  | [] => .ok []
  | [_] => .panic
  | x :: y :: rest => (fromCoordinates rest).bind fun l => .ok ((x, y) :: l)

variable {K F : Type*}

/-- The position of a vertex (src/glium_interface/vertex.rs:37-39 and 66-68). -/
def position (r : K → F) (v : Vertex K) : F × F := (r v.x, r v.y)

/-- `Vertex::triangles_from_triangulation` (src/glium_interface/vertex.rs:30-41). -/
def trianglePositions [DecidableEq K] (r : K → F) (ghost : Vertex K → Bool) (σ : Sched) (m : Mesh (Vertex K)) : List (F × F) :=
  (((shuffle σ m.tris).filter fun t => !t.isGhost ghost).flatMap fun t => [t.v1, t.v2, t.v3]).map (position r)

/-- `Vertex::edges_from_triangulation` (src/glium_interface/vertex.rs:43-70), with the coordinates: the edges
that are kept form a hash set, which is iterated once more. -/
def edgePositions [DecidableEq K] (r : K → F) (ghost : Vertex K → Bool) (σ : Sched) (m : Mesh (Vertex K)) : List (F × F) :=
  ((shuffle (σ.sub 1) (drawnEdges ghost (σ.sub 0) m)).flatMap fun e => [e.v1, e.v2]).map (position r)

/-- The first loop of `Display for TriangulationData` (src/planar/triangulation_data.rs:30-34): the pairs
that are printed; a last single value is not printed. -/
def printedPoints {C : Type*} : List C → List (C × C)
  | x :: y :: rest => (x, y) :: printedPoints rest
  | _ => []

/-- The second loop of `Display for TriangulationData` (src/planar/triangulation_data.rs:38-43). -/
def printedTriangles {I : Type*} : List I → List (I × I × I)
  | a :: b :: c :: rest => (a, b, c) :: printedTriangles rest
  | _ => []

end Verif
