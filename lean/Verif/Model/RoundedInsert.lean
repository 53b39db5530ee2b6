import Verif.Model.Rounded
import Verif.Model.Triangulator

/-!
# `insert_vertices` with a rounding after each operation

The functions that `Triangulator::insert_vertices` calls, as in the other modules but with the orientation test of
`Model/Rounded.lean` and rounded differences. Comparisons, minima and maxima do not round.
-/

namespace Verif

variable {K : Type*} [Field K] [LinearOrder K]

/-- `approx_eq!` on two numbers: their difference is rounded (src/elements/vertex.rs:40-41). -/
def approxEqRounded (rnd : K → K) (eps a b : K) : Bool := decide (|rnd (a - b)| ≤ eps)

/-- `impl PartialEq for Vertex` (src/elements/vertex.rs:34-44). -/
def Vertex.eqvRounded (rnd : K → K) (eps : K) (a b : Vertex K) : Bool :=
  if a.isGhost && b.isGhost then true
  else (a.isGhost == b.isGhost) && approxEqRounded rnd eps a.x b.x && approxEqRounded rnd eps a.y b.y

/-- `Edge::contains` (src/elements/edge.rs:123-136). -/
def Edge.containsRounded (rnd : K → K) (eps : K) (e : Edge (Vertex K)) (v : Vertex K) : Bool :=
  match BBox.fromVertices [e.v1, e.v2] with
  | none => false
  | some b => b.contains v && decide (orientationRounded rnd eps e.v1 e.v2 v = .colinear)

namespace Polyline

/-- The `for` loop and the end of `Polyline::contains` (src/elements/polyline.rs:156-202). -/
def containsLoopRounded (rnd : K → K) (eps : K) (v : Vertex K) : List (Vertex K × Vertex K) → Int → Continence
  | [], parity => if parity = 0 then .outside else .inside
  | (v1, v2) :: rest, parity =>
    if v1.x = v2.x then
      if v1.x = v.x ∧ ((v1.y ≤ v.y ∧ v.y ≤ v2.y) ∨ (v2.y ≤ v.y ∧ v.y ≤ v1.y)) then .boundary
      else containsLoopRounded rnd eps v rest parity
    else if (v1.x < v.x ∧ v2.x < v.x) ∨ (v1.x > v.x ∧ v2.x > v.x) then
      containsLoopRounded rnd eps v rest parity
    else
      match orientationRounded rnd eps v1 v2 v with
      | .colinear => .boundary
      | .counterclockwise =>
        if v1.x = v.x ∨ v2.x = v.x then containsLoopRounded rnd eps v rest (parity + 1)
        else containsLoopRounded rnd eps v rest (parity + 2)
      | .clockwise =>
        if v1.x = v.x ∨ v2.x = v.x then containsLoopRounded rnd eps v rest (parity - 1)
        else containsLoopRounded rnd eps v rest (parity - 2)

/-- `Polyline::contains` (src/elements/polyline.rs:147-203). -/
def containsRounded (rnd : K → K) (eps : K) (p : Polyline (Vertex K)) (v : Vertex K) : Option Continence :=
  if p.opened then none else some (containsLoopRounded rnd eps v (pairs p.vertices p.opened) 0)

end Polyline

namespace Triangulator

/-- The test of `insert_vertices` (src/planar/triangulator.rs:48-60). -/
def vertexRejectedRounded (rnd : K → K) (eps : K) (T : Triangulator K) (v : Vertex K) : Bool :=
  decide (T.boundary.containsRounded rnd eps v ≠ some .inside)
    || T.holes.any fun h => decide (h.containsRounded rnd eps v ≠ some .outside)

/-- The loop over the segments in `insert_vertices` (src/planar/triangulator.rs:70-92). -/
def placeVertexRounded (rnd : K → K) (eps : K) (v : Vertex K) : List (Edge (Vertex K)) → Placement K
  | [] => .store
  | s :: rest =>
    if Vertex.eqvRounded rnd eps s.v1 v || Vertex.eqvRounded rnd eps s.v2 v then .ignore
    else if s.containsRounded rnd eps v then .split s
    else placeVertexRounded rnd eps v rest

/-- The insertion loop of `insert_vertices` (src/planar/triangulator.rs:68-96). -/
def insertVerticesLoopRounded (rnd : K → K) (eps : K) : Sched → List (Vertex K) → Triangulator K → Triangulator K
  | _, [], T => T
  | σ, v :: vs, T =>
    let T' := match placeVertexRounded rnd eps v (shuffle (σ.sub 0) T.segments) with
      | .store => { T with vertices := setInsert v T.vertices }
      | .ignore => T
      | .split s =>
        { T with segments := setInsert ⟨v, s.v2⟩ (setInsert ⟨s.v1, v⟩ (setErase s T.segments)) }
    insertVerticesLoopRounded rnd eps (σ.sub 1) vs T'

/-- `Triangulator::insert_vertices` (src/planar/triangulator.rs:37-99). -/
def insertVerticesRounded (rnd : K → K) (eps : K) (σ : Sched) (T : Triangulator K) (vs : List (Vertex K)) :
    InsertRes K (Vertex K) :=
  let bad := vs.filter (vertexRejectedRounded rnd eps T)
  if bad ≠ [] then .err T bad
  else .ok (insertVerticesLoopRounded rnd eps (σ.sub 1) (shuffle (σ.sub 0) vs) T)

end Triangulator

end Verif
