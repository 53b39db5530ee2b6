import Verif.Model.RoundedInsert
import Verif.Model.Elimination

/-!
# Triangulating an outline with a rounding after each operation

The procedures of `Model/Vertices.lean` and `Model/Carve.lean` ask geometric questions through `Preds`. Here the questions
are answered by the rounded tests.
-/

namespace Verif

variable {K : Type*} [Field K] [LinearOrder K]

/-- `Triangle::encircles` (src/elements/triangle.rs:58-76). -/
def Tri.encirclesRounded (rnd : K → K) (eps : K) (t : Tri (Vertex K)) (v : Vertex K) : Continence :=
  if !t.isGhost Vertex.isGhost then continenceRounded rnd eps t.v1 t.v2 t.v3 v
  else
    match orientationRounded rnd eps t.v1 t.v2 v with
    | .counterclockwise => .inside
    | .clockwise => .outside
    | .colinear => .boundary

/-- The predicates as the code computes them where neither a boundary nor holes are handed over: then `may_insert_triangle`
(src/planar/triangulation_procedures/vertices.rs:267-306) is always true. -/
def geoPredsRounded (rnd : K → K) (eps : K) : Preds (Vertex K) where
  ghost := Vertex.isGhost
  veq := Vertex.eqvRounded rnd eps
  inside t v := decide (t.encirclesRounded rnd eps v = .inside)
  onEdge e v := e.containsRounded rnd eps v
  mayInsert _ _ := .ok true

/-- `Triangulator::triangulate` (src/planar/triangulator.rs:314-364) for a triangulator without holes, segments and inner
vertices: only the first step, the insertion of the boundary, is left. -/
def meshOutlineRounded (rnd : K → K) (eps : K) (fuel : Nat) (σ : Sched) (b : Polyline (Vertex K)) : Res (Mesh (Vertex K)) :=
  match b.vertices with
  | v1 :: v2 :: _ =>
    includeBoundary (geoPredsRounded rnd eps) Vertex.ghost [] fuel (σ.sub 0) (Mesh.fromInitialSegment Vertex.ghost v1 v2) b
  | _ => .panic

end Verif
