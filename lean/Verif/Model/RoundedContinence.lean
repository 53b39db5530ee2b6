import Verif.Model.RoundedMesh
import Verif.Model.RoundedSplit

/-!
# `may_insert_triangle` and `triangulate` with a rounding after each operation

The functions behind the question "may this triangle be given up for that vertex", as in the other modules but with each
operation followed by the rounding function `rnd`. Comparisons, minima, maxima and negations do not round.
-/

namespace Verif

variable {K : Type*} [Field K] [LinearOrder K]

namespace Mat2

/-- The determinant as nalgebra's `try_inverse` computes it for two rows. -/
def detRounded (rnd : K → K) (m : Mat2 K) : K := rnd (rnd (m.a * m.d) - rnd (m.c * m.b))

/-- `is_invertible`: whether the computed determinant is exactly zero. -/
def isInvertibleRounded (rnd : K → K) (m : Mat2 K) : Bool := decide (m.detRounded rnd ≠ 0)

/-- `m * (x, y)`. -/
def mulRounded (rnd : K → K) (m : Mat2 K) (x y : K) : K × K :=
  (rnd (rnd (m.a * x) + rnd (m.b * y)), rnd (rnd (m.c * x) + rnd (m.d * y)))

/-- `try_inverse().unwrap() * (b1, b2)`: first the inverse is computed, entry by entry, and then the product. -/
def invMulRounded (rnd : K → K) (m : Mat2 K) (b1 b2 : K) : K × K :=
  let det := m.detRounded rnd
  mulRounded rnd ⟨rnd (m.d / det), rnd (-m.b / det), rnd (-m.c / det), rnd (m.a / det)⟩ b1 b2

end Mat2

/-- The matrix built in `parallel` (src/properties/parallel.rs:23) and in `intersection_vertex`
(src/properties/intersection.rs:83). -/
def segMatrixRounded (rnd : K → K) (a b c d : Vertex K) : Mat2 K :=
  ⟨-rnd (b.y - a.y), rnd (b.x - a.x), -rnd (d.y - c.y), rnd (d.x - c.x)⟩

/-- `parallel` (src/properties/parallel.rs:10-25). -/
def parallelRounded (rnd : K → K) (a b c d : Vertex K) : Bool :=
  !(segMatrixRounded rnd a b c d).isInvertibleRounded rnd

/-- `intersection_vertex` (src/properties/intersection.rs:63-120). -/
def intersectionVertexRounded (rnd : K → K) (eps : K) (v1 v2 v3 v4 : Vertex K) (bbox : BBox K) : Option (Vertex K) :=
  let m := segMatrixRounded rnd v1 v2 v3 v4
  let b1 := rnd (rnd (v1.y * rnd (v2.x - v1.x)) - rnd (v1.x * rnd (v2.y - v1.y)))
  let b2 := rnd (rnd (v3.y * rnd (v4.x - v3.x)) - rnd (v3.x * rnd (v4.y - v3.y)))
  if !m.isInvertibleRounded rnd then
    let mx := rnd (rnd (bbox.origin.x + bbox.destin.x) / 2)
    let my := rnd (rnd (bbox.origin.y + bbox.destin.y) / 2)
    let ev := m.mulRounded rnd mx my
    if approxEq eps (rnd (ev.1 - b1)) 0 && approxEq eps (rnd (ev.2 - b2)) 0 then some (Vertex.mk' mx my)
    else none
  else
    let p := m.invMulRounded rnd b1 b2
    some (Vertex.mk' p.1 p.2)

/-- One of the two interval tests of `intersection` (src/properties/intersection.rs:26-31). -/
def inIntervalRounded (rnd : K → K) (eps lo hi v : K) : Bool :=
  (decide (v ≥ lo) && decide (v ≤ hi)) || approxEqRounded rnd eps lo v || approxEqRounded rnd eps hi v

/-- `intersection` (src/properties/intersection.rs:18-40). -/
def intersectionRounded (rnd : K → K) (eps : K) (v1 v2 v3 v4 : Vertex K) : Option (Vertex K) :=
  match intersectionRegion v1 v2 v3 v4 with
  | none => none
  | some bbox =>
    match intersectionVertexRounded rnd eps v1 v2 v3 v4 bbox with
    | none => none
    | some v =>
      if inIntervalRounded rnd eps bbox.origin.x bbox.destin.x v.x
          && inIntervalRounded rnd eps bbox.origin.y bbox.destin.y v.y then some v
      else none

/-- The closure of `position` in `split_intersections` (src/elements/polyline.rs:865-873). -/
def crossesRounded (rnd : K → K) (eps : K) (v1 v2 v3 v4 : Vertex K) : Bool :=
  (intersectionRounded rnd eps v1 v2 v3 v4).isSome &&
    (!Vertex.eqvRounded rnd eps v1 v3 && !Vertex.eqvRounded rnd eps v1 v4 && !Vertex.eqvRounded rnd eps v2 v3
      && !Vertex.eqvRounded rnd eps v2 v4 && !parallelRounded rnd v1 v2 v3 v4)

/-- The `while` loop of `split_intersections` (src/elements/polyline.rs:863-894). -/
def splitLoopRounded (rnd : K → K) (eps : K) : Nat → List (Vertex K × Vertex K) → List (Vertex K × Vertex K) →
    Res (List (Vertex K × Vertex K))
  | _, [], acc => .ok acc
  | 0, _ :: _, _ => .diverged
  | n + 1, (v1, v2) :: aux, acc =>
    match acc.findIdx? (fun s => crossesRounded rnd eps v1 v2 s.1 s.2) with
    | none => splitLoopRounded rnd eps n aux (acc ++ [(v1, v2)])
    | some i =>
      match acc[i]? with
      | none => .panic
      | some (v3, v4) =>
        match intersectionRounded rnd eps v1 v2 v3 v4 with
        | none => .panic
        | some p =>
          splitLoopRounded rnd eps n
            ((if Vertex.eqvRounded rnd eps v2 p then [] else [(p, v2)])
              ++ (if Vertex.eqvRounded rnd eps v1 p then [] else [(v1, p)])
              ++ (if Vertex.eqvRounded rnd eps v4 p then [] else [(p, v4)])
              ++ (if Vertex.eqvRounded rnd eps v3 p then [] else [(v3, p)]) ++ aux)
            (acc.eraseIdx i)

/-- `split_intersections` (src/elements/polyline.rs:857-897). -/
def splitIntersectionsRounded (rnd : K → K) (eps : K) (fuel : Nat) (segments : List (Vertex K × Vertex K)) :
    Res (List (Vertex K × Vertex K)) :=
  splitLoopRounded rnd eps fuel segments.reverse []

namespace Polyline

/-- The first `for` loop of `Polyline::continence` (src/elements/polyline.rs:708-728): `none` is the early
`return None`. -/
def continenceLoopRounded (rnd : K → K) (eps : K) (p1 : Polyline (Vertex K)) :
    List (Vertex K) → ContState → Res (Option ContState)
  | [], s => .ok (some s)
  | v :: rest, s =>
    match p1.containsRounded rnd eps v with
    | none => .panic
    | some .boundary => continenceLoopRounded rnd eps p1 rest (s.1, .closed)
    | some c =>
      match s.1 with
      | none => continenceLoopRounded rnd eps p1 rest (some c, s.2)
      | some c' => if c' = c then continenceLoopRounded rnd eps p1 rest s else .ok none

/-- The second `for` loop of `Polyline::continence` (src/elements/polyline.rs:737-746): `false` is the early
`return None`. -/
def continenceSplitLoopRounded (rnd : K → K) (eps : K) (p1 : Polyline (Vertex K)) (c : Option Continence) :
    List (Edge (Vertex K)) → Res Bool
  | [] => .ok true
  | e :: rest =>
    match p1.containsRounded rnd eps (e.midpointRounded rnd) with
    | none => .panic
    | some .boundary => continenceSplitLoopRounded rnd eps p1 c rest
    | some c' => if some c' = c then continenceSplitLoopRounded rnd eps p1 c rest else .ok false

/-- The vertices inspected by `Polyline::continence` (src/elements/polyline.rs:708-712): midpoint and first vertex of each
edge. -/
def criticalVerticesRounded (rnd : K → K) (p : Polyline (Vertex K)) : List (Vertex K) :=
  p.intoEdges.flatMap fun e => [e.midpointRounded rnd, e.v1]

/-- `Polyline::continence` (src/elements/polyline.rs:700-752). -/
def continenceRounded (rnd : K → K) (eps : K) (fuel : Nat) (p1 p2 : Polyline (Vertex K)) :
    Res (Option (Continence × BoundaryInclusion)) :=
  if p1.opened then .ok none
  else
    (continenceLoopRounded rnd eps p1 (p2.criticalVerticesRounded rnd) (none, .opened)).bind fun r =>
      match r with
      | none => .ok none
      | some (pc, pb) =>
        (splitIntersectionsRounded rnd eps fuel
            (pairs p1.vertices p1.opened ++ pairs p2.vertices p2.opened)).bind fun split =>
          (continenceSplitLoopRounded rnd eps p1 pc (Edge.fromVertexPairs split)).bind fun good =>
            if !good then .ok none
            else if pb = .closed ∧ pc = none then .ok (some (.boundary, .closed))
            else
              match pc with
              | none => .panic
              | some c => .ok (some (c, pb))

end Polyline

/-- `Triangle::center` (src/elements/triangle.rs:135-147). -/
def Tri.centerRounded (rnd : K → K) (t : Tri (Vertex K)) : Vertex K :=
  if t.isGhost Vertex.isGhost then
    Vertex.mk' (rnd (rnd (t.v1.x + t.v2.x) / 2)) (rnd (rnd (t.v1.y + t.v2.y) / 2))
  else
    Vertex.mk' (rnd (rnd (rnd (t.v1.x + t.v2.x) + t.v3.x) / 3)) (rnd (rnd (rnd (t.v1.y + t.v2.y) + t.v3.y) / 3))

/-- The polyline built by `may_insert_triangle` (src/planar/triangulation_procedures/vertices.rs:273-284). -/
def probeRounded (rnd : K → K) (t : Tri (Vertex K)) (v : Vertex K) : Polyline (Vertex K) :=
  if t.isGhost Vertex.isGhost then ⟨[t.v1, t.v2, v], false, by simp⟩
  else ⟨[t.centerRounded rnd, v], true, by simp⟩

/-- The loop over the holes in `may_insert_triangle` (src/planar/triangulation_procedures/vertices.rs:297-303): the flag is
overwritten, not accumulated. -/
def outsideHolesRounded (rnd : K → K) (eps : K) (fuel : Nat) (p : Polyline (Vertex K)) :
    List (Polyline (Vertex K)) → Bool → Res Bool
  | [], flag => .ok flag
  | h :: hs, _ =>
    (Polyline.continenceRounded rnd eps fuel h p).bind fun r =>
      match r with
      | some (c, _) => outsideHolesRounded rnd eps fuel p hs (decide (c ≠ Continence.inside))
      | none => outsideHolesRounded rnd eps fuel p hs false

/-- `may_insert_triangle` (src/planar/triangulation_procedures/vertices.rs:267-306). The holes are given in iteration
order. -/
def mayInsertTriangleRounded (rnd : K → K) (eps : K) (fuel : Nat) (boundary : Option (Polyline (Vertex K)))
    (holes : List (Polyline (Vertex K))) (t : Tri (Vertex K)) (v : Vertex K) : Res Bool :=
  let p := probeRounded rnd t v
  (match boundary with
    | none => Res.ok true
    | some b =>
      (Polyline.continenceRounded rnd eps fuel b p).bind fun r =>
        match r with
        | some (c, _) => .ok (decide (c ≠ Continence.outside))
        | none => .ok false).bind fun inB =>
    (outsideHolesRounded rnd eps fuel p holes true).bind fun outH => .ok (inB && outH)

/-- The predicates as the code computes them, with a boundary and holes. -/
def domainPredsRounded (rnd : K → K) (eps : K) (fuel : Nat) (boundary : Option (Polyline (Vertex K)))
    (holes : List (Polyline (Vertex K))) : Preds (Vertex K) :=
  { geoPredsRounded rnd eps with mayInsert := mayInsertTriangleRounded rnd eps fuel boundary holes }

/-- `Triangulator::triangulate` (src/planar/triangulator.rs:314-364) for a triangulator without holes and segments: the
first step and the last one are left. -/
def meshVerticesRounded (rnd : K → K) (eps : K) (fuel : Nat) (σ : Sched) (T : Triangulator K) : Res (Mesh (Vertex K)) :=
  (meshOutlineRounded rnd eps fuel σ T.boundary).bind fun m0 =>
    (includeVertices (domainPredsRounded rnd eps fuel (some T.boundary) []) (toSet T.boundary.intoEdges) fuel (σ.sub 5) m0
      (shuffle (σ.sub 6) T.vertices)).bind fun st => .ok st.mesh

end Verif
