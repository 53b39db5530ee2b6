import Verif.Model.Edge

/-!
# `src/elements/polyline.rs` (everything but the boolean operations)
-/

namespace Verif

/-- `struct Polyline` (src/elements/polyline.rs:16-20). The two constructors refuse lists with fewer than
three (closed) or two (opened) vertices and nothing in the crate builds a polyline otherwise, so the
model carries that fact. -/
structure Polyline (V : Type*) where
  vertices : List V
  opened : Bool
  two_le : 2 ≤ vertices.length
  deriving DecidableEq

namespace Polyline

variable {V : Type*}

/-- `Polyline::new_closed` (src/elements/polyline.rs:35-44). -/
def newClosed (l : List V) : Option (Polyline V) :=
  if h : 3 ≤ l.length then some ⟨l, false, by omega⟩ else none

/-- `Polyline::new_opened` (src/elements/polyline.rs:46-55). -/
def newOpened (l : List V) : Option (Polyline V) :=
  if h : 2 ≤ l.length then some ⟨l, true, h⟩ else none

/-- `Polyline::head` (src/elements/polyline.rs:60-67). -/
def head (p : Polyline V) : Option V := if !p.opened then none else p.vertices.head?

/-- `Polyline::tail` (src/elements/polyline.rs:72-80). -/
def tail (p : Polyline V) : Option V := if !p.opened then none else p.vertices.getLast?

end Polyline

section pairs

variable {V : Type*}

/-- The first loop of `vertex_pairs` (src/elements/polyline.rs:840-845). -/
def consecutivePairs : List V → List (V × V)
  | [] => []
  | [_] => []
  | a :: b :: rest => (a, b) :: consecutivePairs (b :: rest)

/-- `vertex_pairs` (src/elements/polyline.rs:837-855) on a non-empty list. -/
def pairs (l : List V) (opened : Bool) : List (V × V) :=
  consecutivePairs l ++
    (if opened then [] else
      match l.getLast?, l.head? with
      | some a, some b => [(a, b)]
      | _, _ => [])

/-- `vertex_pairs` (src/elements/polyline.rs:837-855): `len() - 1` underflows (panic in debug builds,
followed by a failing `unwrap` in release builds) on the empty list. -/
def vertexPairs (l : List V) (opened : Bool) : Res (List (V × V)) :=
  if l.isEmpty then .panic else .ok (pairs l opened)

/-- `Polyline::into_edges` (src/elements/polyline.rs:799-804). -/
def Polyline.intoEdges (p : Polyline V) : List (Edge V) :=
  (pairs p.vertices p.opened).map fun s => ⟨s.1, s.2⟩

end pairs

section arrange

variable {V : Type*} [DecidableEq V]

/-- `hash_edges` of `Polyline::arrange` (src/elements/polyline.rs:89-92): the last inserted edge with a
given head wins. -/
def arrangeMap (edges : List (Edge V)) (v : V) : Option V :=
  (edges.reverse.find? fun e => decide (e.v1 = v)).map (·.v2)

/-- The loop of `Polyline::arrange` (src/elements/polyline.rs:98-108). `acc` is
`arranged_vertices`, in order. -/
def arrangeLoop (veq : V → V → Bool) (next : V → Option V) (head : V) :
    Nat → V → List V → Res (List V)
  | 0, _, _ => .diverged
  | n + 1, tail, acc =>
    match next tail with
    | none => .ok acc
    | some w => if veq w head then .ok acc else arrangeLoop veq next head n w (acc ++ [w])

/-- `Polyline::arrange` (src/elements/polyline.rs:86-115). -/
def Polyline.arrange (veq : V → V → Bool) (σ : Sched) (fuel : Nat) (edges : List (Edge V)) :
    Res (Option (Polyline V)) :=
  let order := shuffle (σ.sub 0) edges
  match choose (σ.sub 1) (toSet (order.map (·.v1))) with
  | none => .panic
  | some head =>
    (arrangeLoop veq (arrangeMap order) head fuel head [head]).bind fun vs =>
      if vs.length = edges.length then
        match Polyline.newClosed vs with
        | none => .panic
        | some p => .ok (some p)
      else .ok none

/-- The cancellation loop of `Polyline::triangles_hull` (src/elements/polyline.rs:819-830);
`boundary_edges` is kept as the list of its values (the key of a value is its reverse). The drained
set is visited in the order of the list. -/
def hullLoop : List (Edge V) → List (Edge V) → List (Edge V)
  | [], acc => acc
  | s :: rest, acc =>
    if s.opposite ∈ acc then hullLoop rest (acc.filter fun e => !decide (e = s.opposite))
    else hullLoop rest (s :: acc)

/-- The edges handed to `arrange` by `Polyline::triangles_hull` (src/elements/polyline.rs:811-831). -/
def hullEdges (σ : Sched) (tris : List (Tri V)) : List (Edge V) :=
  hullLoop (shuffle σ (toSet (tris.flatMap Tri.innerEdges))) []

/-- `Polyline::triangles_hull` (src/elements/polyline.rs:811-834). -/
def Polyline.trianglesHull (veq : V → V → Bool) (σ : Sched) (fuel : Nat) (tris : List (Tri V)) :
    Res (Option (Polyline V)) :=
  Polyline.arrange veq (σ.sub 1) fuel (hullEdges (σ.sub 0) tris)

end arrange

section geometry

variable {K : Type*} [Field K] [LinearOrder K]

namespace Polyline

/-- `Polyline::bounding_box` (src/elements/polyline.rs:82-84). -/
def boundingBox (p : Polyline (Vertex K)) : Option (BBox K) := BBox.fromVertices p.vertices

/-- The `for` loop and the end of `Polyline::contains` (src/elements/polyline.rs:156-202). -/
def containsLoop (eps : K) (v : Vertex K) : List (Vertex K × Vertex K) → Int → Continence
  | [], parity => if parity = 0 then .outside else .inside
  | (v1, v2) :: rest, parity =>
    if v1.x = v2.x then
      if v1.x = v.x ∧ ((v1.y ≤ v.y ∧ v.y ≤ v2.y) ∨ (v2.y ≤ v.y ∧ v.y ≤ v1.y)) then .boundary
      else containsLoop eps v rest parity
    else if (v1.x < v.x ∧ v2.x < v.x) ∨ (v1.x > v.x ∧ v2.x > v.x) then
      containsLoop eps v rest parity
    else
      match orientation eps v1 v2 v with
      | .colinear => .boundary
      | .counterclockwise =>
        if v1.x = v.x ∨ v2.x = v.x then containsLoop eps v rest (parity + 1)
        else containsLoop eps v rest (parity + 2)
      | .clockwise =>
        if v1.x = v.x ∨ v2.x = v.x then containsLoop eps v rest (parity - 1)
        else containsLoop eps v rest (parity - 2)

/-- `Polyline::contains` (src/elements/polyline.rs:147-203). -/
def contains (eps : K) (p : Polyline (Vertex K)) (v : Vertex K) : Option Continence :=
  if p.opened then none else some (containsLoop eps v (pairs p.vertices p.opened) 0)

end Polyline

/-- The closure of `position` in `split_intersections` (src/elements/polyline.rs:865-873). -/
def crosses (eps : K) (v1 v2 v3 v4 : Vertex K) : Bool :=
  (intersection eps v1 v2 v3 v4).isSome &&
    (!Vertex.eqv eps v1 v3 && !Vertex.eqv eps v1 v4 && !Vertex.eqv eps v2 v3
      && !Vertex.eqv eps v2 v4 && !parallel v1 v2 v3 v4)

/-- The `while` loop of `split_intersections` (src/elements/polyline.rs:863-894). The vector `aux_set` is
a stack: its last element is the head of the list here. `acc` is `splited_segments`. -/
def splitLoop (eps : K) : Nat → List (Vertex K × Vertex K) → List (Vertex K × Vertex K) →
    Res (List (Vertex K × Vertex K))
  | _, [], acc => .ok acc
  | 0, _ :: _, _ => .diverged
  | n + 1, (v1, v2) :: aux, acc =>
    match acc.findIdx? (fun s => crosses eps v1 v2 s.1 s.2) with
    | none => splitLoop eps n aux (acc ++ [(v1, v2)])
    | some i =>
      match acc[i]? with
      | none => .panic
      | some (v3, v4) =>
        match intersection eps v1 v2 v3 v4 with
        | none => .panic
        | some p =>
          splitLoop eps n
            ((if Vertex.eqv eps v2 p then [] else [(p, v2)])
              ++ (if Vertex.eqv eps v1 p then [] else [(v1, p)])
              ++ (if Vertex.eqv eps v4 p then [] else [(p, v4)])
              ++ (if Vertex.eqv eps v3 p then [] else [(v3, p)]) ++ aux)
            (acc.eraseIdx i)

/-- `split_intersections` (src/elements/polyline.rs:857-897). -/
def splitIntersections (eps : K) (fuel : Nat) (segments : List (Vertex K × Vertex K)) :
    Res (List (Vertex K × Vertex K)) :=
  splitLoop eps fuel segments.reverse []

/-- `segments_orientation` (src/elements/polyline.rs:899-910). -/
def segmentsOrientation (l : List (Vertex K × Vertex K)) : Res Orientation :=
  if areaSegments l < 0 then .ok .counterclockwise
  else if areaSegments l > 0 then .ok .clockwise
  else .panic

namespace Polyline

/-- State of the first loop of `Polyline::continence`: the continence seen so far and the boundary
flag. -/
abbrev ContState := Option Continence × BoundaryInclusion

/-- The first `for` loop of `Polyline::continence` (src/elements/polyline.rs:708-728): `none` is the
early `return None`. -/
def continenceLoop (eps : K) (p1 : Polyline (Vertex K)) :
    List (Vertex K) → ContState → Res (Option ContState)
  | [], s => .ok (some s)
  | v :: rest, s =>
    match p1.contains eps v with
    | none => .panic
    | some .boundary => continenceLoop eps p1 rest (s.1, .closed)
    | some c =>
      match s.1 with
      | none => continenceLoop eps p1 rest (some c, s.2)
      | some c' => if c' = c then continenceLoop eps p1 rest s else .ok none

/-- The second `for` loop of `Polyline::continence` (src/elements/polyline.rs:737-746): `false` is the
early `return None`. -/
def continenceSplitLoop (eps : K) (p1 : Polyline (Vertex K)) (c : Option Continence) :
    List (Edge (Vertex K)) → Res Bool
  | [] => .ok true
  | e :: rest =>
    match p1.contains eps e.midpoint with
    | none => .panic
    | some .boundary => continenceSplitLoop eps p1 c rest
    | some c' => if some c' = c then continenceSplitLoop eps p1 c rest else .ok false

/-- The vertices inspected by `Polyline::continence` (src/elements/polyline.rs:708-712): midpoint and
first vertex of each edge. -/
def criticalVertices (p : Polyline (Vertex K)) : List (Vertex K) :=
  p.intoEdges.flatMap fun e => [e.midpoint, e.v1]

/-- `Polyline::continence` (src/elements/polyline.rs:700-752). -/
def continence (eps : K) (fuel : Nat) (p1 p2 : Polyline (Vertex K)) :
    Res (Option (Continence × BoundaryInclusion)) :=
  if p1.opened then .ok none
  else
    (continenceLoop eps p1 p2.criticalVertices (none, .opened)).bind fun r =>
      match r with
      | none => .ok none
      | some (pc, pb) =>
        (splitIntersections eps fuel
            (pairs p1.vertices p1.opened ++ pairs p2.vertices p2.opened)).bind fun split =>
          (continenceSplitLoop eps p1 pc (Edge.fromVertexPairs split)).bind fun good =>
            if !good then .ok none
            else if pb = .closed ∧ pc = none then .ok (some (.boundary, .closed))
            else
              match pc with
              | none => .panic
              | some c => .ok (some (c, pb))

/-- The vertex recorded for one pair of segments in `Polyline::intersection_vertices`
(src/elements/polyline.rs:767-791). -/
def intersectionRepr (eps : K) (v1 v2 v3 v4 : Vertex K) : Option (Vertex K) :=
  match intersection eps v1 v2 v3 v4 with
  | none => none
  | some p =>
    if Vertex.eqv eps p v1 then some v1
    else if Vertex.eqv eps p v2 then some v2
    else if Vertex.eqv eps p v3 then some v3
    else if Vertex.eqv eps p v4 then some v4
    else some p

/-- `Polyline::intersection_vertices` (src/elements/polyline.rs:757-797). -/
def intersectionVertices (eps : K) (p1 p2 : Polyline (Vertex K)) : List (Vertex K) :=
  match p1.boundingBox, p2.boundingBox with
  | some b1, some b2 =>
    match BBox.intersection b1 b2 with
    | none => []
    | some _ =>
      toSet ((pairs p1.vertices p1.opened).flatMap fun s =>
        (pairs p2.vertices p2.opened).filterMap fun t => intersectionRepr eps s.1 s.2 t.1 t.2)
  | _, _ => []

/-- The middle vertices of consecutive non-collinear triples (src/elements/polyline.rs:129-137). -/
def nonColinearMiddles (eps : K) : List (Vertex K) → List (Vertex K)
  | a :: b :: c :: rest =>
    if orientation eps a b c ≠ .colinear then b :: nonColinearMiddles eps (b :: c :: rest)
    else nonColinearMiddles eps (b :: c :: rest)
  | _ => []

/-- `Polyline::minified_noncolinear` (src/elements/polyline.rs:117-145); the result is always
closed, also for opened polylines, and the final `unwrap` panics when fewer than three vertices
remain. -/
def minifiedNoncolinear (eps : K) (p : Polyline (Vertex K)) : Res (Polyline (Vertex K)) :=
  match p.vertices.head?, p.vertices.getLast? with
  | some h, some t =>
    let l := if p.opened then p.vertices else t :: p.vertices ++ [h]
    let m := nonColinearMiddles eps l
    let m := if p.opened then h :: m ++ [t] else m
    Res.unwrap (newClosed m)
  | _, _ => .panic

end Polyline

/-- `Edge::as_polyline` (src/elements/edge.rs:344-349). -/
def Edge.asPolyline (e : Edge (Vertex K)) : Option (Polyline (Vertex K)) :=
  if e.v1.isGhost || e.v2.isGhost then none else Polyline.newOpened [e.v1, e.v2]

/-- `Triangle::as_polyline` (src/elements/triangle.rs:174-186). -/
def Tri.asPolyline (t : Tri (Vertex K)) : Option (Polyline (Vertex K)) :=
  if t.isGhost Vertex.isGhost then none else Polyline.newClosed [t.v1, t.v2, t.v3]

end geometry

end Verif
