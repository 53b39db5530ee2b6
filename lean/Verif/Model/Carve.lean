import Verif.Model.Vertices

/-!
# `src/planar/triangulation_procedures/{boundary,hole,segment}.rs`
-/

namespace Verif

section carve

variable {V : Type*} [DecidableEq V]

/-- The edges pushed after removing a triangle, skipping those of `S`
(src/planar/triangulation_procedures/boundary.rs:62-71 and hole.rs:79-88); head = top of the stack. -/
def carvePushes (S : List (Edge V)) (t : Tri V) : List (Edge V) :=
  ((t.innerEdges.filter fun e => !decide (e ∈ S)).map Edge.opposite).reverse

/-- The first loop of the boundary procedure (src/planar/triangulation_procedures/boundary.rs:54-73):
remove the triangle behind each edge of the list. `S` is `boundary_segments` as a set. -/
def boundaryFirst (S : List (Edge V)) : List (Edge V) → Mesh V → List (Edge V) →
    Mesh V × List (Edge V)
  | [], m, pending => (m, pending)
  | e :: es, m, pending =>
    match m.adj e with
    | some t => boundaryFirst S es (m.del t) (carvePushes S t ++ pending)
    | none => boundaryFirst S es m pending

/-- The flood fill of the boundary procedure (src/planar/triangulation_procedures/boundary.rs:76-94);
with `S = []` this is the flood fill of the hole procedure (hole.rs:99-110). -/
def flood (S : List (Edge V)) : Nat → List (Edge V) → Mesh V → Res (Mesh V)
  | _, [], m => .ok m
  | 0, _ :: _, _ => .diverged
  | n + 1, e :: pending, m =>
    match m.adj e with
    | some t => flood S n (carvePushes S t ++ pending) (m.del t)
    | none => flood S n pending m

/-- The last loop of the boundary procedure (src/planar/triangulation_procedures/boundary.rs:96-103). -/
def addGhosts (g : V) (es : List (Edge V)) (m : Mesh V) : Mesh V :=
  es.foldl (fun m e => m.add ⟨e.v1, e.v2, g⟩) m

/-- The carving part of the boundary procedure (src/planar/triangulation_procedures/boundary.rs:50-103).
`order` is the iteration order of `boundary_segments`. -/
def carveBoundary (g : V) (fuel : Nat) (order : List (Edge V)) (m : Mesh V) : Res (Mesh V) :=
  let r := boundaryFirst order order m []
  (flood order fuel r.2 r.1).bind fun m' => .ok (addGhosts g order m')

/-- `boundary_segments` (src/planar/triangulation_procedures/boundary.rs:19-23). -/
def reversedEdges (b : Polyline V) : List (Edge V) := toSet (b.intoEdges.map Edge.opposite)

/-- `boundary::include` (src/planar/triangulation_procedures/boundary.rs:14-104). `P` holds the predicates
without boundary and holes. -/
def includeBoundary (P : Preds V) (g : V) (C : List (Edge V)) (fuel : Nat) (σ : Sched) (m : Mesh V)
    (b : Polyline V) : Res (Mesh V) :=
  (includeVertices P C fuel (σ.sub 0) m b.vertices).bind fun s =>
    carveBoundary g fuel (shuffle (σ.sub 1) (reversedEdges b)) s.mesh

/-- The loop over the hole edges (src/planar/triangulation_procedures/hole.rs:71-96): remove the
triangle on the hole side, then include the ghost triangle. -/
def holeFirst (g : V) (S : List (Edge V)) : List (Edge V) → Mesh V → List (Edge V) →
    Mesh V × List (Edge V)
  | [], m, pending => (m, pending)
  | e :: es, m, pending =>
    match m.adj e with
    | some t => holeFirst g S es ((m.del t).add ⟨e.v1, e.v2, g⟩) (carvePushes S t ++ pending)
    | none => holeFirst g S es (m.add ⟨e.v1, e.v2, g⟩) pending

/-- The carving part of the hole procedure (src/planar/triangulation_procedures/hole.rs:67-110). -/
def carveHole (g : V) (fuel : Nat) (order : List (Edge V)) (m : Mesh V) : Res (Mesh V) :=
  let r := holeFirst g order order m []
  flood [] fuel r.2 r.1

/-- `Iterator::filter` with a predicate that may panic or loop. -/
def filterRes {α : Type*} (p : α → Res Bool) : List α → Res (List α)
  | [] => .ok []
  | a :: l => (p a).bind fun b => (filterRes p l).bind fun r => .ok (if b then a :: r else r)

end carve

section segment

variable {K : Type*} [Field K] [LinearOrder K]

/-- The first filter of `segment::include` (src/planar/triangulation_procedures/segment.rs:26-37). -/
def segmentTouches (eps : K) (fuel : Nat) (s : Edge (Vertex K)) (t : Tri (Vertex K)) : Res Bool :=
  match t.asPolyline, s.asPolyline with
  | some p, some q =>
    (Polyline.continence eps fuel p q).bind fun c =>
      .ok (decide (t.encircles eps s.v1 ≠ .outside) || decide (t.encircles eps s.v2 ≠ .outside)
        || decide (c ≠ some (.outside, .opened)))
  | _, _ => .panic

/-- The second filter of `segment::include` (src/planar/triangulation_procedures/segment.rs:38-58):
some constrained side of the triangle separates it from an end of the segment. -/
def segmentBlocked (eps : K) (C : List (Edge (Vertex K))) (s : Edge (Vertex K))
    (t : Tri (Vertex K)) : Bool :=
  (t.outerEdges.filter fun e => decide (e ∈ C) || decide (e.opposite ∈ C)).any fun e =>
    decide (orientation eps e.v1 e.v2 s.v1 = .counterclockwise)
      || decide (orientation eps e.v1 e.v2 s.v2 = .counterclockwise)

/-- The set `conflicting_triangles` of `segment::include`
(src/planar/triangulation_procedures/segment.rs:22-60). -/
def segmentConflicts (eps : K) (fuel : Nat) (C : List (Edge (Vertex K))) (s : Edge (Vertex K))
    (m : Mesh (Vertex K)) : Res (List (Tri (Vertex K))) :=
  (filterRes (segmentTouches eps fuel s)
    (m.tris.filter fun t => !t.isGhost Vertex.isGhost)).bind fun l =>
      .ok (l.filter fun t => !segmentBlocked eps C s t)

/-- `segment::include` (src/planar/triangulation_procedures/segment.rs:17-126). -/
def includeSegment (eps : K) (fuel : Nat) (σ : Sched) (C : List (Edge (Vertex K)))
    (m : Mesh (Vertex K)) (s : Edge (Vertex K)) : Res (Mesh (Vertex K)) :=
  (segmentConflicts eps fuel C s m).bind fun conf =>
    (Polyline.trianglesHull (Vertex.eqv eps) (σ.sub 0) fuel conf).bind fun hull? =>
      (Res.unwrap hull?).bind fun hull =>
        let vs := shuffle (σ.sub 1) (toSet (conf.flatMap Tri.corners))
        (includeBoundary (geoPreds eps fuel none []) Vertex.ghost [s] fuel (σ.sub 2)
          (Mesh.fromInitialSegment Vertex.ghost s.v1 s.v2) hull).bind fun m1 =>
          (includeVertices (geoPreds eps fuel (some hull) []) [s] fuel (σ.sub 3) m1 vs).bind
            fun st =>
              .ok ((st.mesh.tris.filter fun t => !t.isGhost Vertex.isGhost).foldl Mesh.add
                (conf.foldl Mesh.del m))

/-- The loop inserting missing hole segments (src/planar/triangulation_procedures/hole.rs:51-66).
`order` is the iteration order of `hole_segments`. -/
def holeSegmentsLoop (eps : K) (C : List (Edge (Vertex K))) (order : List (Edge (Vertex K)))
    (fuel : Nat) : Nat → Sched → Mesh (Vertex K) → Res (Mesh (Vertex K))
  | n, σ, m =>
    match order.find? fun e => !decide (e ∈ m.edges) with
    | none => .ok m
    | some e =>
      match n with
      | 0 => .diverged
      | n + 1 =>
        (includeSegment eps fuel (σ.sub 0) C m e).bind fun m' =>
          holeSegmentsLoop eps C order fuel n (σ.sub 1) m'

/-- `hole::include` (src/planar/triangulation_procedures/hole.rs:11-111). -/
def includeHole (eps : K) (fuel : Nat) (σ : Sched) (C : List (Edge (Vertex K)))
    (m : Mesh (Vertex K)) (h : Polyline (Vertex K)) : Res (Mesh (Vertex K)) :=
  let order := shuffle (σ.sub 0) (toSet h.intoEdges)
  (includeVertices (geoPreds eps fuel none []) C fuel (σ.sub 1) m h.vertices).bind fun st =>
    (holeSegmentsLoop eps (setUnion C order) order fuel fuel (σ.sub 2) st.mesh).bind fun m1 =>
      carveHole Vertex.ghost fuel order m1

end segment

end Verif
