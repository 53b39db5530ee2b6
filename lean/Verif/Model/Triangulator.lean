import Verif.Model.Refine

/-!
# `src/planar/triangulator.rs`
-/

namespace Verif

variable {K : Type*} [Field K] [LinearOrder K]

/-- `struct Triangulator` (src/planar/triangulator.rs:11-17). -/
structure Triangulator (K : Type*) where
  mesh : Mesh (Vertex K)
  boundary : Polyline (Vertex K)
  holes : List (Polyline (Vertex K))
  vertices : List (Vertex K)
  segments : List (Edge (Vertex K))

/-- `Result<&Self, HashSet<T>>` together with the triangulator after the call (the methods take
`&mut self`). -/
inductive InsertRes (K : Type*) (α : Type*) where
  | ok (t : Triangulator K)
  | err (t : Triangulator K) (conflicts : List α)

namespace Triangulator

/-- `Triangulator::new` (src/planar/triangulator.rs:20-28). -/
def new (b : Polyline (Vertex K)) : Triangulator K := ⟨Mesh.empty, b, [], [], []⟩

/-- The test of `insert_vertices` (src/planar/triangulator.rs:48-60). -/
def vertexRejected (eps : K) (T : Triangulator K) (v : Vertex K) : Bool :=
  decide (T.boundary.contains eps v ≠ some .inside)
    || T.holes.any fun h => decide (h.contains eps v ≠ some .outside)

/-- What happens to one accepted vertex (src/planar/triangulator.rs:69-93): it is ignored, it splits a
segment, or it is stored. -/
inductive Placement (K : Type*) where
  | store
  | ignore
  | split (s : Edge (Vertex K))

/-- The loop over the segments in `insert_vertices` (src/planar/triangulator.rs:70-92). -/
def placeVertex (eps : K) (v : Vertex K) : List (Edge (Vertex K)) → Placement K
  | [] => .store
  | s :: rest =>
    if Vertex.eqv eps s.v1 v || Vertex.eqv eps s.v2 v then .ignore
    else if s.contains eps v then .split s
    else placeVertex eps v rest

/-- The insertion loop of `insert_vertices` (src/planar/triangulator.rs:68-96). -/
def insertVerticesLoop (eps : K) : Sched → List (Vertex K) → Triangulator K → Triangulator K
  | _, [], T => T
  | σ, v :: vs, T =>
    let T' := match placeVertex eps v (shuffle (σ.sub 0) T.segments) with
      | .store => { T with vertices := setInsert v T.vertices }
      | .ignore => T
      | .split s =>
        { T with segments := setInsert ⟨v, s.v2⟩ (setInsert ⟨s.v1, v⟩ (setErase s T.segments)) }
    insertVerticesLoop eps (σ.sub 1) vs T'

/-- `Triangulator::insert_vertices` (src/planar/triangulator.rs:37-99). -/
def insertVertices (eps : K) (σ : Sched) (T : Triangulator K) (vs : List (Vertex K)) :
    InsertRes K (Vertex K) :=
  let bad := vs.filter (vertexRejected eps T)
  if bad ≠ [] then .err T bad
  else .ok (insertVerticesLoop eps (σ.sub 1) (shuffle (σ.sub 0) vs) T)

/-- The test of `insert_segments` on one segment (src/planar/triangulator.rs:117-135). -/
def segmentRejected (eps : K) (fuel : Nat) (T : Triangulator K) (s : Edge (Vertex K)) : Res Bool :=
  let p : Polyline (Vertex K) := ⟨[s.v1, s.v2], true, by simp⟩
  (Polyline.continence eps fuel T.boundary p).bind fun c =>
    if c ≠ some (.inside, .opened) then .ok true
    else
      (filterRes (fun h => (Polyline.continence eps fuel h p).bind fun c =>
        .ok (decide (c ≠ some (.outside, .opened)))) T.holes).bind fun l => .ok (!l.isEmpty)

/-- The inner loop over the stored vertices (src/planar/triangulator.rs:149-168): the remaining stored
vertices, and the vertex at which the segment is split, if any. -/
def scanVertices (eps : K) (s : Edge (Vertex K)) :
    List (Vertex K) → List (Vertex K) → List (Vertex K) × Option (Vertex K)
  | [], stored => (stored, none)
  | v :: rest, stored =>
    let stored' := if Vertex.eqv eps s.v1 v || Vertex.eqv eps s.v2 v then setErase v stored else stored
    if s.contains eps v then (setErase v stored', some v)
    else scanVertices eps s rest stored'

/-- The loop `while !aux_list.is_empty()` (src/planar/triangulator.rs:145-172); head = top of the
stack. The result is the remaining stored vertices and `segments_to_insert`. -/
def absorbLoop (eps : K) : Nat → Sched → List (Edge (Vertex K)) → List (Vertex K) →
    List (Edge (Vertex K)) → Res (List (Vertex K) × List (Edge (Vertex K)))
  | _, _, [], stored, acc => .ok (stored, acc)
  | 0, _, _ :: _, _, _ => .diverged
  | n + 1, σ, s :: aux, stored, acc =>
    let r := scanVertices eps s (shuffle (σ.sub 0) stored) stored
    match r.2 with
    | some v => absorbLoop eps n (σ.sub 1) (⟨v, s.v2⟩ :: ⟨s.v1, v⟩ :: aux) r.1 acc
    | none => absorbLoop eps n (σ.sub 1) aux r.1 (setInsert s acc)

/-- `Triangulator::insert_segments` (src/planar/triangulator.rs:107-194). -/
def insertSegments (eps : K) (fuel : Nat) (σ : Sched) (T : Triangulator K)
    (segs : List (Edge (Vertex K))) : Res (InsertRes K (Edge (Vertex K))) :=
  if segs = [] then .ok (.ok T)
  else
    (filterRes (segmentRejected eps fuel T) segs).bind fun bad =>
      if bad ≠ [] then .ok (.err T bad)
      else
        (absorbLoop eps fuel (σ.sub 0) (shuffle (σ.sub 1) segs) T.vertices []).bind fun r =>
          (splitIntersections eps fuel
            (Edge.intoVertexPairs (shuffle (σ.sub 2) r.2)
              ++ Edge.intoVertexPairs (shuffle (σ.sub 3) T.segments))).bind fun sp =>
            .ok (.ok { T with vertices := r.1, segments := toSet (Edge.fromVertexPairs sp) })

/-- The vertices accumulated by the first part of `insert_hole` (src/planar/triangulator.rs:205-227). -/
def holeConflicts (eps : K) (fuel : Nat) (T : Triangulator K) (h : Polyline (Vertex K)) :
    Res (List (Vertex K)) :=
  (Polyline.continence eps fuel T.boundary h).bind fun c =>
    (filterRes (fun e => (Polyline.continence eps fuel e h).bind fun c =>
      .ok (decide (c ≠ some (.outside, .opened)))) T.holes).bind fun l =>
        .ok (toSet ((if c = some (.inside, .opened) then [] else T.boundary.vertices)
          ++ l.flatMap Polyline.vertices))

/-- `Triangulator::insert_hole` (src/planar/triangulator.rs:202-250). -/
def insertHole (eps : K) (fuel : Nat) (T : Triangulator K) (h : Polyline (Vertex K)) :
    Res (InsertRes K (Vertex K)) :=
  (holeConflicts eps fuel T h).bind fun bad =>
    if bad ≠ [] then .ok (.err T bad)
    else
      (filterRes (fun s : Edge (Vertex K) =>
        (Polyline.continence eps fuel h ⟨[s.v1, s.v2], true, by simp⟩).bind fun c =>
          .ok (decide (c ≠ some (.outside, .opened)))) T.segments).bind fun l =>
        let bad := toSet (l.flatMap fun s => [s.v1, s.v2])
        if bad ≠ [] then .ok (.err T bad)
        else .ok (.ok { T with holes := setInsert h T.holes })

/-- The constraint update of `refine` (src/planar/triangulator.rs:273-284). -/
def updateConstraints (C : List (Edge (Vertex K))) (split : List (Edge (Vertex K) × Edge (Vertex K))) :
    List (Edge (Vertex K)) :=
  let gone := split.map (·.2)
  toSet ((C.filter fun s => !decide (s ∈ gone) && !decide (s.opposite ∈ gone)) ++ split.map (·.1))

/-- The first constraint set of `refine` (src/planar/triangulator.rs:257-264). -/
def constraints (T : Triangulator K) : List (Edge (Vertex K)) :=
  toSet (T.holes.flatMap Polyline.intoEdges ++ T.boundary.intoEdges ++ T.segments)

/-- `Triangulator::refine` (src/planar/triangulator.rs:256-309). -/
def refine (eps : K) (fuel : Nat) (dist : Vertex K → Vertex K → K) (p : RefineParams K) (σ : Sched)
    (T : Triangulator K) : Res (Triangulator K) :=
  let P := geoRPreds eps fuel dist p (some T.boundary) T.holes
  (unencroach P fuel (σ.sub 0) T.constraints T.mesh).bind fun r =>
    (splitIrregular P fuel (σ.sub 1) (updateConstraints T.constraints r.2) r.1).bind fun s =>
      .ok { T with mesh := s.mesh }

/-- Step 2 of `triangulate` (src/planar/triangulator.rs:332-341): mesh and constraints. -/
def includeHoles (eps : K) (fuel : Nat) : Sched → List (Polyline (Vertex K)) →
    Mesh (Vertex K) → List (Edge (Vertex K)) → Res (Mesh (Vertex K) × List (Edge (Vertex K)))
  | _, [], m, C => .ok (m, C)
  | σ, h :: hs, m, C =>
    (includeHole eps fuel (σ.sub 0) C m h).bind fun m' =>
      includeHoles eps fuel (σ.sub 1) hs m' (setUnion C h.intoEdges)

/-- Step 3 of `triangulate` (src/planar/triangulator.rs:344-351). -/
def includeSegments (eps : K) (fuel : Nat) : Sched → List (Edge (Vertex K)) →
    Mesh (Vertex K) → List (Edge (Vertex K)) → Res (Mesh (Vertex K) × List (Edge (Vertex K)))
  | _, [], m, C => .ok (m, C)
  | σ, s :: ss, m, C =>
    (includeSegment eps fuel (σ.sub 0) C m s).bind fun m' =>
      includeSegments eps fuel (σ.sub 1) ss m' (setInsert s C)

/-- `Triangulator::triangulate` (src/planar/triangulator.rs:314-364). -/
def triangulate (eps : K) (fuel : Nat) (σ : Sched) (T : Triangulator K) : Res (Triangulator K) :=
  match T.boundary.vertices with
  | v1 :: v2 :: _ =>
    (includeBoundary (geoPreds eps fuel none []) Vertex.ghost [] fuel (σ.sub 0)
      (Mesh.fromInitialSegment Vertex.ghost v1 v2) T.boundary).bind fun m0 =>
      let holes := shuffle (σ.sub 1) T.holes
      (includeHoles eps fuel (σ.sub 2) holes m0 (toSet T.boundary.intoEdges)).bind fun r1 =>
        (includeSegments eps fuel (σ.sub 3) (shuffle (σ.sub 4) T.segments) r1.1 r1.2).bind fun r2 =>
          (includeVertices (geoPreds eps fuel (some T.boundary) holes) r2.2 fuel (σ.sub 5) r2.1
            (shuffle (σ.sub 6) T.vertices)).bind fun st => .ok { T with mesh := st.mesh }
  | _ => .panic

end Triangulator

end Verif
