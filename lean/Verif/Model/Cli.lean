import Verif.Model.Triangulator
import Verif.Model.Boolean

/-!
# The command line front end

`src/triangulator_interface/**`, `src/json_serializar/models/output.rs` and
`src/glium_interface/vertex.rs`. Documents are in `Model/Json.lean`; drawing is not modelled.
-/

namespace Verif

variable {K : Type*} [Field K] [LinearOrder K]

/-- `Result<T, ()>`. -/
inductive Parsed (α : Type*) where
  | ok (a : α)
  | err

/-- `struct Action` (src/json_serializar/models/action.rs:8-38); points without the unused `z`. -/
structure Action (K : Type*) where
  intent : String
  geometry : String
  scalars : List K
  points : List (K × K)
  assemble : List (List Nat)

/-- Real functions used by the circle parser (src/triangulator_interface/interpreter/circle_parser.rs:
14-38): `round() as usize` and the point of index `i` on the circle. -/
structure CircleFns (K : Type*) where
  round : K → Nat
  point : K → K × K → Nat → Nat → Vertex K

/-- `point_to_vertex` (src/triangulator_interface/interpreter/polyline_parser.rs:31-33). -/
def pointToVertex (p : K × K) : Vertex K := Vertex.mk' p.1 p.2

/-- `polyline_parser::parse` (src/triangulator_interface/interpreter/polyline_parser.rs:6-29). -/
def parsePolyline (eps : K) (fuel : Nat) (a : Action K) : Res (Parsed (Polyline (Vertex K))) :=
  let vs := a.points.map pointToVertex
  if vs = [] then .ok .err
  else
    (vertexPairs vs false).bind fun segs =>
      (splitIntersections eps fuel segs).bind fun sp =>
        if sp.length > segs.length then .ok .err
        else (Res.unwrap (Polyline.newClosed vs)).bind fun p => .ok (.ok p)

/-- `circle_parser::parse` (src/triangulator_interface/interpreter/circle_parser.rs:8-29). -/
def parseCircle (F : CircleFns K) (a : Action K) : Res (Parsed (Polyline (Vertex K))) :=
  match a.scalars, a.points with
  | r :: rest, [c] =>
    let n := match rest with
      | value :: _ => F.round value
      | [] => 100
    (Res.unwrap (Polyline.newClosed ((List.range n).map (F.point r c n)))).bind fun p => .ok (.ok p)
  | _, _ => .ok .err

/-- The loop over `assemble` (src/triangulator_interface/interpreter/segments_parser.rs:12-26). -/
def parseAssemble (points : List (K × K)) :
    List (List Nat) → List (Edge (Vertex K)) → Res (Parsed (List (Edge (Vertex K))))
  | [], acc => .ok (.ok acc)
  | (i :: j :: _) :: rest, acc =>
    match points[i]?, points[j]? with
    | some p, some q => parseAssemble points rest (setInsert ⟨pointToVertex p, pointToVertex q⟩ acc)
    | _, _ => .panic
  | _ :: _, _ => .ok .err

/-- The loop over pairs of points (src/triangulator_interface/interpreter/segments_parser.rs:35-46). -/
def parsePairs : List (K × K) → List (Edge (Vertex K)) → Res (Parsed (List (Edge (Vertex K))))
  | [], acc => .ok (.ok acc)
  | p :: q :: rest, acc => parsePairs rest (setInsert ⟨pointToVertex p, pointToVertex q⟩ acc)
  | [_], _ => .panic

/-- `segments_parser::parse` (src/triangulator_interface/interpreter/segments_parser.rs:7-48). -/
def parseSegments (a : Action K) : Res (Parsed (List (Edge (Vertex K)))) :=
  if a.assemble ≠ [] then parseAssemble a.points a.assemble []
  else if a.points.length % 2 ≠ 0 then .ok .err
  else parsePairs a.points []

/-- `vertices_parser::parse` (src/triangulator_interface/interpreter/vertices_parser.rs:7-16). -/
def parseVertices (a : Action K) : List (Vertex K) := toSet (a.points.map pointToVertex)

/-- The accumulators of `interpreter::parse` (src/triangulator_interface/interpreter/mod.rs:29-32). -/
structure Domains (K : Type*) where
  includes : List (Polyline (Vertex K))
  removes : List (Polyline (Vertex K))
  segments : List (Edge (Vertex K))
  vertices : List (Vertex K)

/-- Dispatch of a parsed polyline on the intent (src/triangulator_interface/interpreter/mod.rs:38-46). -/
def addDomain (intent : String) (p : Polyline (Vertex K)) (d : Domains K) : Parsed (Domains K) :=
  if intent = "include" then .ok { d with includes := d.includes ++ [p] }
  else if intent = "remove" then .ok { d with removes := d.removes ++ [p] }
  else .err

/-- One iteration of `interpreter::parse` (src/triangulator_interface/interpreter/mod.rs:34-96). -/
def parseAction (eps : K) (fuel : Nat) (F : CircleFns K) (a : Action K) (d : Domains K) :
    Res (Parsed (Domains K)) :=
  if a.geometry = "polyline" then
    (parsePolyline eps fuel a).bind fun r =>
      match r with
      | .ok p => .ok (addDomain a.intent p d)
      | .err => .ok .err
  else if a.geometry = "circle" then
    (parseCircle F a).bind fun r =>
      match r with
      | .ok p => .ok (addDomain a.intent p d)
      | .err => .ok .err
  else if a.geometry = "segments" then
    (parseSegments a).bind fun r =>
      match r with
      | .ok s =>
        if a.intent = "constraint" then .ok (.ok { d with segments := setUnion d.segments s })
        else .ok .err
      | .err => .ok .err
  else if a.geometry = "vertices" then
    if a.intent = "constraint" then
      .ok (.ok { d with vertices := setUnion d.vertices (parseVertices a) })
    else .ok .err
  else .ok .err

/-- `interpreter::parse` (src/triangulator_interface/interpreter/mod.rs:17-107), without the refinement
parameters, which are copied. -/
def parseActions (eps : K) (fuel : Nat) (F : CircleFns K) :
    List (Action K) → Domains K → Res (Parsed (Domains K))
  | [], d => .ok (.ok d)
  | a :: rest, d =>
    (parseAction eps fuel F a d).bind fun r =>
      match r with
      | .ok d' => parseActions eps fuel F rest d'
      | .err => .ok .err

section domain

/-- Polyline operations used by the domain evaluator: `Polyline::union`, `Polyline::subtraction` and the test
`Polyline::continence(a, b) == Some((Inside, Open))`. The schedulers are for the hash sets iterated inside. -/
structure DomainOps (P : Type*) where
  union : Sched → P → P → Res (Option P)
  subtraction : Sched → P → P → Res (List P)
  strictlyInside : P → P → Res Bool

variable {P : Type*} [DecidableEq P]

/-- The inner loop of the union pass: absorb the first include that unites
(src/triangulator_interface/domain_evaluator.rs:30-36). -/
def absorbOne (O : DomainOps P) : Sched → P → List P → Res (Option (P × P))
  | _, _, [] => .ok none
  | σ, b, p :: rest =>
    (O.union (σ.sub 0) b p).bind fun r =>
      match r with
      | some u => .ok (some (u, p))
      | none => absorbOne O (σ.sub 1) b rest

/-- The union passes of `domain_evaluator::boundary` (src/triangulator_interface/domain_evaluator.rs:
29-37). -/
def absorbPasses (O : DomainOps P) : Nat → Sched → P → List P → Res (P × List P)
  | 0, _, b, l => .ok (b, l)
  | n + 1, σ, b, l =>
    (absorbOne O (σ.sub 2) b (shuffle (σ.sub 0) l)).bind fun r =>
      match r with
      | some (u, p) => absorbPasses O n (σ.sub 1) u (setErase p l)
      | none => absorbPasses O n (σ.sub 1) b l

/-- The loop over the removals (src/triangulator_interface/domain_evaluator.rs:43-57). -/
def subtractAll (O : DomainOps P) : Sched → List P → P → List P → Res (Parsed (P × List P))
  | _, [], b, unused => .ok (.ok (b, unused))
  | σ, r :: rest, b, unused =>
    (O.subtraction (σ.sub 0) b r).bind fun l =>
      match l with
      | [] => subtractAll O (σ.sub 1) rest b (unused ++ [r])
      | [s] => subtractAll O (σ.sub 1) rest s unused
      | _ :: _ :: _ => .ok .err

/-- `domain_evaluator::boundary` (src/triangulator_interface/domain_evaluator.rs:15-58). -/
def evalBoundary (O : DomainOps P) (σ : Sched) (includes removes : List P) :
    Res (Parsed (P × List P)) :=
  let l := toSet includes
  match choose (σ.sub 0) l with
  | none => .ok .err
  | some b =>
    let rest := setErase b l
    (absorbPasses O rest.length (σ.sub 1) b rest).bind fun r =>
      if r.2 ≠ [] then .ok .err else subtractAll O (σ.sub 2) removes r.1 []

/-- The loop over the existing holes (src/triangulator_interface/domain_evaluator.rs:83-89): the first hole that
unites, with the union. -/
def uniteHole (O : DomainOps P) : Sched → P → List P → Res (Option (P × P))
  | _, _, [] => .ok none
  | σ, r, h :: rest =>
    (O.union (σ.sub 0) h r).bind fun u =>
      match u with
      | some u => .ok (some (h, u))
      | none => uniteHole O (σ.sub 1) r rest

/-- The loop of `domain_evaluator::holes` (src/triangulator_interface/domain_evaluator.rs:74-92); the
vector `removes` is a stack (head = top). The popped removal is inserted even when it was united with
an existing hole. -/
def holesLoop (O : DomainOps P) (boundary : P) : Nat → Sched → List P → List P → Res (List P)
  | _, _, [], holes => .ok holes
  | 0, _, _ :: _, _ => .diverged
  | n + 1, σ, r :: rest, holes =>
    (O.strictlyInside boundary r).bind fun c =>
      if !c then holesLoop O boundary n (σ.sub 1) rest holes
      else
        (uniteHole O (σ.sub 2) r (shuffle (σ.sub 0) holes)).bind fun q =>
          match q with
          | some (h, u) => holesLoop O boundary n (σ.sub 1) (u :: rest) (setInsert r (setErase h holes))
          | none => holesLoop O boundary n (σ.sub 1) rest (setInsert r holes)

/-- `domain_evaluator::holes` (src/triangulator_interface/domain_evaluator.rs:64-95). -/
def evalHoles (O : DomainOps P) (fuel : Nat) (σ : Sched) (boundary : P) (removes : List P) :
    Res (List P) :=
  holesLoop O boundary fuel σ removes.reverse []

end domain

section pipeline

/-- The operations of the domain evaluator on polylines; the unused segments of `union` and `subtraction` are dropped
(src/triangulator_interface/domain_evaluator.rs:31, 44, 76 and 84). -/
def polylineOps (eps : K) (fuel : Nat) : DomainOps (Polyline (Vertex K)) where
  union σ a b := (Polyline.union eps fuel σ a b).bind fun r => .ok (r.map (·.1))
  subtraction σ a b := (Polyline.subtraction eps fuel σ a b).bind fun r => .ok r.1
  strictlyInside a b := (Polyline.continence eps fuel a b).bind fun c => .ok (decide (c = some (.inside, .opened)))

/-- `TriangulationInput` (src/json_serializar/models/input.rs:12-24): actions and parameters; identifier, name and date
are copied to the output. -/
structure Input (K : Type*) where
  actions : List (Action K)
  params : RefineParams K

/-- The loop over the holes (src/triangulator_interface/mod.rs:42-47). -/
def insertHoles (eps : K) (fuel : Nat) : List (Polyline (Vertex K)) → Triangulator K →
    Res (Parsed (Triangulator K))
  | [], T => .ok (.ok T)
  | h :: hs, T =>
    (T.insertHole eps fuel h).bind fun r =>
      match r with
      | .ok T' => insertHoles eps fuel hs T'
      | .err _ _ => .ok .err

/-- The second half of `triangulator_interface::parse` (src/triangulator_interface/mod.rs:29-60). -/
def buildTriangulator (eps : K) (fuel : Nat) (σ : Sched) (d : Domains K) : Res (Parsed (Triangulator K)) :=
  (evalBoundary (polylineOps eps fuel) (σ.sub 0) d.includes d.removes).bind fun r =>
    match r with
    | .err => .ok .err
    | .ok (b, unused) =>
      (evalHoles (polylineOps eps fuel) fuel (σ.sub 1) b unused).bind fun holes =>
        (insertHoles eps fuel (shuffle (σ.sub 2) holes) (Triangulator.new b)).bind fun r =>
          match r with
          | .err => .ok .err
          | .ok T1 =>
            (T1.insertSegments eps fuel (σ.sub 3) d.segments).bind fun r =>
              match r with
              | .err _ _ => .ok .err
              | .ok T2 =>
                match T2.insertVertices eps (σ.sub 4) d.vertices with
                | .err _ _ => .ok .err
                | .ok T3 => .ok (.ok T3)

/-- `triangulator_interface::parse` (src/triangulator_interface/mod.rs:14-60) with `refine_params_parser::parse`
(src/triangulator_interface/interpreter/refine_params_parser.rs:5-10), which copies the parameters. -/
def parseInput (eps : K) (fuel : Nat) (F : CircleFns K) (σ : Sched) (i : Input K) :
    Res (Parsed (Triangulator K × RefineParams K)) :=
  (parseActions eps fuel F i.actions ⟨[], [], [], []⟩).bind fun r =>
    match r with
    | .err => .ok .err
    | .ok d =>
      (buildTriangulator eps fuel σ d).bind fun r =>
        match r with
        | .err => .ok .err
        | .ok T => .ok (.ok (T, i.params))

end pipeline

section output

variable {V : Type*} [DecidableEq V]

/-- `TriangulationOutput` (src/json_serializar/models/output.rs:16-32), coordinates and triangles only. -/
structure Output (V : Type*) where
  coordinates : List V
  triangles : List (Nat × Nat × Nat)

/-- `vertices_map.get(v)`: the index of `v` in `vertices_vec`
(src/json_serializar/models/output.rs:65-68; the vector has no repetitions). -/
def indexOf? (vec : List V) (v : V) : Option Nat := vec.findIdx? fun w => decide (w = v)

/-- The closure mapping a triangle to its indices (src/json_serializar/models/output.rs:84-89). -/
def triIndices (vec : List V) (t : Tri V) : Option (Nat × Nat × Nat) :=
  match indexOf? vec t.v1, indexOf? vec t.v2, indexOf? vec t.v3 with
  | some a, some b, some c => some (a, b, c)
  | _, _, _ => none

/-- `Option::unwrap` over a list. -/
def unwrapAll {α : Type*} : List (Option α) → Res (List α)
  | [] => .ok []
  | none :: _ => .panic
  | some a :: rest => (unwrapAll rest).bind fun l => .ok (a :: l)

/-- `TriangulationOutput::from_triangulator` (src/json_serializar/models/output.rs:54-93): the coordinates
are listed in the iteration order of the map's keys (`σ.sub 1`), the indices refer to the iteration order
of the vertex set (`σ.sub 0`). -/
def fromTriangulator (ghost : V → Bool) (σ : Sched) (m : Mesh V) : Res (Output V) :=
  let vec := shuffle (σ.sub 0) (m.vertices ghost)
  let keys := shuffle (σ.sub 1) vec
  (unwrapAll (((shuffle (σ.sub 2) m.tris).filter fun t => !t.isGhost ghost).map
    (triIndices vec))).bind fun ts => .ok ⟨keys, ts⟩

/-- The `while` loop of `edges_from_triangulation` (src/glium_interface/vertex.rs:56-61). -/
def cleanEdges : List (Edge V) → List (Edge V) → List (Edge V)
  | [], acc => acc
  | e :: rest, acc =>
    if !decide (e ∈ acc) && !decide (e.opposite ∈ acc) then cleanEdges rest (setInsert e acc)
    else cleanEdges rest acc

/-- The edges drawn by `edges_from_triangulation` (src/glium_interface/vertex.rs:43-70), before the
conversion to `f32` coordinates. -/
def drawnEdges (ghost : V → Bool) (σ : Sched) (m : Mesh V) : List (Edge V) :=
  cleanEdges (((shuffle σ m.tris).filter fun t => !t.isGhost ghost).flatMap Tri.innerEdges).reverse []

end output

section program

/-- `main` (src/main.rs:27-80) after the input file has been decoded and until the output is encoded. -/
def runProgram (eps : K) (fuel : Nat) (F : CircleFns K) (dist : Vertex K → Vertex K → K) (σ : Sched) (i : Input K) :
    Res (Output (Vertex K)) :=
  (parseInput eps fuel F (σ.sub 0) i).bind fun r =>
    match r with
    | .err => .panic
    | .ok (T, p) =>
      (T.triangulate eps fuel (σ.sub 1)).bind fun T1 =>
        (T1.refine eps fuel dist p (σ.sub 2)).bind fun T2 =>
          fromTriangulator Vertex.isGhost (σ.sub 3) T2.mesh

end program


end Verif
