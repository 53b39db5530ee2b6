import Verif.Model.Mesh

/-!
# `src/planar/triangulation_procedures/vertices.rs`

The incremental insertion is modelled over an arbitrary type of vertices `V` and an arbitrary table of
predicate answers `Preds V`; `geoPreds` is the table computed by the code. Theorems about all tables hold
whatever the rounding of the floating point predicates.
-/

namespace Verif

/-- The geometric questions asked by the insertion procedures. -/
structure Preds (V : Type*) where
  /-- `vertex.is_ghost` -/
  ghost : V → Bool
  /-- `==` on vertices (src/elements/vertex.rs:34-44) -/
  veq : V → V → Bool
  /-- `triangle.encircles(vertex) == Continence::Inside` (src/elements/triangle.rs:58-76) -/
  inside : Tri V → V → Bool
  /-- `Edge::contains` (src/elements/edge.rs:123-136) -/
  onEdge : Edge V → V → Bool
  /-- `may_insert_triangle` (src/planar/triangulation_procedures/vertices.rs:267-306) -/
  mayInsert : Tri V → V → Res Bool

/-- `conflict_map: HashMap<Rc<Triangle>, Vec<Rc<Vertex>>>`. The vectors are in order. -/
abbrev CMap (V : Type*) := List (Tri V × List V)

namespace CMap

variable {V : Type*} [DecidableEq V]

/-- `conflict_map.get(t)` -/
def get (c : CMap V) (t : Tri V) : Option (List V) := (c.find? fun p => decide (p.1 = t)).map (·.2)

/-- `conflict_map.remove(t)` (the map part). -/
def erase (c : CMap V) (t : Tri V) : CMap V := c.filter fun p => !decide (p.1 = t)

/-- The end of `distribute_conflicts` (src/planar/triangulation_procedures/vertices.rs:216-225): append
to an existing entry or create it. -/
def append (c : CMap V) (t : Tri V) (vs : List V) : CMap V :=
  if vs = [] then c
  else
    match c.get t with
    | some old => (t, old ++ vs) :: c.erase t
    | none => (t, vs) :: c

end CMap

section insertion

variable {V : Type*} [DecidableEq V]

/-- The loop of `distribute_conflicts` (src/planar/triangulation_procedures/vertices.rs:204-215): the
conflicting vertices and the others, both in order. -/
def splitConflicts (P : Preds V) (t : Tri V) : List V → Res (List V × List V)
  | [] => .ok ([], [])
  | v :: rest =>
    (P.mayInsert t v).bind fun may =>
      (splitConflicts P t rest).bind fun r =>
        if P.inside t v && may then .ok (v :: r.1, r.2) else .ok (r.1, v :: r.2)

/-- `distribute_conflicts` (src/planar/triangulation_procedures/vertices.rs:195-226). -/
def distribute (P : Preds V) (t : Tri V) (c : CMap V) (vs : List V) : Res (CMap V × List V) :=
  (splitConflicts P t vs).bind fun r => .ok (c.append t r.1, r.2)

/-- The mutable state of `solve_conflicts` (src/planar/triangulation_procedures/vertices.rs:54-64). -/
structure SolveState (V : Type*) where
  mesh : Mesh V
  cmap : CMap V
  remaining : List V
  included : List (Tri V)
  removed : List (Tri V)

/-- The test on the outer triangle (src/planar/triangulation_procedures/vertices.rs:113-125). -/
def conflicting (P : Preds V) (t : Tri V) (v : V) : Bool :=
  P.inside t v || (t.isGhost P.ghost && P.onEdge ⟨t.v1, t.v2⟩ v)

/-- The new triangle over a cavity edge (src/planar/triangulation_procedures/vertices.rs:164-171). -/
def newTri (ghost : V → Bool) (e : Edge V) (v : V) : Tri V :=
  if ghost e.v1 then ⟨e.v2, v, e.v1⟩
  else if ghost e.v2 then ⟨v, e.v1, e.v2⟩
  else ⟨e.v1, e.v2, v⟩

/-- The edges pushed when the outer triangle `t`, entered through `f`, joins the cavity
(src/planar/triangulation_procedures/vertices.rs:150-160); head of the list = top of the stack. -/
def cavityPushes (veq : V → V → Bool) (t : Tri V) (f : Edge V) : List (Edge V) :=
  if Edge.eqv veq f ⟨t.v1, t.v2⟩ then [⟨t.v3, t.v1⟩, ⟨t.v2, t.v3⟩]
  else if Edge.eqv veq f ⟨t.v2, t.v3⟩ then [⟨t.v3, t.v1⟩, ⟨t.v1, t.v2⟩]
  else [⟨t.v2, t.v3⟩, ⟨t.v1, t.v2⟩]

/-- One iteration of the inner loop of `solve_conflicts`
(src/planar/triangulation_procedures/vertices.rs:102-184): the popped edge is `e`; the result is the
list of pushed edges and the new state. -/
def cavityStep (P : Preds V) (C : List (Edge V)) (v : V) (e : Edge V) (s : SolveState V) :
    Res (List (Edge V) × SolveState V) :=
  match s.mesh.adj e.opposite with
  | none => .panic
  | some t =>
    (P.mayInsert t v).bind fun may =>
      if conflicting P t v && !(decide (e.opposite ∈ C) || decide (e ∈ C)) && may then
        .ok (cavityPushes P.veq t e.opposite,
          { mesh := s.mesh.del t
            cmap := s.cmap.erase t
            remaining := s.remaining ++ (s.cmap.get t).getD []
            included := s.included
            removed := setInsert t s.removed })
      else
        let nt := newTri P.ghost e v
        (distribute P nt s.cmap s.remaining).bind fun r =>
          .ok ([],
            { mesh := s.mesh.add nt
              cmap := r.1
              remaining := r.2
              included := setInsert nt s.included
              removed := s.removed })

/-- The inner loop of `solve_conflicts` (src/planar/triangulation_procedures/vertices.rs:101-185). -/
def cavityLoop (P : Preds V) (C : List (Edge V)) (v : V) :
    Nat → List (Edge V) → SolveState V → Res (SolveState V)
  | _, [], s => .ok s
  | 0, _ :: _, _ => .diverged
  | n + 1, e :: pending, s =>
    (cavityStep P C v e s).bind fun r => cavityLoop P C v n (r.1 ++ pending) r.2

/-- The beginning of an iteration of the outer loop (src/planar/triangulation_procedures/vertices.rs:
82-99): vertex `v` (the last of the vector) is taken out of the bucket `vs` of triangle `t`. -/
def openCavity (t : Tri V) (vs : List V) (s : SolveState V) : SolveState V :=
  { mesh := s.mesh.del t
    cmap := s.cmap.erase t
    remaining := s.remaining ++ vs.dropLast
    included := s.included
    removed := setInsert t s.removed }

/-- The three first pending edges, last one on top (src/planar/triangulation_procedures/vertices.rs:
92-94). -/
def openEdges (t : Tri V) : List (Edge V) := [⟨t.v3, t.v1⟩, ⟨t.v2, t.v3⟩, ⟨t.v1, t.v2⟩]

/-- One iteration of the outer loop of `solve_conflicts`
(src/planar/triangulation_procedures/vertices.rs:65-186). -/
def solveStep (P : Preds V) (C : List (Edge V)) (fuel : Nat) (σ : Sched) (s : SolveState V) :
    Res (SolveState V) :=
  match choose σ s.cmap with
  | none => .panic
  | some (t, vs) =>
    match vs.getLast? with
    | none => .panic
    | some v => cavityLoop P C v fuel (openEdges t) (openCavity t vs s)

/-- The outer loop of `solve_conflicts` (src/planar/triangulation_procedures/vertices.rs:65-186);
`fuel` bounds the iterations of each inner loop, the `Nat` argument those of the outer loop. -/
def solveLoop (P : Preds V) (C : List (Edge V)) (fuel : Nat) :
    Nat → Sched → SolveState V → Res (SolveState V)
  | 0, _, s => if s.cmap = [] then .ok s else .diverged
  | n + 1, σ, s =>
    if s.cmap = [] then .ok s
    else (solveStep P C fuel (σ.sub 0) s).bind fun s' => solveLoop P C fuel n (σ.sub 1) s'

/-- `solve_conflicts` (src/planar/triangulation_procedures/vertices.rs:54-188). -/
def solveConflicts (P : Preds V) (C : List (Edge V)) (fuel : Nat) (σ : Sched) (m : Mesh V)
    (c : CMap V) (remaining : List V) : Res (SolveState V) :=
  solveLoop P C fuel fuel σ ⟨m, c, remaining, [], []⟩

/-- The first loop of `include` (src/planar/triangulation_procedures/vertices.rs:25-36). -/
def distributeAll (P : Preds V) : List (Tri V) → CMap V → List V → Res (CMap V × List V)
  | [], c, vs => .ok (c, vs)
  | t :: ts, c, vs =>
    if vs = [] then .ok (c, vs)
    else (distribute P t c vs).bind fun r => distributeAll P ts r.1 r.2

/-- `include` (src/planar/triangulation_procedures/vertices.rs:11-47). The final state carries the
mesh, the returned pair of triangle sets and the vertices that found no conflict. -/
def includeVertices (P : Preds V) (C : List (Edge V)) (fuel : Nat) (σ : Sched) (m : Mesh V)
    (vs : List V) : Res (SolveState V) :=
  let fresh := vs.filter fun v => !decide (v ∈ m.vertices P.ghost)
  (distributeAll P (shuffle (σ.sub 0) m.tris) [] fresh).bind fun r =>
    solveConflicts P C fuel (σ.sub 1) m r.1 r.2

/-- The outer triangles pushed by one step of `distribute_conflicts_over_triangulation`
(src/planar/triangulation_procedures/vertices.rs:249-257): new pending stack and visited set. -/
def visitNeighbours (P : Preds V) (m : Mesh V) :
    List (Edge V) → List (Tri V) → List (Tri V) → List (Tri V) × List (Tri V)
  | [], pending, visited => (pending, visited)
  | e :: es, pending, visited =>
    match m.adj e with
    | some t =>
      if t ∉ visited ∧ !t.isGhost P.ghost then visitNeighbours P m es (t :: pending) (t :: visited)
      else visitNeighbours P m es pending visited
    | none => visitNeighbours P m es pending visited

/-- The `while` loop of `distribute_conflicts_over_triangulation`
(src/planar/triangulation_procedures/vertices.rs:246-261). -/
def distributeOverLoop (P : Preds V) (m : Mesh V) :
    Nat → List (Tri V) → List (Tri V) → CMap V → List V → Res (CMap V × List V)
  | _, [], _, c, vs => .ok (c, vs)
  | _, _ :: _, _, c, [] => .ok (c, [])
  | 0, _ :: _, _, _, _ :: _ => .diverged
  | n + 1, t :: pending, visited, c, v :: vs =>
    let r := visitNeighbours P m t.outerEdges pending visited
    (distribute P t c (v :: vs)).bind fun q => distributeOverLoop P m n r.1 r.2 q.1 q.2

/-- `distribute_conflicts_over_triangulation` (src/planar/triangulation_procedures/vertices.rs:
228-262). -/
def distributeOver (P : Preds V) (fuel : Nat) (σ : Sched) (m : Mesh V) (init : Option (Tri V))
    (c : CMap V) (vs : List V) : Res (CMap V × List V) :=
  match init with
  | some t => distributeOverLoop P m fuel [t] [t] c vs
  | none =>
    match choose σ m.tris with
    | none => .panic
    | some t => distributeOverLoop P m fuel [t] [t] c vs

end insertion

section geometry

variable {K : Type*} [Field K] [LinearOrder K]

/-- The polyline built by `may_insert_triangle` (src/planar/triangulation_procedures/vertices.rs:
273-284). -/
def probe (t : Tri (Vertex K)) (v : Vertex K) : Polyline (Vertex K) :=
  if t.isGhost Vertex.isGhost then ⟨[t.v1, t.v2, v], false, by simp⟩
  else ⟨[t.center, v], true, by simp⟩

/-- The loop over the holes in `may_insert_triangle` (src/planar/triangulation_procedures/vertices.rs:
297-303): the flag is overwritten, not accumulated. -/
def outsideHoles (eps : K) (fuel : Nat) (p : Polyline (Vertex K)) :
    List (Polyline (Vertex K)) → Bool → Res Bool
  | [], flag => .ok flag
  | h :: hs, _ =>
    (Polyline.continence eps fuel h p).bind fun r =>
      match r with
      | some (c, _) => outsideHoles eps fuel p hs (decide (c ≠ Continence.inside))
      | none => outsideHoles eps fuel p hs false

/-- `may_insert_triangle` (src/planar/triangulation_procedures/vertices.rs:267-306). The holes are given
in iteration order. -/
def mayInsertTriangle (eps : K) (fuel : Nat) (boundary : Option (Polyline (Vertex K)))
    (holes : List (Polyline (Vertex K))) (t : Tri (Vertex K)) (v : Vertex K) : Res Bool :=
  let p := probe t v
  (match boundary with
    | none => Res.ok true
    | some b =>
      (Polyline.continence eps fuel b p).bind fun r =>
        match r with
        | some (c, _) => .ok (decide (c ≠ Continence.outside))
        | none => .ok false).bind fun inB =>
    (outsideHoles eps fuel p holes true).bind fun outH => .ok (inB && outH)

/-- The predicates as the code computes them. -/
def geoPreds (eps : K) (fuel : Nat) (boundary : Option (Polyline (Vertex K)))
    (holes : List (Polyline (Vertex K))) : Preds (Vertex K) where
  ghost := Vertex.isGhost
  veq := Vertex.eqv eps
  inside t v := decide (t.encircles eps v = .inside)
  onEdge e v := e.contains eps v
  mayInsert := mayInsertTriangle eps fuel boundary holes

end geometry

end Verif
