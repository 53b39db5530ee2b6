import Verif.Model.Carve

/-!
# `src/planar/refine_procedures/{encroachment,triangle_split}.rs`
-/

namespace Verif

/-- The geometric questions asked by the refinement procedures, on top of those of the insertion. -/
structure RPreds (V : Type*) extends Preds V where
  /-- `edge.encroach(vertex) == Continence::Inside` (src/elements/edge.rs:56-58) -/
  encroaches : Edge V → V → Bool
  /-- `Edge::midpoint` (src/elements/edge.rs:60-70) -/
  mid : Edge V → V
  /-- `Triangle::circumcenter` (src/elements/triangle.rs:82-87) -/
  circumcenter : Tri V → Option V
  /-- `is_irregular_triangle` (src/planar/refine_procedures/triangle_split.rs:15-25) -/
  irregular : Tri V → Bool
  /-- `is_large_triangle` (src/planar/refine_procedures/triangle_split.rs:30-41) -/
  large : Tri V → Bool

section refine

variable {V : Type*} [DecidableEq V]

/-- `distribute_encroachments` (src/planar/refine_procedures/encroachment.rs:158-174), on an empty
map (its only use). -/
def distributeEncroachments (P : RPreds V) (segments : List (Edge V)) (vertices : List V) :
    List (Edge V × List V) :=
  (segments.map fun e => (e, vertices.filter fun v => P.encroaches e v)).filter
    fun p => !decide (p.2 = [])

/-- `split_segment` (src/planar/refine_procedures/encroachment.rs:181-211). The two halves are
`⟨s.v1, mid s⟩` and `⟨mid s, s.v2⟩`. -/
def splitSegment (P : RPreds V) (fuel : Nat) (σ : Sched) (C : List (Edge V)) (m : Mesh V)
    (s : Edge V) : Res (SolveState V) :=
  includeVertices P.toPreds
    (C.filter fun e => !Edge.eqv P.veq e s && !Edge.eqv P.veq e s.opposite) fuel σ m [P.mid s]

/-- The mutable state of `unencroach_segment` (src/planar/refine_procedures/encroachment.rs:83-89). -/
structure UnencState (V : Type*) where
  mesh : Mesh V
  vertices : List V
  newEdges : List (Edge V)
  included : List (Tri V)
  removed : List (Tri V)

/-- One iteration of `unencroach_segment` (src/planar/refine_procedures/encroachment.rs:91-149): the
popped edge is `e`; the result is the list of pushed edges (head = top) and the new state. -/
def unencStep (P : RPreds V) (fuel : Nat) (σ : Sched) (C : List (Edge V)) (e : Edge V)
    (s : UnencState V) : Res (List (Edge V) × UnencState V) :=
  (splitSegment P fuel σ C s.mesh e).bind fun st =>
    let h1 : Edge V := ⟨e.v1, P.mid e⟩
    let h2 : Edge V := ⟨P.mid e, e.v2⟩
    let b1 := s.vertices.any fun v => P.encroaches h1 v
    let b2 := s.vertices.any fun v => P.encroaches h2 v
    let ne := if b1 then s.newEdges else setInsert h1 s.newEdges
    .ok ((if b2 then [h2] else []) ++ (if b1 then [h1] else []),
      { mesh := st.mesh
        vertices := s.vertices.filter fun v => P.encroaches h1 v || P.encroaches h2 v
        newEdges := if b2 then ne else setInsert h2 ne
        included := toSet ((s.included ++ st.included).filter fun t => !decide (t ∈ st.removed))
        removed := setUnion s.removed st.removed })

/-- The loop of `unencroach_segment` (src/planar/refine_procedures/encroachment.rs:91-149). -/
def unencLoop (P : RPreds V) (C : List (Edge V)) (fuel : Nat) :
    Nat → Sched → List (Edge V) → UnencState V → Res (UnencState V)
  | _, _, [], s => .ok s
  | 0, _, _ :: _, _ => .diverged
  | n + 1, σ, e :: pending, s =>
    (unencStep P fuel (σ.sub 0) C e s).bind fun r =>
      unencLoop P C fuel n (σ.sub 1) (r.1 ++ pending) r.2

/-- `unencroach_segment` (src/planar/refine_procedures/encroachment.rs:71-152). -/
def unencroachSegment (P : RPreds V) (fuel : Nat) (σ : Sched) (C : List (Edge V)) (m : Mesh V)
    (e : Edge V) (vertices : List V) : Res (UnencState V) :=
  unencLoop P C fuel fuel σ [e] ⟨m, vertices, [], [], []⟩

/-- `HashMap::insert` on an association list. -/
def mapInsert {α β : Type*} [DecidableEq α] (k : α) (v : β) (l : List (α × β)) : List (α × β) :=
  (k, v) :: l.filter fun p => !decide (p.1 = k)

/-- The loop of `unencroach` (src/planar/refine_procedures/encroachment.rs:33-62). The two triangle
sets of the Rust result are unused by its caller (src/planar/triangulator.rs:266) and omitted. -/
def unencroachLoop (P : RPreds V) (C : List (Edge V)) (fuel : Nat) :
    Nat → Sched → Mesh V → List (Edge V × List V) → List (Edge V × Edge V) →
      Res (Mesh V × List (Edge V × Edge V))
  | _, _, m, [], split => .ok (m, split)
  | 0, _, _, _ :: _, _ => .diverged
  | n + 1, σ, m, c :: cs, split =>
    match choose (σ.sub 0) (c :: cs) with
    | none => .panic
    | some (e, vs) =>
      (unencroachSegment P fuel (σ.sub 1) C m e vs).bind fun r =>
        unencroachLoop P C fuel n (σ.sub 2) r.mesh
          ((c :: cs).filter fun p => !decide (p.1 = e))
          (r.newEdges.foldl (fun s h => mapInsert h e s) split)

/-- `unencroach` (src/planar/refine_procedures/encroachment.rs:11-65). -/
def unencroach (P : RPreds V) (fuel : Nat) (σ : Sched) (C : List (Edge V)) (m : Mesh V) :
    Res (Mesh V × List (Edge V × Edge V)) :=
  unencroachLoop P C fuel fuel σ m (distributeEncroachments P C (m.vertices P.ghost)) []

/-- Result of `try_circumcenter_insertion`
(`Ok((included, removed))` or `Err(encroached edges)`), with the mesh left behind. -/
inductive TryRes (V : Type*) where
  | inserted (m : Mesh V) (included removed : List (Tri V))
  | rejected (m : Mesh V) (encroached : List (Edge V))

/-- Undoing an insertion (src/planar/refine_procedures/triangle_split.rs:218-224). -/
def rollback (m : Mesh V) (included removed : List (Tri V)) : Mesh V :=
  removed.foldl Mesh.add (included.foldl Mesh.del m)

/-- The set `encroachments` (src/planar/refine_procedures/triangle_split.rs:210-215); the `unwrap`
panics when an included triangle does not have the circumcentre as a corner. -/
def findEncroachments (P : RPreds V) (C : List (Edge V)) (c : V) (included : List (Tri V)) :
    Res (List (Edge V)) :=
  (included.foldr
    (fun t r => (Res.unwrap (t.oppositeEdge P.veq c)).bind fun e => r.bind fun l => .ok (e :: l))
    (Res.ok [])).bind fun l =>
      .ok (toSet (l.filter fun e =>
        (decide (e ∈ C) || decide (e.opposite ∈ C)) && P.encroaches e c))

/-- `try_circumcenter_insertion` (src/planar/refine_procedures/triangle_split.rs:181-229). -/
def tryCircumcenter (P : RPreds V) (fuel : Nat) (σ : Sched) (C : List (Edge V)) (m : Mesh V)
    (t : Tri V) : Res (TryRes V) :=
  (Res.unwrap (P.circumcenter t)).bind fun c =>
    (distributeOver P.toPreds fuel (σ.sub 0) m (some t) [] [c]).bind fun d =>
      (solveConflicts P.toPreds C fuel (σ.sub 1) m d.1 []).bind fun s =>
        (findEncroachments P C c s.included).bind fun enc =>
          if enc = [] then .ok (.inserted s.mesh s.included s.removed)
          else .ok (.rejected (rollback s.mesh (shuffle (σ.sub 2) s.included)
            (shuffle (σ.sub 3) s.removed)) enc)

/-- The mutable state of `split_irregular` (src/planar/refine_procedures/triangle_split.rs:56-78). -/
structure SplitState (V : Type*) where
  mesh : Mesh V
  segments : List (Edge V)
  irregulars : List (Tri V)
  larges : List (Tri V)
  split : List (Edge V × Edge V)

/-- Queue updates after an insertion (src/planar/refine_procedures/triangle_split.rs:112-126 and
152-165). -/
def requeue (P : RPreds V) (included removed : List (Tri V)) (s : SplitState V) : SplitState V :=
  let solid := included.filter fun t => !t.isGhost P.ghost
  let irr := solid.foldl (fun l t => if P.irregular t then setInsert t l else l) s.irregulars
  let lrg := solid.foldl
    (fun l t => if P.irregular t then l else if P.large t then setInsert t l else l) s.larges
  { s with
    irregulars := irr.filter fun t => !decide (t ∈ removed)
    larges := lrg.filter fun t => !decide (t ∈ removed) }

/-- The loop over the encroached edges (src/planar/refine_procedures/triangle_split.rs:134-166). -/
def splitEncroached (P : RPreds V) (fuel : Nat) :
    Sched → List (Edge V) → List V → SplitState V → Res (SplitState V)
  | _, [], _, s => .ok s
  | σ, e :: es, vs, s =>
    (unencroachSegment P fuel (σ.sub 0) s.segments s.mesh e vs).bind fun r =>
      let s1 : SplitState V :=
        { mesh := r.mesh
          segments := r.newEdges.foldl (fun l h => setInsert h l) (setErase e s.segments)
          irregulars := s.irregulars
          larges := s.larges
          split := r.newEdges.foldl (fun l h => mapInsert h e l)
            (s.split.filter fun p => !decide (p.1 = e)) }
      splitEncroached P fuel (σ.sub 1) es r.vertices (requeue P r.included r.removed s1)

/-- The triangle popped by one iteration of `split_irregular`
(src/planar/refine_procedures/triangle_split.rs:80-90). -/
def popTriangle (σ : Sched) (s : SplitState V) : Option (Tri V × SplitState V) :=
  match choose σ s.irregulars with
  | some t => some (t, { s with irregulars := setErase t s.irregulars })
  | none =>
    match choose σ s.larges with
    | some t => some (t, { s with larges := setErase t s.larges })
    | none => none

/-- One iteration of `split_irregular` after the pop (src/planar/refine_procedures/triangle_split.rs:
104-168). -/
def splitStep (P : RPreds V) (fuel : Nat) (σ : Sched) (t : Tri V) (s : SplitState V) :
    Res (SplitState V) :=
  (tryCircumcenter P fuel (σ.sub 0) s.segments s.mesh t).bind fun r =>
    match r with
    | .inserted m included removed => .ok (requeue P included removed { s with mesh := m })
    | .rejected m enc =>
      (Res.unwrap (P.circumcenter t)).bind fun c =>
        splitEncroached P fuel (σ.sub 1) (shuffle (σ.sub 2) enc) [c] { s with mesh := m }

/-- The loop of `split_irregular` (src/planar/refine_procedures/triangle_split.rs:80-169). -/
def splitIrregularLoop (P : RPreds V) (fuel : Nat) : Nat → Sched → SplitState V → Res (SplitState V)
  | n, σ, s =>
    match popTriangle (σ.sub 0) s with
    | none => .ok s
    | some (t, s') =>
      match n with
      | 0 => .diverged
      | n + 1 =>
        (splitStep P fuel (σ.sub 1) t s').bind fun s'' => splitIrregularLoop P fuel n (σ.sub 2) s''

/-- The initial queues of `split_irregular` (src/planar/refine_procedures/triangle_split.rs:56-78). -/
def splitInit (P : RPreds V) (C : List (Edge V)) (m : Mesh V) : SplitState V :=
  let solid := m.tris.filter fun t => !t.isGhost P.ghost
  ⟨m, C, solid.filter P.irregular, solid.filter P.large, []⟩

/-- `split_irregular` (src/planar/refine_procedures/triangle_split.rs:49-171). -/
def splitIrregular (P : RPreds V) (fuel : Nat) (σ : Sched) (C : List (Edge V)) (m : Mesh V) :
    Res (SplitState V) :=
  splitIrregularLoop P fuel fuel σ (splitInit P C m)

end refine

section geometry

variable {K : Type*} [Field K] [LinearOrder K]

/-- `struct RefineParams` (src/planar/refine_params.rs:1-4). -/
structure RefineParams (K : Type*) where
  maxArea : Option K
  qualityRatio : K

/-- `is_irregular_triangle` (src/planar/refine_procedures/triangle_split.rs:15-25) on a solid
triangle. Division by a zero area is an infinity in the code and `0` here: degenerate triangles differ. -/
def isIrregular (eps : K) (dist : Vertex K → Vertex K → K) (p : RefineParams K)
    (t : Tri (Vertex K)) : Bool :=
  match t.quality dist with
  | some q => approxEq eps q p.qualityRatio || decide (q ≥ p.qualityRatio)
  | none => false

/-- `is_large_triangle` (src/planar/refine_procedures/triangle_split.rs:30-41) on a solid triangle. -/
def isLarge (eps : K) (p : RefineParams K) (t : Tri (Vertex K)) : Bool :=
  match t.area, p.maxArea with
  | some a, some mx => approxEq eps a mx || decide (a ≥ mx)
  | _, _ => false

/-- The refinement predicates as the code computes them. -/
def geoRPreds (eps : K) (fuel : Nat) (dist : Vertex K → Vertex K → K) (p : RefineParams K)
    (boundary : Option (Polyline (Vertex K))) (holes : List (Polyline (Vertex K))) :
    RPreds (Vertex K) where
  toPreds := geoPreds eps fuel boundary holes
  encroaches e v := decide (e.encroach eps v = .inside)
  mid := Edge.midpoint
  circumcenter := Tri.circumcenter
  irregular := isIrregular eps dist p
  large := isLarge eps p

end geometry

end Verif
