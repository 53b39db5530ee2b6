import Verif.Model.Polyline

/-!
# `Edge::decompose`, `Edge::arrange` (`src/elements/edge.rs`)
-/

namespace Verif

variable {K : Type*} [Field K] [LinearOrder K]

namespace Edge

/-- The filter of `Edge::decompose` (src/elements/edge.rs:262-276). -/
def decomposeKeeps (eps : K) (edge e : Edge (Vertex K)) : Bool :=
  (intersection eps e.v1 e.v2 edge.v1 edge.v2).isSome
    && parallel e.v1 e.v2 edge.v1 edge.v2 && decide (dot e.v1 e.v2 edge.v1 edge.v2 > 0)

/-- The loop of `Edge::decompose` (src/elements/edge.rs:285-295). `acc` is in order. -/
def decomposeLoop {V : Type*} (veq : V → V → Bool) (next : V → Option V) (tail : V) :
    Nat → V → List (Edge V) → Res (Option (List (Edge V)))
  | n, last, acc =>
    if veq last tail then .ok (some acc)
    else
      match next last with
      | none => .ok none
      | some w =>
        match n with
        | 0 => .diverged
        | n + 1 => decomposeLoop veq next tail n w (acc ++ [⟨last, w⟩])

/-- `Edge::decompose` (src/elements/edge.rs:259-296). The map keeps the last inserted edge for a given
head, in the iteration order of `base`. -/
def decompose (eps : K) (fuel : Nat) (σ : Sched) (base : List (Edge (Vertex K)))
    (edge : Edge (Vertex K)) : Res (Option (List (Edge (Vertex K)))) :=
  decomposeLoop (Vertex.eqv eps)
    (arrangeMap ((shuffle σ base).filter (decomposeKeeps eps edge))) edge.v2 fuel edge.v1 []

/-- The test for extending an edge at its tail (src/elements/edge.rs:185-187). -/
def extendsTail (eps : K) (head tail next : Vertex K) : Bool :=
  decide (orientation eps head tail next = .colinear) && decide (dot head tail tail next > 0)

/-- The two extension tests of one iteration of `Edge::arrange` (src/elements/edge.rs:172-240). The pair of
hash maps always represents one set of edges, kept as the list `rest`. The result is the extended edge
and the remaining edges. -/
def extendOnce (eps : K) (σ : Sched) (e : Edge (Vertex K)) (rest : List (Edge (Vertex K))) :
    Option (Edge (Vertex K) × List (Edge (Vertex K))) :=
  match (shuffle (σ.sub 0) rest).find? fun f =>
      decide (f.v1 = e.v2) && extendsTail eps e.v1 e.v2 f.v2 with
  | some f => some (⟨e.v1, f.v2⟩, setErase f rest)
  | none =>
    match (shuffle (σ.sub 1) rest).find? fun f =>
        decide (f.v2 = e.v1) && extendsTail eps e.v2 e.v1 f.v1 with
    | some f => some (⟨f.v1, e.v2⟩, setErase f rest)
    | none => none

/-- `Edge::arrange` (src/elements/edge.rs:141-251): `cur` is the edge being extended. Every iteration
consumes one edge of the set or closes the current one, so the loop is structurally bounded by the number of
edges; the model uses fuel all the same. -/
def arrangeLoop (eps : K) : Nat → Sched → Option (Edge (Vertex K)) → List (Edge (Vertex K)) →
    List (Edge (Vertex K)) → Res (List (Edge (Vertex K)))
  | 0, _, none, [], acc => .ok acc
  | 0, _, _, _, _ => .diverged
  | n + 1, σ, none, rest, acc =>
    match choose (σ.sub 0) rest with
    | none => .ok acc
    | some e => arrangeLoop eps n (σ.sub 1) (some e) (setErase e rest) acc
  | n + 1, σ, some e, rest, acc =>
    match extendOnce eps (σ.sub 0) e rest with
    | some r => arrangeLoop eps n (σ.sub 1) (some r.1) r.2 acc
    | none => arrangeLoop eps n (σ.sub 1) none rest (setInsert e acc)

/-- `Edge::arrange` (src/elements/edge.rs:141-251). -/
def arrange (eps : K) (fuel : Nat) (σ : Sched) (edges : List (Edge (Vertex K))) :
    Res (List (Edge (Vertex K))) :=
  arrangeLoop eps fuel σ none edges []

end Edge

end Verif
