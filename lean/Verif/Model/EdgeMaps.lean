import Verif.Model.EdgeOps

/-!
# `Edge::into_hashmap` and `Edge::arrange` with the two hash maps of the code (`src/elements/edge.rs`)

`Model/EdgeOps.lean` models `Edge::arrange` on one set of edges. This file models it with the data the code
keeps: a map from every first vertex to the set of its second vertices, and the same the other way round.
-/

namespace Verif

/-- `HashMap<Rc<Vertex>, RefCell<HashSet<Rc<Vertex>>>>` (src/elements/edge.rs:304-310): the entries of the map,
in the order of their insertion. Iterations go through the scheduler. -/
abbrev VertexMap (V : Type*) := List (V × List V)

namespace VertexMap

variable {V : Type*} [DecidableEq V]

/-- `HashMap::get` (used at src/elements/edge.rs:316, 326). -/
def get (m : VertexMap V) (k : V) : Option (List V) := (m.find? fun e => decide (e.1 = k)).map (·.2)

/-- `map.get(k).borrow_mut()` assigned: the set stored for `k` becomes `s` (src/elements/edge.rs:147, 155). -/
def set (m : VertexMap V) (k : V) (s : List V) : VertexMap V :=
  m.map fun e => if e.1 = k then (e.1, s) else e

/-- `HashMap::remove` (src/elements/edge.rs:150, 157). -/
def erase (m : VertexMap V) (k : V) : VertexMap V := m.filter fun e => !decide (e.1 = k)

/-- One of the two `match` of the loop of `Edge::into_hashmap` (src/elements/edge.rs:316-325 and 326-335). -/
def add (m : VertexMap V) (k w : V) : VertexMap V :=
  match m.get k with
  | some s => m.set k (setInsert w s)
  | none => (k, [w]) :: m

/-- Removes `w` from the set of `k`, and the entry of `k` when its set becomes empty
(src/elements/edge.rs:147-151 and 154-158). The `unwrap` fails when there is no entry. -/
def drop (m : VertexMap V) (k w : V) : Res (VertexMap V) :=
  match m.get k with
  | none => .panic
  | some s => .ok (if (setErase w s).isEmpty then m.erase k else m.set k (setErase w s))

end VertexMap

namespace Edge

section maps

variable {V : Type*} [DecidableEq V]

/-- `Edge::into_hashmap` (src/elements/edge.rs:301-339). -/
def intoHashmap (σ : Sched) (base : List (Edge V)) : VertexMap V × VertexMap V :=
  (shuffle σ base).foldl (fun m e => (m.1.add e.v1 e.v2, m.2.add e.v2 e.v1)) ([], [])

/-- `remove_edge` (src/elements/edge.rs:142-159). -/
def removeEdge (ht th : VertexMap V) (h t : V) : Res (VertexMap V × VertexMap V) :=
  (ht.drop h t).bind fun ht' => (th.drop t h).bind fun th' => .ok (ht', th')

end maps

variable {K : Type*} [Field K] [LinearOrder K]

/-- The extension at the head (src/elements/edge.rs:212-240). -/
def extendMapsHead (eps : K) (σ : Sched) (e : Edge (Vertex K)) (ht th : VertexMap (Vertex K)) :
    Res (Option (Edge (Vertex K) × VertexMap (Vertex K) × VertexMap (Vertex K))) :=
  match th.get e.v1 with
  | none => .ok none
  | some hs =>
    match (shuffle σ hs).find? fun h => extendsTail eps e.v2 e.v1 h with
    | none => .ok none
    | some h => (removeEdge th ht e.v1 h).bind fun r => .ok (some (⟨h, e.v2⟩, r.2, r.1))

/-- One round of the inner `loop` of `Edge::arrange` (src/elements/edge.rs:175-246). -/
def extendMaps (eps : K) (σ : Sched) (e : Edge (Vertex K)) (ht th : VertexMap (Vertex K)) :
    Res (Option (Edge (Vertex K) × VertexMap (Vertex K) × VertexMap (Vertex K))) :=
  match ht.get e.v2 with
  | none => extendMapsHead eps (σ.sub 1) e ht th
  | some ts =>
    match (shuffle (σ.sub 0) ts).find? fun t => extendsTail eps e.v1 e.v2 t with
    | none => extendMapsHead eps (σ.sub 1) e ht th
    | some t => (removeEdge ht th e.v2 t).bind fun r => .ok (some (⟨e.v1, t⟩, r.1, r.2))

/-- The two nested loops of `Edge::arrange` (src/elements/edge.rs:163-248): `cur` is the edge being
extended, if any. -/
def arrangeMapsLoop (eps : K) : Nat → Sched → Option (Edge (Vertex K)) → VertexMap (Vertex K) →
    VertexMap (Vertex K) → List (Edge (Vertex K)) → Res (List (Edge (Vertex K)))
  | 0, _, none, [], _, acc => .ok acc
  | 0, _, _, _, _, _ => .diverged
  | n + 1, σ, none, ht, th, acc =>
    match choose (σ.sub 0) ht with
    | none => .ok acc
    | some entry =>
      match choose (σ.sub 2) entry.2 with
      | none => .panic
      | some t => (removeEdge ht th entry.1 t).bind fun r =>
          arrangeMapsLoop eps n (σ.sub 1) (some ⟨entry.1, t⟩) r.1 r.2 acc
  | n + 1, σ, some e, ht, th, acc =>
    (extendMaps eps (σ.sub 0) e ht th).bind fun r =>
      match r with
      | some r => arrangeMapsLoop eps n (σ.sub 1) (some r.1) r.2.1 r.2.2 acc
      | none => arrangeMapsLoop eps n (σ.sub 1) none ht th (setInsert e acc)

/-- `Edge::arrange` (src/elements/edge.rs:141-251), with its two hash maps. -/
def arrangeMaps (eps : K) (fuel : Nat) (σ : Sched) (edges : List (Edge (Vertex K))) :
    Res (List (Edge (Vertex K))) :=
  arrangeMapsLoop eps fuel (σ.sub 1) none (intoHashmap (σ.sub 0) edges).1 (intoHashmap (σ.sub 0) edges).2 []

end Edge

end Verif
