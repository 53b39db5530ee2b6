import Verif.Model.Polyline

/-!
# `src/planar/triangulation.rs`
-/

namespace Verif

/-- `struct Triangulation` (src/planar/triangulation.rs:8-11). The hash set of triangles is a list
without repetitions, the hash map from edges to triangles is a partial function. -/
structure Mesh (V : Type*) where
  tris : List (Tri V)
  adj : Edge V → Option (Tri V)

namespace Mesh

variable {V : Type*}

/-- `Triangulation::new` (src/planar/triangulation.rs:31-36). -/
def empty : Mesh V := ⟨[], fun _ => none⟩

variable [DecidableEq V]

/-- `Triangulation::include_triangle` (src/planar/triangulation.rs:50-59). The returned boolean is
`(include m t).2`. -/
def «include» (m : Mesh V) (t : Tri V) : Mesh V × Bool :=
  if t ∈ m.tris then (m, false)
  else (⟨t :: m.tris, fun e => if e ∈ t.innerEdges then some t else m.adj e⟩, true)

/-- `Triangulation::remove_triangle` (src/planar/triangulation.rs:61-70). -/
def remove (m : Mesh V) (t : Tri V) : Mesh V × Bool :=
  if t ∈ m.tris then
    (⟨setErase t m.tris, fun e => if e ∈ t.innerEdges then none else m.adj e⟩, true)
  else (m, false)

/-- Mesh after `include_triangle`. -/
abbrev add (m : Mesh V) (t : Tri V) : Mesh V := (m.include t).1

/-- Mesh after `remove_triangle`. -/
abbrev del (m : Mesh V) (t : Tri V) : Mesh V := (m.remove t).1

/-- `Triangulation::from_initial_segment` (src/planar/triangulation.rs:38-48); `g` is the ghost
vertex. -/
def fromInitialSegment (g v1 v2 : V) : Mesh V :=
  (Mesh.empty.add ⟨v1, v2, g⟩).add ⟨v2, v1, g⟩

/-- `Triangulation::vertices` (src/planar/triangulation.rs:72-79). -/
def vertices (ghost : V → Bool) (m : Mesh V) : List V :=
  toSet ((m.tris.flatMap Tri.corners).filter fun v => !ghost v)

/-- `Triangulation::edges` (src/planar/triangulation.rs:81-90). -/
def edges (m : Mesh V) : List (Edge V) := toSet (m.tris.flatMap Tri.innerEdges)

end Mesh

end Verif
