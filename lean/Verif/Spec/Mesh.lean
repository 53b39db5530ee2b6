import Verif.Model.Mesh

/-!
# Vocabulary about sets of triangles used to state the properties
-/

namespace Verif.Spec

variable {V : Type*}

/-- `e` runs along a side of `t`, with `t` on its left when `t` is counterclockwise. -/
def IsSide (t : Tri V) (e : Edge V) : Prop :=
  (e.v1 = t.v1 ∧ e.v2 = t.v2) ∨ (e.v1 = t.v2 ∧ e.v2 = t.v3) ∨ (e.v1 = t.v3 ∧ e.v2 = t.v1)

/-- `v` is a corner of `t`. -/
def IsCorner (t : Tri V) (v : V) : Prop := v = t.v1 ∨ v = t.v2 ∨ v = t.v3

/-- No directed edge is a side of two different triangles of the list. -/
def EdgeDisjoint (l : List (Tri V)) : Prop :=
  ∀ s ∈ l, ∀ t ∈ l, ∀ e, IsSide s e → IsSide t e → s = t

/-- How many sides of triangles of the list run along `e`. -/
def sideCount [DecidableEq V] (l : List (Tri V)) (e : Edge V) : Nat :=
  (l.map fun t =>
    (if e.v1 = t.v1 ∧ e.v2 = t.v2 then 1 else 0) + (if e.v1 = t.v2 ∧ e.v2 = t.v3 then 1 else 0)
      + (if e.v1 = t.v3 ∧ e.v2 = t.v1 then 1 else 0)).sum

/-- The set of triangles has no border: each directed edge is used as often as its reverse. -/
def Watertight [DecidableEq V] (l : List (Tri V)) : Prop :=
  ∀ a b : V, sideCount l ⟨a, b⟩ = sideCount l ⟨b, a⟩

/-- Each directed edge is a side at most once. -/
def Simple [DecidableEq V] (l : List (Tri V)) : Prop := ∀ e, sideCount l e ≤ 1

/-- `x` is a vertex of the mesh. -/
def InMesh (m : Mesh V) (x : V) : Prop := ∃ t ∈ m.tris, IsCorner t x

/-- `e` runs along a constrained segment, in one direction or the other. -/
def Constrained (C : List (Edge V)) (e : Edge V) : Prop := e.opposite ∈ C ∨ e ∈ C

/-- The adjacency map refers to triangles of the mesh, and truthfully. -/
def AdjSound (m : Mesh V) : Prop := ∀ e t, m.adj e = some t → t ∈ m.tris ∧ IsSide t e

/-- Each side of each triangle is found in the adjacency map. -/
def AdjComplete (m : Mesh V) : Prop := ∀ t ∈ m.tris, ∀ e, IsSide t e → m.adj e = some t

/-- One editing operation of a mesh. -/
inductive MeshOp (V : Type*) where
  | insert (t : Tri V)
  | delete (t : Tri V)

/-- The set of triangles after an editing operation. -/
def MeshOp.effect (S : Set (Tri V)) : MeshOp V → Set (Tri V)
  | .insert t => S ∪ {t}
  | .delete t => S \ {t}

/-- The set of triangles after a history of operations, oldest first. -/
def effects (S : Set (Tri V)) (h : List (MeshOp V)) : Set (Tri V) := h.foldl MeshOp.effect S

end Verif.Spec
