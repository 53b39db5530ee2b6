import Verif.Spec.Mesh

/-!
# Vocabulary about carving a mesh along a wall of directed edges
-/

namespace Verif.Spec

variable {V : Type*}

/-- `t` is one of the triangles `T` that can be reached from the left side of the wall `S` by walking from triangle to
triangle across common edges, never crossing the wall from its left to its right. -/
inductive Reach (T : List (Tri V)) (S : List (Edge V)) : Tri V → Prop
  | start {t : Tri V} {e : Edge V} : t ∈ T → e ∈ S → IsSide t e → Reach T S t
  | step {s t : Tri V} {e : Edge V} : Reach T S s → IsSide s e → e ∉ S → t ∈ T → IsSide t e.opposite →
      Reach T S t

/-- The wall enters each vertex as often as it leaves it. -/
def ClosedWall [DecidableEq V] (S : List (Edge V)) : Prop :=
  ∀ x, (S.map Edge.v1).count x = (S.map Edge.v2).count x

/-- The ghost triangle on the left of `e`. -/
def ghostOn (g : V) (e : Edge V) : Tri V := ⟨e.v1, e.v2, g⟩

end Verif.Spec
