import Verif.Spec.Winding
import Verif.Model.Polyline

/-!
# Simple polygons in general position

The sides of the closed polygon with vertices `l` are `pairs l false`: each vertex with the next one, and the last one
with the first.
-/

namespace Verif.Spec

variable {K : Type*} [Field K] [LinearOrder K]

/-- A simple polygon: no side is a point, and two sides share at most a vertex where one of them ends and the other
starts. -/
structure SimplePolygon (l : List (Vertex K)) : Prop where
  proper : ∀ s ∈ pairs l false, ¬ SamePoint s.1 s.2
  apart : (pairs l false).Pairwise fun s t => ∀ q, OnSegment s.1 s.2 q → OnSegment t.1 t.2 q →
    (SamePoint q s.2 ∧ SamePoint q t.1) ∨ (SamePoint q s.1 ∧ SamePoint q t.2)

/-- The polygon runs once counterclockwise around each point that it encloses: its winding number around every point
that is not on a side is `0` (outside) or `1` (inside). -/
def WindsOnce (l : List (Vertex K)) : Prop :=
  ∀ v, (∀ s ∈ pairs l false, ¬ OnSegment s.1 s.2 v) →
    windingNumber (pairs l false) v = 0 ∨ windingNumber (pairs l false) v = 1

/-- Sides of the two polygons that touch are not parallel: they cross, or one ends on the other at an angle. -/
def Crosswise (l m : List (Vertex K)) : Prop :=
  ∀ s ∈ pairs l false, ∀ t ∈ pairs m false, ∀ q, OnSegment s.1 s.2 q → OnSegment t.1 t.2 q →
    ¬ Parallel s.1 s.2 t.1 t.2

/-- No vertex of one polygon is on the other one: sides of the two polygons that touch cross at inner points. -/
def GeneralPosition (l m : List (Vertex K)) : Prop :=
  (∀ v ∈ l, ∀ t ∈ pairs m false, ¬ OnSegment t.1 t.2 v) ∧ ∀ v ∈ m, ∀ s ∈ pairs l false, ¬ OnSegment s.1 s.2 v

/-- A vertical or horizontal line runs between the two polygons. -/
def LineBetween (l m : List (Vertex K)) : Prop :=
  (∀ u ∈ l, ∀ v ∈ m, u.x < v.x) ∨ (∀ u ∈ l, ∀ v ∈ m, v.x < u.x) ∨
    (∀ u ∈ l, ∀ v ∈ m, u.y < v.y) ∨ ∀ u ∈ l, ∀ v ∈ m, v.y < u.y

end Verif.Spec
