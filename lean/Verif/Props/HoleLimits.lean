import Verif.Lemmas.Endless
import Verif.Props.Holes

/-!
# C59: a single thin hole
-/

set_option linter.unusedSectionVars false

namespace Verif.Props

open Spec Triangulator

namespace ThinExample

open ValidityExample HoleExample

/-- A thin triangle. -/
def thin : Polyline (Vertex ℚ) := ⟨[pt 4 2, pt 5 1, pt 1 6], false, by decide⟩

/-- Another one. -/
def splinter : Polyline (Vertex ℚ) := ⟨[pt (13 / 2) 2, pt (3 / 2) (11 / 2), pt (5 / 2) (9 / 2)], false, by decide⟩

def valueOr {α : Type*} (d : α) : Res α → α
  | .ok a => a
  | _ => d

theorem valueOr_ok {α : Type*} {d : α} {x : Res α} (h : (match x with | .ok _ => true | _ => false) = true) :
    x = .ok (valueOr d x) := by
  split at h
  · rfl
  · simp at h

abbrev free : Preds (Vertex ℚ) := geoPreds 0 60 none []

/-- The square without the hole. -/
def plate : Mesh (Vertex ℚ) :=
  valueOr Mesh.empty (includeBoundary free Vertex.ghost [] 60 ((order 0).sub 0)
    (Mesh.fromInitialSegment Vertex.ghost (pt 0 0) (pt 12 0)) wide)

abbrev tour : Sched := ((order 0).sub 2).sub 0

abbrev rim : List (Edge (Vertex ℚ)) := toSet wide.intoEdges

abbrev sides : List (Edge (Vertex ℚ)) := shuffle (tour.sub 0) (toSet splinter.intoEdges)

/-- The mesh with the vertices of the hole. -/
def dotted : SolveState (Vertex ℚ) :=
  valueOr ⟨Mesh.empty, [], [], [], []⟩ (includeVertices free rim 60 (tour.sub 1) plate splinter.vertices)

/-- The side of the hole that is missing. -/
abbrev lost : Edge (Vertex ℚ) := ⟨pt (13 / 2) 2, pt (3 / 2) (11 / 2)⟩

/-- The triangles that are replaced to insert the missing side. -/
def struck : List (Tri (Vertex ℚ)) := valueOr [] (segmentConflicts 0 60 (setUnion rim sides) lost dotted.mesh)

abbrev walk : Sched := (tour.sub 2).sub 0

/-- The border of the triangles that are replaced. -/
abbrev border : List (Edge (Vertex ℚ)) := hullEdges ((walk.sub 0).sub 0) struck

theorem plate_ok : includeBoundary free Vertex.ghost [] 60 ((order 0).sub 0)
    (Mesh.fromInitialSegment Vertex.ghost (pt 0 0) (pt 12 0)) wide = .ok plate :=
  valueOr_ok (by decide +kernel)

theorem dotted_ok : includeVertices free rim 60 (tour.sub 1) plate splinter.vertices = .ok dotted :=
  valueOr_ok (by decide +kernel)

theorem lost_found : (sides.find? fun e => !decide (e ∈ dotted.mesh.edges)) = some lost := by decide +kernel

theorem struck_ok : segmentConflicts 0 60 (setUnion rim sides) lost dotted.mesh = .ok struck :=
  valueOr_ok (by decide +kernel)

theorem border_head : choose (((walk.sub 0).sub 1).sub 1)
    (toSet ((shuffle (((walk.sub 0).sub 1).sub 0) border).map (·.v1))) = some (pt (13 / 2) 2) := by decide +kernel

theorem border_next : ∀ v ∈ [pt (13 / 2) 2, pt 0 0, pt 12 0, pt 12 12, pt 0 12],
    ∃ w ∈ [pt (13 / 2) 2, pt 0 0, pt 12 0, pt 12 12, pt 0 12],
      arrangeMap (shuffle (((walk.sub 0).sub 1).sub 0) border) v = some w ∧
      Vertex.eqv 0 w (pt (13 / 2) 2) = false := by decide +kernel

/-- The walk along the border turns around the square for ever. -/
theorem hull_endless (f : Nat) : Polyline.trianglesHull (Vertex.eqv 0) (walk.sub 0) f struck = .diverged := by
  unfold Polyline.trianglesHull Polyline.arrange
  simp only
  rw [border_head]
  simp only
  rw [arrangeLoop_endless border_next f _ List.mem_cons_self]
  rfl

theorem segment_endless (f : Nat) :
    includeSegment 0 f walk (setUnion rim sides) dotted.mesh lost = .diverged := by
  unfold includeSegment
  rcases segmentConflicts_lasting.ok struck_ok f with h | h
  · rw [h]
    rfl
  · rw [h, Res.bind_ok, hull_endless]
    rfl

theorem hole_endless (f : Nat) : includeHole 0 f tour rim plate splinter = .diverged := by
  unfold includeHole
  simp only
  rw [geoPreds_free 0 f 60]
  rcases includeVertices_lasting.ok dotted_ok f with h | h
  · rw [h]
    rfl
  · rw [h, Res.bind_ok]
    have : holeSegmentsLoop 0 (setUnion rim sides) sides f f (tour.sub 2) dotted.mesh = .diverged := by
      rw [holeSegmentsLoop, lost_found]
      cases f with
      | zero => rfl
      | succ f =>
        simp only
        rw [segment_endless]
        rfl
    rw [this]
    rfl

end ThinExample

open ValidityExample HoleExample ThinExample

/-- C59 is false with a single hole, even a triangle in a square: a thin hole and an order of the hash tables with which
`triangulate` panics (a side of the hole is missing after its vertices are inserted, and the triangles to replace have no
hull). -/
theorem C59_thin_false : ∃ (b h : Polyline (Vertex ℚ)) (σ : Sched) (T : Triangulator ℚ),
    SimplePolygon b.vertices ∧ b.opened = false ∧ 0 < shoelace b.vertices ∧
    SimplePolygon h.vertices ∧ h.opened = false ∧ 0 < shoelace h.vertices ∧
    (∀ v ∈ h.vertices, InsidePolygon b.vertices v) ∧
    (Triangulator.new b).insertHole 0 60 h = .ok (.ok T) ∧ T.triangulate 0 60 σ = .panic := by
  refine ⟨wide, thin, order 0, punch (Triangulator.new wide) thin, simple_of_check (by decide +kernel), rfl,
    by decide +kernel, simple_of_check (by decide +kernel), rfl, by decide +kernel, ?_, punch_ok (by decide +kernel), ?_⟩
  · have h : ∀ v ∈ thin.vertices, (∀ s ∈ pairs wide.vertices false, cross s.1 s.2 v ≠ 0) ∧
        windingNumber (pairs wide.vertices false) v ≠ 0 := by decide +kernel
    exact fun v hv => insidePolygon_of (h v hv).1 (h v hv).2
  have : (match (punch (Triangulator.new wide) thin).triangulate 0 60 (order 0) with
    | .panic => true
    | _ => false) = true := by decide +kernel
  split at this
  · assumption
  · simp at this

/-- C59 is false with a single hole: `triangulate` may run for ever. A triangle in a square and an order of the hash tables
with which no number of steps is enough. -/
theorem C59_endless_false : ∃ (b h : Polyline (Vertex ℚ)) (σ : Sched) (T : Triangulator ℚ),
    SimplePolygon b.vertices ∧ b.opened = false ∧ 0 < shoelace b.vertices ∧
    SimplePolygon h.vertices ∧ h.opened = false ∧ 0 < shoelace h.vertices ∧
    (∀ v ∈ h.vertices, InsidePolygon b.vertices v) ∧
    (Triangulator.new b).insertHole 0 60 h = .ok (.ok T) ∧ ∀ fuel, T.triangulate 0 fuel σ = .diverged := by
  refine ⟨wide, splinter, order 0, punch (Triangulator.new wide) splinter, simple_of_check (by decide +kernel), rfl,
    by decide +kernel, simple_of_check (by decide +kernel), rfl, by decide +kernel, ?_, punch_ok (by decide +kernel), ?_⟩
  · have h : ∀ v ∈ splinter.vertices, (∀ s ∈ pairs wide.vertices false, cross s.1 s.2 v ≠ 0) ∧
        windingNumber (pairs wide.vertices false) v ≠ 0 := by decide +kernel
    exact fun v hv => insidePolygon_of (h v hv).1 (h v hv).2
  intro f
  rw [insertHole_new (punch_ok (by decide +kernel) :
    (Triangulator.new wide).insertHole 0 60 splinter = .ok (.ok (punch (Triangulator.new wide) splinter)))]
  unfold Triangulator.triangulate
  have hw : (Triangulator.new wide).boundary = wide := rfl
  simp only [hw]
  rw [show wide.vertices = [pt 0 0, pt 12 0, pt 12 12, pt 0 12] from rfl]
  simp only
  rw [geoPreds_free 0 f 60]
  rcases includeBoundary_lasting.ok plate_ok f with h | h
  · rw [h]
    rfl
  · rw [h, Res.bind_ok]
    have hs : shuffle ((order 0).sub 1) [splinter] = [splinter] := by decide +kernel
    rw [hs, includeHoles, hole_endless]
    rfl

end Verif.Props
