import Verif.Props.RoundedCorners
import Verif.Model.RoundedRefine

/-!
# C93: what a vertex on a horizontal side leads to in f64

A rectangle with sides parallel to the axes and the vertex in the middle of its lower side. All calls are made with
coordinates of one decimal.
-/

set_option linter.unusedSectionVars false

namespace Verif.Props

open Spec Polyline Triangulator

/-- The rectangle from (0.9, 6.8) to (9.9, 11.8). -/
def field : Polyline (Vertex ℚ) :=
  ⟨[hundredths 90 680, hundredths 990 680, hundredths 990 1180, hundredths 90 1180], false, by simp⟩

/-- The point (5.4, 6.8), on its lower side. -/
def gate : Vertex ℚ := hundredths 540 680

/-- The rectangle with this vertex, as after `insert_vertices`. -/
def gateRequest : Triangulator ℚ := ⟨Mesh.empty, field, [], [gate], []⟩

/-- The triangle of the lower side and the vertex on it. -/
def flatTri : Tri (Vertex ℚ) := ⟨hundredths 90 680, hundredths 990 680, gate⟩

/-- Whether the radius of the circle of a triangle is at least `q` times its shortest side, in terms of the squares of the
sides and of the area as it is computed: `is_irregular_triangle` (src/planar/refine_procedures/triangle_split.rs:15-25) and
`Triangle::quality` (src/elements/triangle.rs:89-117) without the rounding of the distances. An area of zero makes the
quality infinite, and a negative one makes it negative. -/
def poorShape (q : ℚ) (t : Tri (Vertex ℚ)) : Bool :=
  let area := areaTriangleRounded roundF64 t.v1 t.v2 t.v3
  let a := dist2 t.v1 t.v2
  let b := dist2 t.v2 t.v3
  let c := dist2 t.v3 t.v1
  let product := if a ≤ b ∧ a ≤ c then b * c else if b ≤ c then a * c else a * b
  decide (0 ≤ area ∧ q ^ 2 * (4 * area) ^ 2 ≤ product)

/-- The mesh that `triangulate` returns for the rectangle and the vertex, for one order of the hash tables. -/
def gateMesh : Res (Mesh (Vertex ℚ)) := meshVerticesRounded roundF64 (1 / 10 ^ 14) 100 (fun _ => 0) gateRequest

/-- In `f64` `refine` panics on the mesh that `triangulate` returns for this rectangle and vertex (see C93_flat_false): the mesh
has a flat triangle, which is judged to be of poor shape and has no circumcentre. Here the ratio asked for
is 2; no other triangle of the mesh is of poor shape. -/
theorem C93_panic_false : ∃ m, gateMesh = .ok m ∧ flatTri ∈ m.tris ∧
    (∀ t ∈ m.tris, t.isGhost Vertex.isGhost = false → t ≠ flatTri → poorShape 2 t = false) ∧
    flatTri.circumcenterRounded roundF64 = none ∧
    refineRounded roundF64 (1 / 10 ^ 14) 100 (poorShape 2) none (fun _ => 0) { gateRequest with mesh := m } = .panic := by
  have h : (match gateMesh with
      | .ok m => decide (flatTri ∈ m.tris) &&
        decide (∀ t ∈ m.tris, t.isGhost Vertex.isGhost = false → t ≠ flatTri → poorShape 2 t = false) &&
        match refineRounded roundF64 (1 / 10 ^ 14) 100 (poorShape 2) none (fun _ => 0) { gateRequest with mesh := m } with
        | .panic => true
        | _ => false
      | _ => false) = true := by decide +kernel
  split at h
  · rename_i m hm
    rw [Bool.and_eq_true, Bool.and_eq_true] at h
    refine ⟨m, hm, of_decide_eq_true h.1.1, of_decide_eq_true h.1.2, by decide +kernel, ?_⟩
    have h2 := h.2
    split at h2
    · assumption
    · cases h2
  · cases h

/-- A vertex on a horizontal side leads to a flat triangle in `f64`: (5.4, 6.8) is on the lower side of the rectangle from
(0.9, 6.8) to (9.9, 11.8), `insert_vertices` accepts it, and `triangulate` returns a mesh with the triangle of the side and
the vertex, whose exact area is zero. In exact arithmetic `insert_vertices` refuses it. -/
theorem C93_flat_false : OnSegment (hundredths 90 680) (hundredths 990 680) gate ∧
    (∀ σ, insertVerticesRounded roundF64 (1 / 10 ^ 14) σ (Triangulator.new field) [gate] = .ok gateRequest ∧
      insertVertices (1 / 10 ^ 14) σ (Triangulator.new field) [gate] = .err (Triangulator.new field) [gate]) ∧
    ∃ m, gateMesh = .ok m ∧ flatTri ∈ m.tris ∧ cross flatTri.v1 flatTri.v2 flatTri.v3 = 0 := by
  refine ⟨⟨(gate.x - (hundredths 90 680).x) / ((hundredths 990 680).x - (hundredths 90 680).x), by decide +kernel,
    by decide +kernel, by decide +kernel, by decide +kernel⟩, fun σ => ⟨?_, ?_⟩, ?_⟩
  · have hr : [gate].filter (vertexRejectedRounded roundF64 (1 / 10 ^ 14) (Triangulator.new field)) = [] := by
      decide +kernel
    have h1 : shuffle (σ.sub 0) [gate] = [gate] := List.perm_singleton.1 (shuffle_perm _ _)
    have h2 : shuffle ((σ.sub 1).sub 0) ([] : List (Edge (Vertex ℚ))) = [] := List.perm_nil.1 (shuffle_perm _ _)
    simp only [insertVerticesRounded, hr, ne_eq, not_true_eq_false, if_false]
    rw [h1]
    simp [insertVerticesLoopRounded, Triangulator.new, h2, placeVertexRounded, gateRequest, setInsert]
  · have hx : [gate].filter (vertexRejected (1 / 10 ^ 14) (Triangulator.new field)) = [gate] := by decide +kernel
    simp only [insertVertices, hx, ne_eq, List.cons_ne_nil, not_false_eq_true, if_true]
  · obtain ⟨m, hm, hf, -⟩ := C93_panic_false
    exact ⟨m, hm, hf, by decide +kernel⟩

end Verif.Props
