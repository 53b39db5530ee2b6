import Verif.Model.RoundedContinence
import Verif.Model.Triangulator

/-!
# `refine` with a rounding after each operation

The quality of a triangle needs a square root; here the answers of `is_irregular_triangle` are a parameter, so that what is
proved holds whatever they are.
-/

namespace Verif

variable {K : Type*} [Field K] [LinearOrder K]

/-- `circumcenter` (src/properties/circumcenter.rs:4-41). The entries of the inverse are halved before the product; the sums
are taken from left to right. -/
def circumcenterRounded (rnd : K → K) (v1 v2 v3 : Vertex K) : Option (Vertex K) :=
  let m : Mat2 K := ⟨rnd (v3.x - v1.x), rnd (v3.y - v1.y), rnd (v2.x - v1.x), rnd (v2.y - v1.y)⟩
  if !m.isInvertibleRounded rnd then none
  else
    let det := m.detRounded rnd
    let half : Mat2 K := ⟨rnd (rnd (m.d / det) / 2), rnd (rnd (-m.b / det) / 2), rnd (rnd (-m.c / det) / 2),
      rnd (rnd (m.a / det) / 2)⟩
    let sq := fun x : K => rnd (x * x)
    let c := half.mulRounded rnd (rnd (rnd (rnd (sq v3.x - sq v1.x) + sq v3.y) - sq v1.y))
      (rnd (rnd (rnd (sq v2.x - sq v1.x) + sq v2.y) - sq v1.y))
    some (Vertex.mk' c.1 c.2)

/-- `Triangle::circumcenter` (src/elements/triangle.rs:82-87). -/
def Tri.circumcenterRounded (rnd : K → K) (t : Tri (Vertex K)) : Option (Vertex K) :=
  if t.isGhost Vertex.isGhost then none else Verif.circumcenterRounded rnd t.v1 t.v2 t.v3

/-- `Triangle::area` (src/elements/triangle.rs:51-56). -/
def Tri.areaRounded (rnd : K → K) (t : Tri (Vertex K)) : Option K :=
  if t.isGhost Vertex.isGhost then none else some (rnd (areaTriangleRounded rnd t.v1 t.v2 t.v3))

/-- `is_large_triangle` (src/planar/refine_procedures/triangle_split.rs:30-41) on a solid triangle. -/
def isLargeRounded (rnd : K → K) (eps : K) (maxArea : Option K) (t : Tri (Vertex K)) : Bool :=
  match t.areaRounded rnd, maxArea with
  | some a, some mx => approxEqRounded rnd eps a mx || decide (a ≥ mx)
  | _, _ => false

/-- The refinement predicates as the code computes them; `irregular` are the answers of `is_irregular_triangle`
(src/planar/refine_procedures/triangle_split.rs:15-25). -/
def refinePredsRounded (rnd : K → K) (eps : K) (fuel : Nat) (irregular : Tri (Vertex K) → Bool) (maxArea : Option K)
    (boundary : Option (Polyline (Vertex K))) (holes : List (Polyline (Vertex K))) : RPreds (Vertex K) where
  toPreds := domainPredsRounded rnd eps fuel boundary holes
  encroaches e v := decide (encroachRounded rnd eps e.v1 e.v2 v = .inside)
  mid := Edge.midpointRounded rnd
  circumcenter := Tri.circumcenterRounded rnd
  irregular := irregular
  large := isLargeRounded rnd eps maxArea

namespace Triangulator

/-- `Triangulator::refine` (src/planar/triangulator.rs:256-309) with the answers of `P` to the geometric questions. -/
def refineWith (P : RPreds (Vertex K)) (fuel : Nat) (σ : Sched) (T : Triangulator K) : Res (Triangulator K) :=
  (unencroach P fuel (σ.sub 0) T.constraints T.mesh).bind fun r =>
    (splitIrregular P fuel (σ.sub 1) (updateConstraints T.constraints r.2) r.1).bind fun s =>
      .ok { T with mesh := s.mesh }

/-- `Triangulator::refine` (src/planar/triangulator.rs:256-309). -/
def refineRounded (rnd : K → K) (eps : K) (fuel : Nat) (irregular : Tri (Vertex K) → Bool) (maxArea : Option K) (σ : Sched)
    (T : Triangulator K) : Res (Triangulator K) :=
  refineWith (refinePredsRounded rnd eps fuel irregular maxArea (some T.boundary) T.holes) fuel σ T

end Triangulator

end Verif
