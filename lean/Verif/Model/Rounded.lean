import Verif.Model.Predicates

/-!
# The predicates with a rounding after each operation

The other modules compute without rounding. Here each operation of `src/properties/*.rs` is followed by a rounding function
`rnd`. Products with `1.0` and divisions by `2.0` are not rounded: they are exact for floating-point numbers (underflow of
the division is ignored). A comparison with `approx_eq!` subtracts zero and is exact. Overflow and NaN are not modelled.
-/

namespace Verif

variable {K : Type*} [Field K] [LinearOrder K]

/-- The determinant of `orientation` (src/properties/orientation.rs:20-21), in the order of operations of nalgebra's
`determinant` for three rows: the three minors, then the sum along the first row. -/
def orientDetRounded (rnd : K → K) (a b c : Vertex K) : K :=
  let minor1 := rnd (b.y - c.y)
  let minor2 := rnd (b.x - c.x)
  let minor3 := rnd (rnd (b.x * c.y) - rnd (c.x * b.y))
  rnd (rnd (rnd (a.x * minor1) - rnd (a.y * minor2)) + minor3)

/-- `orientation` (src/properties/orientation.rs:19-32). -/
def orientationRounded (rnd : K → K) (eps : K) (a b c : Vertex K) : Orientation :=
  if approxEq eps (orientDetRounded rnd a b c) 0 then .colinear
  else if orientDetRounded rnd a b c > 0 then .counterclockwise
  else .clockwise

/-- The quantity computed in `encroach` (src/properties/encroachment.rs:12). -/
def encroachMeasureRounded (rnd : K → K) (v1 v2 v : Vertex K) : K :=
  rnd (rnd (rnd (v.x - v2.x) * rnd (v.x - v1.x)) + rnd (rnd (v.y - v2.y) * rnd (v.y - v1.y)))

/-- `encroach` (src/properties/encroachment.rs:4-23). -/
def encroachRounded (rnd : K → K) (eps : K) (v1 v2 v : Vertex K) : Continence :=
  if approxEq eps (encroachMeasureRounded rnd v1 v2 v) 0 then .boundary
  else if encroachMeasureRounded rnd v1 v2 v > 0 then .outside
  else .inside

/-- `area_triangle` (src/properties/area.rs:11-23). -/
def areaTriangleRounded (rnd : K → K) (v1 v2 v3 : Vertex K) : K := orientDetRounded rnd v1 v2 v3 / 2

/-- `midpoint` (src/properties/midpoint.rs:3-10). -/
def midpointRounded (rnd : K → K) (v1 v2 : Vertex K) : Vertex K :=
  if v1.isGhost || v2.isGhost then Vertex.ghost
  else Vertex.mk' (rnd (v1.x + v2.x) / 2) (rnd (v1.y + v2.y) / 2)

end Verif
