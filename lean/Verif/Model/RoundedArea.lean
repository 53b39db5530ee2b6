import Verif.Model.Polyline

/-!
# The area of a polygon with a rounding after each operation
-/

namespace Verif

variable {K : Type*} [Field K] [LinearOrder K]

/-- The contribution of one segment to the area (src/properties/area.rs:7), in the order of the code. -/
def areaTermRounded (rnd : K → K) (s : Vertex K × Vertex K) : K :=
  rnd (rnd (rnd (s.2.x - s.1.x) * rnd (s.2.y + s.1.y)) / 2)

/-- `area_segments` (src/properties/area.rs:5-9): every operation is rounded, also the additions of the fold. -/
def areaSegmentsRounded (rnd : K → K) (l : List (Vertex K × Vertex K)) : K :=
  l.foldl (fun acc s => rnd (acc + areaTermRounded rnd s)) 0

/-- `segments_orientation` (src/elements/polyline.rs:899-910) with the rounded area. -/
def segmentsOrientationRounded (rnd : K → K) (l : List (Vertex K × Vertex K)) : Res Orientation :=
  if areaSegmentsRounded rnd l < 0 then .ok .counterclockwise
  else if areaSegmentsRounded rnd l > 0 then .ok .clockwise
  else .panic

end Verif
