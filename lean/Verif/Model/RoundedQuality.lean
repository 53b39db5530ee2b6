import Verif.Model.RoundedRefine

/-!
# The quality of a triangle with a rounding after each operation
-/

namespace Verif

variable {K : Type*} [Field K] [LinearOrder K]

/-- `distance` (src/properties/distance.rs:3-5); `root` is the square root together with its rounding. -/
def distanceRounded (rnd root : K → K) (a b : Vertex K) : K :=
  root (rnd (rnd (rnd (a.x - b.x) * rnd (a.x - b.x)) + rnd (rnd (a.y - b.y) * rnd (a.y - b.y))))

/-- The choice among the sides in `Triangle::quality` (src/elements/triangle.rs:109-115): the product of the two sides that
are not taken for the shortest one. -/
def sideProductRounded (rnd : K → K) (a b c : K) : K :=
  if a ≤ b ∧ a ≤ c then rnd (b * c)
  else if b ≤ c then rnd (a * c)
  else rnd (a * b)

/-- `Triangle::quality` (src/elements/triangle.rs:89-117). A division by an area of zero gives an infinity in the code and
zero here: triangles with computed area zero differ. -/
def Tri.qualityRounded (rnd root : K → K) (t : Tri (Vertex K)) : Option K :=
  match t.areaRounded rnd with
  | none => none
  | some area =>
    some (rnd (sideProductRounded rnd (distanceRounded rnd root t.v1 t.v2) (distanceRounded rnd root t.v2 t.v3)
      (distanceRounded rnd root t.v3 t.v1) / rnd (4 * area)))

/-- `is_irregular_triangle` (src/planar/refine_procedures/triangle_split.rs:15-25) on a solid triangle. -/
def isIrregularRounded (rnd root : K → K) (eps ratio : K) (t : Tri (Vertex K)) : Bool :=
  match t.qualityRounded rnd root with
  | some q => approxEqRounded rnd eps q ratio || decide (q ≥ ratio)
  | none => false

end Verif
