import Verif.Model.Vertex

/-!
# `src/properties/*.rs`: geometric predicates

Determinants and 2x2 inverses of `nalgebra` are written out exactly.
-/

namespace Verif

variable {K : Type*} [Field K] [LinearOrder K]

/-- `enum Orientation` (src/properties/orientation.rs:8-13). -/
inductive Orientation where
  | counterclockwise
  | clockwise
  | colinear
  deriving DecidableEq, Repr

/-- `enum Continence` (src/properties/continence.rs:7-12). -/
inductive Continence where
  | inside
  | outside
  | boundary
  deriving DecidableEq, Repr

/-- `enum BoundaryInclusion` (src/properties/continence.rs:14-18). -/
inductive BoundaryInclusion where
  | opened
  | closed
  deriving DecidableEq, Repr

/-- `Matrix3::new(a,b,c,d,e,f,g,h,i).determinant()`. -/
def det3 (a b c d e f g h i : K) : K :=
  a * (e * i - f * h) - b * (d * i - f * g) + c * (d * h - e * g)

/-- `Matrix4::new(..).determinant()`, expanded along the first row. -/
def det4 (a b c d e f g h i j k l m n o p : K) : K :=
  a * det3 f g h j k l n o p - b * det3 e g h i k l m o p
    + c * det3 e f h i j l m n p - d * det3 e f g i j k m n o

/-- The determinant computed in `orientation` (src/properties/orientation.rs:20-21). -/
def orientDet (a b c : Vertex K) : K := det3 a.x a.y 1 b.x b.y 1 c.x c.y 1

/-- `orientation` (src/properties/orientation.rs:19-32). -/
def orientation (eps : K) (a b c : Vertex K) : Orientation :=
  if approxEq eps (orientDet a b c) 0 then .colinear
  else if orientDet a b c > 0 then .counterclockwise
  else .clockwise

/-- The determinant computed in `continence` (src/properties/continence.rs:25-31). -/
def circleDet (a b c d : Vertex K) : K :=
  det4 a.x a.y (a.x ^ 2 + a.y ^ 2) 1
    b.x b.y (b.x ^ 2 + b.y ^ 2) 1
    c.x c.y (c.x ^ 2 + c.y ^ 2) 1
    d.x d.y (d.x ^ 2 + d.y ^ 2) 1

/-- `continence` (src/properties/continence.rs:24-42). -/
def continence (eps : K) (a b c d : Vertex K) : Continence :=
  if approxEq eps (circleDet a b c d) 0 then .boundary
  else if circleDet a b c d > 0 then .inside
  else .outside

/-- The quantity computed in `encroach` (src/properties/encroachment.rs:12). -/
def encroachMeasure (v1 v2 v : Vertex K) : K :=
  (v.x - v2.x) * (v.x - v1.x) + (v.y - v2.y) * (v.y - v1.y)

/-- `encroach` (src/properties/encroachment.rs:4-23). -/
def encroach (eps : K) (v1 v2 v : Vertex K) : Continence :=
  if approxEq eps (encroachMeasure v1 v2 v) 0 then .boundary
  else if encroachMeasure v1 v2 v > 0 then .outside
  else .inside

/-- A 2x2 matrix `Matrix2::new(a, b, c, d)` of nalgebra (row major). -/
structure Mat2 (K : Type*) where
  a : K
  b : K
  c : K
  d : K

namespace Mat2

/-- Determinant. -/
def det (m : Mat2 K) : K := m.a * m.d - m.b * m.c

/-- `is_invertible` (nalgebra: the determinant is exactly zero or not). -/
def isInvertible (m : Mat2 K) : Bool := decide (m.det ≠ 0)

/-- `try_inverse().unwrap() * b`, only used when invertible. -/
def invMul (m : Mat2 K) (b1 b2 : K) : K × K :=
  ((m.d * b1 - m.b * b2) / m.det, (m.a * b2 - m.c * b1) / m.det)

/-- `m * (x, y)`. -/
def mul (m : Mat2 K) (x y : K) : K × K := (m.a * x + m.b * y, m.c * x + m.d * y)

end Mat2

/-- `circumcenter` (src/properties/circumcenter.rs:4-41). -/
def circumcenter (v1 v2 v3 : Vertex K) : Option (Vertex K) :=
  let m : Mat2 K := ⟨v3.x - v1.x, v3.y - v1.y, v2.x - v1.x, v2.y - v1.y⟩
  if !m.isInvertible then none
  else
    let c := m.invMul (v3.x ^ 2 - v1.x ^ 2 + v3.y ^ 2 - v1.y ^ 2)
      (v2.x ^ 2 - v1.x ^ 2 + v2.y ^ 2 - v1.y ^ 2)
    some (Vertex.mk' (c.1 / 2) (c.2 / 2))

/-- `area_segments` (src/properties/area.rs:5-9). -/
def areaSegments (l : List (Vertex K × Vertex K)) : K :=
  l.foldl (fun acc s => acc + (s.2.x - s.1.x) * (s.2.y + s.1.y) / 2) 0

/-- `area_triangle` (src/properties/area.rs:11-23). -/
def areaTriangle (v1 v2 v3 : Vertex K) : K := orientDet v1 v2 v3 / 2

/-- `midpoint` (src/properties/midpoint.rs:3-10). -/
def midpoint (v1 v2 : Vertex K) : Vertex K :=
  if v1.isGhost || v2.isGhost then Vertex.ghost
  else Vertex.mk' ((v1.x + v2.x) / 2) ((v1.y + v2.y) / 2)

/-- The radicand of `distance` (src/properties/distance.rs:3-5). -/
def distSq (v1 v2 : Vertex K) : K := (v1.x - v2.x) ^ 2 + (v1.y - v2.y) ^ 2

/-- `dot` (src/properties/dot.rs:10-28). -/
def dot (a b c d : Vertex K) : K := (b.x - a.x) * (d.x - c.x) + (b.y - a.y) * (d.y - c.y)

/-- The matrix built in `parallel` (src/properties/parallel.rs:23) and in `intersection_vertex`
(src/properties/intersection.rs:83). -/
def segMatrix (a b c d : Vertex K) : Mat2 K :=
  ⟨-(b.y - a.y), b.x - a.x, -(d.y - c.y), d.x - c.x⟩

/-- `parallel` (src/properties/parallel.rs:10-25). -/
def parallel (a b c d : Vertex K) : Bool := !(segMatrix a b c d).isInvertible

end Verif
