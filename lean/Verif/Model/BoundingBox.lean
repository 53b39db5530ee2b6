import Verif.Model.Predicates

/-!
# `src/elements/bounding_box.rs` and `src/properties/intersection.rs`
-/

namespace Verif

variable {K : Type*} [Field K] [LinearOrder K]

/-- `min` (src/elements/bounding_box.rs:104-109). -/
def fmin (a b : K) : K := if a < b then a else b

/-- `max` (src/elements/bounding_box.rs:111-116). -/
def fmax (a b : K) : K := if a > b then a else b

/-- `struct BoundingBox` (src/elements/bounding_box.rs:5-8). -/
structure BBox (K : Type*) where
  origin : Vertex K
  destin : Vertex K

namespace BBox

/-- `BoundingBox::from_vertices` (src/elements/bounding_box.rs:19-40). -/
def fromVertices : List (Vertex K) → Option (BBox K)
  | [] => none
  | v0 :: rest =>
    let l := v0 :: rest
    some
      ⟨Vertex.mk' (l.foldl (fun m v => fmin m v.x) v0.x) (l.foldl (fun m v => fmin m v.y) v0.y),
        Vertex.mk' (l.foldl (fun m v => fmax m v.x) v0.x) (l.foldl (fun m v => fmax m v.y) v0.y)⟩

/-- `BoundingBox::contains` (src/elements/bounding_box.rs:42-47). -/
def contains (b : BBox K) (v : Vertex K) : Bool :=
  (decide (v.x ≤ b.destin.x) && decide (v.x ≥ b.origin.x)) &&
    (decide (v.y ≤ b.destin.y) && decide (v.y ≥ b.origin.y))

/-- `BoundingBox::intersection` (src/elements/bounding_box.rs:49-66). -/
def intersection (b1 b2 : BBox K) : Option (BBox K) :=
  let lowerX := fmax b1.origin.x b2.origin.x
  let upperX := fmin b1.destin.x b2.destin.x
  let lowerY := fmax b1.origin.y b2.origin.y
  let upperY := fmin b1.destin.y b2.destin.y
  if lowerX ≤ upperX ∧ lowerY ≤ upperY then
    some ⟨Vertex.mk' lowerX lowerY, Vertex.mk' upperX upperY⟩
  else none

/-- `BoundingBox::union` (src/elements/bounding_box.rs:68-78). -/
def union (b1 b2 : BBox K) : BBox K :=
  ⟨Vertex.mk' (fmin b1.origin.x b2.origin.x) (fmin b1.origin.y b2.origin.y),
    Vertex.mk' (fmax b1.destin.x b2.destin.x) (fmax b1.destin.y b2.destin.y)⟩

/-- `BoundingBox::union_list` (src/elements/bounding_box.rs:80-101). -/
def unionList : List (BBox K) → Option (BBox K)
  | [] => none
  | b0 :: rest =>
    let l := b0 :: rest
    some
      ⟨Vertex.mk' (l.foldl (fun m b => fmin m b.origin.x) b0.origin.x)
          (l.foldl (fun m b => fmin m b.origin.y) b0.origin.y),
        Vertex.mk' (l.foldl (fun m b => fmax m b.destin.x) b0.destin.x)
          (l.foldl (fun m b => fmax m b.destin.y) b0.destin.y)⟩

end BBox

/-- `intersection_region` (src/properties/intersection.rs:45-58). The two `unwrap`s cannot fail as both
lists have two elements; the model keeps the `Option`. -/
def intersectionRegion (v1 v2 v3 v4 : Vertex K) : Option (BBox K) :=
  match BBox.fromVertices [v1, v2], BBox.fromVertices [v3, v4] with
  | some b1, some b2 => BBox.intersection b1 b2
  | _, _ => none

/-- `intersection_vertex` (src/properties/intersection.rs:63-120). -/
def intersectionVertex (eps : K) (v1 v2 v3 v4 : Vertex K) (bbox : BBox K) : Option (Vertex K) :=
  let m := segMatrix v1 v2 v3 v4
  let b1 := v1.y * (v2.x - v1.x) - v1.x * (v2.y - v1.y)
  let b2 := v3.y * (v4.x - v3.x) - v3.x * (v4.y - v3.y)
  if !m.isInvertible then
    let mx := (bbox.origin.x + bbox.destin.x) / 2
    let my := (bbox.origin.y + bbox.destin.y) / 2
    let ev := m.mul mx my
    if approxEq eps (ev.1 - b1) 0 && approxEq eps (ev.2 - b2) 0 then some (Vertex.mk' mx my)
    else none
  else
    let p := m.invMul b1 b2
    some (Vertex.mk' p.1 p.2)

/-- One of the two interval tests of `intersection` (src/properties/intersection.rs:26-31). -/
def inInterval (eps lo hi v : K) : Bool :=
  (decide (v ≥ lo) && decide (v ≤ hi)) || approxEq eps lo v || approxEq eps hi v

/-- `intersection` (src/properties/intersection.rs:18-40). -/
def intersection (eps : K) (v1 v2 v3 v4 : Vertex K) : Option (Vertex K) :=
  match intersectionRegion v1 v2 v3 v4 with
  | none => none
  | some bbox =>
    match intersectionVertex eps v1 v2 v3 v4 bbox with
    | none => none
    | some v =>
      if inInterval eps bbox.origin.x bbox.destin.x v.x
          && inInterval eps bbox.origin.y bbox.destin.y v.y then some v
      else none

end Verif
