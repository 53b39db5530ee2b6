import Verif.Spec.Geometry

/-!
# Segments cut into pieces
-/

namespace Verif.Spec

variable {K : Type*} [Field K] [LinearOrder K]

/-- The list is the segment `s`, cut at inner points: its pieces in order, all directed like `s`. -/
inductive Chop : Vertex K × Vertex K → List (Vertex K × Vertex K) → Prop
  | whole (s : Vertex K × Vertex K) : Chop s [s]
  | cut {a p b : Vertex K} {l m : List (Vertex K × Vertex K)} (h : StrictlyOn a b p) (hl : Chop (a, p) l)
      (hm : Chop (p, b) m) : Chop (a, b) (l ++ m)

/-- The segments of `r` are the pieces of the segments of `l`, in some order. -/
def Cuts (l r : List (Vertex K × Vertex K)) : Prop :=
  ∃ cs, List.Forall₂ Chop l cs ∧ r.Perm cs.flatten

/-- The segments form closed circuits that do not branch: one segment starts and one ends wherever a segment starts or
ends; none is a point and none is there in both directions. -/
structure Circuits {V : Type*} (l : List (V × V)) : Prop where
  next : ∀ s ∈ l, ∃ t ∈ l, t.1 = s.2
  starts : ∀ s ∈ l, ∀ t ∈ l, s.1 = t.1 → s = t
  ends : ∀ s ∈ l, ∀ t ∈ l, s.2 = t.2 → s = t
  proper : ∀ s ∈ l, s.1 ≠ s.2 ∧ (s.2, s.1) ∉ l

/-- The area enclosed by the circuits made of these segments, positive where they run counterclockwise. -/
def enclosed (l : List (Vertex K × Vertex K)) : K :=
  (l.map fun s => (s.1.x * s.2.y - s.2.x * s.1.y) / 2).sum

end Verif.Spec
