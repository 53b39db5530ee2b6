import Verif.Model.Refine
import Verif.Model.Rounded

/-!
# Splitting a segment with a rounding after each operation
-/

namespace Verif

variable {K : Type*} [Field K] [LinearOrder K]

/-- `Edge::midpoint` (src/elements/edge.rs:60-70): the sum and the division by two are both rounded. -/
def Edge.midpointRounded (rnd : K → K) (e : Edge (Vertex K)) : Vertex K :=
  Vertex.mk' (rnd (rnd (e.v1.x + e.v2.x) / 2)) (rnd (rnd (e.v1.y + e.v2.y) / 2))

/-- The predicates of the refinement with the two that decide about the splitting of segments, `Edge::encroach`
(src/elements/edge.rs:56-58) and `Edge::midpoint` (src/elements/edge.rs:60-70), computed with rounding. All the other ones
are taken from `P`. -/
def splitPredsRounded (rnd : K → K) (eps : K) (P : RPreds (Vertex K)) : RPreds (Vertex K) :=
  { P with
    encroaches := fun e v => decide (encroachRounded rnd eps e.v1 e.v2 v = .inside)
    mid := Edge.midpointRounded rnd }

end Verif
