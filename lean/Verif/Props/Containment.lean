import Verif.Lemmas.Winding
import Mathlib.Tactic.NormNum
import Mathlib.Algebra.Order.Ring.Rat

/-!
# Point in polygon (C08, C09)
-/

set_option linter.unusedSectionVars false

namespace Verif.Props

open Spec

variable {K : Type*} [Field K] [LinearOrder K] [IsStrictOrderedRing K]

/-- C08: for a closed polyline the answer is Boundary exactly when the point is within tolerance of one of
the segments; otherwise it is Inside exactly when the winding number of the polyline around the point is not
zero, and Outside exactly when it is zero. -/
theorem C08_winding {eps : K} (he : 0 ≤ eps) (p : Polyline (Vertex K)) (hp : p.opened = false)
    (v : Vertex K) :
    (p.contains eps v = some .boundary ↔
        ∃ s ∈ pairs p.vertices false, NearSegment eps s.1 s.2 v) ∧
      ((¬ ∃ s ∈ pairs p.vertices false, NearSegment eps s.1 s.2 v) →
        (p.contains eps v = some .inside ↔ windingNumber (pairs p.vertices false) v ≠ 0) ∧
        (p.contains eps v = some .outside ↔ windingNumber (pairs p.vertices false) v = 0)) := by
  have h := containsLoop_eq eps v (pairs p.vertices false) 0
  simp only [Polyline.contains, hp, Bool.false_eq_true, if_false, Option.some.injEq]
  refine ⟨h.1, fun hn => ?_⟩
  rw [h.2 hn, sum_contrib he _ _ hn, zero_add]
  by_cases hw : windingNumber (pairs p.vertices false) v = 0
  · simp [hw]
  · simp [hw]

/-- C08: with zero tolerance, Boundary means that the point is on one of the closed segments. -/
theorem C08_boundary_exact (p : Polyline (Vertex K)) (hp : p.opened = false) (v : Vertex K) :
    p.contains 0 v = some .boundary ↔ ∃ s ∈ pairs p.vertices false, OnSegment s.1 s.2 v := by
  rw [(C08_winding le_rfl p hp v).1]
  have key : ∀ a b : Vertex K, NearSegment 0 a b v ↔ OnSegment a b v := by
    intro a b
    constructor
    · rintro (⟨-, h⟩ | ⟨hx, h1, h2, h3⟩)
      · exact h
      · have hc : cross a b v = 0 := abs_nonpos_iff.1 h3
        obtain ⟨t, h0, h1', ht⟩ := exists_param hx ⟨h1, h2⟩
        refine ⟨t, h0, h1', ht, ?_⟩
        have hne : b.x - a.x ≠ 0 := sub_ne_zero.2 (Ne.symm hx)
        have : (b.x - a.x) * (v.y - a.y) = (b.x - a.x) * (t * (b.y - a.y)) := by
          have : (b.x - a.x) * (v.y - a.y) - (b.y - a.y) * (v.x - a.x) = 0 := hc
          rw [ht] at this
          linear_combination this
        have := mul_left_cancel₀ hne this
        linear_combination this
    · intro h
      by_cases hx : a.x = b.x
      · exact Or.inl ⟨hx, h⟩
      · have hb := (onSegment_box h).1
        exact Or.inr ⟨hx, hb.1, hb.2, by rw [onSegment_cross h, abs_zero]⟩
  simp only [key]

/-- C08: for an opened polyline there is no answer. -/
theorem C08_opened (eps : K) (p : Polyline (Vertex K)) (hp : p.opened = true) (v : Vertex K) :
    p.contains eps v = none := by
  simp [Polyline.contains, hp]

/-- A self-overlapping polyline: the square with corners (0,0) and (4,4) run through twice. -/
def doubleSquare : Polyline (Vertex ℚ) :=
  ⟨[⟨0, 0, false⟩, ⟨4, 0, false⟩, ⟨4, 4, false⟩, ⟨0, 4, false⟩,
    ⟨0, 0, false⟩, ⟨4, 0, false⟩, ⟨4, 4, false⟩, ⟨0, 4, false⟩], false, by simp⟩

/-- The winding number of the double square is 2 around a point level with no vertex, 0 outside. -/
example : windingNumber (pairs doubleSquare.vertices false) ⟨1, 2, false⟩ = 2 ∧
    windingNumber (pairs doubleSquare.vertices false) ⟨5, 2, false⟩ = 0 ∧
    ¬ ∃ s ∈ pairs doubleSquare.vertices false, NearSegment 0 s.1 s.2 ⟨1, 2, false⟩ := by
  refine ⟨?_, ?_, ?_⟩
  · norm_num [windingNumber, pairs, consecutivePairs, doubleSquare, crossingAbove, cross]
  · norm_num [windingNumber, pairs, consecutivePairs, doubleSquare, crossingAbove, cross]
  · rw [← (C08_winding le_rfl doubleSquare rfl _).1]
    simp only [Polyline.contains, doubleSquare, pairs, consecutivePairs]
    norm_num [Polyline.containsLoop, orientation, orientDet, det3, approxEq]
    decide

/-- C09: rotating the vertex list of a closed polyline does not change the answer. -/
theorem C09_rotate (eps : K) (p q : Polyline (Vertex K)) (hp : p.opened = false)
    (hq : q.opened = false) (k : Nat) (h : q.vertices = p.vertices.rotate k) (v : Vertex K) :
    q.contains eps v = p.contains eps v := by
  simp only [Polyline.contains, hp, hq, h, Bool.false_eq_true, if_false]
  rw [containsLoop_perm eps v (pairs_rotate p.vertices k)]

/-- C09: reversing the vertex list of a closed polyline does not change the answer. -/
theorem C09_reverse {eps : K} (he : 0 ≤ eps) (p q : Polyline (Vertex K)) (hp : p.opened = false)
    (hq : q.opened = false) (h : q.vertices = p.vertices.reverse) (v : Vertex K) :
    q.contains eps v = p.contains eps v := by
  simp only [Polyline.contains, hp, hq, h, Bool.false_eq_true, if_false]
  rw [containsLoop_perm eps v (pairs_reverse p.vertices), containsLoop_swap he]

example : (doubleSquare.vertices.rotate 3).head? = some ⟨0, 4, false⟩ ∧
    doubleSquare.vertices.reverse.head? = some ⟨0, 4, false⟩ := by
  constructor <;> rfl

end Verif.Props
