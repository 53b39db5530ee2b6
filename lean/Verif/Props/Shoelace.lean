import Verif.Spec.Shoelace
import Verif.Lemmas.Winding
import Verif.Model.Polyline
import Mathlib.Algebra.Order.Ring.Rat
import Mathlib.Algebra.Field.Rat
import Mathlib.Tactic.Linarith
import Mathlib.Tactic.LinearCombination

/-!
# Areas (C39)
-/

set_option linter.unusedSectionVars false

namespace Verif.Props

open Spec

variable {K : Type*} [Field K] [LinearOrder K] [IsStrictOrderedRing K]

theorem areaSegments_sum (l : List (Vertex K × Vertex K)) :
    areaSegments l = (l.map fun s => (s.2.x - s.1.x) * (s.2.y + s.1.y) / 2).sum := by
  have h : ∀ (l : List (Vertex K × Vertex K)) (z : K),
      l.foldl (fun acc s => acc + (s.2.x - s.1.x) * (s.2.y + s.1.y) / 2) z =
        z + (l.map fun s => (s.2.x - s.1.x) * (s.2.y + s.1.y) / 2).sum := by
    intro l
    induction l with
    | nil => intro z; simp
    | cons s l ih => intro z; rw [List.foldl_cons, ih, List.map_cons, List.sum_cons]; ring
  rw [areaSegments, h, zero_add]

theorem shoelaceFrom_sum (first a : Vertex K) (l : List (Vertex K)) :
    shoelaceFrom first (a :: l) =
      ((consecutivePairs (a :: (l ++ [first]))).map fun s => (s.1.x * s.2.y - s.2.x * s.1.y) / 2).sum := by
  induction l generalizing a with
  | nil => simp [shoelaceFrom, consecutivePairs]
  | cons b l ih =>
    rw [shoelaceFrom, ih b]
    simp [consecutivePairs]

/-- The shoelace area as a sum over the sides. -/
theorem shoelace_sum (l : List (Vertex K)) :
    shoelace l = ((pairs l false).map fun s => (s.1.x * s.2.y - s.2.x * s.1.y) / 2).sum := by
  cases l with
  | nil => simp [shoelace, pairs, consecutivePairs]
  | cons a l => rw [shoelace, shoelaceFrom_sum, pairs_closed_eq]

theorem sum_map_add' {ι : Type*} (l : List ι) (f g : ι → K) :
    (l.map fun i => f i + g i).sum = (l.map f).sum + (l.map g).sum := by
  induction l with
  | nil => simp
  | cons a l ih => simp only [List.map_cons, List.sum_cons, ih]; ring

/-- C39: the area of the segments of a closed polygon is minus its signed area. -/
theorem C39_shoelace (l : List (Vertex K)) : areaSegments (pairs l false) = -shoelace l := by
  have h := sum_pairs_closed (fun v : Vertex K => v.x * v.y / 2) l
  rw [areaSegments_sum, shoelace_sum, eq_neg_iff_add_eq_zero, ← sum_map_add', ← h]
  congr 1
  apply List.map_congr_left
  intro s _
  ring

/-- C39: the first vertex does not matter. -/
theorem C39_rotate (l : List (Vertex K)) (k : Nat) :
    areaSegments (pairs (l.rotate k) false) = areaSegments (pairs l false) := by
  rw [areaSegments_sum, areaSegments_sum]
  exact ((pairs_rotate l k).map _).sum_eq

/-- C39: reversing the polygon changes the sign. -/
theorem C39_reverse (l : List (Vertex K)) :
    areaSegments (pairs l.reverse false) = -areaSegments (pairs l false) := by
  rw [areaSegments_sum, areaSegments_sum, ((pairs_reverse l).map _).sum_eq, List.map_map,
    eq_neg_iff_add_eq_zero, ← sum_map_add']
  apply List.sum_eq_zero
  intro x hx
  obtain ⟨s, _, rfl⟩ := List.mem_map.1 hx
  simp only [Function.comp, Prod.swap]
  ring

theorem consecutivePairs_map {V W : Type*} (f : V → W) (l : List V) :
    consecutivePairs (l.map f) = (consecutivePairs l).map fun s => (f s.1, f s.2) := by
  induction l with
  | nil => rfl
  | cons a l ih =>
    cases l with
    | nil => rfl
    | cons b m => simpa [consecutivePairs] using ih

theorem pairs_map {V W : Type*} (f : V → W) (l : List V) :
    pairs (l.map f) false = (pairs l false).map fun s => (f s.1, f s.2) := by
  cases l with
  | nil => rfl
  | cons a l =>
    rw [List.map_cons, pairs_closed_eq, pairs_closed_eq, ← consecutivePairs_map]
    simp

/-- C39: moving the polygon does not change the area. -/
theorem C39_translate (dx dy : K) (l : List (Vertex K)) :
    areaSegments (pairs (translate dx dy l) false) = areaSegments (pairs l false) := by
  have h := sum_pairs_closed (fun v : Vertex K => dy * v.x) l
  have h2 : areaSegments (pairs (translate dx dy l) false) = areaSegments (pairs l false) +
      ((pairs l false).map fun s => dy * s.2.x - dy * s.1.x).sum := by
    rw [translate, pairs_map, areaSegments_sum, areaSegments_sum, List.map_map, ← sum_map_add']
    congr 1
    apply List.map_congr_left
    intro s _
    simp only [Function.comp]
    ring
  rw [h2, h, add_zero]

theorem fan_sum (o : Vertex K) (l : List (Vertex K)) :
    fan o l = ((consecutivePairs l).map fun s =>
      ((s.1.x - o.x) * (s.2.y - o.y) - (s.1.y - o.y) * (s.2.x - o.x)) / 2).sum := by
  induction l with
  | nil => simp [fan, consecutivePairs]
  | cons a l ih =>
    cases l with
    | nil => simp [fan, consecutivePairs]
    | cons b m => rw [fan, ih, consecutivePairs, List.map_cons, List.sum_cons]

/-- C39: the signed areas of the triangles spanned by any point and the sides of the polygon add up to
the area. -/
theorem C39_fan (o a : Vertex K) (l : List (Vertex K)) :
    areaSegments (pairs (a :: l) false) = -fan o (a :: (l ++ [a])) := by
  have h := sum_pairs_closed (fun v : Vertex K => v.x * v.y / 2 - o.x * v.y / 2 + o.y * v.x / 2) (a :: l)
  rw [areaSegments_sum, fan_sum, ← pairs_closed_eq, eq_neg_iff_add_eq_zero, ← sum_map_add', ← h]
  congr 1
  apply List.map_congr_left
  intro s _
  ring

/-- C39: cutting the polygon `a l b m` along the chord from `a` to `b` splits its area. -/
theorem C39_cut (a b : Vertex K) (l m : List (Vertex K)) :
    areaSegments (pairs (a :: l ++ b :: m) false) =
      areaSegments (pairs (a :: l ++ [b]) false) + areaSegments (pairs (b :: m ++ [a]) false) := by
  have hc : ∀ (a b : Vertex K) (l m : List (Vertex K)),
      consecutivePairs (a :: l ++ b :: m) = consecutivePairs (a :: l ++ [b]) ++ consecutivePairs (b :: m) := by
    intro a b l m
    induction l generalizing a with
    | nil => simp [consecutivePairs]
    | cons c l ih =>
      have := ih c
      simp only [List.cons_append, consecutivePairs] at this ⊢
      rw [this]
  rw [areaSegments_sum, areaSegments_sum, areaSegments_sum, List.cons_append, pairs_closed_eq,
    List.cons_append, pairs_closed_eq, List.cons_append, pairs_closed_eq]
  have h1 := hc a b l (m ++ [a])
  have h2 := hc a b l [a]
  have h3 := hc b a m [b]
  simp only [List.append_assoc, List.cons_append, List.nil_append] at h1 h2 h3 ⊢
  rw [h1, h2, h3]
  simp only [List.map_append, List.sum_append, consecutivePairs, List.map_cons, List.map_nil,
    List.sum_cons, List.sum_nil]
  ring

/-- C39: the area of a triangle is half the cross product of two sides, and agrees with the area of its
segments. -/
theorem C39_triangle (a b c : Vertex K) :
    areaTriangle a b c = cross a b c / 2 ∧ areaTriangle a b c = -areaSegments (pairs [a, b, c] false) := by
  have h : areaTriangle a b c = cross a b c / 2 := by rw [areaTriangle, orientDet_eq]
  refine ⟨h, ?_⟩
  rw [h, C39_shoelace, neg_neg]
  simp only [shoelace, shoelaceFrom, cross]
  ring

/-- C39: the orientation of a polygon is the sign of its area; a polygon of area zero has none (the code
panics). -/
theorem C39_orientation (l : List (Vertex K)) :
    (segmentsOrientation (pairs l false) = .ok .counterclockwise ↔ 0 < shoelace l) ∧
      (segmentsOrientation (pairs l false) = .ok .clockwise ↔ shoelace l < 0) ∧
      (segmentsOrientation (pairs l false) = .panic ↔ shoelace l = 0) := by
  unfold segmentsOrientation
  rw [C39_shoelace]
  rcases lt_trichotomy (shoelace l) 0 with h | h | h
  · rw [if_neg (by linarith), if_pos (by linarith)]
    simp [h, h.ne, h.le]
  · simp [h]
  · rw [if_pos (by linarith)]
    simp [h, h.ne', h.le]

/-- An L-shaped polygon of area 3. -/
example : areaSegments (pairs ([⟨0, 0, false⟩, ⟨2, 0, false⟩, ⟨2, 1, false⟩, ⟨1, 1, false⟩, ⟨1, 2, false⟩,
    ⟨0, 2, false⟩] : List (Vertex ℚ)) false) = -3 := by decide +kernel

end Verif.Props
