import Verif.Spec.Geometry
import Verif.Model.Edge
import Mathlib.Tactic.Ring
import Mathlib.Tactic.Linarith
import Mathlib.Tactic.LinearCombination
import Mathlib.Tactic.FieldSimp
import Mathlib.Tactic.Positivity

/-! Identities between the determinants of the code and plane geometry. -/

set_option linter.unusedSectionVars false

namespace Verif

open Spec

variable {K : Type*} [Field K] [LinearOrder K]

theorem orientDet_eq (a b c : Vertex K) : orientDet a b c = cross a b c := by
  simp only [orientDet, det3, cross]; ring

theorem cross_rotate (a b c : Vertex K) : cross b c a = cross a b c := by
  simp only [cross]; ring

theorem cross_swap (a b c : Vertex K) : cross b a c = -cross a b c := by
  simp only [cross]; ring

theorem cross_swap' (a b c : Vertex K) : cross a c b = -cross a b c := by
  simp only [cross]; ring

theorem cross_self_left (a c : Vertex K) : cross a a c = 0 := by simp only [cross]; ring

theorem cross_self_right (a b : Vertex K) : cross a b b = 0 := by simp only [cross]; ring

theorem cross_self_outer (a b : Vertex K) : cross a b a = 0 := by simp only [cross]; ring

theorem cross_split (a b c p : Vertex K) :
    cross a b p + cross b c p + cross c a p = cross a b c := by
  simp only [cross]; ring

/-- The in-circle determinant expanded on its third column, shifted by an arbitrary centre. -/
theorem circleDet_expand (o a b c d : Vertex K) :
    circleDet a b c d =
      dist2 o a * cross b c d - dist2 o b * cross a c d + dist2 o c * cross a b d
        - dist2 o d * cross a b c := by
  simp only [circleDet, det4, det3, dist2, cross]; ring

theorem circleDet_eq {o a b c : Vertex K} (h : Equidistant o a b c) (d : Vertex K) :
    circleDet a b c d = cross a b c * (dist2 o a - dist2 o d) := by
  rw [circleDet_expand o, ← h.1, ← h.2]
  have : cross b c d - cross a c d + cross a b d = cross a b c := by simp only [cross]; ring
  linear_combination (dist2 o a) * this

theorem encroachMeasure_eq [IsStrictOrderedRing K] (a b p : Vertex K) :
    4 * encroachMeasure a b p = 4 * dist2 (midpoint a b) p - dist2 a b ∨
      (a.isGhost || b.isGhost) = true := by
  by_cases h : (a.isGhost || b.isGhost) = true
  · exact Or.inr h
  · left
    simp only [encroachMeasure, dist2, midpoint, h, Vertex.mk']
    simp only [Bool.false_eq_true, if_false]
    field_simp
    ring

section approx

variable [IsStrictOrderedRing K]

theorem approxEq_zero_iff {eps a : K} : approxEq eps a 0 = true ↔ |a| ≤ eps := by
  simp [approxEq]

theorem approxEq_zero_eps {a b : K} : approxEq 0 a b = true ↔ a = b := by
  simp [approxEq, abs_nonpos_iff, sub_eq_zero]

end approx

end Verif
