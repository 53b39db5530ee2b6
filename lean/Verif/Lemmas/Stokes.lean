import Verif.Lemmas.Run
import Mathlib.Algebra.Order.Field.Basic
import Mathlib.Algebra.BigOperators.Group.List.Basic
import Mathlib.Tactic.Linarith

/-!
# A closed set of triangles has no boundary term
-/

set_option linter.unusedSectionVars false

namespace Verif

open Spec

variable {V : Type*} [DecidableEq V]

/-- A list of edges with each edge as often as its reverse. -/
def Balanced (l : List (Edge V)) : Prop := ∀ e, l.count e = l.count e.opposite

theorem Balanced.perm {l : List (Edge V)} (h : Balanced l) : l.Perm (l.map Edge.opposite) := by
  rw [List.perm_iff_count]
  intro e
  rw [count_opposite]
  exact h e

theorem balanced_of_watertight {l : List (Tri V)} (h : Watertight l) : Balanced (sides l) := by
  intro e
  have := h e.v1 e.v2
  rw [sideCount_sides, sideCount_sides] at this
  exact this

variable {K : Type*} [Field K] [LinearOrder K] [IsStrictOrderedRing K]

theorem sum_map_neg {α : Type*} (f : α → K) (l : List α) :
    (l.map fun a => - f a).sum = - (l.map f).sum := by
  induction l with
  | nil => simp
  | cons a l ih => simp [ih]; ring

/-- Stokes: an antisymmetric function of the directed edges sums to zero over a balanced list. -/
theorem Balanced.sum_eq_zero {l : List (Edge V)} (h : Balanced l) {f : Edge V → K}
    (hf : ∀ e, f e.opposite = - f e) : (l.map f).sum = 0 := by
  have h1 := (h.perm.map f).sum_eq
  rw [List.map_map] at h1
  have h2 : (f ∘ Edge.opposite) = fun e => - f e := funext hf
  rw [h2, sum_map_neg] at h1
  linarith

theorem sum_sides (f : Edge V → K) (l : List (Tri V)) :
    ((sides l).map f).sum = (l.map fun t => (t.innerEdges.map f).sum).sum := by
  induction l with
  | nil => simp [sides]
  | cons t l ih => rw [sides_cons, List.map_append, List.sum_append, ih]; simp

end Verif
