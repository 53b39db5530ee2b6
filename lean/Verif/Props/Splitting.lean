import Verif.Lemmas.SplitGeo
import Mathlib.Tactic.NormNum
import Mathlib.Algebra.Order.Ring.Rat
import Mathlib.Algebra.Field.Rat

/-!
# Splitting segments at their intersections (C12)

Exact arithmetic (tolerance zero), segments between ordinary vertices.
-/

set_option linter.unusedSectionVars false

namespace Verif.Props

open Spec

variable {K : Type*} [Field K] [LinearOrder K] [IsStrictOrderedRing K]

/-- C12: whenever two segments of the result that are not parallel share a point, the point is an end of
both. -/
theorem C12_no_crossings {l r : List (Vertex K × Vertex K)}
    (hl : ∀ s ∈ l, s.1.isGhost = false ∧ s.2.isGhost = false) {fuel : Nat}
    (hr : splitIntersections 0 fuel l = .ok r) :
    ∀ s ∈ r, ∀ t ∈ r, ¬ Parallel s.1 s.2 t.1 t.2 →
      ∀ q, OnSegment s.1 s.2 q → OnSegment t.1 t.2 q →
        (SamePoint s.1 q ∨ SamePoint s.2 q) ∧ (SamePoint t.1 q ∨ SamePoint t.2 q) := by
  have h := (splitIntersections_inv hl hr).apart
  have : Std.Symm (MeetAtEnds (K := K)) := ⟨fun _ _ hst => meetAtEnds_symm hst⟩
  have hself : ∀ s ∈ r, MeetAtEnds s s := fun s _ hp => absurd (by unfold Parallel; ring) hp
  intro s hs t ht
  exact h.forall_of_forall hself hs ht

/-- C12: the segments of the result cover the same points as the given ones, and each of them is part of
a given one. -/
theorem C12_cover {l r : List (Vertex K × Vertex K)}
    (hl : ∀ s ∈ l, s.1.isGhost = false ∧ s.2.isGhost = false) {fuel : Nat}
    (hr : splitIntersections 0 fuel l = .ok r) :
    (∀ q, (∃ s ∈ r, OnSegment s.1 s.2 q) ↔ ∃ s ∈ l, OnSegment s.1 s.2 q) ∧
      ∀ s ∈ r, ∃ t ∈ l, ∀ q, OnSegment s.1 s.2 q → OnSegment t.1 t.2 q := by
  have h := splitIntersections_inv hl hr
  refine ⟨h.cover, fun s hs => ?_⟩
  obtain ⟨t, ht, h1, h2⟩ := h.parent s hs
  exact ⟨t, ht, fun q hq => onSegment_trans h1 h2 hq⟩

/-- C12: splitting terminates and does not panic. -/
theorem C12_terminates (l : List (Vertex K × Vertex K))
    (hl : ∀ s ∈ l, s.1.isGhost = false ∧ s.2.isGhost = false) :
    ∃ n, ∀ fuel, n ≤ fuel → ∃ r, splitIntersections 0 fuel l = .ok r :=
  splitIntersections_total hl

/-- Two diagonals and a line through their crossing. -/
def starOfThree : List (Vertex ℚ × Vertex ℚ) :=
  [(⟨0, 0, false⟩, ⟨4, 4, false⟩), (⟨0, 4, false⟩, ⟨4, 0, false⟩), (⟨2, 2, false⟩, ⟨2, 5, false⟩),
    (⟨0, 1, false⟩, ⟨4, 1, false⟩)]

example : (∀ s ∈ starOfThree, s.1.isGhost = false ∧ s.2.isGhost = false) ∧
    ∃ r, splitIntersections 0 40 starOfThree = .ok r ∧ r.length = 10 :=
  ⟨by decide, match h : splitIntersections 0 40 starOfThree with
    | .ok r => ⟨r, rfl, by
        have : (splitIntersections 0 40 starOfThree).toOption.map List.length = some 10 := by
          decide +kernel
        rw [h] at this; simpa [Res.toOption] using this⟩
    | .panic => absurd h (by decide +kernel)
    | .diverged => absurd h (by decide +kernel)⟩

end Verif.Props
