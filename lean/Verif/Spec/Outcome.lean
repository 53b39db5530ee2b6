import Verif.Model.Basic

/-!
# Outcomes

The model runs loops for a given number of steps and answers `diverged` when the steps do not suffice.
-/

namespace Verif.Spec

/-- `o` is the outcome of a computation: with few steps it may be unfinished, but no other answer is ever given, and from
some number of steps on the answer is `o`. If `o` is `diverged` the computation does not end, whatever the number of
steps. -/
structure Outcome {α : Type*} (x : Nat → Res α) (o : Res α) : Prop where
  only : ∀ n, x n = .diverged ∨ x n = o
  settled : ∃ n, ∀ k, n ≤ k → x k = o

end Verif.Spec
