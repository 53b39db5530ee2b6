import Verif.Model.Boolean
import Mathlib.Analysis.SpecialFunctions.Trigonometric.Inverse

/-!
# `src/properties/angle.rs`, over the real numbers
-/

namespace Verif

/-- `angle` (src/properties/angle.rs:11-25). The result is always `Some`. With a zero vector the code computes `NaN`; here
a division by zero is zero. -/
noncomputable def angle (eps : ℝ) (a b c : Vertex ℝ) : ℝ :=
  if orientation eps a b c = .clockwise then
    2 * Real.pi - Real.arccos (dot b a b c / (Real.sqrt (distSq a b) * Real.sqrt (distSq c b)))
  else Real.arccos (dot b a b c / (Real.sqrt (distSq a b) * Real.sqrt (distSq c b)))

end Verif
