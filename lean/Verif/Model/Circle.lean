import Verif.Model.Cli
import Mathlib.Analysis.SpecialFunctions.Trigonometric.Basic
import Mathlib.Algebra.Order.Round

/-!
# The circle parser over the real numbers

The circle parser is the only reader that uses real functions. Here they are the exact ones, where the code has the
rounded functions on `f64`.
-/

namespace Verif

/-- `dphi * index` (src/triangulator_interface/interpreter/circle_parser.rs:19-21). -/
noncomputable def circleAngle (n i : Nat) : ℝ := Real.pi * 2 / n * i

/-- `get_circle_point` (src/triangulator_interface/interpreter/circle_parser.rs:31-38). -/
noncomputable def circlePoint (radius angle : ℝ) (center : ℝ × ℝ) : Vertex ℝ :=
  let dx := radius * Real.cos angle
  let dy := radius * Real.sin angle
  Vertex.mk' (center.1 + dx) (center.2 + dy)

/-- `value.round() as usize` (src/triangulator_interface/interpreter/circle_parser.rs:15) and the loop body
(20-24). `round` of Rust differs from this one only for negative halves, and the conversion turns negative numbers into zero;
numbers above the largest `usize` are not treated. -/
noncomputable def realCircle : CircleFns ℝ where
  round x := (round x).toNat
  point r c n i := circlePoint r (circleAngle n i) c

end Verif
