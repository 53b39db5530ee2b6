import Mathlib.Data.Int.Log
import Mathlib.Data.Rat.Floor
import Mathlib.Algebra.Order.Field.Basic
import Mathlib.Algebra.Order.Group.Unbundled.Abs

/-!
# Rounding
-/

namespace Verif.Spec

variable {K : Type*} [Field K] [LinearOrder K]

/-- The result of a rounding is off by at most `u` times the size of the number, where numbers below `s` (the subnormal
ones) count as `s`. For the numbers of Rust's `f64`, `u = 2⁻⁵³` and `s = 2⁻¹⁰²²`. -/
structure Rounds (rnd : K → K) (u s : K) : Prop where
  u_nonneg : 0 ≤ u
  s_nonneg : 0 ≤ s
  error : ∀ x, |rnd x - x| ≤ u * max |x| s

/-- The nearest integer, the even one of two. -/
def nearestInt (y : ℚ) : ℤ :=
  if y - ⌊y⌋ < 1 / 2 then ⌊y⌋
  else if 1 / 2 < y - ⌊y⌋ then ⌊y⌋ + 1
  else if ⌊y⌋ % 2 = 0 then ⌊y⌋
  else ⌊y⌋ + 1

/-- The distance between neighbouring numbers of the format `f64` around `x`: 53 binary digits, and no more than 1074 binary
digits after the point. -/
def spacing (x : ℚ) : ℚ := (2 : ℚ) ^ (max (Int.log 2 |x|) (-1022) - 52)

/-- The rounding of Rust's `f64`: to the nearest number of the format, the even one of two. Overflow is left out: there is no
largest number. -/
def roundF64 (x : ℚ) : ℚ := nearestInt (x / spacing x) * spacing x

/-- The numbers of the format `f64`, without a largest one. -/
def IsF64 (x : ℚ) : Prop := ∃ m e : ℤ, |m| < 2 ^ 53 ∧ -1074 ≤ e ∧ x = m * (2 : ℚ) ^ e

/-- The coordinate is on the grid of width `2 ^ e`, at most `2 ^ 25` steps from zero. For `e = 0` these are the integers up to
33554432. -/
def OnGrid (e : ℤ) (x : ℚ) : Prop := ∃ n : ℤ, |n| ≤ 2 ^ 25 ∧ x = n * (2 : ℚ) ^ e

end Verif.Spec
