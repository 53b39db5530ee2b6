import Mathlib.Algebra.Order.Field.Basic

/-!
# Rounded square roots
-/

namespace Verif.Spec

variable {K : Type*} [Field K] [LinearOrder K]

/-- The square roots computed by `root` are off by at most `u` times their size, said without square roots. Rust's
`f64::sqrt` rounds the exact root to the nearest number, so for it `u = 2⁻⁵³`. -/
def RootRounds (root : K → K) (u : K) : Prop :=
  ∀ x, 0 ≤ x → 0 ≤ root x ∧ (1 - u) ^ 2 * x ≤ root x ^ 2 ∧ root x ^ 2 ≤ (1 + u) ^ 2 * x

end Verif.Spec
