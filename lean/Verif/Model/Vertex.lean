import Verif.Model.Basic
import Mathlib.Algebra.Order.Field.Basic
import Mathlib.Algebra.Order.AbsoluteValue.Basic

/-!
# `src/elements/vertex.rs`

`f64` is an arbitrary linearly ordered field `K`; the tolerance `1.0E-14` is the parameter `eps`.
-/

namespace Verif

variable {K : Type*} [Field K] [LinearOrder K]

/-- `float_cmp::approx_eq!(f64, a, b, epsilon = eps)` (float_cmp 0.8: the ulps margin is zero, so on
finite numbers this is `|a - b| ≤ eps`). Used all over `/repo/src`. -/
def approxEq (eps a b : K) : Bool := decide (|a - b| ≤ eps)

/-- `struct Vertex` (src/elements/vertex.rs:11-16). Equality of this structure is identity of the bit
pattern, i.e. what hashing distinguishes (vertex.rs:18-32). -/
structure Vertex (K : Type*) where
  x : K
  y : K
  isGhost : Bool
  deriving DecidableEq, Repr

namespace Vertex

/-- `Vertex::new` (src/elements/vertex.rs:86-92). -/
def mk' (x y : K) : Vertex K := ⟨x, y, false⟩

/-- `Vertex::new_ghost` (src/elements/vertex.rs:94-100). -/
def ghost : Vertex K := ⟨0, 0, true⟩

/-- `impl PartialEq for Vertex` (src/elements/vertex.rs:34-44). -/
def eqv (eps : K) (a b : Vertex K) : Bool :=
  if a.isGhost && b.isGhost then true
  else (a.isGhost == b.isGhost) && approxEq eps a.x b.x && approxEq eps a.y b.y

/-- `impl Ord for Vertex` (src/elements/vertex.rs:48-68). -/
def cmp (a b : Vertex K) : Ordering :=
  if a.isGhost && b.isGhost then .eq
  else if a.x > b.x then .gt
  else if a.x < b.x then .lt
  else if a.y > b.y then .gt
  else if a.y < b.y then .lt
  else .eq

/-- The data fed to the hasher (src/elements/vertex.rs:18-32): `integer_decode` is injective on finite
floats, so the two coordinates and the flag stand for it. -/
def hashKey (a : Vertex K) : K × K × Bool := (a.x, a.y, a.isGhost)

/-- `Vertex::from_coordinates` (src/elements/vertex.rs:102-120); panics on an odd number. -/
def fromCoordinates : List K → Res (List (Vertex K))
  | [] => .ok []
  | [_] => .panic
  | x :: y :: rest => (fromCoordinates rest).bind fun l => .ok (mk' x y :: l)

/-- The comparison closure of `Vertex::sort` (src/elements/vertex.rs:122-127): when the abscissae
differ it compares `v1.x` with `v2.y`. -/
def sortLe (a b : Vertex K) : Bool :=
  if a.x = b.x then decide (a.y ≤ b.y) else decide (a.x ≤ b.y)

/-- `Vertex::sort` (src/elements/vertex.rs:122-127). `slice::sort_by` is a stable merge sort; the
comparison is not a total order, so the exact result of the standard library is unspecified; for two elements
it is what a merge sort does. -/
def sort (l : List (Vertex K)) : List (Vertex K) := l.mergeSort sortLe

end Vertex

end Verif
