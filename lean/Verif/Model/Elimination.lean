import Verif.Model.Predicates

/-!
# The determinant of the circle test, as it is computed

nalgebra computes determinants of four rows by elimination with row exchanges (`LU::new`, `determinant`), not by the formula
that `det4` expands. nalgebra's source is not part of the repository: the order of operations below is that of its version
0.22 as documented. Each operation is followed by a rounding function `rnd`. Changes of sign and the final product with the
sign of the permutation are exact.
-/

namespace Verif

variable {K : Type*} [Field K] [LinearOrder K]

/-- `icamax` on the rest of a column: the position of the first entry of largest size. `i` is the position of the next
entry, `best` that of the largest entry so far and `size` its size. -/
def pivotLoop : List K → Nat → Nat → K → Nat
  | [], _, best, _ => best
  | x :: xs, i, best, size => if |x| > size then pivotLoop xs (i + 1) i |x| else pivotLoop xs (i + 1) best size

/-- The row that is exchanged with the first one. -/
def pivotRow (rows : List (List K)) : Nat :=
  match rows with
  | [] => 0
  | row :: rest => pivotLoop (rest.map fun r => r.headD 0) 1 0 |row.headD 0|

/-- The exchange of the first row and row `k`. -/
def exchangeRow (rows : List (List K)) (k : Nat) : List (List K) :=
  match k, rows with
  | j + 1, row :: rest =>
    match rest[j]? with
    | some p => p :: rest.set j row
    | none => row :: rest
  | _, _ => rows

/-- `gauss_step` on one row below the pivot: the first entry times the rounded inverse of the pivot is the coefficient, and
the products of the pivot's row with it are subtracted (`axpy`). -/
def reduceRow (rnd : K → K) (inv : K) (pivot row : List K) : List K :=
  let coeff := rnd (row.headD 0 * inv)
  List.zipWith (fun p y => rnd (rnd (-p * coeff) + y)) pivot row.tail

/-- `LU::new` for `n` columns: the diagonal, and the sign of the exchanges. A column of zeros is skipped. -/
def eliminate (rnd : K → K) : Nat → List (List K) → List K × K
  | 0, _ => ([], 1)
  | n + 1, rows =>
    let k := pivotRow rows
    match exchangeRow rows k with
    | [] => ([], 1)
    | top :: rest =>
      let diag := top.headD 0
      if diag = 0 then
        let out := eliminate rnd n (rest.map List.tail)
        (diag :: out.1, out.2)
      else
        let out := eliminate rnd n (rest.map (reduceRow rnd (rnd (1 / diag)) top.tail))
        (diag :: out.1, if k = 0 then out.2 else -out.2)

/-- `determinant` of `LU`: the product of the diagonal, from the top, times the sign. -/
def eliminationDet (rnd : K → K) (n : Nat) (rows : List (List K)) : K :=
  (eliminate rnd n rows).1.foldl (fun r d => rnd (r * d)) 1 * (eliminate rnd n rows).2

/-- A row of the matrix of `continence` (src/properties/continence.rs:26-29). `powi(2)` is one multiplication. -/
def circleRow (rnd : K → K) (v : Vertex K) : List K :=
  [v.x, v.y, rnd (rnd (v.x ^ 2) + rnd (v.y ^ 2)), 1]

/-- The determinant computed in `continence` (src/properties/continence.rs:25-31). -/
def circleDetRounded (rnd : K → K) (a b c d : Vertex K) : K :=
  eliminationDet rnd 4 [circleRow rnd a, circleRow rnd b, circleRow rnd c, circleRow rnd d]

/-- `continence` (src/properties/continence.rs:24-42). -/
def continenceRounded (rnd : K → K) (eps : K) (a b c d : Vertex K) : Continence :=
  if approxEq eps (circleDetRounded rnd a b c d) 0 then .boundary
  else if circleDetRounded rnd a b c d > 0 then .inside
  else .outside

end Verif
