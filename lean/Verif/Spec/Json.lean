import Verif.Model.Json

/-!
# What a document says

Relations between JSON values and the data they stand for, written without the reading functions of the model.
-/

namespace Verif.Spec

variable {K U : Type*} [Field K] [LinearOrder K]

/-- The object with the entries `l` has exactly one entry named `k`, and its value is `v`. -/
def Given (l : List (String × Json K)) (k : String) (v : Json K) : Prop :=
  ∃ l1 l2, l = l1 ++ (k, v) :: l2 ∧ ∀ p ∈ l1 ++ l2, p.1 ≠ k

/-- The object with the entries `l` has no entry named `k`. -/
def Absent (l : List (String × Json K)) (k : String) : Prop := ∀ p ∈ l, p.1 ≠ k

/-- The entry `k` is given once and means `x`. -/
def Entry {α : Type*} (l : List (String × Json K)) (k : String) (R : Json K → α → Prop) (x : α) : Prop :=
  ∃ v, Given l k v ∧ R v x

/-- The entry `k` is given once and means `x`, or it is not given and `x` is the default `d`. -/
def EntryOr {α : Type*} (l : List (String × Json K)) (k : String) (R : Json K → α → Prop) (d x : α) : Prop :=
  (Absent l k ∧ x = d) ∨ Entry l k R x

/-- The value of index `n` means `x`, or there is none and `x` is the default `d`. -/
def ItemOr {α : Type*} (l : List (Json K)) (n : Nat) (R : Json K → α → Prop) (d x : α) : Prop :=
  (l[n]? = none ∧ x = d) ∨ ∃ v, l[n]? = some v ∧ R v x

/-- A number, with or without fraction. -/
def IsNumber (j : Json K) (x : K) : Prop := (∃ n : Int, j = .int n ∧ x = n) ∨ j = .frac x

/-- A number without fraction that is not negative. -/
def IsIndex (j : Json K) (n : Nat) : Prop := j = .int n

def IsText (j : Json K) (s : String) : Prop := j = .str s

/-- A value that can be `null`. -/
def IsNullable {α : Type*} (R : Json K → α → Prop) (j : Json K) (x : Option α) : Prop :=
  (j = .null ∧ x = none) ∨ ∃ y, j ≠ .null ∧ R j y ∧ x = some y

/-- An array, element by element. -/
def IsArray {α : Type*} (R : Json K → α → Prop) (j : Json K) (xs : List α) : Prop :=
  ∃ l, j = .arr l ∧ List.Forall₂ R l xs

/-- An identifier. -/
def IsId (L : Libs U) (j : Json K) (u : U) : Prop := ∃ s, j = .str s ∧ L.readId s = some u

/-- A point is `{"x": .., "y": .., "z": ..}` or `[x, y, z]`; the third coordinate can be left out and is then zero. -/
def IsPoint (j : Json K) (p : K × K × K) : Prop :=
  (∃ l, j = .obj l ∧ Entry l "x" IsNumber p.1 ∧ Entry l "y" IsNumber p.2.1 ∧ EntryOr l "z" IsNumber 0 p.2.2) ∨
  (∃ x y rest, j = .arr (x :: y :: rest) ∧ rest.length ≤ 1 ∧ IsNumber x p.1 ∧ IsNumber y p.2.1 ∧
    ItemOr rest 0 IsNumber 0 p.2.2)

/-- A point of the plane: the third coordinate can be anything. -/
def IsPoint2 (j : Json K) (p : K × K) : Prop := ∃ z, IsPoint j (p.1, p.2, z)

/-- An action is an object with these fields, the last three of which can be left out, or an array of them. -/
def IsAction (j : Json K) (a : Action K) : Prop :=
  (∃ l, j = .obj l ∧ Entry l "intent" IsText a.intent ∧ Entry l "geometry" IsText a.geometry ∧
    EntryOr l "scalars" (IsArray IsNumber) [] a.scalars ∧ EntryOr l "points" (IsArray IsPoint2) [] a.points ∧
    EntryOr l "assemble" (IsArray (IsArray IsIndex)) [] a.assemble) ∨
  (∃ rest, j = .arr (.str a.intent :: .str a.geometry :: rest) ∧ rest.length ≤ 3 ∧
    ItemOr rest 0 (IsArray IsNumber) [] a.scalars ∧ ItemOr rest 1 (IsArray IsPoint2) [] a.points ∧
    ItemOr rest 2 (IsArray (IsArray IsIndex)) [] a.assemble)

/-- The parameters: the quality is required, the maximal area can be left out or `null`. -/
def IsParams (j : Json K) (p : RefineParams K) : Prop :=
  (∃ l, j = .obj l ∧ EntryOr l "max_area" (IsNullable IsNumber) none p.maxArea ∧
    Entry l "quality" IsNumber p.qualityRatio) ∨
  (∃ a q, j = .arr [a, q] ∧ IsNullable IsNumber a p.maxArea ∧ IsNumber q p.qualityRatio)

/-- An input document: name, actions and parameters are required; a missing identifier is a new one, a missing date is
today. -/
def IsInput (L : Libs U) (j : Json K) (d : Document K U) : Prop :=
  (∃ l, j = .obj l ∧ EntryOr l "id" (IsId L) L.newId d.id ∧ Entry l "name" IsText d.name ∧
    EntryOr l "date" IsText L.now d.date ∧ Entry l "actions" (IsArray IsAction) d.input.actions ∧
    Entry l "params" IsParams d.input.params) ∨
  (∃ u as p, j = .arr [u, .str d.name, .str d.date, as, p] ∧ IsId L u d.id ∧ IsArray IsAction as d.input.actions ∧
    IsParams p d.input.params)

/-- A triangle is `{"v1": .., "v2": .., "v3": ..}` or `[v1, v2, v3]`. -/
def IsTriangle (j : Json K) (t : Nat × Nat × Nat) : Prop :=
  (∃ l, j = .obj l ∧ Entry l "v1" IsIndex t.1 ∧ Entry l "v2" IsIndex t.2.1 ∧ Entry l "v3" IsIndex t.2.2) ∨
  j = .arr [.int t.1, .int t.2.1, .int t.2.2]

/-- A tetrahedron is `{"v1": .., "v2": .., "v3": .., "v4": ..}` or `[v1, v2, v3, v4]`. -/
def IsTetrahedron (j : Json K) (t : Nat × Nat × Nat × Nat) : Prop :=
  (∃ l, j = .obj l ∧ Entry l "v1" IsIndex t.1 ∧ Entry l "v2" IsIndex t.2.1 ∧ Entry l "v3" IsIndex t.2.2.1 ∧
    Entry l "v4" IsIndex t.2.2.2) ∨
  j = .arr [.int t.1, .int t.2.1, .int t.2.2.1, .int t.2.2.2]

/-- An output document: name and coordinates are required; a missing identifier is a new one, a missing date is today,
missing triangles and tetrahedra are none. -/
def IsOutput (L : Libs U) (j : Json K) (o : OutputDoc K U) : Prop :=
  (∃ l, j = .obj l ∧ EntryOr l "id" (IsId L) L.newId o.id ∧ Entry l "name" IsText o.name ∧
    EntryOr l "date" IsText L.now o.date ∧ Entry l "coordinates" (IsArray IsPoint) o.coordinates ∧
    EntryOr l "triangles" (IsArray IsTriangle) [] o.triangles ∧
    EntryOr l "tetrahedrons" (IsArray IsTetrahedron) [] o.tetrahedrons) ∨
  (∃ u cs rest, j = .arr (u :: .str o.name :: .str o.date :: cs :: rest) ∧ rest.length ≤ 2 ∧ IsId L u o.id ∧
    IsArray IsPoint cs o.coordinates ∧ ItemOr rest 0 (IsArray IsTriangle) [] o.triangles ∧
    ItemOr rest 1 (IsArray IsTetrahedron) [] o.tetrahedrons)

/-- Equal up to the order of the entries of objects, and up to entries with other names than those of the format. -/
def SameUpTo (names : List String) (l l' : List (String × Json K)) : Prop :=
  (l.filter fun p => decide (p.1 ∈ names)).Perm (l'.filter fun p => decide (p.1 ∈ names))

end Verif.Spec
