import Verif.Model.Cli

/-!
# Reading and writing documents

`src/json_serializar/**` and `src/main.rs`. A document is a JSON value; the characters it is written with (white space, the
digits of a number, escapes in strings) belong to `serde_json` and are not modelled. What a structure accepts follows the
rules of `#[derive(Deserialize)]`: an object is read by the names of the fields, a field that is repeated is an error, other
names are ignored; an array is read by position. Numbers written as `f64` always have a decimal point. Integers are not bounded.
-/

namespace Verif

/-- A JSON value. Numbers without fraction and exponent are integers. -/
inductive Json (K : Type*) where
  | null
  | bool (b : Bool)
  | int (n : Int)
  | frac (x : K)
  | str (s : String)
  | arr (l : List (Json K))
  | obj (l : List (String × Json K))

/-- The libraries `uuid` and `chrono`: reading and writing an identifier, the result of `Uuid::new_v4()` and of
`Utc::now()` (src/json_serializar/models/input.rs:26-33, src/json_serializar/models/output.rs:34-51). -/
structure Libs (U : Type*) where
  readId : String → Option U
  writeId : U → String
  newId : U
  now : String

namespace Json

variable {K : Type*} [Field K] [LinearOrder K]

/-- A number read as `f64`. -/
def number : Json K → Option K
  | .int n => some n
  | .frac x => some x
  | _ => none

/-- A number read as `usize`. -/
def index : Json K → Option Nat
  | .int (.ofNat n) => some n
  | _ => none

/-- A text read as `String`. -/
def text : Json K → Option String
  | .str s => some s
  | _ => none

/-- A value read as `Option<T>`. -/
def optional {α : Type*} (dec : Json K → Option α) : Json K → Option (Option α)
  | .null => some none
  | v => (dec v).map some

/-- An array read as `Vec<T>`. -/
def list {α : Type*} (dec : Json K → Option α) : Json K → Option (List α)
  | .arr l => l.mapM dec
  | _ => none

/-- The values given to the field `k`. -/
def fieldsOf (k : String) (l : List (String × Json K)) : List (Json K) :=
  (l.filter fun p => decide (p.1 = k)).map (·.2)

/-- A field without default. -/
def required {α : Type*} (dec : Json K → Option α) (k : String) (l : List (String × Json K)) : Option α :=
  match fieldsOf k l with
  | [v] => dec v
  | _ => none

/-- A field with `#[serde(default = "..")]`, or of type `Option` (default `None`). -/
def defaulted {α : Type*} (d : α) (dec : Json K → Option α) (k : String) (l : List (String × Json K)) : Option α :=
  match fieldsOf k l with
  | [] => some d
  | [v] => dec v
  | _ => none

/-- The element of an array read in place of a field with default; `l` is what is left of the array. -/
def positional {α : Type*} (d : α) (dec : Json K → Option α) : List (Json K) → Option α
  | [] => some d
  | v :: _ => dec v

/-- `struct Point` (src/json_serializar/models/point.rs:6-13), with its third coordinate. -/
def readPoint3 : Json K → Option (K × K × K)
  | .obj l =>
    (required number "x" l).bind fun x => (required number "y" l).bind fun y =>
      (defaulted 0 number "z" l).map fun z => (x, y, z)
  | .arr (x :: y :: rest) =>
    if rest.length ≤ 1 then
      (number x).bind fun x => (number y).bind fun y => (positional 0 number rest).map fun z => (x, y, z)
    else none
  | _ => none

/-- A point without the unused third coordinate. -/
def readPoint (j : Json K) : Option (K × K) := (readPoint3 j).map fun p => (p.1, p.2.1)

/-- `struct Action` (src/json_serializar/models/action.rs:7-38, defaults in lines 40-53). -/
def readAction : Json K → Option (Action K)
  | .obj l =>
    (required text "intent" l).bind fun i => (required text "geometry" l).bind fun g =>
      (defaulted [] (list number) "scalars" l).bind fun s => (defaulted [] (list readPoint) "points" l).bind fun p =>
        (defaulted [] (list (list index)) "assemble" l).map fun a => ⟨i, g, s, p, a⟩
  | .arr (i :: g :: rest) =>
    if rest.length ≤ 3 then
      (text i).bind fun i => (text g).bind fun g => (positional [] (list number) rest).bind fun s =>
        (positional [] (list readPoint) (rest.drop 1)).bind fun p =>
          (positional [] (list (list index)) (rest.drop 2)).map fun a => ⟨i, g, s, p, a⟩
    else none
  | _ => none

/-- `struct RefineParams` (src/json_serializar/models/input.rs:35-39), copied by
src/triangulator_interface/interpreter/refine_params_parser.rs:5-10. -/
def readParams : Json K → Option (RefineParams K)
  | .obj l =>
    (defaulted none (optional number) "max_area" l).bind fun a => (required number "quality" l).map fun q => ⟨a, q⟩
  | .arr [a, q] => (optional number a).bind fun a => (number q).map fun q => ⟨a, q⟩
  | _ => none

/-- `Uuid` as a text. -/
def readUuid {U : Type*} (L : Libs U) : Json K → Option U
  | .str s => L.readId s
  | _ => none

end Json

/-- `struct TriangulationInput` (src/json_serializar/models/input.rs:11-24). -/
structure Document (K U : Type*) where
  id : U
  name : String
  date : String
  input : Input K

/-- `struct TriangulationOutput` (src/json_serializar/models/output.rs:14-32). -/
structure OutputDoc (K U : Type*) where
  id : U
  name : String
  date : String
  coordinates : List (K × K × K)
  triangles : List (Nat × Nat × Nat)
  tetrahedrons : List (Nat × Nat × Nat × Nat)

namespace Json

variable {K U : Type*} [Field K] [LinearOrder K]

/-- Reading a `TriangulationInput` (src/json_serializar/models/input.rs:11-33). -/
def readInput (L : Libs U) : Json K → Option (Document K U)
  | .obj l =>
    (defaulted L.newId (readUuid L) "id" l).bind fun u => (required text "name" l).bind fun n =>
      (defaulted L.now text "date" l).bind fun d => (required (list readAction) "actions" l).bind fun as =>
        (required readParams "params" l).map fun p => ⟨u, n, d, ⟨as, p⟩⟩
  | .arr [u, n, d, as, p] =>
    (readUuid L u).bind fun u => (text n).bind fun n => (text d).bind fun d => (list readAction as).bind fun as =>
      (readParams p).map fun p => ⟨u, n, d, ⟨as, p⟩⟩
  | _ => none

/-- Writing a `Point` (src/json_serializar/models/point.rs:6-13). -/
def writePoint (p : K × K × K) : Json K := .obj [("x", .frac p.1), ("y", .frac p.2.1), ("z", .frac p.2.2)]

/-- Writing a `Triangle` (src/json_serializar/models/tesselations.rs:7-12). -/
def writeTriangle (t : Nat × Nat × Nat) : Json K :=
  .obj [("v1", .int t.1), ("v2", .int t.2.1), ("v3", .int t.2.2)]

/-- Writing a `Tetrahedron` (src/json_serializar/models/tesselations.rs:14-20). -/
def writeTetrahedron (t : Nat × Nat × Nat × Nat) : Json K :=
  .obj [("v1", .int t.1), ("v2", .int t.2.1), ("v3", .int t.2.2.1), ("v4", .int t.2.2.2)]

/-- Writing a `TriangulationOutput` (src/json_serializar/models/output.rs:14-32). -/
def writeOutput (L : Libs U) (o : OutputDoc K U) : Json K :=
  .obj [("id", .str (L.writeId o.id)), ("name", .str o.name), ("date", .str o.date),
    ("coordinates", .arr (o.coordinates.map writePoint)), ("triangles", .arr (o.triangles.map writeTriangle)),
    ("tetrahedrons", .arr (o.tetrahedrons.map writeTetrahedron))]

/-- Reading a `Triangle` (src/json_serializar/models/tesselations.rs:7-12). -/
def readTriangle : Json K → Option (Nat × Nat × Nat)
  | .obj l =>
    (required index "v1" l).bind fun a => (required index "v2" l).bind fun b =>
      (required index "v3" l).map fun c => (a, b, c)
  | .arr [a, b, c] => (index a).bind fun a => (index b).bind fun b => (index c).map fun c => (a, b, c)
  | _ => none

/-- Reading a `Tetrahedron` (src/json_serializar/models/tesselations.rs:14-20). -/
def readTetrahedron : Json K → Option (Nat × Nat × Nat × Nat)
  | .obj l =>
    (required index "v1" l).bind fun a => (required index "v2" l).bind fun b =>
      (required index "v3" l).bind fun c => (required index "v4" l).map fun d => (a, b, c, d)
  | .arr [a, b, c, d] =>
    (index a).bind fun a => (index b).bind fun b => (index c).bind fun c => (index d).map fun d => (a, b, c, d)
  | _ => none

/-- Reading a `TriangulationOutput` (src/json_serializar/models/output.rs:14-51). -/
def readOutput (L : Libs U) : Json K → Option (OutputDoc K U)
  | .obj l =>
    (defaulted L.newId (readUuid L) "id" l).bind fun u => (required text "name" l).bind fun n =>
      (defaulted L.now text "date" l).bind fun d => (required (list readPoint3) "coordinates" l).bind fun cs =>
        (defaulted [] (list readTriangle) "triangles" l).bind fun ts =>
          (defaulted [] (list readTetrahedron) "tetrahedrons" l).map fun qs => ⟨u, n, d, cs, ts, qs⟩
  | .arr (u :: n :: d :: cs :: rest) =>
    if rest.length ≤ 2 then
      (readUuid L u).bind fun u => (text n).bind fun n => (text d).bind fun d => (list readPoint3 cs).bind fun cs =>
        (positional [] (list readTriangle) rest).bind fun ts =>
          (positional [] (list readTetrahedron) (rest.drop 1)).map fun qs => ⟨u, n, d, cs, ts, qs⟩
    else none
  | _ => none

end Json

section main

variable {K U : Type*} [Field K] [LinearOrder K]

/-- `TriangulationOutput::from_triangulator` (src/json_serializar/models/output.rs:70-92) with `Point::from_vertex`
(src/json_serializar/models/point.rs:29-36): the identifier, the name and the date are those of the input. -/
def outputDocument (d : Document K U) (o : Output (Vertex K)) : OutputDoc K U :=
  ⟨d.id, d.name, d.date, o.coordinates.map fun v => (v.x, v.y, 0), o.triangles, []⟩

/-- `main` (src/main.rs:27-80) with `io::read` (src/json_serializar/io.rs:6-18): `file` is `none` when the file cannot be read
or is not JSON; the result is the document written. Arguments and drawing are not modelled. -/
def mainProgram (L : Libs U) (eps : K) (fuel : Nat) (F : CircleFns K) (dist : Vertex K → Vertex K → K) (σ : Sched)
    (file : Option (Json K)) : Res (Json K) :=
  match file.bind (Json.readInput L) with
  | none => .panic
  | some d =>
    (runProgram eps fuel F dist σ d.input).bind fun o => .ok (Json.writeOutput L (outputDocument d o))

end main

end Verif
