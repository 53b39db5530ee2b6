import Verif.Model.Triangulator

/-!
# Sequences of calls

The public methods of `Triangulator` (src/planar/triangulator.rs:18-365), called one after the other on one value.
-/

namespace Verif

variable {K : Type*} [Field K] [LinearOrder K]

/-- A call of one of the public methods that change a triangulator: `insert_vertices`
(src/planar/triangulator.rs:37), `insert_segments` (107), `insert_hole` (202), `refine` (256) and `triangulate` (314). -/
inductive Request (K : Type*) where
  | vertices (vs : List (Vertex K))
  | segments (ss : List (Edge (Vertex K)))
  | hole (h : Polyline (Vertex K))
  | triangulate
  | refine (p : RefineParams K)

/-- The call on `T`: the triangulator afterwards, and whether the method returned `Ok`. `triangulate` and `refine` return
the triangulator itself and cannot refuse (src/planar/triangulator.rs:256-364). -/
def Triangulator.perform (eps : K) (fuel : Nat) (dist : Vertex K → Vertex K → K) (σ : Sched) (T : Triangulator K) :
    Request K → Res (Triangulator K × Bool)
  | .vertices vs => match insertVertices eps σ T vs with
    | .ok T' => .ok (T', true)
    | .err T' _ => .ok (T', false)
  | .segments ss => (insertSegments eps fuel σ T ss).bind fun
    | .ok T' => .ok (T', true)
    | .err T' _ => .ok (T', false)
  | .hole h => (insertHole eps fuel T h).bind fun
    | .ok T' => .ok (T', true)
    | .err T' _ => .ok (T', false)
  | .triangulate => (triangulate eps fuel σ T).bind fun T' => .ok (T', true)
  | .refine p => (refine eps fuel dist p σ T).bind fun T' => .ok (T', true)

/-- `Session eps dist T l T'`: calls made one after the other lead from `T` to `T'`; `l` lists those that did not return
`Err`, in order. Each call has its own iteration orders, and none of them panicked. -/
inductive Session (eps : K) (dist : Vertex K → Vertex K → K) (T : Triangulator K) :
    List (Request K) → Triangulator K → Prop
  | start : Session eps dist T [] T
  | accepted {l : List (Request K)} {T1 T2 : Triangulator K} {fuel : Nat} {σ : Sched} {q : Request K}
      (h : Session eps dist T l T1) (hq : T1.perform eps fuel dist σ q = .ok (T2, true)) :
      Session eps dist T (l ++ [q]) T2
  | refused {l : List (Request K)} {T1 T2 : Triangulator K} {fuel : Nat} {σ : Sched} {q : Request K}
      (h : Session eps dist T l T1) (hq : T1.perform eps fuel dist σ q = .ok (T2, false)) :
      Session eps dist T l T2

end Verif
