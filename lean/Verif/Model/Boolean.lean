import Verif.Model.Polyline

/-!
# `src/elements/polyline.rs`: intersection, union and subtraction of polylines

The `contains(..).unwrap()` calls of these functions are made on closed polylines only, for which `contains` returns
`Some`; the tests below compare with `some _` directly.
-/

namespace Verif

variable {K : Type*} [Field K] [LinearOrder K]

/-- A segment. -/
abbrev Seg (K : Type*) := Vertex K × Vertex K

/-- What `angle` (src/properties/angle.rs:11-25) computes before `acos`, made free of square roots: the cosine of the
angle at `b` between `a` and `c`, multiplied by the length of `b a`, squared with its sign kept. For fixed `a` and `b`
it grows with the cosine. -/
def cosKey (a b c : Vertex K) : K :=
  dot b a b c * |dot b a b c| / distSq b c

/-- `angle(a, b, c1) < angle(a, b, c2)` (src/properties/angle.rs:11-25): the angle is `acos` of the cosine, or `2π` minus
that when the turn is clockwise. `c1` and `c2` are not `b`, so no angle is `NaN` and `partial_cmp(..).unwrap()` does
not panic. -/
def angleLt (eps : K) (a b c1 c2 : Vertex K) : Bool :=
  if orientation eps a b c1 = .clockwise then
    if orientation eps a b c2 = .clockwise then decide (cosKey a b c1 < cosKey a b c2) else false
  else
    if orientation eps a b c2 = .clockwise then true else decide (cosKey a b c2 < cosKey a b c1)

/-- The first element of a list after a stable `sort_by` with the strict comparison `lt`. -/
def firstMin {α : Type*} (lt : α → α → Bool) : List α → Option α
  | [] => none
  | a :: rest =>
    match firstMin lt rest with
    | none => some a
    | some b => if lt b a then some b else some a

namespace Polyline

/-- The segments that may follow `v1 v2` (src/elements/polyline.rs:325-337, 449-458 and 636-647). -/
def nextSegments (eps : K) (s : Seg K) (possible : List (Seg K)) : List (Seg K) :=
  possible.filter fun t =>
    !(Vertex.eqv eps s.1 t.1 || Vertex.eqv eps s.1 t.2 || Vertex.eqv eps s.2 t.2) && Vertex.eqv eps s.2 t.1

/-- The inner loop of the three operations (src/elements/polyline.rs:320-379, 444-508 and 631-689): follow segments until
none continues. `least` tells whether the smallest or the largest angle is preferred. `chain` is the vector of segments
in order and `last` its last element; the result is the chain and the segments that are left. -/
def follow (eps : K) (least : Bool) : Nat → Sched → List (Seg K) → Seg K → List (Seg K) → Res (List (Seg K) × List (Seg K))
  | 0, _, _, _, _ => .diverged
  | n + 1, σ, chain, last, possible =>
    let next := shuffle (σ.sub 0) (nextSegments eps last possible)
    let lt := fun s t : Seg K =>
      if least then angleLt eps last.1 last.2 s.2 t.2 else angleLt eps last.1 last.2 t.2 s.2
    match firstMin lt next with
    | none => .ok (chain, possible)
    | some s => follow eps least n (σ.sub 1) (chain ++ [s]) s (setErase s possible)

/-- Does the chain close up (src/elements/polyline.rs:341-348, 462-469 and 651-658)? -/
def closes (eps : K) (chain : List (Seg K)) : Bool :=
  match chain.head?, chain.getLast? with
  | some h, some l => decide (2 < chain.length) && Vertex.eqv eps l.2 h.1
  | _, _ => false

/-- The loop that builds polylines in `intersection` and `subtraction` (src/elements/polyline.rs:312-380 and 623-690). -/
def buildAll (eps : K) : Nat → Sched → List (Seg K) → List (Polyline (Vertex K)) → List (Seg K) →
    Res (List (Polyline (Vertex K)) × List (Seg K))
  | 0, _, possible, out, unused => if possible = [] then .ok (out, unused) else .diverged
  | n + 1, σ, possible, out, unused =>
    match choose (σ.sub 0) possible with
    | none => .ok (out, unused)
    | some h =>
      let rest := setErase h possible
      (follow eps true (rest.length + 1) (σ.sub 1) [h] h rest).bind fun r =>
        if closes eps r.1 then
          match newClosed (r.1.map (·.1)) with
          | none => .panic
          | some p => buildAll eps n (σ.sub 2) r.2 (out ++ [p]) unused
        else buildAll eps n (σ.sub 2) r.2 out (r.1.foldl (fun u s => setInsert s u) unused)

/-- `p1.contains(v) == Outside || p2.contains(v) == Outside`. -/
def outsideOne (eps : K) (p1 p2 : Polyline (Vertex K)) (v : Vertex K) : Bool :=
  decide (p1.contains eps v = some .outside) || decide (p2.contains eps v = some .outside)

/-- The closure of `position` (src/elements/polyline.rs:242-262 and 553-573). -/
def opposed (eps : K) (p1 p2 : Polyline (Vertex K)) (s t : Seg K) : Bool :=
  (Verif.intersection eps s.1 s.2 t.1 t.2).isSome && parallel s.1 s.2 t.1 t.2 && decide (dot s.1 s.2 t.1 t.2 < 0)
    && ((Vertex.eqv eps s.1 t.2 || Vertex.eqv eps s.2 t.1)
      || (outsideOne eps p1 p2 s.1 || outsideOne eps p1 p2 s.2 || outsideOne eps p1 p2 t.1 || outsideOne eps p1 p2 t.2))

/-- What replaces a pair of opposed segments (src/elements/polyline.rs:268-285 and 579-596), last pushed first. -/
def replacement (eps : K) (p1 p2 : Polyline (Vertex K)) (s t : Seg K) : List (Seg K) :=
  (if !Vertex.eqv eps s.1 t.2 && (Vertex.eqv eps s.2 t.1 || outsideOne eps p1 p2 s.2 || outsideOne eps p1 p2 t.1)
    then [(s.1, t.2)] else [])
  ++ (if !Vertex.eqv eps s.2 t.1 && (Vertex.eqv eps s.1 t.2 || outsideOne eps p1 p2 s.1 || outsideOne eps p1 p2 t.2)
    then [(t.1, s.2)] else [])

/-- The loop that removes pairs of colinear segments in opposed directions (src/elements/polyline.rs:240-291 and
551-602). The vector `possible_segments` is a stack (head = top); `read` is `read_segments`. -/
def cancelLoop (eps : K) (p1 p2 : Polyline (Vertex K)) : Nat → List (Seg K) → List (Seg K) → List (Seg K) →
    Res (List (Seg K) × List (Seg K))
  | _, [], read, unused => .ok (read, unused)
  | 0, _ :: _, _, _ => .diverged
  | n + 1, s :: stack, read, unused =>
    match read.findIdx? (opposed eps p1 p2 s) with
    | none => cancelLoop eps p1 p2 n stack (read ++ [s]) unused
    | some i =>
      match read[i]? with
      | none => .panic
      | some t =>
        cancelLoop eps p1 p2 n (replacement eps p1 p2 s t ++ stack) (read.eraseIdx i)
          (setInsert t (setInsert s unused))

/-- The segments of two polylines, split where they cross (src/elements/polyline.rs:214-223, 406-414 and 522-531). -/
def splitTwo (eps : K) (fuel : Nat) (l1 l2 : List (Vertex K)) (o1 o2 : Bool) : Res (List (Seg K)) :=
  splitIntersections eps fuel (pairs l1 o1 ++ pairs l2 o2)

/-- The filter by continence (src/elements/polyline.rs:296-310, 418-433 and 607-621): kept and unused segments. -/
def sieve (keep : Seg K → Bool) (segments unused : List (Seg K)) : List (Seg K) × List (Seg K) :=
  (toSet (segments.reverse.filter keep),
    (segments.reverse.filter fun s => !keep s).foldl (fun u s => setInsert s u) unused)

/-- The filter of `intersection` (src/elements/polyline.rs:298-301). -/
def keepIntersection (eps : K) (p1 p2 : Polyline (Vertex K)) (s : Seg K) : Bool :=
  decide (p1.contains eps (midpoint s.1 s.2) ≠ some .outside)
    && decide (p2.contains eps (midpoint s.1 s.2) ≠ some .outside)

/-- The filter of `union` (src/elements/polyline.rs:420-423). -/
def keepUnion (eps : K) (p1 p2 : Polyline (Vertex K)) (s : Seg K) : Bool :=
  outsideOne eps p1 p2 (midpoint s.1 s.2)

/-- The filter of `subtraction` (src/elements/polyline.rs:609-612). -/
def keepSubtraction (eps : K) (p1 p2 : Polyline (Vertex K)) (s : Seg K) : Bool :=
  decide (p1.contains eps (midpoint s.1 s.2) ≠ some .outside)
    && decide (p2.contains eps (midpoint s.1 s.2) ≠ some .inside)

/-- The common part of `intersection` and `subtraction` after the early returns (src/elements/polyline.rs:238-380 and
549-690). -/
def combine (eps : K) (fuel : Nat) (σ : Sched) (p1 p2 : Polyline (Vertex K)) (keep : Seg K → Bool)
    (segments : List (Seg K)) : Res (List (Polyline (Vertex K)) × List (Seg K)) :=
  match segments.reverse with
  | [] => .panic
  | s :: stack =>
    (cancelLoop eps p1 p2 fuel stack [s] []).bind fun r =>
      let k := sieve keep r.1 r.2
      buildAll eps k.1.length σ k.1 [] k.2

/-- `BoundingBox::intersection(&p1_bbox, &p2_bbox).is_none()`, with the two `unwrap`s. -/
def boxesDisjoint (p1 p2 : Polyline (Vertex K)) : Res Bool :=
  match p1.boundingBox, p2.boundingBox with
  | some b1, some b2 => .ok (BBox.intersection b1 b2).isNone
  | _, _ => .panic

/-- `Polyline::intersection` (src/elements/polyline.rs:210-383). -/
def intersection (eps : K) (fuel : Nat) (σ : Sched) (p1 p2 : Polyline (Vertex K)) :
    Res (List (Polyline (Vertex K)) × List (Seg K)) :=
  (splitTwo eps fuel p1.vertices p2.vertices p1.opened p2.opened).bind fun segments =>
    if p1.opened || p2.opened then .ok ([], toSet segments)
    else
      (boxesDisjoint p1 p2).bind fun d =>
        if d then .ok ([], []) else combine eps fuel σ p1 p2 (keepIntersection eps p1 p2) segments

/-- The loop of `union` (src/elements/polyline.rs:435-509). -/
def unionLoop (eps : K) : Nat → Sched → List (Seg K) → List (Seg K) → Res (Option (Polyline (Vertex K) × List (Seg K)))
  | 0, _, possible, _ => if possible = [] then .ok none else .diverged
  | n + 1, σ, possible, unused =>
    match choose (σ.sub 0) possible with
    | none => .ok none
    | some h =>
      let rest := setErase h possible
      (follow eps false (rest.length + 1) (σ.sub 1) [h] h rest).bind fun r =>
        if closes eps r.1 then
          (segmentsOrientation r.1).bind fun o =>
            if o = .counterclockwise then
              match newClosed (r.1.map (·.1)) with
              | none => .panic
              | some p => .ok (some (p, toSet (r.2 ++ unused)))
            else unionLoop eps n (σ.sub 2) r.2 (toSet (unused ++ r.1))
        else unionLoop eps n (σ.sub 2) r.2 (toSet (unused ++ r.1))

/-- `Polyline::union` (src/elements/polyline.rs:391-511). -/
def union (eps : K) (fuel : Nat) (σ : Sched) (p1 p2 : Polyline (Vertex K)) :
    Res (Option (Polyline (Vertex K) × List (Seg K))) :=
  if p1.opened || p2.opened then .ok none
  else
    (boxesDisjoint p1 p2).bind fun d =>
      if d then .ok none
      else
        (splitTwo eps fuel p1.vertices p2.vertices p1.opened p2.opened).bind fun segments =>
          let k := sieve (keepUnion eps p1 p2) segments []
          unionLoop eps k.1.length σ k.1 k.2

/-- `Polyline::subtraction` (src/elements/polyline.rs:518-692). -/
def subtraction (eps : K) (fuel : Nat) (σ : Sched) (p1 p2 : Polyline (Vertex K)) :
    Res (List (Polyline (Vertex K)) × List (Seg K)) :=
  (splitTwo eps fuel p1.vertices p2.vertices.reverse p1.opened p2.opened).bind fun segments =>
    (boxesDisjoint p1 p2).bind fun d =>
      (continence eps fuel p1 p2).bind fun c =>
        if p1.opened || p2.opened || d || decide (c = some (.inside, .opened)) then .ok ([], toSet segments)
        else combine eps fuel σ p1 p2 (keepSubtraction eps p1 p2) segments

end Polyline

end Verif
