import Verif.Lemmas.SteadyProgram
import Verif.Model.Histories

/-!
# The boolean operations, the calls and the program are steady
-/

set_option linter.unusedSectionVars false

namespace Verif

variable {K : Type*} [Field K] [LinearOrder K] [IsStrictOrderedRing K]

namespace Steady

section requests

theorem perform (fuel : Nat) (dist : Vertex K → Vertex K → K) (T : Triangulator K) (q : Request K) :
    Steady (fun (e : K) σ => Triangulator.perform e fuel dist σ T q) := by
  cases q with
  | vertices vs =>
    refine Steady.cases (insertVertices T vs) fun r => ?_
    cases r with
    | ok T' => exact ⟨_, fun e σ h => by simp only [Triangulator.perform]; rw [h], const _⟩
    | err T' l => exact ⟨_, fun e σ h => by simp only [Triangulator.perform]; rw [h], const _⟩
  | segments ss =>
    refine bind (insertSegments fuel T ss) fun r => ?_
    cases r <;> exact const _
  | hole h =>
    refine bind (insertHole fuel T h) fun r => ?_
    cases r <;> exact const _
  | triangulate => exact bind (triangulate fuel T) fun r => const _
  | refine p => exact bind (refine fuel dist p T) fun r => const _

end requests

section boolean

theorem angleLt (a b c1 c2 : Vertex K) : Steady (fun (e : K) (_ : Sched) => Verif.angleLt e a b c1 c2) := by
  unfold Verif.angleLt
  exact map2 (orientation a b c1) (orientation a b c2) fun o1 o2 =>
    if o1 = .clockwise then (if o2 = .clockwise then decide (cosKey a b c1 < cosKey a b c2) else false)
    else if o2 = .clockwise then true else decide (cosKey a b c2 < cosKey a b c1)

theorem firstMin {α : Type*} {lt : K → α → α → Bool} (h : ∀ a b, Steady (fun e (_ : Sched) => lt e a b)) (l : List α) :
    Steady (fun e (_ : Sched) => Verif.firstMin (lt e) l) := by
  induction l with
  | nil => exact const _
  | cons a l ih =>
    simp only [Verif.firstMin]
    refine Steady.cases ih fun o => ?_
    cases o with
    | none => exact ⟨_, fun e σ h => by rw [h], const _⟩
    | some b => exact ⟨_, fun e σ h => by rw [h], ite (h b a) (const _) (const _)⟩

theorem nextSegments (s : Seg K) (l : List (Seg K)) :
    Steady (fun (e : K) (_ : Sched) => Polyline.nextSegments e s l) := by
  unfold Polyline.nextSegments
  exact filter l fun t _ => and (not (or (or (eqv _ _) (eqv _ _)) (eqv _ _))) (eqv _ _)

theorem follow (least : Bool) (n : Nat) (chain : List (Seg K)) (last : Seg K) (l : List (Seg K)) :
    Steady (fun (e : K) σ => Polyline.follow e least n σ chain last l) := by
  induction n generalizing chain last l with
  | zero => exact const _
  | succ n ih =>
    simp only [Polyline.follow]
    refine Steady.cases (f := fun e σ => Verif.shuffle (σ.sub 0) (Polyline.nextSegments e last l)) ?_ fun next =>
      ⟨_, fun e σ h => by rw [h], ?_⟩
    · exact seq (g := fun r _ σ => Verif.shuffle (σ.sub 0) r) (nextSegments last l) fun r => (shuffle r).sub 0
    · have hlt : ∀ s t : Seg K, Steady (fun (e : K) (_ : Sched) => if least = true then
          Verif.angleLt e last.1 last.2 s.2 t.2 else Verif.angleLt e last.1 last.2 t.2 s.2) := by
        intro s t
        cases least
        · exact angleLt last.1 last.2 t.2 s.2
        · exact angleLt last.1 last.2 s.2 t.2
      refine Steady.cases (firstMin hlt next) fun o => ?_
      cases o with
      | none => exact ⟨_, fun e σ h => by rw [h], const _⟩
      | some s => exact ⟨_, fun e σ h => by rw [h], (ih _ _ _).sub 1⟩

theorem closes (chain : List (Seg K)) : Steady (fun (e : K) (_ : Sched) => Polyline.closes e chain) := by
  unfold Polyline.closes
  cases chain.head? with
  | none => exact const _
  | some h =>
    cases chain.getLast? with
    | none => exact const _
    | some l => exact and (const _) (eqv _ _)

theorem buildAll (n : Nat) (l : List (Seg K)) (out : List (Polyline (Vertex K))) (unused : List (Seg K)) :
    Steady (fun (e : K) σ => Polyline.buildAll e n σ l out unused) := by
  induction n generalizing l out unused with
  | zero => exact const _
  | succ n ih =>
    simp only [Polyline.buildAll]
    refine Steady.cases ((choose l).sub 0) fun o => ?_
    cases o with
    | none => exact ⟨_, fun e σ h => by rw [h], const _⟩
    | some s =>
      refine ⟨_, fun e σ h => by rw [h], bind ((follow _ _ _ _ _).sub 1) fun r => ite (closes _) ?_ ((ih _ _ _).sub 2)⟩
      cases Polyline.newClosed (r.1.map (·.1)) with
      | none => exact const _
      | some p => exact (ih _ _ _).sub 2

theorem outsideOne (p1 p2 : Polyline (Vertex K)) (v : Vertex K) :
    Steady (fun (e : K) (_ : Sched) => Polyline.outsideOne e p1 p2 v) := by
  unfold Polyline.outsideOne
  exact or ((contains p1 v).map fun c => decide (c = some .outside)) ((contains p2 v).map fun c => decide (c = some .outside))

theorem opposed (p1 p2 : Polyline (Vertex K)) (s t : Seg K) :
    Steady (fun (e : K) (_ : Sched) => Polyline.opposed e p1 p2 s t) := by
  unfold Polyline.opposed
  exact and (and (and ((intersection _ _ _ _).map _) (const _)) (const _)) (or (or (eqv _ _) (eqv _ _))
    (or (or (or (outsideOne _ _ _) (outsideOne _ _ _)) (outsideOne _ _ _)) (outsideOne _ _ _)))

theorem replacement (p1 p2 : Polyline (Vertex K)) (s t : Seg K) :
    Steady (fun (e : K) (_ : Sched) => Polyline.replacement e p1 p2 s t) := by
  unfold Polyline.replacement
  exact map2 (ite (and (not (eqv _ _)) (or (or (eqv _ _) (outsideOne _ _ _)) (outsideOne _ _ _))) (const _) (const _))
    (ite (and (not (eqv _ _)) (or (or (eqv _ _) (outsideOne _ _ _)) (outsideOne _ _ _))) (const _) (const _)) _

theorem cancelLoop (p1 p2 : Polyline (Vertex K)) (n : Nat) (l read unused : List (Seg K)) :
    Steady (fun (e : K) (_ : Sched) => Polyline.cancelLoop e p1 p2 n l read unused) := by
  induction n generalizing l read unused with
  | zero => cases l <;> exact const _
  | succ n ih =>
    cases l with
    | nil => exact const _
    | cons s l =>
      simp only [Polyline.cancelLoop]
      refine Steady.cases (findIdx (q := fun e _ => Polyline.opposed e p1 p2 s) read fun t _ => opposed p1 p2 s t) fun o => ?_
      cases o with
      | none => exact ⟨_, fun e σ h => by rw [h], ih _ _ _⟩
      | some i =>
        refine ⟨_, fun e σ h => by rw [h], ?_⟩
        cases hi : read[i]? with
        | none => simp only [hi]; exact const _
        | some t =>
          simp only [hi]
          exact seq (f := fun e _ => Polyline.replacement e p1 p2 s t)
            (g := fun r e _ => Polyline.cancelLoop e p1 p2 n (r ++ l) _ _) (replacement p1 p2 s t) fun r => ih _ _ _

theorem sieve {keep : K → Seg K → Bool} (h : ∀ s, Steady (fun e (_ : Sched) => keep e s)) (l u : List (Seg K)) :
    Steady (fun e (_ : Sched) => Polyline.sieve (keep e) l u) := by
  unfold Polyline.sieve
  exact map2 (filter l.reverse fun s _ => h s) (filter l.reverse fun s _ => not (h s)) fun a b =>
    (toSet a, b.foldl (fun u s => setInsert s u) u)

theorem keepIntersection (p1 p2 : Polyline (Vertex K)) (s : Seg K) :
    Steady (fun (e : K) (_ : Sched) => Polyline.keepIntersection e p1 p2 s) := by
  unfold Polyline.keepIntersection
  exact and ((contains p1 _).map fun c => decide (c ≠ some .outside)) ((contains p2 _).map fun c => decide (c ≠ some .outside))

theorem keepUnion (p1 p2 : Polyline (Vertex K)) (s : Seg K) :
    Steady (fun (e : K) (_ : Sched) => Polyline.keepUnion e p1 p2 s) := outsideOne _ _ _

theorem keepSubtraction (p1 p2 : Polyline (Vertex K)) (s : Seg K) :
    Steady (fun (e : K) (_ : Sched) => Polyline.keepSubtraction e p1 p2 s) := by
  unfold Polyline.keepSubtraction
  exact and ((contains p1 _).map fun c => decide (c ≠ some .outside)) ((contains p2 _).map fun c => decide (c ≠ some .inside))

theorem combine (fuel : Nat) (p1 p2 : Polyline (Vertex K)) {keep : K → Seg K → Bool}
    (h : ∀ s, Steady (fun e (_ : Sched) => keep e s)) (l : List (Seg K)) :
    Steady (fun e σ => Polyline.combine e fuel σ p1 p2 (keep e) l) := by
  unfold Polyline.combine
  cases l.reverse with
  | nil => exact const _
  | cons s stack =>
    refine bind (cancelLoop p1 p2 fuel stack [s] []) fun r => ?_
    exact seq (f := fun e _ => Polyline.sieve (keep e) r.1 r.2) (g := fun k e σ => Polyline.buildAll e k.1.length σ k.1 [] k.2)
      (sieve h _ _) fun k => buildAll _ _ _ _

theorem polyIntersection (fuel : Nat) (p1 p2 : Polyline (Vertex K)) :
    Steady (fun (e : K) σ => Polyline.intersection e fuel σ p1 p2) := by
  unfold Polyline.intersection
  refine bind (splitIntersections _ _) fun l => ite' (const _) (bind (const _) fun d => ite' (const _) ?_)
  exact combine fuel p1 p2 (keepIntersection p1 p2) l

theorem unionLoop (n : Nat) (l unused : List (Seg K)) :
    Steady (fun (e : K) σ => Polyline.unionLoop e n σ l unused) := by
  induction n generalizing l unused with
  | zero => exact const _
  | succ n ih =>
    simp only [Polyline.unionLoop]
    refine Steady.cases ((choose l).sub 0) fun o => ?_
    cases o with
    | none => exact ⟨_, fun e σ h => by rw [h], const _⟩
    | some s =>
      refine ⟨_, fun e σ h => by rw [h], bind ((follow _ _ _ _ _).sub 1) fun r => ite (closes _) ?_ ((ih _ _).sub 2)⟩
      refine bind (const _) fun o => ite' ?_ ((ih _ _).sub 2)
      exact const _

theorem polyUnion (fuel : Nat) (p1 p2 : Polyline (Vertex K)) :
    Steady (fun (e : K) σ => Polyline.union e fuel σ p1 p2) := by
  unfold Polyline.union
  refine ite' (const _) (bind (const _) fun d => ite' (const _) (bind (splitIntersections _ _) fun l => ?_))
  exact seq (f := fun e _ => Polyline.sieve (Polyline.keepUnion e p1 p2) l [])
    (g := fun k e σ => Polyline.unionLoop e k.1.length σ k.1 k.2) (sieve (keepUnion p1 p2) _ _) fun k => unionLoop _ _ _

theorem polySubtraction (fuel : Nat) (p1 p2 : Polyline (Vertex K)) :
    Steady (fun (e : K) σ => Polyline.subtraction e fuel σ p1 p2) := by
  unfold Polyline.subtraction
  refine bind (splitIntersections _ _) fun l => bind (const _) fun d => bind (continence _ _ _) fun c => ite' (const _) ?_
  exact combine fuel p1 p2 (keepSubtraction p1 p2) l

end boolean

section domain

/-- The answers of the operations of the domain evaluator are steady. -/
structure Ops {P : Type*} (O : K → DomainOps P) : Prop where
  union : ∀ a b, Steady (fun e σ => (O e).union σ a b)
  subtraction : ∀ a b, Steady (fun e σ => (O e).subtraction σ a b)
  inside : ∀ a b, Steady (fun e (_ : Sched) => (O e).strictlyInside a b)

theorem ops_polyline (fuel : Nat) : Ops (fun e : K => polylineOps e fuel) where
  union a b := bind (polyUnion fuel a b) fun _ => const _
  subtraction a b := bind (polySubtraction fuel a b) fun _ => const _
  inside a b := bind (continence fuel a b) fun _ => const _

variable {P : Type*} [DecidableEq P] {O : K → DomainOps P}

theorem absorbOne (hO : Ops O) (b : P) (l : List P) : Steady (fun e σ => Verif.absorbOne (O e) σ b l) := by
  induction l with
  | nil => exact const _
  | cons p l ih =>
    simp only [Verif.absorbOne]
    refine bind ((hO.union b p).sub 0) fun r => ?_
    cases r with
    | none => exact ih.sub 1
    | some u => exact const _

theorem absorbPasses (hO : Ops O) (n : Nat) (b : P) (l : List P) :
    Steady (fun e σ => Verif.absorbPasses (O e) n σ b l) := by
  induction n generalizing b l with
  | zero => exact const _
  | succ n ih =>
    simp only [Verif.absorbPasses]
    refine bind ?_ fun r => ?_
    · exact seq (f := fun _ σ => Verif.shuffle (σ.sub 0) l) (g := fun l e σ => Verif.absorbOne (O e) (σ.sub 2) b l)
        ((shuffle l).sub 0) fun l => (absorbOne hO b l).sub 2
    · cases r with
      | none => exact (ih _ _).sub 1
      | some w => exact (ih _ _).sub 1

theorem subtractAll (hO : Ops O) (l : List P) (b : P) (unused : List P) :
    Steady (fun e σ => Verif.subtractAll (O e) σ l b unused) := by
  induction l generalizing b unused with
  | nil => exact const _
  | cons r l ih =>
    simp only [Verif.subtractAll]
    refine bind ((hO.subtraction b r).sub 0) fun l => ?_
    match l with
    | [] => exact (ih _ _).sub 1
    | [s] => exact (ih _ _).sub 1
    | _ :: _ :: _ => exact const _

theorem evalBoundary (hO : Ops O) (includes removes : List P) :
    Steady (fun e σ => Verif.evalBoundary (O e) σ includes removes) := by
  unfold Verif.evalBoundary
  refine Steady.cases ((choose (toSet includes)).sub 0) fun o => ?_
  cases o with
  | none => exact ⟨_, fun e σ h => by simp only [h]; rfl, const _⟩
  | some b =>
    refine ⟨_, fun e σ h => by simp only [h]; rfl, ?_⟩
    exact bind ((absorbPasses hO _ _ _).sub 1) fun r => ite' (const _) ((subtractAll hO _ _ _).sub 2)

theorem uniteHole (hO : Ops O) (r : P) (l : List P) : Steady (fun e σ => Verif.uniteHole (O e) σ r l) := by
  induction l with
  | nil => exact const _
  | cons p l ih =>
    simp only [Verif.uniteHole]
    refine bind ((hO.union p r).sub 0) fun r => ?_
    cases r with
    | none => exact ih.sub 1
    | some u => exact const _

theorem holesLoop (hO : Ops O) (b : P) (n : Nat) (l holes : List P) :
    Steady (fun e σ => Verif.holesLoop (O e) b n σ l holes) := by
  induction n generalizing l holes with
  | zero => cases l <;> exact const _
  | succ n ih =>
    cases l with
    | nil => exact const _
    | cons r l =>
      simp only [Verif.holesLoop]
      refine bind (hO.inside b r) fun c => ite' ((ih _ _).sub 1) (bind ?_ fun q => ?_)
      · exact seq (f := fun _ σ => Verif.shuffle (σ.sub 0) holes) (g := fun l e σ => Verif.uniteHole (O e) (σ.sub 2) r l)
          ((shuffle _).sub 0) fun l => (uniteHole hO r l).sub 2
      · cases q with
        | none => exact (ih _ _).sub 1
        | some w => exact (ih _ _).sub 1

end domain

section program

theorem parsePolyline (fuel : Nat) (a : Action K) :
    Steady (fun (e : K) (_ : Sched) => Verif.parsePolyline e fuel a) := by
  unfold Verif.parsePolyline
  exact ite' (const _) (bind (const _) fun s => bind (splitIntersections _ _) fun sp => const _)

theorem parseAction (fuel : Nat) (F : CircleFns K) (a : Action K) (d : Domains K) :
    Steady (fun (e : K) (_ : Sched) => Verif.parseAction e fuel F a d) := by
  unfold Verif.parseAction
  refine ite' (bind (parsePolyline fuel a) fun r => const _) (const _)

theorem parseActions (fuel : Nat) (F : CircleFns K) (l : List (Action K)) (d : Domains K) :
    Steady (fun (e : K) (_ : Sched) => Verif.parseActions e fuel F l d) := by
  induction l generalizing d with
  | nil => exact const _
  | cons a l ih =>
    simp only [Verif.parseActions]
    refine bind (parseAction fuel F a d) fun r => ?_
    cases r with
    | ok d => exact ih d
    | err => exact const _

theorem insertHoles (fuel : Nat) (l : List (Polyline (Vertex K))) (T : Triangulator K) :
    Steady (fun (e : K) (_ : Sched) => Verif.insertHoles e fuel l T) := by
  induction l generalizing T with
  | nil => exact const _
  | cons h l ih =>
    simp only [Verif.insertHoles]
    refine bind (insertHole fuel T h) fun r => ?_
    cases r with
    | ok T => exact ih T
    | err _ _ => exact const _

theorem buildTriangulator (fuel : Nat) (d : Domains K) :
    Steady (fun (e : K) σ => Verif.buildTriangulator e fuel σ d) := by
  unfold Verif.buildTriangulator
  refine bind ((evalBoundary (ops_polyline fuel) _ _).sub 0) fun r => ?_
  cases r with
  | err => exact const _
  | ok w =>
    obtain ⟨b, unused⟩ := w
    refine bind ((holesLoop (ops_polyline fuel) b fuel unused.reverse []).sub 1) fun holes => bind ?_ fun r => ?_
    · exact seq (f := fun _ σ => Verif.shuffle (σ.sub 2) holes)
        (g := fun l e _ => Verif.insertHoles e fuel l (Triangulator.new b)) ((shuffle _).sub 2) fun l => insertHoles _ _ _
    · cases r with
      | err => exact const _
      | ok T1 =>
        refine bind ((insertSegments fuel T1 d.segments).sub 3) fun r => ?_
        cases r with
        | err _ _ => exact const _
        | ok T2 =>
          refine Steady.cases ((insertVertices T2 d.vertices).sub 4) fun r => ?_
          cases r with
          | err _ _ => exact ⟨_, fun e σ h => by simp only [h]; rfl, const _⟩
          | ok T3 => exact ⟨_, fun e σ h => by simp only [h]; rfl, const _⟩

theorem parseInput (fuel : Nat) (F : CircleFns K) (i : Input K) :
    Steady (fun (e : K) σ => Verif.parseInput e fuel F σ i) := by
  unfold Verif.parseInput
  refine bind (parseActions fuel F _ _) fun r => ?_
  cases r with
  | err => exact const _
  | ok d =>
    refine bind (buildTriangulator fuel d) fun r => const _

theorem fromTriangulator {V : Type*} [DecidableEq V] (g : V → Bool) (m : Mesh V) :
    Steady (fun (_ : K) σ => Verif.fromTriangulator g σ m) := by
  unfold Verif.fromTriangulator
  exact seq (f := fun (_ : K) σ => Verif.shuffle (σ.sub 0) (m.vertices g))
    (g := fun vec _ σ => (unwrapAll (((Verif.shuffle (σ.sub 2) m.tris).filter fun t => !t.isGhost g).map
      (triIndices vec))).bind fun ts => .ok (⟨Verif.shuffle (σ.sub 1) vec, ts⟩ : Output V)) ((shuffle _).sub 0) fun vec =>
    map2 ((shuffle vec).sub 1) ((shuffle m.tris).sub 2) fun keys ts =>
      (unwrapAll ((ts.filter fun t => !t.isGhost g).map (triIndices vec))).bind fun ts => .ok (⟨keys, ts⟩ : Output V)

theorem runProgram (fuel : Nat) (F : CircleFns K) (dist : Vertex K → Vertex K → K) (i : Input K) :
    Steady (fun (e : K) σ => Verif.runProgram e fuel F dist σ i) := by
  unfold Verif.runProgram
  refine bind ((parseInput fuel F i).sub 0) fun r => ?_
  cases r with
  | err => exact const _
  | ok w =>
    obtain ⟨T, p⟩ := w
    exact bind ((triangulate fuel T).sub 1) fun T1 => bind ((refine fuel dist p T1).sub 2) fun T2 =>
      (fromTriangulator _ _).sub 3

end program

end Steady

end Verif
