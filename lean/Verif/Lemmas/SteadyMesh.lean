import Verif.Lemmas.SteadyGeometry

/-!
# The mesh procedures are steady
-/

set_option linter.unusedSectionVars false

namespace Verif

variable {K : Type*} [Field K] [LinearOrder K] [IsStrictOrderedRing K]

/-- The answers of a table of predicates are steady. -/
structure SteadyPreds {V : Type*} (P : K → Preds V) (g : V → Bool) : Prop where
  ghost : ∀ e, (P e).ghost = g
  veq : ∀ a b, Steady (fun e (_ : Sched) => (P e).veq a b)
  inside : ∀ t v, Steady (fun e (_ : Sched) => (P e).inside t v)
  onEdge : ∀ s v, Steady (fun e (_ : Sched) => (P e).onEdge s v)
  may : ∀ t v, Steady (fun e (_ : Sched) => (P e).mayInsert t v)

theorem steadyPreds_geo (fuel : Nat) (b : Option (Polyline (Vertex K))) (l : List (Polyline (Vertex K))) :
    SteadyPreds (fun e : K => geoPreds e fuel b l) Vertex.isGhost where
  ghost _ := rfl
  veq a b := Steady.eqv a b
  inside t v := (Steady.encircles t v).map fun c => decide (c = .inside)
  onEdge s v := Steady.edgeContains s v
  may t v := Steady.mayInsert fuel b l t v

namespace Steady

section mesh

variable {V : Type*} [DecidableEq V] {P : K → Preds V} {g : V → Bool}

theorem splitConflicts (hP : SteadyPreds P g) (t : Tri V) (vs : List V) :
    Steady (fun e (_ : Sched) => Verif.splitConflicts (P e) t vs) := by
  induction vs with
  | nil => exact const _
  | cons v vs ih =>
    simp only [Verif.splitConflicts]
    exact bind (hP.may _ _) fun may => bind ih fun r => ite (and (hP.inside _ _) (const _)) (const _) (const _)

theorem distribute (hP : SteadyPreds P g) (t : Tri V) (c : CMap V) (vs : List V) :
    Steady (fun e (_ : Sched) => Verif.distribute (P e) t c vs) := by
  unfold Verif.distribute
  exact bind (splitConflicts hP _ _) fun r => const _

theorem conflicting (hP : SteadyPreds P g) (t : Tri V) (v : V) :
    Steady (fun e (_ : Sched) => Verif.conflicting (P e) t v) := by
  unfold Verif.conflicting
  simp only [hP.ghost]
  exact or (hP.inside _ _) (and (const _) (hP.onEdge _ _))

theorem edgeEqv (hP : SteadyPreds P g) (s t : Edge V) :
    Steady (fun e (_ : Sched) => Edge.eqv (P e).veq s t) := by
  unfold Edge.eqv
  exact and (hP.veq _ _) (hP.veq _ _)

theorem cavityPushes (hP : SteadyPreds P g) (t : Tri V) (f : Edge V) :
    Steady (fun e (_ : Sched) => Verif.cavityPushes (P e).veq t f) := by
  unfold Verif.cavityPushes
  exact ite (edgeEqv hP _ _) (const _) (ite (edgeEqv hP _ _) (const _) (const _))

theorem cavityStep (hP : SteadyPreds P g) (C : List (Edge V)) (v : V) (s : Edge V) (st : SolveState V) :
    Steady (fun e (_ : Sched) => Verif.cavityStep (P e) C v s st) := by
  unfold Verif.cavityStep
  cases st.mesh.adj s.opposite with
  | none => exact const _
  | some t =>
    simp only [hP.ghost]
    refine bind (hP.may _ _) fun may => ite (and (and (conflicting hP _ _) (const _)) (const _)) ?_ ?_
    · exact map (cavityPushes hP t s.opposite) fun l => Res.ok (l, _)
    · exact bind (distribute hP _ _ _) fun r => const _

theorem cavityLoop (hP : SteadyPreds P g) (C : List (Edge V)) (v : V) (n : Nat) (l : List (Edge V)) (st : SolveState V) :
    Steady (fun e (_ : Sched) => Verif.cavityLoop (P e) C v n l st) := by
  induction n generalizing l st with
  | zero => cases l <;> exact const _
  | succ n ih =>
    cases l with
    | nil => exact const _
    | cons s l =>
      simp only [Verif.cavityLoop]
      exact bind (cavityStep hP _ _ _ _) fun r => ih _ _

theorem solveStep (hP : SteadyPreds P g) (C : List (Edge V)) (fuel : Nat) (st : SolveState V) :
    Steady (fun e σ => Verif.solveStep (P e) C fuel σ st) := by
  unfold Verif.solveStep
  refine Steady.cases (choose st.cmap) fun o => ?_
  cases o with
  | none => exact ⟨_, fun e σ h => by rw [h], const _⟩
  | some w =>
    obtain ⟨t, vs⟩ := w
    refine ⟨_, fun e σ h => by rw [h], ?_⟩
    cases hv : vs.getLast? with
    | none => simp only [hv]; exact const _
    | some v => simp only [hv]; exact cavityLoop hP _ _ _ _ _

theorem solveLoop (hP : SteadyPreds P g) (C : List (Edge V)) (fuel n : Nat) (st : SolveState V) :
    Steady (fun e σ => Verif.solveLoop (P e) C fuel n σ st) := by
  induction n generalizing st with
  | zero => exact const _
  | succ n ih =>
    simp only [Verif.solveLoop]
    exact ite' (const _) (bind ((solveStep hP _ _ _).sub 0) fun s => (ih s).sub 1)

theorem solveConflicts (hP : SteadyPreds P g) (C : List (Edge V)) (fuel : Nat) (m : Mesh V) (c : CMap V) (l : List V) :
    Steady (fun e σ => Verif.solveConflicts (P e) C fuel σ m c l) := solveLoop hP _ _ _ _

theorem distributeAll (hP : SteadyPreds P g) (l : List (Tri V)) (c : CMap V) (vs : List V) :
    Steady (fun e (_ : Sched) => Verif.distributeAll (P e) l c vs) := by
  induction l generalizing c vs with
  | nil => exact const _
  | cons t l ih =>
    simp only [Verif.distributeAll]
    exact ite' (const _) (bind (distribute hP _ _ _) fun r => ih _ _)

theorem includeVertices (hP : SteadyPreds P g) (C : List (Edge V)) (fuel : Nat) (m : Mesh V) (vs : List V) :
    Steady (fun e σ => Verif.includeVertices (P e) C fuel σ m vs) := by
  unfold Verif.includeVertices
  simp only [hP.ghost]
  refine bind ?_ fun r => (solveConflicts hP _ _ _ _ _).sub 1
  exact seq (f := fun _ σ => Verif.shuffle (σ.sub 0) m.tris)
    (g := fun l e _ => Verif.distributeAll (P e) l [] (vs.filter fun v => !decide (v ∈ m.vertices g)))
    ((shuffle m.tris).sub 0) fun l => distributeAll hP _ _ _

theorem includeVertices_const (hP : SteadyPreds P g) (fuel : Nat) (m : Mesh V) (vs : List V)
    {C : K → Sched → List (Edge V)} (hC : Steady C) :
    Steady (fun e σ => Verif.includeVertices (P e) (C e σ) fuel σ m vs) :=
  seq (g := fun C e σ => Verif.includeVertices (P e) C fuel σ m vs) hC fun C => includeVertices hP C fuel m vs

theorem visitNeighbours (hP : SteadyPreds P g) (m : Mesh V) (l : List (Edge V)) (p v : List (Tri V)) (e : K) :
    Verif.visitNeighbours (P e) m l p v = Verif.visitNeighbours (P 0) m l p v := by
  induction l generalizing p v with
  | nil => rfl
  | cons s l ih => simp only [Verif.visitNeighbours, hP.ghost, ih]

theorem distributeOverLoop (hP : SteadyPreds P g) (m : Mesh V) (n : Nat) (l v : List (Tri V)) (c : CMap V) (vs : List V) :
    Steady (fun e (_ : Sched) => Verif.distributeOverLoop (P e) m n l v c vs) := by
  induction n generalizing l v c vs with
  | zero => cases l <;> cases vs <;> exact const _
  | succ n ih =>
    cases l with
    | nil => cases vs <;> exact const _
    | cons t l =>
      cases vs with
      | nil => exact const _
      | cons w vs =>
        simp only [Verif.distributeOverLoop, visitNeighbours hP m _ _ _ _]
        exact bind (distribute hP _ _ _) fun q => ih _ _ _ _

theorem distributeOver (hP : SteadyPreds P g) (fuel : Nat) (m : Mesh V) (i : Option (Tri V)) (c : CMap V) (vs : List V) :
    Steady (fun e σ => Verif.distributeOver (P e) fuel σ m i c vs) := by
  unfold Verif.distributeOver
  cases i with
  | some t => exact distributeOverLoop hP _ _ _ _ _ _
  | none =>
    refine Steady.cases (choose m.tris) fun o => ?_
    cases o with
    | none => exact ⟨_, fun e σ h => by rw [h], const _⟩
    | some t => exact ⟨_, fun e σ h => by rw [h], distributeOverLoop hP _ _ _ _ _ _⟩

theorem includeBoundary (hP : SteadyPreds P g) (gh : V) (C : List (Edge V)) (fuel : Nat) (m : Mesh V) (b : Polyline V) :
    Steady (fun e σ => Verif.includeBoundary (P e) gh C fuel σ m b) := by
  unfold Verif.includeBoundary
  refine bind ((includeVertices hP _ _ _ _).sub 0) fun s => ?_
  exact map ((shuffle (Verif.reversedEdges b)).sub 1) fun l => carveBoundary gh fuel l s.mesh

end mesh

section segment

theorem segmentTouches (fuel : Nat) (s : Edge (Vertex K)) (t : Tri (Vertex K)) :
    Steady (fun (e : K) (_ : Sched) => Verif.segmentTouches e fuel s t) := by
  unfold Verif.segmentTouches
  cases t.asPolyline with
  | none => exact const _
  | some p =>
    cases s.asPolyline with
    | none => exact const _
    | some q =>
      refine bind (continence _ _ _) fun c => ?_
      refine map (f := fun (e : K) (_ : Sched) => (decide (t.encircles e s.v1 ≠ .outside) ||
        decide (t.encircles e s.v2 ≠ .outside) || decide (c ≠ some (.outside, .opened)))) ?_ Res.ok
      exact or (or ((encircles t s.v1).map fun c => decide (c ≠ .outside))
        ((encircles t s.v2).map fun c => decide (c ≠ .outside))) (const _)

theorem segmentBlocked (C : List (Edge (Vertex K))) (s : Edge (Vertex K)) (t : Tri (Vertex K)) :
    Steady (fun (e : K) (_ : Sched) => Verif.segmentBlocked e C s t) := by
  unfold Verif.segmentBlocked
  refine any _ fun a _ => or ((orientation a.v1 a.v2 s.v1).map fun o => decide (o = .counterclockwise))
    ((orientation a.v1 a.v2 s.v2).map fun o => decide (o = .counterclockwise))

theorem segmentConflicts (fuel : Nat) (C : List (Edge (Vertex K))) (s : Edge (Vertex K)) (m : Mesh (Vertex K)) :
    Steady (fun (e : K) (_ : Sched) => Verif.segmentConflicts e fuel C s m) := by
  unfold Verif.segmentConflicts
  refine bind (filterRes _ fun t _ => segmentTouches _ _ _) fun l => ?_
  exact map (filter l fun t _ => not (segmentBlocked C s t)) Res.ok

theorem arrangeLoop {V : Type*} [DecidableEq V] {veq : K → V → V → Bool}
    (hv : ∀ a b, Steady (fun e (_ : Sched) => veq e a b)) (next : V → Option V) (h : V) (n : Nat) (t : V) (l : List V) :
    Steady (fun e (_ : Sched) => Verif.arrangeLoop (veq e) next h n t l) := by
  induction n generalizing t l with
  | zero => exact const _
  | succ n ih =>
    simp only [Verif.arrangeLoop]
    cases next t with
    | none => exact const _
    | some w => exact ite (hv _ _) (const _) (ih _ _)

theorem arrange {V : Type*} [DecidableEq V] {veq : K → V → V → Bool}
    (hv : ∀ a b, Steady (fun e (_ : Sched) => veq e a b)) (fuel : Nat) (l : List (Edge V)) :
    Steady (fun e σ => Polyline.arrange (veq e) σ fuel l) := by
  unfold Polyline.arrange
  refine seq (f := fun _ σ => Verif.shuffle (σ.sub 0) l) (g := fun order e σ =>
    match Verif.choose (σ.sub 1) (toSet (order.map (·.v1))) with
    | none => Res.panic
    | some head =>
      (Verif.arrangeLoop (veq e) (arrangeMap order) head fuel head [head]).bind fun vs =>
        if vs.length = l.length then
          match Polyline.newClosed vs with
          | none => Res.panic
          | some p => Res.ok (some p)
        else Res.ok none) ((shuffle l).sub 0) fun order => ?_
  refine Steady.cases ((choose (toSet (order.map (·.v1)))).sub 1) fun o => ?_
  cases o with
  | none => exact ⟨_, fun e σ h => by rw [h], const _⟩
  | some w => exact ⟨_, fun e σ h => by rw [h], bind (arrangeLoop hv _ _ _ _ _) fun vs => const _⟩

theorem trianglesHull {V : Type*} [DecidableEq V] {veq : K → V → V → Bool}
    (hv : ∀ a b, Steady (fun e (_ : Sched) => veq e a b)) (fuel : Nat) (l : List (Tri V)) :
    Steady (fun e σ => Polyline.trianglesHull (veq e) σ fuel l) := by
  unfold Polyline.trianglesHull
  refine seq (f := fun _ σ => hullEdges (σ.sub 0) l) (g := fun es e σ => Polyline.arrange (veq e) (σ.sub 1) fuel es)
    ?_ fun es => (arrange hv fuel es).sub 1
  exact Steady.sub (f := fun _ σ => hullEdges σ l) (map (shuffle _) fun es => hullLoop es []) 0

theorem includeSegment (fuel : Nat) (C : List (Edge (Vertex K))) (m : Mesh (Vertex K)) (s : Edge (Vertex K)) :
    Steady (fun (e : K) σ => Verif.includeSegment e fuel σ C m s) := by
  unfold Verif.includeSegment
  refine bind (segmentConflicts _ _ _ _) fun conf => bind ((trianglesHull eqv _ _).sub 0) fun h => bind (const _) fun hull => ?_
  refine bind ((includeBoundary (steadyPreds_geo fuel none []) _ _ _ _ _).sub 2) fun m1 => bind ?_ fun st => const _
  exact seq (f := fun _ σ => Verif.shuffle (σ.sub 1) (toSet (conf.flatMap Tri.corners)))
    (g := fun vs e σ => Verif.includeVertices (geoPreds e fuel (some hull) []) [s] fuel (σ.sub 3) m1 vs)
    ((shuffle _).sub 1) fun vs => (includeVertices (steadyPreds_geo fuel (some hull) []) _ _ _ _).sub 3

theorem holeSegmentsLoop (C order : List (Edge (Vertex K))) (fuel n : Nat) (m : Mesh (Vertex K)) :
    Steady (fun (e : K) σ => Verif.holeSegmentsLoop e C order fuel n σ m) := by
  induction n generalizing m with
  | zero =>
    unfold Verif.holeSegmentsLoop
    cases order.find? fun e => !decide (e ∈ m.edges) <;> exact const _
  | succ n ih =>
    unfold Verif.holeSegmentsLoop
    cases order.find? fun e => !decide (e ∈ m.edges) with
    | none => exact const _
    | some s => exact bind ((includeSegment _ _ _ _).sub 0) fun m' => (ih m').sub 1

theorem includeHole (fuel : Nat) (C : List (Edge (Vertex K))) (m : Mesh (Vertex K)) (h : Polyline (Vertex K)) :
    Steady (fun (e : K) σ => Verif.includeHole e fuel σ C m h) := by
  unfold Verif.includeHole
  refine seq (f := fun _ σ => Verif.shuffle (σ.sub 0) (toSet h.intoEdges)) (g := fun order e σ =>
    (Verif.includeVertices (geoPreds e fuel none []) C fuel (σ.sub 1) m h.vertices).bind fun st =>
      (Verif.holeSegmentsLoop e (setUnion C order) order fuel fuel (σ.sub 2) st.mesh).bind fun m1 =>
        carveHole Vertex.ghost fuel order m1) ((shuffle _).sub 0) fun order => ?_
  exact bind ((includeVertices (steadyPreds_geo fuel none []) _ _ _ _).sub 1) fun st =>
    bind ((holeSegmentsLoop _ _ _ _ _).sub 2) fun m1 => const _

theorem includeHoles (fuel : Nat) (l : List (Polyline (Vertex K))) (m : Mesh (Vertex K)) (C : List (Edge (Vertex K))) :
    Steady (fun (e : K) σ => Triangulator.includeHoles e fuel σ l m C) := by
  induction l generalizing m C with
  | nil => exact const _
  | cons h l ih =>
    simp only [Triangulator.includeHoles]
    exact bind ((includeHole _ _ _ _).sub 0) fun m' => (ih _ _).sub 1

theorem includeSegments (fuel : Nat) (l : List (Edge (Vertex K))) (m : Mesh (Vertex K)) (C : List (Edge (Vertex K))) :
    Steady (fun (e : K) σ => Triangulator.includeSegments e fuel σ l m C) := by
  induction l generalizing m C with
  | nil => exact const _
  | cons h l ih =>
    simp only [Triangulator.includeSegments]
    exact bind ((includeSegment _ _ _ _).sub 0) fun m' => (ih _ _).sub 1

theorem triangulate (fuel : Nat) (T : Triangulator K) :
    Steady (fun (e : K) σ => Triangulator.triangulate e fuel σ T) := by
  unfold Triangulator.triangulate
  cases hv : T.boundary.vertices with
  | nil => exact const _
  | cons v1 l =>
    cases l with
    | nil => exact const _
    | cons v2 l =>
      simp only
      refine bind ((includeBoundary (steadyPreds_geo fuel none []) _ _ _ _ _).sub 0) fun m0 => ?_
      refine seq (f := fun _ σ => Verif.shuffle (σ.sub 1) T.holes) (g := fun holes e σ =>
        (Triangulator.includeHoles e fuel (σ.sub 2) holes m0 (toSet T.boundary.intoEdges)).bind fun r1 =>
          (Triangulator.includeSegments e fuel (σ.sub 3) (Verif.shuffle (σ.sub 4) T.segments) r1.1 r1.2).bind fun r2 =>
            (Verif.includeVertices (geoPreds e fuel (some T.boundary) holes) r2.2 fuel (σ.sub 5) r2.1
              (Verif.shuffle (σ.sub 6) T.vertices)).bind fun st => Res.ok { T with mesh := st.mesh })
        ((shuffle _).sub 1) fun holes => ?_
      refine bind ((includeHoles _ _ _ _).sub 2) fun r1 => bind ?_ fun r2 => bind ?_ fun st => const _
      · exact seq (f := fun _ σ => Verif.shuffle (σ.sub 4) T.segments)
          (g := fun l e σ => Triangulator.includeSegments e fuel (σ.sub 3) l r1.1 r1.2) ((shuffle _).sub 4)
          fun l => (includeSegments _ _ _ _).sub 3
      · exact seq (f := fun _ σ => Verif.shuffle (σ.sub 6) T.vertices)
          (g := fun l e σ => Verif.includeVertices (geoPreds e fuel (some T.boundary) holes) r2.2 fuel (σ.sub 5) r2.1 l)
          ((shuffle _).sub 6) fun l => (includeVertices (steadyPreds_geo fuel (some T.boundary) holes) _ _ _ _).sub 5

end segment

end Steady

end Verif
