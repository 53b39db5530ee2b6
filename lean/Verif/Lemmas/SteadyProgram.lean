import Verif.Lemmas.SteadyMesh

/-!
# The refinement, the requests and the program are steady
-/

set_option linter.unusedSectionVars false

namespace Verif

variable {K : Type*} [Field K] [LinearOrder K] [IsStrictOrderedRing K]

/-- The answers of a table of predicates for the refinement are steady. -/
structure SteadyRPreds {V : Type*} (P : K → RPreds V) (g : V → Bool) (mid : Edge V → V)
    (cc : Tri V → Option V) : Prop where
  base : SteadyPreds (fun e => (P e).toPreds) g
  enc : ∀ s v, Steady (fun e (_ : Sched) => (P e).encroaches s v)
  mid : ∀ e, (P e).mid = mid
  cc : ∀ e, (P e).circumcenter = cc
  irr : ∀ t, Steady (fun e (_ : Sched) => (P e).irregular t)
  large : ∀ t, Steady (fun e (_ : Sched) => (P e).large t)

theorem steadyRPreds_geo (fuel : Nat) (dist : Vertex K → Vertex K → K) (p : RefineParams K)
    (b : Option (Polyline (Vertex K))) (l : List (Polyline (Vertex K))) :
    SteadyRPreds (fun e : K => geoRPreds e fuel dist p b l) Vertex.isGhost Edge.midpoint Tri.circumcenter where
  base := steadyPreds_geo fuel b l
  enc s v := (Steady.encroach s.v1 s.v2 v).map fun c => decide (c = .inside)
  mid _ := rfl
  cc _ := rfl
  irr t := by
    show Steady (fun (e : K) (_ : Sched) => isIrregular e dist p t)
    unfold isIrregular
    cases t.quality dist with
    | none => exact Steady.const _
    | some q => exact Steady.or (Steady.approxEq _ _) (Steady.const _)
  large t := by
    show Steady (fun (e : K) (_ : Sched) => isLarge e p t)
    unfold isLarge
    cases t.area with
    | none => exact Steady.const _
    | some a =>
      cases p.maxArea with
      | none => exact Steady.const _
      | some mx => exact Steady.or (Steady.approxEq _ _) (Steady.const _)

namespace Steady

section refine

variable {V : Type*} [DecidableEq V] {P : K → RPreds V} {g : V → Bool} {mid : Edge V → V} {cc : Tri V → Option V}

theorem distributeEncroachments (hP : SteadyRPreds P g mid cc) (C : List (Edge V)) (vs : List V) :
    Steady (fun e (_ : Sched) => Verif.distributeEncroachments (P e) C vs) := by
  unfold Verif.distributeEncroachments
  refine map (list_map (q := fun e _ s => (s, vs.filter fun v => (P e).encroaches s v)) C fun s _ => ?_) _
  exact map (filter vs fun v _ => hP.enc s v) fun l => (s, l)

theorem splitSegment (hP : SteadyRPreds P g mid cc) (fuel : Nat) (C : List (Edge V)) (m : Mesh V) (s : Edge V) :
    Steady (fun e σ => Verif.splitSegment (P e) fuel σ C m s) := by
  unfold Verif.splitSegment
  simp only [hP.mid]
  refine includeVertices_const (P := fun e => (P e).toPreds) hP.base fuel m [mid s] ?_
  exact filter C fun t _ => and (not (edgeEqv hP.base _ _)) (not (edgeEqv hP.base _ _))

theorem unencStep (hP : SteadyRPreds P g mid cc) (fuel : Nat) (C : List (Edge V)) (s : Edge V) (st : UnencState V) :
    Steady (fun e σ => Verif.unencStep (P e) fuel σ C s st) := by
  unfold Verif.unencStep
  refine bind (splitSegment hP _ _ _ _) fun r => ?_
  simp only [hP.mid]
  refine Steady.cases (any st.vertices fun v _ => hP.enc ⟨s.v1, mid s⟩ v) fun b1 => ⟨_, fun e σ h => by rw [h], ?_⟩
  refine Steady.cases (any st.vertices fun v _ => hP.enc ⟨mid s, s.v2⟩ v) fun b2 => ⟨_, fun e σ h => by rw [h], ?_⟩
  exact map (filter st.vertices fun v _ => or (hP.enc ⟨s.v1, mid s⟩ v) (hP.enc ⟨mid s, s.v2⟩ v)) fun l =>
    Res.ok (_, (⟨_, l, _, _, _⟩ : UnencState V))

theorem unencLoop (hP : SteadyRPreds P g mid cc) (C : List (Edge V)) (fuel n : Nat) (l : List (Edge V))
    (st : UnencState V) : Steady (fun e σ => Verif.unencLoop (P e) C fuel n σ l st) := by
  induction n generalizing l st with
  | zero => cases l <;> exact const _
  | succ n ih =>
    cases l with
    | nil => exact const _
    | cons s l =>
      simp only [Verif.unencLoop]
      exact bind ((unencStep hP _ _ _ _).sub 0) fun r => (ih _ _).sub 1

theorem unencroachSegment (hP : SteadyRPreds P g mid cc) (fuel : Nat) (C : List (Edge V)) (m : Mesh V) (s : Edge V)
    (vs : List V) : Steady (fun e σ => Verif.unencroachSegment (P e) fuel σ C m s vs) := unencLoop hP _ _ _ _ _

theorem unencroachLoop (hP : SteadyRPreds P g mid cc) (C : List (Edge V)) (fuel n : Nat) (m : Mesh V)
    (l : List (Edge V × List V)) (sp : List (Edge V × Edge V)) :
    Steady (fun e σ => Verif.unencroachLoop (P e) C fuel n σ m l sp) := by
  induction n generalizing m l sp with
  | zero => cases l <;> exact const _
  | succ n ih =>
    cases l with
    | nil => exact const _
    | cons c l =>
      simp only [Verif.unencroachLoop]
      refine Steady.cases ((choose (c :: l)).sub 0) fun o => ?_
      cases o with
      | none => exact ⟨_, fun e σ h => by rw [h], const _⟩
      | some w =>
        refine ⟨_, fun e σ h => by rw [h], ?_⟩
        exact bind ((unencroachSegment hP _ _ _ _ _).sub 1) fun r => (ih _ _ _).sub 2

theorem unencroach (hP : SteadyRPreds P g mid cc) (fuel : Nat) (C : List (Edge V)) (m : Mesh V) :
    Steady (fun e σ => Verif.unencroach (P e) fuel σ C m) := by
  unfold Verif.unencroach
  simp only [hP.base.ghost]
  exact seq (f := fun e _ => Verif.distributeEncroachments (P e) C (m.vertices g))
    (g := fun l e σ => Verif.unencroachLoop (P e) C fuel fuel σ m l []) (distributeEncroachments hP _ _)
    fun l => unencroachLoop hP _ _ _ _ _ _

theorem oppositeEdge (hP : SteadyRPreds P g mid cc) (t : Tri V) (v : V) :
    Steady (fun e (_ : Sched) => t.oppositeEdge (P e).veq v) := by
  unfold Tri.oppositeEdge
  exact ite (hP.base.veq _ _) (const _) (ite (hP.base.veq _ _) (const _) (ite (hP.base.veq _ _) (const _) (const _)))

theorem findEncroachments (hP : SteadyRPreds P g mid cc) (C : List (Edge V)) (c : V) (l : List (Tri V)) :
    Steady (fun e (_ : Sched) => Verif.findEncroachments (P e) C c l) := by
  unfold Verif.findEncroachments
  refine bind ?_ fun es => ?_
  · induction l with
    | nil => exact const _
    | cons t l ih =>
      simp only [List.foldr_cons]
      exact bind (unwrap (oppositeEdge hP t c)) fun s => bind ih fun r => const _
  · refine map (f := fun e _ => es.filter fun s => (decide (s ∈ C) || decide (s.opposite ∈ C)) && (P e).encroaches s c)
      ?_ fun l => Res.ok (toSet l)
    exact filter es fun s _ => and (const _) (hP.enc s c)

theorem tryCircumcenter (hP : SteadyRPreds P g mid cc) (fuel : Nat) (C : List (Edge V)) (m : Mesh V) (t : Tri V) :
    Steady (fun e σ => Verif.tryCircumcenter (P e) fuel σ C m t) := by
  unfold Verif.tryCircumcenter
  simp only [hP.cc]
  refine bind (const _) fun c => bind ((distributeOver hP.base _ _ _ _ _).sub 0) fun d =>
    bind ((solveConflicts hP.base _ _ _ _ _).sub 1) fun s => bind (findEncroachments hP _ _ _) fun enc =>
      ite' (const _) ?_
  exact map2 ((shuffle s.included).sub 2) ((shuffle s.removed).sub 3) fun a b =>
    Res.ok (TryRes.rejected (rollback s.mesh a b) enc)

theorem requeue (hP : SteadyRPreds P g mid cc) (inc rem : List (Tri V)) (st : SplitState V) :
    Steady (fun e (_ : Sched) => Verif.requeue (P e) inc rem st) := by
  unfold Verif.requeue
  simp only [hP.base.ghost]
  have h1 : ∀ l acc : List (Tri V), Steady (fun e (_ : Sched) =>
      l.foldl (fun l t => if (P e).irregular t then setInsert t l else l) acc) := by
    intro l
    induction l with
    | nil => intro acc; exact const _
    | cons t l ih =>
      intro acc
      simp only [List.foldl_cons]
      exact seq (f := fun e _ => if (P e).irregular t then setInsert t acc else acc)
        (g := fun acc e _ => l.foldl (fun l t => if (P e).irregular t then setInsert t l else l) acc)
        (ite (hP.irr t) (const _) (const _)) ih
  have h2 : ∀ l acc : List (Tri V), Steady (fun e (_ : Sched) =>
      l.foldl (fun l t => if (P e).irregular t then l else if (P e).large t then setInsert t l else l) acc) := by
    intro l
    induction l with
    | nil => intro acc; exact const _
    | cons t l ih =>
      intro acc
      simp only [List.foldl_cons]
      exact seq (f := fun e _ => if (P e).irregular t then acc else if (P e).large t then setInsert t acc else acc)
        (g := fun acc e _ =>
          l.foldl (fun l t => if (P e).irregular t then l else if (P e).large t then setInsert t l else l) acc)
        (ite (hP.irr t) (const _) (ite (hP.large t) (const _) (const _))) ih
  exact map2 (h1 _ _) (h2 _ _) fun a b =>
    (⟨st.mesh, st.segments, a.filter fun t => !decide (t ∈ rem), b.filter fun t => !decide (t ∈ rem), st.split⟩ :
      SplitState V)

theorem splitEncroached (hP : SteadyRPreds P g mid cc) (fuel : Nat) (es : List (Edge V)) (vs : List V)
    (st : SplitState V) : Steady (fun e σ => Verif.splitEncroached (P e) fuel σ es vs st) := by
  induction es generalizing vs st with
  | nil => exact const _
  | cons s es ih =>
    simp only [Verif.splitEncroached]
    refine bind ((unencroachSegment hP _ _ _ _ _).sub 0) fun r => ?_
    exact seq (f := fun e _ => Verif.requeue (P e) r.included r.removed _)
      (g := fun st e σ => Verif.splitEncroached (P e) fuel (σ.sub 1) es r.vertices st) (requeue hP _ _ _)
      fun st => (ih _ _).sub 1

theorem splitStep (hP : SteadyRPreds P g mid cc) (fuel : Nat) (t : Tri V) (st : SplitState V) :
    Steady (fun e σ => Verif.splitStep (P e) fuel σ t st) := by
  unfold Verif.splitStep
  simp only [hP.cc]
  refine bind ((tryCircumcenter hP _ _ _ _).sub 0) fun r => ?_
  cases r with
  | inserted m i r => exact map (requeue hP _ _ _) Res.ok
  | rejected m enc =>
    refine bind (const _) fun c => ?_
    exact seq (f := fun _ σ => Verif.shuffle (σ.sub 2) enc)
      (g := fun l e σ => Verif.splitEncroached (P e) fuel (σ.sub 1) l [c] { st with mesh := m })
      ((shuffle _).sub 2) fun l => (splitEncroached hP _ _ _ _).sub 1

theorem popTriangle (st : SplitState V) : Steady (fun (_ : K) σ => Verif.popTriangle σ st) := by
  unfold Verif.popTriangle
  refine Steady.cases (choose st.irregulars) fun o => ?_
  cases o with
  | some t => exact ⟨_, fun e σ h => by rw [h], const _⟩
  | none =>
    refine ⟨_, fun e σ h => by rw [h], ?_⟩
    refine Steady.cases (choose st.larges) fun o => ?_
    cases o with
    | some t => exact ⟨_, fun e σ h => by rw [h], const _⟩
    | none => exact ⟨_, fun e σ h => by rw [h], const _⟩

theorem splitIrregularLoop (hP : SteadyRPreds P g mid cc) (fuel n : Nat) (st : SplitState V) :
    Steady (fun e σ => Verif.splitIrregularLoop (P e) fuel n σ st) := by
  induction n generalizing st with
  | zero =>
    unfold Verif.splitIrregularLoop
    refine Steady.cases ((popTriangle st).sub 0) fun o => ?_
    cases o with
    | none => exact ⟨_, fun e σ h => by rw [h], const _⟩
    | some w => exact ⟨_, fun e σ h => by rw [h], const _⟩
  | succ n ih =>
    unfold Verif.splitIrregularLoop
    refine Steady.cases ((popTriangle st).sub 0) fun o => ?_
    cases o with
    | none => exact ⟨_, fun e σ h => by rw [h], const _⟩
    | some w =>
      obtain ⟨t, s'⟩ := w
      exact ⟨_, fun e σ h => by rw [h], bind ((splitStep hP _ _ _).sub 1) fun s => (ih s).sub 2⟩

theorem splitIrregular (hP : SteadyRPreds P g mid cc) (fuel : Nat) (C : List (Edge V)) (m : Mesh V) :
    Steady (fun e σ => Verif.splitIrregular (P e) fuel σ C m) := by
  unfold Verif.splitIrregular
  refine seq (f := fun e _ => splitInit (P e) C m) (g := fun st e σ => Verif.splitIrregularLoop (P e) fuel fuel σ st) ?_
    fun st => splitIrregularLoop hP _ _ _
  unfold splitInit
  simp only [hP.base.ghost]
  exact map2 (filter _ fun t _ => hP.irr t) (filter _ fun t _ => hP.large t) fun a b =>
    (⟨m, C, a, b, []⟩ : SplitState V)

end refine

theorem refine (fuel : Nat) (dist : Vertex K → Vertex K → K) (p : RefineParams K) (T : Triangulator K) :
    Steady (fun (e : K) σ => Triangulator.refine e fuel dist p σ T) := by
  unfold Triangulator.refine
  have hP := steadyRPreds_geo fuel dist p (some T.boundary) T.holes
  exact bind ((unencroach hP _ _ _).sub 0) fun r => bind ((splitIrregular hP _ _ _).sub 1) fun s => const _

section requests

theorem vertexRejected (T : Triangulator K) (v : Vertex K) :
    Steady (fun (e : K) (_ : Sched) => Triangulator.vertexRejected e T v) := by
  unfold Triangulator.vertexRejected
  exact or ((contains T.boundary v).map fun c => decide (c ≠ some .inside))
    (any _ fun h _ => (contains h v).map fun c => decide (c ≠ some .outside))

theorem placeVertex (v : Vertex K) (l : List (Edge (Vertex K))) :
    Steady (fun (e : K) (_ : Sched) => Triangulator.placeVertex e v l) := by
  induction l with
  | nil => exact const _
  | cons s l ih =>
    simp only [Triangulator.placeVertex]
    exact ite (or (eqv _ _) (eqv _ _)) (const _) (ite (edgeContains _ _) (const _) ih)

theorem insertVerticesLoop (vs : List (Vertex K)) (T : Triangulator K) :
    Steady (fun (e : K) σ => Triangulator.insertVerticesLoop e σ vs T) := by
  induction vs generalizing T with
  | nil => exact const _
  | cons v vs ih =>
    simp only [Triangulator.insertVerticesLoop]
    refine Steady.cases (f := fun e σ => Triangulator.placeVertex e v (Verif.shuffle (σ.sub 0) T.segments)) ?_ fun o =>
      ⟨_, fun e σ h => by rw [h], (ih _).sub 1⟩
    exact seq (f := fun _ σ => Verif.shuffle (σ.sub 0) T.segments) (g := fun l e _ => Triangulator.placeVertex e v l)
      ((shuffle _).sub 0) fun l => placeVertex v l

theorem insertVertices (T : Triangulator K) (vs : List (Vertex K)) :
    Steady (fun (e : K) σ => Triangulator.insertVertices e σ T vs) := by
  unfold Triangulator.insertVertices
  refine Steady.cases (filter vs fun v _ => vertexRejected T v) fun bad => ⟨_, fun e σ h => by rw [h], ?_⟩
  refine ite' (const _) ?_
  refine map (f := fun e σ => Triangulator.insertVerticesLoop e (σ.sub 1) (Verif.shuffle (σ.sub 0) vs) T) ?_ InsertRes.ok
  exact seq (f := fun _ σ => Verif.shuffle (σ.sub 0) vs) (g := fun l e σ => Triangulator.insertVerticesLoop e (σ.sub 1) l T)
    ((shuffle _).sub 0) fun l => (insertVerticesLoop l T).sub 1

theorem segmentRejected (fuel : Nat) (T : Triangulator K) (s : Edge (Vertex K)) :
    Steady (fun (e : K) (_ : Sched) => Triangulator.segmentRejected e fuel T s) := by
  unfold Triangulator.segmentRejected
  refine bind (continence _ _ _) fun c => ite' (const _) (bind (filterRes _ fun h _ => ?_) fun l => const _)
  exact bind (continence _ _ _) fun c => const _

theorem scanVertices (s : Edge (Vertex K)) (l st : List (Vertex K)) :
    Steady (fun (e : K) (_ : Sched) => Triangulator.scanVertices e s l st) := by
  induction l generalizing st with
  | nil => exact const _
  | cons v l ih =>
    simp only [Triangulator.scanVertices]
    refine seq (f := fun e _ => if Vertex.eqv e s.v1 v || Vertex.eqv e s.v2 v then setErase v st else st)
      (g := fun st' e _ => if s.contains e v then (setErase v st', some v) else Triangulator.scanVertices e s l st')
      (ite (or (eqv _ _) (eqv _ _)) (const _) (const _)) fun st' => ?_
    exact ite (edgeContains _ _) (const _) (ih _)

theorem absorbLoop (n : Nat) (l : List (Edge (Vertex K))) (st : List (Vertex K)) (acc : List (Edge (Vertex K))) :
    Steady (fun (e : K) σ => Triangulator.absorbLoop e n σ l st acc) := by
  induction n generalizing l st acc with
  | zero => cases l <;> exact const _
  | succ n ih =>
    cases l with
    | nil => exact const _
    | cons s l =>
      simp only [Triangulator.absorbLoop]
      refine Steady.cases (f := fun e σ => Triangulator.scanVertices e s (Verif.shuffle (σ.sub 0) st) st) ?_ fun r => ?_
      · exact seq (f := fun _ σ => Verif.shuffle (σ.sub 0) st) (g := fun l e _ => Triangulator.scanVertices e s l st)
          ((shuffle _).sub 0) fun l => scanVertices s l st
      · refine ⟨_, fun e σ h => by rw [h], ?_⟩
        cases hr : r.2 with
        | none => exact (ih _ _ _).sub 1
        | some v => exact (ih _ _ _).sub 1

theorem insertSegments (fuel : Nat) (T : Triangulator K) (l : List (Edge (Vertex K))) :
    Steady (fun (e : K) σ => Triangulator.insertSegments e fuel σ T l) := by
  unfold Triangulator.insertSegments
  refine ite' (const _) (bind (filterRes _ fun s _ => segmentRejected _ _ _) fun bad => ite' (const _) ?_)
  refine bind ?_ fun r => bind ?_ fun sp => const _
  · exact seq (f := fun _ σ => Verif.shuffle (σ.sub 1) l)
      (g := fun l e σ => Triangulator.absorbLoop e fuel (σ.sub 0) l T.vertices []) ((shuffle _).sub 1)
      fun l => (absorbLoop _ _ _ _).sub 0
  · exact seq (f := fun _ σ => Edge.intoVertexPairs (Verif.shuffle (σ.sub 2) r.2)
        ++ Edge.intoVertexPairs (Verif.shuffle (σ.sub 3) T.segments))
      (g := fun l e _ => Verif.splitIntersections e fuel l)
      (map2 ((shuffle r.2).sub 2) ((shuffle T.segments).sub 3) fun a b => Edge.intoVertexPairs a ++ Edge.intoVertexPairs b)
      fun l => splitIntersections _ _

theorem insertHole (fuel : Nat) (T : Triangulator K) (h : Polyline (Vertex K)) :
    Steady (fun (e : K) (_ : Sched) => Triangulator.insertHole e fuel T h) := by
  unfold Triangulator.insertHole Triangulator.holeConflicts
  refine bind (bind (continence _ _ _) fun c => bind (filterRes _ fun p _ => ?_) fun l => const _) fun bad =>
    ite' (const _) (bind (filterRes _ fun s _ => ?_) fun l => const _)
  · exact bind (continence _ _ _) fun c => const _
  · exact bind (continence _ _ _) fun c => const _

end requests

end Steady

end Verif
