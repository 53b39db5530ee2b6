import Verif.Lemmas.SimilarPolyline
import Verif.Props.Segments
import Verif.Model.Histories

/-!
# Changing the unit of length and the origin: the methods
-/

set_option linter.unusedSectionVars false

namespace Verif

namespace Res

variable {α β γ δ : Type*}

/-- The first computation returns the image of the result of the second, which satisfies `S`. -/
def Image (f : α → β) (S : α → Prop) (x : Res β) (y : Res α) : Prop := x = y.map f ∧ ∀ r, y = .ok r → S r

theorem Image.bind {f : α → β} {f' : γ → δ} {S : α → Prop} {S' : γ → Prop} {x : Res β} {y : Res α} {F : β → Res δ}
    {G : α → Res γ} (h : Image f S x y) (hf : ∀ r, S r → Image f' S' (F (f r)) (G r)) :
    Image f' S' (x.bind F) (y.bind G) := by
  obtain ⟨rfl, h⟩ := h
  cases y with
  | ok r => exact hf r (h r rfl)
  | panic => exact ⟨rfl, fun r h => by cases h⟩
  | diverged => exact ⟨rfl, fun r h => by cases h⟩

theorem Image.ok {f : α → β} {S : α → Prop} {r : α} (h : S r) : Image f S (.ok (f r)) (.ok r) :=
  ⟨rfl, fun s e => by cases e; exact h⟩

theorem Image.panic {f : α → β} {S : α → Prop} : Image f S .panic .panic := ⟨rfl, fun r h => by cases h⟩

theorem Image.diverged {f : α → β} {S : α → Prop} : Image f S .diverged .diverged := ⟨rfl, fun r h => by cases h⟩

theorem Image.same {x y : Res α} (h : x = y) : Image id (fun _ => True) x y :=
  ⟨by rw [h]; cases y <;> rfl, fun _ _ => trivial⟩

end Res

open Res

variable {K : Type*} [Field K] [LinearOrder K] [IsStrictOrderedRing K] {eps k a b : K}

theorem Agree.refl {V : Type*} [DecidableEq V] (P : Preds V) : Agree P P :=
  ⟨rfl, rfl, fun _ _ _ _ => rfl, fun _ _ _ _ => rfl, fun _ _ _ _ => rfl⟩

theorem Mesh.Proper.map {V W : Type*} [DecidableEq V] [DecidableEq W] {φ : V ≃ W} {g : V → Bool} {g' : W → Bool}
    (hg : ∀ v, g' (φ v) = g v) {m : Mesh V} (hm : m.Proper g) : (m.map φ).Proper g' := by
  have hp : ∀ t : Tri V, t.Proper g → (t.map φ).Proper g' := fun t ht => ⟨(hg _).trans ht.1, (hg _).trans ht.2⟩
  constructor
  · intro t ht
    simp only [Mesh.map_tris, List.mem_map] at ht
    obtain ⟨s, hs, rfl⟩ := ht
    exact hp s (hm.tris s hs)
  · intro e t ht
    simp only [Mesh.map, Option.map_eq_some_iff] at ht
    obtain ⟨s, hs, rfl⟩ := ht
    exact hp s (hm.adj _ s hs)

section methods

variable (h : Rescale eps k)

set_option quotPrecheck false in
local notation "φ" => Vertex.moveEquiv k a b (Ne.symm (ne_of_lt (Rescale.pos h)))

theorem move_flag (v : Vertex K) : (φ v).isGhost = v.isGhost := Vertex.move_isGhost v

theorem move_symm_flag (v : Vertex K) : ((Equiv.symm φ) v).isGhost = v.isGhost := by
  have := move_flag (a := a) (b := b) h ((Equiv.symm φ) v)
  rw [Equiv.apply_symm_apply] at this
  exact this.symm

theorem push_ghost (fuel : Nat) (bd : Option (Polyline (Vertex K))) (hs : List (Polyline (Vertex K))) :
    ((geoPreds eps fuel bd hs).push φ).ghost = Vertex.isGhost := funext fun v => move_symm_flag h v

theorem includeVertices_move (fuel : Nat) {bd : Option (Polyline (Vertex K))} (hb : ∀ p ∈ bd, p.Real)
    {hs : List (Polyline (Vertex K))} (hh : ∀ p ∈ hs, p.Real) (C : List (Edge (Vertex K))) (σ : Sched)
    {m : Mesh (Vertex K)} (hm : m.Proper Vertex.isGhost) {l : List (Vertex K)} (hl : ∀ v ∈ l, v.isGhost = false) :
    Image (SolveState.map φ) (SolveState.Proper Vertex.isGhost)
      (includeVertices (geoPreds eps fuel (bd.map (Polyline.map φ)) (hs.map (Polyline.map φ))) (C.map (Edge.map φ)) fuel σ
        (m.map φ) (l.map φ)) (includeVertices (geoPreds eps fuel bd hs) C fuel σ m l) := by
  refine ⟨?_, fun r hr => (includeVertices_twin (Agree.refl (geoPreds eps fuel bd hs)) C fuel σ hm hl).2 r hr⟩
  rw [← includeVertices_map (Preds.push_nat φ (geoPreds eps fuel bd hs))]
  refine (includeVertices_twin (geoPreds_agree h fuel hb hh) _ fuel σ ?_ ?_).1
  · rw [push_ghost h]
    exact hm.map (move_flag h)
  · rw [push_ghost h]
    intro v hv
    rw [List.mem_map] at hv
    obtain ⟨w, hw, rfl⟩ := hv
    rw [move_flag h]
    exact hl w hw

theorem includeBoundary_move (fuel : Nat) (C : List (Edge (Vertex K))) (σ : Sched)
    {m : Mesh (Vertex K)} (hm : m.Proper Vertex.isGhost) {p : Polyline (Vertex K)} (hp : p.Real) :
    Image (Mesh.map φ) (Mesh.Proper Vertex.isGhost)
      (includeBoundary (geoPreds eps fuel none []) Vertex.ghost (C.map (Edge.map φ)) fuel σ (m.map φ) (p.map φ))
      (includeBoundary (geoPreds eps fuel none []) Vertex.ghost C fuel σ m p) := by
  refine ⟨?_, fun r hr => (includeBoundary_twin (Agree.refl (geoPreds eps fuel none [])) Vertex.ghost C fuel σ hm hp).2 r hr⟩
  rw [← includeBoundary_map (Preds.push_nat φ (geoPreds eps fuel none [])), Vertex.moveEquiv_ghost]
  refine (includeBoundary_twin (geoPreds_agree h fuel (bd := none) (by simp) (hs := []) (by simp)) _ _ fuel σ ?_ ?_).1
  · rw [push_ghost h]
    exact hm.map (move_flag h)
  · rw [push_ghost h]
    intro v hv
    simp only [Polyline.map, List.mem_map] at hv
    obtain ⟨w, hw, rfl⟩ := hv
    rw [move_flag h]
    exact hp w hw

section segments

include h in
theorem segmentTouches_sim (fuel : Nat) (s : Edge (Vertex K)) (t : Tri (Vertex K)) :
    segmentTouches eps fuel (s.map (Vertex.sim k a b)) (t.map (Vertex.sim k a b)) = segmentTouches eps fuel s t := by
  have h1 : (t.map (Vertex.sim k a b)).asPolyline = t.asPolyline.map (Polyline.map (Vertex.sim k a b)) := by
    unfold Tri.asPolyline
    rw [Tri.isGhost_sim]
    split
    · rfl
    · exact Polyline.newClosed_map (Vertex.sim k a b) [t.v1, t.v2, t.v3]
  have h2 : (s.map (Vertex.sim k a b)).asPolyline = s.asPolyline.map (Polyline.map (Vertex.sim k a b)) := by
    unfold Edge.asPolyline
    have : ((s.map (Vertex.sim k a b)).v1.isGhost || (s.map (Vertex.sim k a b)).v2.isGhost)
      = (s.v1.isGhost || s.v2.isGhost) := rfl
    rw [this]
    split
    · rfl
    · exact Polyline.newOpened_map (Vertex.sim k a b) [s.v1, s.v2]
  unfold segmentTouches
  rw [h1, h2]
  cases t.asPolyline <;> cases s.asPolyline <;> try rfl
  simp only [Option.map_some, Polyline.continence_sim h]
  have e1 := Tri.encircles_sim (a := a) (b := b) h t s.v1
  have e2 := Tri.encircles_sim (a := a) (b := b) h t s.v2
  have e3 : (s.map (Vertex.sim k a b)).v1 = s.v1.sim k a b := rfl
  have e4 : (s.map (Vertex.sim k a b)).v2 = s.v2.sim k a b := rfl
  rw [e3, e4, e1, e2]

theorem segmentBlocked_move (C : List (Edge (Vertex K))) {s : Edge (Vertex K)} (hs : s.Real Vertex.isGhost)
    {t : Tri (Vertex K)} (ht : t.Solid Vertex.isGhost) :
    segmentBlocked eps (C.map (Edge.map φ)) (s.map φ) (t.map φ) = segmentBlocked eps C s t := by
  have hE := Edge.map_injective (Equiv.injective φ)
  simp only [Tri.Solid, Tri.isGhost, Bool.or_eq_false_iff] at ht
  unfold segmentBlocked
  rw [Tri.outerEdges_map, filter_map_of (q := fun e => decide (e ∈ C) || decide (e.opposite ∈ C)) _ fun e _ => by
    rw [Edge.opposite_map, decide_mem_map hE, decide_mem_map hE]]
  refine any_map_of _ fun e he => ?_
  have hr : e.Real Vertex.isGhost := by
    have := (List.mem_filter.1 he).1
    simp only [Tri.outerEdges, List.mem_cons, List.not_mem_nil, or_false] at this
    rcases this with rfl | rfl | rfl
    · exact ⟨ht.1.2, ht.1.1⟩
    · exact ⟨ht.2, ht.1.2⟩
    · exact ⟨ht.1.1, ht.2⟩
  rw [Edge.map_move hr, Edge.map_move hs]
  simp only [Edge.map, orientation_sim h]

theorem segmentConflicts_move (fuel : Nat) (C : List (Edge (Vertex K))) {s : Edge (Vertex K)} (hs : s.Real Vertex.isGhost)
    (m : Mesh (Vertex K)) : Image (List.map (Tri.map φ)) (fun l => ∀ t ∈ l, t.Solid Vertex.isGhost)
      (segmentConflicts eps fuel (C.map (Edge.map φ)) (s.map φ) (m.map φ)) (segmentConflicts eps fuel C s m) := by
  have hsol : ∀ t ∈ m.tris.filter (fun t => !t.isGhost Vertex.isGhost), t.Solid Vertex.isGhost := fun t ht => by
    simpa [Tri.Solid] using (List.mem_filter.1 ht).2
  unfold segmentConflicts
  have h1 : (m.map φ).tris.filter (fun t => !t.isGhost Vertex.isGhost)
      = (m.tris.filter fun t => !t.isGhost Vertex.isGhost).map (Tri.map φ) :=
    filter_map_of _ fun t _ => by rw [Tri.isGhost_map (move_flag h)]
  rw [h1]
  refine Image.bind (f := List.map (Tri.map φ)) (S := fun l => ∀ t ∈ l, t.Solid Vertex.isGhost) ⟨?_, ?_⟩ fun l hl => ?_
  · exact filterRes_map_of _ fun t ht => by rw [Tri.map_move (hsol t ht), Edge.map_move hs, segmentTouches_sim h]
  · have hsub : ∀ (p : Tri (Vertex K) → Res Bool) (l r : List (Tri (Vertex K))), filterRes p l = .ok r → ∀ t ∈ r, t ∈ l := by
      intro p l
      induction l with
      | nil =>
        intro r hr
        cases hr
        exact fun _ => id
      | cons t l ih =>
        intro r hr
        simp only [filterRes, Res.bind_eq_ok] at hr
        obtain ⟨c, -, q, hq, hr⟩ := hr
        cases hr
        intro s hs
        split at hs
        · rcases List.mem_cons.1 hs with rfl | hs
          exacts [List.mem_cons_self, List.mem_cons_of_mem _ (ih q hq s hs)]
        · exact List.mem_cons_of_mem _ (ih q hq s hs)
    intro r hr t ht
    exact hsol t (hsub _ _ r hr t ht)
  · have := filter_map_of (f := Tri.map φ) (p := fun t => !segmentBlocked eps (C.map (Edge.map φ)) (s.map φ) t)
      (q := fun t => !segmentBlocked eps C s t) l fun t ht => by rw [segmentBlocked_move h C hs (hl t ht)]
    rw [this]
    exact Image.ok fun t ht => hl t (List.mem_filter.1 ht).1

theorem eqv_moveEquiv (v w : Vertex K) : Vertex.eqv eps (φ v) (φ w) = Vertex.eqv eps v w := Vertex.eqv_move h v w

theorem includeSegment_move (fuel : Nat) (σ : Sched) (C : List (Edge (Vertex K))) {m : Mesh (Vertex K)}
    (hm : m.Proper Vertex.isGhost) {s : Edge (Vertex K)} (hs : s.Real Vertex.isGhost) :
    Image (Mesh.map φ) (Mesh.Proper Vertex.isGhost)
      (includeSegment eps fuel σ (C.map (Edge.map φ)) (m.map φ) (s.map φ)) (includeSegment eps fuel σ C m s) := by
  unfold includeSegment
  refine Image.bind (segmentConflicts_move h fuel C hs m) fun conf hconf => ?_
  refine Image.bind (f := Option.map (Polyline.map φ)) (S := fun o => ∀ p ∈ o, p.Real) ⟨?_, ?_⟩ fun hull? hhull => ?_
  · exact Polyline.trianglesHull_map (eqv_moveEquiv h) (σ.sub 0) fuel conf
  · intro o ho p hp v hv
    rw [Option.mem_def] at hp
    subst hp
    obtain ⟨t, ht, hc⟩ := (Props.trianglesHull_vertices ho).2 v hv
    have := hconf t ht
    simp only [Tri.Solid, Tri.isGhost, Bool.or_eq_false_iff] at this
    unfold Spec.IsCorner at hc
    rcases hc with rfl | rfl | rfl
    exacts [this.1.1, this.1.2, this.2]
  refine Image.bind (f := Polyline.map φ) (S := Polyline.Real) ⟨Res.unwrap_map _ _, fun p hp => hhull p (Res.unwrap_eq_ok.1 hp)⟩
    fun hull hreal => ?_
  have hvs : ∀ v ∈ shuffle (σ.sub 1) (toSet (conf.flatMap Tri.corners)), v.isGhost = false := by
    intro v hv
    simp only [mem_shuffle, mem_toSet, List.mem_flatMap] at hv
    obtain ⟨t, ht, hc⟩ := hv
    have := hconf t ht
    simp only [Tri.Solid, Tri.isGhost, Bool.or_eq_false_iff] at this
    simp only [Tri.corners, List.mem_cons, List.not_mem_nil, or_false] at hc
    rcases hc with rfl | rfl | rfl
    exacts [this.1.1, this.1.2, this.2]
  have e1 : shuffle (σ.sub 1) (toSet ((conf.map (Tri.map φ)).flatMap Tri.corners))
      = (shuffle (σ.sub 1) (toSet (conf.flatMap Tri.corners))).map φ := by
    rw [flatMap_map_of (q := Tri.corners) (g := φ) _ fun t _ => Tri.corners_map t, toSet_map (Equiv.injective φ), shuffle_map]
  have e2 : Mesh.fromInitialSegment Vertex.ghost (s.map φ).v1 (s.map φ).v2
      = (Mesh.fromInitialSegment Vertex.ghost s.v1 s.v2).map φ := Mesh.fromInitialSegment_map φ Vertex.ghost s.v1 s.v2
  simp only [e1, e2]
  refine Image.bind (includeBoundary_move h fuel [s] (σ.sub 2) (Mesh.Proper.fromInitialSegment hs.1 hs.2) hreal)
    fun m1 hm1 => ?_
  refine Image.bind (includeVertices_move h fuel (bd := some hull) (by simpa using hreal) (hs := []) (by simp) [s] (σ.sub 3)
    hm1 hvs) fun st hst => ?_
  have e3 : (st.map φ).mesh.tris.filter (fun t => !t.isGhost Vertex.isGhost)
      = (st.mesh.tris.filter fun t => !t.isGhost Vertex.isGhost).map (Tri.map φ) :=
    filter_map_of _ fun t _ => by rw [Tri.isGhost_map (move_flag h)]
  rw [e3, Mesh.foldl_del_map, Mesh.foldl_add_map]
  exact Image.ok (Mesh.Proper.foldl_add (fun t ht => hst.mesh.tris t (List.mem_filter.1 ht).1) (Mesh.Proper.foldl_del _ hm))

theorem holeSegmentsLoop_move (C : List (Edge (Vertex K))) {order : List (Edge (Vertex K))}
    (ho : ∀ e ∈ order, e.Real Vertex.isGhost) (fuel n : Nat) (σ : Sched) {m : Mesh (Vertex K)}
    (hm : m.Proper Vertex.isGhost) : Image (Mesh.map φ) (Mesh.Proper Vertex.isGhost)
      (holeSegmentsLoop eps (C.map (Edge.map φ)) (order.map (Edge.map φ)) fuel n σ (m.map φ))
      (holeSegmentsLoop eps C order fuel n σ m) := by
  have hE := Edge.map_injective (Equiv.injective φ)
  have hf : ∀ m : Mesh (Vertex K), ((order.map (Edge.map φ)).find? fun e => !decide (e ∈ (m.map φ).edges))
      = (order.find? fun e => !decide (e ∈ m.edges)).map (Edge.map φ) := fun m =>
    find_map_of _ fun e _ => by rw [Mesh.edges_map, decide_mem_map hE]
  induction n generalizing σ m with
  | zero =>
    unfold holeSegmentsLoop
    rw [hf]
    cases order.find? fun e => !decide (e ∈ m.edges) with
    | none => exact Image.ok hm
    | some e => exact Image.diverged
  | succ n ih =>
    unfold holeSegmentsLoop
    rw [hf]
    cases he : order.find? fun e => !decide (e ∈ m.edges) with
    | none => exact Image.ok hm
    | some e =>
      exact Image.bind (includeSegment_move h fuel (σ.sub 0) C hm (ho e (List.mem_of_find?_eq_some he))) fun m' hm' =>
        ih (σ.sub 1) hm'

theorem includeHole_move (fuel : Nat) (σ : Sched) (C : List (Edge (Vertex K))) {m : Mesh (Vertex K)}
    (hm : m.Proper Vertex.isGhost) {p : Polyline (Vertex K)} (hp : p.Real) :
    Image (Mesh.map φ) (Mesh.Proper Vertex.isGhost) (includeHole eps fuel σ (C.map (Edge.map φ)) (m.map φ) (p.map φ))
      (includeHole eps fuel σ C m p) := by
  have hE := Edge.map_injective (Equiv.injective φ)
  have e1 : shuffle (σ.sub 0) (toSet (p.map φ).intoEdges) = (shuffle (σ.sub 0) (toSet p.intoEdges)).map (Edge.map φ) := by
    rw [Polyline.intoEdges_map, toSet_map hE, shuffle_map]
  have ho : ∀ e ∈ shuffle (σ.sub 0) (toSet p.intoEdges), e.Real Vertex.isGhost := fun e he =>
    Polyline.intoEdges_real hp e (mem_toSet.1 (mem_shuffle.1 he))
  unfold includeHole
  simp only [e1, setUnion_map hE]
  refine Image.bind (includeVertices_move h fuel (bd := none) (by simp) (hs := []) (by simp) C (σ.sub 1) hm hp) fun st hst => ?_
  refine Image.bind (holeSegmentsLoop_move h _ ho fuel fuel (σ.sub 2) hst.mesh) fun m1 hm1 => ?_
  exact ⟨@carveHole_map _ _ _ _ φ Vertex.ghost fuel _ m1, fun r hr => carveHole_proper _ fuel ho hm1 hr⟩

end segments

/-- The triangulator after the change of unit and origin. -/
def Triangulator.map (ψ : Vertex K ≃ Vertex K) (T : Triangulator K) : Triangulator K :=
  ⟨T.mesh.map ψ, T.boundary.map ψ, T.holes.map (Polyline.map ψ), T.vertices.map ψ, T.segments.map (Edge.map ψ)⟩

/-- A ghost is nowhere but in the last corner of triangles. -/
structure Triangulator.Real (T : Triangulator K) : Prop where
  mesh : T.mesh.Proper Vertex.isGhost
  boundary : T.boundary.Real
  holes : ∀ p ∈ T.holes, p.Real
  vertices : ∀ v ∈ T.vertices, v.isGhost = false
  segments : ∀ e ∈ T.segments, e.Real Vertex.isGhost

theorem Triangulator.includeHoles_move (fuel : Nat) (σ : Sched) {hs : List (Polyline (Vertex K))} (hh : ∀ p ∈ hs, p.Real)
    {m : Mesh (Vertex K)} (hm : m.Proper Vertex.isGhost) (C : List (Edge (Vertex K))) :
    Image (Prod.map (Mesh.map φ) (List.map (Edge.map φ))) (fun r => r.1.Proper Vertex.isGhost)
      (includeHoles eps fuel σ (hs.map (Polyline.map φ)) (m.map φ) (C.map (Edge.map φ))) (includeHoles eps fuel σ hs m C) := by
  induction hs generalizing σ m C with
  | nil => exact Image.ok (f := Prod.map (Mesh.map φ) (List.map (Edge.map φ))) (r := (m, C)) hm
  | cons p hs ih =>
    simp only [List.map_cons, includeHoles]
    refine Image.bind (includeHole_move h fuel (σ.sub 0) C hm (hh p List.mem_cons_self)) fun m' hm' => ?_
    rw [Polyline.intoEdges_map, setUnion_map (Edge.map_injective (Equiv.injective φ))]
    exact ih (σ.sub 1) (fun q hq => hh q (List.mem_cons_of_mem _ hq)) hm' _

theorem Triangulator.includeSegments_move (fuel : Nat) (σ : Sched) {ss : List (Edge (Vertex K))}
    (hs : ∀ e ∈ ss, e.Real Vertex.isGhost) {m : Mesh (Vertex K)} (hm : m.Proper Vertex.isGhost)
    (C : List (Edge (Vertex K))) : Image (Prod.map (Mesh.map φ) (List.map (Edge.map φ))) (fun r => r.1.Proper Vertex.isGhost)
      (includeSegments eps fuel σ (ss.map (Edge.map φ)) (m.map φ) (C.map (Edge.map φ))) (includeSegments eps fuel σ ss m C) := by
  induction ss generalizing σ m C with
  | nil => exact Image.ok (f := Prod.map (Mesh.map φ) (List.map (Edge.map φ))) (r := (m, C)) hm
  | cons s ss ih =>
    simp only [List.map_cons, includeSegments]
    refine Image.bind (includeSegment_move h fuel (σ.sub 0) C hm (hs s List.mem_cons_self)) fun m' hm' => ?_
    rw [setInsert_map (Edge.map_injective (Equiv.injective φ))]
    exact ih (σ.sub 1) (fun q hq => hs q (List.mem_cons_of_mem _ hq)) hm' _

theorem Triangulator.triangulate_move (fuel : Nat) (σ : Sched) {T : Triangulator K} (hT : T.Real) :
    Image (Triangulator.map φ) Triangulator.Real (triangulate eps fuel σ (T.map φ)) (triangulate eps fuel σ T) := by
  unfold triangulate
  have hv : (T.map φ).boundary.vertices = T.boundary.vertices.map φ := rfl
  rw [hv]
  cases hl : T.boundary.vertices with
  | nil => exact Image.panic
  | cons v1 l =>
    cases l with
    | nil => exact Image.panic
    | cons v2 l =>
      simp only [List.map_cons]
      have r1 : v1.isGhost = false := hT.boundary v1 (by simp [hl])
      have r2 : v2.isGhost = false := hT.boundary v2 (by simp [hl])
      have e0 : Mesh.fromInitialSegment Vertex.ghost (φ v1) (φ v2) = (Mesh.fromInitialSegment Vertex.ghost v1 v2).map φ :=
        Mesh.fromInitialSegment_map φ Vertex.ghost v1 v2
      rw [e0]
      refine Image.bind (includeBoundary_move h fuel [] (σ.sub 0) (Mesh.Proper.fromInitialSegment r1 r2) hT.boundary)
        fun m0 hm0 => ?_
      have e1 : shuffle (σ.sub 1) (T.map φ).holes = (shuffle (σ.sub 1) T.holes).map (Polyline.map φ) := shuffle_map _ _
      have e2 : toSet (T.map φ).boundary.intoEdges = (toSet T.boundary.intoEdges).map (Edge.map φ) := by
        rw [← toSet_map (Edge.map_injective (Equiv.injective φ)), ← Polyline.intoEdges_map]
        rfl
      have e3 : shuffle (σ.sub 4) (T.map φ).segments = (shuffle (σ.sub 4) T.segments).map (Edge.map φ) := shuffle_map _ _
      have e4 : shuffle (σ.sub 6) (T.map φ).vertices = (shuffle (σ.sub 6) T.vertices).map φ := shuffle_map _ _
      simp only [e1, e2, e3, e4]
      have hh : ∀ p ∈ shuffle (σ.sub 1) T.holes, p.Real := fun p hp => hT.holes p (mem_shuffle.1 hp)
      refine Image.bind (includeHoles_move h fuel (σ.sub 2) hh hm0 _) fun r1 hr1 => ?_
      refine Image.bind (includeSegments_move h fuel (σ.sub 3) (fun e he => hT.segments e (mem_shuffle.1 he)) hr1 _)
        fun r2 hr2 => ?_
      refine Image.bind (includeVertices_move h fuel (bd := some T.boundary) (by simpa using hT.boundary) hh r2.2 (σ.sub 5) hr2
        fun v hv => hT.vertices v (mem_shuffle.1 hv)) fun st hst => ?_
      exact Image.ok (f := Triangulator.map φ) (r := { T with mesh := st.mesh })
        ⟨hst.mesh, hT.boundary, hT.holes, hT.vertices, hT.segments⟩

end methods

end Verif
