import Verif.Lemmas.RimAgainSafe
import Verif.Props.Histories

/-!
# C65: the mesh after any sequence of calls
-/

set_option linter.unusedSectionVars false

namespace Verif.Props

open Spec

variable {K : Type*} [Field K] [LinearOrder K] [IsStrictOrderedRing K]

/-- A mesh as users need it: the solid triangles are counterclockwise, lie in the polygon, cover it, do not overlap, meet in
whole sides, and the sides of the polygon, possibly divided, are sides of triangles; the adjacency describes the triangles;
the triangulation has the Delaunay property. -/
structure Proper (b : Polyline (Vertex K)) (m : Mesh (Vertex K)) : Prop where
  partition : ∃ l, Subdivides l b.vertices ∧ TilesPolygon l m.tris ∧
    ∀ s ∈ pairs l false, ∃ t ∈ m.tris, Face t ∧ IsSide t ⟨s.1, s.2⟩
  inside : ∀ t ∈ m.tris, ¬ HasGhost t → Face t ∧ ∀ w, Inner t w → InsidePolygon b.vertices w
  covers : ∀ w, InsidePolygon b.vertices w → ∃ t ∈ m.tris, ¬ HasGhost t ∧ InOrOn t w
  apart : ∀ s ∈ m.tris, ∀ t ∈ m.tris, ¬ HasGhost s → ¬ HasGhost t → ∀ w, Inner s w → Inner t w → s = t
  simple : Simple m.tris
  watertight : Watertight m.tris
  sound : AdjSound m
  complete : AdjComplete m
  delaunay : DelaunayInside b.vertices m.tris

theorem plot_proper {b : Polyline (Vertex K)} {l : List (Vertex K)} {m : Mesh (Vertex K)}
    (hP : Plot Vertex.ghost b l m) : Proper b m := by
  have hF := hP.fit
  have hT := hF.lot.tiles (simplePolygon_back hF.poly) hF.apart
  refine ⟨⟨l, hP.sub, hT, fun s hm => ?_⟩, fun t ht hg => ⟨hT.ccw t ht hg, fun w hw =>
    (hP.sub.inside w).1 (hT.inside t ht hg w hw)⟩, fun w hw => hT.covers w ((hP.sub.inside w).2 hw), hT.apart, hF.simple,
    hF.lot.closed, hP.sound, hP.complete, subdivides_delaunay hP.sub (fit_delaunay hF)⟩
  obtain ⟨t, ht, st, hts⟩ := hF.lot.side (simplePolygon_back hF.poly) hm
  exact ⟨t, ht, solid_iff.2 st, hts⟩

theorem Bare.with_mesh {b : Polyline (Vertex K)} {T : Triangulator K} (h : Bare b T) (m : Mesh (Vertex K)) :
    Bare b { T with mesh := m } := ⟨h.boundary, h.holes, h.segments, h.nodup, h.inside⟩

theorem bare_new (b : Polyline (Vertex K)) : Bare b (Triangulator.new b) :=
  ⟨rfl, rfl, rfl, List.nodup_nil, by simp [Triangulator.new]⟩

theorem Bare.insert {b : Polyline (Vertex K)} {T T' : Triangulator K} (hT : Bare b T) (hb : b.opened = false) {σ : Sched}
    {vs : List (Vertex K)} (hvs : ∀ v ∈ vs, v.isGhost = false) (h : T.insertVertices 0 σ vs = .ok T') : Bare b T' := by
  obtain ⟨k1, k2, -, k4, -, k6, k7⟩ := C22_ok le_rfl hvs h
  have hseg : T'.segments = [] ∧ T'.vertices.Nodup := by
    have h' := h
    unfold Triangulator.insertVertices at h'
    simp only [] at h'
    split_ifs at h' with hbad
    injection h' with h'
    subst h'
    refine Triangulator.insertVerticesLoop_induct (eps := (0 : K)) (fun X => X.segments = [] ∧ X.vertices.Nodup)
      (vs := vs) (fun v _ X hX _ => ⟨hX.1, nodup_setInsert hX.2⟩) ?_ (fun v hv => mem_shuffle.1 hv)
      ⟨hT.segments, hT.nodup⟩
    intro v _ X s hs hX
    rw [hX.1] at hs
    simp at hs
  refine ⟨k1.trans hT.boundary, k2.trans hT.holes, hseg.1, hseg.2, fun v hv => ?_⟩
  rcases k6 v hv with hv' | hv'
  · exact hT.inside v hv'
  have hc := ((C22_ok_iff 0 σ T vs).1 ⟨T', h⟩ v hv').1
  rw [hT.boundary] at hc
  obtain ⟨h1, h2⟩ := C08_winding le_rfl b hb v
  have hn : ¬ ∃ s ∈ pairs b.vertices false, NearSegment 0 s.1 s.2 v := by
    rw [← h1, hc]; simp
  refine ⟨hvs v hv', fun s hs ho => ?_, (h2 hn).1.1 hc⟩
  have := (C08_boundary_exact b hb v).2 ⟨s, hs, ho⟩
  rw [hc] at this
  simp at this

theorem shuffle_nil {α : Type*} (τ : Sched) : shuffle τ ([] : List α) = [] :=
  List.eq_nil_iff_forall_not_mem.2 fun x hx => by simpa using mem_shuffle.1 hx

theorem includeVertices_none (P : Preds (Vertex K)) (C : List (Edge (Vertex K))) (fuel : Nat) (τ : Sched)
    (m : Mesh (Vertex K)) : includeVertices P C fuel τ m [] = .ok ⟨m, [], [], [], []⟩ := by
  unfold includeVertices
  simp only [List.filter_nil, solveConflicts]
  have : distributeAll P (shuffle (τ.sub 0) m.tris) [] [] = .ok ([], []) := by
    cases shuffle (τ.sub 0) m.tris <;> simp [distributeAll]
  rw [this, Res.bind_ok]
  cases fuel <;> simp [solveLoop]

/-- `triangulate` with nothing but a boundary is the boundary step. -/
theorem triangulate_new {fuel : Nat} {σ : Sched} {b : Polyline (Vertex K)} {v1 v2 : Vertex K} {rest : List (Vertex K)}
    (hl : b.vertices = v1 :: v2 :: rest) : (Triangulator.new b).triangulate 0 fuel σ =
      (includeBoundary (geoPreds 0 fuel none []) Vertex.ghost [] fuel (σ.sub 0)
        (Mesh.fromInitialSegment Vertex.ghost v1 v2) b).bind fun m => .ok ⟨m, b, [], [], []⟩ := by
  unfold Triangulator.triangulate Triangulator.new
  simp only
  rw [hl]
  simp only [shuffle_nil, Triangulator.includeHoles, Triangulator.includeSegments, Res.bind_ok, includeVertices_none]

theorem two_vertices (b : Polyline (Vertex K)) : ∃ v1 v2 rest, b.vertices = v1 :: v2 :: rest := by
  have h2 := b.two_le
  match hl : b.vertices, h2 with
  | v1 :: v2 :: rest, _ => exact ⟨v1, v2, rest, rfl⟩

/-- If a domain with vertices inside is triangulated, so is the boundary alone. -/
theorem Bare.alone {fuel : Nat} {σ : Sched} {b : Polyline (Vertex K)} {T T' : Triangulator K} (hT : Bare b T)
    (h : T.triangulate 0 fuel σ = .ok T') : ∃ T0, (Triangulator.new b).triangulate 0 fuel σ = .ok T0 := by
  obtain ⟨v1, v2, rest, hl⟩ := two_vertices b
  rw [triangulate_new hl]
  unfold Triangulator.triangulate at h
  rw [hT.boundary, hl] at h
  simp only [Res.bind_eq_ok] at h
  obtain ⟨m0, h0, -⟩ := h
  exact ⟨_, by rw [h0, Res.bind_ok]⟩

theorem flood_safe {V : Type*} [DecidableEq V] {S : List (Edge V)} : ∀ {n : Nat} {p : List (Edge V)} {m : Mesh V},
    flood S n p m ≠ .panic := by
  intro n
  induction n with
  | zero =>
    intro p m
    cases p <;> (rw [flood]; intro h; cases h)
  | succ n ih =>
    intro p m
    cases p with
    | nil => rw [flood]; intro h; cases h
    | cons e p =>
      rw [flood]
      cases m.adj e with
      | none => exact ih
      | some t => exact ih

/-- Triangulating the boundary alone does not panic. -/
theorem new_triangulate_safe {fuel : Nat} {σ : Sched} {b : Polyline (Vertex K)} (hb : b.opened = false)
    (hs : SimplePolygon b.vertices) (ha : 0 < shoelace b.vertices) (hreal : ∀ v ∈ b.vertices, v.isGhost = false) :
    (Triangulator.new b).triangulate 0 fuel σ ≠ .panic := by
  obtain ⟨v1, v2, rest, hl⟩ := two_vertices b
  rw [triangulate_new hl]
  refine Res.bind_safe ?_ fun _ _ h => by cases h
  unfold includeBoundary
  refine Res.bind_safe ?_ fun s _ => Res.bind_safe flood_safe fun _ _ h => by cases h
  intro hp
  obtain ⟨r', hr', -⟩ := polygon_inserted (f := fuel) (fuel := max fuel (4 * b.vertices.length + 7))
    (σ := (σ.sub 0).sub 0) (g := Vertex.ghost) rfl hs (windsOnce hb hs ha) hreal (le_max_right _ _) (first_side hl)
  rw [includeVertices_more (by rw [hp]; simp) (le_max_left _ _), hp] at hr'
  cases hr'

/-- All sides of the polygon appear when the polygon alone is triangulated, whatever the order of the hash tables. -/
def SidesAppear (b : Polyline (Vertex K)) : Prop :=
  ∀ (fuel : Nat) (σ : Sched) (T0 : Triangulator K), (Triangulator.new b).triangulate 0 fuel σ = .ok T0 →
    ∀ s ∈ pairs b.vertices false, ∃ t ∈ T0.mesh.tris, Face t ∧ IsSide t ⟨s.1, s.2⟩

/-- Triangulating does not panic. -/
theorem Bare.triangulate_safe {fuel : Nat} {σ : Sched} {b : Polyline (Vertex K)} {T : Triangulator K} (hT : Bare b T)
    (hb : b.opened = false) (hs : SimplePolygon b.vertices) (ha : 0 < shoelace b.vertices)
    (hreal : ∀ v ∈ b.vertices, v.isGhost = false) (hin : SidesAppear b) : T.triangulate 0 fuel σ ≠ .panic := by
  cases h0 : (Triangulator.new b).triangulate 0 fuel σ with
  | panic => exact absurd h0 (new_triangulate_safe hb hs ha hreal)
  | ok T0 =>
    obtain ⟨⟨G, hG⟩, hF, k4, k5, -, hv, he⟩ := hT.start (σ := σ) hb hs ha hreal h0 (hin _ _ _ h0)
    obtain ⟨h1, h2, h3⟩ := hv (σ.sub 6)
    rw [he]
    exact Res.bind_safe ((hG.court fuel).include_safe (walls hb) k4 k5 hF h1 h2 h3) fun _ _ h => by cases h
  | diverged =>
    obtain ⟨v1, v2, rest, hl⟩ := two_vertices b
    rw [triangulate_new hl] at h0
    unfold Triangulator.triangulate
    rw [hT.boundary, hl]
    simp only
    cases hm : includeBoundary (geoPreds 0 fuel none []) Vertex.ghost [] fuel (σ.sub 0)
      (Mesh.fromInitialSegment Vertex.ghost v1 v2) b with
    | ok m => rw [hm] at h0; cases h0
    | panic => rw [hm] at h0; cases h0
    | diverged => intro h; cases h

theorem Bare.constraints {b : Polyline (Vertex K)} {T : Triangulator K} (hT : Bare b T) (hb : b.opened = false)
    {c : Edge (Vertex K)} (hc : c ∈ T.constraints) : Wall b.vertices c := by
  unfold Triangulator.constraints at hc
  rw [hT.boundary, hT.holes, hT.segments, mem_toSet] at hc
  simp only [List.flatMap_nil, List.nil_append, List.append_nil] at hc
  rw [Polyline.intoEdges, hb] at hc
  exact (fromVertexPairs_mem (s := (c.v1, c.v2))).2 hc

/-- Refining an empty mesh changes nothing. -/
theorem refine_empty {fuel : Nat} {dist : Vertex K → Vertex K → K} {p : RefineParams K} {σ : Sched} {T : Triangulator K}
    (hm : T.mesh.tris = []) : T.refine 0 fuel dist p σ = .ok T := by
  unfold Triangulator.refine
  have hv : T.mesh.vertices Vertex.isGhost = [] := by
    rw [List.eq_nil_iff_forall_not_mem]
    intro x hx
    obtain ⟨⟨t, ht, -⟩, -⟩ := mem_vertices.1 hx
    rw [hm] at ht
    simp at ht
  have hd : ∀ P : RPreds (Vertex K), distributeEncroachments P T.constraints [] = [] := by
    intro P
    unfold distributeEncroachments
    rw [List.filter_eq_nil_iff]
    intro q hq
    obtain ⟨e, -, rfl⟩ := List.mem_map.1 hq
    simp
  have h1 : unencroach (geoRPreds 0 fuel dist p (some T.boundary) T.holes) fuel (σ.sub 0) T.constraints T.mesh
      = .ok (T.mesh, []) := by
    unfold unencroach
    have : T.mesh.vertices (geoRPreds 0 fuel dist p (some T.boundary) T.holes).ghost = [] := hv
    rw [this, hd]
    cases fuel <;> rw [unencroachLoop]
  simp only
  rw [h1, Res.bind_ok]
  have h2 : splitIrregular (geoRPreds 0 fuel dist p (some T.boundary) T.holes) fuel (σ.sub 1)
      (Triangulator.updateConstraints T.constraints []) T.mesh
      = .ok (splitInit (geoRPreds 0 fuel dist p (some T.boundary) T.holes)
        (Triangulator.updateConstraints T.constraints []) T.mesh) := by
    unfold splitIrregular
    rw [splitIrregularLoop]
    have : popTriangle ((σ.sub 1).sub 0) (splitInit (geoRPreds 0 fuel dist p (some T.boundary) T.holes)
        (Triangulator.updateConstraints T.constraints []) T.mesh) = none := by
      unfold popTriangle splitInit
      rw [hm]
      simp [choose_eq_none.2]
    rw [this]
  simp only
  rw [h2, Res.bind_ok]
  rfl

/-- What holds between two calls. -/
structure Kept (b : Polyline (Vertex K)) (T : Triangulator K) : Prop where
  bare : Bare b T
  mesh : T.mesh.tris = [] ∨ ((∃ G, Ground Vertex.ghost b G) ∧ ∃ l, Plot Vertex.ghost b l T.mesh)

theorem plot_nonempty {b : Polyline (Vertex K)} {l : List (Vertex K)} {m : Mesh (Vertex K)}
    (hP : Plot Vertex.ghost b l m) : m.tris ≠ [] := by
  intro h
  obtain ⟨v1, v2, rest, hl⟩ : ∃ v1 v2 rest, b.vertices = v1 :: v2 :: rest := two_vertices b
  have hv : v1 ∈ l := hP.sub.keeps _ (by rw [hl]; simp)
  obtain ⟨q, hq, -⟩ := List.mem_map.1 ((pairs_snd l).mem_iff.2 hv)
  have := hP.fit.lot.border q hq
  rw [h] at this
  simp at this

theorem Kept.refine {b : Polyline (Vertex K)} {T T' : Triangulator K} (hT : Kept b T) (hb : b.opened = false) {fuel : Nat}
    {σ : Sched} {dist : Vertex K → Vertex K → K} {p : RefineParams K} (h : T.refine 0 fuel dist p σ = .ok T') :
    Kept b T' ∧ (T'.mesh.tris = [] → T.mesh.tris = []) := by
  rcases hT.mesh with hm | ⟨⟨G, hG⟩, l, hP⟩
  · rw [refine_empty hm, Res.ok.injEq] at h
    exact ⟨h ▸ hT, fun _ => hm⟩
  · obtain ⟨r, s, q1, q2, q3⟩ := refine_split h
    rw [hT.bare.boundary, hT.bare.holes] at q1 q2
    obtain ⟨l', hP'⟩ := Plot.refine_again hG hP (fun c hc => hT.bare.constraints hb hc) q1 q2
    subst q3
    refine ⟨⟨hT.bare.with_mesh _, Or.inr ⟨⟨G, hG⟩, l', hP'⟩⟩, fun h => ?_⟩
    exact absurd h (plot_nonempty hP')

theorem Kept.refine_safe {b : Polyline (Vertex K)} {T : Triangulator K} (hT : Kept b T) (hb : b.opened = false) {fuel : Nat}
    {σ : Sched} {dist : Vertex K → Vertex K → K} {p : RefineParams K} : T.refine 0 fuel dist p σ ≠ .panic := by
  rcases hT.mesh with hm | ⟨⟨G, hG⟩, l, hP⟩
  · rw [refine_empty hm]
    simp
  · have key := Plot.refine_safe_again hG (f := fuel) (dist := dist) (p := p) (fuel := fuel) (σ := σ.sub 0) (τ := σ.sub 1)
      hP (fun c hc => hT.bare.constraints hb hc)
    unfold Triangulator.refine
    rw [hT.bare.boundary, hT.bare.holes]
    simp only
    intro h
    apply key
    cases hu : Verif.unencroach (geoRPreds 0 fuel dist p (some b) []) fuel (σ.sub 0) T.constraints T.mesh with
    | panic => rfl
    | diverged => rw [hu] at h; cases h
    | ok r =>
      rw [hu] at h
      simp only [Res.bind_ok] at h ⊢
      cases hv : splitIrregular (geoRPreds 0 fuel dist p (some b) []) fuel (σ.sub 1)
          (Triangulator.updateConstraints T.constraints r.2) r.1 with
      | panic => rfl
      | diverged => rw [hv] at h; cases h
      | ok s => rw [hv] at h; cases h

/-- Triangulating gives a partition, whatever the mesh was. -/
theorem Bare.triangulate {fuel : Nat} {σ : Sched} {b : Polyline (Vertex K)} {T T0 T' : Triangulator K} (hT : Bare b T)
    (hb : b.opened = false) (hs : SimplePolygon b.vertices) (ha : 0 < shoelace b.vertices)
    (hreal : ∀ v ∈ b.vertices, v.isGhost = false) (h0 : (Triangulator.new b).triangulate 0 fuel σ = .ok T0)
    (hin : ∀ s ∈ pairs b.vertices false, ∃ t ∈ T0.mesh.tris, Face t ∧ IsSide t ⟨s.1, s.2⟩)
    (h : T.triangulate 0 fuel σ = .ok T') : Kept b T' ∧ T'.mesh.tris ≠ [] := by
  obtain ⟨k1, k2, k3⟩ := hT.fit hb hs ha hreal h0 hin h
  obtain ⟨hG, -⟩ := hT.start (σ := σ) hb hs ha hreal h0 hin
  obtain ⟨m, rfl⟩ := triangulate_only_mesh h
  have hP : Plot Vertex.ghost b b.vertices m := ⟨Subdivides.refl _, k1, k2, k3⟩
  exact ⟨⟨hT.with_mesh m, Or.inr ⟨hG, _, hP⟩⟩, plot_nonempty hP⟩

/-- The calls that only insert vertices, triangulate or refine. -/
def PlainCalls (l : List (Request K)) : Prop :=
  (∀ ss, Request.segments ss ∉ l) ∧ (∀ p, Request.hole p ∉ l) ∧
    ∀ vs, Request.vertices vs ∈ l → ∀ v ∈ vs, v.isGhost = false

theorem Kept.session {dist : Vertex K → Vertex K → K} {b : Polyline (Vertex K)} {T T' : Triangulator K}
    {l : List (Request K)} (hb : b.opened = false) (hs : SimplePolygon b.vertices) (ha : 0 < shoelace b.vertices)
    (hreal : ∀ v ∈ b.vertices, v.isGhost = false) (hT : Kept b T) (h : Session 0 dist T l T') (hl : PlainCalls l)
    (hin : Request.triangulate ∈ l → SidesAppear b) :
    Kept b T' ∧ (T.mesh.tris ≠ [] ∨ Request.triangulate ∈ l → T'.mesh.tris ≠ []) := by
  induction h with
  | start => exact ⟨hT, by simp⟩
  | refused h hq ih =>
    rw [perform_refused hq]
    exact ih hl hin
  | @accepted l T1 T2 fuel σ q h hq ih =>
    obtain ⟨p1, p2, p3⟩ := hl
    obtain ⟨k1, k2⟩ := ih ⟨fun ss hm => p1 ss (by simp [hm]), fun p hm => p2 p (by simp [hm]),
      fun vs hm => p3 vs (by simp [hm])⟩ (fun hm => hin (by simp [hm]))
    rcases perform_accepted hq with ⟨vs, rfl, h1⟩ | ⟨ss, rfl, h1⟩ | ⟨p, rfl, h1⟩ | ⟨rfl, h1⟩ | ⟨p, rfl, h1⟩
    · have he := insertVertices_mesh h1
      refine ⟨⟨k1.bare.insert hb (p3 vs (by simp)) h1, ?_⟩, fun hm => ?_⟩
      · rw [he]; exact k1.mesh
      · rw [he]
        exact k2 (hm.imp_right fun hm => by simpa using hm)
    · exact absurd (by simp) (p1 ss)
    · exact absurd (by simp) (p2 p)
    · obtain ⟨T0, h0⟩ := k1.bare.alone h1
      obtain ⟨q1, q2⟩ := k1.bare.triangulate hb hs ha hreal h0 (hin (by simp) _ _ _ h0) h1
      exact ⟨q1, fun _ => q2⟩
    · obtain ⟨q1, q2⟩ := k1.refine hb h1
      exact ⟨q1, fun hm hn => k2 (hm.imp_right fun hm => by simpa using hm) (q2 hn)⟩

theorem Kept.proper {b : Polyline (Vertex K)} {T : Triangulator K} (hT : Kept b T) (h : T.mesh.tris ≠ []) :
    Proper b T.mesh := by
  rcases hT.mesh with k | ⟨-, l, hP⟩
  · exact absurd k h
  · exact plot_proper hP

/-- C65 (part): a boundary is given, then vertices are inserted, the domain is triangulated and refined, any number of times
and in any order, with any parameters. If `triangulate` was called at all, the mesh is a proper triangulation of the
polygon, no matter which call was the last, if the sides of the polygon appear when it is triangulated alone. Missing: holes
and segments, for which it is false (`C60_hole_false`, `C60_segment_false`). -/
theorem C65_mesh_partial {dist : Vertex K → Vertex K → K} {b : Polyline (Vertex K)} {T : Triangulator K}
    {l : List (Request K)} (hb : b.opened = false) (hs : SimplePolygon b.vertices) (ha : 0 < shoelace b.vertices)
    (hreal : ∀ v ∈ b.vertices, v.isGhost = false) (h : Session 0 dist (Triangulator.new b) l T) (hl : PlainCalls l)
    (hin : SidesAppear b) (ht : Request.triangulate ∈ l) : Proper b T.mesh := by
  obtain ⟨k1, k2⟩ := Kept.session hb hs ha hreal ⟨bare_new b, Or.inl rfl⟩ h hl fun _ => hin
  exact k1.proper (k2 (Or.inr ht))

/-- C65 (part), the calls after one call of `triangulate`: it is enough that the sides of the polygon appear with the order
of the hash tables of that call. -/
theorem C65_after_partial {dist : Vertex K → Vertex K → K} {b : Polyline (Vertex K)} {T T0 T1 T2 : Triangulator K}
    {fuel : Nat} {σ σ' : Sched} {vs : List (Vertex K)} {l : List (Request K)} (hb : b.opened = false)
    (hs : SimplePolygon b.vertices) (ha : 0 < shoelace b.vertices)
    (hreal : ∀ v ∈ b.vertices, v.isGhost = false) (hvs : ∀ v ∈ vs, v.isGhost = false)
    (hi : (Triangulator.new b).insertVertices 0 σ' vs = .ok T)
    (h0 : (Triangulator.new b).triangulate 0 fuel σ = .ok T0)
    (hin : ∀ s ∈ pairs b.vertices false, ∃ t ∈ T0.mesh.tris, Face t ∧ IsSide t ⟨s.1, s.2⟩)
    (h1 : T.triangulate 0 fuel σ = .ok T1) (h : Session 0 dist T1 l T2) (hl : PlainCalls l)
    (hno : Request.triangulate ∉ l) :
    Proper b T2.mesh ∧ ∀ (fuel : Nat) (p : RefineParams K) (σ : Sched), T2.refine 0 fuel dist p σ ≠ .panic := by
  obtain ⟨q1, q2⟩ := ((bare_new b).insert hb hvs hi).triangulate hb hs ha hreal h0 hin h1
  obtain ⟨k1, k2⟩ := Kept.session hb hs ha hreal q1 h hl fun hm => absurd hm hno
  exact ⟨k1.proper (k2 (Or.inl q2)), fun _ _ _ => k1.refine_safe hb⟩

/-- C65 (part), panics: no further call of this kind panics. -/
theorem C65_safe_partial {dist : Vertex K → Vertex K → K} {b : Polyline (Vertex K)} {T : Triangulator K}
    {l : List (Request K)} (hb : b.opened = false) (hs : SimplePolygon b.vertices) (ha : 0 < shoelace b.vertices)
    (hreal : ∀ v ∈ b.vertices, v.isGhost = false) (h : Session 0 dist (Triangulator.new b) l T) (hl : PlainCalls l)
    (hin : SidesAppear b) (fuel : Nat) (σ : Sched) {q : Request K} (hq : PlainCalls [q]) :
    T.perform 0 fuel dist σ q ≠ .panic := by
  obtain ⟨k1, -⟩ := Kept.session hb hs ha hreal ⟨bare_new b, Or.inl rfl⟩ h hl fun _ => hin
  cases q with
  | vertices vs =>
    simp only [Triangulator.perform]
    split <;> simp
  | segments ss => exact absurd (by simp) (hq.1 ss)
  | hole p => exact absurd (by simp) (hq.2.1 p)
  | triangulate =>
    exact Res.bind_safe (k1.bare.triangulate_safe hb hs ha hreal hin) fun _ _ h => by cases h
  | refine p => exact Res.bind_safe (k1.refine_safe hb) fun _ _ h => by cases h

end Verif.Props
