import Verif.Lemmas.SeerTotal
import Verif.Props.Validity
import Verif.Props.Triangulator

/-!
# C51 and C57: triangulations of a boundary with vertices inside
-/

set_option linter.unusedSectionVars false

namespace Verif.Props

open Spec

variable {K : Type*} [Field K] [LinearOrder K] [IsStrictOrderedRing K]

/-- What `insert_vertices` stores when nothing but a boundary is there. -/
theorem insert_into_boundary {σ : Sched} {b : Polyline (Vertex K)} (hb : b.opened = false) {vs : List (Vertex K)}
    (hvs : ∀ v ∈ vs, v.isGhost = false) {T : Triangulator K}
    (h : (Triangulator.new b).insertVertices 0 σ vs = .ok T) :
    T.boundary = b ∧ T.holes = [] ∧ T.segments = [] ∧ T.vertices.Nodup ∧ (∀ v, v ∈ T.vertices ↔ v ∈ vs) ∧
      ∀ v ∈ T.vertices, v.isGhost = false ∧ InsidePolygon b.vertices v := by
  obtain ⟨k1, k2, -, k4, -, k6, k7⟩ := C22_ok le_rfl hvs h
  have hseg : T.segments = [] ∧ T.vertices.Nodup := by
    unfold Triangulator.insertVertices at h
    simp only [] at h
    split_ifs at h with hbad
    injection h with h
    subst h
    refine Triangulator.insertVerticesLoop_induct (eps := (0 : K)) (fun X => X.segments = [] ∧ X.vertices.Nodup)
      (vs := vs) (fun v _ X hX _ => ⟨hX.1, nodup_setInsert hX.2⟩) ?_ (fun v hv => mem_shuffle.1 hv) ⟨rfl, List.nodup_nil⟩
    intro v _ X s hs hX
    rw [hX.1] at hs
    simp at hs
  have hmem : ∀ v, v ∈ T.vertices ↔ v ∈ vs := by
    intro v
    constructor
    · intro hv
      rcases k6 v hv with k | k
      · simp [Triangulator.new] at k
      · exact k
    · intro hv
      rcases k4 v hv with k | ⟨s, hs, -⟩
      · exact k
      · rw [hseg.1] at hs; simp at hs
  refine ⟨k1, k2, hseg.1, hseg.2, hmem, fun v hv => ?_⟩
  have hv' := (hmem v).1 hv
  have hc := ((C22_ok_iff 0 σ (Triangulator.new b) vs).1 ⟨T, h⟩ v hv').1
  have hc : b.contains 0 v = some .inside := hc
  obtain ⟨h1, h2⟩ := C08_winding le_rfl b hb v
  have hn : ¬ ∃ s ∈ pairs b.vertices false, NearSegment 0 s.1 s.2 v := by
    rw [← h1, hc]; simp
  refine ⟨hvs v hv', fun s hs ho => ?_, (h2 hn).1.1 hc⟩
  have := (C08_boundary_exact b hb v).2 ⟨s, hs, ho⟩
  rw [hc] at this
  simp at this

/-- The mesh after the boundary is a triangulation in which vertices can be inserted. -/
theorem boundary_fit {fuel f : Nat} {σ : Sched} {b : Polyline (Vertex K)} (hb : b.opened = false)
    (hs : SimplePolygon b.vertices) (ha : 0 < shoelace b.vertices) (hreal : ∀ v ∈ b.vertices, v.isGhost = false)
    {v1 v2 : Vertex K} (h12 : (v1, v2) ∈ pairs b.vertices false)
    {m : Mesh (Vertex K)}
    (h : includeBoundary (geoPreds 0 f none []) Vertex.ghost [] fuel σ (Mesh.fromInitialSegment Vertex.ghost v1 v2) b = .ok m)
    (hin : ∀ s ∈ pairs b.vertices false, ∃ t ∈ m.tris, Face t ∧ IsSide t ⟨s.1, s.2⟩) :
    (∃ T, Ground Vertex.ghost b T) ∧ Fit Vertex.ghost b.vertices m.tris ∧ AdjSound m ∧ AdjComplete m ∧
      ∀ t ∈ m.tris, Occurs Vertex.ghost b.vertices t := by
  obtain ⟨r, hgood, hsol, hvx, hmem, k⟩ := boundary_step rfl hb hs ha hreal h12 h
  obtain ⟨k1, k2, k3, k4, k5⟩ := k hin
  have hE : Edged r.tris b.vertices := by
    intro s hm
    obtain ⟨t, ht, st, hside⟩ := hin s hm
    rcases (hmem t).1 ht with k | ⟨s', -, rfl⟩
    · exact ⟨t, k.1, hside⟩
    · have := (solid_iff.1 st).r3
      simp [Vertex.ghost] at this
  have old : ∀ t ∈ m.tris, SolidTri t → t ∈ r.tris := by
    intro t ht st
    rcases (hmem t).1 ht with k | ⟨s', -, rfl⟩
    · exact k.1
    · have := st.r3
      simp [Vertex.ghost] at this
  refine ⟨⟨r.tris, hb, hs, ha, hreal, hgood, hsol, hE⟩, ⟨hs, windsOnce hb hs ha, k1, k2, k3, ?_⟩, k4, k5, ?_⟩
  · intro t ht t' ht' st st' e he he' p hp
    refine hgood.empty t (old t ht st) st p ⟨⟨t', old t' ht' st', hp⟩, ?_⟩
    rcases hp with rfl | rfl | rfl
    · exact st'.r1
    · exact st'.r2
    · exact st'.r3
  · intro t ht
    rcases k1.shape t ht with st | ⟨s, hs', rfl⟩
    · have ho := old t ht st
      exact ⟨hvx _ ⟨⟨t, ho, Or.inl rfl⟩, st.r1⟩, hvx _ ⟨⟨t, ho, Or.inr (Or.inl rfl)⟩, st.r2⟩,
        Or.inl (hvx _ ⟨⟨t, ho, Or.inr (Or.inr rfl)⟩, st.r3⟩)⟩
    · obtain ⟨m1, m2⟩ := mem_pairs hs'
      exact ⟨m2, m1, Or.inr rfl⟩

theorem walls {b : Polyline (Vertex K)} (hb : b.opened = false) (e : Edge (Vertex K))
    (h : Constrained (toSet b.intoEdges) e) : Wall b.vertices e ∨ Wall b.vertices e.opposite := by
  have key : ∀ e : Edge (Vertex K), e ∈ toSet b.intoEdges → Wall b.vertices e := by
    intro e he
    rw [mem_toSet, Polyline.intoEdges, hb] at he
    exact (fromVertexPairs_mem (s := (e.v1, e.v2))).2 he
  rcases h with h | h
  · exact Or.inr (key _ h)
  · exact Or.inl (key e h)

/-- Nothing but the boundary `b` and vertices inside is stored. -/
structure Bare (b : Polyline (Vertex K)) (T : Triangulator K) : Prop where
  boundary : T.boundary = b
  holes : T.holes = []
  segments : T.segments = []
  nodup : T.vertices.Nodup
  inside : ∀ v ∈ T.vertices, v.isGhost = false ∧ InsidePolygon b.vertices v

/-- The state before the vertices inside are inserted. -/
theorem Bare.start {fuel : Nat} {σ : Sched} {b : Polyline (Vertex K)} {T T0 : Triangulator K} (hT : Bare b T)
    (hb : b.opened = false) (hs : SimplePolygon b.vertices) (ha : 0 < shoelace b.vertices)
    (hreal : ∀ v ∈ b.vertices, v.isGhost = false) (h0 : (Triangulator.new b).triangulate 0 fuel σ = .ok T0)
    (hin : ∀ s ∈ pairs b.vertices false, ∃ t ∈ T0.mesh.tris, Face t ∧ IsSide t ⟨s.1, s.2⟩) :
    (∃ G, Ground Vertex.ghost b G) ∧ Fit Vertex.ghost b.vertices T0.mesh.tris ∧ AdjSound T0.mesh ∧
      AdjComplete T0.mesh ∧ (∀ t ∈ T0.mesh.tris, Occurs Vertex.ghost b.vertices t) ∧
      (∀ τ, (shuffle τ T.vertices).Nodup ∧ (∀ w ∈ shuffle τ T.vertices, w.isGhost = false) ∧
        ∀ w ∈ shuffle τ T.vertices, InsidePolygon b.vertices w) ∧
      T.triangulate 0 fuel σ = (includeVertices (geoPreds 0 fuel (some b) []) (toSet b.intoEdges) fuel (σ.sub 5) T0.mesh
        (shuffle (σ.sub 6) T.vertices)).bind fun st => .ok { T with mesh := st.mesh } := by
  obtain ⟨e1, e2, e3, hn, hpr⟩ := hT
  obtain ⟨v1, v2, rest, hl, hm0⟩ := triangulate_boundary (T := Triangulator.new b) rfl rfl rfl h0
  have hl : b.vertices = v1 :: v2 :: rest := hl
  have hm0 : includeBoundary (geoPreds 0 fuel none []) Vertex.ghost [] fuel (σ.sub 0)
      (Mesh.fromInitialSegment Vertex.ghost v1 v2) b = .ok T0.mesh := hm0
  obtain ⟨hG, hF, k4, k5, k6⟩ := boundary_fit hb hs ha hreal (first_side hl) hm0 hin
  refine ⟨hG, hF, k4, k5, k6, fun τ => ⟨(shuffle_perm _ _).nodup_iff.2 hn, fun w hw => (hpr w (mem_shuffle.1 hw)).1,
    fun w hw => (hpr w (mem_shuffle.1 hw)).2⟩, ?_⟩
  unfold Triangulator.triangulate
  rw [e1, hl]
  simp only
  have s1 : (shuffle (σ.sub 1) ([] : List (Polyline (Vertex K)))) = [] :=
    List.eq_nil_iff_forall_not_mem.2 fun x hx => by simpa using mem_shuffle.1 hx
  have s2 : (shuffle (σ.sub 4) ([] : List (Edge (Vertex K)))) = [] :=
    List.eq_nil_iff_forall_not_mem.2 fun x hx => by simpa using mem_shuffle.1 hx
  simp only [hm0, Res.bind_ok, e2, e3, s1, s2, Triangulator.includeHoles, Triangulator.includeSegments]

/-- The triangulation of a boundary and of vertices inside. -/
theorem Bare.fit {fuel : Nat} {σ : Sched} {b : Polyline (Vertex K)} {T T0 T' : Triangulator K} (hT : Bare b T)
    (hb : b.opened = false) (hs : SimplePolygon b.vertices) (ha : 0 < shoelace b.vertices)
    (hreal : ∀ v ∈ b.vertices, v.isGhost = false) (h0 : (Triangulator.new b).triangulate 0 fuel σ = .ok T0)
    (hin : ∀ s ∈ pairs b.vertices false, ∃ t ∈ T0.mesh.tris, Face t ∧ IsSide t ⟨s.1, s.2⟩)
    (h : T.triangulate 0 fuel σ = .ok T') :
    Fit Vertex.ghost b.vertices T'.mesh.tris ∧ AdjSound T'.mesh ∧ AdjComplete T'.mesh := by
  obtain ⟨⟨G, hG⟩, hF, k4, k5, k6, hv, he⟩ := hT.start (σ := σ) hb hs ha hreal h0 hin
  rw [he, Res.bind_eq_ok] at h
  obtain ⟨st, hst, h⟩ := h
  simp only [Res.ok.injEq] at h
  subst h
  obtain ⟨h1, h2, h3⟩ := hv (σ.sub 6)
  exact (hG.court fuel).include (walls hb) k4 k5 hF h1 h2 h3 hst

/-- The state before the vertices inside are inserted. -/
theorem interior_start {fuel : Nat} {σ σ' : Sched} {b : Polyline (Vertex K)} {vs : List (Vertex K)}
    {T T0 : Triangulator K} (hb : b.opened = false) (hs : SimplePolygon b.vertices) (ha : 0 < shoelace b.vertices)
    (hreal : ∀ v ∈ b.vertices, v.isGhost = false)
    (hvs : ∀ v ∈ vs, v.isGhost = false) (hi : (Triangulator.new b).insertVertices 0 σ' vs = .ok T)
    (h0 : (Triangulator.new b).triangulate 0 fuel σ = .ok T0)
    (hin : ∀ s ∈ pairs b.vertices false, ∃ t ∈ T0.mesh.tris, Face t ∧ IsSide t ⟨s.1, s.2⟩) :
    (∃ G, Ground Vertex.ghost b G) ∧ Fit Vertex.ghost b.vertices T0.mesh.tris ∧ AdjSound T0.mesh ∧
      AdjComplete T0.mesh ∧ (∀ t ∈ T0.mesh.tris, Occurs Vertex.ghost b.vertices t) ∧
      (∀ τ, (shuffle τ T.vertices).Nodup ∧ (∀ w ∈ shuffle τ T.vertices, w.isGhost = false) ∧
        (∀ w ∈ shuffle τ T.vertices, InsidePolygon b.vertices w) ∧ ∀ w, w ∈ shuffle τ T.vertices ↔ w ∈ vs) ∧
      T.triangulate 0 fuel σ = (includeVertices (geoPreds 0 fuel (some b) []) (toSet b.intoEdges) fuel (σ.sub 5) T0.mesh
        (shuffle (σ.sub 6) T.vertices)).bind fun st => .ok { T with mesh := st.mesh } := by
  obtain ⟨e1, e2, e3, hn, hmem, hpr⟩ := insert_into_boundary hb hvs hi
  obtain ⟨k1, k2, k3, k4, k5, k6, k7⟩ := Bare.start (σ := σ) ⟨e1, e2, e3, hn, hpr⟩ hb hs ha hreal h0 hin
  exact ⟨k1, k2, k3, k4, k5, fun τ => ⟨(k6 τ).1, (k6 τ).2.1, (k6 τ).2.2, fun w => mem_shuffle.trans (hmem w)⟩, k7⟩

/-- The triangulation of a boundary and of vertices inside. -/
theorem interior_fit {fuel : Nat} {σ σ' : Sched} {b : Polyline (Vertex K)} {vs : List (Vertex K)}
    {T T0 T' : Triangulator K} (hb : b.opened = false) (hs : SimplePolygon b.vertices) (ha : 0 < shoelace b.vertices)
    (hreal : ∀ v ∈ b.vertices, v.isGhost = false)
    (hvs : ∀ v ∈ vs, v.isGhost = false) (hi : (Triangulator.new b).insertVertices 0 σ' vs = .ok T)
    (h0 : (Triangulator.new b).triangulate 0 fuel σ = .ok T0)
    (hin : ∀ s ∈ pairs b.vertices false, ∃ t ∈ T0.mesh.tris, Face t ∧ IsSide t ⟨s.1, s.2⟩)
    (h : T.triangulate 0 fuel σ = .ok T') :
    Fit Vertex.ghost b.vertices T'.mesh.tris ∧ AdjSound T'.mesh ∧ AdjComplete T'.mesh := by
  obtain ⟨e1, e2, e3, hn, -, hpr⟩ := insert_into_boundary hb hvs hi
  exact Bare.fit ⟨e1, e2, e3, hn, hpr⟩ hb hs ha hreal h0 hin h

/-- C51, domains with a boundary and vertices inside: for all accepted vertices, the triangulation is a partition of the
polygon into counterclockwise triangles, if all sides of the polygon appear when the boundary alone is triangulated. -/
theorem C51_vertices_partial {fuel : Nat} {σ σ' : Sched} {b : Polyline (Vertex K)} {vs : List (Vertex K)}
    {T T0 T' : Triangulator K} (hb : b.opened = false) (hs : SimplePolygon b.vertices) (ha : 0 < shoelace b.vertices)
    (hreal : ∀ v ∈ b.vertices, v.isGhost = false)
    (hvs : ∀ v ∈ vs, v.isGhost = false) (hi : (Triangulator.new b).insertVertices 0 σ' vs = .ok T)
    (h0 : (Triangulator.new b).triangulate 0 fuel σ = .ok T0)
    (hin : ∀ s ∈ pairs b.vertices false, ∃ t ∈ T0.mesh.tris, Face t ∧ IsSide t ⟨s.1, s.2⟩)
    (h : T.triangulate 0 fuel σ = .ok T') :
    TilesPolygon b.vertices T'.mesh.tris ∧ Simple T'.mesh.tris ∧ Watertight T'.mesh.tris ∧
      AdjSound T'.mesh ∧ AdjComplete T'.mesh := by
  obtain ⟨k1, k2, k3⟩ := interior_fit hb hs ha hreal hvs hi h0 hin h
  exact ⟨k1.lot.tiles (simplePolygon_back hs) k1.apart, k1.simple, k1.lot.closed, k2, k3⟩

/-- C57: the triangulation of a boundary and of vertices inside is a constrained Delaunay triangulation. -/
theorem C57_vertices_partial {fuel : Nat} {σ σ' : Sched} {b : Polyline (Vertex K)} {vs : List (Vertex K)}
    {T T0 T' : Triangulator K} (hb : b.opened = false) (hs : SimplePolygon b.vertices) (ha : 0 < shoelace b.vertices)
    (hreal : ∀ v ∈ b.vertices, v.isGhost = false)
    (hvs : ∀ v ∈ vs, v.isGhost = false) (hi : (Triangulator.new b).insertVertices 0 σ' vs = .ok T)
    (h0 : (Triangulator.new b).triangulate 0 fuel σ = .ok T0)
    (hin : ∀ s ∈ pairs b.vertices false, ∃ t ∈ T0.mesh.tris, Face t ∧ IsSide t ⟨s.1, s.2⟩)
    (h : T.triangulate 0 fuel σ = .ok T') : DelaunayInside b.vertices T'.mesh.tris := by
  classical
  obtain ⟨k1, -, -⟩ := interior_fit hb hs ha hreal hvs hi h0 hin h
  rintro t ht hft o ho r hr hfr p hp ⟨z, hz, hsee⟩
  have st := solid_iff.1 hft
  by_contra hlt
  push Not at hlt
  have hc : 0 < circleDet t.v1 t.v2 t.v3 p := by
    rw [circleDet_eq ho]
    exact mul_pos st.ccw (by linarith)
  have hS : Seer b.vertices T'.mesh.tris p t := by
    refine k1.seer (n := T'.mesh.tris.toFinset.card) ht st hc (within_of_inner hz) (st.inner_circle hz)
      (fun e he _ => inner_iff_sides.1 hz e he) (fun x hx hbx => ?_) fun S hS =>
        Finset.card_le_card fun r hr => List.mem_toFinset.2 (hS r hr).1
    rcases hsee x hx with k | ⟨s, hs, ho⟩
    · exact k.2 hbx.2
    · exact hbx.1 s hs ho
  exact hS.no_corner k1 hr (solid_iff.1 hfr) hp

/-- C51, domains with a boundary and vertices inside: `triangulate` returns, for every order of the hash tables, if all
sides of the polygon appear when the boundary alone is triangulated. -/
theorem C51_vertices_return_partial {σ' : Sched} {b : Polyline (Vertex K)} {vs : List (Vertex K)}
    {T : Triangulator K} (hb : b.opened = false) (hs : SimplePolygon b.vertices) (ha : 0 < shoelace b.vertices)
    (hreal : ∀ v ∈ b.vertices, v.isGhost = false) (hvs : ∀ v ∈ vs, v.isGhost = false)
    (hi : (Triangulator.new b).insertVertices 0 σ' vs = .ok T) :
    ∃ n, ∀ fuel, n ≤ fuel → ∀ (σ : Sched) (T0 : Triangulator K), (Triangulator.new b).triangulate 0 fuel σ = .ok T0 →
      (∀ s ∈ pairs b.vertices false, ∃ t ∈ T0.mesh.tris, Face t ∧ IsSide t ⟨s.1, s.2⟩) →
      ∃ T', T.triangulate 0 fuel σ = .ok T' := by
  obtain ⟨n0, hn0⟩ := may_total (b := b) (g := Vertex.ghost) hreal (V := b.vertices ++ vs) (fun v hv => by
    rcases List.mem_append.1 hv with k | k
    · exact hreal v k
    · exact hvs v k)
  let L : List (Tri (Vertex K)) := b.vertices.flatMap fun x => b.vertices.flatMap fun y =>
    (Vertex.ghost :: b.vertices).map fun z => ⟨x, y, z⟩
  refine ⟨n0 + (4 * b.vertices.length + 7) + (2 * (L.length + 2 * T.vertices.length) + 3), fun fuel hfu σ T0 h0 hin => ?_⟩
  obtain ⟨⟨G, hG⟩, hF, k4, k5, k6, hv, he⟩ := interior_start (σ := σ) hb hs ha hreal hvs hi h0 hin
  obtain ⟨h1, h2, h3, h4⟩ := hv (σ.sub 6)
  have hlen : T0.mesh.tris.length ≤ L.length := by
    refine (List.subperm_of_subset hF.simple.nodup fun t ht => ?_).length_le
    obtain ⟨o1, o2, o3⟩ := k6 t ht
    refine List.mem_flatMap.2 ⟨t.v1, o1, List.mem_flatMap.2 ⟨t.v2, o2, List.mem_map.2 ⟨t.v3, ?_, rfl⟩⟩⟩
    rcases o3 with k | k
    · exact List.mem_cons_of_mem _ k
    · rw [k]; exact List.mem_cons_self
  have hsh : (shuffle (σ.sub 6) T.vertices).length = T.vertices.length := (shuffle_perm _ _).length_eq
  obtain ⟨r, hr, -⟩ := (hG.court fuel).include_ok (walls hb) (hn0 fuel (by omega)) (σ := σ.sub 5) k4 k5 hF h1 h2 h3
    (fun t ht => by
      obtain ⟨o1, o2, o3⟩ := k6 t ht
      exact ⟨List.mem_append_left _ o1, List.mem_append_left _ o2, o3.imp_left (List.mem_append_left _)⟩)
    (fun w hw => List.mem_append_right _ ((h4 w).1 hw)) (fuel := fuel) (by rw [hsh]; omega)
  exact ⟨_, by rw [he, hr, Res.bind_ok]⟩

/-- C58: if some vertices were accepted, at least one of them is a vertex of the triangulation. The full statement, that
all of them are, is false (`C58_false`). -/
theorem C58_progress_partial {fuel : Nat} {σ σ' : Sched} {b : Polyline (Vertex K)} {vs : List (Vertex K)}
    {T T0 T' : Triangulator K} (hb : b.opened = false) (hs : SimplePolygon b.vertices) (ha : 0 < shoelace b.vertices)
    (hreal : ∀ v ∈ b.vertices, v.isGhost = false)
    (hvs : ∀ v ∈ vs, v.isGhost = false) (hi : (Triangulator.new b).insertVertices 0 σ' vs = .ok T)
    (h0 : (Triangulator.new b).triangulate 0 fuel σ = .ok T0)
    (hin : ∀ s ∈ pairs b.vertices false, ∃ t ∈ T0.mesh.tris, Face t ∧ IsSide t ⟨s.1, s.2⟩)
    (h : T.triangulate 0 fuel σ = .ok T') (hne : vs ≠ []) : ∃ v ∈ vs, VertexOf T'.mesh.tris v := by
  obtain ⟨⟨G, hG⟩, hF, k4, k5, k6, hv, he⟩ := interior_start (σ := σ) hb hs ha hreal hvs hi h0 hin
  rw [he, Res.bind_eq_ok] at h
  obtain ⟨st, hst, h⟩ := h
  simp only [Res.ok.injEq] at h
  subst h
  obtain ⟨h1, h2, h3, h4⟩ := hv (σ.sub 6)
  obtain ⟨s0, hs0, -, -⟩ := include_run hst
  have hrest := (hG.court fuel).start_rest hF h2 h3 hs0
  obtain ⟨-, -, -, -, k, -⟩ := startState_spec hs0
  have hfl : s0.cmap.flat ≠ [] := by
    intro hnil
    rw [hnil, hrest, List.append_nil] at k
    have hemp := k.symm.eq_nil
    obtain ⟨w, hw⟩ := List.exists_mem_of_ne_nil _ hne
    have hw' := (h4 w).2 hw
    have hall := List.filter_eq_nil_iff.1 hemp w hw'
    simp only [Bool.not_eq_true', decide_eq_false_iff_not, not_not] at hall
    obtain ⟨⟨t, ht, hc⟩, -⟩ := mem_vertices.1 hall
    have hwin := h3 w hw'
    have hwb : w ∈ b.vertices := by
      obtain ⟨o1, o2, o3⟩ := k6 t ht
      rcases hc with rfl | rfl | rfl
      · exact o1
      · exact o2
      · rcases o3 with k | k
        · exact k
        · have := h2 _ hw'
          rw [k] at this
          simp [Vertex.ghost] at this
    obtain ⟨s, hs1, hs2⟩ := List.mem_map.1 ((pairs_snd b.vertices).mem_iff.2 hwb)
    refine hwin.1 s hs1 ?_
    rw [← hs2]
    exact onSegment_right s.1 s.2
  obtain ⟨u, hu, -, hum⟩ := include_progress k4 hst hs0 hfl
  exact ⟨u, (h4 u).1 hu, hum, h2 u hu⟩

/-- C58: a single accepted vertex is a vertex of the triangulation. -/
theorem C58_one_partial {fuel : Nat} {σ σ' : Sched} {b : Polyline (Vertex K)} {v : Vertex K}
    {T T0 T' : Triangulator K} (hb : b.opened = false) (hs : SimplePolygon b.vertices) (ha : 0 < shoelace b.vertices)
    (hreal : ∀ v ∈ b.vertices, v.isGhost = false)
    (hv : v.isGhost = false) (hi : (Triangulator.new b).insertVertices 0 σ' [v] = .ok T)
    (h0 : (Triangulator.new b).triangulate 0 fuel σ = .ok T0)
    (hin : ∀ s ∈ pairs b.vertices false, ∃ t ∈ T0.mesh.tris, Face t ∧ IsSide t ⟨s.1, s.2⟩)
    (h : T.triangulate 0 fuel σ = .ok T') : VertexOf T'.mesh.tris v := by
  obtain ⟨u, hu, k⟩ := C58_progress_partial hb hs ha hreal (vs := [v]) (by simpa using hv) hi h0 hin h (by simp)
  rw [List.mem_singleton] at hu
  exact hu ▸ k

namespace ValidityExample

/-- Two vertices on different sides of the reflex corner of the dart. -/
def dartRequest : Triangulator ℚ :=
  match (Triangulator.new dart).insertVertices 0 (order 5) [pt 1 3, pt 3 3, pt 2 1] with
  | .ok T => T
  | .err T _ => T

def finished (σ : Sched) (T : Triangulator ℚ) : Bool :=
  match T.triangulate 0 60 σ with
  | .ok _ => true
  | _ => false

theorem ok_of_finished {σ : Sched} {T : Triangulator ℚ} (h : finished σ T = true) :
    ∃ T', T.triangulate 0 60 σ = .ok T' ∧ T'.mesh.tris = outcome σ T := by
  unfold finished at h
  unfold outcome
  match hT : T.triangulate 0 60 σ with
  | .ok T' => exact ⟨T', rfl, rfl⟩
  | .panic => rw [hT] at h; simp at h
  | .diverged => rw [hT] at h; simp at h

/-- C51 and C57 apply to the dart with three vertices inside. -/
example : ∃ T', dartRequest.triangulate 0 60 (order 3) = .ok T' ∧ TilesPolygon dart.vertices T'.mesh.tris ∧
    DelaunayInside dart.vertices T'.mesh.tris ∧ T'.mesh.tris.length = 14 := by
  have hs : SimplePolygon dart.vertices := simple_of_check (by decide +kernel)
  have ha : 0 < shoelace dart.vertices := by decide +kernel
  have hr : ∀ v ∈ dart.vertices, v.isGhost = false := by decide +kernel
  have hv : ∀ v ∈ [pt 1 3, pt 3 3, pt 2 1], v.isGhost = false := by decide +kernel
  have hi : (Triangulator.new dart).insertVertices 0 (order 5) [pt 1 3, pt 3 3, pt 2 1] = .ok dartRequest := by
    obtain ⟨T, h⟩ := (C22_ok_iff 0 (order 5) (Triangulator.new dart) [pt 1 3, pt 3 3, pt 2 1]).2 (by decide +kernel)
    rw [dartRequest, h]
  obtain ⟨T0, h0, e0⟩ := ok_of_finished (σ := order 3) (T := Triangulator.new dart) (by decide +kernel)
  obtain ⟨T', h', e'⟩ := ok_of_finished (σ := order 3) (T := dartRequest) (by decide +kernel)
  have hside : ∀ s ∈ pairs dart.vertices false, ∃ t ∈ T0.mesh.tris, Face t ∧ IsSide t ⟨s.1, s.2⟩ := by
    rw [e0]
    unfold Face IsSide
    decide +kernel
  exact ⟨T', h', (C51_vertices_partial rfl hs ha hr hv hi h0 hside h').1,
    C57_vertices_partial rfl hs ha hr hv hi h0 hside h', by rw [e']; decide +kernel⟩

/-- C58 applies to the dart and one vertex. -/
example : ∃ T T', (Triangulator.new dart).insertVertices 0 (order 5) [pt 1 3] = .ok T ∧
    T.triangulate 0 60 (order 3) = .ok T' ∧ VertexOf T'.mesh.tris (pt 1 3) := by
  have hs : SimplePolygon dart.vertices := simple_of_check (by decide +kernel)
  have ha : 0 < shoelace dart.vertices := by decide +kernel
  have hr : ∀ v ∈ dart.vertices, v.isGhost = false := by decide +kernel
  obtain ⟨T, hi⟩ := (C22_ok_iff 0 (order 5) (Triangulator.new dart) [pt 1 3]).2 (by decide +kernel)
  have hT : T = match (Triangulator.new dart).insertVertices 0 (order 5) [pt 1 3] with
    | .ok T => T
    | .err T _ => T := by rw [hi]
  obtain ⟨T0, h0, e0⟩ := ok_of_finished (σ := order 3) (T := Triangulator.new dart) (by decide +kernel)
  obtain ⟨T', h', e'⟩ := ok_of_finished (σ := order 3) (T := T) (by rw [hT]; decide +kernel)
  have hside : ∀ s ∈ pairs dart.vertices false, ∃ t ∈ T0.mesh.tris, Face t ∧ IsSide t ⟨s.1, s.2⟩ := by
    rw [e0]
    unfold Face IsSide
    decide +kernel
  exact ⟨T, T', hi, h', C58_one_partial rfl hs ha hr rfl hi h0 hside h'⟩

/-- Five vertices in the square. -/
def five : List (Vertex ℚ) := [pt (7 / 5) (3 / 5), pt (18 / 5) (6 / 5), pt (1 / 5) (3 / 5), pt 3 (18 / 5), pt (13 / 5) (12 / 5)]

def fiveRequest : Triangulator ℚ :=
  match (Triangulator.new square).insertVertices 0 (order 0) five with
  | .ok T => T
  | .err T _ => T

end ValidityExample

open ValidityExample in
/-- C58 is false: a square and five vertices strictly inside, all accepted and stored, and an order of the hash tables
such that `triangulate` finishes normally although one of the vertices is not in the mesh. -/
theorem C58_false : ∃ (b : Polyline (Vertex ℚ)) (vs : List (Vertex ℚ)) (σ : Sched) (T T' : Triangulator ℚ),
    SimplePolygon b.vertices ∧ b.opened = false ∧ 0 < shoelace b.vertices ∧
    (Triangulator.new b).insertVertices 0 σ vs = .ok T ∧ T.triangulate 0 60 σ = .ok T' ∧
    ∃ v ∈ vs, v.isGhost = false ∧ v ∈ T.vertices ∧ ¬ VertexOf T'.mesh.tris v := by
  have hi : (Triangulator.new square).insertVertices 0 (order 0) five = .ok fiveRequest := by
    obtain ⟨T, h⟩ := (C22_ok_iff 0 (order 0) (Triangulator.new square) five).2 (by decide +kernel)
    rw [fiveRequest, h]
  obtain ⟨T', h', e'⟩ := ok_of_finished (σ := order 0) (T := fiveRequest) (by decide +kernel)
  have hk : ∃ v ∈ five, v.isGhost = false ∧ v ∈ fiveRequest.vertices ∧
      ∀ t ∈ outcome (order 0) fiveRequest, ¬ (v = t.v1 ∨ v = t.v2 ∨ v = t.v3) := by decide +kernel
  obtain ⟨v, hv, k1, k2, k3⟩ := hk
  refine ⟨square, five, order 0, fiveRequest, T', simple_of_check (by decide +kernel), rfl, by decide +kernel, hi, h', v,
    hv, k1, k2, ?_⟩
  rintro ⟨⟨t, ht, hc⟩, -⟩
  rw [e'] at ht
  exact k3 t ht hc

end Verif.Props
