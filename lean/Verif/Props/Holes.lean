import Verif.Lemmas.HoleStep
import Verif.Props.Interior
import Verif.Props.Segments

/-!
# C59: triangulations of domains with holes
-/

set_option linter.unusedSectionVars false

namespace Verif.Props

open Spec Triangulator

namespace HoleExample

open ValidityExample

/-- A boundary without reflex corner. -/
def wide : Polyline (Vertex ℚ) := ⟨[pt 0 0, pt 12 0, pt 12 12, pt 0 12], false, by decide⟩

/-- A triangle in the middle. -/
def wedge : Polyline (Vertex ℚ) := ⟨[pt 5 5, pt 7 5, pt 6 7], false, by decide⟩

/-- A slit. -/
def slit : Polyline (Vertex ℚ) := ⟨[pt 3 5, pt 9 5, pt 9 (51 / 10), pt 3 (51 / 10)], false, by decide⟩

/-- A triangle above the slit. -/
def above : Polyline (Vertex ℚ) := ⟨[pt 6 (53 / 10), pt 7 6, pt 5 6], false, by decide⟩

/-- A triangle in a corner of the dart. -/
def nook : Polyline (Vertex ℚ) := ⟨[pt (1 / 4) (15 / 4), pt (1 / 8) 3, pt (1 / 2) 3], false, by decide⟩

def punch (T : Triangulator ℚ) (h : Polyline (Vertex ℚ)) : Triangulator ℚ :=
  match T.insertHole 0 60 h with
  | .ok (.ok T') => T'
  | _ => T

theorem punch_ok {T : Triangulator ℚ} {h : Polyline (Vertex ℚ)} (hk : (inserted (T.insertHole 0 60 h)).isSome = true) :
    T.insertHole 0 60 h = .ok (.ok (punch T h)) := by
  obtain ⟨t, ht⟩ := Option.isSome_iff_exists.1 hk
  have := inserted_some ht
  rw [this, punch, this]

def wedgeRequest : Triangulator ℚ :=
  match (punch (Triangulator.new wide) wedge).insertVertices 0 (order 2) [pt 6 8] with
  | .ok T => T
  | .err T _ => T

theorem insidePolygon_of {l : List (Vertex ℚ)} {w : Vertex ℚ} (h1 : ∀ s ∈ pairs l false, cross s.1 s.2 w ≠ 0)
    (h2 : windingNumber (pairs l false) w ≠ 0) : InsidePolygon l w :=
  ⟨fun s hs ho => h1 s hs (onSegment_cross ho), h2⟩

theorem outsidePolygon_of {l : List (Vertex ℚ)} {w : Vertex ℚ} (h1 : ∀ s ∈ pairs l false, cross s.1 s.2 w ≠ 0)
    (h2 : windingNumber (pairs l false) w = 0) : OutsidePolygon l w :=
  ⟨fun s hs ho => h1 s hs (onSegment_cross ho), h2⟩

end HoleExample

open ValidityExample HoleExample

/-- C59 is false with a boundary that has a reflex corner: a polygon, a triangular hole inside, and an order of the hash
tables such that the hole is accepted, `triangulate` finishes normally, and a triangle reaches out of the boundary. -/
theorem C59_reflex_false : ∃ (b h : Polyline (Vertex ℚ)) (σ : Sched) (T T' : Triangulator ℚ),
    SimplePolygon b.vertices ∧ b.opened = false ∧ 0 < shoelace b.vertices ∧
    SimplePolygon h.vertices ∧ h.opened = false ∧ 0 < shoelace h.vertices ∧
    (Triangulator.new b).insertHole 0 60 h = .ok (.ok T) ∧ T.triangulate 0 60 σ = .ok T' ∧
    ∃ t ∈ T'.mesh.tris, Face t ∧ ∃ w, Inner t w ∧ OutsidePolygon b.vertices w := by
  obtain ⟨T', h', e'⟩ := ok_of_finished (σ := order 0) (T := punch (Triangulator.new dart) nook) (by decide +kernel)
  refine ⟨dart, nook, order 0, punch (Triangulator.new dart) nook, T', simple_of_check (by decide +kernel), rfl,
    by decide +kernel, simple_of_check (by decide +kernel), rfl, by decide +kernel, punch_ok (by decide +kernel), h', ?_⟩
  rw [e']
  have : ∃ t ∈ outcome (order 0) (punch (Triangulator.new dart) nook),
      (t.v1.isGhost = false ∧ t.v2.isGhost = false ∧ t.v3.isGhost = false ∧ 0 < cross t.v1 t.v2 t.v3) ∧
      Inner t (pt 2 (7 / 2)) := by decide +kernel
  obtain ⟨t, ht, hf, hi⟩ := this
  exact ⟨t, ht, hf, _, hi, outsidePolygon_of (by decide +kernel) (by decide +kernel)⟩

/-- C59 is false with a hole and a vertex: a square, a triangular hole, a vertex strictly inside, and an order of the hash
tables such that all is accepted, `triangulate` finishes normally, and a triangle covers the middle of the hole. -/
theorem C59_vertex_false : ∃ (b h : Polyline (Vertex ℚ)) (v : Vertex ℚ) (σ : Sched) (T1 T2 T' : Triangulator ℚ),
    SimplePolygon b.vertices ∧ b.opened = false ∧ 0 < shoelace b.vertices ∧
    SimplePolygon h.vertices ∧ h.opened = false ∧ 0 < shoelace h.vertices ∧
    (Triangulator.new b).insertHole 0 60 h = .ok (.ok T1) ∧ T1.insertVertices 0 σ [v] = .ok T2 ∧
    T2.triangulate 0 60 σ = .ok T' ∧ ∃ t ∈ T'.mesh.tris, Face t ∧ ∃ w, Inner t w ∧ InsidePolygon h.vertices w := by
  obtain ⟨T', h', e'⟩ := ok_of_finished (σ := order 2) (T := wedgeRequest) (by decide +kernel)
  refine ⟨wide, wedge, pt 6 8, order 2, punch (Triangulator.new wide) wedge, wedgeRequest, T',
    simple_of_check (by decide +kernel), rfl, by decide +kernel, simple_of_check (by decide +kernel), rfl,
    by decide +kernel, punch_ok (by decide +kernel), ?_, h', ?_⟩
  · obtain ⟨T, h⟩ := (C22_ok_iff 0 (order 2) (punch (Triangulator.new wide) wedge) [pt 6 8]).2 (by decide +kernel)
    rw [wedgeRequest, h]
  · rw [e']
    have : ∃ t ∈ outcome (order 2) wedgeRequest,
        (t.v1.isGhost = false ∧ t.v2.isGhost = false ∧ t.v3.isGhost = false ∧ 0 < cross t.v1 t.v2 t.v3) ∧
        Inner t (pt (61 / 10) 6) := by decide +kernel
    obtain ⟨t, ht, hf, hi⟩ := this
    exact ⟨t, ht, hf, _, hi, insidePolygon_of (by decide +kernel) (by decide +kernel)⟩

/-- C59 is false with two holes: a square, two disjoint holes, and an order of the hash tables such that the holes are
accepted, `triangulate` finishes normally, and a triangle covers a part of the first hole. -/
theorem C59_two_holes_false : ∃ (b h1 h2 : Polyline (Vertex ℚ)) (σ : Sched) (T1 T2 T' : Triangulator ℚ),
    SimplePolygon b.vertices ∧ b.opened = false ∧ 0 < shoelace b.vertices ∧
    SimplePolygon h1.vertices ∧ h1.opened = false ∧ 0 < shoelace h1.vertices ∧
    SimplePolygon h2.vertices ∧ h2.opened = false ∧ 0 < shoelace h2.vertices ∧
    (Triangulator.new b).insertHole 0 60 h1 = .ok (.ok T1) ∧ T1.insertHole 0 60 h2 = .ok (.ok T2) ∧
    T2.triangulate 0 60 σ = .ok T' ∧ ∃ t ∈ T'.mesh.tris, Face t ∧ ∃ w, Inner t w ∧ InsidePolygon h1.vertices w := by
  obtain ⟨T', h', e'⟩ := ok_of_finished (σ := order 5) (T := punch (punch (Triangulator.new wide) slit) above)
    (by decide +kernel)
  refine ⟨wide, slit, above, order 5, punch (Triangulator.new wide) slit, punch (punch (Triangulator.new wide) slit) above,
    T', simple_of_check (by decide +kernel), rfl, by decide +kernel, simple_of_check (by decide +kernel), rfl,
    by decide +kernel, simple_of_check (by decide +kernel), rfl, by decide +kernel, punch_ok (by decide +kernel),
    punch_ok (by decide +kernel), h', ?_⟩
  rw [e']
  have : ∃ t ∈ outcome (order 5) (punch (punch (Triangulator.new wide) slit) above),
      (t.v1.isGhost = false ∧ t.v2.isGhost = false ∧ t.v3.isGhost = false ∧ 0 < cross t.v1 t.v2 t.v3) ∧
      Inner t (pt 6 (101 / 20)) := by decide +kernel
  obtain ⟨t, ht, hf, hi⟩ := this
  exact ⟨t, ht, hf, _, hi, insidePolygon_of (by decide +kernel) (by decide +kernel)⟩

/-- C59 is false with two holes: the same square and holes, and another order of the hash tables, with which `triangulate`
panics. -/
theorem C59_panic_false : ∃ (b h1 h2 : Polyline (Vertex ℚ)) (σ : Sched) (T1 T2 : Triangulator ℚ),
    SimplePolygon b.vertices ∧ b.opened = false ∧ 0 < shoelace b.vertices ∧
    SimplePolygon h1.vertices ∧ h1.opened = false ∧ 0 < shoelace h1.vertices ∧
    SimplePolygon h2.vertices ∧ h2.opened = false ∧ 0 < shoelace h2.vertices ∧
    (Triangulator.new b).insertHole 0 60 h1 = .ok (.ok T1) ∧ T1.insertHole 0 60 h2 = .ok (.ok T2) ∧
    T2.triangulate 0 60 σ = .panic := by
  refine ⟨wide, slit, above, order 0, punch (Triangulator.new wide) slit, punch (punch (Triangulator.new wide) slit) above,
    simple_of_check (by decide +kernel), rfl, by decide +kernel, simple_of_check (by decide +kernel), rfl,
    by decide +kernel, simple_of_check (by decide +kernel), rfl, by decide +kernel, punch_ok (by decide +kernel),
    punch_ok (by decide +kernel), ?_⟩
  have : (match (punch (punch (Triangulator.new wide) slit) above).triangulate 0 60 (order 0) with
    | .panic => true
    | _ => false) = true := by decide +kernel
  split at this
  · assumption
  · simp at this

section

variable {K : Type*} [Field K] [LinearOrder K] [IsStrictOrderedRing K]

theorem insertHole_new {fuel : Nat} {b h : Polyline (Vertex K)} {T : Triangulator K}
    (hi : (Triangulator.new b).insertHole 0 fuel h = .ok (.ok T)) : T = { Triangulator.new b with holes := [h] } := by
  unfold insertHole at hi
  rw [Res.bind_eq_ok] at hi
  obtain ⟨bad, -, hi⟩ := hi
  split_ifs at hi with h1
  · simp at hi
  · rw [Res.bind_eq_ok] at hi
    obtain ⟨l, -, hi⟩ := hi
    simp only at hi
    split_ifs at hi with h2
    · simp at hi
    · simp only [Res.ok.injEq, InsertRes.ok.injEq] at hi
      rw [← hi]
      simp [Triangulator.new, setInsert]

/-- The state before the hole is carved out. -/
theorem hole_start {fuel : Nat} {σ : Sched} {b h : Polyline (Vertex K)} {T T0 : Triangulator K} (hb : b.opened = false)
    (hs : SimplePolygon b.vertices) (ha : 0 < shoelace b.vertices) (hreal : ∀ v ∈ b.vertices, v.isGhost = false)
    {n : Nat} (hi : (Triangulator.new b).insertHole 0 n h = .ok (.ok T))
    (h0 : (Triangulator.new b).triangulate 0 fuel σ = .ok T0)
    (hin : ∀ s ∈ pairs b.vertices false, ∃ t ∈ T0.mesh.tris, Face t ∧ IsSide t ⟨s.1, s.2⟩) :
    Fit Vertex.ghost b.vertices T0.mesh.tris ∧ AdjSound T0.mesh ∧ AdjComplete T0.mesh ∧
      (∀ t ∈ T0.mesh.tris, Occurs Vertex.ghost b.vertices t) ∧
      ∀ m', includeHole 0 fuel ((σ.sub 2).sub 0) (toSet b.intoEdges) T0.mesh h = .ok m' →
        ∃ T', T.triangulate 0 fuel σ = .ok T' ∧ T'.mesh = m' := by
  obtain ⟨v1, v2, rest, hl, hm0⟩ := triangulate_boundary (T := Triangulator.new b) rfl rfl rfl h0
  have hl : b.vertices = v1 :: v2 :: rest := hl
  have hm0 : includeBoundary (geoPreds 0 fuel none []) Vertex.ghost [] fuel (σ.sub 0)
      (Mesh.fromInitialSegment Vertex.ghost v1 v2) b = .ok T0.mesh := hm0
  obtain ⟨-, hF, k4, k5, k6⟩ := boundary_fit hb hs ha hreal (first_side hl) hm0 hin
  refine ⟨hF, k4, k5, k6, fun m' hm' => ?_⟩
  have eT := insertHole_new hi
  subst eT
  have s1 : shuffle (σ.sub 1) [h] = [h] := List.perm_singleton.1 (shuffle_perm _ _)
  have s2 : (shuffle (σ.sub 4) ([] : List (Edge (Vertex K)))) = [] :=
    List.eq_nil_iff_forall_not_mem.2 fun x hx => by simpa using mem_shuffle.1 hx
  have s3 : (shuffle (σ.sub 6) ([] : List (Vertex K))) = [] :=
    List.eq_nil_iff_forall_not_mem.2 fun x hx => by simpa using mem_shuffle.1 hx
  unfold Triangulator.triangulate
  simp only [Triangulator.new, hl]
  simp only [hm0, Res.bind_ok, s1, s2, s3, Triangulator.includeHoles, hm', Triangulator.includeSegments,
    includeVertices_empty]
  exact ⟨_, rfl, rfl⟩

/-- C59, a convex boundary and one hole: `triangulate` returns and the triangles are a partition of the boundary without
the hole, for all orders of the hash tables, if all sides of the boundary appear when the boundary alone is triangulated,
and all sides of the hole appear when the vertices of the hole are inserted in that triangulation. The hole may have any
simple counterclockwise shape. What is missing: boundaries with reflex corners, several holes, vertices beside a hole (the
statement is false for all of these), and holes whose sides have to be inserted one by one. -/
theorem C59_convex_partial {fuel : Nat} {σ : Sched} {b h : Polyline (Vertex K)} {T T0 : Triangulator K}
    (hb : b.opened = false) (hs : SimplePolygon b.vertices) (ha : 0 < shoelace b.vertices)
    (hreal : ∀ v ∈ b.vertices, v.isGhost = false) (hc : ConvexPolygon b.vertices) (hh : h.opened = false)
    (hhs : SimplePolygon h.vertices) (hha : 0 < shoelace h.vertices)
    (hhr : ∀ v ∈ h.vertices, v.isGhost = false ∧ InsidePolygon b.vertices v) {n : Nat}
    (hi : (Triangulator.new b).insertHole 0 n h = .ok (.ok T))
    (h0 : (Triangulator.new b).triangulate 0 fuel σ = .ok T0)
    (hin : ∀ s ∈ pairs b.vertices false, ∃ t ∈ T0.mesh.tris, Face t ∧ IsSide t ⟨s.1, s.2⟩)
    {st : SolveState (Vertex K)} (hst : includeVertices (geoPreds 0 fuel none []) (toSet b.intoEdges) fuel
      (((σ.sub 2).sub 0).sub 1) T0.mesh h.vertices = .ok st)
    (hside : ∀ s ∈ pairs h.vertices false, ∃ t ∈ st.mesh.tris, IsSide t ⟨s.1, s.2⟩)
    (hf' : 3 * st.mesh.tris.length + 3 * h.vertices.length ≤ fuel) :
    ∃ T', T.triangulate 0 fuel σ = .ok T' ∧ TilesDomain b.vertices [h.vertices] T'.mesh.tris ∧
      Watertight T'.mesh.tris := by
  obtain ⟨hF, k4, k5, -, hT⟩ := hole_start (h := h) (T := T) (T0 := T0) (σ := σ) hb hs ha hreal hi h0 hin
  obtain ⟨f1, f2, f3⟩ := (convex_court (g := Vertex.ghost) rfl hreal hc fuel).include (walls hb) k4 k5 hF
    (simplePolygon_nodup hhs) (fun v hv => (hhr v hv).1) (fun v hv => (hhr v hv).2) hst
  have hsb : ∃ s, s ∈ pairs b.vertices false := by
    match hl : b.vertices, b.two_le with
    | v1 :: v2 :: rest, _ => exact ⟨(v1, v2), first_side rfl⟩
  obtain ⟨sb, hsb⟩ := hsb
  obtain ⟨m', hm', k1, k2⟩ := hole_step f1 f2 f3 hc hsb hh hhs hha (fun v hv => (hhr v hv).1) hf' hst hside
  obtain ⟨T', e1, e2⟩ := hT m' hm'
  exact ⟨T', e1, by rw [e2]; exact k1, by rw [e2]; exact k2⟩

/-- C59: inserting the vertices of a hole in the triangulation of a convex boundary returns, for all orders of the hash
tables, and gives a Delaunay triangulation. -/
theorem C59_hole_vertices_partial {fuel : Nat} {σ τ : Sched} {b h : Polyline (Vertex K)} {T0 : Triangulator K}
    (hb : b.opened = false) (hs : SimplePolygon b.vertices) (ha : 0 < shoelace b.vertices)
    (hreal : ∀ v ∈ b.vertices, v.isGhost = false) (hc : ConvexPolygon b.vertices) (hhs : SimplePolygon h.vertices)
    (hhr : ∀ v ∈ h.vertices, v.isGhost = false ∧ InsidePolygon b.vertices v)
    (h0 : (Triangulator.new b).triangulate 0 fuel σ = .ok T0)
    (hin : ∀ s ∈ pairs b.vertices false, ∃ t ∈ T0.mesh.tris, Face t ∧ IsSide t ⟨s.1, s.2⟩)
   
    (hf' : 2 * (T0.mesh.tris.length + 2 * h.vertices.length) + 3 ≤ fuel) :
    ∃ st, includeVertices (geoPreds 0 fuel none []) (toSet b.intoEdges) fuel τ T0.mesh h.vertices = .ok st ∧
      Delaunay Vertex.ghost st.mesh.tris ∧ TilesPolygon b.vertices st.mesh.tris := by
  obtain ⟨v1, v2, rest, hl, hm0⟩ := triangulate_boundary (T := Triangulator.new b) rfl rfl rfl h0
  have hl : b.vertices = v1 :: v2 :: rest := hl
  have hm0 : includeBoundary (geoPreds 0 fuel none []) Vertex.ghost [] fuel (σ.sub 0)
      (Mesh.fromInitialSegment Vertex.ghost v1 v2) b = .ok T0.mesh := hm0
  obtain ⟨-, hF, k4, k5, k6⟩ := boundary_fit hb hs ha hreal (first_side hl) hm0 hin
  have hC := convex_court (g := Vertex.ghost) rfl hreal hc fuel
  obtain ⟨st, hst, -⟩ := hC.include_ok (walls hb) (V := b.vertices ++ h.vertices) (σ := τ) (fuel := fuel) (fun t _ w _ => ⟨true, rfl⟩)
    k4 k5 hF (simplePolygon_nodup hhs) (fun v hv => (hhr v hv).1) (fun v hv => (hhr v hv).2)
    (fun t ht => by
      obtain ⟨o1, o2, o3⟩ := k6 t ht
      exact ⟨List.mem_append_left _ o1, List.mem_append_left _ o2, o3.imp_left (List.mem_append_left _)⟩)
    (fun w hw => List.mem_append_right _ hw) hf'
  obtain ⟨f1, f2, f3⟩ := hC.include (walls hb) k4 k5 hF (simplePolygon_nodup hhs) (fun v hv => (hhr v hv).1)
    (fun v hv => (hhr v hv).2) hst
  obtain ⟨s0, hs0, hsol0, -⟩ := f1.lot.side (simplePolygon_back f1.poly) (first_side hl)
  exact ⟨st, hst, (f1.good hc).delaunay (Or.inl ⟨s0, hs0, hsol0⟩), f1.tiles⟩

/-- C59: the sides of a hole appear if all its vertices do and each side is a free chord: there is a circle through its
ends that has the other vertices of the boundary and of the hole outside. -/
theorem C59_free_sides_partial {fuel : Nat} {σ τ : Sched} {b h : Polyline (Vertex K)} {T0 : Triangulator K}
    (hb : b.opened = false) (hs : SimplePolygon b.vertices) (ha : 0 < shoelace b.vertices)
    (hreal : ∀ v ∈ b.vertices, v.isGhost = false) (hc : ConvexPolygon b.vertices) (hhs : SimplePolygon h.vertices)
    (hhr : ∀ v ∈ h.vertices, v.isGhost = false ∧ InsidePolygon b.vertices v)
    (h0 : (Triangulator.new b).triangulate 0 fuel σ = .ok T0)
    (hin : ∀ s ∈ pairs b.vertices false, ∃ t ∈ T0.mesh.tris, Face t ∧ IsSide t ⟨s.1, s.2⟩)
    {st : SolveState (Vertex K)}
    (hst : includeVertices (geoPreds 0 fuel none []) (toSet b.intoEdges) fuel τ T0.mesh h.vertices = .ok st)
    (hv : ∀ v ∈ h.vertices, VertexOf st.mesh.tris v)
    (hfree : ∀ s ∈ pairs h.vertices false, FreeChord (b.vertices ++ h.vertices) s.1 s.2) :
    ∀ s ∈ pairs h.vertices false, ∃ t ∈ st.mesh.tris, IsSide t ⟨s.1, s.2⟩ := by
  obtain ⟨v1, v2, rest, hl, hm0⟩ := triangulate_boundary (T := Triangulator.new b) rfl rfl rfl h0
  have hl : b.vertices = v1 :: v2 :: rest := hl
  have hm0 : includeBoundary (geoPreds 0 fuel none []) Vertex.ghost [] fuel (σ.sub 0)
      (Mesh.fromInitialSegment Vertex.ghost v1 v2) b = .ok T0.mesh := hm0
  obtain ⟨-, hF, k4, k5, k6⟩ := boundary_fit hb hs ha hreal (first_side hl) hm0 hin
  have hC := convex_court (g := Vertex.ghost) rfl hreal hc fuel
  obtain ⟨f1, f2, f3⟩ := hC.include (walls hb) k4 k5 hF (simplePolygon_nodup hhs) (fun v hv => (hhr v hv).1)
    (fun v hv => (hhr v hv).2) hst
  obtain ⟨s0, hs0, hsol0, -⟩ := f1.lot.side (simplePolygon_back f1.poly) (first_side hl)
  intro s hm
  obtain ⟨m1, m2⟩ := mem_pairs hm
  refine (f1.good hc).chord hs0 hsol0 (l := b.vertices ++ h.vertices) (fun p hp => ?_) (hv _ m1) (hv _ m2) ?_ (hfree s hm)
  · obtain ⟨ins, i1, i2⟩ := C15_vertices k4 hst
    rcases (i2 p).1 hp.1 with ⟨t, ht, hcor⟩ | k
    · obtain ⟨o1, o2, o3⟩ := k6 t ht
      refine List.mem_append_left _ ?_
      rcases hcor with rfl | rfl | rfl
      · exact o1
      · exact o2
      · rcases o3 with k | k
        · exact k
        · have := hp.2
          rw [k] at this
          simp [Vertex.ghost] at this
    · have := i1.mem_iff.1 (List.mem_append.2 (Or.inl k))
      exact List.mem_append_right _ (List.mem_filter.1 this).1
  · intro e
    exact hhs.proper s hm (by rw [e]; exact ⟨rfl, rfl⟩)

end

namespace HoleExample

/-- The triangles of the boundary, and those after the insertion of the hole vertices. -/
def holeStage (σ : Sched) (b h : Polyline (Vertex ℚ)) : Option (List (Tri (Vertex ℚ)) × List (Tri (Vertex ℚ))) :=
  match (Triangulator.new b).triangulate 0 60 σ with
  | .ok T0 =>
    match includeVertices (geoPreds 0 60 none []) (toSet b.intoEdges) 60 (((σ.sub 2).sub 0).sub 1) T0.mesh h.vertices with
    | .ok st => some (T0.mesh.tris, st.mesh.tris)
    | _ => none
  | _ => none

theorem holeStage_some {σ : Sched} {b h : Polyline (Vertex ℚ)} (hk : (holeStage σ b h).isSome = true) :
    ∃ T0 st, (Triangulator.new b).triangulate 0 60 σ = .ok T0 ∧
      includeVertices (geoPreds 0 60 none []) (toSet b.intoEdges) 60 (((σ.sub 2).sub 0).sub 1) T0.mesh h.vertices = .ok st ∧
      holeStage σ b h = some (T0.mesh.tris, st.mesh.tris) := by
  unfold holeStage at hk ⊢
  cases h0 : (Triangulator.new b).triangulate 0 60 σ with
  | ok T0 =>
    simp only [h0] at hk
    cases h1 : includeVertices (geoPreds 0 60 none []) (toSet b.intoEdges) 60 (((σ.sub 2).sub 0).sub 1) T0.mesh h.vertices with
    | ok st => exact ⟨T0, st, rfl, h1, by simp only [h1]⟩
    | panic => simp [h1] at hk
    | diverged => simp [h1] at hk
  | panic => simp [h0] at hk
  | diverged => simp [h0] at hk

/-- C59 applies to the square with the triangular hole. -/
example : ∃ T', (punch (Triangulator.new wide) wedge).triangulate 0 60 (order 2) = .ok T' ∧
    TilesDomain wide.vertices [wedge.vertices] T'.mesh.tris ∧ Watertight T'.mesh.tris := by
  obtain ⟨T0, st, h0, h1, h2⟩ := holeStage_some (σ := order 2) (b := wide) (h := wedge) (by decide +kernel)
  have e : ((holeStage (order 2) wide wedge).get (by decide +kernel)) = (T0.mesh.tris, st.mesh.tris) := by
    simp only [h2, Option.get_some]
  have e1 : T0.mesh.tris = ((holeStage (order 2) wide wedge).get (by decide +kernel)).1 := by rw [e]
  have e2 : st.mesh.tris = ((holeStage (order 2) wide wedge).get (by decide +kernel)).2 := by rw [e]
  refine C59_convex_partial (n := 60) rfl (simple_of_check (by decide +kernel)) (by decide +kernel) (by decide +kernel)
    (by unfold ConvexPolygon; decide +kernel) rfl (simple_of_check (by decide +kernel)) (by decide +kernel)
    (fun v hv => ⟨?_, insidePolygon_of ?_ ?_⟩) (punch_ok (by decide +kernel)) h0 ?_ h1 ?_ ?_
  · revert v; decide +kernel
  · revert v; decide +kernel
  · revert v; decide +kernel
  · rw [e1]
    unfold Face IsSide
    decide +kernel
  · rw [e2]
    unfold IsSide
    decide +kernel
  · rw [e2]
    decide +kernel

end HoleExample

end Verif.Props
