import Verif.Lemmas.Quad
import Verif.Props.Convex
import Verif.Props.Count

/-!
# C20, C74: domains with at most four sides

All simple polygons with three or four sides are meshed correctly, convex or not (`C74_mesh`). With five sides the mesh can
be empty (`C74_five_false`).
-/

set_option linter.unusedSectionVars false

namespace Verif.Props

open Spec

variable {K : Type*} [Field K] [LinearOrder K] [IsStrictOrderedRing K]

/-- C20 (part): if at most two vertices are requested beside the two points of the first segment, and one of them is not on
the line of this segment, all requested vertices end up in the mesh, whatever the order of the list and of the hash
tables. -/
theorem C20_two_partial {f fuel : Nat} {σ : Sched} {g a b : Vertex K} {vs : List (Vertex K)} {r : SolveState (Vertex K)}
    (hg : g.isGhost = true) (ha : a.isGhost = false) (hb : b.isGhost = false) (hab : a ≠ b) (hn : vs.Nodup)
    (hreal : ∀ v ∈ vs, v.isGhost = false) (htwo : (vs.filter fun v => decide (v ≠ a ∧ v ≠ b)).length ≤ 2)
    (hoff : ∃ v ∈ vs, cross a b v ≠ 0)
    (h : includeVertices (geoPreds 0 f none []) [] fuel σ (Mesh.fromInitialSegment g a b) vs = .ok r) :
    ∀ w ∈ vs, InMesh r.mesh w := by
  have h' : includeVertices (geoPreds 0 f none []) [] (max fuel (4 * vs.length + 7)) σ (Mesh.fromInitialSegment g a b) vs
      = .ok r := by
    rw [includeVertices_more (by rw [h]; simp) (le_max_left _ _)]
    exact h
  have hrem := two_inserted hg ha hb hab hn hreal htwo hoff (le_max_right _ _) h'
  obtain ⟨ins, i1, i2⟩ := C15_vertices (fromInitialSegment_sound _ _ _) h
  rw [hrem, List.append_nil] at i1
  intro w hw
  by_cases hm : w ∈ (Mesh.fromInitialSegment g a b).vertices (geoPreds (K := K) 0 f none []).ghost
  · exact (i2 w).2 (Or.inl (Verif.mem_vertices.1 hm).1)
  · exact (i2 w).2 (Or.inr (i1.mem_iff.2 (List.mem_filter.2 ⟨hw, by simpa using hm⟩)))

/-- The sides appear if they are free and no vertex is lost. -/
theorem sidesAppear_of_free {b : Polyline (Vertex K)} (hb : b.opened = false) (hs : SimplePolygon b.vertices)
    (ha : 0 < shoelace b.vertices) (hreal : ∀ v ∈ b.vertices, v.isGhost = false)
    (hfree : ∀ s ∈ pairs b.vertices false, FreeChord b.vertices s.1 s.2)
    (hall : ∀ (fuel : Nat) (σ : Sched) (v1 v2 : Vertex K) (r : SolveState (Vertex K)), (v1, v2) ∈ pairs b.vertices false →
      includeVertices (geoPreds 0 fuel none []) [] fuel σ (Mesh.fromInitialSegment Vertex.ghost v1 v2) b.vertices = .ok r →
      ∀ v ∈ b.vertices, InMesh r.mesh v) : SidesAppear b := by
  intro fuel σ T0 h0
  have hw := windsOnce hb hs ha
  obtain ⟨v1, v2, rest, hl, h⟩ := triangulate_boundary rfl rfl rfl h0
  have h12 := first_side hl
  change (v1, v2) ∈ pairs b.vertices false at h12
  change includeBoundary (geoPreds 0 fuel none []) Vertex.ghost [] fuel (σ.sub 0) (Mesh.fromInitialSegment Vertex.ghost v1 v2)
    b = .ok T0.mesh at h
  unfold includeBoundary at h
  rw [Res.bind_eq_ok] at h
  obtain ⟨r, hr, h⟩ := h
  obtain ⟨r', hr', hgood, k1, k2, ⟨s0, hs0, hsol0⟩, hvx⟩ := polygon_inserted (g := Vertex.ghost) (f := fuel)
    (fuel := max fuel (4 * b.vertices.length + 7)) (σ := (σ.sub 0).sub 0) rfl hs hw hreal (le_max_right _ _) h12
  rw [includeVertices_more (by rw [hr]; simp) (le_max_left _ _)] at hr'
  have e := hr.symm.trans hr'
  simp only [Res.ok.injEq] at e
  subst e
  have hall' := hall _ _ _ _ _ h12 hr
  have hE : Edged r.mesh.tris b.vertices := by
    intro s hm
    obtain ⟨n1, n2⟩ := mem_pairs hm
    refine hgood.chord hs0 hsol0 hvx ⟨hall' _ n1, hreal _ n1⟩ ⟨hall' _ n2, hreal _ n2⟩ ?_ (hfree s hm)
    intro e
    exact hs.proper s hm (by rw [e]; exact ⟨rfl, rfl⟩)
  intro s hm
  obtain ⟨t, ht, st, hside, hnr⟩ := Edged.kept_side hgood hs0 hsol0 hreal hE hs hw rfl hm
  exact ⟨t, (C26_outside k1 k2 hgood.simple hb h t).2 (Or.inl ⟨ht, hnr⟩), solid_iff.2 st, hside⟩

/-- Some vertex of a polygon is not on the line of a given side. -/
theorem off_side {b : Polyline (Vertex K)} (hb : b.opened = false) (hs : SimplePolygon b.vertices)
    (ha : 0 < shoelace b.vertices) {s : Vertex K × Vertex K} (hm : s ∈ pairs b.vertices false) :
    ∃ v ∈ b.vertices, cross s.1 s.2 v ≠ 0 := by
  by_contra hn
  push Not at hn
  exact side_not_hull hs (windsOnce hb hs ha) hm fun v hv => (hn v hv).le

/-- The sides of a simple polygon with at most four sides appear. -/
theorem sidesAppear_four {b : Polyline (Vertex K)} (hb : b.opened = false) (hs : SimplePolygon b.vertices)
    (ha : 0 < shoelace b.vertices) (hreal : ∀ v ∈ b.vertices, v.isGhost = false) (h4 : b.vertices.length ≤ 4) :
    SidesAppear b := by
  have h3 := three_vertices hs
  have hn := simplePolygon_nodup hs
  rcases Nat.lt_or_ge 3 b.vertices.length with k | k
  · refine sidesAppear_of_free hb hs ha hreal ?_ ?_
    · intro s hm
      obtain ⟨p, q, r, t, e⟩ : ∃ p q r t, b.vertices = [p, q, r, t] := by
        match hb' : b.vertices, h4, k with
        | [p, q, r, t], _, _ => exact ⟨p, q, r, t, rfl⟩
        | [], _, k => simp at k
        | [_], _, k => simp at k
        | [_, _], _, k => simp at k
        | [_, _, _], _, k => simp at k
        | _ :: _ :: _ :: _ :: _ :: _, h4, _ => simp at h4
      rw [e] at hs ha hm ⊢
      exact quad_sides hs ha hm
    · intro fuel σ v1 v2 r h12 hr
      obtain ⟨m1, m2⟩ := mem_pairs h12
      have h12' : v1 ≠ v2 := fun e => hs.proper _ h12 (by rw [e]; exact ⟨rfl, rfl⟩)
      refine C20_two_partial rfl (hreal _ m1) (hreal _ m2) h12' hn hreal ?_ (off_side hb hs ha h12) hr
      have e : b.vertices.filter (fun v => decide (v ≠ v1 ∧ v ≠ v2)) = (b.vertices.erase v1).erase v2 := by
        rw [hn.erase_eq_filter, (hn.filter _).erase_eq_filter, List.filter_filter]
        refine List.filter_congr fun v _ => ?_
        by_cases e1 : v = v1 <;> by_cases e2 : v = v2 <;> simp [e1, e2]
      rw [e, List.length_erase_of_mem ((List.mem_erase_of_ne h12'.symm).2 m2), List.length_erase_of_mem m1]
      omega
  · obtain ⟨p, q, r, e⟩ : ∃ p q r, b.vertices = [p, q, r] := by
      match hb' : b.vertices, h3, k with
      | [p, q, r], _, _ => exact ⟨p, q, r, rfl⟩
      | [], k, _ => simp at k
      | [_], k, _ => simp at k
      | [_, _], k, _ => simp at k
      | _ :: _ :: _ :: _ :: _, _, k => simp at k
    refine sidesAppear_convex hb ?_ h3 hreal
    rw [e] at ha ⊢
    intro x y z hxyz
    have : [x, y, z] = [p, q, r] := hxyz.eq_of_length rfl
    simp only [List.cons.injEq, and_true] at this
    obtain ⟨rfl, rfl, rfl⟩ := this
    have e2 : 2 * shoelace [x, y, z] = cross x y z := by
      simp only [shoelace, shoelaceFrom, cross]; ring
    linarith

/-- C74: in a domain that is a simple polygon with at most four sides, convex or not, vertices are inserted, the domain is
triangulated and refined, any number of times and in any order, with any parameters. If `triangulate` was called, the mesh
is a proper triangulation of the polygon. -/
theorem C74_mesh {dist : Vertex K → Vertex K → K} {b : Polyline (Vertex K)} {T : Triangulator K} {l : List (Request K)}
    (hb : b.opened = false) (hs : SimplePolygon b.vertices) (ha : 0 < shoelace b.vertices) (h4 : b.vertices.length ≤ 4)
    (hreal : ∀ v ∈ b.vertices, v.isGhost = false) (h : Session 0 dist (Triangulator.new b) l T) (hl : PlainCalls l)
    (ht : Request.triangulate ∈ l) : Proper b T.mesh :=
  C65_mesh_partial hb hs ha hreal h hl (sidesAppear_four hb hs ha hreal h4) ht

/-- C74: no further call of this kind panics. -/
theorem C74_safe {dist : Vertex K → Vertex K → K} {b : Polyline (Vertex K)} {T : Triangulator K} {l : List (Request K)}
    (hb : b.opened = false) (hs : SimplePolygon b.vertices) (ha : 0 < shoelace b.vertices) (h4 : b.vertices.length ≤ 4)
    (hreal : ∀ v ∈ b.vertices, v.isGhost = false) (h : Session 0 dist (Triangulator.new b) l T) (hl : PlainCalls l)
    (fuel : Nat) (σ : Sched) {q : Request K} (hq : PlainCalls [q]) : T.perform 0 fuel dist σ q ≠ .panic :=
  C65_safe_partial hb hs ha hreal h hl (sidesAppear_four hb hs ha hreal h4) fuel σ hq

/-- C74: after any calls of this kind, `triangulate` returns, for every order of the hash tables. -/
theorem C74_returns {dist : Vertex K → Vertex K → K} {b : Polyline (Vertex K)} {T : Triangulator K} {l : List (Request K)}
    (hb : b.opened = false) (hs : SimplePolygon b.vertices) (ha : 0 < shoelace b.vertices) (h4 : b.vertices.length ≤ 4)
    (hreal : ∀ v ∈ b.vertices, v.isGhost = false) (h : Session 0 dist (Triangulator.new b) l T) (hl : PlainCalls l) :
    ∃ n, ∀ fuel, n ≤ fuel → ∀ σ, ∃ T', T.triangulate 0 fuel σ = .ok T' := by
  have hin := sidesAppear_four hb hs ha hreal h4
  obtain ⟨k1, -⟩ := Kept.session hb hs ha hreal ⟨bare_new b, Or.inl rfl⟩ h hl fun _ => hin
  exact k1.bare.returns hb hs ha hreal hin

/-- C74, the numbers: the mesh has twice as many triangles as vertices, less the number of vertices on the boundary, less
two. -/
theorem C74_number {dist : Vertex K → Vertex K → K} {b : Polyline (Vertex K)} {T : Triangulator K} {l : List (Request K)}
    {V B : Finset (Vertex K)} (hb : b.opened = false) (hs : SimplePolygon b.vertices) (ha : 0 < shoelace b.vertices)
    (h4 : b.vertices.length ≤ 4) (hreal : ∀ v ∈ b.vertices, v.isGhost = false)
    (h : Session 0 dist (Triangulator.new b) l T) (hl : PlainCalls l) (ht : Request.triangulate ∈ l)
    (hV : VerticesAre T.mesh.tris V) (hB : RimIs b.vertices T.mesh.tris B) :
    numberOfFaces T.mesh.tris + B.card + 2 = 2 * V.card :=
  C73_mesh_partial hb hs ha hreal h hl (sidesAppear_four hb hs ha hreal h4) ht hV hB

/-- C74, the program: an input with one included polygon with at most four sides and vertices. The triangles that are
written are a partition of the polygon with the Delaunay property. -/
theorem C74_program {fuel : Nat} {F : CircleFns K} {dist : Vertex K → Vertex K → K} {σ : Sched} {i : Input K}
    {out : Output (Vertex K)} {b : List (Vertex K)}
    (hinc : (i.actions.filter fun a => decide (a.intent = "include")).filterMap (polygonOf F) = [b])
    (hrem : ∀ a ∈ i.actions, a.intent ≠ "remove") (hseg : ∀ a ∈ i.actions, a.geometry ≠ "segments")
    (hs : SimplePolygon b) (ha : 0 < shoelace b) (h2 : 2 ≤ b.length) (h4 : b.length ≤ 4)
    (hreal : ∀ v ∈ b, v.isGhost = false) (h : runProgram 0 fuel F dist σ i = .ok out) :
    ∃ order : List (Tri (Vertex K)), order.Nodup ∧ Lists out order (fun v => ∃ t ∈ order, IsCorner t v) ∧
      (∀ t ∈ order, Face t ∧ ∀ w, Inner t w → InsidePolygon b w) ∧
      (∀ w, InsidePolygon b w → ∃ t ∈ order, InOrOn t w) ∧
      (∀ s ∈ order, ∀ t ∈ order, ∀ w, Inner s w → Inner t w → s = t) ∧
      DelaunayInside b order := by
  let B : Polyline (Vertex K) := ⟨b, false, h2⟩
  obtain ⟨-, d, T, T1, T2, order, hd, h1, h2, -⟩ := C61_output h
  obtain ⟨hvs, hdd⟩ := single_domain (b := B) hd hinc hrem hseg rfl
  rw [hdd] at h1
  obtain ⟨T0, h0⟩ := ((bare_new B).insert rfl hvs (buildTriangulator_plain h1)).alone h2
  exact C61_partition_partial (b := B) hinc hrem hseg rfl hs ha hreal h0
    (sidesAppear_four (b := B) rfl hs ha hreal h4 _ _ _ h0) h

namespace QuadExample

open ValidityExample

/-- A quadrilateral that is not convex. -/
def arrow : Polyline (Vertex ℚ) := ⟨[pt 0 0, pt 8 0, pt 2 2, pt 0 8], false, by decide⟩

open UniqueExample in
/-- C74 applies to a quadrilateral with a reflex corner: with three vertices inside it gets eight triangles. -/
example : ∃ T T1, (Triangulator.new arrow).insertVertices 0 (order 0) [pt 1 1, pt 4 1, pt 1 4] = .ok T ∧
    T.triangulate 0 60 (order 3) = .ok T1 ∧ Proper arrow T1.mesh ∧ numberOfFaces T1.mesh.tris = 8 := by
  have hs : SimplePolygon arrow.vertices := simple_of_check (by decide +kernel)
  have ha : 0 < shoelace arrow.vertices := by decide +kernel
  have hr : ∀ v ∈ arrow.vertices, v.isGhost = false := by decide +kernel
  have hi := stored_ok (b := arrow) (vs := [pt 1 1, pt 4 1, pt 1 4]) (by decide +kernel)
  obtain ⟨T', h', e'⟩ := ok_of_finished (σ := order 3) (T := stored arrow [pt 1 1, pt 4 1, pt 1 4]) (by decide +kernel)
  have call : Session 0 (fun _ _ => 0) (Triangulator.new arrow) [Request.vertices [pt 1 1, pt 4 1, pt 1 4]]
      (stored arrow [pt 1 1, pt 4 1, pt 1 4]) := by
    refine Session.accepted (l := []) (fuel := 0) (σ := order 0) .start ?_
    simp only [Triangulator.perform, hi]
  have call2 : Session 0 (fun _ _ => 0) (Triangulator.new arrow) [Request.vertices [pt 1 1, pt 4 1, pt 1 4], .triangulate] T' := by
    refine Session.accepted (l := [Request.vertices [pt 1 1, pt 4 1, pt 1 4]]) (fuel := 60) (σ := order 3) call ?_
    simp only [Triangulator.perform, h', Res.bind_ok]
  refine ⟨_, T', hi, h', C74_mesh rfl hs ha (by decide) hr call2 ⟨by simp, by simp, fun vs hv => ?_⟩ (by simp), ?_⟩
  · simp at hv
    subst hv
    decide +kernel
  · rw [e']
    decide +kernel

/-- A pentagon with a narrow part on both sides of its first side. -/
def pentagon5 : Polyline (Vertex ℚ) := ⟨[pt 0 0, pt 10 0, pt 5 (-1), pt 20 (-1), pt 5 1], false, by decide⟩

/-- C20 applies to two vertices on both sides of the first segment. -/
example : ∃ r, includeVertices (geoPreds (0 : ℚ) 0 none []) [] 40 (order 0)
    (Mesh.fromInitialSegment Vertex.ghost (pt 0 0) (pt 10 0)) [pt 5 (-1), pt 5 1] = .ok r ∧ InMesh r.mesh (pt 5 1) := by
  obtain ⟨r, hr, -⟩ := C19_from_segment (f := 0) (fuel := 40) (σ := order 0) (g := (Vertex.ghost : Vertex ℚ)) (a := pt 0 0)
    (b := pt 10 0) (vs := [pt 5 (-1), pt 5 1]) rfl rfl rfl (by decide +kernel) (by decide +kernel) (by decide +kernel) (by decide)
  exact ⟨r, hr, C20_two_partial rfl rfl rfl (by decide +kernel) (by decide +kernel) (by decide +kernel) (by decide +kernel)
    ⟨pt 5 1, by simp, by decide +kernel⟩ hr _ (by simp)⟩

end QuadExample

open ValidityExample QuadExample in
/-- C74 is false for five sides: a simple pentagon for which `triangulate` returns normally, with a mesh that has no triangle
except ghosts. -/
theorem C74_five_false : ∃ (b : Polyline (Vertex ℚ)) (σ : Sched) (T : Triangulator ℚ), b.opened = false ∧
    b.vertices.length = 5 ∧ SimplePolygon b.vertices ∧ 0 < shoelace b.vertices ∧
    (Triangulator.new b).triangulate 0 60 σ = .ok T ∧ ∀ t ∈ T.mesh.tris, ¬ Face t := by
  obtain ⟨T, h, e⟩ := ok_of_finished (σ := order 0) (T := Triangulator.new pentagon5) (by decide +kernel)
  refine ⟨pentagon5, order 0, T, rfl, rfl, simple_of_check (by decide +kernel), by decide +kernel, h, ?_⟩
  rw [e]
  have : ∀ t ∈ outcome (order 0) (Triangulator.new pentagon5), HasGhost t := by decide +kernel
  intro t ht hf
  rcases this t ht with k | k | k
  · exact absurd hf.1 (by simp [k])
  · exact absurd hf.2.1 (by simp [k])
  · exact absurd hf.2.2.1 (by simp [k])

end Verif.Props
