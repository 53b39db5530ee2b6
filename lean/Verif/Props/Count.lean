import Verif.Lemmas.Triangulable
import Verif.Spec.Counting
import Verif.Props.Unique

/-!
# C73: the number of triangles is determined by the number of vertices

A mesh of a simple polygon with `v` vertices, of which `r` are on the polygon, has `2 v - r - 2` triangles (`C73_mesh_partial`).
So the number of triangles after `triangulate` tells how many of the accepted vertices are missing (`C73_lost_partial`).
-/

set_option linter.unusedSectionVars false

namespace Verif.Props

open Spec

variable {K : Type*} [Field K] [LinearOrder K] [IsStrictOrderedRing K]

/-- A simple polygon has three vertices. -/
theorem three_vertices {b : Polyline (Vertex K)} (hs : SimplePolygon b.vertices) : 3 ≤ b.vertices.length := by
  obtain ⟨v1, v2, rest, hl⟩ := two_vertices b
  rw [hl] at hs ⊢
  cases rest with
  | nil => exact absurd (by simp [pairs, consecutivePairs]) (simplePolygon_back hs (v1, v2) (by simp [pairs, consecutivePairs]))
  | cons c rest => simp

/-- The number of triangles of the mesh of a polygon. -/
theorem fit_number {m l : List (Vertex K)} {M : List (Tri (Vertex K))} (hF : Fit Vertex.ghost l M) (hd : Subdivides l m)
    (hs : SimplePolygon m) (hw : WindsOnce m) (h3 : 3 ≤ m.length) {V B : Finset (Vertex K)} (hV : VerticesAre M V)
    (hB : RimIs m M B) : numberOfFaces M + B.card + 2 = 2 * V.card := by
  have hV' : ∀ p, p ∈ V ↔ ∃ t ∈ M, SolidTri t ∧ IsCorner t p := fun p => by
    rw [hV p]
    exact ⟨fun ⟨t, ht, ft, hc⟩ => ⟨t, ht, solid_iff.1 ft, hc⟩, fun ⟨t, ht, st, hc⟩ => ⟨t, ht, solid_iff.2 st, hc⟩⟩
  have hB' : ∀ p, p ∈ B ↔ p ∈ V ∧ ∃ s ∈ pairs m false, OnSegment s.1 s.2 p := fun p => by rw [hB p, hV p]
  have hmV : ∀ p ∈ m, p ∈ V := by
    intro p hp
    have hpl := hd.keeps p hp
    obtain ⟨q, hq, e⟩ := List.mem_map.1 ((pairs_snd l).mem_iff.2 hpl)
    rw [hV p, fit_vertex hF]
    exact ⟨⟨_, hF.lot.border q hq, Or.inl e.symm⟩, hF.lot.real p hpl⟩
  obtain ⟨η, hη⟩ := exists_generic V fun p hp => by
    obtain ⟨t, -, st, hc⟩ := (hV' p).1 hp
    rcases hc with rfl | rfl | rfl
    exacts [st.r1, st.r2, st.r3]
  have k1 := hF.count hd hs hw hV' hB' hη
  have k2 := cornerSum_simple m.length rfl h3 hs hw (fun v hv => hF.lot.real v (hd.keeps v hv)) (h := η) fun p hp q hq =>
    hη p (hmV p (List.mem_toFinset.1 hp)) q (hmV q (List.mem_toFinset.1 hq))
  obtain ⟨s, -, e1, e2⟩ := (k1.and k2).exists
  rw [e2] at e1
  unfold numberOfFaces
  have e : ((M.countP fun t => decide (¬ HasGhost t) : ℕ) : ℤ) + B.card + 2 = 2 * V.card := by rw [e1]; ring
  exact_mod_cast e

theorem Kept.number {b : Polyline (Vertex K)} {T : Triangulator K} (hb : b.opened = false) (hs : SimplePolygon b.vertices)
    (ha : 0 < shoelace b.vertices) (hT : Kept b T) (hne : T.mesh.tris ≠ []) {V B : Finset (Vertex K)}
    (hV : VerticesAre T.mesh.tris V) (hB : RimIs b.vertices T.mesh.tris B) :
    numberOfFaces T.mesh.tris + B.card + 2 = 2 * V.card := by
  rcases hT.mesh with k | ⟨-, l, hP⟩
  · exact absurd k hne
  · exact fit_number hP.fit hP.sub hs (windsOnce hb hs ha) (three_vertices hs) hV hB

/-- C73 (part): in a domain, vertices are inserted, the domain is triangulated and refined, any number of times and in any
order, with any parameters. If `triangulate` was called, the mesh has twice as many triangles as vertices, less the number of
vertices on the boundary, less two. Missing: holes and segments, and domains whose sides do not appear when they are
triangulated alone. -/
theorem C73_mesh_partial {dist : Vertex K → Vertex K → K} {b : Polyline (Vertex K)} {T : Triangulator K}
    {l : List (Request K)} {V B : Finset (Vertex K)} (hb : b.opened = false) (hs : SimplePolygon b.vertices)
    (ha : 0 < shoelace b.vertices) (hreal : ∀ v ∈ b.vertices, v.isGhost = false)
    (h : Session 0 dist (Triangulator.new b) l T) (hl : PlainCalls l) (hin : SidesAppear b) (ht : Request.triangulate ∈ l)
    (hV : VerticesAre T.mesh.tris V) (hB : RimIs b.vertices T.mesh.tris B) :
    numberOfFaces T.mesh.tris + B.card + 2 = 2 * V.card := by
  obtain ⟨k1, k2⟩ := Kept.session hb hs ha hreal ⟨bare_new b, Or.inl rfl⟩ h hl fun _ => hin
  exact k1.number hb hs ha (k2 (Or.inr ht)) hV hB

/-- C73: the same for strictly convex domains, without a condition on the sides. -/
theorem C73_convex {dist : Vertex K → Vertex K → K} {b : Polyline (Vertex K)} {T : Triangulator K}
    {l : List (Request K)} {V B : Finset (Vertex K)} (hb : b.opened = false) (hc : StrictlyConvex b.vertices)
    (h3 : 3 ≤ b.vertices.length) (hreal : ∀ v ∈ b.vertices, v.isGhost = false)
    (h : Session 0 dist (Triangulator.new b) l T) (hl : PlainCalls l) (ht : Request.triangulate ∈ l)
    (hV : VerticesAre T.mesh.tris V) (hB : RimIs b.vertices T.mesh.tris B) :
    numberOfFaces T.mesh.tris + B.card + 2 = 2 * V.card :=
  C73_mesh_partial hb (hc.simple h3) (hc.area h3) hreal h hl (sidesAppear_convex hb hc h3 hreal) ht hV hB

/-- C73 (part): the number of triangles is between the number of vertices less two and twice the number of vertices less
five. -/
theorem C73_bounds_partial {dist : Vertex K → Vertex K → K} {b : Polyline (Vertex K)} {T : Triangulator K}
    {l : List (Request K)} {V : Finset (Vertex K)} (hb : b.opened = false) (hs : SimplePolygon b.vertices)
    (ha : 0 < shoelace b.vertices) (hreal : ∀ v ∈ b.vertices, v.isGhost = false)
    (h : Session 0 dist (Triangulator.new b) l T) (hl : PlainCalls l) (hin : SidesAppear b) (ht : Request.triangulate ∈ l)
    (hV : VerticesAre T.mesh.tris V) :
    V.card ≤ numberOfFaces T.mesh.tris + 2 ∧ numberOfFaces T.mesh.tris + 5 ≤ 2 * V.card := by
  classical
  have hB : RimIs b.vertices T.mesh.tris (V.filter fun p => ∃ s ∈ pairs b.vertices false, OnSegment s.1 s.2 p) := by
    intro p
    rw [Finset.mem_filter, hV p]
  have key := C73_mesh_partial hb hs ha hreal h hl hin ht hV hB
  have h1 := Finset.card_filter_le V fun p => ∃ s ∈ pairs b.vertices false, OnSegment s.1 s.2 p
  obtain ⟨k1, k2⟩ := Kept.session hb hs ha hreal ⟨bare_new b, Or.inl rfl⟩ h hl fun _ => hin
  have h2 : 3 ≤ (V.filter fun p => ∃ s ∈ pairs b.vertices false, OnSegment s.1 s.2 p).card := by
    refine (three_vertices hs).trans ?_
    rw [← List.toFinset_card_of_nodup (simplePolygon_nodup hs)]
    refine Finset.card_le_card fun p hp => ?_
    rw [List.mem_toFinset] at hp
    rcases k1.mesh with k | ⟨-, l, hP⟩
    · exact absurd k (k2 (Or.inr ht))
    · obtain ⟨q, hq, e⟩ := List.mem_map.1 ((pairs_snd b.vertices).mem_iff.2 hp)
      have hpl := hP.sub.keeps p hp
      obtain ⟨q', hq', e'⟩ := List.mem_map.1 ((pairs_snd l).mem_iff.2 hpl)
      refine (hB p).2 ⟨(fit_vertex hP.fit).2 ⟨⟨_, hP.fit.lot.border q' hq', Or.inl e'.symm⟩, hreal p hp⟩, q, hq, ?_⟩
      rw [← e]
      exact onSegment_right _ _
  omega

/-- C73 (part), `triangulate`: a polygon with `n` sides and `k` accepted vertices that appear in the mesh has `n + 2 k - 2`
triangles. -/
theorem C73_triangulate_partial {dist : Vertex K → Vertex K → K} {b : Polyline (Vertex K)} {T T1 : Triangulator K}
    {l : List (Request K)} {fuel : Nat} {σ : Sched} {A : Finset (Vertex K)} (hb : b.opened = false)
    (hs : SimplePolygon b.vertices) (ha : 0 < shoelace b.vertices) (hreal : ∀ v ∈ b.vertices, v.isGhost = false)
    (hin : SidesAppear b) (h : Session 0 dist (Triangulator.new b) l T) (hl : PlainCalls l)
    (h1 : T.triangulate 0 fuel σ = .ok T1) (hA : ∀ v, v ∈ A ↔ v ∈ T.vertices ∧ VertexOf T1.mesh.tris v) :
    numberOfFaces T1.mesh.tris + 2 = b.vertices.length + 2 * A.card := by
  obtain ⟨q, -⟩ := Kept.session hb hs ha hreal ⟨bare_new b, Or.inl rfl⟩ h hl fun _ => hin
  obtain ⟨T0, h0⟩ := q.bare.alone h1
  obtain ⟨m1, n1⟩ := q.bare.triangulate hb hs ha hreal h0 (hin _ _ _ h0) h1
  obtain ⟨a1, a2, a3⟩ := q.bare.mesh_vertices hb hs ha hreal h0 (hin _ _ _ h0) h1
  have hoff : ∀ v ∈ T.vertices, ∀ s ∈ pairs b.vertices false, ¬ OnSegment s.1 s.2 v := fun v hv => (q.bare.inside v hv).2.1
  have on : ∀ v ∈ b.vertices, ∃ s ∈ pairs b.vertices false, OnSegment s.1 s.2 v := by
    intro v hv
    obtain ⟨q, hq, e⟩ := List.mem_map.1 ((pairs_snd b.vertices).mem_iff.2 hv)
    exact ⟨q, hq, by rw [← e]; exact onSegment_right _ _⟩
  have hdis : Disjoint b.vertices.toFinset A := by
    rw [Finset.disjoint_left]
    intro v hv hvA
    obtain ⟨s, hs', ho⟩ := on v (List.mem_toFinset.1 hv)
    exact hoff v ((hA v).1 hvA).1 s hs' ho
  have hV : VerticesAre T1.mesh.tris (b.vertices.toFinset ∪ A) := by
    intro p
    rw [Finset.mem_union, List.mem_toFinset, hA p]
    constructor
    · rintro (k | ⟨-, k⟩)
      exacts [a2 p k, (a3 p).2 k]
    · intro k
      rcases a1 p k with k' | k'
      exacts [Or.inl k', Or.inr ⟨k', (a3 p).1 k⟩]
  have hB : RimIs b.vertices T1.mesh.tris b.vertices.toFinset := by
    intro p
    rw [List.mem_toFinset]
    constructor
    · exact fun k => ⟨a2 p k, on p k⟩
    · rintro ⟨k, s, hs', ho⟩
      rcases a1 p k with k' | k'
      · exact k'
      · exact absurd ho (hoff p k' s hs')
  have key := m1.number hb hs ha n1 hV hB
  rw [Finset.card_union_of_disjoint hdis, List.toFinset_card_of_nodup (simplePolygon_nodup hs)] at key
  omega

/-- C73 (part): no accepted vertex is missing from the mesh that `triangulate` makes if and only if the number of triangles
is the number of sides, plus twice the number of accepted vertices, less two. -/
theorem C73_lost_partial {dist : Vertex K → Vertex K → K} {b : Polyline (Vertex K)} {T T1 : Triangulator K}
    {l : List (Request K)} {fuel : Nat} {σ : Sched} (hb : b.opened = false)
    (hs : SimplePolygon b.vertices) (ha : 0 < shoelace b.vertices) (hreal : ∀ v ∈ b.vertices, v.isGhost = false)
    (hin : SidesAppear b) (h : Session 0 dist (Triangulator.new b) l T) (hl : PlainCalls l)
    (h1 : T.triangulate 0 fuel σ = .ok T1) :
    (∀ v ∈ T.vertices, VertexOf T1.mesh.tris v) ↔
      numberOfFaces T1.mesh.tris + 2 = b.vertices.length + 2 * T.vertices.length := by
  classical
  obtain ⟨q, -⟩ := Kept.session hb hs ha hreal ⟨bare_new b, Or.inl rfl⟩ h hl fun _ => hin
  have key := C73_triangulate_partial hb hs ha hreal hin h hl h1
    (A := T.vertices.toFinset.filter fun v => VertexOf T1.mesh.tris v) (fun v => by rw [Finset.mem_filter, List.mem_toFinset])
  rw [key, ← List.toFinset_card_of_nodup q.bare.nodup]
  constructor
  · intro hall
    rw [Finset.filter_true_of_mem fun v hv => hall v (List.mem_toFinset.1 hv)]
  · intro e v hv
    have : T.vertices.toFinset.filter (fun v => VertexOf T1.mesh.tris v) = T.vertices.toFinset :=
      Finset.eq_of_subset_of_card_le (Finset.filter_subset _ _) (by omega)
    exact (Finset.mem_filter.1 (this ▸ List.mem_toFinset.2 hv)).2

namespace CountExample

open ValidityExample UniqueExample

/-- C73 applies to the quadrilateral with six vertices: all of them are in the mesh, with 14 triangles, for one order of the
hash tables, and one is missing, with 12 triangles, for another. -/
example : ∃ T1 T2, (stored quad six).triangulate 0 60 (order 0) = .ok T1 ∧ (stored quad six).triangulate 0 60 (order 2) = .ok T2 ∧
    numberOfFaces T1.mesh.tris = 14 ∧ numberOfFaces T2.mesh.tris = 12 ∧
    (∀ v ∈ (stored quad six).vertices, VertexOf T1.mesh.tris v) ∧ ¬ ∀ v ∈ (stored quad six).vertices, VertexOf T2.mesh.tris v := by
  obtain ⟨T1, h1, e1⟩ := outcome_ok six0_eq (by decide)
  obtain ⟨T2, h2, e2⟩ := outcome_ok six2_eq (by decide)
  have hr : ∀ v ∈ quad.vertices, v.isGhost = false := by decide +kernel
  have hs := quad_convex.simple (by decide)
  have call : Session 0 (fun _ _ => 0) (Triangulator.new quad) [Request.vertices six] (stored quad six) := by
    refine Session.accepted (l := []) (fuel := 0) (σ := order 0) .start ?_
    simp only [Triangulator.perform, stored_ok (b := quad) (vs := six) (by decide +kernel)]
  have plain : PlainCalls [Request.vertices six] := by
    refine ⟨by simp, by simp, fun vs hv => ?_⟩
    simp only [List.mem_singleton, Request.vertices.injEq] at hv
    subst hv
    decide +kernel
  have f1 : numberOfFaces T1.mesh.tris = 14 := by rw [e1]; decide +kernel
  have f2 : numberOfFaces T2.mesh.tris = 12 := by rw [e2]; decide +kernel
  have n : (stored quad six).vertices.length = 6 := by decide +kernel
  have n4 : quad.vertices.length = 4 := rfl
  have ha := quad_convex.area (by decide)
  have hin := sidesAppear_convex rfl quad_convex (by decide) hr
  refine ⟨T1, T2, h1, h2, f1, f2, (C73_lost_partial rfl hs ha hr hin call plain h1).2 ?_, fun k => ?_⟩
  · rw [f1, n, n4]
  · have := (C73_lost_partial rfl hs ha hr hin call plain h2).1 k
    rw [f2, n, n4] at this
    omega

/-- C73 applies to the mesh of the square with two vertices: six vertices, four on the boundary, and six triangles. -/
example : numberOfFaces two0 = 6 ∧ VerticesAre two0 {pt 0 0, pt 4 0, pt 4 4, pt 0 4, pt 1 2, pt 3 2} ∧
    6 + ({pt 0 0, pt 4 0, pt 4 4, pt 0 4} : Finset (Vertex ℚ)).card + 2 =
      2 * ({pt 0 0, pt 4 0, pt 4 4, pt 0 4, pt 1 2, pt 3 2} : Finset (Vertex ℚ)).card := by
  refine ⟨by decide +kernel, fun p => ⟨fun hp => ?_, ?_⟩, by decide +kernel⟩
  · have key : ∀ p ∈ ({pt 0 0, pt 4 0, pt 4 4, pt 0 4, pt 1 2, pt 3 2} : Finset (Vertex ℚ)),
        ∃ t ∈ two0, Face t ∧ (p = t.v1 ∨ p = t.v2 ∨ p = t.v3) := by decide +kernel
    exact key p hp
  · rintro ⟨t, ht, ft, hc⟩
    have key : ∀ t ∈ two0, Face t → t.v1 ∈ ({pt 0 0, pt 4 0, pt 4 4, pt 0 4, pt 1 2, pt 3 2} : Finset (Vertex ℚ)) ∧
        t.v2 ∈ ({pt 0 0, pt 4 0, pt 4 4, pt 0 4, pt 1 2, pt 3 2} : Finset (Vertex ℚ)) ∧
        t.v3 ∈ ({pt 0 0, pt 4 0, pt 4 4, pt 0 4, pt 1 2, pt 3 2} : Finset (Vertex ℚ)) := by decide +kernel
    obtain ⟨k1, k2, k3⟩ := key t ht ft
    rcases hc with rfl | rfl | rfl
    exacts [k1, k2, k3]

end CountExample

end Verif.Props
