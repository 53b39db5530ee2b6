import Verif.Lemmas.Unique
import Verif.Props.Convex

/-!
# C72: the mesh does not depend on the order of the hash tables

The triangles are determined by the vertices of the mesh, if no four of them lie on a circle (`C72_mesh_partial`); when some
do, triangles that overlap have the same circumscribed circle (`C72_circles`). Which vertices are in the mesh may depend on
the order of the hash tables (`C72_lost_false`), but not when no vertex, or one, was accepted (`C72_one_partial`).
-/

set_option linter.unusedSectionVars false

namespace Verif.Props

open Spec

variable {K : Type*} [Field K] [LinearOrder K] [IsStrictOrderedRing K]

/-- In the mesh of a domain each vertex is the corner of a triangle of the plane. -/
theorem fit_vertex {l : List (Vertex K)} {M : List (Tri (Vertex K))} (h : Fit Vertex.ghost l M) {p : Vertex K} :
    FaceVertex M p ↔ VertexOf M p := by
  constructor
  · rintro ⟨t, ht, ft, hp⟩
    refine ⟨⟨t, ht, hp⟩, ?_⟩
    rcases hp with rfl | rfl | rfl
    exacts [ft.1, ft.2.1, ft.2.2.1]
  · rintro ⟨⟨t, ht, hp⟩, hg⟩
    rcases h.lot.shape t ht with st | ⟨s, hs, rfl⟩
    · exact ⟨t, ht, solid_iff.2 st, hp⟩
    · obtain ⟨t', ht', st', hside⟩ := h.lot.side (simplePolygon_back h.poly) hs
      obtain ⟨c1, c2⟩ : IsCorner t' s.1 ∧ IsCorner t' s.2 := by
        rcases hside with ⟨e1, e2⟩ | ⟨e1, e2⟩ | ⟨e1, e2⟩
        exacts [⟨Or.inl e1, Or.inr (Or.inl e2)⟩, ⟨Or.inr (Or.inl e1), Or.inr (Or.inr e2)⟩,
          ⟨Or.inr (Or.inr e1), Or.inl e2⟩]
      rcases hp with rfl | rfl | rfl
      · exact ⟨t', ht', solid_iff.2 st', c2⟩
      · exact ⟨t', ht', solid_iff.2 st', c1⟩
      · simp [Vertex.ghost] at hg

/-- The vertices of the mesh are those of the boundary and accepted ones. -/
theorem Bare.mesh_vertices {fuel : Nat} {σ : Sched} {b : Polyline (Vertex K)} {T T0 T' : Triangulator K} (hT : Bare b T)
    (hb : b.opened = false) (hs : SimplePolygon b.vertices) (ha : 0 < shoelace b.vertices)
    (hreal : ∀ v ∈ b.vertices, v.isGhost = false) (h0 : (Triangulator.new b).triangulate 0 fuel σ = .ok T0)
    (hin : ∀ s ∈ pairs b.vertices false, ∃ t ∈ T0.mesh.tris, Face t ∧ IsSide t ⟨s.1, s.2⟩)
    (h : T.triangulate 0 fuel σ = .ok T') :
    (∀ p, FaceVertex T'.mesh.tris p → p ∈ b.vertices ∨ p ∈ T.vertices) ∧ (∀ p ∈ b.vertices, FaceVertex T'.mesh.tris p) ∧
      ∀ p, FaceVertex T'.mesh.tris p ↔ VertexOf T'.mesh.tris p := by
  obtain ⟨f1, -, -⟩ := hT.fit hb hs ha hreal h0 hin h
  obtain ⟨-, hF, k4, k5, k6, hv, he⟩ := hT.start (σ := σ) hb hs ha hreal h0 hin
  rw [he, Res.bind_eq_ok] at h
  obtain ⟨st, hst, h⟩ := h
  simp only [Res.ok.injEq] at h
  subst h
  obtain ⟨ins, hp, hmem⟩ := C15_vertices k4 hst
  refine ⟨fun p hp' => ?_, fun p hpb => ?_, fun p => fit_vertex f1⟩
  · obtain ⟨⟨t, ht, hc⟩, hg⟩ := (fit_vertex f1).1 hp'
    rcases (hmem p).1 ⟨t, ht, hc⟩ with ⟨t', ht', hc'⟩ | hi
    · left
      obtain ⟨o1, o2, o3⟩ := k6 t' ht'
      rcases hc' with rfl | rfl | rfl
      · exact o1
      · exact o2
      · rcases o3 with o3 | o3
        · exact o3
        · rw [o3] at hg
          simp [Vertex.ghost] at hg
    · right
      have := hp.mem_iff.1 (List.mem_append_left _ hi)
      exact mem_shuffle.1 (List.mem_filter.1 this).1
  · obtain ⟨q, hq, e⟩ := List.mem_map.1 ((pairs_snd b.vertices).mem_iff.2 hpb)
    refine (fit_vertex f1).2 ⟨⟨_, f1.lot.border q hq, Or.inl e.symm⟩, hreal p hpb⟩

/-- C72 (part): in a domain, vertices are inserted, the domain is triangulated and refined, any number of times and in any
order; and the same domain is meshed another time, with other calls or another order of the hash tables. If the two meshes
have the same vertices, and no four of these lie on a circle, then they have the same triangles. Missing: that the meshes
have the same vertices, which is false (`C72_lost_false`), vertices on a circle, for which it is false (`C72_false`), and
domains with holes and segments. -/
theorem C72_mesh_partial {dist dist' : Vertex K → Vertex K → K} {b : Polyline (Vertex K)} {T T' : Triangulator K}
    {l l' : List (Request K)} (hb : b.opened = false) (hs : SimplePolygon b.vertices) (ha : 0 < shoelace b.vertices)
    (hreal : ∀ v ∈ b.vertices, v.isGhost = false) (hin : SidesAppear b)
    (h : Session 0 dist (Triangulator.new b) l T) (hl : PlainCalls l) (ht : Request.triangulate ∈ l)
    (h' : Session 0 dist' (Triangulator.new b) l' T') (hl' : PlainCalls l') (ht' : Request.triangulate ∈ l')
    (hV : ∀ p, FaceVertex T.mesh.tris p ↔ FaceVertex T'.mesh.tris p) (hg : NoFourOnCircle (FaceVertex T.mesh.tris)) :
    SameFaces T.mesh.tris T'.mesh.tris :=
  proper_unique (C65_mesh_partial hb hs ha hreal h hl hin ht) (C65_mesh_partial hb hs ha hreal h' hl' hin ht') hV hg

/-- C72 (part): the same for strictly convex domains, without a condition on the sides. -/
theorem C72_convex_partial {dist dist' : Vertex K → Vertex K → K} {b : Polyline (Vertex K)} {T T' : Triangulator K}
    {l l' : List (Request K)} (hb : b.opened = false) (hc : StrictlyConvex b.vertices) (h3 : 3 ≤ b.vertices.length)
    (hreal : ∀ v ∈ b.vertices, v.isGhost = false)
    (h : Session 0 dist (Triangulator.new b) l T) (hl : PlainCalls l) (ht : Request.triangulate ∈ l)
    (h' : Session 0 dist' (Triangulator.new b) l' T') (hl' : PlainCalls l') (ht' : Request.triangulate ∈ l')
    (hV : ∀ p, FaceVertex T.mesh.tris p ↔ FaceVertex T'.mesh.tris p) (hg : NoFourOnCircle (FaceVertex T.mesh.tris)) :
    SameFaces T.mesh.tris T'.mesh.tris :=
  C72_mesh_partial hb (hc.simple h3) (hc.area h3) hreal (sidesAppear_convex hb hc h3 hreal) h hl ht h' hl' ht' hV hg

/-- C72: with any vertices, on circles or not: when two meshes of a domain have the same vertices, a triangle of one and a
triangle of the other with a common inner point have the same circumscribed circle. -/
theorem C72_circles {dist dist' : Vertex K → Vertex K → K} {b : Polyline (Vertex K)} {T T' : Triangulator K}
    {l l' : List (Request K)} (hb : b.opened = false) (hs : SimplePolygon b.vertices) (ha : 0 < shoelace b.vertices)
    (hreal : ∀ v ∈ b.vertices, v.isGhost = false) (hin : SidesAppear b)
    (h : Session 0 dist (Triangulator.new b) l T) (hl : PlainCalls l) (ht : Request.triangulate ∈ l)
    (h' : Session 0 dist' (Triangulator.new b) l' T') (hl' : PlainCalls l') (ht' : Request.triangulate ∈ l')
    (hV : ∀ p, FaceVertex T.mesh.tris p ↔ FaceVertex T'.mesh.tris p) {s t : Tri (Vertex K)} (hms : s ∈ T.mesh.tris)
    (hmt : t ∈ T'.mesh.tris) (hgs : ¬ HasGhost s) (hgt : ¬ HasGhost t) {w : Vertex K} (hws : Inner s w) (hwt : Inner t w) :
    ∃ o, ∀ p q, IsCorner s p ∨ IsCorner t p → IsCorner s q ∨ IsCorner t q → dist2 o p = dist2 o q := by
  have k := C65_mesh_partial hb hs ha hreal h hl hin ht
  have k' := C65_mesh_partial hb hs ha hreal h' hl' hin ht'
  obtain ⟨fs, is⟩ := k.inside s hms hgs
  obtain ⟨ft, it⟩ := k'.inside t hmt hgt
  obtain ⟨o, ho⟩ := face_center fs
  obtain ⟨o', ho'⟩ := face_center ft
  obtain ⟨-, k2⟩ := common_circle k.delaunay k'.delaunay hV hms hmt fs ft is it hws hwt ho ho'
  have key : ∀ p, IsCorner s p ∨ IsCorner t p → dist2 o p = dist2 o s.v1 := by
    rintro p ((rfl | rfl | rfl) | hp)
    exacts [rfl, ho.1.symm, ho.2.symm, (k2 p hp).symm]
  exact ⟨o, fun p q hp hq => (key p hp).trans (key q hq).symm⟩

/-- C72 (part), `triangulate`: two triangulators of the same domain, with the same vertices stored, possibly in another order
and after other calls. If each stored vertex appears in both meshes, and no four vertices lie on a circle, then
`triangulate` gives the same triangles, whatever the order of the hash tables. -/
theorem C72_stored_partial {dist dist' : Vertex K → Vertex K → K} {b : Polyline (Vertex K)}
    {T T' T1 T1' : Triangulator K} {l l' : List (Request K)} {fuel fuel' : Nat} {σ σ' : Sched} (hb : b.opened = false)
    (hs : SimplePolygon b.vertices) (ha : 0 < shoelace b.vertices) (hreal : ∀ v ∈ b.vertices, v.isGhost = false)
    (hin : SidesAppear b) (h : Session 0 dist (Triangulator.new b) l T) (hl : PlainCalls l)
    (h' : Session 0 dist' (Triangulator.new b) l' T') (hl' : PlainCalls l')
    (hV : ∀ v, v ∈ T.vertices ↔ v ∈ T'.vertices)
    (hg : NoFourOnCircle fun p => p ∈ b.vertices ∨ p ∈ T.vertices) (h1 : T.triangulate 0 fuel σ = .ok T1)
    (h1' : T'.triangulate 0 fuel' σ' = .ok T1') (hk : ∀ v ∈ T.vertices, VertexOf T1.mesh.tris v)
    (hk' : ∀ v ∈ T.vertices, VertexOf T1'.mesh.tris v) : SameFaces T1.mesh.tris T1'.mesh.tris := by
  obtain ⟨q1, -⟩ := Kept.session hb hs ha hreal ⟨bare_new b, Or.inl rfl⟩ h hl fun _ => hin
  obtain ⟨q2, -⟩ := Kept.session hb hs ha hreal ⟨bare_new b, Or.inl rfl⟩ h' hl' fun _ => hin
  obtain ⟨T0, h0⟩ := q1.bare.alone h1
  obtain ⟨T0', h0'⟩ := q2.bare.alone h1'
  obtain ⟨m1, n1⟩ := q1.bare.triangulate hb hs ha hreal h0 (hin _ _ _ h0) h1
  obtain ⟨m2, n2⟩ := q2.bare.triangulate hb hs ha hreal h0' (hin _ _ _ h0') h1'
  obtain ⟨a1, a2, a3⟩ := q1.bare.mesh_vertices hb hs ha hreal h0 (hin _ _ _ h0) h1
  obtain ⟨b1, b2, b3⟩ := q2.bare.mesh_vertices hb hs ha hreal h0' (hin _ _ _ h0') h1'
  refine proper_unique (m1.proper n1) (m2.proper n2) (fun p => ⟨fun hp => ?_, fun hp => ?_⟩) ?_
  · rcases a1 p hp with k | k
    exacts [b2 p k, (b3 p).2 (hk' p k)]
  · rcases b1 p hp with k | k
    exacts [a2 p k, (a3 p).2 (hk p ((hV p).2 k))]
  · intro o a b c d ha hb hc hd
    exact hg o a b c d (a1 a ha) (a1 b hb) (a1 c hc) (a1 d hd)

/-- C72 (part), the triangulation of a polygon, of which no four corners are on a circle, does not depend on the order of
the hash tables. -/
theorem C72_polygon_partial {b : Polyline (Vertex K)} {T T' : Triangulator K} {fuel fuel' : Nat} {σ σ' : Sched}
    (hb : b.opened = false) (hs : SimplePolygon b.vertices) (ha : 0 < shoelace b.vertices)
    (hreal : ∀ v ∈ b.vertices, v.isGhost = false) (hin : SidesAppear b) (hg : NoFourOnCircle (· ∈ b.vertices))
    (h : (Triangulator.new b).triangulate 0 fuel σ = .ok T)
    (h' : (Triangulator.new b).triangulate 0 fuel' σ' = .ok T') : SameFaces T.mesh.tris T'.mesh.tris :=
  C72_stored_partial (dist := fun _ _ => 0) (dist' := fun _ _ => 0) (l := []) (l' := []) hb hs ha hreal hin .start
    ⟨by simp, by simp, by simp⟩ .start ⟨by simp, by simp, by simp⟩ (fun _ => Iff.rfl)
    (by simpa [Triangulator.new] using hg) h h' (by simp [Triangulator.new]) (by simp [Triangulator.new])

/-- C72 (part), the same with one vertex that was accepted. -/
theorem C72_one_partial {b : Polyline (Vertex K)} {v : Vertex K} {T T1 T' T1' : Triangulator K} {fuel fuel' : Nat}
    {σ σ' τ τ' : Sched} (hb : b.opened = false) (hs : SimplePolygon b.vertices) (ha : 0 < shoelace b.vertices)
    (hreal : ∀ v ∈ b.vertices, v.isGhost = false) (hin : SidesAppear b) (hv : v.isGhost = false)
    (hg : NoFourOnCircle fun p => p ∈ b.vertices ∨ p = v)
    (hi : (Triangulator.new b).insertVertices 0 τ [v] = .ok T) (h : T.triangulate 0 fuel σ = .ok T1)
    (hi' : (Triangulator.new b).insertVertices 0 τ' [v] = .ok T') (h' : T'.triangulate 0 fuel' σ' = .ok T1') :
    SameFaces T1.mesh.tris T1'.mesh.tris := by
  have hvs : ∀ w ∈ [v], w.isGhost = false := by simpa using hv
  obtain ⟨T0, h0⟩ := ((bare_new b).insert hb hvs hi).alone h
  obtain ⟨T0', h0'⟩ := ((bare_new b).insert hb hvs hi').alone h'
  have k := C58_one_partial hb hs ha hreal hv hi h0 (hin _ _ _ h0) h
  have k' := C58_one_partial hb hs ha hreal hv hi' h0' (hin _ _ _ h0') h'
  have m : ∀ w, w ∈ T.vertices ↔ w = v := by
    obtain ⟨-, -, -, -, hm, -⟩ := insert_into_boundary hb hvs hi
    simpa using hm
  have m' : ∀ w, w ∈ T'.vertices ↔ w = v := by
    obtain ⟨-, -, -, -, hm, -⟩ := insert_into_boundary hb hvs hi'
    simpa using hm
  have call : ∀ {τ : Sched} {T : Triangulator K}, (Triangulator.new b).insertVertices 0 τ [v] = .ok T →
      Session 0 (fun _ _ => 0) (Triangulator.new b) [Request.vertices [v]] T := by
    intro τ T hi
    refine Session.accepted (l := []) (fuel := 0) (σ := τ) .start ?_
    simp only [Triangulator.perform, hi]
  have plain : PlainCalls [Request.vertices [v]] := ⟨by simp, by simp, by simpa using hv⟩
  exact C72_stored_partial hb hs ha hreal hin (call hi) plain (call hi') plain (fun w => (m w).trans (m' w).symm)
    (by simpa [m] using hg) h h' (fun w hw => (m w).1 hw ▸ k) fun w hw => (m w).1 hw ▸ k'

theorem noFour_of_check {l : List (Vertex K)}
    (h : ∀ a ∈ l, ∀ b ∈ l, a ≠ b → ∀ c ∈ l, a ≠ c → b ≠ c → ∀ d ∈ l, a ≠ d → b ≠ d → c ≠ d → circleDet a b c d ≠ 0) :
    NoFourOnCircle (· ∈ l) := by
  intro o a b c d ha hb hc hd h1 h2 h3 h4 h5 h6 ⟨e1, e2, e3⟩
  refine h a ha b hb h1 c hc h2 h4 d hd h3 h5 h6 ?_
  rw [circleDet_eq ⟨e1, e2⟩, e3, sub_self, mul_zero]

namespace UniqueExample

open ValidityExample

/-- A quadrilateral whose corners are not on a circle. -/
def quad : Polyline (Vertex ℚ) := ⟨[pt 0 0, pt 4 0, pt (17 / 4) 4, pt 0 4], false, by decide⟩

def six : List (Vertex ℚ) := [pt (27 / 10) (7 / 10), pt (9 / 5) (6 / 5), pt (4 / 5) (8 / 5), pt (7 / 10) (21 / 10),
  pt (37 / 10) (13 / 5), pt (14 / 5) (11 / 5)]

def stored (b : Polyline (Vertex ℚ)) (vs : List (Vertex ℚ)) : Triangulator ℚ :=
  match (Triangulator.new b).insertVertices 0 (order 0) vs with
  | .ok T => T
  | .err T _ => T

theorem six_general : NoFourOnCircle (· ∈ quad.vertices ++ six) := noFour_of_check (by decide +kernel)

theorem stored_ok {b : Polyline (Vertex ℚ)} {vs : List (Vertex ℚ)} (h : ∀ v ∈ vs, b.contains 0 v = some .inside) :
    (Triangulator.new b).insertVertices 0 (order 0) vs = .ok (stored b vs) := by
  obtain ⟨T, h⟩ := (C22_ok_iff 0 (order 0) (Triangulator.new b) vs).2 fun v hv => ⟨h v hv, by simp [Triangulator.new]⟩
  rw [stored, h]

instance : DecidablePred (Face (K := ℚ)) := fun t => by unfold Face; infer_instance

instance (s t : Tri (Vertex ℚ)) : Decidable (SameTriangle s t) := by unfold SameTriangle; infer_instance

theorem quad_convex : StrictlyConvex quad.vertices := strictlyConvex_of_check (by decide +kernel)

theorem outcome_ok {σ : Sched} {T : Triangulator ℚ} {M : List (Tri (Vertex ℚ))} (h : outcome σ T = M) (hn : M ≠ []) :
    ∃ T', T.triangulate 0 60 σ = .ok T' ∧ T'.mesh.tris = M := by
  unfold outcome at h
  match hT : T.triangulate 0 60 σ with
  | .ok T' => rw [hT] at h; exact ⟨T', rfl, h⟩
  | .panic => rw [hT] at h; exact absurd h.symm hn
  | .diverged => rw [hT] at h; exact absurd h.symm hn

def six0 : List (Tri (Vertex ℚ)) :=
  [⟨pt (7 / 10) (21 / 10), pt (9 / 5) (6 / 5), pt (14 / 5) (11 / 5)⟩,
   ⟨pt (9 / 5) (6 / 5), pt (27 / 10) (7 / 10), pt (14 / 5) (11 / 5)⟩,
   ⟨pt (27 / 10) (7 / 10), pt (37 / 10) (13 / 5), pt (14 / 5) (11 / 5)⟩,
   ⟨pt 0 4, pt (7 / 10) (21 / 10), pt (14 / 5) (11 / 5)⟩, ⟨pt (17 / 4) 4, pt 0 4, pt (14 / 5) (11 / 5)⟩,
   ⟨pt (37 / 10) (13 / 5), pt (17 / 4) 4, pt (14 / 5) (11 / 5)⟩, ⟨pt 4 0, pt (17 / 4) 4, pt (37 / 10) (13 / 5)⟩,
   ⟨pt (27 / 10) (7 / 10), pt 4 0, pt (37 / 10) (13 / 5)⟩, ⟨pt 0 4, pt 0 0, pt (7 / 10) (21 / 10)⟩,
   ⟨pt 0 0, pt (4 / 5) (8 / 5), pt (7 / 10) (21 / 10)⟩,
   ⟨pt (4 / 5) (8 / 5), pt (9 / 5) (6 / 5), pt (7 / 10) (21 / 10)⟩, ⟨pt 0 0, pt (9 / 5) (6 / 5), pt (4 / 5) (8 / 5)⟩,
   ⟨pt 0 0, pt 4 0, pt (27 / 10) (7 / 10)⟩, ⟨pt (9 / 5) (6 / 5), pt 0 0, pt (27 / 10) (7 / 10)⟩,
   ⟨pt 4 0, pt 0 0, Vertex.ghost⟩, ⟨pt (17 / 4) 4, pt 4 0, Vertex.ghost⟩, ⟨pt 0 4, pt (17 / 4) 4, Vertex.ghost⟩,
   ⟨pt 0 0, pt 0 4, Vertex.ghost⟩]

theorem six0_eq : outcome (order 0) (stored quad six) = six0 := by decide +kernel

def six1 : List (Tri (Vertex ℚ)) :=
  [⟨pt (7 / 10) (21 / 10), pt 0 0, pt (4 / 5) (8 / 5)⟩, ⟨pt 0 0, pt (9 / 5) (6 / 5), pt (4 / 5) (8 / 5)⟩,
   ⟨pt (9 / 5) (6 / 5), pt (7 / 10) (21 / 10), pt (4 / 5) (8 / 5)⟩, ⟨pt 4 0, pt (17 / 4) 4, pt (37 / 10) (13 / 5)⟩,
   ⟨pt (17 / 4) 4, pt (14 / 5) (11 / 5), pt (37 / 10) (13 / 5)⟩,
   ⟨pt (14 / 5) (11 / 5), pt (27 / 10) (7 / 10), pt (37 / 10) (13 / 5)⟩,
   ⟨pt (27 / 10) (7 / 10), pt 4 0, pt (37 / 10) (13 / 5)⟩, ⟨pt 0 0, pt 4 0, pt (27 / 10) (7 / 10)⟩,
   ⟨pt (14 / 5) (11 / 5), pt (9 / 5) (6 / 5), pt (27 / 10) (7 / 10)⟩,
   ⟨pt (9 / 5) (6 / 5), pt 0 0, pt (27 / 10) (7 / 10)⟩, ⟨pt (17 / 4) 4, pt 0 4, pt (14 / 5) (11 / 5)⟩,
   ⟨pt 0 4, pt (7 / 10) (21 / 10), pt (14 / 5) (11 / 5)⟩,
   ⟨pt (7 / 10) (21 / 10), pt (9 / 5) (6 / 5), pt (14 / 5) (11 / 5)⟩, ⟨pt 0 4, pt 0 0, pt (7 / 10) (21 / 10)⟩,
   ⟨pt 4 0, pt 0 0, Vertex.ghost⟩, ⟨pt 0 4, pt (17 / 4) 4, Vertex.ghost⟩, ⟨pt (17 / 4) 4, pt 4 0, Vertex.ghost⟩,
   ⟨pt 0 0, pt 0 4, Vertex.ghost⟩]

theorem six1_eq : outcome (order 1) (stored quad six) = six1 := by decide +kernel

def six2 : List (Tri (Vertex ℚ)) :=
  [⟨pt (17 / 4) 4, pt 0 4, pt (14 / 5) (11 / 5)⟩, ⟨pt 0 4, pt (7 / 10) (21 / 10), pt (14 / 5) (11 / 5)⟩,
   ⟨pt (7 / 10) (21 / 10), pt (9 / 5) (6 / 5), pt (14 / 5) (11 / 5)⟩, ⟨pt 4 0, pt (17 / 4) 4, pt (14 / 5) (11 / 5)⟩,
   ⟨pt (27 / 10) (7 / 10), pt 4 0, pt (14 / 5) (11 / 5)⟩,
   ⟨pt (9 / 5) (6 / 5), pt (27 / 10) (7 / 10), pt (14 / 5) (11 / 5)⟩,
   ⟨pt 0 0, pt (27 / 10) (7 / 10), pt (9 / 5) (6 / 5)⟩, ⟨pt (4 / 5) (8 / 5), pt 0 0, pt (9 / 5) (6 / 5)⟩,
   ⟨pt (7 / 10) (21 / 10), pt (4 / 5) (8 / 5), pt (9 / 5) (6 / 5)⟩, ⟨pt 0 4, pt 0 0, pt (7 / 10) (21 / 10)⟩,
   ⟨pt 0 0, pt (4 / 5) (8 / 5), pt (7 / 10) (21 / 10)⟩, ⟨pt 0 0, pt 4 0, pt (27 / 10) (7 / 10)⟩,
   ⟨pt (17 / 4) 4, pt 4 0, Vertex.ghost⟩, ⟨pt 0 4, pt (17 / 4) 4, Vertex.ghost⟩, ⟨pt 4 0, pt 0 0, Vertex.ghost⟩,
   ⟨pt 0 0, pt 0 4, Vertex.ghost⟩]

theorem six2_eq : outcome (order 2) (stored quad six) = six2 := by decide +kernel

def two0 : List (Tri (Vertex ℚ)) :=
  [⟨pt 4 0, pt 4 4, pt 3 2⟩, ⟨pt 4 4, pt 1 2, pt 3 2⟩, ⟨pt 1 2, pt 4 0, pt 3 2⟩, ⟨pt 0 0, pt 4 0, pt 1 2⟩,
   ⟨pt 0 4, pt 0 0, pt 1 2⟩, ⟨pt 4 4, pt 0 4, pt 1 2⟩, ⟨pt 4 0, pt 0 0, Vertex.ghost⟩,
   ⟨pt 4 4, pt 4 0, Vertex.ghost⟩, ⟨pt 0 4, pt 4 4, Vertex.ghost⟩, ⟨pt 0 0, pt 0 4, Vertex.ghost⟩]

theorem two0_eq : outcome (order 0) (stored square [pt 1 2, pt 3 2]) = two0 := by decide +kernel

def two1 : List (Tri (Vertex ℚ)) :=
  [⟨pt 0 4, pt 0 0, pt 1 2⟩, ⟨pt 0 0, pt 3 2, pt 1 2⟩, ⟨pt 3 2, pt 0 4, pt 1 2⟩, ⟨pt 0 0, pt 4 0, pt 3 2⟩,
   ⟨pt 4 0, pt 4 4, pt 3 2⟩, ⟨pt 4 4, pt 0 4, pt 3 2⟩, ⟨pt 4 0, pt 0 0, Vertex.ghost⟩,
   ⟨pt 0 4, pt 4 4, Vertex.ghost⟩, ⟨pt 4 4, pt 4 0, Vertex.ghost⟩, ⟨pt 0 0, pt 0 4, Vertex.ghost⟩]

theorem two1_eq : outcome (order 1) (stored square [pt 1 2, pt 3 2]) = two1 := by decide +kernel

/-- C72 applies to the quadrilateral with six vertices and two orders of the hash tables. -/
example : ∃ T1 T1', (stored quad six).triangulate 0 60 (order 0) = .ok T1 ∧
    (stored quad six).triangulate 0 60 (order 1) = .ok T1' ∧ T1.mesh.tris ≠ T1'.mesh.tris ∧
    SameFaces T1.mesh.tris T1'.mesh.tris := by
  obtain ⟨T1, h1, e1⟩ := outcome_ok six0_eq (by decide)
  obtain ⟨T1', h1', e1'⟩ := outcome_ok six1_eq (by decide)
  have hr : ∀ v ∈ quad.vertices, v.isGhost = false := by decide +kernel
  have hk : ∀ v ∈ (stored quad six).vertices, v.isGhost = false ∧
      (∃ t ∈ six0, v = t.v1 ∨ v = t.v2 ∨ v = t.v3) ∧
      ∃ t ∈ six1, v = t.v1 ∨ v = t.v2 ∨ v = t.v3 := by decide +kernel
  have hs := quad_convex.simple (by decide)
  have call : Session 0 (fun _ _ => 0) (Triangulator.new quad) [Request.vertices six] (stored quad six) := by
    refine Session.accepted (l := []) (fuel := 0) (σ := order 0) .start ?_
    simp only [Triangulator.perform, stored_ok (b := quad) (vs := six) (by decide +kernel)]
  have plain : PlainCalls [Request.vertices six] := by
    refine ⟨by simp, by simp, fun vs hv => ?_⟩
    simp only [List.mem_singleton, Request.vertices.injEq] at hv
    subst hv
    decide +kernel
  have hg : NoFourOnCircle fun p => p ∈ quad.vertices ∨ p ∈ (stored quad six).vertices := by
    have hsub : ∀ p ∈ (stored quad six).vertices, p ∈ six := by decide +kernel
    have key : ∀ p, p ∈ quad.vertices ∨ p ∈ (stored quad six).vertices → p ∈ quad.vertices ++ six := fun p hp =>
      List.mem_append.2 (hp.imp_right (hsub p))
    exact fun o a b c d ha hb hc hd => six_general o a b c d (key a ha) (key b hb) (key c hc) (key d hd)
  refine ⟨T1, T1', h1, h1', ?_, C72_stored_partial rfl hs (quad_convex.area (by decide)) hr
    (sidesAppear_convex rfl quad_convex (by decide) hr) call plain call plain (fun _ => Iff.rfl) hg h1 h1'
    (fun v hv => ⟨?_, (hk v hv).1⟩) fun v hv => ⟨?_, (hk v hv).1⟩⟩
  · rw [e1, e1']
    decide +kernel
  · rw [e1]
    exact (hk v hv).2.1
  · rw [e1']
    exact (hk v hv).2.2

/-- The triangulation of the quadrilateral with one vertex is always the same. -/
example (fuel fuel' : Nat) (σ σ' : Sched) {T T' : Triangulator ℚ}
    (h : (stored quad [pt 1 1]).triangulate 0 fuel σ = .ok T) (h' : (stored quad [pt 1 1]).triangulate 0 fuel' σ' = .ok T') :
    SameFaces T.mesh.tris T'.mesh.tris := by
  have hr : ∀ v ∈ quad.vertices, v.isGhost = false := by decide +kernel
  have hi := stored_ok (b := quad) (vs := [pt 1 1]) (by decide +kernel)
  refine C72_one_partial rfl (quad_convex.simple (by decide)) (quad_convex.area (by decide)) hr
    (sidesAppear_convex rfl quad_convex (by decide) hr) rfl ?_ hi h hi h'
  have key := noFour_of_check (l := quad.vertices ++ [pt 1 1]) (by decide +kernel)
  simpa using key

end UniqueExample

open ValidityExample UniqueExample in
/-- C72 is false: a square and two vertices strictly inside, both accepted. Two calls of `triangulate`, both with all
vertices in the mesh, give different triangles, because some vertices are on a circle. -/
theorem C72_false : ∃ (b : Polyline (Vertex ℚ)) (vs : List (Vertex ℚ)) (σ σ' : Sched) (T T1 T1' : Triangulator ℚ),
    StrictlyConvex b.vertices ∧ b.opened = false ∧ (Triangulator.new b).insertVertices 0 σ vs = .ok T ∧
    T.triangulate 0 60 σ = .ok T1 ∧ T.triangulate 0 60 σ' = .ok T1' ∧
    (∀ v ∈ vs, VertexOf T1.mesh.tris v ∧ VertexOf T1'.mesh.tris v) ∧ ¬ SameFaces T1.mesh.tris T1'.mesh.tris := by
  obtain ⟨T1, h1, e1⟩ := outcome_ok two0_eq (by decide)
  obtain ⟨T1', h1', e1'⟩ := outcome_ok two1_eq (by decide)
  refine ⟨square, [pt 1 2, pt 3 2], order 0, order 1, _, T1, T1', strictlyConvex_of_check (by decide +kernel), rfl,
    stored_ok (by decide +kernel), h1, h1', ?_, ?_⟩
  · rw [e1, e1']
    unfold VertexOf IsCorner
    decide +kernel
  · rw [e1, e1']
    rintro ⟨k, -⟩
    have : ∃ s ∈ two0, Face s ∧
        ∀ t ∈ two1, ¬ SameTriangle s t := by decide +kernel
    obtain ⟨s, hs, fs, hn⟩ := this
    obtain ⟨t, ht, hst⟩ := k s hs fs
    exact hn t ht hst

open ValidityExample UniqueExample in
/-- C72 is false even if no four vertices are on a circle: with one order of the hash tables each accepted vertex is in the
mesh, with another one is lost. -/
theorem C72_lost_false : ∃ (b : Polyline (Vertex ℚ)) (vs : List (Vertex ℚ)) (σ σ' : Sched) (T T1 T1' : Triangulator ℚ),
    StrictlyConvex b.vertices ∧ b.opened = false ∧ NoFourOnCircle (· ∈ b.vertices ++ vs) ∧
    (Triangulator.new b).insertVertices 0 σ vs = .ok T ∧
    T.triangulate 0 60 σ = .ok T1 ∧ T.triangulate 0 60 σ' = .ok T1' ∧ (∀ v ∈ vs, VertexOf T1.mesh.tris v) ∧
    (∃ v ∈ vs, ¬ VertexOf T1'.mesh.tris v) ∧ ¬ SameFaces T1.mesh.tris T1'.mesh.tris := by
  obtain ⟨T1, h1, e1⟩ := outcome_ok six0_eq (by decide)
  obtain ⟨T1', h1', e1'⟩ := outcome_ok six2_eq (by decide)
  refine ⟨quad, six, order 0, order 2, _, T1, T1', quad_convex, rfl, six_general, stored_ok (by decide +kernel), h1, h1',
    ?_, ?_, ?_⟩
  · rw [e1]
    unfold VertexOf IsCorner
    decide +kernel
  · rw [e1']
    unfold VertexOf IsCorner
    decide +kernel
  · rw [e1, e1']
    rintro ⟨k, -⟩
    have : ∃ s ∈ six0, Face s ∧
        ∀ t ∈ six2, ¬ SameTriangle s t := by decide +kernel
    obtain ⟨s, hs, fs, hn⟩ := this
    obtain ⟨t, ht, hst⟩ := k s hs fs
    exact hn t ht hst

end Verif.Props
