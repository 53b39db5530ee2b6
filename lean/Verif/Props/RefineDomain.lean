import Verif.Lemmas.RimLoop
import Verif.Props.Interior
import Verif.Props.Refinement

/-!
# C60: refining keeps the partition of the domain
-/

set_option linter.unusedSectionVars false

namespace Verif.Props

open Spec

variable {K : Type*} [Field K] [LinearOrder K] [IsStrictOrderedRing K]

/-- A triangulation of a polygon that is locally Delaunay is a constrained Delaunay triangulation. -/
theorem fit_delaunay {g : Vertex K} {l : List (Vertex K)} {M : List (Tri (Vertex K))} (hF : Fit g l M) :
    DelaunayInside l M := by
  classical
  rintro t ht hft o ho r hr hfr p hp ⟨z, hz, hsee⟩
  have st := solid_iff.1 hft
  by_contra hlt
  push Not at hlt
  have hc : 0 < circleDet t.v1 t.v2 t.v3 p := by
    rw [circleDet_eq ho]
    exact mul_pos st.ccw (by linarith)
  have hS : Seer l M p t := by
    refine hF.seer (n := M.toFinset.card) ht st hc (within_of_inner hz) (st.inner_circle hz)
      (fun e he _ => inner_iff_sides.1 hz e he) (fun x hx hbx => ?_) fun S hS =>
        Finset.card_le_card fun r hr => List.mem_toFinset.2 (hS r hr).1
    rcases hsee x hx with k | ⟨s, hs, ho⟩
    · exact k.2 hbx.2
    · exact hbx.1 s hs ho
  exact hS.no_corner hF hr (solid_iff.1 hfr) hp

theorem subdivides_delaunay {l m : List (Vertex K)} {M : List (Tri (Vertex K))} (h : Subdivides l m)
    (hd : DelaunayInside l M) : DelaunayInside m M := by
  rintro t ht hft o ho r hr hfr p hp ⟨z, hz, hsee⟩
  refine hd t ht hft o ho r hr hfr p hp ⟨z, hz, fun x hx => ?_⟩
  rcases hsee x hx with k | k
  · exact Or.inl ((h.inside x).2 k)
  · exact Or.inr ((h.outline x).2 k)

/-- What is known of a triangulated domain once it has been refined. -/
theorem refine_estate {fuel fuel' : Nat} {σ σ' τ : Sched} {b : Polyline (Vertex K)} {vs : List (Vertex K)}
    {T T0 T1 T2 : Triangulator K} {dist : Vertex K → Vertex K → K} {p : RefineParams K} (hb : b.opened = false)
    (hs : SimplePolygon b.vertices) (ha : 0 < shoelace b.vertices)
    (hreal : ∀ v ∈ b.vertices, v.isGhost = false)
    (hvs : ∀ v ∈ vs, v.isGhost = false) (hi : (Triangulator.new b).insertVertices 0 σ' vs = .ok T)
    (h0 : (Triangulator.new b).triangulate 0 fuel σ = .ok T0)
    (hin : ∀ s ∈ pairs b.vertices false, ∃ t ∈ T0.mesh.tris, Face t ∧ IsSide t ⟨s.1, s.2⟩)
    (h1 : T.triangulate 0 fuel σ = .ok T1) (h2 : T1.refine 0 fuel' dist p τ = .ok T2) :
    ∃ l, Plot Vertex.ghost b l T2.mesh := by
  obtain ⟨k1, k2, k3⟩ := interior_fit hb hs ha hreal hvs hi h0 hin h1
  obtain ⟨⟨G, hG⟩, -, -, -, -, -, he⟩ := interior_start (σ := σ) hb hs ha hreal hvs hi h0 hin
  obtain ⟨e1, e2, e3, -⟩ := insert_into_boundary hb hvs hi
  rw [he, Res.bind_eq_ok] at h1
  obtain ⟨st, -, h1⟩ := h1
  simp only [Res.ok.injEq] at h1
  have f1 : T1.boundary = b := by rw [← h1]; exact e1
  have f2 : T1.holes = [] := by rw [← h1]; exact e2
  have f3 : T1.segments = [] := by rw [← h1]; exact e3
  obtain ⟨r, s, q1, q2, q3⟩ := refine_split h2
  rw [f1, f2] at q1 q2
  have hC : ∀ c, c ∈ T1.constraints ↔ Wall b.vertices c := by
    intro c
    unfold Triangulator.constraints
    rw [f1, f2, f3, mem_toSet]
    simp only [List.flatMap_nil, List.nil_append, List.append_nil]
    rw [Polyline.intoEdges, hb]
    exact (fromVertexPairs_mem (s := (c.v1, c.v2))).symm
  obtain ⟨l, hE⟩ := Plot.refine hG ⟨Subdivides.refl _, k1, k2, k3⟩ hC q1 q2
  exact ⟨l, by rw [q3]; exact hE.plot⟩

/-- C60, domains with a boundary and vertices inside: the refined mesh is a partition of the polygon, whose sides may have
been divided, if all sides of the polygon appear when the boundary alone is triangulated. -/
theorem C60_refine_partial {fuel fuel' : Nat} {σ σ' τ : Sched} {b : Polyline (Vertex K)} {vs : List (Vertex K)}
    {T T0 T1 T2 : Triangulator K} {dist : Vertex K → Vertex K → K} {p : RefineParams K} (hb : b.opened = false)
    (hs : SimplePolygon b.vertices) (ha : 0 < shoelace b.vertices)
    (hreal : ∀ v ∈ b.vertices, v.isGhost = false)
    (hvs : ∀ v ∈ vs, v.isGhost = false) (hi : (Triangulator.new b).insertVertices 0 σ' vs = .ok T)
    (h0 : (Triangulator.new b).triangulate 0 fuel σ = .ok T0)
    (hin : ∀ s ∈ pairs b.vertices false, ∃ t ∈ T0.mesh.tris, Face t ∧ IsSide t ⟨s.1, s.2⟩)
    (h1 : T.triangulate 0 fuel σ = .ok T1) (h2 : T1.refine 0 fuel' dist p τ = .ok T2) :
    (∃ l, Subdivides l b.vertices ∧ TilesPolygon l T2.mesh.tris ∧
      ∀ s ∈ pairs l false, ∃ t ∈ T2.mesh.tris, Face t ∧ IsSide t ⟨s.1, s.2⟩) ∧
      Simple T2.mesh.tris ∧ Watertight T2.mesh.tris ∧ AdjSound T2.mesh ∧ AdjComplete T2.mesh := by
  obtain ⟨l, hP⟩ := refine_estate hb hs ha hreal hvs hi h0 hin h1 h2
  have hF := hP.fit
  refine ⟨⟨l, hP.sub, hF.lot.tiles (simplePolygon_back hF.poly) hF.apart, fun s hm => ?_⟩, hF.simple, hF.lot.closed,
    hP.sound, hP.complete⟩
  obtain ⟨t, ht, st, hts⟩ := hF.lot.side (simplePolygon_back hF.poly) hm
  exact ⟨t, ht, solid_iff.2 st, hts⟩

/-- C60, the points covered: the solid triangles of the refined mesh lie in the polygon and cover it, without overlap. -/
theorem C60_covers_partial {fuel fuel' : Nat} {σ σ' τ : Sched} {b : Polyline (Vertex K)} {vs : List (Vertex K)}
    {T T0 T1 T2 : Triangulator K} {dist : Vertex K → Vertex K → K} {p : RefineParams K} (hb : b.opened = false)
    (hs : SimplePolygon b.vertices) (ha : 0 < shoelace b.vertices)
    (hreal : ∀ v ∈ b.vertices, v.isGhost = false)
    (hvs : ∀ v ∈ vs, v.isGhost = false) (hi : (Triangulator.new b).insertVertices 0 σ' vs = .ok T)
    (h0 : (Triangulator.new b).triangulate 0 fuel σ = .ok T0)
    (hin : ∀ s ∈ pairs b.vertices false, ∃ t ∈ T0.mesh.tris, Face t ∧ IsSide t ⟨s.1, s.2⟩)
    (h1 : T.triangulate 0 fuel σ = .ok T1) (h2 : T1.refine 0 fuel' dist p τ = .ok T2) :
    (∀ t ∈ T2.mesh.tris, ¬ HasGhost t → Face t ∧ ∀ w, Inner t w → InsidePolygon b.vertices w) ∧
    (∀ w, InsidePolygon b.vertices w → ∃ t ∈ T2.mesh.tris, ¬ HasGhost t ∧ InOrOn t w) ∧
    ∀ s ∈ T2.mesh.tris, ∀ t ∈ T2.mesh.tris, ¬ HasGhost s → ¬ HasGhost t → ∀ w, Inner s w → Inner t w → s = t := by
  obtain ⟨⟨l, hD, hT, -⟩, -⟩ := C60_refine_partial hb hs ha hreal hvs hi h0 hin h1 h2
  exact ⟨fun t ht hg => ⟨hT.ccw t ht hg, fun w hw => (hD.inside w).1 (hT.inside t ht hg w hw)⟩,
    fun w hw => hT.covers w ((hD.inside w).2 hw), hT.apart⟩

/-- C60, the Delaunay property: the refined mesh is a constrained Delaunay triangulation of the domain. -/
theorem C60_delaunay_partial {fuel fuel' : Nat} {σ σ' τ : Sched} {b : Polyline (Vertex K)} {vs : List (Vertex K)}
    {T T0 T1 T2 : Triangulator K} {dist : Vertex K → Vertex K → K} {p : RefineParams K} (hb : b.opened = false)
    (hs : SimplePolygon b.vertices) (ha : 0 < shoelace b.vertices)
    (hreal : ∀ v ∈ b.vertices, v.isGhost = false)
    (hvs : ∀ v ∈ vs, v.isGhost = false) (hi : (Triangulator.new b).insertVertices 0 σ' vs = .ok T)
    (h0 : (Triangulator.new b).triangulate 0 fuel σ = .ok T0)
    (hin : ∀ s ∈ pairs b.vertices false, ∃ t ∈ T0.mesh.tris, Face t ∧ IsSide t ⟨s.1, s.2⟩)
    (h1 : T.triangulate 0 fuel σ = .ok T1) (h2 : T1.refine 0 fuel' dist p τ = .ok T2) :
    DelaunayInside b.vertices T2.mesh.tris := by
  obtain ⟨l, hP⟩ := refine_estate hb hs ha hreal hvs hi h0 hin h1 h2
  exact subdivides_delaunay hP.sub (fit_delaunay hP.fit)

namespace ValidityExample

/-- A rational stand-in for the distance. -/
def blocks (a b : Vertex ℚ) : ℚ := |a.x - b.x| + |a.y - b.y|

/-- The triangles after `triangulate` and `refine`, and before `refine`. -/
def refined (σ : Sched) (p : RefineParams ℚ) (T : Triangulator ℚ) : Option (List (Tri (Vertex ℚ)) × List (Tri (Vertex ℚ))) :=
  match T.triangulate 0 60 σ with
  | .ok T1 =>
    match T1.refine 0 60 blocks p σ with
    | .ok T2 => some (T1.mesh.tris, T2.mesh.tris)
    | _ => none
  | _ => none

theorem ok_of_refined {σ : Sched} {p : RefineParams ℚ} {T : Triangulator ℚ} (h : (refined σ p T).isSome = true) :
    ∃ T1 T2, T.triangulate 0 60 σ = .ok T1 ∧ T1.refine 0 60 blocks p σ = .ok T2 ∧
      refined σ p T = some (T1.mesh.tris, T2.mesh.tris) := by
  unfold refined at h ⊢
  match hT : T.triangulate 0 60 σ with
  | .ok T1 =>
    rw [hT] at h
    simp only at h ⊢
    match hR : T1.refine 0 60 blocks p σ with
    | .ok T2 => exact ⟨T1, T2, rfl, hR, rfl⟩
    | .panic => rw [hR] at h; simp at h
    | .diverged => rw [hR] at h; simp at h
  | .panic => rw [hT] at h; simp at h
  | .diverged => rw [hT] at h; simp at h

/-- C60 applies to the dart with three vertices inside; the refinement inserts vertices inside and on sides. -/
example : ∃ T1 T2, dartRequest.triangulate 0 60 (order 3) = .ok T1 ∧
    T1.refine 0 60 blocks ⟨some 3, 10⟩ (order 3) = .ok T2 ∧
    (∃ l, Subdivides l dart.vertices ∧ TilesPolygon l T2.mesh.tris) ∧ DelaunayInside dart.vertices T2.mesh.tris ∧
    T1.mesh.tris.length = 14 ∧ T2.mesh.tris.length = 24 := by
  have hs : SimplePolygon dart.vertices := simple_of_check (by decide +kernel)
  have ha : 0 < shoelace dart.vertices := by decide +kernel
  have hr : ∀ v ∈ dart.vertices, v.isGhost = false := by decide +kernel
  have hv : ∀ v ∈ [pt 1 3, pt 3 3, pt 2 1], v.isGhost = false := by decide +kernel
  have hi : (Triangulator.new dart).insertVertices 0 (order 5) [pt 1 3, pt 3 3, pt 2 1] = .ok dartRequest := by
    obtain ⟨T, h⟩ := (C22_ok_iff 0 (order 5) (Triangulator.new dart) [pt 1 3, pt 3 3, pt 2 1]).2 (by decide +kernel)
    rw [dartRequest, h]
  obtain ⟨T0, h0, e0⟩ := ok_of_finished (σ := order 3) (T := Triangulator.new dart) (by decide +kernel)
  have hside : ∀ s ∈ pairs dart.vertices false, ∃ t ∈ T0.mesh.tris, Face t ∧ IsSide t ⟨s.1, s.2⟩ := by
    rw [e0]
    unfold Face IsSide
    decide +kernel
  have key : (refined (order 3) ⟨some 3, 10⟩ dartRequest).map (fun q => (q.1.length, q.2.length)) = some (14, 24) := by
    decide +kernel
  obtain ⟨T1, T2, h1, h2, e⟩ := ok_of_refined (σ := order 3) (p := ⟨some 3, 10⟩) (T := dartRequest) (by
    cases hh : refined (order 3) ⟨some 3, 10⟩ dartRequest with
    | none => rw [hh] at key; simp at key
    | some q => rfl)
  rw [e] at key
  simp only [Option.map_some, Option.some.injEq, Prod.mk.injEq] at key
  obtain ⟨⟨l, k1, k2, -⟩, -⟩ := C60_refine_partial rfl hs ha hr hv hi h0 hside h1 h2
  exact ⟨T1, T2, h1, h2, ⟨l, k1, k2⟩, C60_delaunay_partial rfl hs ha hr hv hi h0 hside h1 h2, key.1, key.2⟩

end ValidityExample

end Verif.Props
