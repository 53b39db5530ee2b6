import Verif.Props.Refinement
import Verif.Props.Encroachment
import Verif.Props.Sessions

/-!
# C68: refining a mesh that meets the requirements
-/

set_option linter.unusedSectionVars false

namespace Verif.Props

open Spec

variable {K : Type*} [Field K] [LinearOrder K] [IsStrictOrderedRing K]

/-- C68: if no vertex of the mesh is strictly inside the circle over a side of the boundary or of a hole or over an inserted
segment, and no triangle is poor, `refine` returns and changes nothing, whatever the number of steps and the order of the
hash tables. -/
theorem C68_unchanged {fuel : Nat} {dist : Vertex K → Vertex K → K} {p : RefineParams K} {σ : Sched} {T : Triangulator K}
    (hsides : ∀ q ∈ T.boundary :: T.holes, ∀ s ∈ pairs q.vertices q.opened, ∀ v, InMesh T.mesh v → v.isGhost = false →
      dist2 s.1 s.2 ≤ 4 * dist2 (centre s.1 s.2) v)
    (hsegs : ∀ s ∈ T.segments, ∀ v, InMesh T.mesh v → v.isGhost = false → dist2 s.v1 s.v2 ≤ 4 * dist2 (centre s.v1 s.v2) v)
    (hpoor : ∀ t ∈ T.mesh.tris, ¬ PoorTriangle dist p t) :
    T.refine 0 fuel dist p σ = .ok T := by
  set P := geoRPreds 0 fuel dist p (some T.boundary) T.holes with hP
  have hfree : ∀ c ∈ T.constraints, ∀ v ∈ T.mesh.vertices P.ghost, P.encroaches c v = false := by
    intro c hc v hv
    obtain ⟨hm, hr⟩ := mem_vertices.1 hv
    have hle : dist2 c.v1 c.v2 ≤ 4 * dist2 (centre c.v1 c.v2) v := by
      unfold Triangulator.constraints at hc
      rw [mem_toSet, List.mem_append, List.mem_append] at hc
      have key : ∀ q ∈ T.boundary :: T.holes, c ∈ q.intoEdges → dist2 c.v1 c.v2 ≤ 4 * dist2 (centre c.v1 c.v2) v := by
        intro q hq hc
        obtain ⟨s, hs, rfl⟩ := List.mem_map.1 hc
        exact hsides q hq s hs v hm hr
      rcases hc with (hc | hc) | hc
      · obtain ⟨q, hq, hc⟩ := List.mem_flatMap.1 hc
        exact key q (List.mem_cons_of_mem _ hq) hc
      · exact key _ List.mem_cons_self hc
      · exact hsegs c hc v hm hr
    refine geo_not_encroaches_iff.2 fun h => ?_
    have := (C04_exact _ _ _).1.1 h
    linarith
  have hd : distributeEncroachments P T.constraints (T.mesh.vertices P.ghost) = [] := by
    unfold distributeEncroachments
    rw [List.filter_eq_nil_iff]
    intro q hq
    obtain ⟨e, he, rfl⟩ := List.mem_map.1 hq
    have : (T.mesh.vertices P.ghost).filter (fun v => P.encroaches e v) = [] := by
      rw [List.filter_eq_nil_iff]
      intro v hv
      rw [hfree e he v hv]
      simp
    simp [this]
  have h1 : unencroach P fuel (σ.sub 0) T.constraints T.mesh = .ok (T.mesh, []) := by
    unfold unencroach
    rw [hd]
    cases fuel <;> rw [unencroachLoop]
  have hirr : ∀ C, (splitInit P C T.mesh).irregulars = [] ∧ (splitInit P C T.mesh).larges = [] := by
    intro C
    have key : ∀ t ∈ T.mesh.tris.filter (fun t => !t.isGhost P.ghost), P.irregular t = false ∧ P.large t = false := by
      intro t ht
      obtain ⟨ht, hg⟩ := List.mem_filter.1 ht
      have hg : t.isGhost Vertex.isGhost = false := by
        rw [Bool.not_eq_true'] at hg; exact hg
      have hn := hpoor t ht
      constructor
      · rw [Bool.eq_false_iff]
        intro hi
        change isIrregular 0 dist p t = true at hi
        unfold isIrregular at hi
        split at hi
        · next q hq =>
          refine hn ⟨hg, Or.inl ⟨q, hq, ?_⟩⟩
          rw [Bool.or_eq_true, approxEq_zero_eps, decide_eq_true_eq] at hi
          rcases hi with hi | hi
          · exact hi.ge
          · exact hi
        · cases hi
      · rw [Bool.eq_false_iff]
        intro hi
        change isLarge 0 p t = true at hi
        unfold isLarge at hi
        split at hi
        · next a mx ha hmx =>
          refine hn ⟨hg, Or.inr ⟨a, mx, ha, hmx, ?_⟩⟩
          rw [Bool.or_eq_true, approxEq_zero_eps, decide_eq_true_eq] at hi
          rcases hi with hi | hi
          · exact hi.ge
          · exact hi
        · cases hi
    unfold splitInit
    simp only [List.filter_eq_nil_iff]
    exact ⟨fun t ht => by rw [(key t ht).1]; simp, fun t ht => by rw [(key t ht).2]; simp⟩
  have h2 : ∀ C, splitIrregular P fuel (σ.sub 1) C T.mesh = .ok (splitInit P C T.mesh) := by
    intro C
    unfold splitIrregular
    rw [splitIrregularLoop]
    have : popTriangle ((σ.sub 1).sub 0) (splitInit P C T.mesh) = none := by
      unfold popTriangle
      rw [(hirr C).1, (hirr C).2]
      simp [choose_eq_none.2]
    rw [this]
  unfold Triangulator.refine
  simp only
  rw [h1, Res.bind_ok, h2, Res.bind_ok]
  rfl

namespace ValidityExample

/-- The two triangles of a square, with the bounds 10 on the area and on the ratio. -/
example : ∃ T1, (Triangulator.new square).triangulate 0 60 (order 3) = .ok T1 ∧ T1.mesh.tris.length = 6 ∧
    ∀ fuel σ, T1.refine 0 fuel blocks ⟨some 10, 10⟩ σ = .ok T1 := by
  obtain ⟨T1, h1, e1⟩ := ok_of_finished (σ := order 3) (T := Triangulator.new square) (by decide +kernel)
  have hl : T1.mesh.tris.length = 6 := by rw [e1]; decide +kernel
  refine ⟨T1, h1, hl, fun fuel σ => ?_⟩
  have hm : ∀ s ∈ pairs square.vertices false, ∀ t ∈ T1.mesh.tris, ∀ v ∈ [t.v1, t.v2, t.v3], v.isGhost = false →
      dist2 s.1 s.2 ≤ 4 * dist2 (centre s.1 s.2) v := by
    rw [e1]; decide +kernel
  have hq : ∀ t ∈ T1.mesh.tris, (∀ q ∈ t.quality blocks, q < 10) ∧ ∀ a ∈ t.area, a < 10 := by
    rw [e1]; decide +kernel
  obtain ⟨m, rfl⟩ := triangulate_only_mesh h1
  refine C68_unchanged (fun q hq s hs v hv hg => ?_) (fun s hs => ?_) (fun t ht hp => ?_)
  · simp only [Triangulator.new, List.mem_cons, List.not_mem_nil, or_false] at hq
    subst hq
    obtain ⟨t, ht, hc⟩ := hv
    refine hm s hs t ht v ?_ hg
    rcases hc with rfl | rfl | rfl <;> simp
  · simp [Triangulator.new] at hs
  · obtain ⟨-, ⟨q, h2, h3⟩ | ⟨a, mx, h2, h3, h4⟩⟩ := hp
    · have := (hq t ht).1 q h2
      simp only at h3
      linarith
    · have := (hq t ht).2 a h2
      simp only [Option.some.injEq] at h3
      linarith

end ValidityExample

end Verif.Props
