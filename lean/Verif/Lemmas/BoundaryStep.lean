import Verif.Lemmas.Fuel
import Verif.Lemmas.DomainEdges
import Verif.Props.Delaunay

/-!
# The first step of a triangulation: insert the boundary vertices, then carve
-/

set_option linter.unusedSectionVars false

namespace Verif

open Spec Props

variable {K : Type*} [Field K] [LinearOrder K] [IsStrictOrderedRing K]

theorem simplePolygon_nodup {l : List (Vertex K)} (hs : SimplePolygon l) : l.Nodup := by
  rw [← (pairs_snd l).nodup_iff, List.Nodup, List.pairwise_map]
  refine hs.apart.imp_of_mem fun {s t} h1 h2 h e => ?_
  have hq : OnSegment s.1 s.2 s.2 := ⟨1, by norm_num, le_refl _, by ring, by ring⟩
  have hq' : OnSegment t.1 t.2 s.2 := by rw [e]; exact ⟨1, by norm_num, le_refl _, by ring, by ring⟩
  rcases h s.2 hq hq' with ⟨-, k⟩ | ⟨k, -⟩
  · rw [e] at k
    exact hs.proper t h2 ⟨k.1.symm, k.2.symm⟩
  · exact hs.proper s h1 ⟨k.1.symm, k.2.symm⟩

theorem simplePolygon_back {l : List (Vertex K)} (hs : SimplePolygon l) :
    ∀ s ∈ pairs l false, (s.2, s.1) ∉ pairs l false := by
  intro s hm hb
  have hq := midpoint_strictlyOn (hs.proper s hm)
  have := hs.only hm hb hq (onSegment_symm hq.1)
  exact hs.proper s hm (by have e := congrArg Prod.fst this; simp only at e; rw [e]; exact ⟨rfl, rfl⟩)

theorem includeVertices_nil {V : Type*} [DecidableEq V] {P : Preds V} {C : List (Edge V)} {fuel : Nat} {σ : Sched}
    {m : Mesh V} {r : SolveState V} (h : includeVertices P C fuel σ m [] = .ok r) : r.mesh = m := by
  obtain ⟨s0, h0, hr, -⟩ := include_run h
  obtain ⟨k1, -, -, k4, k5, -⟩ := startState_spec h0
  have hc : s0.cmap = [] := by
    by_contra hne
    obtain ⟨p, hp⟩ := List.exists_mem_of_ne_nil _ hne
    obtain ⟨w, hw⟩ := List.exists_mem_of_ne_nil _ (k4.2 p hp)
    have : w ∈ s0.cmap.flat ++ s0.remaining := List.mem_append.2 (Or.inl (List.mem_flatMap.2 ⟨p, hp, hw⟩))
    rw [k5.mem_iff] at this
    simp at this
  have : ∀ s', Run P C fuel s0 s' → s' = s0 := by
    intro s' hr
    induction hr with
    | refl => rfl
    | step τ _ hne _ ih => rw [ih] at hne; exact absurd hc hne
  rw [this r hr, k1]

/-- Each inserted vertex adds at most two triangles. -/
theorem include_size {f fuel : Nat} {σ : Sched} {g : Vertex K} {m : Mesh (Vertex K)} {vs : List (Vertex K)}
    {r : SolveState (Vertex K)} (hs : AdjSound m) (hc : AdjComplete m) (hd : Delaunay g m.tris) (hn : vs.Nodup)
    (ho : ∀ w ∈ vs, w.isGhost = false) (hf : 2 * (m.tris.length + 2 * vs.length) + 3 ≤ fuel)
    (h : includeVertices (geoPreds 0 f none []) [] fuel σ m vs = .ok r) :
    r.mesh.tris.length ≤ m.tris.length + 2 * vs.length := by
  obtain ⟨s0, h0, hr, -⟩ := include_run h
  have hN := start_nice hs hc hd hn ho h0
  have hlen := start_len h0
  have hm : s0.mesh = m := (startState_spec h0).1
  have key : ∀ s', Run (geoPreds 0 f none []) [] fuel s0 s' → Nice g f s' ∧
      s'.mesh.tris.length + 2 * (s'.cmap.flat ++ s'.remaining).length ≤ m.tris.length + 2 * vs.length := by
    intro s' hr
    induction hr with
    | refl => exact ⟨hN, by rw [hm]; omega⟩
    | step τ hr hne h ih =>
      obtain ⟨n1, l1⟩ := ih
      obtain ⟨s2, k1, k2, -, v, L, O, R, Z, -, hi⟩ := n1.step hne (fuel := fuel) (by omega) τ
      have e := h.symm.trans k1
      simp only [Res.ok.injEq] at e
      subst e
      refine ⟨k2, ?_⟩
      have := hi.length
      have hp := hi.pend.length_eq
      simp only [List.length_cons] at hp
      omega
  have := (key r hr).2
  omega

/-- What inserting the vertices of a polygon gives. -/
theorem polygon_inserted {f fuel : Nat} {σ : Sched} {g : Vertex K} {b : Polyline (Vertex K)} (hg : g.isGhost = true)
    (hs : SimplePolygon b.vertices) (hw : WindsOnce b.vertices) (hreal : ∀ v ∈ b.vertices, v.isGhost = false)
    (hf : 4 * b.vertices.length + 7 ≤ fuel) {v1 v2 : Vertex K} (h12 : (v1, v2) ∈ pairs b.vertices false) :
    ∃ r, includeVertices (geoPreds 0 f none []) [] fuel σ (Mesh.fromInitialSegment g v1 v2) b.vertices = .ok r ∧
      Good g r.mesh.tris ∧ AdjSound r.mesh ∧ AdjComplete r.mesh ∧ (∃ t ∈ r.mesh.tris, SolidTri t) ∧
      ∀ p, Vx r.mesh.tris p → p ∈ b.vertices := by
  obtain ⟨m1, m2⟩ := mem_pairs h12
  have hne : v1 ≠ v2 := by
    rintro rfl
    exact hs.proper _ h12 ⟨rfl, rfl⟩
  obtain ⟨r, hr, hd, h1, h2, h3⟩ := C19_from_segment (f := f) (fuel := fuel) (σ := σ) (g := g) hg (hreal _ m1)
    (hreal _ m2) hne (simplePolygon_nodup hs) hreal hf
  refine ⟨r, hr, hd.good, h1, h2, ?_, ?_⟩
  · obtain ⟨t, ht, k⟩ := h3 (by
      by_contra hc
      push Not at hc
      exact side_not_hull hs hw h12 fun v hv => (hc v hv).le)
    exact ⟨t, ht, solid_iff.1 k⟩
  · intro p hp
    obtain ⟨ins, i1, i2⟩ := C15_vertices (fromInitialSegment_sound _ _ _) hr
    rcases (i2 p).1 hp.1 with ⟨t, ht, hc⟩ | h
    · have hp2 := hp.2
      have : p = v1 ∨ p = v2 := by
        rcases (by simpa [Mesh.fromInitialSegment, mem_add, Mesh.empty] using ht :
          t = ⟨v2, v1, g⟩ ∨ t = ⟨v1, v2, g⟩) with rfl | rfl <;> rcases hc with h | h | h <;> simp_all
      rcases this with rfl | rfl
      · exact m1
      · exact m2
    · have := i1.mem_iff.1 (List.mem_append.2 (Or.inl h))
      exact (List.mem_filter.1 this).1

/-- The result of the boundary step, if every side of the polygon is a side of one of its triangles. -/
theorem boundary_step {f fuel : Nat} {σ : Sched} {g : Vertex K} {b : Polyline (Vertex K)} (hg : g.isGhost = true)
    (hb : b.opened = false) (hs : SimplePolygon b.vertices) (ha : 0 < shoelace b.vertices)
    (hreal : ∀ v ∈ b.vertices, v.isGhost = false) {v1 v2 : Vertex K}
    (h12 : (v1, v2) ∈ pairs b.vertices false) {m' : Mesh (Vertex K)}
    (h : includeBoundary (geoPreds 0 f none []) g [] fuel σ (Mesh.fromInitialSegment g v1 v2) b = .ok m') :
    ∃ r : Mesh (Vertex K), Good g r.tris ∧ (∃ t ∈ r.tris, SolidTri t) ∧ (∀ p, Vx r.tris p → p ∈ b.vertices) ∧
      (∀ t, t ∈ m'.tris ↔ (t ∈ r.tris ∧ ¬ Reach r.tris (outerWall b) t) ∨
        ∃ s ∈ pairs b.vertices false, t = ⟨s.2, s.1, g⟩) ∧
      ((∀ s ∈ pairs b.vertices false, ∃ t ∈ m'.tris, Face t ∧ IsSide t ⟨s.1, s.2⟩) →
        Lot g b.vertices m'.tris ∧ Apart m'.tris ∧ Simple m'.tris ∧ AdjSound m' ∧ AdjComplete m') := by
  have hw := windsOnce hb hs ha
  have hn := simplePolygon_nodup hs
  have hgb : g ∉ b.vertices := fun h => by rw [hreal g h] at hg; simp at hg
  unfold includeBoundary at h
  rw [Res.bind_eq_ok] at h
  obtain ⟨r, hr, h⟩ := h
  obtain ⟨r', hr', hgood, h1, h2, ⟨s, hs1, hsol⟩, h4⟩ := polygon_inserted (f := f)
    (fuel := max fuel (4 * b.vertices.length + 7)) (σ := σ.sub 0) hg hs hw hreal (le_max_right _ _) h12
  rw [includeVertices_more (by rw [hr]; simp) (le_max_left _ _)] at hr'
  have e := hr.symm.trans hr'
  simp only [Res.ok.injEq] at e
  subst e
  refine ⟨r.mesh, hgood, ⟨s, hs1, hsol⟩, h4, fun t => C26_outside h1 h2 hgood.simple hb h t, fun hin => ?_⟩
  have hclosed : Watertight m'.tris := by
    refine C26_closed h1 h2 hgood.simple hgood.closed hb hn hgb h fun s hs => ?_
    obtain ⟨t, ht, k1, k2⟩ := hin s hs
    have st := solid_iff.1 k1
    refine ⟨t, ht, k2, ?_⟩
    rintro (k | k | k)
    · have := st.r1; rw [← k, hg] at this; simp at this
    · have := st.r2; rw [← k, hg] at this; simp at this
    · have := st.r3; rw [← k, hg] at this; simp at this
  have hp := carve_perm h1 h2 hgood.simple hb hn h
  obtain ⟨k1, k2⟩ := hgood.lot hs1 hsol hreal ha hp hclosed
  refine ⟨k1, k2, C26_good h1 h2 hgood.simple hb hn hgb (fun t ht hc => ?_) h⟩
  rcases hgood.shape t ht with k | k
  · exfalso
    rcases hc with hc | hc | hc
    · have := k.r1; rw [← hc, hg] at this; simp at this
    · have := k.r2; rw [← hc, hg] at this; simp at this
    · have := k.r3; rw [← hc, hg] at this; simp at this
  · exact hgood.all_reached hs1 hsol hreal ha hp hclosed ht k

end Verif
