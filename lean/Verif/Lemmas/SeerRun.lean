import Verif.Lemmas.SeerCavity
import Verif.Lemmas.RegionOps

/-!
# Inserting vertices in a triangulated polygon
-/

set_option linter.unusedSectionVars false

namespace Verif

open Spec Props

variable {K : Type*} [Field K] [LinearOrder K] [IsStrictOrderedRing K]

section

variable {b : Polyline (Vertex K)}

theorem contains_beyond (hb : b.opened = false) {p : Vertex K} (h : Beyond b.vertices p) :
    b.contains 0 p = some .outside := by
  obtain ⟨h1, h2⟩ := C08_winding le_rfl b hb p
  have hn : ¬ ∃ s ∈ pairs b.vertices false, NearSegment 0 s.1 s.2 p := by
    rw [← h1, C08_boundary_exact b hb]
    rintro ⟨s, hs, ho⟩
    exact h.1 s hs ho
  exact (h2 hn).2.2 h.2

theorem contains_inside (hb : b.opened = false) {p : Vertex K} (h : InsidePolygon b.vertices p) :
    b.contains 0 p = some .inside := by
  obtain ⟨h1, h2⟩ := C08_winding le_rfl b hb p
  have hn : ¬ ∃ s ∈ pairs b.vertices false, NearSegment 0 s.1 s.2 p := by
    rw [← h1, C08_boundary_exact b hb]
    rintro ⟨s, hs, ho⟩
    exact h.1 s hs ho
  exact (h2 hn).1.2 h.2

/-- The answer about a triangle is about its probe. -/
theorem may_eq {f : Nat} {t : Tri (Vertex K)} {v : Vertex K} {r : Bool}
    (h : (geoPreds 0 f (some b) []).mayInsert t v = .ok r) :
    ∃ c, Polyline.continence 0 f b (probe t v) = .ok c ∧
      r = match c with
        | some (c, _) => decide (c ≠ Continence.outside)
        | none => false := by
  simp only [geoPreds, mayInsertTriangle, outsideHoles, Res.bind_ok, Bool.and_true] at h
  rw [Res.bind_eq_ok] at h
  obtain ⟨a, ha, h⟩ := h
  rw [Res.bind_eq_ok] at ha
  obtain ⟨c, hc, ha⟩ := ha
  refine ⟨c, hc, ?_⟩
  simp only [Res.ok.injEq] at h
  subst h
  cases c with
  | none => simpa using ha.symm
  | some c => simpa using ha.symm

theorem may_clear (hb : b.opened = false) (hs : SimplePolygon b.vertices) (hreal : ∀ v ∈ b.vertices, v.isGhost = false)
    {f : Nat} {t : Tri (Vertex K)} {v : Vertex K} (hq : ∀ w ∈ (probe t v).vertices, w.isGhost = false)
    (h : (geoPreds 0 f (some b) []).mayInsert t v = .ok true) :
    ∀ s ∈ pairs (probe t v).vertices (probe t v).opened, ∀ x, OnSegment s.1 s.2 x → ¬ Beyond b.vertices x := by
  obtain ⟨c, hc, hr⟩ := may_eq h
  cases c with
  | none => simp at hr
  | some c =>
    obtain ⟨c, i⟩ := c
    simp only [ne_eq, true_eq_decide_iff] at hr
    intro s hm x hx hbx
    have := contains_beyond hb hbx
    rcases C42_everywhere_partial hreal hq (hs.noFold hb) hc s hm x hx with k | k
    · rw [this] at k; simp at k
    · rw [this] at k
      simp only [Option.some.injEq] at k
      exact hr k.symm

theorem probe_solid {t : Tri (Vertex K)} (h : SolidTri t) (v : Vertex K) : probe t v = ⟨[middle t, v], true, by simp⟩ := by
  unfold probe
  rw [if_neg (by rw [solid_notGhost h]; simp)]
  simp only [Tri.center, solid_notGhost h, middle, Vertex.mk']
  simp

theorem probe_ghost {g : Vertex K} (hg : g.isGhost = true) (x y v : Vertex K) :
    probe ⟨x, y, g⟩ v = ⟨[x, y, v], false, by simp⟩ := by
  unfold probe
  rw [if_pos (by simp [Tri.isGhost, hg])]

/-- The domain, triangulated: `T` is the Delaunay triangulation of the vertices of the boundary. -/
structure Ground (g : Vertex K) (b : Polyline (Vertex K)) (T : List (Tri (Vertex K))) : Prop where
  closed : b.opened = false
  poly : SimplePolygon b.vertices
  area : 0 < shoelace b.vertices
  real : ∀ v ∈ b.vertices, v.isGhost = false
  good : Good g T
  solid : ∃ s ∈ T, SolidTri s
  edged : Edged T b.vertices

variable {g : Vertex K} {T M : List (Tri (Vertex K))} {f : Nat} {v : Vertex K}

theorem Ground.winds (hG : Ground g b T) : WindsOnce b.vertices := windsOnce hG.closed hG.poly hG.area

/-- A triangle in conflict that may be used sees the point. -/
theorem Ground.seer (hG : Ground g b T) (hF : Fit g b.vertices M) (hv : v.isGhost = false)
    (hin : InsidePolygon b.vertices v) {t : Tri (Vertex K)} (ht : t ∈ M)
    (he : Expandable (geoPreds 0 f (some b) []) v t) : Seer b.vertices M v t := by
  obtain ⟨hc, hm⟩ := he
  rcases hF.lot.shape t ht with st | ⟨s, hs, rfl⟩
  · have hconf : 0 < circleDet t.v1 t.v2 t.v3 v := by
      rw [← free_inside_solid f st]
      unfold conflicting at hc
      rw [Bool.or_eq_true] at hc
      rcases hc with k | k
      · exact k
      · rw [Bool.and_eq_true] at k
        have := k.1
        simp only [geoPreds] at this
        rw [solid_notGhost st] at this
        simp at this
    have h1 := may_clear hG.closed hG.poly hG.real (by
      rw [probe_solid st]
      intro w hw
      simp only [List.mem_cons, List.not_mem_nil, or_false] at hw
      rcases hw with rfl | rfl
      · rfl
      · exact hv) hm
    rw [probe_solid st] at h1
    refine hF.seer_middle ht st hconf fun z hz => h1 (middle t, v) (by simp [pairs, consecutivePairs]) z hz
  · exfalso
    have hg := hF.lot.ghost
    obtain ⟨m1, m2⟩ := mem_pairs hs
    have r1 := hG.real _ m1
    have r2 := hG.real _ m2
    have hneg : cross s.1 s.2 v < 0 := by
      have hgh : GhostTri g (⟨s.2, s.1, g⟩ : Tri (Vertex K)) := by
        refine ⟨r2, r1, ?_, rfl⟩
        intro e
        simp only at e
        exact hG.poly.proper s hs (by rw [e]; exact ⟨rfl, rfl⟩)
      unfold conflicting at hc
      rw [Bool.or_eq_true] at hc
      rcases hc with k | k
      · have := (free_inside_ghost f hg hgh v).1 k
        simp only at this
        rw [cross_swap] at this
        linarith
      · rw [Bool.and_eq_true] at k
        have h2 : OnSegment s.2 s.1 v := (Props.C07_exact _ _).1 k.2
        exact absurd (onSegment_symm h2) (hin.1 s hs)
    have h1 := may_clear hG.closed hG.poly hG.real (by
      rw [probe_ghost hg]
      intro w hw
      simp only [List.mem_cons, List.not_mem_nil, or_false] at hw
      rcases hw with rfl | rfl | rfl
      · exact r2
      · exact r1
      · exact hv) hm
    rw [probe_ghost hg] at h1
    obtain ⟨s0, hs0, hsol0⟩ := hG.solid
    refine Edged.pocket hG.good hs0 hsol0 hG.real hG.edged hG.poly hG.winds hG.area hs hv hin.2 hneg ?_ ?_
    · intro p hp
      exact h1 (s.1, v) (by simp [pairs, consecutivePairs]) p hp
    · intro p hp
      exact h1 (v, s.2) (by simp [pairs, consecutivePairs]) p hp

/-- A triangle that sees the point may be used. -/
theorem Ground.may (hG : Ground g b T) (hF : Fit g b.vertices M) (hv : v.isGhost = false)
    (hin : InsidePolygon b.vertices v) {t : Tri (Vertex K)} (hS : Seer b.vertices M v t) {r : Bool}
    (h : (geoPreds 0 f (some b) []).mayInsert t v = .ok r) : r = true := by
  obtain ⟨c, hc, hr⟩ := may_eq h
  have st := hS.solid
  have hclear : ∀ s ∈ pairs (probe t v).vertices (probe t v).opened, ∀ x, OnSegment s.1 s.2 x →
      b.contains 0 x = some .inside := by
    rw [probe_solid st]
    intro s hm x hx
    have hse : s = (middle t, v) := by simpa [pairs, consecutivePairs] using hm
    subst hse
    exact contains_inside hG.closed (hS.clear hF hin.1 (middle t) (within_of_inner (inner_middle st))
      (st.inner_circle (inner_middle st)) (fun e he _ => inner_iff_sides.1 (inner_middle st) e he) x hx)
  obtain ⟨n, hn⟩ := C42_complete hG.real (by
      rw [probe_solid st]
      intro w hw
      simp only [List.mem_cons, List.not_mem_nil, or_false] at hw
      rcases hw with rfl | rfl
      · rfl
      · exact hv) hG.closed (by simp) hclear
  have h1 := continence_mono hc (le_max_left f n)
  have h2 := hn _ (le_max_right f n)
  have e := h1.symm.trans h2
  simp only [Res.ok.injEq] at e
  subst e
  simpa using hr

/-- What is needed of the tests of an insertion loop in the polygon `b`: `D` is the boundary that is given to the loop. -/
structure Court (g : Vertex K) (b : Polyline (Vertex K)) (D : Option (Polyline (Vertex K))) (f : Nat) : Prop where
  ghost : g.isGhost = true
  real : ∀ v ∈ b.vertices, v.isGhost = false
  seer : ∀ {M : List (Tri (Vertex K))} {v : Vertex K} {t : Tri (Vertex K)}, Fit g b.vertices M → v.isGhost = false →
    InsidePolygon b.vertices v → t ∈ M → Expandable (geoPreds 0 f D []) v t → Seer b.vertices M v t
  may : ∀ {M : List (Tri (Vertex K))} {v : Vertex K} {t : Tri (Vertex K)} {r : Bool}, Fit g b.vertices M →
    v.isGhost = false → InsidePolygon b.vertices v → Seer b.vertices M v t →
    (geoPreds 0 f D []).mayInsert t v = .ok r → r = true

theorem Ground.court (hG : Ground g b T) (f : Nat) : Court g b (some b) f :=
  ⟨hG.good.ghost, hG.real, fun hF hv hin ht he => hG.seer hF hv hin ht he, fun hF hv hin hS h => hG.may hF hv hin hS h⟩

variable {D : Option (Polyline (Vertex K))}

/-- The hole made by an insertion. -/
theorem Court.pit (hG : Court g b D f) (hF : Fit g b.vertices M) (hv : v.isGhost = false)
    (hin : InsidePolygon b.vertices v) {C L Z : List (Edge (Vertex K))} {m : Mesh (Vertex K)}
    {O R : List (Tri (Vertex K))} (hC : ∀ e, Constrained C e → Wall b.vertices e ∨ Wall b.vertices e.opposite)
    (hc : CavInv (geoPreds 0 f D []) C v M m [] L O R Z) : Pit b.vertices M v L R := by
  have hseer : ∀ r ∈ R, Seer b.vertices M v r := fun r hr => hG.seer hF hv hin (hc.mem_R hr) (hc.exp r hr)
  have hedge : ∀ e ∈ L, ∃ r ∈ R, IsSide r e := fun e he => hc.mem_side_old (by simpa using he)
  refine ⟨hseer, hedge, fun e he => ?_, hv, hin.1⟩
  obtain ⟨r, hr, hre⟩ := hedge e he
  have hS := hseer r hr
  rcases hc.links e he with k | ⟨t, ht, hte, hne, w, hw⟩
  · rcases hC e k with k | k
    · exact Or.inl k
    · exact absurd k (hF.wall_back hS.mem hS.solid hre)
  · by_cases hwall : Wall b.vertices e
    · exact Or.inl hwall
    · obtain ⟨t', ht', st', hte'⟩ := hF.solid_across hS.mem hS.solid hre hwall
      have := hF.simple.edgeDisjoint t ht t' ht' _ hte hte'
      subst this
      refine Or.inr ⟨t, ht, st', hte, ?_⟩
      by_contra hpos
      push Not at hpos
      have hSt := hS.neighbour hF hre ht st' hte hpos
      have := hG.may hF hv hin hSt hw
      subst this
      refine hne ⟨?_, hw⟩
      unfold conflicting
      rw [Bool.or_eq_true]
      exact Or.inl ((free_inside_solid f st' v).2 hpos)

/-- What is true between two insertions. -/
structure Tidy (g : Vertex K) (b : Polyline (Vertex K)) (D : Option (Polyline (Vertex K))) (f : Nat) (s : SolveState (Vertex K)) : Prop where
  legit : Legit (geoPreds 0 f D []) (Usual g) s
  fit : Fit g b.vertices s.mesh.tris
  real : ∀ w ∈ s.cmap.flat ++ s.remaining, w.isGhost = false
  inside : ∀ w ∈ s.cmap.flat ++ s.remaining, InsidePolygon b.vertices w

theorem Court.step (hG : Court g b D f) {C : List (Edge (Vertex K))}
    (hC : ∀ e, Constrained C e → Wall b.vertices e ∨ Wall b.vertices e.opposite) {fuel : Nat} {σ : Sched}
    {s s' : SolveState (Vertex K)} (h : Tidy g b D f s) (hr : solveStep (geoPreds 0 f D []) C fuel σ s = .ok s') :
    Tidy g b D f s' := by
  obtain ⟨hl, v, L, O, R, Z, hv, hi⟩ := solveStep_inv (P := geoPreds 0 f D []) (usual_sep hG.ghost f) h.legit h.fit.simple hr
  have hv' : v ∈ s.cmap.flat ++ s.remaining := List.mem_append.2 (Or.inl hv)
  have hp := hG.pit h.fit (h.real v hv') (h.inside v hv') hC hi.cav
  refine ⟨hl, h.fit.fill rfl hi.cav hi.fresh hp, fun w hw => ?_, fun w hw => ?_⟩
  · exact h.real w (hi.pend.mem_iff.2 (List.mem_cons_of_mem _ hw))
  · exact h.inside w (hi.pend.mem_iff.2 (List.mem_cons_of_mem _ hw))

theorem Court.run (hG : Court g b D f) {C : List (Edge (Vertex K))}
    (hC : ∀ e, Constrained C e → Wall b.vertices e ∨ Wall b.vertices e.opposite) {fuel : Nat}
    {s s' : SolveState (Vertex K)} (h : Tidy g b D f s) (hr : Run (geoPreds 0 f D []) C fuel s s') :
    Tidy g b D f s' := by
  induction hr with
  | refl => exact h
  | step τ _ _ hs ih => exact hG.step hC ih hs

theorem Court.start_tidy (hG : Court g b D f) {σ : Sched} {m : Mesh (Vertex K)} {vs : List (Vertex K)}
    (hs : AdjSound m) (hcm : AdjComplete m) (hF : Fit g b.vertices m.tris) (hn : vs.Nodup)
    (hreal : ∀ w ∈ vs, w.isGhost = false) (hin : ∀ w ∈ vs, InsidePolygon b.vertices w) {s0 : SolveState (Vertex K)}
    (h0 : startState (geoPreds 0 f D []) σ m vs = .ok s0) : Tidy g b D f s0 := by
  obtain ⟨k1, -, -, -, k5, -⟩ := startState_spec h0
  have hmem : ∀ w ∈ s0.cmap.flat ++ s0.remaining, w ∈ vs := fun w hw => (List.mem_filter.1 (k5.mem_iff.1 hw)).1
  refine ⟨start_legit hs hcm hn hreal ?_ (fun w hw => Or.inl (hreal w hw)) h0, k1 ▸ hF,
    fun w hw => hreal w (hmem w hw), fun w hw => hin w (hmem w hw)⟩
  rintro x ⟨t, ht, hx⟩
  rcases hF.lot.shape t ht with k | ⟨s, hs, rfl⟩
  · rcases hx with rfl | rfl | rfl
    · exact Or.inl k.r1
    · exact Or.inl k.r2
    · exact Or.inl k.r3
  · obtain ⟨m1, m2⟩ := mem_pairs hs
    rcases hx with rfl | rfl | rfl
    · exact Or.inl (hG.real _ m2)
    · exact Or.inl (hG.real _ m1)
    · exact Or.inr rfl

/-- Inserting vertices inside a triangulated polygon gives a triangulation of the polygon. -/
theorem Court.include (hG : Court g b D f) {C : List (Edge (Vertex K))}
    (hC : ∀ e, Constrained C e → Wall b.vertices e ∨ Wall b.vertices e.opposite) {fuel : Nat} {σ : Sched}
    {m : Mesh (Vertex K)} {vs : List (Vertex K)} (hs : AdjSound m) (hcm : AdjComplete m) (hF : Fit g b.vertices m.tris)
    (hn : vs.Nodup) (hreal : ∀ w ∈ vs, w.isGhost = false) (hin : ∀ w ∈ vs, InsidePolygon b.vertices w)
    {r : SolveState (Vertex K)} (h : includeVertices (geoPreds 0 f D []) C fuel σ m vs = .ok r) :
    Fit g b.vertices r.mesh.tris ∧ AdjSound r.mesh ∧ AdjComplete r.mesh := by
  obtain ⟨s0, h0, hr, -⟩ := include_run h
  have h1 := hG.start_tidy hs hcm hF hn hreal hin h0
  have h2 := hG.run hC h1 hr
  exact ⟨h2.fit, h2.legit.sound, h2.legit.complete h2.fit.simple⟩

end

end Verif
