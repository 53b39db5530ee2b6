import Verif.Lemmas.Rim

/-!
# The hole around a point of a subdivided polygon
-/

set_option linter.unusedSectionVars false

namespace Verif

open Spec Props

variable {K : Type*} [Field K] [LinearOrder K] [IsStrictOrderedRing K]

section

variable {b : Polyline (Vertex K)} {g : Vertex K} {T M : List (Tri (Vertex K))} {f : Nat} {v : Vertex K}
  {l : List (Vertex K)}

/-- The edge runs along a side of the polygon. -/
def AlongSide (b : Polyline (Vertex K)) (e : Edge (Vertex K)) : Prop :=
  ∃ S ∈ pairs b.vertices false, OnSegment S.1 S.2 e.v1 ∧ OnSegment S.1 S.2 e.v2

theorem AlongSide.opposite {e : Edge (Vertex K)} (h : AlongSide b e) : AlongSide b e.opposite := by
  obtain ⟨S, hS, h1, h2⟩ := h
  exact ⟨S, hS, h2, h1⟩

theorem Wall.along (hD : Subdivides l b.vertices) {e : Edge (Vertex K)} (h : Wall l e) : AlongSide b e := by
  obtain ⟨S, hS, h1, h2, -⟩ := hD.along _ h
  exact ⟨S, hS, h1, h2⟩

/-- A side of a triangle that runs along the polygon is one of the sides of the subdivided polygon. -/
theorem AlongSide.wall (hD : Subdivides l b.vertices) (hF : Fit g l M) {t : Tri (Vertex K)} (ht : t ∈ M)
    (st : SolidTri t) {e : Edge (Vertex K)} (he : IsSide t e) (h : AlongSide b e) : Wall l e := by
  by_contra hw
  obtain ⟨S, hS, h1, h2⟩ := h
  have hq := midpoint_strictlyOn (st.side_ne he)
  obtain ⟨s, hs, hon⟩ := (hD.outline _).2 ⟨S, hS, onSegment_trans h1 h2 hq.1⟩
  refine hF.off_polygon ht st (within_side st he hq.1) (st.circle_side he hq) (fun e' he' hw' => ?_) s hs hon
  refine st.others he he' ?_ hq
  rintro rfl
  exact hw hw'

theorem contains_not_beyond (hb : b.opened = false) {p : Vertex K} (h : ¬ Beyond b.vertices p) :
    b.contains 0 p = some .boundary ∨ b.contains 0 p = some .inside := by
  by_cases ho : ∃ s ∈ pairs b.vertices false, OnSegment s.1 s.2 p
  · exact Or.inl ((C08_boundary_exact b hb p).2 ho)
  · push Not at ho
    exact Or.inr (contains_inside hb ⟨ho, fun h0 => h ⟨ho, h0⟩⟩)

variable (hG : Ground g b T) (hD : Subdivides l b.vertices) (hF : Fit g l M)

include hG hD hF

/-- A triangle in conflict that may be used sees the point. -/
theorem Ground.solid_sees (hv : v.isGhost = false) {t : Tri (Vertex K)} (ht : t ∈ M) (st : SolidTri t)
    (he : Expandable (geoPreds 0 f (some b) []) v t) : Seer l M v t := by
  obtain ⟨hc, hm⟩ := he
  have hconf : 0 < circleDet t.v1 t.v2 t.v3 v := by
    rw [← free_inside_solid f st]
    unfold conflicting at hc
    rw [Bool.or_eq_true] at hc
    rcases hc with k | k
    · exact k
    · rw [Bool.and_eq_true] at k
      have := k.1
      simp only [geoPreds] at this
      rw [solid_notGhost st] at this
      simp at this
  have h1 := may_clear hG.closed hG.poly hG.real (by
    rw [probe_solid st]
    intro w hw
    simp only [List.mem_cons, List.not_mem_nil, or_false] at hw
    rcases hw with rfl | rfl
    · rfl
    · exact hv) hm
  rw [probe_solid st] at h1
  exact hF.seer_middle ht st hconf fun z hz hbz =>
    h1 (middle t, v) (by simp [pairs, consecutivePairs]) z hz ((hD.beyond z).1 hbz)

/-- A usable triangle does not see points outside. -/
theorem Ground.solid_in (hv : v.isGhost = false) {t : Tri (Vertex K)} (st : SolidTri t)
    (he : Expandable (geoPreds 0 f (some b) []) v t) : ¬ Beyond b.vertices v := by
  have h1 := may_clear hG.closed hG.poly hG.real (by
    rw [probe_solid st]
    intro w hw
    simp only [List.mem_cons, List.not_mem_nil, or_false] at hw
    rcases hw with rfl | rfl
    · rfl
    · exact hv) he.2
  rw [probe_solid st] at h1
  exact h1 (middle t, v) (by simp [pairs, consecutivePairs]) v (onSegment_right _ _)

/-- A ghost triangle that may be used has the point on its side. -/
theorem Ground.ghost_on (hv : v.isGhost = false) {s : Vertex K × Vertex K} (hs : s ∈ pairs l false)
    (he : Expandable (geoPreds 0 f (some b) []) v (overSide g s)) : OnSegment s.1 s.2 v := by
  obtain ⟨hc, hm⟩ := he
  have hg := hF.lot.ghost
  obtain ⟨m1, m2⟩ := mem_pairs hs
  have r1 := hF.lot.real _ m1
  have r2 := hF.lot.real _ m2
  unfold conflicting at hc
  rw [Bool.or_eq_true] at hc
  rcases hc with k | k
  · exfalso
    have hgh : GhostTri g (overSide g s) := by
      refine ⟨r2, r1, ?_, rfl⟩
      intro e
      simp only at e
      exact hF.poly.proper s hs (by rw [e]; exact ⟨rfl, rfl⟩)
    have hneg : cross s.1 s.2 v < 0 := by
      have := (free_inside_ghost f hg hgh v).1 k
      simp only at this
      rw [cross_swap] at this
      linarith
    have h1 := may_clear hG.closed hG.poly hG.real (by
      rw [probe_ghost hg]
      intro w hw
      simp only [List.mem_cons, List.not_mem_nil, or_false] at hw
      rcases hw with rfl | rfl | rfl
      · exact r2
      · exact r1
      · exact hv) hm
    rw [probe_ghost hg] at h1
    obtain ⟨s0, hs0, hsol0⟩ := hG.solid
    obtain ⟨S, hS, a1, a2, a3⟩ := hD.along s hs
    refine Edged.pocket_part hG.good hs0 hsol0 hG.real hG.edged hG.poly hG.winds hG.area hS a1 a2 a3 (hF.poly.proper s hs)
      r1 r2 hv ?_ hneg ?_ ?_
    · exact h1 (s.1, v) (by simp [pairs, consecutivePairs]) v (onSegment_right _ _)
    · intro p hp
      exact h1 (s.1, v) (by simp [pairs, consecutivePairs]) p hp
    · intro p hp
      exact h1 (v, s.2) (by simp [pairs, consecutivePairs]) p hp
  · rw [Bool.and_eq_true] at k
    exact onSegment_symm ((Props.C07_exact _ _).1 k.2)

/-- A triangle that sees the point may be used. -/
theorem Ground.sees_may (hv : v.isGhost = false) (hin : ¬ Beyond b.vertices v) {t : Tri (Vertex K)} (hS : Seer l M v t)
    {r : Bool} (h : (geoPreds 0 f (some b) []).mayInsert t v = .ok r) : r = true := by
  obtain ⟨c, hc, hr⟩ := may_eq h
  have st := hS.solid
  have hi := inner_middle st
  have hmid : InsidePolygon b.vertices (middle t) :=
    (hD.inside _).1 (hF.inside_polygon hS.mem st (within_of_inner hi) (st.inner_circle hi)
      fun e he _ => inner_iff_sides.1 hi e he)
  obtain ⟨c', i, rfl, hne⟩ := continence_within hG.real (q := probe t v) (by
      rw [probe_solid st]
      intro w hw
      simp only [List.mem_cons, List.not_mem_nil, or_false] at hw
      rcases hw with rfl | rfl
      · rfl
      · exact hv) hG.closed (by
      rw [probe_solid st]
      intro s hm x hx
      have hse : s = (middle t, v) := by simpa [pairs, consecutivePairs] using hm
      subst hse
      apply contains_not_beyond hG.closed
      by_cases hxv : SamePoint x v
      · intro hb
        refine hin ⟨fun S hS ho => hb.1 S hS ((onSegment_congr ⟨rfl, rfl⟩ ⟨rfl, rfl⟩ hxv).2 ho), ?_⟩
        rw [← hb.2]
        unfold windingNumber
        congr 1
        exact List.map_congr_left fun s _ => crossingAbove_congr ⟨hxv.1.symm, hxv.2.symm⟩ ⟨rfl, rfl⟩ ⟨rfl, rfl⟩
      · have := hS.clear_way hF (middle t) (within_of_inner hi) (st.inner_circle hi)
          (fun e he _ => inner_iff_sides.1 hi e he) x hx hxv
        have := (hD.inside _).1 this
        exact fun hb => this.2 hb.2) (Or.inl ⟨middle t, by
      rw [probe_solid st]
      simp [Polyline.criticalVertices, Polyline.intoEdges, pairs, consecutivePairs],
      contains_inside hG.closed hmid⟩) hc
  simpa [hne] using hr

/-- The ghost triangle over a side may be used for a point on the side. -/
theorem Ground.ghost_may (hv : v.isGhost = false) {s : Vertex K × Vertex K} (hs : s ∈ pairs l false)
    (hon : OnSegment s.1 s.2 v) {r : Bool}
    (h : (geoPreds 0 f (some b) []).mayInsert (overSide g s) v = .ok r) : r = true := by
  obtain ⟨c, hc, hr⟩ := may_eq h
  have hg := hF.lot.ghost
  obtain ⟨m1, m2⟩ := mem_pairs hs
  obtain ⟨S, hS, a1, a2, -⟩ := hD.along s hs
  have hv' : OnSegment S.1 S.2 v := onSegment_trans a1 a2 hon
  have hall : ∀ q ∈ pairs (probe (overSide g s) v).vertices (probe (overSide g s) v).opened, ∀ x, OnSegment q.1 q.2 x →
      b.contains 0 x = some .boundary := by
    rw [probe_ghost hg]
    intro q hm x hx
    rw [C08_boundary_exact b hG.closed]
    refine ⟨S, hS, ?_⟩
    have hse : q = (s.2, s.1) ∨ q = (s.1, v) ∨ q = (v, s.2) := by simpa [pairs, consecutivePairs] using hm
    rcases hse with rfl | rfl | rfl
    · exact onSegment_trans a2 a1 hx
    · exact onSegment_trans a1 hv' hx
    · exact onSegment_trans hv' a2 hx
  obtain ⟨c', i, rfl, hne⟩ := continence_within hG.real (q := probe (overSide g s) v) (by
      rw [probe_ghost hg]
      intro w hw
      simp only [List.mem_cons, List.not_mem_nil, or_false] at hw
      rcases hw with rfl | rfl | rfl
      · exact hF.lot.real _ m2
      · exact hF.lot.real _ m1
      · exact hv) hG.closed (fun q hm x hx => Or.inl (hall q hm x hx)) (Or.inr hall) hc
  simpa [hne] using hr

/-- The triangles of a hole. -/
theorem Ground.hole_shape (hv : v.isGhost = false) {C B L Z : List (Edge (Vertex K))} {m : Mesh (Vertex K)}
    {O R : List (Tri (Vertex K))} (hc : CavInv (geoPreds 0 f (some b) []) C v M m B L O R Z) :
    ∀ r ∈ R, Seer l M v r ∨ ∃ s ∈ pairs l false, OnSegment s.1 s.2 v ∧ r = overSide g s := by
  intro r hr
  rcases hF.lot.shape r (hc.mem_R hr) with st | ⟨s, hs, rfl⟩
  · exact Or.inl (hG.solid_sees hD hF hv (hc.mem_R hr) st (hc.exp r hr))
  · exact Or.inr ⟨s, hs, hG.ghost_on hD hF hv hs (hc.exp _ hr), rfl⟩

/-- Behind the border of the hole. -/
theorem Ground.hole_out (hv : v.isGhost = false) (hin : ¬ Beyond b.vertices v) {C L Z : List (Edge (Vertex K))}
    {m : Mesh (Vertex K)} {O R : List (Tri (Vertex K))} (hC : ∀ e, Constrained C e → AlongSide b e)
    (hc : CavInv (geoPreds 0 f (some b) []) C v M m [] L O R Z) :
    ∀ e ∈ L, ∀ t ∈ R, Seer l M v t → IsSide t e →
      Wall l e ∨ ∃ t ∈ M, SolidTri t ∧ IsSide t e.opposite ∧ circleDet t.v1 t.v2 t.v3 v ≤ 0 := by
  intro e he r hr hS hre
  rcases hc.links e he with k | ⟨t, ht, hte, hne, w, hw⟩
  · exact Or.inl ((hC e k).wall hD hF hS.mem hS.solid hre)
  · by_cases hwall : Wall l e
    · exact Or.inl hwall
    · obtain ⟨t', ht', st', hte'⟩ := hF.solid_across hS.mem hS.solid hre hwall
      have := hF.simple.edgeDisjoint t ht t' ht' _ hte hte'
      subst this
      refine Or.inr ⟨t, ht, st', hte, ?_⟩
      by_contra hpos
      push Not at hpos
      have hSt := hS.neighbour hF hre ht st' hte hpos
      have := hG.sees_may hD hF hv hin hSt hw
      subst this
      refine hne ⟨?_, hw⟩
      unfold conflicting
      rw [Bool.or_eq_true]
      exact Or.inl ((free_inside_solid f st' v).2 hpos)

/-- The hole around a point inside. -/
theorem Ground.pit (hv : v.isGhost = false) (hin : InsidePolygon b.vertices v) {C L Z : List (Edge (Vertex K))}
    {m : Mesh (Vertex K)} {O R : List (Tri (Vertex K))} (hC : ∀ e, Constrained C e → AlongSide b e)
    (hc : CavInv (geoPreds 0 f (some b) []) C v M m [] L O R Z) : Pit l M v L R := by
  have hin' := (hD.inside v).2 hin
  have hseer : ∀ r ∈ R, Seer l M v r := by
    intro r hr
    rcases hG.hole_shape hD hF hv hc r hr with k | ⟨s, hs, ho, -⟩
    · exact k
    · exact absurd ho (hin'.1 s hs)
  have hedge : ∀ e ∈ L, ∃ r ∈ R, IsSide r e := fun e he => hc.mem_side_old (by simpa using he)
  refine ⟨hseer, hedge, fun e he => ?_, hv, hin'.1⟩
  obtain ⟨r, hr, hre⟩ := hedge e he
  exact hG.hole_out hD hF hv (fun hb => hin.2 hb.2) hC hc e he r hr (hseer r hr) hre

omit hG hD hF in
theorem CavInv.crossed {P : Preds (Vertex K)} {C B L Z : List (Edge (Vertex K))} {m : Mesh (Vertex K)}
    {O R : List (Tri (Vertex K))} (hs : Simple M) (hc : CavInv P C v M m B L O R Z) {e : Edge (Vertex K)}
    {r : Tri (Vertex K)} (hr : r ∈ R) (he : IsSide r e) (hn : e ∉ B ++ L) {t : Tri (Vertex K)} (ht : t ∈ M)
    (hte : IsSide t e.opposite) : t ∈ R ∧ e.opposite ∉ B ++ L ∧ ¬ Constrained C e := by
  have h1 : e ∈ sides R := mem_sides.2 ⟨r, hr, he⟩
  rw [hc.bdry.mem_iff, List.mem_append] at h1
  rcases h1 with h1 | h1
  · exact absurd h1 hn
  have h2 : e.opposite ∈ Z ++ Z.map Edge.opposite := by
    rcases List.mem_append.1 h1 with k | k
    · exact List.mem_append.2 (Or.inr (List.mem_map.2 ⟨e, k, rfl⟩))
    · obtain ⟨z, hz, rfl⟩ := List.mem_map.1 k
      rw [opposite_opposite]
      exact List.mem_append.2 (Or.inl hz)
  have h3 : e.opposite ∈ sides R := by
    rw [hc.bdry.mem_iff, List.mem_append]
    exact Or.inr h2
  obtain ⟨t', ht', hte'⟩ := mem_sides.1 h3
  have := hs.edgeDisjoint t ht t' (hc.mem_R ht') _ hte hte'
  subst this
  refine ⟨ht', fun h => ?_, ?_⟩
  · have hn := hs.nodup_sides
    rw [hc.sides_old.nodup_iff] at hn
    exact (List.nodup_append'.1 (List.nodup_append'.1 hn).1).2.2 h h2
  · rcases List.mem_append.1 h1 with k | k
    · exact hc.free e k
    · obtain ⟨z, hz, rfl⟩ := List.mem_map.1 k
      have := hc.free z hz
      unfold Constrained at this ⊢
      rw [opposite_opposite]
      tauto

/-- A hole around a point on a side contains the triangle at the side, if it contains a triangle that sees the point. -/
theorem Ground.hole_wall (hv : v.isGhost = false) {w : Edge (Vertex K)} (hw : Wall l w) (hvw : StrictlyOn w.v1 w.v2 v)
    {C L Z : List (Edge (Vertex K))} {m : Mesh (Vertex K)} {O R : List (Tri (Vertex K))}
    (hC : ∀ e, Constrained C e → AlongSide b e) (hc : CavInv (geoPreds 0 f (some b) []) C v M m [] L O R Z)
    {t : Tri (Vertex K)} (hS : Seer l M v t) (ht : t ∈ R) : ∃ r ∈ R, Seer l M v r ∧ IsSide r w := by
  have hin : ¬ Beyond b.vertices v := by
    rw [← hD.beyond]
    exact fun h => h.1 _ hw hvw.1
  induction hS with
  | @here t h1 h2 h3 h4 =>
    refine ⟨t, ht, .here h1 h2 h3 h4, ?_⟩
    by_contra hn
    refine hF.off_polygon h1 h2 h4 h3 (fun e he hwe => ?_) _ hw hvw.1
    rcases (within_iff_sides.1 h4 e he).lt_or_eq with k | k
    · exact k
    · exfalso
      have := hF.poly.only hw hwe hvw (h2.side_ccw he k.symm h3).1
      simp only [Prod.ext_iff] at this
      apply hn
      obtain ⟨w1, w2⟩ := w
      obtain ⟨e1, e2⟩ := e
      simp only at this
      rw [← this.1, ← this.2]
      exact he
  | @step t t' e h1 h2 h3 h4 h5 h6 h7 h8 ih =>
    by_cases hL : e ∈ L
    · exfalso
      rcases hc.links e hL with k | ⟨t'', ht'', hte, hne, x, hx⟩
      · exact h5 ((hC e k).wall hD hF h1 h2 h4)
      · have := hF.simple.edgeDisjoint _ ht'' _ h7.mem _ hte h8
        subst this
        have := hG.sees_may hD hF hv hin h7 hx
        subst this
        refine hne ⟨?_, hx⟩
        unfold conflicting
        rw [Bool.or_eq_true]
        exact Or.inl ((free_inside_solid f h7.solid v).2 h7.conf)
    · exact ih (hc.crossed hF.simple ht h4 (by simpa using hL) h7.mem h8).1

/-- The hole around a point on a free side. -/
theorem Ground.hole_rim (hv : v.isGhost = false) {w : Edge (Vertex K)} (hw : Wall l w) (hvw : StrictlyOn w.v1 w.v2 v)
    {C L Z : List (Edge (Vertex K))} {m : Mesh (Vertex K)} {O R : List (Tri (Vertex K))} (hR : R ≠ [])
    (hC : ∀ e, Constrained C e → AlongSide b e) (hfree : ¬ Constrained C w)
    (hc : CavInv (geoPreds 0 f (some b) []) C v M m [] L O R Z) (hfr : Fresh M v) :
    ∃ l' r, Cut l (w.v1, w.v2) v l' r ∧ Fit g l' m.tris := by
  obtain ⟨l', r0, hcut⟩ := exists_cut hw v
  refine ⟨l', r0, hcut, ?_⟩
  have hin : ¬ Beyond b.vertices v := by
    rw [← hD.beyond]
    exact fun h => h.1 _ hw hvw.1
  have hshape : ∀ r ∈ R, Seer l M v r ∨ r = overSide g (w.v1, w.v2) := by
    intro r hr
    rcases hG.hole_shape hD hF hv hc r hr with k | ⟨s, hs, ho, rfl⟩
    · exact Or.inl k
    · right
      rw [hF.poly.only hw hs hvw ho]
  have hborder := hF.lot.border _ hw
  have hGw : IsSide (overSide g (w.v1, w.v2)) w.opposite := Or.inl ⟨rfl, rfl⟩
  obtain ⟨rw0, hrw, sw, hrside⟩ := hF.lot.side (simplePolygon_back hF.poly) hw
  have hSw : Seer l M v rw0 := .here hrw sw (sw.circle_side hrside hvw) (within_side sw hrside hvw.1)
  have hfrom : ∃ r ∈ R, Seer l M v r ∧ IsSide r w := by
    obtain ⟨t, ht⟩ := List.exists_mem_of_ne_nil _ hR
    rcases hshape t ht with k | rfl
    · exact hG.hole_wall hD hF hv hw hvw hC hc k ht
    · by_cases hL : w.opposite ∈ L
      · exfalso
        rcases hc.links _ hL with k | ⟨t'', ht'', hte, hne, x, hx⟩
        · apply hfree
          unfold Constrained at k ⊢
          rw [opposite_opposite] at k
          tauto
        · rw [opposite_opposite] at hte
          have := hF.simple.edgeDisjoint _ ht'' _ hrw _ hte hrside
          subst this
          have := hG.sees_may hD hF hv hin hSw hx
          subst this
          refine hne ⟨?_, hx⟩
          unfold conflicting
          rw [Bool.or_eq_true]
          exact Or.inl ((free_inside_solid f sw v).2 hSw.conf)
      · exact ⟨rw0, (hc.crossed hF.simple ht hGw (by simpa using hL) hrw (by rw [opposite_opposite]; exact hrside)).1,
          hSw, hrside⟩
  obtain ⟨r, hr, hSr, hrw'⟩ := hfrom
  have hwL : w ∉ L := by
    intro hL
    rcases hc.links _ hL with k | ⟨t'', ht'', hte, hne, x, hx⟩
    · exact hfree k
    · have := hF.simple.edgeDisjoint _ ht'' _ hborder _ hte hGw
      subst this
      have := hG.ghost_may hD hF hv hw hvw.1 hx
      subst this
      refine hne ⟨?_, hx⟩
      unfold conflicting
      rw [Bool.or_eq_true, Bool.and_eq_true]
      refine Or.inr ⟨by simp [geoPreds, Tri.isGhost, hF.lot.ghost], (Props.C07_exact _ _).2 (onSegment_symm hvw.1)⟩
  obtain ⟨hGR, hwoL, -⟩ := hc.crossed hF.simple hr hrw' (by simpa using hwL) hborder hGw
  refine hF.rim rfl hc hfr hv hvw hcut hshape hGR ?_ hwL (hG.hole_out hD hF hv hin hC hc)
  simpa [Edge.opposite] using hwoL

/-- A triangle sees only points that are no corners. -/
theorem Ground.fresh (hv : v.isGhost = false) {t : Tri (Vertex K)} (hS : Seer l M v t) : Fresh M v := by
  intro r hr hx
  rcases hF.lot.shape r hr with st | ⟨s, hs, rfl⟩
  · exact hS.no_corner hF hr st hx
  · obtain ⟨r1, h1, s1, e1⟩ := hF.lot.side (simplePolygon_back hF.poly) hs
    rcases hx with rfl | rfl | rfl
    · exact hS.no_corner hF h1 s1 (isCorner_of_isSide e1).2
    · exact hS.no_corner hF h1 s1 (isCorner_of_isSide e1).1
    · rw [hF.lot.ghost] at hv
      simp at hv

end

end Verif
