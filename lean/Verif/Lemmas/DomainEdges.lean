import Verif.Lemmas.DomainTiling
import Verif.Lemmas.General

/-!
# Which polygons are cut out of a Delaunay mesh
-/

set_option linter.unusedSectionVars false

namespace Verif

open Spec Props

variable {K : Type*} [Field K] [LinearOrder K] [IsStrictOrderedRing K]

section polygon

variable {l : List (Vertex K)}

/-- The inside is on the left of each side. -/
theorem side_values (hs : SimplePolygon l) (hw : WindsOnce l) {s : Vertex K × Vertex K} (hm : s ∈ pairs l false)
    {q c : Vertex K} (hq : StrictlyOn s.1 s.2 q)
    (hmiss : ∀ t ∈ pairs l false, ∀ p, OnSegment t.1 t.2 p → OnSegment q c p → SamePoint p q) :
    (cross s.1 s.2 c < 0 → windingNumber (pairs l false) c = 0) ∧
      (0 < cross s.1 s.2 c → windingNumber (pairs l false) c = 1) := by
  have hz := onSegment_cross hq.1
  by_cases hc0 : cross s.1 s.2 c = 0
  · exact ⟨fun h => absurd hc0 h.ne, fun h => absurd hc0 h.ne'⟩
  have hqc : ¬ SamePoint q c := by
    rintro ⟨h1, h2⟩
    apply hc0
    rw [← hz]
    simp only [cross, h1, h2]
  have hother : ∀ t ∈ (pairs l false).filter (fun t => decide (t ≠ s)), ¬ OnSegment t.1 t.2 q := by
    intro t ht h
    rw [List.mem_filter, decide_eq_true_iff] at ht
    exact ht.2 (hs.only hm ht.1 hq h)
  obtain ⟨d, hd, hroom⟩ := room_line (S := (q, c)) hqc (w := 0) (v := q) ⟨by simp, by simp⟩ hother
  -- the point on the other side
  have hx : cross s.1 s.2 (lerp q c (-d)) = -d * cross s.1 s.2 c := by rw [cross_lerp, hz]; ring
  have hseg : ∀ p, OnSegment c (lerp q c (-d)) p → ∃ z, -d ≤ z ∧ z ≤ 1 ∧ At (q, c) z p := by
    rintro p ⟨k, k0, k1, kx, ky⟩
    refine ⟨1 - k * (1 + d), ?_, ?_, ?_, ?_⟩
    · nlinarith
    · nlinarith [mul_nonneg k0 hd.le]
    · rw [kx]; simp only [lerp]; ring
    · rw [ky]; simp only [lerp]; ring
  have hfree : ∀ t ∈ pairs l false, t ≠ s → ∀ p, OnSegment t.1 t.2 p → ¬ OnSegment c (lerp q c (-d)) p := by
    intro t ht hne p hp hpc
    obtain ⟨z, z0, z1, hz⟩ := hseg p hpc
    have htf : t ∈ (pairs l false).filter (fun t => decide (t ≠ s)) := by
      rw [List.mem_filter, decide_eq_true_iff]; exact ⟨ht, hne⟩
    by_cases hzd : z ≤ d
    · exact hroom t htf z p (by linarith) (by linarith) hz hp
    · push Not at hzd
      have := hmiss t ht p hp ⟨z, by linarith, z1, hz.1, hz.2⟩
      have h0 := at_unique (s := (q, c)) hqc hz (w := 0) ⟨by simpa using this.1, by simpa using this.2⟩
      linarith
  have hc : ∀ t ∈ pairs l false, ¬ OnSegment t.1 t.2 c := by
    intro t ht h
    have := hmiss t ht c h ⟨1, by norm_num, le_refl _, by ring, by ring⟩
    exact hqc ⟨this.1.symm, this.2.symm⟩
  have hc' : ∀ t ∈ pairs l false, ¬ OnSegment t.1 t.2 (lerp q c (-d)) := by
    intro t ht h
    by_cases hne : t = s
    · subst hne
      have := onSegment_cross h
      rw [hx] at this
      rcases mul_eq_zero.1 this with h | h
      · linarith
      · exact hc0 h
    · exact hfree t ht hne _ h ⟨1, by norm_num, le_refl _, by ring, by ring⟩
  have hqm : OnSegment c (lerp q c (-d)) q := by
    refine ⟨1 / (1 + d), by positivity, (div_le_one (by linarith)).2 (by linarith), ?_, ?_⟩
    · simp only [lerp]; field_simp; ring
    · simp only [lerp]; field_simp; ring
  obtain ⟨M1, M2, hM⟩ := List.append_of_mem hm
  have hne : ∀ t ∈ M1 ++ M2, t ∈ pairs l false ∧ t ≠ s := by
    intro t ht
    have h1 : t ∈ pairs l false := by
      rw [hM, List.mem_append, List.mem_cons]
      rcases List.mem_append.1 ht with h | h
      · exact Or.inl h
      · exact Or.inr (Or.inr h)
    refine ⟨h1, fun h => ?_⟩
    subst h
    have hself := separate_self (hs.proper t hm)
    have hp := hs.separate
    rw [hM, List.pairwise_append] at hp
    rcases List.mem_append.1 ht with h | h
    · exact hself (hp.2.2 t h t List.mem_cons_self)
    · exact hself ((List.pairwise_cons.1 hp.2.1).1 t h)
  have htel := telescopes_pairs l
  have w1 := hw c hc
  have w2 := hw _ hc'
  constructor
  · intro hneg
    have := side_jump (hM ▸ htel) hq hqm hneg (by rw [hx]; nlinarith) fun t ht p hp =>
      hfree t (hne t ht).1 (hne t ht).2 p hp
    rw [← hM] at this
    omega
  · intro hpos
    have := side_jump (hM ▸ htel) hq (onSegment_symm hqm) (by rw [hx]; nlinarith) hpos fun t ht p hp hpc =>
      hfree t (hne t ht).1 (hne t ht).2 p hp (onSegment_symm hpc)
    rw [← hM] at this
    omega

/-- Beyond a line with the polygon on its other side all points are outside. -/
theorem beyond_outside {a b : Vertex K} (hab : ¬ SamePoint a b) (hl : ∀ v ∈ l, cross a b v ≤ 0) {w : Vertex K}
    (hw : 0 < cross a b w) : windingNumber (pairs l false) w = 0 := by
  have hoff : ∀ s ∈ pairs l false, ∀ p, OnSegment s.1 s.2 p → cross a b p ≤ 0 := by
    rintro s hs p ⟨k, k0, k1, kx, ky⟩
    obtain ⟨h1, h2⟩ := mem_pairs hs
    have e : cross a b p = (1 - k) * cross a b s.1 + k * cross a b s.2 := by simp only [cross, kx, ky]; ring
    rw [e]
    nlinarith [mul_nonneg k0 (neg_nonneg.2 (hl _ h2)), mul_nonneg (sub_nonneg.2 k1) (neg_nonneg.2 (hl _ h1))]
  have hmove : ∀ r : K, 0 ≤ r → windingNumber (pairs l false) w =
      windingNumber (pairs l false) ⟨w.x - r * (b.y - a.y), w.y + r * (b.x - a.x), false⟩ := by
    intro r hr
    refine winding_const l fun s hs p hp ⟨k, k0, k1, kx, ky⟩ => ?_
    have e : cross a b p = cross a b w + k * r * dist2 a b := by
      simp only [cross, dist2, kx, ky]; ring
    have h1 := hoff s hs p hp
    have h2 := mul_nonneg (mul_nonneg k0 hr) (dist2_pos hab).le
    linarith
  have hbound : ∀ f : Vertex K → K, ∃ M, ∀ v ∈ l, |f v| ≤ M := by
    intro f
    clear hl hoff hmove
    induction l with
    | nil => exact ⟨0, by simp⟩
    | cons v l ih =>
      obtain ⟨M, hM⟩ := ih
      refine ⟨max M |f v|, fun u hu => ?_⟩
      rcases List.mem_cons.1 hu with rfl | hu
      · exact le_max_right _ _
      · exact (hM u hu).trans (le_max_left _ _)
  by_contra hne
  by_cases hx : b.x = a.x
  · have hy : b.y - a.y ≠ 0 := fun h => hab ⟨hx.symm, by linarith⟩
    obtain ⟨M, hM⟩ := hbound fun v => v.x - w.x
    have hpos : 0 < |b.y - a.y| := abs_pos.2 hy
    rw [hmove ((|M| + 1) / |b.y - a.y|) (by positivity)] at hne
    obtain ⟨⟨u, hu, h1⟩, ⟨u', hu', h2⟩, -, -⟩ := winding_box hne
    have a1 := abs_le.1 ((hM u hu).trans (le_abs_self M))
    have a2 := abs_le.1 ((hM u' hu').trans (le_abs_self M))
    simp only at h1 h2
    rcases lt_or_gt_of_ne hy with h | h
    · rw [abs_of_neg h] at h1 h2
      have : (|M| + 1) / -(b.y - a.y) * (b.y - a.y) = -(|M| + 1) := by field_simp
      linarith [a2.2]
    · rw [abs_of_pos h] at h1 h2
      have : (|M| + 1) / (b.y - a.y) * (b.y - a.y) = |M| + 1 := by field_simp
      linarith [a1.1]
  · have hx' : b.x - a.x ≠ 0 := fun h => hx (by linarith)
    obtain ⟨M, hM⟩ := hbound fun v => v.y - w.y
    have hpos : 0 < |b.x - a.x| := abs_pos.2 hx'
    rw [hmove ((|M| + 1) / |b.x - a.x|) (by positivity)] at hne
    obtain ⟨-, -, ⟨u, hu, h1⟩, ⟨u', hu', h2⟩⟩ := winding_box hne
    have a1 := abs_le.1 ((hM u hu).trans (le_abs_self M))
    have a2 := abs_le.1 ((hM u' hu').trans (le_abs_self M))
    simp only at h1 h2
    rcases lt_or_gt_of_ne hx' with h | h
    · rw [abs_of_neg h] at h1 h2
      have : (|M| + 1) / -(b.x - a.x) * (b.x - a.x) = -(|M| + 1) := by field_simp
      linarith [a1.1]
    · rw [abs_of_pos h] at h1 h2
      have : (|M| + 1) / (b.x - a.x) * (b.x - a.x) = |M| + 1 := by field_simp
      linarith [a2.2]

theorem onSegment_lerp_iff {q c p : Vertex K} (h : OnSegment q c p) : ∃ k, 0 ≤ k ∧ k ≤ 1 ∧ SamePoint p (lerp q c k) := by
  obtain ⟨k, k0, k1, kx, ky⟩ := h
  exact ⟨k, k0, k1, kx, ky⟩

/-- A counterclockwise polygon has vertices strictly on the left of each side. -/
theorem side_not_hull (hs : SimplePolygon l) (hw : WindsOnce l) {s : Vertex K × Vertex K} (hm : s ∈ pairs l false)
    (hl : ∀ v ∈ l, cross s.1 s.2 v ≤ 0) : False := by
  have hab := hs.proper s hm
  have hq := midpoint_strictlyOn hab
  have hz := onSegment_cross hq.1
  obtain ⟨c, hc⟩ : ∃ c : Vertex K, 0 < cross s.1 s.2 c := by
    refine ⟨⟨s.1.x - (s.2.y - s.1.y), s.1.y + (s.2.x - s.1.x), false⟩, ?_⟩
    have hd := dist2_pos hab
    simp only [dist2] at hd
    simp only [cross]
    nlinarith
  have h0 := beyond_outside hab hl hc
  have h1 := (side_values hs hw hm hq (c := c) fun r hr p hp hpc => by
    obtain ⟨j, j0, j1, hj⟩ := onSegment_lerp_iff hpc
    rcases j0.lt_or_eq with h | h
    · exfalso
      have hx : 0 < cross s.1 s.2 p := by
        have : cross s.1 s.2 p = cross s.1 s.2 (lerp (Edge.midpoint ⟨s.1, s.2⟩) c j) := by simp only [cross, hj.1, hj.2]
        rw [this, cross_lerp, hz]
        nlinarith
      obtain ⟨m, m0, m1, mx, my⟩ := hp
      obtain ⟨u1, u2⟩ := mem_pairs hr
      have e : cross s.1 s.2 p = (1 - m) * cross s.1 s.2 r.1 + m * cross s.1 s.2 r.2 := by
        simp only [cross, mx, my]; ring
      rw [e] at hx
      nlinarith [mul_nonneg m0 (neg_nonneg.2 (hl _ u2)), mul_nonneg (sub_nonneg.2 m1) (neg_nonneg.2 (hl _ u1))]
    · rw [← h] at hj
      exact ⟨by rw [hj.1]; simp [lerp], by rw [hj.2]; simp [lerp]⟩).2 hc
  omega

end polygon

section

variable {g : Vertex K} {T : List (Tri (Vertex K))} {l : List (Vertex K)}

theorem inner_congr {t : Tri (Vertex K)} {p q : Vertex K} (h : SamePoint p q) : Inner t p ↔ Inner t q := by
  simp only [Inner, cross, h.1, h.2]

/-- On the way from a point of a side to the inside of a triangle. -/
theorem towards_inner {t : Tri (Vertex K)} {q c p : Vertex K} (hq : Within t q) (hc : Inner t c) (h : OnSegment q c p) :
    SamePoint p q ∨ Inner t p := by
  obtain ⟨k, k0, k1, hk⟩ := onSegment_lerp_iff h
  rcases k0.lt_or_eq with h0 | h0
  · exact Or.inr ((inner_congr hk).2 (inner_lerp hq hc h0 k1))
  · left
    rw [← h0] at hk
    exact ⟨by rw [hk.1]; simp [lerp], by rw [hk.2]; simp [lerp]⟩

/-- An ordinary edge of a Delaunay mesh with a triangle has a triangle beside it. -/
theorem Good.solid_beside (hT : Good g T) {s : Tri (Vertex K)} (hs : s ∈ T) (hsol : SolidTri s) {t : Tri (Vertex K)}
    (ht : t ∈ T) {e : Edge (Vertex K)} (he : IsSide t e) (hr : RealEdge e) :
    ∃ t' ∈ T, SolidTri t' ∧ (IsSide t' e ∨ IsSide t' e.opposite) := by
  rcases hT.side_real ht he hr with ⟨h, -⟩ | ⟨h, h1, h2⟩
  · exact ⟨t, ht, h, Or.inl he⟩
  · obtain ⟨t', ht', he'⟩ := hT.across ht he
    rcases hT.side_real ht' he' ⟨hr.2, hr.1⟩ with ⟨k, -⟩ | ⟨k, k1, k2⟩
    · exact ⟨t', ht', k, Or.inr he'⟩
    · exfalso
      have z1 := hT.inner_right_strict ht h hs hsol (inner_middle hsol)
      have z2 := hT.inner_right_strict ht' k hs hsol (inner_middle hsol)
      simp only [Edge.opposite] at k1 k2
      rw [← h1, ← h2] at z1
      rw [← k1, ← k2, cross_swap] at z2
      linarith

/-- All sides of the polygon are edges of the mesh. -/
def Edged (T : List (Tri (Vertex K))) (l : List (Vertex K)) : Prop :=
  ∀ s ∈ pairs l false, ∃ t ∈ T, IsSide t ⟨s.1, s.2⟩

variable (hT : Good g T) {s0 : Tri (Vertex K)} (hs0 : s0 ∈ T) (hsol0 : SolidTri s0) (hreal : ∀ v ∈ l, v.isGhost = false)
  (hE : Edged T l) (hs : SimplePolygon l) (hw : WindsOnce l)

include hT hs0 hsol0 hreal hE

theorem Edged.solid {s : Vertex K × Vertex K} (hm : s ∈ pairs l false) :
    ∃ t ∈ T, SolidTri t ∧ (IsSide t ⟨s.1, s.2⟩ ∨ IsSide t ⟨s.2, s.1⟩) := by
  obtain ⟨t, ht, he⟩ := hE s hm
  obtain ⟨h1, h2⟩ := mem_pairs hm
  exact hT.solid_beside hs0 hsol0 ht he ⟨hreal _ h1, hreal _ h2⟩

/-- The polygon does not pass inside triangles. -/
theorem Edged.off {t : Tri (Vertex K)} (ht : t ∈ T) (st : SolidTri t) {w : Vertex K} (hi : Inner t w) :
    ∀ s ∈ pairs l false, ¬ OnSegment s.1 s.2 w := by
  intro s hm h
  obtain ⟨r, hr, sr, hside | hside⟩ := Edged.solid hT hs0 hsol0 hreal hE hm
  · exact hT.apart.inner_off ht hr st sr hside hi h
  · exact hT.apart.inner_off ht hr st sr hside hi (onSegment_symm h)

/-- The polygon vertices are vertices of the mesh. -/
theorem Edged.vertex {v : Vertex K} (hv : v ∈ l) : Vx T v := by
  have : ∃ s ∈ pairs l false, s.2 = v := by
    have := (pairs_snd l).mem_iff.2 hv
    obtain ⟨s, h1, h2⟩ := List.mem_map.1 this
    exact ⟨s, h1, h2⟩
  obtain ⟨s, hm, rfl⟩ := this
  obtain ⟨t, ht, he⟩ := hE s hm
  refine ⟨⟨t, ht, ?_⟩, hreal _ hv⟩
  rcases he with ⟨-, h⟩ | ⟨-, h⟩ | ⟨-, h⟩
  · exact Or.inr (Or.inl h)
  · exact Or.inr (Or.inr h)
  · exact Or.inl h

/-- Triangles on both sides of an edge that is not on the polygon are on the same side of the polygon. -/
theorem Edged.same_side {t t' : Tri (Vertex K)} (ht : t ∈ T) (ht' : t' ∈ T) (st : SolidTri t) (st' : SolidTri t')
    {e : Edge (Vertex K)} (he : IsSide t e) (he' : IsSide t' e.opposite) (h1 : (e.v1, e.v2) ∉ pairs l false)
    (h2 : (e.v2, e.v1) ∉ pairs l false) :
    windingNumber (pairs l false) (middle t) = windingNumber (pairs l false) (middle t') := by
  obtain ⟨p, -, r1, r2, -, hp, -⟩ := st.side he
  have hab : ¬ SamePoint e.v1 e.v2 := by
    intro h
    simp only [cross, h.1, h.2] at hp
    simp at hp
  have hq := midpoint_strictlyOn hab
  have hq' : StrictlyOn e.opposite.v1 e.opposite.v2 (Edge.midpoint ⟨e.v1, e.v2⟩) := ⟨onSegment_symm hq.1, hq.2.2, hq.2.1⟩
  have hoffq : ∀ s ∈ pairs l false, ∀ p, OnSegment s.1 s.2 p → ¬ SamePoint p (Edge.midpoint ⟨e.v1, e.v2⟩) := by
    intro s hm p hp hpq
    have hon : OnSegment s.1 s.2 (Edge.midpoint ⟨e.v1, e.v2⟩) := (onSegment_congr ⟨rfl, rfl⟩ ⟨rfl, rfl⟩ hpq).1 hp
    obtain ⟨r, hr, sr, hside | hside⟩ := Edged.solid hT hs0 hsol0 hreal hE hm
    · rcases hT.apart.edges_clear ht ht' hr st st' sr he he' hside hq hon with h | h
      · exact h1 (by rw [← h]; exact hm)
      · apply h2
        have e1 := congrArg Edge.v1 h
        have e2 := congrArg Edge.v2 h
        simp only [Edge.opposite] at e1 e2
        rw [← e1, ← e2]; exact hm
    · rcases hT.apart.edges_clear ht ht' hr st st' sr he he' hside hq (onSegment_symm hon) with h | h
      · apply h2
        rw [← h]; exact hm
      · apply h1
        have e1 := congrArg Edge.v1 h
        have e2 := congrArg Edge.v2 h
        simp only [Edge.opposite] at e1 e2
        rw [← e1, ← e2]; exact hm
  have key : ∀ {r : Tri (Vertex K)}, r ∈ T → SolidTri r → Within r (Edge.midpoint ⟨e.v1, e.v2⟩) →
      windingNumber (pairs l false) (Edge.midpoint ⟨e.v1, e.v2⟩) = windingNumber (pairs l false) (middle r) := by
    intro r hr sr hwi
    refine winding_const l fun s hm p hp hpc => ?_
    rcases towards_inner hwi (inner_middle sr) hpc with h | h
    · exact hoffq s hm p hp h
    · exact Edged.off hT hs0 hsol0 hreal hE hr sr h s hm hp
  rw [← key ht st (within_side st he hq.1), key ht' st' (within_side st' he' hq'.1)]

/-- A triangle under a hull edge that is not on the polygon is outside the polygon. -/
theorem Edged.hull_outside {t r : Tri (Vertex K)} (ht : t ∈ T) (st : SolidTri t) (hr : r ∈ T) (gr : GhostTri g r)
    (he : IsSide t ⟨r.v2, r.v1⟩) (h1 : (r.v1, r.v2) ∉ pairs l false) (h2 : (r.v2, r.v1) ∉ pairs l false) :
    windingNumber (pairs l false) (middle t) = 0 := by
  have hab : ¬ SamePoint r.v2 r.v1 := fun h => real_ne gr.r1 gr.r2 gr.ne ⟨h.1.symm, h.2.symm⟩
  have hq := midpoint_strictlyOn hab
  have hz : cross r.v1 r.v2 (Edge.midpoint ⟨r.v2, r.v1⟩) = 0 := onSegment_cross (onSegment_symm hq.1)
  have hmid := hT.inner_right_strict hr gr ht st (inner_middle st)
  have hoffq : ∀ s ∈ pairs l false, ∀ p, OnSegment s.1 s.2 p → ¬ SamePoint p (Edge.midpoint ⟨r.v2, r.v1⟩) := by
    intro s hm p hp hpq
    have hon : OnSegment s.1 s.2 (Edge.midpoint ⟨r.v2, r.v1⟩) := (onSegment_congr ⟨rfl, rfl⟩ ⟨rfl, rfl⟩ hpq).1 hp
    obtain ⟨t', ht', st', hside⟩ := Edged.solid hT hs0 hsol0 hreal hE hm
    have hwi : Within t' (Edge.midpoint ⟨r.v2, r.v1⟩) := by
      rcases hside with h | h
      · exact within_side st' h hon
      · exact within_side st' h (onSegment_symm hon)
    by_cases hne : t = t'
    · subst hne
      rcases hside with h | h
      · have := st.side_only he h hq hon
        injection this with e1 e2
        exact h2 (by rw [← e1, ← e2]; exact hm)
      · have := st.side_only he h hq (onSegment_symm hon)
        injection this with e1 e2
        exact h1 (by rw [← e1, ← e2]; exact hm)
    · have k1 := hT.apart.edge_clear ht ht' st st' he hq hwi hne (inner_middle st')
      have k2 := hT.inner_right_strict hr gr ht' st' (inner_middle st')
      simp only at k1
      rw [cross_swap] at k1
      linarith
  have hl : ∀ v ∈ l, cross r.v1 r.v2 v ≤ 0 := fun v hv =>
    (hT.hull r hr gr v (Edged.vertex hT hs0 hsol0 hreal hE hv)).1
  have e1 : windingNumber (pairs l false) (Edge.midpoint ⟨r.v2, r.v1⟩) = windingNumber (pairs l false) (middle t) := by
    refine winding_const l fun s hm p hp hpc => ?_
    rcases towards_inner (within_side st he hq.1) (inner_middle st) hpc with h | h
    · exact hoffq s hm p hp h
    · exact Edged.off hT hs0 hsol0 hreal hE ht st h s hm hp
  have hpt : 0 < cross r.v1 r.v2 (lerp (Edge.midpoint ⟨r.v2, r.v1⟩) (middle t) (-1)) := by
    rw [cross_lerp, hz]; linarith
  have e2 : windingNumber (pairs l false) (Edge.midpoint ⟨r.v2, r.v1⟩) =
      windingNumber (pairs l false) (lerp (Edge.midpoint ⟨r.v2, r.v1⟩) (middle t) (-1)) := by
    refine winding_const l fun s hm p hp hpc => ?_
    obtain ⟨k, k0, k1, hk⟩ := onSegment_lerp_iff hpc
    rcases k0.lt_or_eq with h0 | h0
    · have hx : 0 < cross r.v1 r.v2 p := by
        have : cross r.v1 r.v2 p = cross r.v1 r.v2 (lerp (Edge.midpoint ⟨r.v2, r.v1⟩)
            (lerp (Edge.midpoint ⟨r.v2, r.v1⟩) (middle t) (-1)) k) := by simp only [cross, hk.1, hk.2]
        rw [this, cross_lerp, hz]
        nlinarith
      obtain ⟨m, m0, m1, mx, my⟩ := hp
      obtain ⟨v1, v2⟩ := mem_pairs hm
      have e : cross r.v1 r.v2 p = (1 - m) * cross r.v1 r.v2 s.1 + m * cross r.v1 r.v2 s.2 := by
        simp only [cross, mx, my]; ring
      rw [e] at hx
      nlinarith [mul_nonneg m0 (neg_nonneg.2 (hl _ v2)), mul_nonneg (sub_nonneg.2 m1) (neg_nonneg.2 (hl _ v1))]
    · refine hoffq s hm p hp ?_
      rw [← h0] at hk
      exact ⟨by rw [hk.1]; simp [lerp], by rw [hk.2]; simp [lerp]⟩
  rw [← e1, e2]
  exact beyond_outside (real_ne gr.r1 gr.r2 gr.ne) hl hpt

include hs hw

/-- A triangle at a side of the polygon is inside or outside, according to its side. -/
theorem Edged.at_side {s : Vertex K × Vertex K} (hm : s ∈ pairs l false) {t : Tri (Vertex K)} (ht : t ∈ T)
    (st : SolidTri t) :
    (IsSide t ⟨s.1, s.2⟩ → windingNumber (pairs l false) (middle t) = 1) ∧
      (IsSide t ⟨s.2, s.1⟩ → windingNumber (pairs l false) (middle t) = 0) := by
  have hq := midpoint_strictlyOn (hs.proper s hm)
  have key : Within t (Edge.midpoint ⟨s.1, s.2⟩) → ∀ r ∈ pairs l false, ∀ p, OnSegment r.1 r.2 p →
      OnSegment (Edge.midpoint ⟨s.1, s.2⟩) (middle t) p → SamePoint p (Edge.midpoint ⟨s.1, s.2⟩) := by
    intro hwi r hr p hp hpc
    rcases towards_inner hwi (inner_middle st) hpc with h | h
    · exact h
    · exact absurd hp (Edged.off hT hs0 hsol0 hreal hE ht st h r hr)
  constructor
  · intro he
    obtain ⟨p, -, -, -, -, hp, hin, -⟩ := st.side he
    exact (side_values hs hw hm hq (key (within_side st he hq.1))).2 (((hin _).1 (inner_middle st)).1)
  · intro he
    obtain ⟨p, -, -, -, -, hp, hin, -⟩ := st.side he
    have := ((hin _).1 (inner_middle st)).1
    simp only at this
    rw [cross_swap] at this
    exact (side_values hs hw hm hq (key (within_side st he (onSegment_symm hq.1)))).1 (by linarith)

/-- What the carving reaches is outside. -/
theorem Edged.reach_outside {b : Polyline (Vertex K)} (hb : b.vertices = l) {t : Tri (Vertex K)}
    (h : Reach T (outerWall b) t) : t ∈ T ∧ (SolidTri t → windingNumber (pairs l false) (middle t) = 0) := by
  have hwall : ∀ {t : Tri (Vertex K)} {e : Edge (Vertex K)}, t ∈ T → e ∈ outerWall b → IsSide t e → SolidTri t →
      windingNumber (pairs l false) (middle t) = 0 := by
    intro t e ht he hte st
    obtain ⟨s, hm, rfl⟩ := List.mem_map.1 he
    rw [hb] at hm
    exact (Edged.at_side hT hs0 hsol0 hreal hE hs hw hm ht st).2 hte
  induction h with
  | start h1 h2 h3 => exact ⟨h1, hwall h1 h2 h3⟩
  | @step r t e h1 h2 h3 h4 h5 ih =>
    refine ⟨h4, fun st => ?_⟩
    by_cases hin : e.opposite ∈ outerWall b
    · exact hwall h4 hin h5 st
    have n1 : (e.v1, e.v2) ∉ pairs l false := by
      intro h
      exact hin (List.mem_map.2 ⟨(e.v1, e.v2), by rw [hb]; exact h, rfl⟩)
    have n2 : (e.v2, e.v1) ∉ pairs l false := by
      intro h
      exact h3 (List.mem_map.2 ⟨(e.v2, e.v1), by rw [hb]; exact h, rfl⟩)
    obtain ⟨p, -, r1, r2, -⟩ := st.side h5
    have hre : RealEdge e := ⟨r2, r1⟩
    rcases hT.side_real ih.1 h2 hre with ⟨k, -⟩ | ⟨k, k1, k2⟩
    · rw [← Edged.same_side hT hs0 hsol0 hreal hE ih.1 h4 k st h2 h5 n1 n2]
      exact ih.2 k
    · refine Edged.hull_outside hT hs0 hsol0 hreal hE h4 st ih.1 k ?_ ?_ ?_
      · rw [← k1, ← k2]; exact h5
      · rw [← k1, ← k2]; exact n1
      · rw [← k1, ← k2]; exact n2

/-- Each side of the polygon has a triangle inside that is not reached. -/
theorem Edged.kept_side {b : Polyline (Vertex K)} (hb : b.vertices = l) {s : Vertex K × Vertex K} (hm : s ∈ pairs l false) :
    ∃ t ∈ T, SolidTri t ∧ IsSide t ⟨s.1, s.2⟩ ∧ ¬ Reach T (outerWall b) t := by
  obtain ⟨t, ht, he⟩ := hE s hm
  obtain ⟨v1, v2⟩ := mem_pairs hm
  rcases hT.side_real ht he ⟨hreal _ v1, hreal _ v2⟩ with ⟨k, -⟩ | ⟨k, k1, k2⟩
  · refine ⟨t, ht, k, he, fun hr => ?_⟩
    have h1 := (Edged.reach_outside hT hs0 hsol0 hreal hE hs hw hb hr).2 k
    have h2 := (Edged.at_side hT hs0 hsol0 hreal hE hs hw hm ht k).1 he
    omega
  · exfalso
    simp only at k1 k2
    refine side_not_hull hs hw hm fun v hv => ?_
    rw [k1, k2]
    exact (hT.hull t ht k v (Edged.vertex hT hs0 hsol0 hreal hE hv)).1

end

section chord

variable {g : Vertex K} {T : List (Tri (Vertex K))}

/-- The power of a point with respect to a circle and to the circumcircle of a triangle differ by an affine function. -/
theorem power_affine (a b c o w : Vertex K) (R : K) :
    cross a b c * (cross a b c * (dist2 o w - R) + circleDet a b c w) =
      cross b c w * (cross a b c * (dist2 o a - R)) + cross c a w * (cross a b c * (dist2 o b - R))
        + cross a b w * (cross a b c * (dist2 o c - R)) := by
  simp only [circleDet_btw, cross, btw, dist2]; ring

/-- A side with a circle that is free of other vertices is an edge of each Delaunay mesh with its ends. -/
theorem Good.chord (hT : Good g T) {s : Tri (Vertex K)} (hs : s ∈ T) (hsol : SolidTri s) {l : List (Vertex K)}
    (hl : ∀ p, Vx T p → p ∈ l) {a b : Vertex K} (ha : Vx T a) (hb : Vx T b) (hab : a ≠ b) (hf : FreeChord l a b) :
    ∃ t ∈ T, IsSide t ⟨a, b⟩ := by
  obtain ⟨o, ho, hfree⟩ := hf
  have hne := real_ne ha.2 hb.2 hab
  obtain ⟨t, ht, st, w1, w2, w3⟩ := hT.covered hs hsol (w := Edge.midpoint ⟨a, b⟩) (by
    intro r hr gr
    have h1 := (hT.hull r hr gr a ha).1
    have h2 := (hT.hull r hr gr b hb).1
    have : cross r.v1 r.v2 (Edge.midpoint ⟨a, b⟩) = (cross r.v1 r.v2 a + cross r.v1 r.v2 b) / 2 := by
      simp only [cross, Edge.midpoint, Vertex.mk']; ring
    rw [this]; linarith)
  have hD := st.ccw
  have hcorner : ∀ c, IsCorner t c → Vx T c := by
    intro c hc
    refine ⟨⟨t, ht, hc⟩, ?_⟩
    rcases hc with rfl | rfl | rfl
    exacts [st.r1, st.r2, st.r3]
  have hpow : ∀ c, IsCorner t c → 0 ≤ dist2 o c - dist2 o a ∧ (c = a ∨ c = b ∨ 0 < dist2 o c - dist2 o a) := by
    intro c hc
    by_cases h1 : c = a
    · subst h1; exact ⟨by linarith, Or.inl rfl⟩
    by_cases h2 : c = b
    · subst h2; exact ⟨by rw [ho]; linarith, Or.inr (Or.inl rfl)⟩
    have := hfree c (hl c (hcorner c hc)) h1 h2
    exact ⟨by linarith, Or.inr (Or.inr (by linarith))⟩
  have hq0 : cross t.v1 t.v2 t.v3 * (dist2 o (Edge.midpoint ⟨a, b⟩) - dist2 o a)
      + circleDet t.v1 t.v2 t.v3 (Edge.midpoint ⟨a, b⟩) ≤ 0 := by
    have h1 := hT.empty t ht st a ha
    have h2 := hT.empty t ht st b hb
    have e : cross t.v1 t.v2 t.v3 * (dist2 o (Edge.midpoint ⟨a, b⟩) - dist2 o a)
        + circleDet t.v1 t.v2 t.v3 (Edge.midpoint ⟨a, b⟩) =
        (circleDet t.v1 t.v2 t.v3 a + circleDet t.v1 t.v2 t.v3 b) / 2
          + cross t.v1 t.v2 t.v3 * (dist2 o b - dist2 o a) / 2 := by
      simp only [circleDet_btw, cross, btw, dist2, Edge.midpoint, Vertex.mk']; ring
    rw [e, ho]
    linarith
  have e := power_affine t.v1 t.v2 t.v3 o (Edge.midpoint ⟨a, b⟩) (dist2 o a)
  have hle : cross t.v1 t.v2 t.v3 * (cross t.v1 t.v2 t.v3 * (dist2 o (Edge.midpoint ⟨a, b⟩) - dist2 o a)
      + circleDet t.v1 t.v2 t.v3 (Edge.midpoint ⟨a, b⟩)) ≤ 0 := mul_nonpos_of_nonneg_of_nonpos hD.le hq0
  rw [e] at hle
  obtain ⟨p1, q1⟩ := hpow t.v1 (Or.inl rfl)
  obtain ⟨p2, q2⟩ := hpow t.v2 (Or.inr (Or.inl rfl))
  obtain ⟨p3, q3⟩ := hpow t.v3 (Or.inr (Or.inr rfl))
  have n1 := mul_nonneg w1 (mul_nonneg hD.le p1)
  have n2 := mul_nonneg w2 (mul_nonneg hD.le p2)
  have n3 := mul_nonneg w3 (mul_nonneg hD.le p3)
  have key : ∀ {β : K} {c : Vertex K}, 0 ≤ β → β * (cross t.v1 t.v2 t.v3 * (dist2 o c - dist2 o a)) ≤ 0 →
      (c = a ∨ c = b ∨ 0 < dist2 o c - dist2 o a) → β = 0 ∨ c = a ∨ c = b := by
    intro β c h1 h2 h3
    rcases h3 with h | h | h
    · exact Or.inr (Or.inl h)
    · exact Or.inr (Or.inr h)
    · left
      rcases h1.lt_or_eq with h' | h'
      · have := mul_pos h' (mul_pos hD h); linarith
      · exact h'.symm
  have k1 := key w1 (by linarith) q1
  have k2 := key w2 (by linarith) q2
  have k3 := key w3 (by linarith) q3
  -- two corners carry the midpoint
  have hsum := cross_sum t.v1 t.v2 t.v3 (Edge.midpoint ⟨a, b⟩)
  have hx : cross t.v1 t.v2 t.v3 * (Edge.midpoint ⟨a, b⟩).x = cross t.v2 t.v3 (Edge.midpoint ⟨a, b⟩) * t.v1.x
      + cross t.v3 t.v1 (Edge.midpoint ⟨a, b⟩) * t.v2.x + cross t.v1 t.v2 (Edge.midpoint ⟨a, b⟩) * t.v3.x := by
    simp only [cross]; ring
  have hy : cross t.v1 t.v2 t.v3 * (Edge.midpoint ⟨a, b⟩).y = cross t.v2 t.v3 (Edge.midpoint ⟨a, b⟩) * t.v1.y
      + cross t.v3 t.v1 (Edge.midpoint ⟨a, b⟩) * t.v2.y + cross t.v1 t.v2 (Edge.midpoint ⟨a, b⟩) * t.v3.y := by
    simp only [cross]; ring
  have hmid := midpoint_strictlyOn hne
  have single : ∀ c : Vertex K, (c = a ∨ c = b) →
      cross t.v1 t.v2 t.v3 * (Edge.midpoint ⟨a, b⟩ : Vertex K).x = cross t.v1 t.v2 t.v3 * c.x →
      cross t.v1 t.v2 t.v3 * (Edge.midpoint ⟨a, b⟩ : Vertex K).y = cross t.v1 t.v2 t.v3 * c.y → False := by
    intro c hc e1 e2
    have e1 := mul_left_cancel₀ hD.ne' e1
    have e2 := mul_left_cancel₀ hD.ne' e2
    rcases hc with rfl | rfl
    · exact hmid.2.1 ⟨e1.symm, e2.symm⟩
    · exact hmid.2.2 ⟨e1.symm, e2.symm⟩
  have done : ∀ {e : Edge (Vertex K)}, IsSide t e → (e.v1 = a ∨ e.v1 = b) → (e.v2 = a ∨ e.v2 = b) →
      ∃ t ∈ T, IsSide t ⟨a, b⟩ := by
    intro e he h1 h2
    obtain ⟨p, -, -, -, -, hp, -⟩ := st.side he
    have hdiff : e.v1 ≠ e.v2 := by
      intro h; rw [h] at hp; simp [cross] at hp
    obtain ⟨u, v⟩ := e
    simp only at h1 h2 hdiff
    rcases h1 with rfl | rfl <;> rcases h2 with rfl | rfl
    · exact absurd rfl hdiff
    · exact ⟨t, ht, he⟩
    · obtain ⟨t', ht', he'⟩ := hT.across ht he
      exact ⟨t', ht', he'⟩
    · exact absurd rfl hdiff
  have s12 : IsSide t ⟨t.v1, t.v2⟩ := Or.inl ⟨rfl, rfl⟩
  have s23 : IsSide t ⟨t.v2, t.v3⟩ := Or.inr (Or.inl ⟨rfl, rfl⟩)
  have s31 : IsSide t ⟨t.v3, t.v1⟩ := Or.inr (Or.inr ⟨rfl, rfl⟩)
  rcases k1 with z1 | k1
  · rcases k2 with z2 | k2
    · exfalso
      rcases k3 with z3 | k3
      · linarith
      · have h3 : cross t.v1 t.v2 (Edge.midpoint ⟨a, b⟩) = cross t.v1 t.v2 t.v3 := by linarith
        refine single t.v3 k3 ?_ ?_
        · rw [hx, z1, z2, h3]; ring
        · rw [hy, z1, z2, h3]; ring
    · rcases k3 with z3 | k3
      · exfalso
        have h3 : cross t.v3 t.v1 (Edge.midpoint ⟨a, b⟩) = cross t.v1 t.v2 t.v3 := by linarith
        refine single t.v2 k2 ?_ ?_
        · rw [hx, z1, z3, h3]; ring
        · rw [hy, z1, z3, h3]; ring
      · exact done s23 k2 k3
  · rcases k2 with z2 | k2
    · rcases k3 with z3 | k3
      · exfalso
        have h3 : cross t.v2 t.v3 (Edge.midpoint ⟨a, b⟩) = cross t.v1 t.v2 t.v3 := by linarith
        refine single t.v1 k1 ?_ ?_
        · rw [hx, z2, z3, h3]; ring
        · rw [hy, z2, z3, h3]; ring
      · exact done s31 k3 k1
    · exact done s12 k1 k2

end chord

end Verif
