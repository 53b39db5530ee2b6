import Verif.Lemmas.BoundaryStep

/-!
# The outside of a simple polygon is connected
-/

set_option linter.unusedSectionVars false

namespace Verif

open Spec Props

section lists

variable {V : Type*} [DecidableEq V]

theorem consecutive_index {l : List V} (hn : l.Nodup) : ∀ s ∈ consecutivePairs l, l.idxOf s.2 = l.idxOf s.1 + 1 := by
  induction l with
  | nil => simp [consecutivePairs]
  | cons a l ih =>
    cases l with
    | nil => simp [consecutivePairs]
    | cons b l =>
      obtain ⟨h1, h2⟩ := List.nodup_cons.1 hn
      intro s hs
      rw [consecutivePairs, List.mem_cons] at hs
      rcases hs with rfl | hs
      · have : a ≠ b := fun h => h1 (by rw [h]; simp)
        simp [this]
      · have hm : ∀ {l : List V} {s : V × V}, s ∈ consecutivePairs l → s.1 ∈ l ∧ s.2 ∈ l := by
          intro l s hs
          exact mem_pairs (l := l) (o := true) (by simpa [pairs] using hs)
        obtain ⟨m1, m2⟩ := hm hs
        have n1 : a ≠ s.1 := fun h => h1 (h ▸ m1)
        have n2 : a ≠ s.2 := fun h => h1 (h ▸ m2)
        rw [List.idxOf_cons_ne _ n1, List.idxOf_cons_ne _ n2, ih h2 s hs]

/-- A part of a closed polyline without repeated vertices that enters each vertex as often as it leaves it is empty or
the whole polyline. -/
theorem closed_part {l : List V} (hl : l.Nodup) {X : List (V × V)} (hX : X.Nodup) (hs : ∀ s ∈ X, s ∈ pairs l false)
    (h0 : ∀ ψ : V → ℤ, (X.map fun s => ψ s.2 - ψ s.1).sum = 0) : X = [] ∨ ∀ s ∈ pairs l false, s ∈ X := by
  cases l with
  | nil =>
    left
    rw [List.eq_nil_iff_forall_not_mem]
    intro s h
    simpa [pairs, consecutivePairs] using hs s h
  | cons a l =>
    let z := (a :: l).getLast (by simp)
    have hp : pairs (a :: l) false = consecutivePairs (a :: l) ++ [(z, a)] := by
      simp [pairs, z, List.getLast?_eq_some_getLast (List.cons_ne_nil a l)]
    have hz : (a :: l).idxOf z = l.length := by
      have := hl.idxOf_getElem (a :: l).length.pred (by simp)
      simpa [z, List.getLast_eq_getElem] using this
    have ha : (a :: l).idxOf a = 0 := by simp
    have hlen : (pairs (a :: l) false).length = l.length + 1 := by
      have := (pairs_snd (a :: l)).length_eq
      simpa using this
    have key : ∀ s ∈ pairs (a :: l) false, ((((a :: l).idxOf s.2 : ℕ) : ℤ) - ((a :: l).idxOf s.1 : ℕ)) =
        1 - (if s = (z, a) then ((l.length : ℤ) + 1) else 0) := by
      intro s hs
      rw [hp, List.mem_append, List.mem_singleton] at hs
      rcases hs with h | rfl
      · have := consecutive_index hl s h
        rw [if_neg]
        · rw [this]; push_cast; ring
        · rintro rfl
          simp only [ha] at this
          omega
      · rw [if_pos rfl]; simp only [hz, ha]; push_cast; ring
    have hsum : ∀ X : List (V × V), (∀ s ∈ X, s ∈ pairs (a :: l) false) →
        (X.map fun s => ((((a :: l).idxOf s.2 : ℕ) : ℤ) - ((a :: l).idxOf s.1 : ℕ))).sum =
          X.length - X.count (z, a) * ((l.length : ℤ) + 1) := by
      intro X
      induction X with
      | nil => simp
      | cons s X ih =>
        intro hs
        rw [List.map_cons, List.sum_cons, ih fun t ht => hs t (List.mem_cons_of_mem _ ht), key s (hs s List.mem_cons_self),
          List.count_cons, List.length_cons]
        by_cases h : s = (z, a)
        · rw [if_pos h, if_pos (by simpa using h)]; push_cast; ring
        · rw [if_neg h, if_neg (by simpa using h)]; push_cast; ring
    have e := h0 fun v => (((a :: l).idxOf v : ℕ) : ℤ)
    rw [hsum X hs] at e
    by_cases hm : (z, a) ∈ X
    · right
      rw [List.count_eq_one_of_mem hX hm] at e
      have hX' : X.length = l.length + 1 := by push_cast at e; omega
      have hsub : X.Subperm (pairs (a :: l) false) := hX.subperm hs
      have := hsub.perm_of_length_le (by omega)
      exact fun s hs => this.mem_iff.2 hs
    · left
      rw [List.count_eq_zero.2 hm] at e
      simp at e
      exact e

end lists

variable {K : Type*} [Field K] [LinearOrder K] [IsStrictOrderedRing K]

/-- The point is strictly outside the polygon. -/
def Beyond (l : List (Vertex K)) (p : Vertex K) : Prop :=
  (∀ s ∈ pairs l false, ¬ OnSegment s.1 s.2 p) ∧ windingNumber (pairs l false) p = 0

/-- What is reached from the hull without crossing the wall. -/
inductive Exposed (g : Vertex K) (T : List (Tri (Vertex K))) (S : List (Edge (Vertex K))) : Tri (Vertex K) → Prop
  | start {t : Tri (Vertex K)} : t ∈ T → GhostTri g t → Exposed g T S t
  | step {s t : Tri (Vertex K)} {e : Edge (Vertex K)} : Exposed g T S s → IsSide s e → e ∉ S → e.opposite ∉ S → t ∈ T →
      IsSide t e.opposite → Exposed g T S t

theorem Exposed.mem {g : Vertex K} {T : List (Tri (Vertex K))} {S : List (Edge (Vertex K))} {t : Tri (Vertex K)}
    (h : Exposed g T S t) : t ∈ T := by
  cases h <;> assumption

section

variable {g : Vertex K} {T : List (Tri (Vertex K))} {b : Polyline (Vertex K)}

theorem mem_wall {e : Edge (Vertex K)} : e ∈ outerWall b ↔ (e.v2, e.v1) ∈ pairs b.vertices false := by
  constructor
  · intro h
    obtain ⟨s, hs, rfl⟩ := List.mem_map.1 h
    exact hs
  · intro h
    exact List.mem_map.2 ⟨_, h, rfl⟩

variable (hT : Good g T) {s0 : Tri (Vertex K)} (hs0 : s0 ∈ T) (hsol0 : SolidTri s0)
  (hreal : ∀ v ∈ b.vertices, v.isGhost = false) (hE : Edged T b.vertices) (hs : SimplePolygon b.vertices)
  (hw : WindsOnce b.vertices)

include hT hs0 hsol0 hreal hE

/-- A point inside an edge that is not on the polygon is off the polygon. -/
theorem Edged.edge_off {t : Tri (Vertex K)} (ht : t ∈ T) (st : SolidTri t) {e : Edge (Vertex K)} (he : IsSide t e)
    (h1 : (e.v1, e.v2) ∉ pairs b.vertices false) (h2 : (e.v2, e.v1) ∉ pairs b.vertices false) {q : Vertex K}
    (hq : StrictlyOn e.v1 e.v2 q) : ∀ s ∈ pairs b.vertices false, ¬ OnSegment s.1 s.2 q := by
  intro s hm hon
  obtain ⟨r, hr, sr, hside⟩ := Edged.solid hT hs0 hsol0 hreal hE hm
  have fin : ∀ f : Edge (Vertex K), (f = ⟨s.1, s.2⟩ ∨ f = ⟨s.2, s.1⟩) → f = e ∨ f = e.opposite → False := by
    rintro f (rfl | rfl) (k | k)
    · exact h1 (by rw [← k]; exact hm)
    · have e1 := congrArg Edge.v1 k
      have e2 := congrArg Edge.v2 k
      simp only [Edge.opposite] at e1 e2
      exact h2 (by rw [← e1, ← e2]; exact hm)
    · exact h2 (by rw [← k]; exact hm)
    · have e1 := congrArg Edge.v1 k
      have e2 := congrArg Edge.v2 k
      simp only [Edge.opposite] at e1 e2
      exact h1 (by rw [← e1, ← e2]; exact hm)
  obtain ⟨p, -, r1, r2, -⟩ := st.side he
  obtain ⟨t', ht', he'⟩ := hT.across ht he
  rcases hT.side_real ht' he' ⟨r2, r1⟩ with ⟨st', -⟩ | ⟨gt', k1, k2⟩
  · rcases hside with hside | hside
    · exact fin _ (Or.inl rfl) (hT.apart.edges_clear ht ht' hr st st' sr he he' hside hq hon)
    · exact fin _ (Or.inr rfl) (hT.apart.edges_clear ht ht' hr st st' sr he he' hside hq (onSegment_symm hon))
  · have hwi : Within r q := by
      rcases hside with h | h
      · exact within_side sr h hon
      · exact within_side sr h (onSegment_symm hon)
    by_cases hne : t = r
    · subst hne
      rcases hside with h | h
      · exact fin _ (Or.inl rfl) (Or.inl (st.side_only he h hq hon))
      · exact fin _ (Or.inr rfl) (Or.inl (st.side_only he h hq (onSegment_symm hon)))
    · have k3 := hT.apart.edge_clear ht hr st sr he hq hwi hne (inner_middle sr)
      have k4 := hT.inner_right_strict ht' gt' hr sr (inner_middle sr)
      rw [← k1, ← k2] at k4
      simp only [Edge.opposite] at k4
      rw [cross_swap] at k4
      linarith

/-- The way from a point off the polygon into a triangle outside is outside. -/
theorem Edged.beyond_path {t : Tri (Vertex K)} (ht : t ∈ T) (st : SolidTri t)
    (h0 : windingNumber (pairs b.vertices false) (middle t) = 0) {q : Vertex K} (hq : Within t q)
    (hoff : ∀ s ∈ pairs b.vertices false, ¬ OnSegment s.1 s.2 q) {p : Vertex K} (hp : OnSegment q (middle t) p) :
    Beyond b.vertices p := by
  have hpt : ∀ x, OnSegment q (middle t) x → ∀ s ∈ pairs b.vertices false, ¬ OnSegment s.1 s.2 x := by
    intro x hx s hm hon
    rcases towards_inner hq (inner_middle st) hx with h | h
    · exact hoff s hm ((onSegment_congr ⟨rfl, rfl⟩ ⟨rfl, rfl⟩ h).1 hon)
    · exact Edged.off hT hs0 hsol0 hreal hE ht st h s hm hon
  refine ⟨hpt p hp, ?_⟩
  rw [← h0]
  refine winding_const _ fun s hm x hx hxp => hpt x ?_ s hm hx
  obtain ⟨k, k0, k1, kx, ky⟩ := hp
  obtain ⟨j, j0, j1, jx, jy⟩ := hxp
  refine ⟨k + j * (1 - k), by nlinarith, by nlinarith, ?_, ?_⟩
  · rw [jx, kx]; ring
  · rw [jy, ky]; ring

/-- A polygon without points outside the first one does not wind around exposed triangles. -/
theorem Edged.exposed {c : List (Vertex K)} (hc1 : ∀ s ∈ pairs c false, ∀ p, OnSegment s.1 s.2 p → ¬ Beyond b.vertices p)
    (hc2 : ∀ r ∈ T, GhostTri g r → ∀ v ∈ c, cross r.v1 r.v2 v ≤ 0) {t : Tri (Vertex K)}
    (h : Exposed g T (outerWall b) t) :
    SolidTri t → windingNumber (pairs b.vertices false) (middle t) = 0 ∧ windingNumber (pairs c false) (middle t) = 0 := by
  induction h with
  | start h1 h2 =>
    intro st
    exact absurd (hasGhost_last (by rw [h2.g3]; exact hT.ghost)) st.noGhost
  | @step r t e h1 h2 h3 h4 h5 h6 ih =>
    intro st
    have n1 : (e.v1, e.v2) ∉ pairs b.vertices false := fun h => h4 (mem_wall.2 h)
    have n2 : (e.v2, e.v1) ∉ pairs b.vertices false := fun h => h3 (mem_wall.2 h)
    obtain ⟨p, -, r1, r2, -, hp, -⟩ := st.side h6
    have hre : RealEdge e := ⟨r2, r1⟩
    have hab : ¬ SamePoint e.v1 e.v2 := by
      intro h
      simp only [Edge.opposite, cross, h.1, h.2] at hp
      simp at hp
    have hq := midpoint_strictlyOn hab
    have hq' : StrictlyOn e.opposite.v1 e.opposite.v2 (Edge.midpoint ⟨e.v1, e.v2⟩) :=
      ⟨onSegment_symm hq.1, hq.2.2, hq.2.1⟩
    have hoffq := Edged.edge_off hT hs0 hsol0 hreal hE h5 st h6 (by simpa [Edge.opposite] using n2)
      (by simpa [Edge.opposite] using n1) hq'
    have hconst : ∀ {r : Tri (Vertex K)}, r ∈ T → SolidTri r → windingNumber (pairs b.vertices false) (middle r) = 0 →
        Within r (Edge.midpoint ⟨e.v1, e.v2⟩) →
        windingNumber (pairs c false) (Edge.midpoint ⟨e.v1, e.v2⟩) = windingNumber (pairs c false) (middle r) := by
      intro r hr sr h0 hwi
      exact winding_const c fun s hm x hx hxp =>
        hc1 s hm x hx (Edged.beyond_path hT hs0 hsol0 hreal hE hr sr h0 hwi hoffq hxp)
    have hwt := within_side st h6 hq'.1
    rcases hT.side_real h1.mem h2 hre with ⟨k, -⟩ | ⟨k, k1, k2⟩
    · obtain ⟨i1, i2⟩ := ih k
      have hz : windingNumber (pairs b.vertices false) (middle t) = 0 := by
        rw [← Edged.same_side hT hs0 hsol0 hreal hE h1.mem h5 k st h2 h6 n1 n2]; exact i1
      refine ⟨hz, ?_⟩
      rw [← hconst h5 st hz hwt, hconst h1.mem k i1 (within_side k h2 hq.1)]
      exact i2
    · have hz : windingNumber (pairs b.vertices false) (middle t) = 0 := by
        refine Edged.hull_outside hT hs0 hsol0 hreal hE h5 st h1.mem k ?_ ?_ ?_
        · rw [← k1, ← k2]; exact h6
        · rw [← k1, ← k2]; exact n1
        · rw [← k1, ← k2]; exact n2
      refine ⟨hz, ?_⟩
      have hl := hc2 r h1.mem k
      have hmid := hT.inner_right_strict h1.mem k h5 st (inner_middle st)
      rw [← k1, ← k2] at hl hmid
      have hqz := onSegment_cross hq.1
      rw [← hconst h5 st hz hwt, show windingNumber (pairs c false) (Edge.midpoint ⟨e.v1, e.v2⟩) =
          windingNumber (pairs c false) (lerp (Edge.midpoint ⟨e.v1, e.v2⟩) (middle t) (-1)) from ?_]
      · refine beyond_outside hab hl ?_
        rw [cross_lerp, hqz]; linarith
      · refine winding_const c fun s hm p hp hpc => ?_
        obtain ⟨j, j0, j1, hj⟩ := onSegment_lerp_iff hpc
        rcases j0.lt_or_eq with h0 | h0
        · have hx : 0 < cross e.v1 e.v2 p := by
            have : cross e.v1 e.v2 p = cross e.v1 e.v2 (lerp (Edge.midpoint ⟨e.v1, e.v2⟩)
                (lerp (Edge.midpoint ⟨e.v1, e.v2⟩) (middle t) (-1)) j) := by simp only [cross, hj.1, hj.2]
            rw [this, cross_lerp, cross_lerp, hqz]
            nlinarith
          obtain ⟨m, m0, m1, mx, my⟩ := hp
          obtain ⟨v1, v2⟩ := mem_pairs hm
          have e' : cross e.v1 e.v2 p = (1 - m) * cross e.v1 e.v2 s.1 + m * cross e.v1 e.v2 s.2 := by
            simp only [cross, mx, my]; ring
          rw [e'] at hx
          nlinarith [mul_nonneg m0 (neg_nonneg.2 (hl _ v2)), mul_nonneg (sub_nonneg.2 m1) (neg_nonneg.2 (hl _ v1))]
        · refine hc1 s hm p hp ?_
          refine Edged.beyond_path hT hs0 hsol0 hreal hE h5 st hz hwt hoffq ⟨0, le_rfl, zero_le_one, ?_, ?_⟩
          · rw [hj.1, ← h0]; simp [lerp]
          · rw [hj.2, ← h0]; simp [lerp]

include hs hw

/-- All triangles outside the polygon are exposed. -/
theorem Edged.all_exposed (ha : 0 < shoelace b.vertices) {t : Tri (Vertex K)} (ht : t ∈ T) (st : SolidTri t)
    (h0 : windingNumber (pairs b.vertices false) (middle t) = 0) : Exposed g T (outerWall b) t := by
  classical
  by_contra hne
  let Q : Tri (Vertex K) → Prop := fun r => SolidTri r ∧ windingNumber (pairs b.vertices false) (middle r) = 0 ∧
    ¬ Exposed g T (outerWall b) r
  obtain ⟨Y, hY⟩ : ∃ Y, Y = T.filter fun r => decide (Q r) := ⟨_, rfl⟩
  have hmem : ∀ r, r ∈ Y ↔ r ∈ T ∧ Q r := by intro r; rw [hY, List.mem_filter, decide_eq_true_iff]
  have hsim : Simple Y := by
    refine simple_part (O := T.filter fun r => !decide (Q r)) hT.simple ?_
    rw [hY]; exact (List.filter_append_perm _ T).symm
  obtain ⟨X, hX⟩ : ∃ X, X = (sides Y).filter fun e => !decide (e.opposite ∈ sides Y) := ⟨_, rfl⟩
  have hrim : Rim Y X := by rw [hX]; exact rim_filter hsim
  have hXn : X.Nodup := by rw [hX]; exact hsim.nodup_sides.filter _
  have hXw : ∀ e ∈ X, e ∈ outerWall b := by
    intro e he
    rw [hX, List.mem_filter] at he
    obtain ⟨he1, he2⟩ := he
    obtain ⟨r, hr, hre⟩ := mem_sides.1 he1
    obtain ⟨hrT, sr, hr0, hrx⟩ := (hmem r).1 hr
    obtain ⟨p, -, r1, r2, -⟩ := sr.side hre
    by_contra hn
    have hn' : e.opposite ∉ outerWall b := by
      intro h
      have := (Edged.at_side hT hs0 hsol0 hreal hE hs hw (mem_wall.1 h) hrT sr).1 (by simpa [Edge.opposite] using hre)
      omega
    obtain ⟨r', hr', hre'⟩ := hT.across hrT hre
    have hback : ∀ {x : Tri (Vertex K)}, x = r' → Exposed g T (outerWall b) x → False := by
      rintro x rfl hx
      exact hrx (Exposed.step hx hre' hn' (by rw [opposite_opposite]; exact hn) hrT (by rw [opposite_opposite]; exact hre))
    rcases hT.shape r' hr' with sr' | gr'
    · have n1 : (e.v1, e.v2) ∉ pairs b.vertices false := fun h => hn' (mem_wall.2 h)
      have n2 : (e.v2, e.v1) ∉ pairs b.vertices false := fun h => hn (mem_wall.2 h)
      have hs1 := Edged.same_side hT hs0 hsol0 hreal hE hrT hr' sr sr' hre hre' n1 n2
      have : e.opposite ∈ sides Y :=
        mem_sides.2 ⟨r', (hmem r').2 ⟨hr', sr', by rw [← hs1]; exact hr0, fun h => hback rfl h⟩, hre'⟩
      simp [this] at he2
    · exact hback rfl (Exposed.start hr' gr')
  have hcyc : ∀ ψ : Vertex K → ℤ, ((X.map fun e => (e.v2, e.v1)).map fun s => ψ s.2 - ψ s.1).sum = 0 := by
    intro ψ
    have := hrim.cycle (R := ℤ) fun v => -ψ v
    rw [List.map_map, ← this]
    congr 1
    refine List.map_congr_left fun e _ => ?_
    simp only [Function.comp]; ring
  have hXn' : (X.map fun e => (e.v2, e.v1)).Nodup := by
    refine hXn.map fun e f h => ?_
    cases e; cases f
    simp only [Prod.mk.injEq] at h
    rw [h.1, h.2]
  have hsum := hrim.sum (f := shoe) shoe_opposite
  have hpos : 0 < (Y.map fun t => (t.innerEdges.map shoe).sum).sum := by
    refine List.sum_pos _ ?_ ?_
    · intro x hx
      obtain ⟨r, hr, rfl⟩ := List.mem_map.1 hx
      have sr := ((hmem r).1 hr).2.1
      rw [shoe_solid sr]; exact sr.ccw
    · intro h
      rw [List.map_eq_nil_iff] at h
      have := (hmem t).2 ⟨ht, st, h0, hne⟩
      rw [h] at this
      simp at this
  rw [hsum] at hpos
  rcases closed_part (simplePolygon_nodup hs) hXn' (by
      intro s hm
      obtain ⟨e, he, rfl⟩ := List.mem_map.1 hm
      exact mem_wall.1 (hXw e he)) hcyc with h | h
  · rw [List.map_eq_nil_iff] at h
    rw [h] at hpos
    simp at hpos
  · have hp : X.Perm (outerWall b) := by
      refine (List.perm_ext_iff_of_nodup hXn (outerWall_nodup (simplePolygon_nodup hs))).2 fun e => ⟨hXw e, fun he => ?_⟩
      obtain ⟨f, hf, hfe⟩ := List.mem_map.1 (h _ (mem_wall.1 he))
      simp only [Prod.mk.injEq] at hfe
      have : f = e := by
        cases f; cases e
        simp only at hfe
        rw [hfe.1, hfe.2]
      exact this ▸ hf
    rw [(hp.map shoe).sum_eq, shoe_wall hreal] at hpos
    linarith

/-- A point inside the polygon and strictly on the right of a side does not see both ends of the side. -/
theorem Edged.pocket (ha : 0 < shoelace b.vertices) {s : Vertex K × Vertex K} (hm : s ∈ pairs b.vertices false)
    {v : Vertex K} (hv : v.isGhost = false) (hin : windingNumber (pairs b.vertices false) v ≠ 0)
    (hneg : cross s.1 s.2 v < 0) (h1 : ∀ p, OnSegment s.1 v p → ¬ Beyond b.vertices p)
    (h2 : ∀ p, OnSegment v s.2 p → ¬ Beyond b.vertices p) : False := by
  obtain ⟨m1, m2⟩ := mem_pairs hm
  have hhull : ∀ r ∈ T, GhostTri g r → ∀ p ∈ b.vertices, cross r.v1 r.v2 p ≤ 0 := fun r hr gr p hp =>
    (hT.hull r hr gr p (Edged.vertex hT hs0 hsol0 hreal hE hp)).1
  have hhull' : ∀ r ∈ T, GhostTri g r → cross r.v1 r.v2 v ≤ 0 := by
    intro r hr gr
    by_contra hc
    push Not at hc
    exact hin (beyond_outside (real_ne gr.r1 gr.r2 gr.ne) (hhull r hr gr) hc)
  obtain ⟨t, ht, he⟩ := hE s hm
  obtain ⟨t', ht', he'⟩ := hT.across ht he
  have hon : ∀ p, OnSegment s.1 s.2 p → ¬ Beyond b.vertices p := fun p hp hb => hb.1 s hm hp
  rcases hT.side_real ht' he' ⟨hreal _ m2, hreal _ m1⟩ with ⟨st, -⟩ | ⟨gt, k1, k2⟩
  · have hz := (Edged.at_side hT hs0 hsol0 hreal hE hs hw hm ht' st).2 he'
    have hx := Edged.all_exposed hT hs0 hsol0 hreal hE hs hw ha ht' st hz
    let c : List (Vertex K) := [s.2, s.1, v]
    have hcp : pairs c false = [(s.2, s.1), (s.1, v), (v, s.2)] := rfl
    have hc1 : ∀ r ∈ pairs c false, ∀ p, OnSegment r.1 r.2 p → ¬ Beyond b.vertices p := by
      intro r hr p hp
      rw [hcp] at hr
      simp only [List.mem_cons, List.not_mem_nil, or_false] at hr
      rcases hr with rfl | rfl | rfl
      · exact hon p (onSegment_symm hp)
      · exact h1 p hp
      · exact h2 p hp
    obtain ⟨-, h0⟩ := Edged.exposed hT hs0 hsol0 hreal hE hc1 (by
      intro r hr gr x hx
      simp only [c, List.mem_cons, List.not_mem_nil, or_false] at hx
      rcases hx with rfl | rfl | rfl
      · exact hhull r hr gr _ m2
      · exact hhull r hr gr _ m1
      · exact hhull' r hr gr) hx st
    -- a point inside both triangles
    have hsw : 0 < cross s.2 s.1 v := by rw [cross_swap]; linarith
    have sc : SolidTri (⟨s.2, s.1, v⟩ : Tri (Vertex K)) := ⟨hreal _ m2, hreal _ m1, hv, hsw⟩
    have hab : ¬ SamePoint s.2 s.1 := fun h => hs.proper s hm ⟨h.1.symm, h.2.symm⟩
    have hq := midpoint_strictlyOn hab
    obtain ⟨d, hd, hdi⟩ := sc.beside (e := ⟨s.2, s.1⟩) (Or.inl ⟨rfl, rfl⟩) hq (c := middle t')
      (by
        obtain ⟨p, -, -, -, -, -, hi, -⟩ := st.side he'
        exact ((hi _).1 (inner_middle st)).1)
    have hk : 0 < min d 1 := lt_min hd one_pos
    have i1 := hdi _ hk (min_le_left _ _)
    have i2 : Inner t' (lerp (Edge.midpoint ⟨s.2, s.1⟩) (middle t') (min d 1)) :=
      inner_lerp (within_side st he' hq.1) (inner_middle st) hk (min_le_right _ _)
    have hoff := Edged.off hT hs0 hsol0 hreal hE ht' st i2
    have hbe : ∀ p, OnSegment (lerp (Edge.midpoint ⟨s.2, s.1⟩) (middle t') (min d 1)) (middle t') p →
        Beyond b.vertices p := fun p hp =>
      Edged.beyond_path hT hs0 hsol0 hreal hE ht' st hz (within_of_inner i2) hoff hp
    have e1 := winding_const c (v := lerp (Edge.midpoint ⟨s.2, s.1⟩) (middle t') (min d 1)) (w := middle t')
      fun r hr x hx hxp => hc1 r hr x hx (hbe x hxp)
    rw [h0, hcp] at e1
    have e2 := sum_crossings_ite sc (w := lerp (Edge.midpoint ⟨s.2, s.1⟩) (middle t') (min d 1)) (by
      intro f hf hfo
      obtain ⟨p, -, -, -, -, -, hi, -⟩ := sc.side hf
      have := ((hi _).1 i1).1
      rw [onSegment_cross hfo] at this
      exact lt_irrefl _ this)
    rw [if_pos i1] at e2
    simp only [windingNumber, List.map_cons, List.map_nil, List.sum_cons, List.sum_nil] at e1
    simp only at e2
    omega
  · have := hhull' t' ht' gt
    rw [← k1, ← k2] at this
    simp only [Edge.opposite] at this
    rw [cross_swap] at this
    linarith

end

end Verif
