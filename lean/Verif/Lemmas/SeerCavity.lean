import Verif.Lemmas.Seer

/-!
# Replacing the triangles that see a point by triangles around the point
-/

set_option linter.unusedSectionVars false

namespace Verif

open Spec Props

variable {K : Type*} [Field K] [LinearOrder K] [IsStrictOrderedRing K]

/-- Moving a little keeps a point off finitely many lines. -/
theorem stays_off {w : Vertex K} (p : Vertex K) (L : List (Edge (Vertex K))) (hL : ∀ e ∈ L, cross e.v1 e.v2 w ≠ 0) :
    ∃ d, 0 < d ∧ ∀ k, 0 ≤ k → k ≤ d → ∀ e ∈ L, cross e.v1 e.v2 (lerp w p k) ≠ 0 := by
  induction L with
  | nil => exact ⟨1, one_pos, by simp⟩
  | cons e L ih =>
    obtain ⟨d, hd, h⟩ := ih fun f hf => hL f (by simp [hf])
    have he := hL e (by simp)
    have : ∃ d, 0 < d ∧ ∀ k, 0 ≤ k → k ≤ d → cross e.v1 e.v2 (lerp w p k) ≠ 0 := by
      rcases lt_or_gt_of_ne he with h0 | h0
      · obtain ⟨d, hd, h⟩ := small (-cross e.v1 e.v2 p) (neg_pos.2 h0)
        refine ⟨d, hd, fun k k0 k1 => ?_⟩
        have := h k k0 k1
        rw [cross_lerp]
        intro hz
        nlinarith
      · obtain ⟨d, hd, h⟩ := small (cross e.v1 e.v2 p) h0
        refine ⟨d, hd, fun k k0 k1 => ?_⟩
        have := h k k0 k1
        rw [cross_lerp]
        exact this.ne'
    obtain ⟨d', hd', h'⟩ := this
    refine ⟨min d d', lt_min hd hd', fun k k0 k1 f hf => ?_⟩
    rcases List.mem_cons.1 hf with rfl | hf
    · exact h' k k0 (k1.trans (min_le_right _ _))
    · exact h k k0 (k1.trans (min_le_left _ _)) f hf

theorem exists_off {a b : Vertex K} (hab : ¬ SamePoint a b) : ∃ p, cross a b p ≠ 0 := by
  refine ⟨⟨a.x - (b.y - a.y), a.y + (b.x - a.x), false⟩, ?_⟩
  have hd := dist2_pos hab
  simp only [cross]
  simp only [dist2] at hd
  intro h'
  nlinarith

/-- Two overlapping triangles have a common inner point off finitely many lines. -/
theorem generic_point {s t : Tri (Vertex K)} (L : List (Edge (Vertex K))) (hL : ∀ e ∈ L, ¬ SamePoint e.v1 e.v2)
    {w : Vertex K} (h1 : Inner s w) (h2 : Inner t w) :
    ∃ w', Inner s w' ∧ Inner t w' ∧ ∀ e ∈ L, cross e.v1 e.v2 w' ≠ 0 := by
  induction L with
  | nil => exact ⟨w, h1, h2, by simp⟩
  | cons e L ih =>
    obtain ⟨w', k1, k2, k3⟩ := ih fun f hf => hL f (by simp [hf])
    by_cases h0 : cross e.v1 e.v2 w' = 0
    · obtain ⟨p, hp⟩ := exists_off (hL e (by simp))
      obtain ⟨d1, p1, q1⟩ := inner_open k1 p
      obtain ⟨d2, p2, q2⟩ := inner_open k2 p
      obtain ⟨d3, p3, q3⟩ := stays_off p L k3
      have hd : 0 < min d1 (min d2 d3) := lt_min p1 (lt_min p2 p3)
      refine ⟨lerp w' p (min d1 (min d2 d3)), q1 _ hd.le (min_le_left _ _),
        q2 _ hd.le ((min_le_right _ _).trans (min_le_left _ _)), fun f hf => ?_⟩
      rcases List.mem_cons.1 hf with rfl | hf
      · rw [cross_lerp, h0]
        simp only [sub_zero, zero_add]
        exact mul_ne_zero hd.ne' hp
      · exact q3 _ hd.le ((min_le_right _ _).trans (min_le_right _ _)) f hf
    · refine ⟨w', k1, k2, fun f hf => ?_⟩
      rcases List.mem_cons.1 hf with rfl | hf
      · exact h0
      · exact k3 f hf

theorem two_cover {T : List (Tri (Vertex K))} {w : Vertex K} (hc : coverings T w ≤ 1) {s t : Tri (Vertex K)} (hs : s ∈ T)
    (ht : t ∈ T) (h1 : SolidTri s) (h2 : SolidTri t) (w1 : Inner s w) (w2 : Inner t w) : s = t := by
  by_contra hne
  obtain ⟨l1, l2, rfl⟩ := List.append_of_mem hs
  have hp : (l1 ++ s :: l2).Perm (s :: (l1 ++ l2)) := List.perm_middle
  rw [coverings, hp.countP_eq, List.countP_cons_of_pos (by simpa using ⟨h1.noGhost, w1⟩)] at hc
  have h3 : t ∈ l1 ++ l2 := by
    have := hp.mem_iff.1 ht
    rcases List.mem_cons.1 this with h | h
    · exact absurd h.symm hne
    · exact h
  have h4 : 0 < (l1 ++ l2).countP fun t => decide (¬ HasGhost t ∧ Inner t w) :=
    List.countP_pos_iff.2 ⟨t, h3, by simpa using ⟨h2.noGhost, w2⟩⟩
  omega

theorem SolidTri.side_ne {t : Tri (Vertex K)} (h : SolidTri t) {e : Edge (Vertex K)} (he : IsSide t e) :
    ¬ SamePoint e.v1 e.v2 := by
  obtain ⟨c, -, -, -, -, hc, -⟩ := h.side he
  intro hs
  simp only [cross, hs.1, hs.2] at hc
  simp at hc

section

variable {g : Vertex K} {l : List (Vertex K)} {M : List (Tri (Vertex K))}

/-- In a closed mesh bounded by a simple polygon the triangles do not overlap. -/
theorem Lot.apart (h : Lot g l M) (hs : SimplePolygon l) (hw : WindsOnce l) : Apart M := by
  classical
  intro s hsM t ht ss st w w1 w2
  obtain ⟨w', k1, k2, k3⟩ := generic_point
    ((sides M).filter fun e => decide (¬ SamePoint e.v1 e.v2)) (by
      intro e he
      rw [List.mem_filter, decide_eq_true_iff] at he
      exact he.2) w1 w2
  have hoff : ∀ t ∈ M, SolidTri t → ∀ e, IsSide t e → ¬ OnSegment e.v1 e.v2 w' := by
    intro t ht st e he ho
    exact k3 e (List.mem_filter.2 ⟨mem_sides.2 ⟨t, ht, he⟩, by simpa using st.side_ne he⟩) (onSegment_cross ho)
  have h1 := h.coverings_eq hoff
  have h2 := hw w' fun s hm => by
    obtain ⟨t, ht, st, he⟩ := h.side (simplePolygon_back hs) hm
    exact hoff t ht st _ he
  exact two_cover (T := M) (by omega) hsM ht ss st k1 k2

/-- Two triangles with a common directed side are equal. -/
theorem Apart.same_side (hA : Apart M) {s t : Tri (Vertex K)} (hs : s ∈ M) (ht : t ∈ M) (ss : SolidTri s)
    (st : SolidTri t) {e : Edge (Vertex K)} (h1 : IsSide s e) (h2 : IsSide t e) : s = t := by
  obtain ⟨c, -, -, -, -, hc, -⟩ := ss.side h1
  have hq := midpoint_strictlyOn (ss.side_ne h1)
  obtain ⟨d, hd, k⟩ := ss.beside h1 hq hc
  obtain ⟨d', hd', k'⟩ := st.beside h2 hq hc
  have hm : 0 < min d d' := lt_min hd hd'
  exact hA s hs t ht ss st _ (k _ hm (min_le_left _ _)) (k' _ hm (min_le_right _ _))

/-- A corner is not inside another triangle nor inside one of its sides. -/
theorem Fit.corner_clear (h : Fit g l M) {r t : Tri (Vertex K)} (hr : r ∈ M) (sr : SolidTri r) (ht : t ∈ M)
    (st : SolidTri t) {q : Vertex K} (hq : IsCorner r q) (hw : Within t q) : circleDet t.v1 t.v2 t.v3 q ≤ 0 := by
  by_contra hc
  push Not at hc
  have hcor : ∀ {t : Tri (Vertex K)}, IsCorner t q → circleDet t.v1 t.v2 t.v3 q = 0 := by
    rintro t (k | k | k) <;> rw [k] <;> simp only [circleDet_btw, cross, btw] <;> ring
  have hwr : Within r q := by
    have e := cross_rotate r.v1 r.v2 r.v3
    have e' := cross_rotate r.v2 r.v3 r.v1
    have := sr.ccw
    rcases hq with k | k | k <;> rw [k] <;> simp only [Within]
    · exact ⟨by simp only [cross]; ring_nf; rfl, by rw [e]; exact this.le, by simp only [cross]; ring_nf; rfl⟩
    · exact ⟨by simp only [cross]; ring_nf; rfl, by simp only [cross]; ring_nf; rfl, by rw [e', e]; exact this.le⟩
    · exact ⟨this.le, by simp only [cross]; ring_nf; rfl, by simp only [cross]; ring_nf; rfl⟩
  by_cases hi : Inner t q
  · have := h.apart.face_clear ht hr st sr hi hwr
    subst this
    exact hc.ne' (hcor hq)
  · rw [inner_iff_sides] at hi
    push Not at hi
    obtain ⟨f, hf, hf0⟩ := hi
    have hf0 := le_antisymm hf0 (within_iff_sides.1 hw f hf)
    have hso := st.side_ccw hf hf0 hc
    have hne : t ≠ r := by
      rintro rfl
      exact hc.ne' (hcor hq)
    by_cases hwf : Wall l f
    · obtain ⟨c, hci, hc0⟩ := exists_inner_off sr (st.side_ne hf)
      have hneg := lt_of_le_of_ne (h.apart.edge_clear ht hr st sr hf hso hwr hne hci) hc0
      have h0 := (side_values h.poly h.winds hwf hso (c := c) (by
        intro s hm x hx hxp
        rcases towards_inner hwr hci hxp with k | k
        · exact k
        · obtain ⟨t', ht', st', hs'⟩ := h.lot.side (simplePolygon_back h.poly) hm
          exact absurd hx (h.apart.inner_off hr ht' sr st' hs' k))).1 hneg
      exact (h.tiles.inside r hr sr.noGhost c hci).2 h0
    · obtain ⟨t', ht', st', hf'⟩ := h.solid_across ht st hf hwf
      rcases h.apart.edge_clear' ht ht' hr st st' sr hf hf' hso hwr with k | k
      · exact hne k.symm
      · rw [← k] at hf'
        have := sr.circle_side hf' (q := q) ⟨onSegment_symm hso.1, hso.2.2, hso.2.1⟩
        exact this.ne' (hcor hq)

/-- A triangle does not see a corner of a triangle that it is in conflict with. -/
theorem Seer.no_corner (h : Fit g l M) {r t : Tri (Vertex K)} {q : Vertex K} (hS : Seer l M q t) (hr : r ∈ M)
    (sr : SolidTri r) (hq : IsCorner r q) : False := by
  induction hS with
  | here h1 h2 h3 h4 => exact absurd (h.corner_clear hr sr h1 h2 hq h4) (not_le.2 h3)
  | step h1 h2 h3 h4 h5 h6 h7 h8 ih => exact ih

theorem circleDet_mate (a b c d : Vertex K) : circleDet b a d c = circleDet a b c d := by
  simp only [circleDet_btw, cross, btw]; ring

/-- An edge of the border of the hole around a point: the triangle before it sees the point, the one behind it is not in
conflict. -/
structure Brim (l : List (Vertex K)) (M : List (Tri (Vertex K))) (v : Vertex K) (e : Edge (Vertex K)) : Prop where
  seer : ∃ r, Seer l M v r ∧ IsSide r e
  out : Wall l e ∨ ∃ t ∈ M, SolidTri t ∧ IsSide t e.opposite ∧ circleDet t.v1 t.v2 t.v3 v ≤ 0
  off : Wall l e → ¬ OnSegment e.v1 e.v2 v

namespace Brim

variable {v : Vertex K} {e : Edge (Vertex K)}

/-- The point is on the left of the border of the hole. -/
theorem left (h : Brim l M v e) (hF : Fit g l M) : 0 < cross e.v1 e.v2 v := by
  obtain ⟨r, hS, hre⟩ := h.seer
  rcases h.out with hw | ⟨t, ht, st, hte, hc⟩
  · exact hS.wall_pos hre hw (h.off hw)
  · by_contra hn
    push Not at hn
    rcases hn.lt_or_eq with k | k
    · obtain ⟨c, -, -, -, -, hcc, -, -, hcd, -⟩ := hS.solid.side hre
      obtain ⟨d, hdc, -, -, -, hd, -, -, hcd', -⟩ := st.side hte
      have hloc := hF.locally r hS.mem t ht hS.solid st e hre hte d hdc
      have hv := hS.conf
      rw [hcd] at hloc hv
      rw [hcd'] at hc
      exact absurd (conflict_across hcc hd hloc hv k) (not_lt.2 hc)
    · have hq := hS.solid.side_ccw hre k hS.conf
      exact absurd (st.circle_side hte (q := v) ⟨onSegment_symm hq.1, hq.2.2, hq.2.1⟩) (not_lt.2 hc)

theorem solid (h : Brim l M v e) (hF : Fit g l M) (hv : v.isGhost = false) :
    SolidTri (⟨e.v1, e.v2, v⟩ : Tri (Vertex K)) := by
  obtain ⟨r, hS, hre⟩ := h.seer
  obtain ⟨c, -, r1, r2, -⟩ := hS.solid.side hre
  exact ⟨r1, r2, hv, h.left hF⟩

/-- Two new triangles side by side are locally Delaunay. -/
theorem spoke (hF : Fit g l M) (hv : v.isGhost = false) {p a q : Vertex K} (h1 : Brim l M v ⟨p, a⟩)
    (h2 : Brim l M v ⟨a, q⟩) (n1 : ∀ z, Within (⟨p, a, v⟩ : Tri (Vertex K)) z → ¬ Beyond l z)
    (n2 : ∀ z, Within (⟨a, q, v⟩ : Tri (Vertex K)) z → ¬ Beyond l z) : circleDet p a v q ≤ 0 := by
  by_contra hc
  push Not at hc
  have s1 := h1.solid hF hv
  have s2 := h2.solid hF hv
  have c1 : 0 < cross p a v := h1.left hF
  have c2 : 0 < cross a q v := h2.left hF
  simp only at s1 s2
  have hav : cross a v q < 0 := by
    have : cross a v q = -cross a q v := by simp only [cross]; ring
    rw [this]; linarith
  have hpa : 0 < cross p a q := by
    by_contra hn
    push Not at hn
    have := s1.one_special hc (e := ⟨p, a⟩) (f := ⟨a, v⟩) (Or.inl ⟨rfl, rfl⟩) (Or.inr (Or.inl ⟨rfl, rfl⟩)) hn hav.le
    simp only [Edge.mk.injEq] at this
    rw [this.1, this.2] at c1
    simp only [cross] at c1
    ring_nf at c1
    simp at c1
  have hvp : 0 < cross v p q := by
    by_contra hn
    push Not at hn
    have := s1.one_special hc (e := ⟨v, p⟩) (f := ⟨a, v⟩) (Or.inr (Or.inr ⟨rfl, rfl⟩)) (Or.inr (Or.inl ⟨rfl, rfl⟩)) hn
      hav.le
    simp only [Edge.mk.injEq] at this
    rw [this.1] at c1
    simp only [cross] at c1
    ring_nf at c1
    simp at c1
  obtain ⟨r1, hS1, hre1⟩ := h1.seer
  obtain ⟨r2, hS2, hre2⟩ := h2.seer
  have hq1 : 0 < circleDet r1.v1 r1.v2 r1.v3 q := by
    obtain ⟨c, -, -, -, -, hcc, -, -, hcd, -⟩ := hS1.solid.side hre1
    have hv := hS1.conf
    rw [hcd] at hv ⊢
    have e := circleDet_pencil p a c v q
    simp only at hcc hv ⊢
    have k1 := mul_pos hc hcc
    have k2 := mul_pos hv hpa
    have k3 : 0 < circleDet p a c q * cross p a v := by linarith
    by_contra hn
    push Not at hn
    nlinarith
  have hm := midpoint_strictlyOn (a := p) (b := a) (hS1.solid.side_ne hre1)
  obtain ⟨m, hmdef⟩ : ∃ m, m = Edge.midpoint (⟨p, a⟩ : Edge (Vertex K)) := ⟨_, rfl⟩
  rw [← hmdef] at hm
  have mx : m.x = (p.x + a.x) / 2 := by rw [hmdef]; rfl
  have my : m.y = (p.y + a.y) / 2 := by rw [hmdef]; rfl
  classical
  have hS : Seer l M q r1 := by
    refine hF.seer (n := M.toFinset.card) (p := m) hS1.mem hS1.solid hq1 (within_side hS1.solid hre1 hm.1)
      (hS1.solid.circle_side hre1 hm) ?_ ?_ ?_
    · intro f hf hfq
      refine hS1.solid.others hre1 hf ?_ hm
      rintro rfl
      simp only at hfq
      linarith
    · intro z hz
      obtain ⟨k, k0, k1, hk⟩ := onSegment_lerp_iff hz
      have k1' : 0 ≤ 1 - k := by linarith
      have ez : ∀ x y : Vertex K, cross x y z = (1 - k) * cross x y m + k * cross x y q := by
        intro x y
        simp only [cross, hk.1, hk.2, lerp]; ring
      rcases le_total 0 (cross a v z) with hs | hs
      · refine n1 z ⟨?_, hs, ?_⟩
        · simp only
          rw [ez]
          have : cross p a m = 0 := by simp only [cross, mx, my]; ring
          rw [this]
          nlinarith [mul_nonneg k0 hpa.le]
        · simp only
          rw [ez]
          have : cross v p m = cross p a v / 2 := by simp only [cross, mx, my]; ring
          rw [this]
          nlinarith [mul_nonneg k0 hvp.le, mul_nonneg k1' c1.le]
      · refine n2 z ⟨?_, ?_, ?_⟩
        · simp only
          rw [ez]
          have e1 : cross a q m = cross p a q / 2 := by simp only [cross, mx, my]; ring
          have e2 : cross a q q = 0 := by simp only [cross]; ring
          rw [e1, e2]
          nlinarith [mul_nonneg k1' hpa.le]
        · simp only
          rw [ez]
          have e1 : cross q v m = (cross a q v + cross v p q) / 2 := by simp only [cross, mx, my]; ring
          have e2 : cross q v q = 0 := by simp only [cross]; ring
          rw [e1, e2]
          nlinarith [mul_nonneg k1' c2.le, mul_nonneg k1' hvp.le]
        · simp only
          have : cross v a z = -cross a v z := by simp only [cross]; ring
          rw [this]; linarith
    · intro S hS'
      exact Finset.card_le_card fun r hr => List.mem_toFinset.2 (hS' r hr).1
  exact hS.no_corner hF hS2.mem hS2.solid (isCorner_of_isSide hre2).2

end Brim

/-- The hole around a point: the triangles in it see the point, those around it are not in conflict. -/
structure Pit (l : List (Vertex K)) (M : List (Tri (Vertex K))) (v : Vertex K) (L : List (Edge (Vertex K)))
    (R : List (Tri (Vertex K))) : Prop where
  seer : ∀ r ∈ R, Seer l M v r
  edge : ∀ e ∈ L, ∃ r ∈ R, IsSide r e
  out : ∀ e ∈ L, Wall l e ∨ ∃ t ∈ M, SolidTri t ∧ IsSide t e.opposite ∧ circleDet t.v1 t.v2 t.v3 v ≤ 0
  real : v.isGhost = false
  off : ∀ s ∈ pairs l false, ¬ OnSegment s.1 s.2 v

theorem Pit.brim {v : Vertex K} {L : List (Edge (Vertex K))} {R : List (Tri (Vertex K))} (h : Pit l M v L R)
    {e : Edge (Vertex K)} (he : e ∈ L) : Brim l M v e := by
  obtain ⟨r, hr, hre⟩ := h.edge e he
  exact ⟨⟨r, h.seer r hr, hre⟩, h.out e he, fun hw => h.off _ hw⟩

theorem newTri_real {e : Edge (Vertex K)} {v : Vertex K} (h1 : e.v1.isGhost = false) (h2 : e.v2.isGhost = false) :
    newTri Vertex.isGhost e v = ⟨e.v1, e.v2, v⟩ := by
  simp [newTri, h1, h2]

/-- In such a mesh without repeated triangles no directed side is repeated. -/
theorem Lot.simple (h : Lot g l M) (hs : SimplePolygon l) (hw : WindsOnce l) (hA : Apart M) (hn : M.Nodup) : Simple M := by
  rw [simple_iff]
  have hg := h.ghost
  have hback : ∀ t ∈ M, SolidTri t → ∀ s ∈ pairs l false, ¬ IsSide t ⟨s.2, s.1⟩ := by
    intro t ht st s hm he
    have hq := midpoint_strictlyOn (hs.proper s hm)
    obtain ⟨c, -, -, -, -, hc, hi, -⟩ := st.side he
    have hmid := ((hi _).1 (inner_middle st)).1
    simp only at hmid
    rw [cross_swap] at hmid
    obtain ⟨z, hz, hb⟩ := wall_leaves hs hw (e := ⟨s.1, s.2⟩) hm (v := middle t) (by simp only; linarith) hq
    refine h.not_beyond hs hA ht st ?_ hb
    obtain ⟨k, k0, k1, hk⟩ := onSegment_lerp_iff hz
    rw [within_iff_sides]
    intro f hf
    have w1 := within_iff_sides.1 (within_side st he (onSegment_symm hq.1)) f hf
    have w2 := within_iff_sides.1 (within_of_inner (inner_middle st)) f hf
    have e : cross f.v1 f.v2 z = cross f.v1 f.v2 (lerp (Edge.midpoint ⟨s.1, s.2⟩) (middle t) k) := by
      simp only [cross, hk.1, hk.2]
    rw [e, cross_lerp]
    nlinarith [mul_nonneg k0 w2, mul_nonneg (sub_nonneg.2 k1) w1]
  have hfst : ∀ s ∈ pairs l false, ∀ s' ∈ pairs l false, s.1 = s'.1 → s = s' := by
    have : ((pairs l false).map Prod.fst).Nodup := by rw [pairs_fst]; exact simplePolygon_nodup hs
    exact fun s hm s' hm' e => List.inj_on_of_nodup_map this hm hm' e
  have hsnd : ∀ s ∈ pairs l false, ∀ s' ∈ pairs l false, s.2 = s'.2 → s = s' := by
    have : ((pairs l false).map Prod.snd).Nodup := (pairs_snd l).nodup_iff.2 (simplePolygon_nodup hs)
    exact fun s hm s' hm' e => List.inj_on_of_nodup_map this hm hm' e
  have hng : ∀ {x : Vertex K}, x.isGhost = false → x ≠ g := by
    rintro x hx rfl
    rw [hg] at hx; simp at hx
  have hmix : ∀ t ∈ M, ∀ s ∈ pairs l false, SolidTri t → ∀ e, IsSide t e → ¬ IsSide (⟨s.2, s.1, g⟩ : Tri (Vertex K)) e := by
    intro t ht s hm st e h1 h2
    obtain ⟨c, -, r1, r2, -⟩ := st.side h1
    rcases h2 with ⟨k1, k2⟩ | ⟨k1, k2⟩ | ⟨k1, k2⟩ <;> simp only at k1 k2
    · refine hback t ht st s hm ?_
      obtain ⟨e1, e2⟩ := e
      simp only at k1 k2
      rw [← k1, ← k2]; exact h1
    · exact hng r2 k2
    · exact hng r1 k1
  unfold sides
  rw [List.nodup_flatMap]
  refine ⟨fun t ht => ?_, hn.pairwise_of_forall_ne fun t ht t' ht' hne => ?_⟩
  · rcases h.shape t ht with st | ⟨s, hm, rfl⟩
    · have hcc := st.ccw
      have n1 : t.v1 ≠ t.v2 := by intro e; rw [e] at hcc; simp [cross] at hcc
      have n2 : t.v2 ≠ t.v3 := by intro e; rw [e] at hcc; simp only [cross] at hcc; ring_nf at hcc; simp at hcc
      have n3 : t.v3 ≠ t.v1 := by intro e; rw [e] at hcc; simp [cross] at hcc
      simp [Tri.innerEdges, n1, n2, n3.symm]
    · obtain ⟨m1, m2⟩ := mem_pairs hm
      have n1 : s.2 ≠ s.1 := fun e => hs.proper s hm (by rw [e]; exact ⟨rfl, rfl⟩)
      simp [Tri.innerEdges, n1, hng (h.real _ m1), hng (h.real _ m2)]
  · show List.Disjoint _ _
    intro e he he'
    apply hne
    have he := (mem_innerEdges).1 he
    have he' := (mem_innerEdges).1 he'
    rcases h.shape t ht with st | ⟨s, hm, rfl⟩ <;> rcases h.shape t' ht' with st' | ⟨s', hm', rfl⟩
    · exact hA.same_side ht ht' st st' he he'
    · exact absurd he' (hmix t ht s' hm' st e he)
    · exact absurd he (hmix t' ht' s hm st' e he')
    · obtain ⟨m1, m2⟩ := mem_pairs hm
      obtain ⟨m1', m2'⟩ := mem_pairs hm'
      have a1 := hng (h.real _ m1)
      have a2 := hng (h.real _ m2)
      have b1 := hng (h.real _ m1')
      have b2 := hng (h.real _ m2')
      have : s = s' := by
        rcases he with ⟨k1, k2⟩ | ⟨k1, k2⟩ | ⟨k1, k2⟩ <;> rcases he' with ⟨j1, j2⟩ | ⟨j1, j2⟩ | ⟨j1, j2⟩ <;>
          simp only at k1 k2 j1 j2
        · exact hfst s hm s' hm' (k2.symm.trans j2)
        · exact absurd (k2.symm.trans j2) a1
        · exact absurd (k1.symm.trans j1) a2
        · exact absurd (j2.symm.trans k2) b1
        · exact hfst s hm s' hm' (k1.symm.trans j1)
        · exact absurd (k1.symm.trans j1) a1
        · exact absurd (j1.symm.trans k1) b2
        · exact absurd (k2.symm.trans j2) a2
        · exact hsnd s hm s' hm' (k2.symm.trans j2)
      rw [this]

/-- The new mesh has no repeated triangles. -/
theorem CavInv.nodup_now {P : Preds (Vertex K)} {C L Z : List (Edge (Vertex K))} {v : Vertex K}
    {m : Mesh (Vertex K)} {O R : List (Tri (Vertex K))} (hs : Simple M) (hc : CavInv P C v M m [] L O R Z)
    (hfr : Fresh M v) : m.tris.Nodup := by
  have hLn : L.Nodup := by simpa using hc.nodup_BL hs
  have hends : ∀ e ∈ L, e.v1 ≠ v ∧ e.v2 ≠ v := fun e he => hc.ends hfr (by simpa using he)
  rw [hc.now.nodup_iff, List.nodup_append']
  refine ⟨?_, ?_, ?_⟩
  · refine List.Nodup.map_on (fun a ha b hb hab => ?_) hLn
    obtain ⟨a1, a2⟩ := hends a ha
    obtain ⟨b1, b2⟩ := hends b hb
    obtain ⟨x, y⟩ := a
    obtain ⟨z, w⟩ := b
    simp only [newTri] at hab a1 a2 b1 b2
    split_ifs at hab <;> simp_all
  · exact ((hc.old.nodup_iff.1 hs.nodup).of_append_right)
  · intro t ht ho
    obtain ⟨e, he, rfl⟩ := List.mem_map.1 ht
    have : IsCorner (newTri P.ghost e v) v := by
      unfold newTri IsCorner
      split_ifs <;> simp
    exact hfr _ (hc.mem_O ho) this

/-- Filling the hole gives a locally Delaunay triangulation of `l'`, if it gives a closed mesh bounded by `l'`. -/
theorem Fit.refill (hF : Fit g l M) {P : Preds (Vertex K)} {C L Z : List (Edge (Vertex K))} {v : Vertex K}
    {m : Mesh (Vertex K)} {O R : List (Tri (Vertex K))} (hP : P.ghost = Vertex.isGhost)
    (hc : CavInv P C v M m [] L O R Z) (hfr : Fresh M v) (hv : v.isGhost = false) {l' : List (Vertex K)}
    (hs' : SimplePolygon l') (hw' : WindsOnce l') (hlot : Lot g l' m.tris) (hbey : ∀ z, Beyond l z → Beyond l' z)
    (hL : ∀ e ∈ L, e.v1.isGhost = true ∨ e.v2.isGhost = true ∨ Brim l M v e) : Fit g l' m.tris := by
  have hmem : ∀ t ∈ m.tris, SolidTri t → (∃ e ∈ L, Brim l M v e ∧ t = ⟨e.v1, e.v2, v⟩) ∨ t ∈ O := by
    intro t ht st
    rw [hc.now.mem_iff, List.mem_append, List.mem_map] at ht
    rcases ht with ⟨e, he, rfl⟩ | h
    · left
      rcases hL e he with k | k | k
      · exfalso
        rw [hP] at st
        have := st.r3
        simp only [newTri, k, if_true] at this
        simp at this
      · exfalso
        rw [hP] at st
        have := st.r3
        by_cases k1 : e.v1.isGhost = true
        · simp only [newTri, k1, if_true] at this
          simp at this
        · simp only [newTri, k1, k, if_true] at this
          simp [k] at this
      · refine ⟨e, he, k, ?_⟩
        have := k.solid hF hv
        rw [hP]
        exact newTri_real this.r1 this.r2
    · exact Or.inr h
  have hnew' : ∀ e ∈ L, Brim l M v e → (⟨e.v1, e.v2, v⟩ : Tri (Vertex K)) ∈ m.tris := by
    intro e he k
    rw [hc.now.mem_iff, List.mem_append, List.mem_map]
    have := k.solid hF hv
    exact Or.inl ⟨e, he, by rw [hP]; exact newTri_real this.r1 this.r2⟩
  have hapart := hlot.apart hs' hw'
  have hsimple := hlot.simple hs' hw' hapart (hc.nodup_now hF.simple hfr)
  have hnb : ∀ t ∈ m.tris, SolidTri t → ∀ z, Within t z → ¬ Beyond l z := fun t ht st z hz hb =>
    hlot.not_beyond hs' hapart ht st hz (hbey z hb)
  have hOaway : ∀ t ∈ O, ∀ e, IsSide t e → e.v1 ≠ v ∧ e.v2 ≠ v := fun t ht e he =>
    hfr.ends (mem_sides.2 ⟨t, hc.mem_O ht, he⟩)
  -- an old triangle behind the border
  have hborder : ∀ e, Brim l M v e → ∀ t ∈ O, SolidTri t → IsSide t e.opposite → circleDet t.v1 t.v2 t.v3 v ≤ 0 := by
    intro e he t ht st hte
    rcases he.out with hw | ⟨t', ht', -, hte', k⟩
    · exact absurd (by rw [opposite_opposite]; exact hw) (hF.wall_back (hc.mem_O ht) st hte)
    · rw [← hF.simple.edgeDisjoint t' ht' t (hc.mem_O ht) _ hte' hte]
      exact k
  have hcircle : ∀ {t : Tri (Vertex K)}, ∀ p, IsCorner t p → circleDet t.v1 t.v2 t.v3 p = 0 := by
    rintro t p (k | k | k) <;> rw [k] <;> simp only [circleDet_btw, cross, btw] <;> ring
  have hmate : ∀ {t t' : Tri (Vertex K)} {e : Edge (Vertex K)}, SolidTri t → SolidTri t' → IsSide t e →
      IsSide t' e.opposite → (∀ p, IsCorner t p → circleDet t'.v1 t'.v2 t'.v3 p ≤ 0) →
      ∀ p, IsCorner t' p → circleDet t.v1 t.v2 t.v3 p ≤ 0 := by
    intro t t' e st st' he he' h p hp
    obtain ⟨c, hcc, -, -, -, -, -, -, hcd, -⟩ := st.side he
    obtain ⟨d, hdc, -, -, -, -, -, -, hcd', hcor, -⟩ := st'.side he'
    have hcc := h c hcc
    rw [hcd'] at hcc
    rw [hcd]
    rcases (hcor p).1 hp with rfl | rfl | rfl
    · apply le_of_eq; simp only [Edge.opposite, circleDet_btw, cross, btw]; ring
    · apply le_of_eq; simp only [Edge.opposite, circleDet_btw, cross, btw]; ring
    · rw [← circleDet_mate]; exact hcc
  have hno : ∀ e0, Brim l M v e0 → ∀ t' ∈ O, SolidTri t' → ∀ e, IsSide (⟨e0.v1, e0.v2, v⟩ : Tri (Vertex K)) e → IsSide t' e.opposite →
      ∀ p, IsCorner (⟨e0.v1, e0.v2, v⟩ : Tri (Vertex K)) p → circleDet t'.v1 t'.v2 t'.v3 p ≤ 0 := by
    intro e0 he0 t' ht' st' e he he' p hpc
    have hav := hOaway t' ht' _ he'
    have hee : e = e0 := by
      cases e; cases e0
      rcases he with ⟨k1, k2⟩ | ⟨k1, k2⟩ | ⟨k1, k2⟩ <;> simp only [Edge.opposite] at k1 k2 hav
      · simp [k1, k2]
      · exact absurd k2 hav.1
      · exact absurd k1 hav.2
    subst hee
    have hcor := isCorner_of_isSide he'
    rcases hpc with rfl | rfl | rfl
    · exact (hcircle _ hcor.2).le
    · exact (hcircle _ hcor.1).le
    · exact hborder e he0 t' ht' st' he'
  have hnn : ∀ e1 ∈ L, ∀ e2 ∈ L, Brim l M v e1 → Brim l M v e2 → e1.v2 = e2.v1 → ∀ p, IsCorner (⟨e2.v1, e2.v2, v⟩ : Tri (Vertex K)) p →
      circleDet e1.v1 e1.v2 v p ≤ 0 := by
    intro e1 m1 e2 m2 h1 h2 h12 p hpc
    obtain ⟨x, a⟩ := e1
    obtain ⟨b, q⟩ := e2
    simp only at h12
    subst h12
    rcases hpc with rfl | rfl | rfl
    · apply le_of_eq; simp only [circleDet_btw, cross, btw]; ring
    · exact Brim.spoke hF hv h1 h2 (hnb _ (hnew' _ m1 h1) (h1.solid hF hv)) (hnb _ (hnew' _ m2 h2) (h2.solid hF hv))
    · apply le_of_eq; simp only [circleDet_btw, cross, btw]; ring
  refine ⟨hs', hw', hlot, hapart, hsimple, ?_⟩
  intro t ht t' ht' st st' e he he'
  rcases hmem t ht st with ⟨e1, m1, h1, rfl⟩ | k
  · rcases hmem t' ht' st' with ⟨e2, m2, h2, rfl⟩ | k'
    · have a1 := hc.ends hfr (by simpa using m1 : e1 ∈ [] ++ L)
      have a2 := hc.ends hfr (by simpa using m2 : e2 ∈ [] ++ L)
      rcases he with ⟨i1, i2⟩ | ⟨i1, i2⟩ | ⟨i1, i2⟩ <;> rcases he' with ⟨j1, j2⟩ | ⟨j1, j2⟩ | ⟨j1, j2⟩ <;>
        simp only [Edge.opposite] at i1 i2 j1 j2
      · exfalso
        have k1 := h1.left hF
        have k2 := h2.left hF
        rw [← i1, ← i2] at k1
        rw [← j1, ← j2, cross_swap] at k2
        linarith
      · exact absurd (i1.symm.trans j2) a1.1
      · exact absurd (i2.symm.trans j1) a1.2
      · exact absurd (j1.symm.trans i2) a2.1
      · exact absurd (i1.symm.trans j2) a1.2
      · exact hnn e1 m1 e2 m2 h1 h2 (i1.symm.trans j2)
      · exact absurd (j2.symm.trans i1) a2.2
      · refine hmate st st' (e := e) (Or.inr (Or.inr ⟨i1, i2⟩)) (Or.inr (Or.inl ⟨j1, j2⟩)) ?_
        exact hnn e2 m2 e1 m1 h2 h1 (j1.symm.trans i2)
      · exact absurd (i2.symm.trans j1) a1.1
    · exact hmate st st' he he' (hno e1 h1 t' k' st' e he he')
  · rcases hmem t' ht' st' with ⟨e2, m2, h2, rfl⟩ | k'
    · exact hno e2 h2 t k st e.opposite he' (by rw [opposite_opposite]; exact he)
    · exact hF.locally t (hc.mem_O k) t' (hc.mem_O k') st st' e he he'

/-- Filling the hole with triangles around the point gives such a triangulation again. -/
theorem Fit.fill (hF : Fit g l M) {P : Preds (Vertex K)} {C L Z : List (Edge (Vertex K))} {v : Vertex K}
    {m : Mesh (Vertex K)} {O R : List (Tri (Vertex K))} (hP : P.ghost = Vertex.isGhost)
    (hc : CavInv P C v M m [] L O R Z) (hfr : Fresh M v) (hp : Pit l M v L R) : Fit g l m.tris := by
  have hnew : ∀ e ∈ L, newTri P.ghost e v = ⟨e.v1, e.v2, v⟩ := by
    intro e he
    have := (hp.brim he).solid hF hp.real
    rw [hP]
    exact newTri_real this.r1 this.r2
  have hmem : ∀ t, t ∈ m.tris ↔ (∃ e ∈ L, t = ⟨e.v1, e.v2, v⟩) ∨ t ∈ O := by
    intro t
    rw [hc.now.mem_iff, List.mem_append, List.mem_map]
    constructor
    · rintro (⟨e, he, rfl⟩ | h)
      · exact Or.inl ⟨e, he, hnew e he⟩
      · exact Or.inr h
    · rintro (⟨e, he, rfl⟩ | h)
      · exact Or.inl ⟨e, he, hnew e he⟩
      · exact Or.inr h
  have hghost : ∀ t ∈ M, HasGhost t → t ∈ O := by
    intro t ht hg
    rcases List.mem_append.1 (hc.old.mem_iff.1 ht) with k | k
    · exact absurd hg (hp.seer t k).solid.noGhost
    · exact k
  have hlot : Lot g l m.tris := by
    refine ⟨hF.lot.ghost, hF.lot.real, hc.watertight hfr hF.lot.closed, ?_, ?_, ?_⟩
    · intro t ht
      rcases (hmem t).1 ht with ⟨e, he, rfl⟩ | h
      · exact Or.inl ((hp.brim he).solid hF hp.real)
      · exact hF.lot.shape t (hc.mem_O h)
    · intro s hs
      exact (hmem _).2 (Or.inr (hghost _ (hF.lot.border s hs) (hasGhost_last hF.lot.ghost)))
    · intro w
      rw [← hF.lot.outline w]
      have e1 : ∀ Q : List (Tri (Vertex K)), (∀ t ∈ Q, SolidTri t) → ∀ O, outline (Q ++ O) = outline O := by
        intro Q hQ O
        unfold outline
        rw [List.filter_append, List.flatMap_append]
        have : (Q.filter fun t => decide (HasGhost t)) = [] := by
          rw [List.filter_eq_nil_iff]
          intro t ht
          simpa using (hQ t ht).noGhost
        rw [this]; simp
      have p1 : (outline m.tris).Perm (outline O) := by
        have := (hc.now.filter fun t => decide (HasGhost t)).flatMap_right
          (fun t => [(t.v2, t.v1), (t.v3, t.v2), (t.v1, t.v3)].filter fun s => !s.1.isGhost && !s.2.isGhost)
        rw [← e1 (L.map (newTri P.ghost · v)) (by
          intro t ht
          obtain ⟨e, he, rfl⟩ := List.mem_map.1 ht
          rw [hnew e he]
          exact (hp.brim he).solid hF hp.real) O]
        exact this
      have p2 : (outline M).Perm (outline O) := by
        have := (hc.old.filter fun t => decide (HasGhost t)).flatMap_right
          (fun t => [(t.v2, t.v1), (t.v3, t.v2), (t.v1, t.v3)].filter fun s => !s.1.isGhost && !s.2.isGhost)
        rw [← e1 R (fun t ht => (hp.seer t ht).solid) O]
        exact this
      unfold windingNumber
      rw [((p1.trans p2.symm).map _).sum_eq]
  exact hF.refill hP hc hfr hp.real hF.poly hF.winds hlot (fun _ h => h) fun e he => Or.inr (Or.inr (hp.brim he))

end

end Verif
