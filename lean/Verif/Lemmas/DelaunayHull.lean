import Verif.Lemmas.DelaunayAlg

/-!
# The hull of a Delaunay mesh and the triangles in conflict with a point
-/

set_option linter.unusedSectionVars false

namespace Verif

open Spec

variable {K : Type*} [Field K] [LinearOrder K] [IsStrictOrderedRing K]

/-- A triangle over the hull edge `v1 → v2`, the outside being on the left. -/
structure GhostTri (g : Vertex K) (t : Tri (Vertex K)) : Prop where
  r1 : t.v1.isGhost = false
  r2 : t.v2.isGhost = false
  ne : t.v1 ≠ t.v2
  g3 : t.v3 = g

/-- `p` is an ordinary vertex of the triangles. -/
def Vx (T : List (Tri (Vertex K))) (p : Vertex K) : Prop := (∃ s ∈ T, IsCorner s p) ∧ p.isGhost = false

/-- Internal form of "Delaunay triangulation". -/
structure Good (g : Vertex K) (T : List (Tri (Vertex K))) : Prop where
  ghost : g.isGhost = true
  simple : Simple T
  closed : Watertight T
  shape : ∀ t ∈ T, SolidTri t ∨ GhostTri g t
  empty : ∀ t ∈ T, SolidTri t → ∀ p, Vx T p → circleDet t.v1 t.v2 t.v3 p ≤ 0
  hull : ∀ t ∈ T, GhostTri g t → ∀ p, Vx T p →
    cross t.v1 t.v2 p ≤ 0 ∧ (cross t.v1 t.v2 p = 0 → 0 ≤ btw t.v1 t.v2 p)

theorem real_ne {a b : Vertex K} (ha : a.isGhost = false) (hb : b.isGhost = false) (h : a ≠ b) :
    ¬ SamePoint a b := by
  rintro ⟨h1, h2⟩
  apply h
  cases a; cases b
  simp_all

theorem line_param {a b p : Vertex K} (h : cross a b p = 0) (hab : ¬ SamePoint a b) :
    ∃ k : K, p.x = a.x + k * (b.x - a.x) ∧ p.y = a.y + k * (b.y - a.y) := by
  simp only [SamePoint, not_and_or] at hab
  simp only [cross] at h
  rcases hab with hab | hab
  · have hne : b.x - a.x ≠ 0 := fun h' => hab (by linarith)
    refine ⟨(p.x - a.x) / (b.x - a.x), by field_simp; ring, ?_⟩
    field_simp
    linear_combination h
  · have hne : b.y - a.y ≠ 0 := fun h' => hab (by linarith)
    refine ⟨(p.y - a.y) / (b.y - a.y), ?_, by field_simp; ring⟩
    field_simp
    linear_combination -h

theorem SolidTri.sep {t : Tri (Vertex K)} (h : SolidTri t) : t.v1 ≠ t.v2 ∧ t.v2 ≠ t.v3 ∧ t.v3 ≠ t.v1 := by
  have := h.ccw
  refine ⟨fun e => ?_, fun e => ?_, fun e => ?_⟩ <;> rw [e] at this <;> simp only [cross] at this <;>
    ring_nf at this <;> simp at this

theorem SolidTri.not_ghost {g : Vertex K} {t : Tri (Vertex K)} (h : SolidTri t) (hg : g.isGhost = true) :
    ¬ GhostTri g t := by
  intro h'
  have := h.r3
  rw [h'.g3, hg] at this
  simp at this

section

variable {g : Vertex K} {T : List (Tri (Vertex K))}

theorem Good.corners (hT : Good g T) {t : Tri (Vertex K)} (ht : t ∈ T) :
    Vx T t.v1 ∧ Vx T t.v2 := by
  have h1 : ∃ s ∈ T, IsCorner s t.v1 := ⟨t, ht, Or.inl rfl⟩
  have h2 : ∃ s ∈ T, IsCorner s t.v2 := ⟨t, ht, Or.inr (Or.inl rfl)⟩
  rcases hT.shape t ht with h | h
  · exact ⟨⟨h1, h.r1⟩, ⟨h2, h.r2⟩⟩
  · exact ⟨⟨h1, h.r1⟩, ⟨h2, h.r2⟩⟩

theorem Good.side_real (hT : Good g T) {t : Tri (Vertex K)} (ht : t ∈ T) {e : Edge (Vertex K)}
    (he : IsSide t e) (hr : RealEdge e) :
    (SolidTri t ∧ ∃ c, Vx T c ∧ 0 < cross e.v1 e.v2 c ∧
      ∀ p, circleDet t.v1 t.v2 t.v3 p = circleDet e.v1 e.v2 c p) ∨
    (GhostTri g t ∧ e.v1 = t.v1 ∧ e.v2 = t.v2) := by
  rcases hT.shape t ht with h | h
  · left
    refine ⟨h, ?_⟩
    rcases he with ⟨h1, h2⟩ | ⟨h1, h2⟩ | ⟨h1, h2⟩ <;> rw [h1, h2]
    · exact ⟨t.v3, ⟨⟨t, ht, Or.inr (Or.inr rfl)⟩, h.r3⟩, h.ccw, fun p => rfl⟩
    · refine ⟨t.v1, ⟨⟨t, ht, Or.inl rfl⟩, h.r1⟩, ?_, fun p => (circleDet_rotate _ _ _ p).symm⟩
      rw [cross_rotate]; exact h.ccw
    · refine ⟨t.v2, ⟨⟨t, ht, Or.inr (Or.inl rfl)⟩, h.r2⟩, ?_, fun p => ?_⟩
      · rw [cross_rotate, cross_rotate]; exact h.ccw
      · rw [circleDet_rotate, circleDet_rotate]
  · right
    refine ⟨h, ?_⟩
    have hg : t.v3.isGhost = true := by rw [h.g3]; exact hT.ghost
    rcases he with ⟨h1, h2⟩ | ⟨h1, h2⟩ | ⟨h1, h2⟩
    · exact ⟨h1, h2⟩
    · have := hr.2
      rw [h2, hg] at this
      simp at this
    · have := hr.1
      rw [h1, hg] at this
      simp at this

/-- Crossings of the ray by hull edges that have `v` on their right: there is at most one. -/
theorem Good.hull_once (hT : Good g T) {v : Vertex K} {ux uy : K} {s t : Tri (Vertex K)} (hs : s ∈ T)
    (ht : t ∈ T) (gs : GhostTri g s) (gt : GhostTri g t) (h1 : crs v ux uy ⟨s.v1, s.v2⟩ < 0)
    (h2 : crs v ux uy ⟨t.v1, t.v2⟩ < 0) : s = t := by
  obtain ⟨sb, sa, -⟩ := crs_eq_neg_one h1
  obtain ⟨td, tc, -⟩ := crs_eq_neg_one h2
  simp only at sb sa td tc
  -- the end or the start is common
  have hend : s.v2 = t.v2 → s = t := by
    intro h
    refine hT.simple.edgeDisjoint s hs t ht ⟨s.v2, g⟩ (Or.inr (Or.inl ⟨rfl, gs.g3.symm⟩)) ?_
    exact Or.inr (Or.inl ⟨h, gt.g3.symm⟩)
  have hstart : s.v1 = t.v1 → s = t := by
    intro h
    refine hT.simple.edgeDisjoint s hs t ht ⟨g, s.v1⟩ (Or.inr (Or.inr ⟨gs.g3.symm, rfl⟩)) ?_
    exact Or.inr (Or.inr ⟨gt.g3.symm, h⟩)
  set A := hgt v ux uy s.v1 with hA
  set B := hgt v ux uy s.v2 with hB
  set C := hgt v ux uy t.v1 with hC
  set D := hgt v ux uy t.v2 with hD
  obtain ⟨c1, c1'⟩ := hT.hull s hs gs _ (hT.corners ht).1
  obtain ⟨c2, c2'⟩ := hT.hull s hs gs _ (hT.corners ht).2
  obtain ⟨d1, d1'⟩ := hT.hull t ht gt _ (hT.corners hs).1
  obtain ⟨d2, d2'⟩ := hT.hull t ht gt _ (hT.corners hs).2
  have n1 : C * cross s.v1 s.v2 t.v2 - D * cross s.v1 s.v2 t.v1
      = cross s.v1 s.v2 v * (C - D) - cross t.v1 t.v2 v * (A - B) := by
    simp only [hA, hB, hC, hD, hgt, cross]; ring
  have n2 : A * cross t.v1 t.v2 s.v2 - B * cross t.v1 t.v2 s.v1
      = cross t.v1 t.v2 v * (A - B) - cross s.v1 s.v2 v * (C - D) := by
    simp only [hA, hB, hC, hD, hgt, cross]; ring
  have m1 : C * cross s.v1 s.v2 t.v2 ≤ 0 := mul_nonpos_of_nonneg_of_nonpos tc.le c2
  have m2 : 0 ≤ D * cross s.v1 s.v2 t.v1 := mul_nonneg_of_nonpos_of_nonpos td c1
  have m3 : A * cross t.v1 t.v2 s.v2 ≤ 0 := mul_nonpos_of_nonneg_of_nonpos sa.le d2
  have m4 : 0 ≤ B * cross t.v1 t.v2 s.v1 := mul_nonneg_of_nonpos_of_nonpos sb d1
  have z1 : cross s.v1 s.v2 t.v2 = 0 := by
    have : C * cross s.v1 s.v2 t.v2 = 0 := by linarith
    exact (mul_eq_zero.1 this).resolve_left tc.ne'
  have z2 : D * cross s.v1 s.v2 t.v1 = 0 := by linarith
  have z3 : cross t.v1 t.v2 s.v2 = 0 := by
    have : A * cross t.v1 t.v2 s.v2 = 0 := by linarith
    exact (mul_eq_zero.1 this).resolve_left sa.ne'
  have z4 : B * cross t.v1 t.v2 s.v1 = 0 := by linarith
  have sne := real_ne gs.r1 gs.r2 gs.ne
  have tne := real_ne gt.r1 gt.r2 gt.ne
  -- heights along the line of an edge
  have onl : ∀ {a b p : Vertex K}, ¬ SamePoint a b → cross a b p = 0 → 0 ≤ btw a b p →
      0 ≤ (hgt v ux uy a - hgt v ux uy p) * (hgt v ux uy b - hgt v ux uy p) := by
    intro a b p hne hc hb
    obtain ⟨k, kx, ky⟩ := line_param hc hne
    have e1 : btw a b p = -(k * (1 - k)) * dist2 a b := by
      simp only [btw, dist2, kx, ky]; ring
    have e2 : (hgt v ux uy a - hgt v ux uy p) * (hgt v ux uy b - hgt v ux uy p)
        = -(k * (1 - k)) * (hgt v ux uy a - hgt v ux uy b) ^ 2 := by
      simp only [hgt, kx, ky]; ring
    rw [e1] at hb
    rw [e2]
    have : 0 ≤ -(k * (1 - k)) := by
      by_contra hn
      push Not at hn
      linarith [mul_neg_of_neg_of_pos hn (dist2_pos hne)]
    positivity
  have same : ∀ {a b p q : Vertex K}, ¬ SamePoint a b → cross a b p = 0 → hgt v ux uy a ≠ hgt v ux uy b →
      p.isGhost = false → q.isGhost = false → cross a b q = 0 → hgt v ux uy p = hgt v ux uy q → p = q := by
    intro a b p q hne hp hab gp gq hq hpq
    obtain ⟨k, kx, ky⟩ := line_param hp hne
    obtain ⟨l, lx, ly⟩ := line_param hq hne
    have : (k - l) * (hgt v ux uy b - hgt v ux uy a) = 0 := by
      have := sub_eq_zero.2 hpq
      rw [← this]
      simp only [hgt, kx, ky, lx, ly]; ring
    have hkl : k = l := by
      rcases mul_eq_zero.1 this with h | h
      · linarith
      · exact absurd (by linarith) hab
    by_contra hne'
    exact real_ne gp gq hne' ⟨by rw [kx, lx, hkl], by rw [ky, ly, hkl]⟩
  have hAB : A ≠ B := by intro h; linarith
  have hCD : C ≠ D := by intro h; linarith
  rcases td.eq_or_lt with hD0 | hD0
  · -- `D = 0`
    have := onl sne z1 (c2' z1)
    rw [← hA, ← hB, ← hD, hD0] at this
    have hB0 : B = 0 := by
      by_contra hn
      have : B < 0 := lt_of_le_of_ne sb hn
      nlinarith
    exact hend (same sne (cross_self_right _ _) hAB gs.r2 gt.r2 z1 (by rw [← hB, ← hD, hB0, hD0]))
  · have z2' : cross s.v1 s.v2 t.v1 = 0 := (mul_eq_zero.1 z2).resolve_left hD0.ne
    rcases sb.eq_or_lt with hB0 | hB0
    · have := onl tne z3 (d2' z3)
      rw [← hC, ← hD, ← hB, hB0] at this
      nlinarith
    · have z4' : cross t.v1 t.v2 s.v1 = 0 := (mul_eq_zero.1 z4).resolve_left hB0.ne
      have k1 := onl sne z2' (c1' z2')
      have k2 := onl tne z4' (d1' z4')
      rw [← hA, ← hB, ← hC] at k1
      rw [← hC, ← hD, ← hA] at k2
      have hAC : A = C := by
        have l1 : A - C ≤ 0 := by
          by_contra hn; push Not at hn; nlinarith
        have l2 : C - A ≤ 0 := by
          by_contra hn; push Not at hn; nlinarith
        linarith
      exact hstart (same sne (cross_self_outer _ _) hAB gs.r1 gt.r1 z2' (by rw [← hA, ← hC, hAC]))

theorem wnd_ghost {t : Tri (Vertex K)} (hg : g.isGhost = true) (h : GhostTri g t) (v : Vertex K) (ux uy : K) :
    wnd v ux uy t = crs v ux uy ⟨t.v1, t.v2⟩ := by
  have h2 : ¬ RealEdge (⟨t.v2, t.v3⟩ : Edge (Vertex K)) := by
    rintro ⟨-, h'⟩; simp [h.g3, hg] at h'
  have h3 : ¬ RealEdge (⟨t.v3, t.v1⟩ : Edge (Vertex K)) := by
    rintro ⟨h', -⟩; simp [h.g3, hg] at h'
  simp [wnd, Tri.innerEdges, crs, h2, h3]

theorem sum_ge_of_once {α : Type*} {f : α → ℤ} {l : List α} (hn : l.Nodup) (h1 : ∀ a ∈ l, -1 ≤ f a)
    (h2 : ∀ a ∈ l, ∀ b ∈ l, f a < 0 → f b < 0 → a = b) : -1 ≤ (l.map f).sum := by
  induction l with
  | nil => simp
  | cons a l ih =>
    rw [List.map_cons, List.sum_cons]
    rw [List.nodup_cons] at hn
    have i1 := ih hn.2 (fun b hb => h1 b (List.mem_cons_of_mem _ hb))
      (fun b hb c hc => h2 b (List.mem_cons_of_mem _ hb) c (List.mem_cons_of_mem _ hc))
    by_cases ha : f a < 0
    · have : 0 ≤ (l.map f).sum := List.sum_nonneg (by
        intro x hx
        obtain ⟨b, hb, rfl⟩ := List.mem_map.1 hx
        by_contra hlt
        push Not at hlt
        exact hn.1 (h2 a List.mem_cons_self b (List.mem_cons_of_mem _ hb) ha hlt ▸ hb))
      have := h1 a List.mem_cons_self
      omega
    · omega

theorem Good.sum_wnd (hT : Good g T) (v : Vertex K) (ux uy : K) : (T.map (wnd v ux uy)).sum = 0 := by
  have := (balanced_of_watertight hT.closed).sum_zero (f := crs v ux uy) (crs_opposite v ux uy)
  rw [sum_sides'] at this
  exact this

/-- Any part of the mesh winds at most once. -/
theorem Good.part_le_one (hT : Good g T) {R O : List (Tri (Vertex K))} (hp : T.Perm (R ++ O))
    (v : Vertex K) (ux uy : K) : (R.map (wnd v ux uy)).sum ≤ 1 := by
  have h0 := hT.sum_wnd v ux uy
  rw [(hp.map _).sum_eq, List.map_append, List.sum_append] at h0
  have hO : ∀ t ∈ O, t ∈ T := fun t ht => hp.mem_iff.2 (List.mem_append.2 (Or.inr ht))
  have hn : O.Nodup := (List.nodup_append.1 (hp.nodup_iff.1 hT.simple.nodup)).2.1
  have := sum_ge_of_once (f := wnd v ux uy) hn (by
      intro t ht
      rcases hT.shape t (hO t ht) with h | h
      · linarith [wnd_nonneg h v ux uy]
      · rw [wnd_ghost hT.ghost h]; exact crs_ge _ _ _ _) (by
      intro s hs t ht h1 h2
      rcases hT.shape s (hO s hs) with h | h
      · linarith [wnd_nonneg h v ux uy]
      rcases hT.shape t (hO t ht) with h' | h'
      · linarith [wnd_nonneg h' v ux uy]
      rw [wnd_ghost hT.ghost h] at h1
      rw [wnd_ghost hT.ghost h'] at h2
      exact hT.hull_once (hO s hs) (hO t ht) h h' h1 h2)
  linarith

/-- `t` is in conflict with `v`. -/
def Conf (v : Vertex K) (t : Tri (Vertex K)) : Prop :=
  (SolidTri t ∧ 0 < circleDet t.v1 t.v2 t.v3 v) ∨
  (t.v3.isGhost = true ∧ (0 < cross t.v1 t.v2 v ∨ (cross t.v1 t.v2 v = 0 ∧ btw t.v1 t.v2 v < 0)))

theorem conf_solid {v : Vertex K} {t : Tri (Vertex K)} (h : SolidTri t) :
    Conf v t ↔ 0 < circleDet t.v1 t.v2 t.v3 v := by
  unfold Conf
  constructor
  · rintro (h' | ⟨h', -⟩)
    · exact h'.2
    · rw [h.r3] at h'; simp at h'
  · exact fun h' => Or.inl ⟨h, h'⟩

theorem conf_ghost {v : Vertex K} {t : Tri (Vertex K)} (hg : g.isGhost = true) (h : GhostTri g t) :
    Conf v t ↔ 0 < cross t.v1 t.v2 v ∨ (cross t.v1 t.v2 v = 0 ∧ btw t.v1 t.v2 v < 0) := by
  unfold Conf
  have h3 : t.v3.isGhost = true := by rw [h.g3]; exact hg
  constructor
  · rintro (h' | h')
    · have := h'.1.r3
      rw [h3] at this; simp at this
    · exact h'.2
  · exact fun h' => Or.inr ⟨h3, h'⟩

theorem conf_ghost_nonneg {v : Vertex K} {t : Tri (Vertex K)} (hg : g.isGhost = true) (h : GhostTri g t)
    (hc : Conf v t) : 0 ≤ cross t.v1 t.v2 v := by
  rcases (conf_ghost hg h).1 hc with h' | h'
  · exact h'.le
  · exact h'.1.ge

/-- The conflict goes on behind a side that does not have the point on its left. -/
theorem Good.pencil (hT : Good g T) {v : Vertex K} {t t' : Tri (Vertex K)} (ht : t ∈ T) (ht' : t' ∈ T)
    {e : Edge (Vertex K)} (hr : RealEdge e) (he : IsSide t e) (he' : IsSide t' e.opposite)
    (hc : Conf v t) (hle : cross e.v1 e.v2 v ≤ 0) : Conf v t' := by
  have hr' : RealEdge e.opposite := ⟨hr.2, hr.1⟩
  have hsw : ∀ p, cross e.v2 e.v1 p = -cross e.v1 e.v2 p := fun p => cross_swap _ _ _
  -- the point is on the open segment
  have key : cross e.v1 e.v2 v = 0 → btw e.v1 e.v2 v < 0 → Conf v t' := by
    intro h0 hb
    rcases hT.side_real ht' he' hr' with ⟨hs, c, -, hcc, hcd⟩ | ⟨hs, h1, h2⟩
    · rw [conf_solid hs, hcd, circleDet_btw]
      simp only [Edge.opposite] at hcc ⊢
      have e1 : btw e.v2 e.v1 v = btw e.v1 e.v2 v := by simp only [btw]; ring
      rw [hsw v, h0, e1]
      nlinarith
    · rw [conf_ghost hT.ghost hs, ← h1, ← h2]
      simp only [Edge.opposite]
      have e1 : btw e.v2 e.v1 v = btw e.v1 e.v2 v := by simp only [btw]; ring
      rw [hsw v, h0, e1]
      exact Or.inr ⟨by simp, hb⟩
  rcases hT.side_real ht he hr with ⟨hs, c, hvc, hcc, hcd⟩ | ⟨hs, h1, h2⟩
  · rw [conf_solid hs, hcd] at hc
    rcases hle.eq_or_lt with h0 | h0
    · refine key h0 ?_
      rw [circleDet_btw, h0] at hc
      nlinarith
    · rcases hT.side_real ht' he' hr' with ⟨hs', d, hvd, hdd, hdc⟩ | ⟨hs', h1, h2⟩
      · rw [conf_solid hs', hdc]
        simp only [Edge.opposite] at hdd hdc ⊢
        rw [circleDet_swap]
        have hd0 := hT.empty t ht hs d hvd
        rw [hcd] at hd0
        have hp := circleDet_pencil e.v1 e.v2 c d v
        rw [hsw] at hdd
        have n1 : circleDet e.v1 e.v2 c v * cross e.v1 e.v2 d < 0 := mul_neg_of_pos_of_neg hc (by linarith)
        have n2 : 0 ≤ circleDet e.v1 e.v2 c d * cross e.v1 e.v2 v :=
          mul_nonneg_of_nonpos_of_nonpos hd0 hle
        by_contra hn
        push Not at hn
        have : 0 ≤ circleDet e.v1 e.v2 d v * cross e.v1 e.v2 c := mul_nonneg (by linarith) hcc.le
        linarith
      · rw [conf_ghost hT.ghost hs', ← h1, ← h2]
        simp only [Edge.opposite]
        rw [hsw]
        exact Or.inl (by linarith)
  · rw [conf_ghost hT.ghost hs, ← h1, ← h2] at hc
    rcases hc with hc | ⟨hc1, hc2⟩
    · linarith
    · exact key hc1 hc2

/-- A part of the mesh without ghosts whose rim has the point strictly on its left winds around it. -/
theorem region_winds {v : Vertex K} {R : List (Tri (Vertex K))} {X : List (Edge (Vertex K))}
    (hs : ∀ t ∈ R, SolidTri t) (hne : R ≠ []) (hX : Rim R X)
    (hl : ∀ e ∈ X, RealEdge e → 0 < cross e.v1 e.v2 v) {ux uy : K} (hu : ux ≠ 0 ∨ uy ≠ 0) :
    1 ≤ (X.map (crs v ux uy)).sum ∧ 1 ≤ (R.map (wnd v ux uy)).sum := by
  have hXne : X ≠ [] := by
    rintro rfl
    have := hX.sum (f := fun e : Edge (Vertex K) => e.v1.x * e.v2.y - e.v2.x * e.v1.y)
      (by intro e; simp only [Edge.opposite]; ring)
    simp only [List.map_nil, List.sum_nil] at this
    have hz := sum_nonneg_eq (f := fun t : Tri (Vertex K) =>
      (t.innerEdges.map fun e : Edge (Vertex K) => e.v1.x * e.v2.y - e.v2.x * e.v1.y).sum) (l := R) (by
        intro t ht
        have := (hs t ht).ccw
        simp only [Tri.innerEdges, List.map_cons, List.map_nil, List.sum_cons, List.sum_nil]
        simp only [cross] at this
        linarith) this
    obtain ⟨t, ht⟩ := List.exists_mem_of_ne_nil R hne
    have h1 := hz t ht
    have := (hs t ht).ccw
    simp only [Tri.innerEdges, List.map_cons, List.map_nil, List.sum_cons, List.sum_nil] at h1
    simp only [cross] at this
    linarith
  have hreal : ∀ e ∈ X, RealEdge e := by
    intro e he
    obtain ⟨Y, -, hp⟩ := hX
    obtain ⟨t, ht, hside⟩ := mem_sides.1 (hp.mem_iff.2 (List.mem_append.2 (Or.inl he)))
    have h := hs t ht
    rcases hside with ⟨h1, h2⟩ | ⟨h1, h2⟩ | ⟨h1, h2⟩ <;> unfold RealEdge <;> rw [h1, h2]
    · exact ⟨h.r1, h.r2⟩
    · exact ⟨h.r2, h.r3⟩
    · exact ⟨h.r3, h.r1⟩
  have h1 := cycle_crosses (v := v) hu hX.cycle hXne (fun e he => ⟨hreal e he, hl e he (hreal e he)⟩)
  refine ⟨h1, ?_⟩
  have h2 := hX.sum (f := crs v ux uy) (crs_opposite v ux uy)
  exact h2 ▸ h1

/-- No such part exists if `v` is not strictly inside the hull. -/
theorem Good.no_solid_region (hT : Good g T) {v : Vertex K} {R : List (Tri (Vertex K))}
    {X : List (Edge (Vertex K))} (hRT : ∀ t ∈ R, t ∈ T)
    (hs : ∀ t ∈ R, SolidTri t) (hne : R ≠ []) (hX : Rim R X)
    (hl : ∀ e ∈ X, RealEdge e → 0 < cross e.v1 e.v2 v) {t0 : Tri (Vertex K)} (ht0 : t0 ∈ T)
    (hg0 : GhostTri g t0) (h0 : 0 ≤ cross t0.v1 t0.v2 v) : False := by
  have hne0 := real_ne hg0.r1 hg0.r2 hg0.ne
  have hu : t0.v2.x - t0.v1.x ≠ 0 ∨ t0.v2.y - t0.v1.y ≠ 0 := by
    simp only [SamePoint, not_and_or] at hne0
    rcases hne0 with h | h
    · exact Or.inl fun h' => h (by linarith)
    · exact Or.inr fun h' => h (by linarith)
  have h1 := (region_winds hs hne hX hl hu).1
  have h2 : (X.map (crs v (t0.v2.x - t0.v1.x) (t0.v2.y - t0.v1.y))).sum ≤ 0 := by
    have hnn : ∀ e ∈ X, 0 ≤ -crs v (t0.v2.x - t0.v1.x) (t0.v2.y - t0.v1.y) e := ?_
    · have := List.sum_nonneg (l := X.map fun e => -crs v (t0.v2.x - t0.v1.x) (t0.v2.y - t0.v1.y) e) (by
        intro x hx
        obtain ⟨e, he, rfl⟩ := List.mem_map.1 hx
        exact hnn e he)
      rw [sum_map_neg'] at this
      omega
    intro e he
    unfold crs
    split_ifs with k1 k2 k3
    · exfalso
      obtain ⟨Y, -, hp⟩ := hX
      obtain ⟨t, ht, hside⟩ := mem_sides.1 (hp.mem_iff.2 (List.mem_append.2 (Or.inl he)))
      have hv2 : Vx T e.v2 := by
        refine ⟨⟨t, hRT t ht, ?_⟩, k1.2⟩
        rcases hside with ⟨-, h2⟩ | ⟨-, h2⟩ | ⟨-, h2⟩ <;> rw [h2] <;> simp [IsCorner]
      have hle := (hT.hull t0 ht0 hg0 _ hv2).1
      have : hgt v (t0.v2.x - t0.v1.x) (t0.v2.y - t0.v1.y) e.v2 = cross t0.v1 t0.v2 e.v2 - cross t0.v1 t0.v2 v := by
        simp only [hgt, cross]; ring
      linarith [k2.2.1]
    · simp
    · simp
    · simp
  linarith

/-- Ghosts in conflict do not close up. -/
theorem Good.ghost_cycle (hT : Good g T) {v : Vertex K} {G : List (Tri (Vertex K))}
    (hGT : ∀ t ∈ G, t ∈ T ∧ GhostTri g t ∧ Conf v t) {t0 : Tri (Vertex K)} (ht0 : t0 ∈ G)
    (hN : 0 < cross t0.v1 t0.v2 v ∨ ∃ p, Vx T p ∧ cross t0.v1 t0.v2 p < 0)
    (hC : ∀ ψ : Vertex K → K, (G.map fun t => ψ t.v2 - ψ t.v1).sum = 0) : False := by
  have key : ∀ p, Vx T p → ∀ t ∈ G, cross t.v1 t.v2 v = 0 ∧ cross t.v1 t.v2 p = 0 := by
    intro p hp
    have h := hC fun x => x.x * (v.y - p.y) - x.y * (v.x - p.x)
    have hz := sum_nonneg_eq (f := fun t : Tri (Vertex K) =>
      (fun x : Vertex K => x.x * (v.y - p.y) - x.y * (v.x - p.x)) t.v2
        - (fun x : Vertex K => x.x * (v.y - p.y) - x.y * (v.x - p.x)) t.v1) (l := G) (by
        intro t ht
        obtain ⟨h1, h2, h3⟩ := hGT t ht
        have a1 := conf_ghost_nonneg hT.ghost h2 h3
        have a2 := (hT.hull t h1 h2 p hp).1
        simp only [cross] at a1 a2
        simp only
        linarith) h
    intro t ht
    obtain ⟨h1, h2, h3⟩ := hGT t ht
    have a1 := conf_ghost_nonneg hT.ghost h2 h3
    have a2 := (hT.hull t h1 h2 p hp).1
    have a3 := hz t ht
    simp only at a3
    have a4 : cross t.v1 t.v2 v - cross t.v1 t.v2 p = 0 := by
      rw [← a3]; simp only [cross]; ring
    constructor <;> linarith
  rcases hN with h | ⟨p, hp, h⟩
  · have := (key _ (hT.corners (hGT t0 ht0).1).1 t0 ht0).1
    linarith
  · have := (key p hp t0 ht0).2
    linarith

/-- If the ends of a set of ghosts are all starts of ghosts of the set, they close up. -/
theorem ghost_sum_of_subset {G : List (Tri (Vertex K))} (hn1 : (G.map Tri.v1).Nodup)
    (hn2 : (G.map Tri.v2).Nodup) (h : (∀ t ∈ G, ∃ s ∈ G, s.v1 = t.v2) ∨ ∀ t ∈ G, ∃ s ∈ G, s.v2 = t.v1)
    (ψ : Vertex K → K) : (G.map fun t => ψ t.v2 - ψ t.v1).sum = 0 := by
  have hp : (G.map Tri.v2).Perm (G.map Tri.v1) := by
    rcases h with h | h
    · refine (List.subperm_of_subset hn2 ?_).perm_of_length_le (by simp)
      intro x hx
      obtain ⟨t, ht, rfl⟩ := List.mem_map.1 hx
      obtain ⟨s, hs, hst⟩ := h t ht
      exact hst ▸ List.mem_map_of_mem hs
    · refine ((List.subperm_of_subset hn1 ?_).perm_of_length_le (by simp)).symm
      intro x hx
      obtain ⟨t, ht, rfl⟩ := List.mem_map.1 hx
      obtain ⟨s, hs, hst⟩ := h t ht
      exact hst ▸ List.mem_map_of_mem hs
  have h1 := (hp.map ψ).sum_eq
  rw [List.map_map, List.map_map] at h1
  have h2 : ∀ l : List (Tri (Vertex K)), (l.map fun t => ψ t.v2 - ψ t.v1).sum
      = (l.map (ψ ∘ Tri.v2)).sum - (l.map (ψ ∘ Tri.v1)).sum := by
    intro l
    induction l with
    | nil => simp
    | cons a l ih => simp [ih]; ring
  rw [h2, h1, sub_self]

theorem Good.nodup_starts (hT : Good g T) {G : List (Tri (Vertex K))} (hn : G.Nodup)
    (hGT : ∀ t ∈ G, t ∈ T ∧ GhostTri g t) : (G.map Tri.v1).Nodup ∧ (G.map Tri.v2).Nodup := by
  constructor
  · refine List.Nodup.map_on ?_ hn
    intro s hs t ht h
    refine hT.simple.edgeDisjoint s (hGT s hs).1 t (hGT t ht).1 ⟨g, s.v1⟩ ?_ ?_
    · exact Or.inr (Or.inr ⟨(hGT s hs).2.g3.symm, rfl⟩)
    · exact Or.inr (Or.inr ⟨(hGT t ht).2.g3.symm, h⟩)
  · refine List.Nodup.map_on ?_ hn
    intro s hs t ht h
    refine hT.simple.edgeDisjoint s (hGT s hs).1 t (hGT t ht).1 ⟨s.v2, g⟩ ?_ ?_
    · exact Or.inr (Or.inl ⟨rfl, (hGT s hs).2.g3.symm⟩)
    · exact Or.inr (Or.inl ⟨h, (hGT t ht).2.g3.symm⟩)

end

section tangent

/-- Where the hull turns from visible to hidden, all the mesh is on one side of the line to `v`. -/
theorem tangent_end {a b c v p q : Vertex K} (hab : ¬ SamePoint a b) (h1 : 0 ≤ cross a b v)
    (h1' : cross a b v = 0 → btw a b v < 0) (h2 : cross b c v ≤ 0) (hc : cross a b c ≤ 0)
    (hp1 : cross a b p ≤ 0) (hp2 : cross b c p ≤ 0) (hq1 : cross a b q < 0) (hq2 : cross b c q ≤ 0)
    (hbc : ¬ SamePoint b c) : 0 ≤ cross b v p := by
  rcases hc.eq_or_lt with hc0 | hc0
  · obtain ⟨k, kx, ky⟩ := line_param hc0 hab
    have e : ∀ x, cross b c x = (k - 1) * cross a b x := by
      intro x; simp only [cross, kx, ky]; ring
    have hk : 0 < k - 1 := by
      rw [e] at hq2
      rcases lt_trichotomy (k - 1) 0 with h | h | h
      · nlinarith
      · exfalso
        apply hbc
        have : k = 1 := by linarith
        subst this
        exact ⟨by rw [kx]; ring, by rw [ky]; ring⟩
      · exact h
    rw [e] at h2
    have h0 : cross a b v = 0 := by
      by_contra hn
      have : 0 < cross a b v := lt_of_le_of_ne h1 (Ne.symm hn)
      nlinarith
    have hb := h1' h0
    obtain ⟨r, rx, ry⟩ := line_param h0 hab
    have e1 : btw a b v = -(r * (1 - r)) * dist2 a b := by
      simp only [btw, dist2, rx, ry]; ring
    have e2 : cross b v p = -(1 - r) * cross a b p := by
      simp only [cross, rx, ry]; ring
    have hd := dist2_pos hab
    have hr : 0 < r * (1 - r) := by
      by_contra hn
      push Not at hn
      rw [e1] at hb
      nlinarith
    have hr1 : 0 < 1 - r := by
      by_contra hn
      push Not at hn
      nlinarith
    rw [e2]
    nlinarith
  · have id : cross a b c * cross b v p = cross a b v * cross b c p - cross a b p * cross b c v := by
      simp only [cross]; ring
    by_contra hn
    push Not at hn
    have k1 : 0 < cross a b c * cross b v p := mul_pos_of_neg_of_neg hc0 hn
    have k2 := mul_nonpos_of_nonneg_of_nonpos h1 hp2
    have k3 := mul_nonneg_of_nonpos_of_nonpos hp1 h2
    linarith

/-- Mirror image. -/
def mir (p : Vertex K) : Vertex K := ⟨-p.x, p.y, p.isGhost⟩

theorem cross_mir (a b c : Vertex K) : cross (mir a) (mir b) (mir c) = -cross a b c := by
  simp only [cross, mir]; ring

theorem btw_mir (a b c : Vertex K) : btw (mir a) (mir b) (mir c) = btw a b c := by
  simp only [btw, mir]; ring

theorem samePoint_mir {a b : Vertex K} : SamePoint (mir a) (mir b) ↔ SamePoint a b := by
  simp [SamePoint, mir]

/-- Where the hull turns from hidden to visible. -/
theorem tangent_start {z a b v p q : Vertex K} (hab : ¬ SamePoint a b) (h1 : 0 ≤ cross a b v)
    (h1' : cross a b v = 0 → btw a b v < 0) (h2 : cross z a v ≤ 0) (hc : cross a b z ≤ 0)
    (hp1 : cross a b p ≤ 0) (hp2 : cross z a p ≤ 0) (hq1 : cross a b q < 0) (hq2 : cross z a q ≤ 0)
    (hza : ¬ SamePoint z a) : cross a v p ≤ 0 := by
  have sw : ∀ x y w : Vertex K, cross (mir y) (mir x) (mir w) = cross x y w := by
    intro x y w; rw [cross_mir, cross_swap]; simp
  have := tangent_end (a := mir b) (b := mir a) (c := mir z) (v := mir v) (p := mir p) (q := mir q)
    (by rw [samePoint_mir]; exact fun h => hab ⟨h.1.symm, h.2.symm⟩) (by rw [sw]; exact h1)
    (by rw [sw, btw_mir]; intro h; have := h1' h; simp only [btw] at this ⊢; linarith)
    (by rw [sw]; exact h2) (by rw [sw]; exact hc) (by rw [sw]; exact hp1) (by rw [sw]; exact hp2)
    (by rw [sw]; exact hq1) (by rw [sw]; exact hq2)
    (by rw [samePoint_mir]; exact fun h => hza ⟨h.1.symm, h.2.symm⟩)
  rw [cross_mir] at this
  linarith

private theorem tangent_unique_aux {b a' b' v : Vertex K} (hbb : ¬ SamePoint b b') {k : K}
    (kx : v.x = b.x + k * (b'.x - b.x)) (ky : v.y = b.y + k * (b'.y - b.y)) (hk : k < 0)
    (h1 : 0 ≤ cross a' b' v) (h1' : cross a' b' v = 0 → btw a' b' v < 0)
    (hb : cross a' b' b ≤ 0) (hb' : cross a' b' b = 0 → 0 ≤ btw a' b' b) : False := by
  have e : cross a' b' v = (1 - k) * cross a' b' b := by simp only [cross, kx, ky]; ring
  have h0 : cross a' b' b = 0 := by
    by_contra hn
    have : cross a' b' b < 0 := lt_of_le_of_ne hb hn
    nlinarith
  have hv := h1' (by rw [e, h0, mul_zero])
  have hnn := hb' h0
  -- `a'` on the line
  have h0' : cross b b' a' = 0 := by rw [← neg_eq_zero, ← h0]; simp only [cross]; ring
  obtain ⟨s, sx, sy⟩ := line_param h0' hbb
  have e1 : btw a' b' v = (k - s) * (k - 1) * dist2 b b' := by
    simp only [btw, dist2, kx, ky, sx, sy]; ring
  have e2 : btw a' b' b = s * dist2 b b' := by
    simp only [btw, dist2, sx, sy]; ring
  have hd := dist2_pos hbb
  rw [e1] at hv
  rw [e2] at hnn
  have hs : 0 ≤ s := by
    by_contra hn; push Not at hn; nlinarith
  have : 0 < (k - s) * (k - 1) := mul_pos_of_neg_of_neg (by linarith) (by linarith)
  nlinarith

/-- Two visible edges that end at tangent points end at the same point. -/
theorem tangent_unique {a b a' b' v q : Vertex K} (hbb : ¬ SamePoint b b') (hvb : ¬ SamePoint v b)
    (hvb' : ¬ SamePoint v b')
    (h1 : 0 ≤ cross a b v) (h1' : cross a b v = 0 → btw a b v < 0)
    (h2 : 0 ≤ cross a' b' v) (h2' : cross a' b' v = 0 → btw a' b' v < 0)
    (hb : cross a' b' b ≤ 0) (hb' : cross a' b' b = 0 → 0 ≤ btw a' b' b)
    (hc : cross a b b' ≤ 0) (hc' : cross a b b' = 0 → 0 ≤ btw a b b')
    (t1 : 0 ≤ cross b v b') (t2 : 0 ≤ cross b' v b) (hq : cross a b q < 0) (hq' : cross a' b' q ≤ 0) :
    False := by
  have e0 : cross b' v b = -cross b v b' := by simp only [cross]; ring
  have h0 : cross b b' v = 0 := by
    have : cross b v b' = 0 := by linarith
    rw [← neg_eq_zero, ← this]; simp only [cross]; ring
  obtain ⟨k, kx, ky⟩ := line_param h0 hbb
  rcases lt_trichotomy k 0 with hk | hk | hk
  · exact tangent_unique_aux hbb kx ky hk h2 h2' hb hb'
  · subst hk
    exact hvb ⟨by rw [kx]; ring, by rw [ky]; ring⟩
  · rcases lt_trichotomy k 1 with hk1 | hk1 | hk1
    · -- between
      have e1 : cross a b v = k * cross a b b' := by simp only [cross, kx, ky]; ring
      have e2 : cross a' b' v = (1 - k) * cross a' b' b := by simp only [cross, kx, ky]; ring
      have z1 : cross a b b' = 0 := by
        by_contra hn
        have : cross a b b' < 0 := lt_of_le_of_ne hc hn
        nlinarith
      have z2 : cross a' b' b = 0 := by
        by_contra hn
        have : cross a' b' b < 0 := lt_of_le_of_ne hb hn
        nlinarith
      have w1 := h1' (by rw [e1, z1, mul_zero])
      have w2 := h2' (by rw [e2, z2, mul_zero])
      have l1 : cross b b' a = 0 := by rw [← z1]; simp only [cross]; ring
      have l2 : cross b b' a' = 0 := by rw [← neg_eq_zero, ← z2]; simp only [cross]; ring
      obtain ⟨s, sx, sy⟩ := line_param l1 hbb
      obtain ⟨s', sx', sy'⟩ := line_param l2 hbb
      have hd := dist2_pos hbb
      have f1 : btw a b v = (k - s) * k * dist2 b b' := by
        simp only [btw, dist2, kx, ky, sx, sy]; ring
      have f2 : btw a' b' v = (k - s') * (k - 1) * dist2 b b' := by
        simp only [btw, dist2, kx, ky, sx', sy']; ring
      have hs : k < s := by
        by_contra hn
        push Not at hn
        have : 0 ≤ (k - s) * k * dist2 b b' := mul_nonneg (mul_nonneg (by linarith) hk.le) hd.le
        linarith
      have hs' : s' < k := by
        by_contra hn
        push Not at hn
        have : 0 ≤ (k - s') * (k - 1) * dist2 b b' :=
          mul_nonneg (mul_nonneg_of_nonpos_of_nonpos (by linarith) (by linarith)) hd.le
        linarith
      have g1 : cross a b q = -s * cross b b' q := by simp only [cross, sx, sy]; ring
      have g2 : cross a' b' q = (1 - s') * cross b b' q := by simp only [cross, sx', sy']; ring
      rw [g1] at hq
      rw [g2] at hq'
      have : cross b b' q ≤ 0 := by
        by_contra hn; push Not at hn
        nlinarith
      nlinarith
    · subst hk1
      exact hvb' ⟨by rw [kx]; ring, by rw [ky]; ring⟩
    · refine tangent_unique_aux (b := b') (b' := b) (a' := a) (v := v) (k := 1 - k)
        (fun h => hbb ⟨h.1.symm, h.2.symm⟩) (by rw [kx]; ring) (by rw [ky]; ring) (by linarith) h1 h1' hc hc'

end tangent

end Verif
