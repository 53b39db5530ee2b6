import Verif.Lemmas.DelaunayCavity

/-!
# Retriangulating the cavity of a point keeps the mesh a Delaunay triangulation
-/

set_option linter.unusedSectionVars false

namespace Verif

open Spec

variable {K : Type*} [Field K] [LinearOrder K] [IsStrictOrderedRing K]

variable {g : Vertex K} {T : List (Tri (Vertex K))}

/-- The triangles `R` in conflict with `v`, bordered by `L`. -/
structure Hollow (T : List (Tri (Vertex K))) (v : Vertex K) (R O : List (Tri (Vertex K)))
    (L Z : List (Edge (Vertex K))) : Prop where
  old : T.Perm (R ++ O)
  bdry : (sides R).Perm (L ++ (Z ++ Z.map Edge.opposite))
  ne : R ≠ []
  conf : ∀ r ∈ R, Conf v r
  link : ∀ l ∈ L, ∃ t ∈ T, IsSide t l.opposite ∧ ¬ Conf v t
  away : ∀ t ∈ O, ¬ Conf v t

/-- The lines from `v` that touch the mesh. -/
structure Tangents (g : Vertex K) (T : List (Tri (Vertex K))) (v : Vertex K) : Prop where
  off : ∀ t ∈ T, GhostTri g t → Conf v t → Off T v t
  ends : ∀ t ∈ T, ∀ s ∈ T, GhostTri g t → GhostTri g s → s.v1 = t.v2 → Conf v t → ¬ Conf v s →
    ∀ p, Vx T p → 0 ≤ cross t.v2 v p
  starts : ∀ t ∈ T, ∀ s ∈ T, GhostTri g t → GhostTri g s → s.v2 = t.v1 → Conf v t → ¬ Conf v s →
    ∀ p, Vx T p → cross t.v1 v p ≤ 0
  unique : ∀ t ∈ T, ∀ s ∈ T, ∀ t' ∈ T, ∀ s' ∈ T, GhostTri g t → GhostTri g s → s.v1 = t.v2 →
    Conf v t → ¬ Conf v s → GhostTri g t' → GhostTri g s' → s'.v1 = t'.v2 →
    Conf v t' → ¬ Conf v s' → t = t'

section

variable {v : Vertex K} {R O : List (Tri (Vertex K))} {L Z : List (Edge (Vertex K))}

theorem Hollow.sub (h : Hollow T v R O L Z) {r : Tri (Vertex K)} (hr : r ∈ R) : r ∈ T :=
  h.old.mem_iff.2 (List.mem_append.2 (Or.inl hr))

theorem Hollow.subO (h : Hollow T v R O L Z) {r : Tri (Vertex K)} (hr : r ∈ O) : r ∈ T :=
  h.old.mem_iff.2 (List.mem_append.2 (Or.inr hr))

theorem Hollow.mem_side (h : Hollow T v R O L Z) {l : Edge (Vertex K)} (hl : l ∈ L) :
    ∃ r ∈ R, IsSide r l :=
  mem_sides.1 (h.bdry.mem_iff.2 (List.mem_append.2 (Or.inl hl)))

theorem Hollow.rim (h : Hollow T v R O L Z) : Rim R L := ⟨_, balanced_pairs Z, h.bdry⟩

theorem Hollow.nodup (h : Hollow T v R O L Z) (hT : Good g T) : L.Nodup := by
  have h1 := (simple_iff.1 (simple_part hT.simple h.old))
  exact (List.nodup_append.1 (h.bdry.nodup_iff.1 h1)).1

theorem Hollow.left (h : Hollow T v R O L Z) (hT : Good g T) {l : Edge (Vertex K)} (hl : l ∈ L)
    (hr : RealEdge l) : 0 < cross l.v1 l.v2 v := by
  obtain ⟨r, hrR, hside⟩ := h.mem_side hl
  obtain ⟨t, ht, hts, hn⟩ := h.link l hl
  by_contra hle
  push Not at hle
  exact hn (hT.pencil (h.sub hrR) ht hr hside hts (h.conf r hrR) hle)

/-- A border edge to or from the ghost comes from a tangent. -/
theorem Hollow.ghost (h : Hollow T v R O L Z) (hT : Good g T) {l : Edge (Vertex K)} (hl : l ∈ L)
    (hr : ¬ RealEdge l) :
    (∃ t ∈ R, ∃ s ∈ T, GhostTri g t ∧ GhostTri g s ∧ ¬ Conf v s ∧ s.v1 = t.v2 ∧ l = ⟨t.v2, g⟩) ∨
    (∃ t ∈ R, ∃ s ∈ T, GhostTri g t ∧ GhostTri g s ∧ ¬ Conf v s ∧ s.v2 = t.v1 ∧ l = ⟨g, t.v1⟩) := by
  obtain ⟨r, hrR, hside⟩ := h.mem_side hl
  obtain ⟨t, ht, hts, hn⟩ := h.link l hl
  obtain ⟨gr, hcr⟩ := hT.side_ghost (h.sub hrR) hside hr
  obtain ⟨gt, hct⟩ := hT.side_ghost ht hts fun h => hr ⟨h.2, h.1⟩
  obtain ⟨a, b⟩ := l
  simp only [Edge.opposite] at hcr hct
  rcases hcr with ⟨h1, h2⟩ | ⟨h1, h2⟩
  · left
    refine ⟨r, hrR, t, ht, gr, gt, hn, ?_, by rw [h1, h2]⟩
    rcases hct with ⟨k1, k2⟩ | ⟨k1, k2⟩
    · exfalso
      have := gr.r2
      rw [← h1, k2, hT.ghost] at this; simp at this
    · rw [← k2, h1]
  · right
    refine ⟨r, hrR, t, ht, gr, gt, hn, ?_, by rw [h1, h2]⟩
    rcases hct with ⟨k1, k2⟩ | ⟨k1, k2⟩
    · rw [← k1, h2]
    · exfalso
      have := gr.r1
      rw [← h2, k1, hT.ghost] at this; simp at this

theorem Hollow.ends (h : Hollow T v R O L Z) : (L.map Edge.v1).Perm (L.map Edge.v2) := by
  have h1 := (h.bdry.map Edge.v1).symm.trans ((starts_sides R).trans (h.bdry.map Edge.v2))
  simp only [List.map_append, List.map_map] at h1
  have e1 : (Edge.v1 ∘ Edge.opposite : Edge (Vertex K) → Vertex K) = Edge.v2 := rfl
  have e2 : (Edge.v2 ∘ Edge.opposite : Edge (Vertex K) → Vertex K) = Edge.v1 := rfl
  rw [e1, e2] at h1
  exact (List.perm_append_right_iff _).1 (h1.trans (List.perm_append_comm.append_left _))

theorem two_le_sum {α : Type*} {f : α → ℤ} {l : List α} (h : ∀ a ∈ l, 0 ≤ f a) {a b : α} (ha : a ∈ l)
    (hb : b ∈ l) (hab : a ≠ b) (fa : f a = 1) (fb : f b = 1) : 2 ≤ (l.map f).sum := by
  induction l with
  | nil => simp at ha
  | cons c l ih =>
    rw [List.map_cons, List.sum_cons]
    have hl : ∀ a ∈ l, 0 ≤ f a := fun a ha => h a (List.mem_cons_of_mem _ ha)
    have one : ∀ a ∈ l, f a = 1 → 1 ≤ (l.map f).sum := by
      intro a ha h1
      have := List.single_le_sum (l := l.map f) (by
        intro x hx
        obtain ⟨y, hy, rfl⟩ := List.mem_map.1 hx
        exact hl y hy) (f a) (List.mem_map_of_mem ha)
      omega
    rcases List.mem_cons.1 ha with ea | ha' <;> rcases List.mem_cons.1 hb with eb | hb'
    · exact absurd (ea.trans eb.symm) hab
    · have := one b hb' fb; rw [← ea]; omega
    · have := one a ha' fa; rw [← eb]; omega
    · have := ih hl ha' hb'
      have := h c List.mem_cons_self
      omega

theorem ghost_ne {a b : Vertex K} (ha : a.isGhost = false) (hb : b.isGhost = true) : a ≠ b := by
  rintro rfl; simp [ha] at hb

/-- Each vertex is passed once by the border. -/
theorem Hollow.starts_nodup (h : Hollow T v R O L Z) (hT : Good g T) (ht : Tangents g T v) :
    (L.map Edge.v1).Nodup := by
  classical
  have hnd := h.nodup hT
  -- two border edges from one ordinary vertex
  have key : ∀ l ∈ L, ∀ l' ∈ L, l.v1 = l'.v1 → l.v1.isGhost = false → l = l' := by
    intro l hl l' hl' he hg
    by_cases hr : RealEdge l <;> by_cases hr' : RealEdge l'
    · by_contra hne
      have c1 := crs_start hr (h.left hT hl hr)
      have c2 := crs_start hr' (h.left hT hl' hr')
      rw [← he] at c2
      have hs := two_le_sum (f := crs v (l.v1.x - v.x) (l.v1.y - v.y)) (l := L) (by
        intro e hel
        by_cases hre : RealEdge e
        · exact crs_nonneg (h.left hT hel hre).le
        · unfold crs; rw [if_neg hre]) hl hl' hne c1 c2
      have hs2 := h.rim.sum (f := crs v (l.v1.x - v.x) (l.v1.y - v.y)) (crs_opposite v _ _)
      have hs3 := hT.part_le_one h.old v (l.v1.x - v.x) (l.v1.y - v.y)
      change (R.map fun t => (t.innerEdges.map (crs v (l.v1.x - v.x) (l.v1.y - v.y))).sum).sum ≤ 1 at hs3
      omega
    · exfalso
      rcases h.ghost hT hl' hr' with ⟨t, htR, s, hs, g1, g2, hn, hv, rfl⟩ | ⟨t, htR, s, hs, g1, g2, hn, hv, rfl⟩
      · have hq : Vx T l.v2 := by
          obtain ⟨r, hrR, hside⟩ := h.mem_side hl
          exact ⟨⟨r, h.sub hrR, (isCorner_of_isSide hside).2⟩, hr.2⟩
        have h1 := ht.ends t (h.sub htR) s hs g1 g2 hv (h.conf t htR) hn l.v2 hq
        have h2 := h.left hT hl hr
        simp only at he
        rw [← he] at h1
        have : cross l.v1 v l.v2 = -cross l.v1 l.v2 v := by simp only [cross]; ring
        linarith
      · exact ghost_ne hg hT.ghost he
    · exfalso
      rcases h.ghost hT hl hr with ⟨t, htR, s, hs, g1, g2, hn, hv, rfl⟩ | ⟨t, htR, s, hs, g1, g2, hn, hv, rfl⟩
      · have hq : Vx T l'.v2 := by
          obtain ⟨r, hrR, hside⟩ := h.mem_side hl'
          exact ⟨⟨r, h.sub hrR, (isCorner_of_isSide hside).2⟩, hr'.2⟩
        have h1 := ht.ends t (h.sub htR) s hs g1 g2 hv (h.conf t htR) hn l'.v2 hq
        have h2 := h.left hT hl' hr'
        simp only at he
        rw [he] at h1
        have : cross l'.v1 v l'.v2 = -cross l'.v1 l'.v2 v := by simp only [cross]; ring
        linarith
      · exact ghost_ne hg hT.ghost rfl
    · rcases h.ghost hT hl hr with ⟨t, -, s, -, -, -, -, -, rfl⟩ | ⟨t, -, s, -, -, -, -, -, rfl⟩
      · rcases h.ghost hT hl' hr' with ⟨t', -, s, -, -, -, -, -, rfl⟩ | ⟨t', -, s, -, -, -, -, -, rfl⟩
        · simp only at he; rw [he]
        · exact absurd he (ghost_ne hg hT.ghost)
      · exact absurd rfl (ghost_ne hg hT.ghost)
  -- two border edges to the ghost
  have key2 : ∀ l ∈ L, ∀ l' ∈ L, l.v2 = g → l'.v2 = g → l = l' := by
    intro l hl l' hl' he he'
    have hr : ¬ RealEdge l := fun h => ghost_ne h.2 hT.ghost he
    have hr' : ¬ RealEdge l' := fun h => ghost_ne h.2 hT.ghost he'
    rcases h.ghost hT hl hr with ⟨t, ht1, s, hs, g1, g2, hn, hv, rfl⟩ | ⟨t, -, s, -, g1, -, -, -, rfl⟩
    · rcases h.ghost hT hl' hr' with ⟨t', ht1', s', hs', g1', g2', hn', hv', rfl⟩ | ⟨t', -, s, -, g1', -, -, -, rfl⟩
      · rw [ht.unique t (h.sub ht1) s hs t' (h.sub ht1') s' hs' g1 g2 hv (h.conf t ht1) hn g1' g2' hv'
          (h.conf t' ht1') hn']
      · exact absurd he' (ghost_ne g1'.r1 hT.ghost)
    · exact absurd he (ghost_ne g1.r1 hT.ghost)
  have hends := h.ends
  have cnt : (L.map Edge.v2).count g ≤ 1 := by
    rw [List.count_eq_countP, List.countP_map, List.countP_eq_length_filter]
    by_contra hc
    push Not at hc
    have hfn := hnd.filter ((fun x => x == g) ∘ Edge.v2)
    match hf : L.filter ((fun x => x == g) ∘ Edge.v2) with
    | [] => rw [hf] at hc; simp at hc
    | [a] => rw [hf] at hc; simp at hc
    | a :: b :: l =>
      have ha : a ∈ L.filter ((fun x => x == g) ∘ Edge.v2) := by rw [hf]; simp
      have hb : b ∈ L.filter ((fun x => x == g) ∘ Edge.v2) := by rw [hf]; simp
      rw [hf] at hfn
      rw [List.mem_filter] at ha hb
      have := key2 a ha.1 b hb.1 (by simpa using ha.2) (by simpa using hb.2)
      simp [this] at hfn
  rw [← hends.count_eq] at cnt
  rw [List.nodup_map_iff_inj_on hnd]
  intro l hl l' hl' he
  by_cases hg : l.v1.isGhost = false
  · exact key l hl l' hl' he hg
  · -- both start at the ghost
    have hst : ∀ e ∈ L, e.v1.isGhost ≠ false → e.v1 = g := by
      intro e he hge
      have hr : ¬ RealEdge e := fun h => hge h.1
      rcases h.ghost hT he hr with ⟨t, -, s, -, g1, -, -, -, rfl⟩ | ⟨t, -, s, -, g1, -, -, -, rfl⟩
      · exact absurd g1.r2 hge
      · rfl
    have e1 := hst l hl hg
    have e2 : l'.v1 = g := he ▸ e1
    by_contra hne
    rw [List.count_eq_countP, List.countP_map, List.countP_eq_length_filter] at cnt
    have m1 : l ∈ L.filter ((fun x => x == g) ∘ Edge.v1) := List.mem_filter.2 ⟨hl, by simp [e1]⟩
    have m2 : l' ∈ L.filter ((fun x => x == g) ∘ Edge.v1) := List.mem_filter.2 ⟨hl', by simp [e2]⟩
    match hf : L.filter ((fun x => x == g) ∘ Edge.v1) with
    | [] => rw [hf] at m1; simp at m1
    | [a] =>
      rw [hf, List.mem_singleton] at m1 m2
      exact hne (m1.trans m2.symm)
    | a :: b :: l => rw [hf] at cnt; simp at cnt

theorem Hollow.corner (h : Hollow T v R O L Z) {T' : List (Tri (Vertex K))}
    (hT' : T'.Perm (L.map (newTri Vertex.isGhost · v) ++ O)) {p : Vertex K} (hp : Vx T' p) :
    Vx T p ∨ p = v := by
  obtain ⟨⟨t, ht, hc⟩, hg⟩ := hp
  rcases List.mem_append.1 (hT'.mem_iff.1 ht) with k | k
  · obtain ⟨l, hl, rfl⟩ := List.mem_map.1 k
    obtain ⟨r, hr, hs⟩ := h.mem_side hl
    have := isCorner_of_isSide hs
    rcases newTri_isCorner.1 hc with k | k | k
    · exact Or.inl ⟨⟨r, h.sub hr, k ▸ this.1⟩, hg⟩
    · exact Or.inl ⟨⟨r, h.sub hr, k ▸ this.2⟩, hg⟩
    · exact Or.inr k
  · exact Or.inl ⟨⟨t, h.subO k, hc⟩, hg⟩

/-- The circle of a new triangle is empty. -/
theorem Hollow.empty (h : Hollow T v R O L Z) (hT : Good g T) {l : Edge (Vertex K)} (hl : l ∈ L)
    (hr : RealEdge l) {p : Vertex K} (hp : Vx T p) : circleDet l.v1 l.v2 v p ≤ 0 := by
  obtain ⟨r, hrR, hside⟩ := h.mem_side hl
  obtain ⟨t, ht, hts, hn⟩ := h.link l hl
  have hleft := h.left hT hl hr
  have hrc := h.conf r hrR
  rcases le_or_gt 0 (cross l.v1 l.v2 p) with hpl | hpl
  · rcases hT.side_real (h.sub hrR) hside hr with ⟨hs, c, hc, hcc, hcd⟩ | ⟨hs, h1, h2⟩
    · have e := circleDet_pencil l.v1 l.v2 c v p
      have e1 := hT.empty r (h.sub hrR) hs p hp
      rw [hcd] at e1
      rw [conf_solid hs, hcd] at hrc
      have : circleDet l.v1 l.v2 v p * cross l.v1 l.v2 c ≤ 0 := by
        rw [e]; nlinarith
      by_contra hc
      push Not at hc
      nlinarith
    · have hh := hT.hull r (h.sub hrR) hs p hp
      rw [← h1, ← h2] at hh
      have h0 : cross l.v1 l.v2 p = 0 := le_antisymm hh.1 hpl
      rw [circleDet_btw, h0, zero_mul, zero_sub]
      have := hh.2 h0
      nlinarith
  · have hr' : RealEdge l.opposite := ⟨hr.2, hr.1⟩
    rcases hT.side_real ht hts hr' with ⟨hs, c, hc, hcc, hcd⟩ | ⟨hs, h1, h2⟩
    · have e := circleDet_pencil l.v2 l.v1 c v p
      have e1 := hT.empty t ht hs p hp
      rw [hcd] at e1
      rw [conf_solid hs, hcd] at hn
      push Not at hn
      simp only [Edge.opposite] at hcc e1 hn
      have s1 := cross_swap l.v1 l.v2 p
      have s2 := cross_swap l.v1 l.v2 v
      have s3 := circleDet_swap l.v1 l.v2 v p
      have h3 : 0 ≤ circleDet l.v2 l.v1 v p * cross l.v2 l.v1 c := by
        rw [e, s1, s2]; nlinarith
      rw [s3] at h3
      by_contra hc
      push Not at hc
      nlinarith
    · exfalso
      have hh := (hT.hull t ht hs p hp).1
      rw [← h1, ← h2] at hh
      simp only [Edge.opposite] at hh
      have s1 := cross_swap l.v1 l.v2 p
      linarith

theorem hull_end {a b v p : Vertex K} (hab : ¬ SamePoint a b) (hbv : ¬ SamePoint b v)
    (hv : 0 ≤ cross a b v) (hv0 : cross a b v = 0 → btw a b v < 0) (hp : cross a b p ≤ 0)
    (hp0 : cross a b p = 0 → 0 ≤ btw a b p) (h0 : cross b v p = 0) : 0 ≤ btw v b p := by
  by_contra hn
  push Not at hn
  obtain ⟨r, rx, ry⟩ := line_param h0 hbv
  have e1 : btw v b p = r * (r - 1) * dist2 b v := by simp only [btw, dist2, rx, ry]; ring
  have hd := dist2_pos hbv
  have hr : 0 < r ∧ r < 1 := by
    have : r * (r - 1) < 0 := by
      by_contra hc
      push Not at hc
      rw [e1] at hn
      nlinarith
    constructor <;> nlinarith
  have e2 : cross a b p = r * cross a b v := by simp only [cross, rx, ry]; ring
  have hz : cross a b v = 0 := by
    rcases hv.eq_or_lt with h | h
    · exact h.symm
    · nlinarith [mul_pos hr.1 h]
  have hb := hv0 hz
  obtain ⟨s, sx, sy⟩ := line_param hz hab
  have hb2 := hp0 (by rw [e2, hz, mul_zero])
  have hd2 := dist2_pos hab
  have e3 : btw a b v = s * (s - 1) * dist2 a b := by simp only [btw, dist2, sx, sy]; ring
  have e4 : btw a b p = (1 + r * (s - 1)) * (r * (s - 1)) * dist2 a b := by
    simp only [btw, dist2, rx, ry, sx, sy]; ring
  have hs : 0 < s ∧ s < 1 := by
    have : s * (s - 1) < 0 := by
      by_contra hc
      push Not at hc
      rw [e3] at hb
      nlinarith
    constructor <;> nlinarith
  have k1 : r * (s - 1) < 0 := by nlinarith [hr.1, hs.2]
  have k2 : 0 < 1 + r * (s - 1) := by nlinarith [hr.1, hr.2, hs.1, hs.2]
  have k3 : (1 + r * (s - 1)) * (r * (s - 1)) < 0 := by nlinarith
  rw [e4] at hb2
  nlinarith

theorem hull_start {a b v p : Vertex K} (hab : ¬ SamePoint a b) (hav : ¬ SamePoint a v)
    (hv : 0 ≤ cross a b v) (hv0 : cross a b v = 0 → btw a b v < 0) (hp : cross a b p ≤ 0)
    (hp0 : cross a b p = 0 → 0 ≤ btw a b p) (h0 : cross a v p = 0) : 0 ≤ btw a v p := by
  have sw : ∀ x y w : Vertex K, cross (mir y) (mir x) (mir w) = cross x y w := by
    intro x y w; rw [cross_mir, cross_swap]; simp
  have bt : ∀ x y w : Vertex K, btw (mir y) (mir x) (mir w) = btw x y w := by
    intro x y w; rw [btw_mir]; simp only [btw]; ring
  have := hull_end (a := mir b) (b := mir a) (v := mir v) (p := mir p)
    (by rw [samePoint_mir]; exact fun h => hab ⟨h.1.symm, h.2.symm⟩)
    (by rw [samePoint_mir]; exact hav) (by rw [sw]; exact hv) (by rw [sw, bt]; exact hv0)
    (by rw [sw]; exact hp) (by rw [sw, bt]; exact hp0) (by rw [cross_mir, h0, neg_zero])
  rwa [bt] at this

/-- Some border edge is ordinary. -/
theorem Hollow.real_edge (h : Hollow T v R O L Z) (hT : Good g T) (ht : Tangents g T v) :
    ∃ l ∈ L, RealEdge l := by
  classical
  by_cases hgh : ∃ t ∈ R, GhostTri g t
  · obtain ⟨t0, ht0, hg0⟩ := hgh
    have hRn : R.Nodup := (List.nodup_append.1 (h.old.nodup_iff.1 hT.simple.nodup)).1
    have hopp : ∀ l ∈ L, l.opposite ∉ L := by
      intro l hl hl'
      obtain ⟨t, htT, hts, hn⟩ := h.link l hl
      obtain ⟨r, hr, hrs⟩ := h.mem_side hl'
      exact hn (hT.simple.edgeDisjoint t htT r (h.sub hr) _ hts hrs ▸ h.conf r hr)
    -- a border edge to the ghost
    have : ∃ l ∈ L, l.v2 = g ∧ l.v1.isGhost = false := by
      by_contra hc
      push Not at hc
      refine hT.ghosts_close (v := v) hRn (fun r hr => ⟨h.sub hr, h.conf r hr⟩)
        (fun r hr hg => ht.off r (h.sub hr) hg (h.conf r hr)) (Or.inl ?_) ht0 hg0
      intro t htR hg
      have hm : (⟨t.v2, t.v3⟩ : Edge (Vertex K)) ∈ sides R := mem_sides.2 ⟨t, htR, Or.inr (Or.inl ⟨rfl, rfl⟩)⟩
      rcases List.mem_append.1 (h.bdry.mem_iff.1 hm) with k | k
      · exact absurd hg.r2 (hc _ k hg.g3)
      · have : (Edge.opposite ⟨t.v2, t.v3⟩ : Edge (Vertex K)) ∈ sides R := by
          refine h.bdry.mem_iff.2 (List.mem_append.2 (Or.inr ?_))
          rcases List.mem_append.1 k with k | k
          · exact List.mem_append.2 (Or.inr (List.mem_map_of_mem k))
          · obtain ⟨z, hz, hze⟩ := List.mem_map.1 k
            rw [← hze, opposite_opposite]
            exact List.mem_append.2 (Or.inl hz)
        obtain ⟨s, hs, hss⟩ := mem_sides.1 this
        obtain ⟨gs, hcs⟩ := hT.side_ghost (h.sub hs) hss (by
          rintro ⟨h, -⟩; simp [Edge.opposite, hg.g3, hT.ghost] at h)
        refine ⟨s, hs, gs, ?_⟩
        rcases hcs with ⟨-, h⟩ | ⟨-, h⟩
        · exact absurd h (ghost_ne hg.r2 hT.ghost)
        · exact h.symm
    obtain ⟨l, hl, hl2, hl1⟩ := this
    have hm : l.v1 ∈ L.map Edge.v2 := h.ends.mem_iff.1 (List.mem_map_of_mem hl)
    obtain ⟨l', hl', he⟩ := List.mem_map.1 hm
    by_contra hc
    push Not at hc
    have hr' := hc l' hl'
    rcases h.ghost hT hl' hr' with ⟨t, -, s, -, -, -, -, -, rfl⟩ | ⟨t, -, s, -, -, -, -, -, rfl⟩
    · exact ghost_ne hl1 hT.ghost he.symm
    · refine hopp l hl ?_
      obtain ⟨a, b⟩ := l
      simp only at he hl2
      simp only [Edge.opposite]
      rw [hl2, ← he]; exact hl'
  · have hs := hT.patch_solid (fun r hr => h.sub hr) hgh
    have := (region_winds (v := v) hs h.ne h.rim (fun e he hr => h.left hT he hr) (ux := 1) (uy := 0)
      (Or.inl one_ne_zero)).1
    by_contra hc
    push Not at hc
    have h0 : (L.map (crs v 1 0)).sum = 0 := by
      refine List.sum_eq_zero ?_
      intro x hx
      obtain ⟨e, he, rfl⟩ := List.mem_map.1 hx
      unfold crs; rw [if_neg (hc e he)]
    omega

/-- The mesh after the cavity was retriangulated. -/
theorem Hollow.good (h : Hollow T v R O L Z) (hT : Good g T) (ht : Tangents g T v)
    (hv : v.isGhost = false) (hvx : ¬ Vx T v) {T' : List (Tri (Vertex K))}
    (hT' : T'.Perm (L.map (newTri Vertex.isGhost · v) ++ O)) (hw : Watertight T') :
    Good g T' ∧ ∃ t ∈ T', SolidTri t := by
  classical
  have hfresh : ∀ t ∈ T, ∀ x, IsCorner t x → x ≠ v := by
    intro t htT x hx he
    exact hvx ⟨⟨t, htT, he ▸ hx⟩, hv⟩
  have hLv : ∀ l ∈ L, l.v1 ≠ v ∧ l.v2 ≠ v := by
    intro l hl
    obtain ⟨r, hr, hs⟩ := h.mem_side hl
    have := isCorner_of_isSide hs
    exact ⟨hfresh r (h.sub hr) _ this.1, hfresh r (h.sub hr) _ this.2⟩
  -- the new triangles
  have hnew : ∀ t ∈ T', t ∈ O ∨ (∃ l ∈ L, RealEdge l ∧ t = ⟨l.v1, l.v2, v⟩) ∨
      (∃ r ∈ R, ∃ s ∈ T, GhostTri g r ∧ GhostTri g s ∧ ¬ Conf v s ∧ s.v1 = r.v2 ∧ t = ⟨v, r.v2, g⟩) ∨
      (∃ r ∈ R, ∃ s ∈ T, GhostTri g r ∧ GhostTri g s ∧ ¬ Conf v s ∧ s.v2 = r.v1 ∧ t = ⟨r.v1, v, g⟩) := by
    intro t htT
    rcases List.mem_append.1 (hT'.mem_iff.1 htT) with k | k
    · right
      obtain ⟨l, hl, rfl⟩ := List.mem_map.1 k
      by_cases hr : RealEdge l
      · left
        refine ⟨l, hl, hr, ?_⟩
        unfold newTri
        rw [if_neg (by simp [hr.1]), if_neg (by simp [hr.2])]
      · right
        rcases h.ghost hT hl hr with ⟨r, hrR, s, hs, g1, g2, hn, he, rfl⟩ | ⟨r, hrR, s, hs, g1, g2, hn, he, rfl⟩
        · left
          refine ⟨r, hrR, s, hs, g1, g2, hn, he, ?_⟩
          unfold newTri
          rw [if_neg (by simp [g1.r2]), if_pos hT.ghost]
        · right
          refine ⟨r, hrR, s, hs, g1, g2, hn, he, ?_⟩
          unfold newTri
          rw [if_pos hT.ghost]
    · exact Or.inl k
  have hvne : ∀ x, Vx T x → ¬ SamePoint v x := fun x hx => real_ne hv hx.2 fun h => hvx (h ▸ hx)
  have hgc : ∀ r ∈ R, GhostTri g r → 0 ≤ cross r.v1 r.v2 v ∧ (cross r.v1 r.v2 v = 0 → btw r.v1 r.v2 v < 0) := by
    intro r hr hg
    have hc := h.conf r hr
    refine ⟨conf_ghost_nonneg hT.ghost hg hc, fun h0 => ?_⟩
    rw [conf_ghost hT.ghost hg] at hc
    rcases hc with hc | hc
    · linarith
    · exact hc.2
  have hsolidO : ∀ t ∈ T', SolidTri t → t ∈ O ∨ ∃ l ∈ L, RealEdge l ∧ t = ⟨l.v1, l.v2, v⟩ := by
    intro t htT hs
    rcases hnew t htT with k | k | ⟨r, -, s, -, -, -, -, -, rfl⟩ | ⟨r, -, s, -, -, -, -, -, rfl⟩
    · exact Or.inl k
    · exact Or.inr k
    · exact absurd rfl (ghost_ne hs.r3 hT.ghost)
    · exact absurd rfl (ghost_ne hs.r3 hT.ghost)
  refine ⟨⟨hT.ghost, ?_, hw, ?_, ?_, ?_⟩, ?_⟩
  · -- simple
    rw [simple_iff, (sides_perm hT').nodup_iff, sides_append, List.nodup_append]
    have hst := h.starts_nodup hT ht
    have hen := h.ends.nodup_iff.1 hst
    have hLn := h.nodup hT
    have hOn : (sides O).Nodup := by
      refine simple_iff.1 (simple_part hT.simple (R := O) (O := R) (h.old.trans List.perm_append_comm))
    have hdis : ∀ e ∈ sides R, e ∉ sides O := by
      have := simple_iff.1 hT.simple
      rw [(sides_perm h.old).nodup_iff, sides_append, List.nodup_append] at this
      exact fun e he he' => this.2.2 e he e he' rfl
    have n2 : (L.map fun l => (⟨l.v2, v⟩ : Edge (Vertex K))).Nodup := by
      rw [List.nodup_map_iff_inj_on hLn]
      intro x hx y hy hxy
      rw [List.nodup_map_iff_inj_on hLn] at hen
      exact hen x hx y hy (congrArg Edge.v1 hxy)
    have n3 : (L.map fun l => (⟨v, l.v1⟩ : Edge (Vertex K))).Nodup := by
      rw [List.nodup_map_iff_inj_on hLn]
      intro x hx y hy hxy
      rw [List.nodup_map_iff_inj_on hLn] at hst
      exact hst x hx y hy (congrArg Edge.v2 hxy)
    refine ⟨?_, hOn, ?_⟩
    · rw [(sides_map_newTri _ _ _).nodup_iff, List.nodup_append, List.nodup_append]
      refine ⟨hLn, ⟨n2, n3, ?_⟩, ?_⟩
      · rintro a ha b hb rfl
        obtain ⟨x, hx, rfl⟩ := List.mem_map.1 ha
        obtain ⟨y, hy, he⟩ := List.mem_map.1 hb
        exact (hLv y hy).1 (congrArg Edge.v2 he)
      · rintro a ha b hb rfl
        rcases List.mem_append.1 hb with k | k
        · obtain ⟨x, hx, rfl⟩ := List.mem_map.1 k
          exact (hLv _ ha).2 rfl
        · obtain ⟨x, hx, rfl⟩ := List.mem_map.1 k
          exact (hLv _ ha).1 rfl
    · rintro a ha b hb rfl
      rw [(sides_map_newTri _ _ _).mem_iff] at ha
      rcases List.mem_append.1 ha with k | k
      · obtain ⟨r, hr, hs⟩ := h.mem_side k
        exact hdis a (mem_sides.2 ⟨r, hr, hs⟩) hb
      · obtain ⟨t, htO, hs⟩ := mem_sides.1 hb
        have := isCorner_of_isSide hs
        rcases List.mem_append.1 k with k | k
        · obtain ⟨x, hx, rfl⟩ := List.mem_map.1 k
          exact hfresh t (h.subO htO) _ this.2 rfl
        · obtain ⟨x, hx, rfl⟩ := List.mem_map.1 k
          exact hfresh t (h.subO htO) _ this.1 rfl
  · -- shape
    intro t htT
    rcases hnew t htT with k | ⟨l, hl, hr, rfl⟩ | ⟨r, hr, s, -, g1, -, -, -, rfl⟩ | ⟨r, hr, s, -, g1, -, -, -, rfl⟩
    · exact hT.shape t (h.subO k)
    · exact Or.inl ⟨hr.1, hr.2, hv, h.left hT hl hr⟩
    · right
      refine ⟨hv, g1.r2, ?_, rfl⟩
      exact fun e => hvx (by rw [show v = r.v2 from e]; exact (hT.corners (h.sub hr)).2)
    · right
      refine ⟨g1.r1, hv, ?_, rfl⟩
      exact fun e => hvx (by rw [← show r.v1 = v from e]; exact (hT.corners (h.sub hr)).1)
  · -- empty circles
    intro t htT hs p hp
    rcases hsolidO t htT hs with k | ⟨l, hl, hr, rfl⟩
    · rcases h.corner hT' hp with hp | rfl
      · exact hT.empty t (h.subO k) hs p hp
      · have := h.away t k
        rw [conf_solid hs] at this
        exact not_lt.1 this
    · rcases h.corner hT' hp with hp | rfl
      · exact h.empty hT hl hr hp
      · simp only
        rw [circleDet_btw]
        linarith
  · -- hull
    intro t htT hs p hp
    rcases hnew t htT with k | ⟨l, hl, hr, rfl⟩ | ⟨r, hr, s, hsT, g1, g2, hn, he, rfl⟩ | ⟨r, hr, s, hsT, g1, g2, hn, he, rfl⟩
    · rcases h.corner hT' hp with hp | rfl
      · exact hT.hull t (h.subO k) hs p hp
      · have := h.away t k
        rw [conf_ghost hT.ghost hs] at this
        push Not at this
        exact ⟨this.1, this.2⟩
    · exact absurd hs.g3 (ghost_ne hv hT.ghost)
    · simp only
      have w := hT.corners (h.sub hr)
      rcases h.corner hT' hp with hp | rfl
      · have h1 := ht.ends r (h.sub hr) s hsT g1 g2 he (h.conf r hr) hn p hp
        have e1 : cross v r.v2 p = -cross r.v2 v p := by rw [cross_swap]
        refine ⟨by linarith, fun h0 => ?_⟩
        obtain ⟨c1, c2⟩ := hgc r hr g1
        have hh := hT.hull r (h.sub hr) g1 p hp
        exact hull_end (real_ne g1.r1 g1.r2 g1.ne) (fun hs => hvne _ w.2 ⟨hs.1.symm, hs.2.symm⟩) c1 c2 hh.1 hh.2
          (by linarith)
      · refine ⟨le_of_eq ?_, fun _ => le_of_eq ?_⟩
        · simp only [cross]; ring
        · simp only [btw]; ring
    · simp only
      have w := hT.corners (h.sub hr)
      rcases h.corner hT' hp with hp | rfl
      · have h1 := ht.starts r (h.sub hr) s hsT g1 g2 he (h.conf r hr) hn p hp
        refine ⟨h1, fun h0 => ?_⟩
        obtain ⟨c1, c2⟩ := hgc r hr g1
        have hh := hT.hull r (h.sub hr) g1 p hp
        exact hull_start (real_ne g1.r1 g1.r2 g1.ne) (fun hs => hvne _ w.1 ⟨hs.1.symm, hs.2.symm⟩) c1 c2 hh.1 hh.2 h0
      · refine ⟨le_of_eq ?_, fun _ => le_of_eq ?_⟩
        · simp only [cross]; ring
        · simp only [btw]; ring
  · obtain ⟨l, hl, hr⟩ := h.real_edge hT ht
    refine ⟨newTri Vertex.isGhost l v, hT'.mem_iff.2 (List.mem_append.2 (Or.inl (List.mem_map_of_mem hl))), ?_⟩
    unfold newTri
    rw [if_neg (by simp [hr.1]), if_neg (by simp [hr.2])]
    exact ⟨hr.1, hr.2, hv, h.left hT hl hr⟩

end

end Verif
