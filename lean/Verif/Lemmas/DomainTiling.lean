import Verif.Lemmas.Faces
import Verif.Props.Carve
import Verif.Spec.Domain

/-!
# Carving the outside of a polygon out of a Delaunay mesh leaves a triangulation of the polygon
-/

set_option linter.unusedSectionVars false

namespace Verif

open Spec Props

variable {K : Type*} [Field K] [LinearOrder K] [IsStrictOrderedRing K]

/-- Twice the area under an edge between ordinary vertices. -/
def shoe (e : Edge (Vertex K)) : K := if RealEdge e then e.v1.x * e.v2.y - e.v2.x * e.v1.y else 0

theorem shoe_opposite (e : Edge (Vertex K)) : shoe e.opposite = -shoe e := by
  unfold shoe
  by_cases h : RealEdge e
  · rw [if_pos h, if_pos (show RealEdge e.opposite from ⟨h.2, h.1⟩)]
    simp only [Edge.opposite]; ring
  · rw [if_neg h, if_neg (fun h' : RealEdge e.opposite => h ⟨h'.2, h'.1⟩)]; simp

theorem shoe_solid {t : Tri (Vertex K)} (h : SolidTri t) : (t.innerEdges.map shoe).sum = cross t.v1 t.v2 t.v3 := by
  simp only [Tri.innerEdges, List.map_cons, List.map_nil, List.sum_cons, List.sum_nil, shoe, RealEdge, h.r1, h.r2, h.r3,
    and_self, if_true, cross]
  ring

theorem shoe_ghostOn {g : Vertex K} (hg : g.isGhost = true) (e : Edge (Vertex K)) :
    ((ghostOn g e).innerEdges.map shoe).sum = shoe e := by
  simp [ghostOn, Tri.innerEdges, shoe, RealEdge, hg]

theorem shoe_wall {b : Polyline (Vertex K)} (hreal : ∀ v ∈ b.vertices, v.isGhost = false) :
    ((outerWall b).map shoe).sum = -(2 * shoelace b.vertices) := by
  rw [shoelace_sum, outerWall, List.map_map]
  have : ∀ l : List (Vertex K × Vertex K), (∀ s ∈ l, s.1.isGhost = false ∧ s.2.isGhost = false) →
      (l.map (shoe ∘ fun s => (⟨s.2, s.1⟩ : Edge (Vertex K)))).sum =
        -(2 * (l.map fun s => (s.1.x * s.2.y - s.2.x * s.1.y) / 2).sum) := by
    intro l hl
    induction l with
    | nil => simp
    | cons s l ih =>
      obtain ⟨h1, h2⟩ := hl s (by simp)
      rw [List.map_cons, List.sum_cons, List.map_cons, List.sum_cons, ih fun t ht => hl t (by simp [ht])]
      simp only [Function.comp, shoe, RealEdge, h1, h2, and_self, if_true]
      ring
  refine this _ fun s hs => ?_
  obtain ⟨h1, h2⟩ := mem_pairs hs
  exact ⟨hreal _ h1, hreal _ h2⟩

section

variable {g : Vertex K} {T M : List (Tri (Vertex K))} {b : Polyline (Vertex K)}

/-- If the carved mesh is closed, all old ghosts have been removed. -/
theorem Good.all_reached (hT : Good g T) {s : Tri (Vertex K)} (hs : s ∈ T) (hsol : SolidTri s)
    (hreal : ∀ v ∈ b.vertices, v.isGhost = false) (ha : 0 < shoelace b.vertices)
    (hM : M.Perm (kept T (outerWall b) ++ (outerWall b).map (ghostOn g))) (hw : Watertight M) {t : Tri (Vertex K)}
    (ht : t ∈ T) (hg : GhostTri g t) : Reach T (outerWall b) t := by
  classical
  by_contra hn
  have hwall : ∀ e ∈ outerWall b, RealEdge e := by
    intro e he
    obtain ⟨s, hs, rfl⟩ := List.mem_map.1 he
    obtain ⟨h1, h2⟩ := mem_pairs hs
    exact ⟨hreal _ h2, hreal _ h1⟩
  have hall : ∀ r ∈ T, GhostTri g r → ¬ Reach T (outerWall b) r := by
    intro r hr hgr
    refine hT.ring hs hsol (G := fun r => ¬ Reach T (outerWall b) r) ?_ ht hg hn hr hgr
    intro t ht hg h s hs hgs he hreach
    refine h (Reach.step hreach (e := ⟨s.v3, s.v1⟩) (Or.inr (Or.inr ⟨rfl, rfl⟩)) ?_ ht ?_)
    · intro hmem
      have := (hwall _ hmem).1
      simp [hgs.g3, hT.ghost] at this
    · right; left
      exact ⟨he, by simp [Edge.opposite, hgs.g3, hg.g3]⟩
  -- the sums
  have h0 := (balanced_of_watertight hw).sum_zero (f := shoe) shoe_opposite
  rw [sum_sides', (hM.map _).sum_eq, List.map_append, List.sum_append, List.map_map] at h0
  have e1 : ((fun t : Tri (Vertex K) => (t.innerEdges.map shoe).sum) ∘ ghostOn g) = shoe :=
    funext fun e => shoe_ghostOn hT.ghost e
  rw [e1, shoe_wall hreal] at h0
  have h1 := (balanced_of_watertight hT.closed).sum_zero (f := shoe) shoe_opposite
  rw [sum_sides'] at h1
  have hp := (List.filter_append_perm (fun t => decide (¬ Reach T (outerWall b) t)) T).symm
  rw [(hp.map _).sum_eq, List.map_append, List.sum_append] at h1
  have e2 : (T.filter fun t => decide (¬ Reach T (outerWall b) t)) = kept T (outerWall b) := by
    unfold kept
    congr
  rw [e2] at h1
  have h2 := List.sum_nonneg (l := (T.filter fun t => !decide (¬ Reach T (outerWall b) t)).map
      fun t => (t.innerEdges.map shoe).sum) (by
    intro x hx
    obtain ⟨r, hr, rfl⟩ := List.mem_map.1 hx
    obtain ⟨r1, r2⟩ := List.mem_filter.1 hr
    rcases hT.shape r r1 with h | h
    · rw [shoe_solid h]; exact h.ccw.le
    · exact absurd (by simpa using r2) (hall r r1 h))
  linarith

/-- The carved mesh: triangles of a mesh without overlaps, and a ghost over each side of the polygon. -/
structure Lot (g : Vertex K) (l : List (Vertex K)) (M : List (Tri (Vertex K))) : Prop where
  ghost : g.isGhost = true
  real : ∀ v ∈ l, v.isGhost = false
  closed : Watertight M
  shape : ∀ t ∈ M, SolidTri t ∨ ∃ s ∈ pairs l false, t = ⟨s.2, s.1, g⟩
  border : ∀ s ∈ pairs l false, (⟨s.2, s.1, g⟩ : Tri (Vertex K)) ∈ M
  outline : ∀ w, windingNumber (outline M) w = windingNumber (pairs l false) w

theorem SolidTri.noGhost {t : Tri (Vertex K)} (h : SolidTri t) : ¬ HasGhost t := by
  rintro (k | k | k)
  · simp [h.r1] at k
  · simp [h.r2] at k
  · simp [h.r3] at k

theorem hasGhost_last {t : Tri (Vertex K)} (h : t.v3.isGhost = true) : HasGhost t := Or.inr (Or.inr h)

namespace Lot

variable {l : List (Vertex K)}

theorem solid_iff (h : Lot g l M) {t : Tri (Vertex K)} (ht : t ∈ M) : ¬ HasGhost t ↔ SolidTri t := by
  constructor
  · intro hg
    rcases h.shape t ht with k | ⟨s, -, rfl⟩
    · exact k
    · exact absurd (hasGhost_last h.ghost) hg
  · exact SolidTri.noGhost

/-- Each side of the polygon has its triangle. -/
theorem side (h : Lot g l M) (hback : ∀ s ∈ pairs l false, (s.2, s.1) ∉ pairs l false) {s : Vertex K × Vertex K}
    (hs : s ∈ pairs l false) : ∃ t ∈ M, SolidTri t ∧ IsSide t ⟨s.1, s.2⟩ := by
  have h1 : 0 < sideCount M ⟨s.2, s.1⟩ := by
    rw [sideCount_sides, List.count_pos_iff, mem_sides]
    exact ⟨_, h.border s hs, Or.inl ⟨rfl, rfl⟩⟩
  rw [h.closed, sideCount_sides, List.count_pos_iff, mem_sides] at h1
  obtain ⟨t, ht, hte⟩ := h1
  rcases h.shape t ht with k | ⟨f, hf, rfl⟩
  · exact ⟨t, ht, k, hte⟩
  · exfalso
    obtain ⟨r1, r2⟩ := mem_pairs hs
    have r1 := h.real _ r1
    have r2 := h.real _ r2
    have hg := h.ghost
    rcases hte with ⟨h1, h2⟩ | ⟨h1, h2⟩ | ⟨h1, h2⟩ <;> simp only at h1 h2
    · exact hback f hf (by rw [← h1, ← h2]; exact hs)
    · rw [h2, hg] at r2; simp at r2
    · rw [h1, hg] at r1; simp at r1

theorem coverings_eq (h : Lot g l M) {w : Vertex K}
    (hoff : ∀ t ∈ M, SolidTri t → ∀ e, IsSide t e → ¬ OnSegment e.v1 e.v2 w) :
    (coverings M w : ℤ) = windingNumber (pairs l false) w := by
  rw [← h.outline, covering_eq h.closed]
  · intro t ht
    by_cases hg : HasGhost t
    · exact Or.inl hg
    · exact Or.inr (Verif.solid_iff.2 ((h.solid_iff ht).1 hg))
  · intro t ht hg
    exact hoff t ht ((h.solid_iff ht).1 hg)

theorem within_iff {t : Tri (Vertex K)} (h : SolidTri t) {w : Vertex K} : InOrOn t w ↔ Within t w := by
  constructor
  · rintro (k | ⟨e, he, ho⟩)
    · exact within_of_inner k
    · exact within_side h he ho
  · rintro ⟨k1, k2, k3⟩
    by_cases ho : ∃ e, IsSide t e ∧ OnSegment e.v1 e.v2 w
    · exact Or.inr ho
    · push Not at ho
      exact Or.inl (inner_of_closed h ho k2 k3 k1)

/-- A lot without overlaps is a triangulation of the polygon. -/
theorem tiles (h : Lot g l M) (hback : ∀ s ∈ pairs l false, (s.2, s.1) ∉ pairs l false) (hA : Apart M) :
    TilesPolygon l M := by
  refine ⟨fun t ht hg => Verif.solid_iff.2 ((h.solid_iff ht).1 hg), fun s hs t ht h1 h2 w =>
    hA s hs t ht ((h.solid_iff hs).1 h1) ((h.solid_iff ht).1 h2) w, fun t ht hg w hw => ?_, fun w hw => ?_, fun t ht hg => ?_⟩
  · have st := (h.solid_iff ht).1 hg
    have hoff : ∀ r ∈ M, SolidTri r → ∀ e, IsSide r e → ¬ OnSegment e.v1 e.v2 w := fun r hr sr e he =>
      hA.inner_off ht hr st sr he hw
    refine ⟨fun s hs => ?_, ?_⟩
    · obtain ⟨r, hr, sr, hrs⟩ := h.side hback hs
      exact hoff r hr sr _ hrs
    · have h1 := h.coverings_eq hoff
      have h2 : 0 < coverings M w := by
        rw [coverings, List.countP_pos_iff]
        exact ⟨t, ht, by simpa using ⟨hg, hw⟩⟩
      omega
  · by_cases hoff : ∀ t ∈ M, SolidTri t → ∀ e, IsSide t e → ¬ OnSegment e.v1 e.v2 w
    · have h1 := h.coverings_eq hoff
      have h2 : 0 < coverings M w := by
        have := hw.2
        omega
      rw [coverings, List.countP_pos_iff] at h2
      obtain ⟨t, ht, k⟩ := h2
      rw [decide_eq_true_iff] at k
      exact ⟨t, ht, k.1, Or.inl k.2⟩
    · push Not at hoff
      obtain ⟨t, ht, st, e, he, ho⟩ := hoff
      exact ⟨t, ht, st.noGhost, Or.inr ⟨e, he, ho⟩⟩
  · rcases h.shape t ht with k | ⟨s, hs, rfl⟩
    · exact absurd hg k.noGhost
    · exact ⟨s, hs, rfl, rfl, h.ghost⟩

end Lot

theorem outline_wall (hg : g.isGhost = true) (hreal : ∀ v ∈ b.vertices, v.isGhost = false) {Q : List (Tri (Vertex K))}
    (hQ : ∀ t ∈ Q, SolidTri t) (hM : M.Perm (Q ++ (outerWall b).map (ghostOn g))) (w : Vertex K) :
    windingNumber (outline M) w = windingNumber (pairs b.vertices false) w := by
  have hp : (outline M).Perm (outline (Q ++ (outerWall b).map (ghostOn g))) := (hM.filter _).flatMap_right _
  have e : outline (Q ++ (outerWall b).map (ghostOn g)) = pairs b.vertices false := by
    unfold outline
    rw [List.filter_append, List.flatMap_append]
    have e1 : (Q.filter fun t => decide (HasGhost t)) = [] := by
      rw [List.filter_eq_nil_iff]
      intro t ht
      simpa using (hQ t ht).noGhost
    rw [e1, List.flatMap_nil, List.nil_append]
    have : ∀ L : List (Vertex K × Vertex K), (∀ s ∈ L, s.1.isGhost = false ∧ s.2.isGhost = false) →
        (((L.map fun s => (⟨s.2, s.1⟩ : Edge (Vertex K))).map (ghostOn g)).filter fun t => decide (HasGhost t)).flatMap
          (fun t => [(t.v2, t.v1), (t.v3, t.v2), (t.v1, t.v3)].filter fun s => !s.1.isGhost && !s.2.isGhost) = L := by
      intro L hL
      induction L with
      | nil => rfl
      | cons s L ih =>
        obtain ⟨h1, h2⟩ := hL s (by simp)
        have hh : HasGhost (ghostOn g (⟨s.2, s.1⟩ : Edge (Vertex K))) := hasGhost_last hg
        rw [List.map_cons, List.map_cons, List.filter_cons_of_pos (by simpa using hh), List.flatMap_cons,
          ih fun t ht => hL t (by simp [ht])]
        simp [ghostOn, h1, h2, hg]
    refine this _ fun s hs => ?_
    obtain ⟨h1, h2⟩ := mem_pairs hs
    exact ⟨hreal _ h1, hreal _ h2⟩
  unfold windingNumber
  rw [(hp.map _).sum_eq, e]

theorem Good.apart (hT : Good g T) : Apart T := apart_of_coverings hT.coverings_le

/-- The carved mesh is a lot. -/
theorem Good.lot (hT : Good g T) {s : Tri (Vertex K)} (hs : s ∈ T) (hsol : SolidTri s)
    (hreal : ∀ v ∈ b.vertices, v.isGhost = false) (ha : 0 < shoelace b.vertices)
    (hM : M.Perm (kept T (outerWall b) ++ (outerWall b).map (ghostOn g))) (hw : Watertight M) :
    Lot g b.vertices M ∧ Apart M := by
  have hk : ∀ t ∈ kept T (outerWall b), SolidTri t := by
    intro t ht
    obtain ⟨h1, h2⟩ := mem_kept.1 ht
    rcases hT.shape t h1 with h | h
    · exact h
    · exact absurd (hT.all_reached hs hsol hreal ha hM hw h1 h) h2
  refine ⟨⟨hT.ghost, hreal, hw, fun t ht => ?_, fun s hs => ?_, outline_wall hT.ghost hreal hk hM⟩, ?_⟩
  · rcases List.mem_append.1 (hM.mem_iff.1 ht) with h | h
    · exact Or.inl (hk t h)
    · obtain ⟨e, he, rfl⟩ := List.mem_map.1 h
      obtain ⟨s, hs, rfl⟩ := List.mem_map.1 he
      exact Or.inr ⟨s, hs, rfl⟩
  · rw [hM.mem_iff, List.mem_append]
    right
    exact List.mem_map.2 ⟨⟨s.2, s.1⟩, List.mem_map.2 ⟨s, hs, rfl⟩, rfl⟩
  · intro s hs t ht ss st
    have key : ∀ r ∈ M, SolidTri r → r ∈ T := by
      intro r hr sr
      rcases List.mem_append.1 (hM.mem_iff.1 hr) with h | h
      · exact (mem_kept.1 h).1
      · obtain ⟨e, -, rfl⟩ := List.mem_map.1 h
        exact absurd (hasGhost_last hT.ghost) sr.noGhost
    exact hT.apart s (key s hs ss) t (key t ht st) ss st

end

end Verif
