import Verif.Props.Holes
import Verif.Props.RefineSafe

/-!
# C60: refining a domain with a hole or a segment
-/

set_option linter.unusedSectionVars false

namespace Verif.Props

open Spec

namespace ValidityExample

/-- Reads off the results of `triangulate` and `refine`. -/
theorem refined_spec {σ : Sched} {p : RefineParams ℚ} {T : Triangulator ℚ}
    {P : List (Tri (Vertex ℚ)) → List (Tri (Vertex ℚ)) → Prop} [∀ a b, Decidable (P a b)]
    (h : (match ValidityExample.refined σ p T with
      | some (a, b) => decide (P a b)
      | none => false) = true) :
    ∃ T1 T2, T.triangulate 0 60 σ = .ok T1 ∧ T1.refine 0 60 blocks p σ = .ok T2 ∧ P T1.mesh.tris T2.mesh.tris := by
  cases hr : ValidityExample.refined σ p T with
  | none => rw [hr] at h; simp at h
  | some r =>
    obtain ⟨T1, T2, h1, h2, e⟩ := ok_of_refined (σ := σ) (p := p) (T := T) (by rw [hr]; rfl)
    rw [e] at h
    exact ⟨T1, T2, h1, h2, by simpa using h⟩

end ValidityExample

namespace HoleExample

open ValidityExample

/-- The triangulation before the refinement. -/
theorem wedge_tiles : ∃ T', (punch (Triangulator.new wide) wedge).triangulate 0 60 (order 1) = .ok T' ∧
    TilesDomain wide.vertices [wedge.vertices] T'.mesh.tris := by
  obtain ⟨T0, st, h0, h1, h2⟩ := holeStage_some (σ := order 1) (b := wide) (h := wedge) (by decide +kernel)
  have e : ((holeStage (order 1) wide wedge).get (by decide +kernel)) = (T0.mesh.tris, st.mesh.tris) := by
    simp only [h2, Option.get_some]
  have e1 : T0.mesh.tris = ((holeStage (order 1) wide wedge).get (by decide +kernel)).1 := by rw [e]
  have e2 : st.mesh.tris = ((holeStage (order 1) wide wedge).get (by decide +kernel)).2 := by rw [e]
  have key : ∃ T', (punch (Triangulator.new wide) wedge).triangulate 0 60 (order 1) = .ok T' ∧
      TilesDomain wide.vertices [wedge.vertices] T'.mesh.tris ∧ Watertight T'.mesh.tris := by
    refine C59_convex_partial (n := 60) rfl (simple_of_check (by decide +kernel)) (by decide +kernel) (by decide +kernel)
      (by unfold ConvexPolygon; decide +kernel) rfl (simple_of_check (by decide +kernel)) (by decide +kernel)
      (fun v hv => ⟨?_, insidePolygon_of ?_ ?_⟩) (punch_ok (by decide +kernel)) h0 ?_ h1 ?_ ?_
    · revert v; decide +kernel
    · revert v; decide +kernel
    · revert v; decide +kernel
    · rw [e1]; unfold Face IsSide; decide +kernel
    · rw [e2]; unfold IsSide; decide +kernel
    · rw [e2]; decide +kernel
  obtain ⟨T', k1, k2, -⟩ := key
  exact ⟨T', k1, k2⟩

end HoleExample

open ValidityExample HoleExample in
/-- C60 is false with a hole: a square with one triangular hole in its middle, and an order of the hash tables with which
the triangulation is a partition of the square without the hole; `refine` returns, and afterwards two different triangles
overlap and one of them covers a part of the hole. -/
theorem C60_hole_false : ∃ (b h : Polyline (Vertex ℚ)) (dist : Vertex ℚ → Vertex ℚ → ℚ) (p : RefineParams ℚ) (σ : Sched)
    (T T1 T2 : Triangulator ℚ), SimplePolygon b.vertices ∧ b.opened = false ∧ ConvexPolygon b.vertices ∧
    SimplePolygon h.vertices ∧ h.opened = false ∧ 0 < shoelace h.vertices ∧
    (Triangulator.new b).insertHole 0 60 h = .ok (.ok T) ∧ T.triangulate 0 60 σ = .ok T1 ∧
    TilesDomain b.vertices [h.vertices] T1.mesh.tris ∧ T1.refine 0 60 dist p σ = .ok T2 ∧
    ∃ s ∈ T2.mesh.tris, ∃ t ∈ T2.mesh.tris, s ≠ t ∧ Face s ∧ Face t ∧ (∃ w, Inner s w ∧ Inner t w) ∧
      ∃ w, Inner s w ∧ InsidePolygon h.vertices w := by
  obtain ⟨T1, h1, ht⟩ := wedge_tiles
  obtain ⟨T1', T2, h1', h2, s, hs, t, ht', k1, k2, k3, k4, k5, k6⟩ := refined_spec (σ := order 1) (p := ⟨none, 100⟩)
    (T := punch (Triangulator.new wide) wedge)
    (P := fun _ l => ∃ s ∈ l, ∃ t ∈ l, s ≠ t ∧
      (s.v1.isGhost = false ∧ s.v2.isGhost = false ∧ s.v3.isGhost = false ∧ 0 < cross s.v1 s.v2 s.v3) ∧
      (t.v1.isGhost = false ∧ t.v2.isGhost = false ∧ t.v3.isGhost = false ∧ 0 < cross t.v1 t.v2 t.v3) ∧
      Inner s (pt 6 (22 / 3)) ∧ Inner t (pt 6 (22 / 3)) ∧ Inner s (pt 6 6)) (by decide +kernel)
  obtain rfl : T1 = T1' := by rw [h1] at h1'; exact Res.ok.inj h1'
  exact ⟨wide, wedge, blocks, ⟨none, 100⟩, order 1, _, T1, T2, simple_of_check (by decide +kernel), rfl,
    by unfold ConvexPolygon; decide +kernel, simple_of_check (by decide +kernel), rfl, by decide +kernel,
    punch_ok (by decide +kernel), h1, ht, h2, s, hs, t, ht', k1, k2, k3, ⟨_, k4, k5⟩, _, k6,
    insidePolygon_of (by decide +kernel) (by decide +kernel)⟩

namespace ValidityExample

/-- A line through a side separates the triangles. -/
def Parted (s t : Tri (Vertex ℚ)) : Prop :=
  ∃ e ∈ [(s.v1, s.v2), (s.v2, s.v3), (s.v3, s.v1)], ∀ v ∈ [t.v1, t.v2, t.v3], cross e.1 e.2 v ≤ 0

instance (s t : Tri (Vertex ℚ)) : Decidable (Parted s t) := by unfold Parted; infer_instance

theorem parted_apart {s t : Tri (Vertex ℚ)} (h : Parted s t) {w : Vertex ℚ} (hs : Inner s w) : ¬ Inner t w := by
  rintro ⟨t1, t2, t3⟩
  obtain ⟨e, he, hv⟩ := h
  have h1 := hv t.v1 (by simp)
  have h2 := hv t.v2 (by simp)
  have h3 := hv t.v3 (by simp)
  have hw : 0 < cross e.1 e.2 w := by
    obtain ⟨s1, s2, s3⟩ := hs
    simp only [List.mem_cons, List.not_mem_nil, or_false] at he
    rcases he with rfl | rfl | rfl <;> assumption
  have key : (cross t.v1 t.v2 w + cross t.v2 t.v3 w + cross t.v3 t.v1 w) * cross e.1 e.2 w =
      cross t.v2 t.v3 w * cross e.1 e.2 t.v1 + cross t.v3 t.v1 w * cross e.1 e.2 t.v2 +
        cross t.v1 t.v2 w * cross e.1 e.2 t.v3 := by
    simp only [cross]; ring
  have := mul_pos (add_pos (add_pos t1 t2) t3) hw
  have := mul_nonpos_of_nonneg_of_nonpos t1.le h3
  have := mul_nonpos_of_nonneg_of_nonpos t2.le h1
  have := mul_nonpos_of_nonneg_of_nonpos t3.le h2
  linarith

/-- The request of `C60_segment_false`. -/
def slanted : Triangulator ℚ := drawn [⟨pt 7 7, pt 3 1⟩]

end ValidityExample

open ValidityExample in
/-- C60 is false with a segment: a square with one segment inside and an order of the hash tables with which `triangulate`
returns counterclockwise triangles that do not overlap; `refine` returns, and afterwards there is a clockwise triangle. -/
theorem C60_segment_false : ∃ (b : Polyline (Vertex ℚ)) (c : Edge (Vertex ℚ)) (dist : Vertex ℚ → Vertex ℚ → ℚ)
    (p : RefineParams ℚ) (σ : Sched) (T T1 T2 : Triangulator ℚ), SimplePolygon b.vertices ∧ b.opened = false ∧
    ConvexPolygon b.vertices ∧ (Triangulator.new b).insertSegments 0 80 σ [c] = .ok (.ok T) ∧
    T.triangulate 0 60 σ = .ok T1 ∧ (∀ t ∈ T1.mesh.tris, ¬ HasGhost t → Face t) ∧
    (∀ s ∈ T1.mesh.tris, ∀ t ∈ T1.mesh.tris, ¬ HasGhost s → ¬ HasGhost t → ∀ w, Inner s w → Inner t w → s = t) ∧
    T1.refine 0 60 dist p σ = .ok T2 ∧ ∃ t ∈ T2.mesh.tris, ¬ HasGhost t ∧ cross t.v1 t.v2 t.v3 < 0 := by
  obtain ⟨T1, T2, h1, h2, k1, k2, k3⟩ := refined_spec (σ := order 0) (p := ⟨none, 100⟩) (T := slanted)
    (P := fun a b => (∀ t ∈ a, ¬ HasGhost t →
        (t.v1.isGhost = false ∧ t.v2.isGhost = false ∧ t.v3.isGhost = false ∧ 0 < cross t.v1 t.v2 t.v3)) ∧
      (∀ s ∈ a, ∀ t ∈ a, ¬ HasGhost s → ¬ HasGhost t → s = t ∨ Parted s t ∨ Parted t s) ∧
      ∃ t ∈ b, ¬ HasGhost t ∧ cross t.v1 t.v2 t.v3 < 0) (by decide +kernel)
  refine ⟨field, ⟨pt 7 7, pt 3 1⟩, blocks, ⟨none, 100⟩, order 0, slanted, T1, T2, simple_of_check (by decide +kernel), rfl,
    by unfold ConvexPolygon; decide +kernel, drawn_ok (by decide +kernel), h1, k1, ?_, h2, k3⟩
  intro s hs t ht gs gt w ws wt
  rcases k2 s hs t ht gs gt with k | k | k
  · exact k
  · exact (parted_apart k ws wt).elim
  · exact (parted_apart k wt ws).elim

end Verif.Props
