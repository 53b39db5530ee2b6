import Verif.Lemmas.RoundedRefine
import Verif.Props.LostVertices

/-!
# C90: `refine` in `f64` may leave everything as it is

Like `triangulate`, `refine` asks before it gives up a triangle for a new vertex whether both are in the domain. Where that
question is answered wrongly, `refine` inserts nothing, returns, and reports no error.
-/

set_option linter.unusedSectionVars false

namespace Verif.Props

open Spec Triangulator

/-- C90: if the computed middle of some side of the boundary is judged outside, no boundary side, hole side or segment is
encroached by a vertex of the mesh, and the segments from the triangles to the circumcentres do not cut the boundary, then
`refine` changes nothing, whatever the wanted quality and area are. This holds for any way to round. -/
theorem C90_blocked {K : Type*} [Field K] [LinearOrder K] {rnd : K → K} {eps : K} {fuel : Nat} {T : Triangulator K}
    (hb : T.boundary.opened = false) (hh : T.holes = []) (hm : AdjSound T.mesh) {s : Vertex K × Vertex K}
    (hs : s ∈ pairs T.boundary.vertices false)
    (h : T.boundary.containsRounded rnd eps (Edge.midpointRounded rnd ⟨s.1, s.2⟩) = some .outside)
    (he : ∀ e ∈ T.boundary.intoEdges ++ T.segments, ∀ t ∈ T.mesh.tris, ∀ v, v = t.v1 ∨ v = t.v2 ∨ v = t.v3 →
      v.isGhost = false → encroachRounded rnd eps e.v1 e.v2 v ≠ .inside)
    (hc : ∀ t ∈ T.mesh.tris, t.isGhost Vertex.isGhost = false → ∃ c, t.circumcenterRounded rnd = some c ∧
      ∀ r ∈ T.mesh.tris, r.isGhost Vertex.isGhost = false →
        (pairs T.boundary.vertices false ++ pairs [r.centerRounded rnd, c] true).Pairwise
          fun s t => crossesRounded rnd eps s.1 s.2 t.1 t.2 = false)
    (hf : 2 * T.mesh.tris.length ≤ fuel) (hf' : T.boundary.vertices.length + 3 ≤ fuel)
    (irregular : Tri (Vertex K) → Bool) (maxArea : Option K) (σ : Sched) :
    T.refineRounded rnd eps fuel irregular maxArea σ = .ok T := by
  unfold refineRounded
  refine refineWith_blocked hm hf ?_ ?_ σ
  · intro e hE v hv
    have h1 : e ∈ T.boundary.intoEdges ++ T.segments := by
      unfold constraints at hE
      rw [mem_toSet, hh] at hE
      simpa using hE
    have hv' : v ∈ T.mesh.vertices Vertex.isGhost := hv
    unfold Mesh.vertices at hv'
    rw [mem_toSet, List.mem_filter, List.mem_flatMap] at hv'
    obtain ⟨⟨t, ht, hc⟩, hg⟩ := hv'
    have := he e h1 t ht v (by simpa [Tri.corners] using hc) (by simpa using hg)
    exact decide_eq_false this
  · intro t ht hg _
    obtain ⟨c, k1, k2⟩ := hc t ht hg
    refine ⟨c, k1, fun r hr hgr => ?_⟩
    have hprobe : probeRounded rnd r c = ⟨[r.centerRounded rnd, c], true, by simp⟩ := by
      unfold probeRounded
      rw [if_neg]
      have : r.isGhost Vertex.isGhost = false := hgr
      simp [this]
    show mayInsertTriangleRounded rnd eps fuel (some T.boundary) T.holes r c = .ok false
    rw [hh]
    refine C89_blocked hb ?_ hf' hs h
    rw [hprobe]
    exact k2 r hr hgr

/-! ## A counterexample -/

/-- The three ways to write the triangle of C89. -/
def plotTris : List (Tri (Vertex ℚ)) :=
  match plot.vertices with
  | [a, b, c] => [⟨a, b, c⟩, ⟨b, c, a⟩, ⟨c, a, b⟩]
  | _ => []

theorem plot_centers : ∀ t ∈ plotTris, ∃ c, t.circumcenterRounded roundF64 = some c ∧ ∀ r ∈ plotTris,
    (pairs plot.vertices false ++ pairs [r.centerRounded roundF64, c] true).Pairwise
      fun s t => crossesRounded roundF64 (1 / 10 ^ 14) s.1 s.2 t.1 t.2 = false := by
  have h : (plotTris.all fun t =>
      match t.circumcenterRounded roundF64 with
      | none => false
      | some c => plotTris.all fun r => decide ((pairs plot.vertices false ++ pairs [r.centerRounded roundF64, c] true).Pairwise
        fun s t => crossesRounded roundF64 (1 / 10 ^ 14) s.1 s.2 t.1 t.2 = false)) = true := by
    decide +kernel
  rw [List.all_eq_true] at h
  intro t ht
  have := h t ht
  cases hc : t.circumcenterRounded roundF64 with
  | none => rw [hc] at this; cases this
  | some c =>
    rw [hc] at this
    refine ⟨c, rfl, fun r hr => ?_⟩
    simpa using List.all_eq_true.1 this r hr

theorem plot_acute : ∀ e ∈ plot.intoEdges, ∀ t ∈ plotTris, ∀ v ∈ t.corners,
    encroachRounded roundF64 (1 / 10 ^ 14) e.v1 e.v2 v ≠ .inside := by
  decide +kernel

/-- In `f64`, a mesh of the triangle (10.1, 20.2), (40.3, 20.7), (30.4, 49.6) is not refined, whatever the request. -/
theorem plot_unrefined {T : Triangulator ℚ} (hb : T.boundary = plot) (hh : T.holes = []) (hs : T.segments = [])
    (hm : AdjSound T.mesh) (ht : ∀ t ∈ T.mesh.tris, t.isGhost Vertex.isGhost = false → t ∈ plotTris)
    (hg : ∀ t ∈ T.mesh.tris, ∀ v ∈ t.corners, v = Vertex.ghost ∨ v ∈ plot.vertices) {fuel : Nat}
    (hf : 6 + 2 * T.mesh.tris.length ≤ fuel)
    (irregular : Tri (Vertex ℚ) → Bool) (maxArea : Option ℚ) (σ : Sched) :
    T.refineRounded roundF64 (1 / 10 ^ 14) fuel irregular maxArea σ = .ok T := by
  have h : ∃ s ∈ pairs plot.vertices false,
      plot.containsRounded roundF64 (1 / 10 ^ 14) (Edge.midpointRounded roundF64 ⟨s.1, s.2⟩) = some .outside := by
    decide +kernel
  obtain ⟨s, hs', h⟩ := h
  refine C90_blocked (s := s) (by rw [hb]; rfl) hh hm (by rw [hb]; exact hs') (by rw [hb]; exact h) ?_ ?_ (by omega)
    (by rw [hb]; simp only [plot, List.length_cons, List.length_nil]; omega) irregular maxArea σ
  · intro e he t ht' v hv hvg
    rw [hb, hs, List.append_nil] at he
    have hv' : v ∈ plot.vertices := by
      rcases hg t ht' v (by simpa [Tri.corners] using hv) with rfl | k
      · cases hvg
      · exact k
    exact plot_acute e he ⟨_, _, _⟩ (List.mem_cons_self ..) v hv'
  · intro t ht' htg
    obtain ⟨c, k1, k2⟩ := plot_centers t (ht t ht' htg)
    refine ⟨c, k1, fun r hr hrg => ?_⟩
    rw [hb]
    exact k2 r (ht r hr hrg)

/-- C90 on a concrete case: the mesh of this triangle is one triangle of area above 438. In `f64`, `refine` returns it
unchanged, whatever the wanted quality and area, and for every order of the hash tables. In exact arithmetic a run with the
same mesh and the area 300 returns a mesh of triangles with smaller areas (lengths are taken as zero there, so that no triangle
is split for its quality). -/
theorem C90_false : ∃ m, meshOutlineRounded roundF64 (1 / 10 ^ 14) 100 (fun _ => 0) plot = .ok m ∧
    (∃ t ∈ m.tris, t.isGhost Vertex.isGhost = false ∧ 438 < areaTriangle t.v1 t.v2 t.v3) ∧
    (∀ fuel, 100 ≤ fuel → ∀ irregular maxArea σ, (⟨m, plot, [], [], []⟩ : Triangulator ℚ).refineRounded roundF64
      (1 / 10 ^ 14) fuel irregular maxArea σ = .ok ⟨m, plot, [], [], []⟩) ∧
    ∃ T, (⟨m, plot, [], [], []⟩ : Triangulator ℚ).refine 0 100 (fun _ _ => 0) ⟨some 300, 1⟩ (fun _ => 0) = .ok T ∧
      ∀ t ∈ T.mesh.tris, t.isGhost Vertex.isGhost = false → areaTriangle t.v1 t.v2 t.v3 < 300 := by
  have hd : (match meshOutlineRounded roundF64 (1 / 10 ^ 14) 100 (fun _ => 0) plot with
      | .ok m =>
        decide ((∃ t ∈ m.tris, t.isGhost Vertex.isGhost = false ∧ 438 < areaTriangle t.v1 t.v2 t.v3) ∧
          (∀ t ∈ m.tris, t.isGhost Vertex.isGhost = false → t ∈ plotTris) ∧
          (∀ t ∈ m.tris, ∀ v ∈ t.corners, v = Vertex.ghost ∨ v ∈ plot.vertices) ∧ m.tris.length ≤ 4) &&
        (match (⟨m, plot, [], [], []⟩ : Triangulator ℚ).refine 0 100 (fun _ _ => 0) ⟨some 300, 1⟩ (fun _ => 0) with
          | .ok T => decide (∀ t ∈ T.mesh.tris, t.isGhost Vertex.isGhost = false → areaTriangle t.v1 t.v2 t.v3 < 300)
          | _ => false)
      | _ => false) = true := by decide +kernel
  cases hm : meshOutlineRounded roundF64 (1 / 10 ^ 14) 100 (fun _ => 0) plot with
  | panic => rw [hm] at hd; cases hd
  | diverged => rw [hm] at hd; cases hd
  | ok m =>
    rw [hm] at hd
    simp only [Bool.and_eq_true, decide_eq_true_eq] at hd
    obtain ⟨⟨h1, h2, h3, h4⟩, h5⟩ := hd
    refine ⟨m, rfl, h1, fun fuel hf irregular maxArea σ => ?_, ?_⟩
    · exact plot_unrefined rfl rfl rfl (meshOutline_sound hm) h2 h3 (by simp only; omega) irregular maxArea σ
    · cases hT : (⟨m, plot, [], [], []⟩ : Triangulator ℚ).refine 0 100 (fun _ _ => 0) ⟨some 300, 1⟩ (fun _ => 0) with
      | panic => rw [hT] at h5; cases h5
      | diverged => rw [hT] at h5; cases h5
      | ok T =>
        rw [hT] at h5
        exact ⟨T, rfl, by simpa using h5⟩

end Verif.Props
