import Verif.Props.RoundedDomain
import Verif.Props.Quad

/-!
# C89: a vertex that is lost in `f64`
-/

set_option linter.unusedSectionVars false

namespace Verif.Props

open Spec Triangulator

/-- A triangle whose corners are read from numbers with one decimal: (10.1, 20.2), (40.3, 20.7) and (30.4, 49.6), see
`plot_decimals`. -/
def plot : Polyline (Vertex ℚ) :=
  ⟨[Vertex.mk' (5685794529555251 / 562949953421312) (5685794529555251 / 281474976710656),
    Vertex.mk' (2835860390359859 / 70368744177664) (5826532017910579 / 281474976710656),
    Vertex.mk' (4278419646001971 / 140737488355328) (6980579422424269 / 140737488355328)], false, by simp⟩

theorem plot_decimals : plot.vertices = [Vertex.mk' (roundF64 (101 / 10)) (roundF64 (202 / 10)),
    Vertex.mk' (roundF64 (403 / 10)) (roundF64 (207 / 10)), Vertex.mk' (roundF64 (304 / 10)) (roundF64 (496 / 10))] := by
  decide +kernel

/-- A point well inside of it. -/
def well : Vertex ℚ := Vertex.mk' 25 30

theorem well_blocked : ∀ x ∈ Vertex.ghost :: plot.vertices, ∀ y ∈ Vertex.ghost :: plot.vertices,
    ∀ z ∈ Vertex.ghost :: plot.vertices,
      mayInsertTriangleRounded roundF64 (1 / 10 ^ 14) 100 (some plot) [] ⟨x, y, z⟩ well = .ok false := by
  decide +kernel

/-- The hypotheses of `C89_blocked` hold for the triangle itself, with `f64`. -/
example : ∃ a b c, plot.vertices = [a, b, c] ∧
    mayInsertTriangleRounded roundF64 (1 / 10 ^ 14) 6 (some plot) [] ⟨a, b, c⟩ well = .ok false := by
  refine ⟨_, _, _, rfl, ?_⟩
  have h : ∃ s ∈ pairs plot.vertices false,
      plot.containsRounded roundF64 (1 / 10 ^ 14) (Edge.midpointRounded roundF64 ⟨s.1, s.2⟩) = some .outside := by
    decide +kernel
  obtain ⟨s, hs, h⟩ := h
  exact C89_blocked rfl (by decide +kernel) (by decide) hs h

/-- The triangle with this vertex, as after `insert_vertices`. -/
def wellRequest : Triangulator ℚ := ⟨Mesh.empty, plot, [], [well], []⟩

theorem well_lost {fuel : Nat} (hf : 100 ≤ fuel) (σ : Sched) {m : Mesh (Vertex ℚ)}
    (h : meshVerticesRounded roundF64 (1 / 10 ^ 14) fuel σ wellRequest = .ok m) :
    meshOutlineRounded roundF64 (1 / 10 ^ 14) fuel σ plot = .ok m ∧ ¬ InMesh m well := by
  unfold meshVerticesRounded at h
  rw [Res.bind_eq_ok] at h
  obtain ⟨m0, h0, h⟩ := h
  have h0' : meshOutlineRounded roundF64 (1 / 10 ^ 14) fuel σ plot = .ok m0 := h0
  have hc : ∀ x, InMesh m0 x → x ∈ Vertex.ghost :: plot.vertices := fun x hx =>
    List.mem_cons.2 (meshOutline_corners h0' hx)
  obtain ⟨r, hr, he⟩ := includeVertices_blocked
    (P := domainPredsRounded roundF64 (1 / 10 ^ 14) fuel (some plot) []) (C := toSet wellRequest.boundary.intoEdges)
    (fuel := fuel) (σ := σ.sub 5) (m := m0) (vs := shuffle (σ.sub 6) wellRequest.vertices) (by
      intro t ht v hv
      rw [mem_shuffle] at hv
      have hv : v = well := by simpa [wellRequest] using hv
      subst hv
      obtain ⟨k, rfl⟩ := Nat.exists_eq_add_of_le hf
      exact mayInsertRounded_more (well_blocked _ (hc _ ⟨t, ht, Or.inl rfl⟩) _ (hc _ ⟨t, ht, Or.inr (Or.inl rfl)⟩) _
        (hc _ ⟨t, ht, Or.inr (Or.inr rfl)⟩)))
  have hb : wellRequest.boundary = plot := rfl
  rw [hb] at h hr
  rw [hr] at h
  simp only [Res.bind, Res.ok.injEq] at h
  rw [he] at h
  subst h
  refine ⟨h0', fun hx => ?_⟩
  have k := hc _ hx
  revert k
  decide +kernel

/-- C89 fails for other coordinates: the corners of a triangle have one decimal, and (25, 30) is well inside. In `f64`
`insert_vertices` accepts this vertex. `triangulate` then returns, for every order of the hash tables, the mesh of the
triangle without it, and no error. In exact arithmetic, with the very same corners, the vertex always is in the mesh. -/
theorem C89_false :
    plot.vertices = [Vertex.mk' (roundF64 (101 / 10)) (roundF64 (202 / 10)),
      Vertex.mk' (roundF64 (403 / 10)) (roundF64 (207 / 10)), Vertex.mk' (roundF64 (304 / 10)) (roundF64 (496 / 10))] ∧
    (∀ σ, insertVerticesRounded roundF64 (1 / 10 ^ 14) σ (Triangulator.new plot) [well] = .ok wellRequest ∧
      insertVertices 0 σ (Triangulator.new plot) [well] = .ok wellRequest) ∧
    (∀ fuel, 100 ≤ fuel → ∀ σ m, meshVerticesRounded roundF64 (1 / 10 ^ 14) fuel σ wellRequest = .ok m →
      meshOutlineRounded roundF64 (1 / 10 ^ 14) fuel σ plot = .ok m ∧ ¬ InMesh m well) ∧
    (∃ σ m, meshVerticesRounded roundF64 (1 / 10 ^ 14) 100 σ wellRequest = .ok m) ∧
    ∃ n, ∀ fuel, n ≤ fuel → ∀ σ, ∃ T, wellRequest.triangulate 0 fuel σ = .ok T ∧ VertexOf T.mesh.tris well := by
  have hs : SimplePolygon plot.vertices := simple_of_check (by decide +kernel)
  have ha : 0 < shoelace plot.vertices := by decide +kernel
  have hreal : ∀ v ∈ plot.vertices, v.isGhost = false := by decide +kernel
  have hi : ∀ σ, insertVertices 0 σ (Triangulator.new plot) [well] = .ok wellRequest := by
    intro σ
    have hr : [well].filter (vertexRejected 0 (Triangulator.new plot)) = [] := by decide +kernel
    have h1 : shuffle (σ.sub 0) [well] = [well] := List.perm_singleton.1 (shuffle_perm _ _)
    have h2 : shuffle ((σ.sub 1).sub 0) ([] : List (Edge (Vertex ℚ))) = [] := List.perm_nil.1 (shuffle_perm _ _)
    simp only [insertVertices, hr, ne_eq, not_true_eq_false, if_false]
    rw [h1]
    simp [insertVerticesLoop, Triangulator.new, h2, placeVertex, wellRequest, setInsert]
  have hbare : Bare plot wellRequest := (bare_new plot).insert rfl (by simp [well, Vertex.mk']) (hi fun _ => 0)
  have hin := sidesAppear_four (b := plot) rfl hs ha hreal (by simp [plot])
  refine ⟨plot_decimals, fun σ => ⟨?_, hi σ⟩, fun fuel hf σ m h => well_lost hf σ h, ?_, ?_⟩
  · have hr : [well].filter (vertexRejectedRounded roundF64 (1 / 10 ^ 14) (Triangulator.new plot)) = [] := by
      decide +kernel
    have h1 : shuffle (σ.sub 0) [well] = [well] := List.perm_singleton.1 (shuffle_perm _ _)
    have h2 : shuffle ((σ.sub 1).sub 0) ([] : List (Edge (Vertex ℚ))) = [] := List.perm_nil.1 (shuffle_perm _ _)
    simp only [insertVerticesRounded, hr, ne_eq, not_true_eq_false, if_false]
    rw [h1]
    simp [insertVerticesLoopRounded, Triangulator.new, h2, placeVertexRounded, wellRequest, setInsert]
  · have hok : (match meshVerticesRounded roundF64 (1 / 10 ^ 14) 100 (fun _ => 0) wellRequest with
        | .ok _ => true
        | _ => false) = true := by decide +kernel
    refine ⟨fun _ => 0, ?_⟩
    cases h : meshVerticesRounded roundF64 (1 / 10 ^ 14) 100 (fun _ => 0) wellRequest with
    | ok m => exact ⟨m, rfl⟩
    | panic => rw [h] at hok; cases hok
    | diverged => rw [h] at hok; cases hok
  · obtain ⟨n, hn⟩ := hbare.returns rfl hs ha hreal hin
    refine ⟨n, fun fuel hf σ => ?_⟩
    obtain ⟨T, hT⟩ := hn fuel hf σ
    obtain ⟨T0, h0⟩ := hbare.alone hT
    exact ⟨T, hT, C58_one_partial rfl hs ha hreal rfl (hi fun _ => 0) h0 (hin _ _ _ h0) hT⟩

end Verif.Props
