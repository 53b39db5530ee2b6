import Verif.Lemmas.BoundaryStep
import Verif.Lemmas.RegionCheck
import Verif.Model.Triangulator
import Mathlib.Algebra.Order.Ring.Rat
import Mathlib.Algebra.Field.Rat

/-!
# C51: a triangulation is a partition of the domain into counterclockwise triangles
-/

set_option linter.unusedSectionVars false

namespace Verif.Props

open Spec

variable {K : Type*} [Field K] [LinearOrder K] [IsStrictOrderedRing K]

/-- `triangulate` with nothing but a boundary. -/
theorem triangulate_boundary {fuel : Nat} {σ : Sched} {T T' : Triangulator K} (hh : T.holes = []) (hsg : T.segments = [])
    (hv : T.vertices = []) (h : T.triangulate 0 fuel σ = .ok T') :
    ∃ v1 v2 rest, T.boundary.vertices = v1 :: v2 :: rest ∧
      includeBoundary (geoPreds 0 fuel none []) Vertex.ghost [] fuel (σ.sub 0) (Mesh.fromInitialSegment Vertex.ghost v1 v2)
        T.boundary = .ok T'.mesh := by
  unfold Triangulator.triangulate at h
  split at h
  · rename_i v1 v2 rest hb
    refine ⟨v1, v2, rest, hb, ?_⟩
    rw [Res.bind_eq_ok] at h
    obtain ⟨m0, h0, h⟩ := h
    simp only [hh, hsg, hv] at h
    rw [Res.bind_eq_ok] at h
    obtain ⟨r1, h1, h⟩ := h
    have e1 : (shuffle (σ.sub 1) ([] : List (Polyline (Vertex K)))) = [] :=
      List.eq_nil_iff_forall_not_mem.2 fun x hx => by simpa using mem_shuffle.1 hx
    have e2 : (shuffle (σ.sub 4) ([] : List (Edge (Vertex K)))) = [] :=
      List.eq_nil_iff_forall_not_mem.2 fun x hx => by simpa using mem_shuffle.1 hx
    have e3 : (shuffle (σ.sub 6) ([] : List (Vertex K))) = [] :=
      List.eq_nil_iff_forall_not_mem.2 fun x hx => by simpa using mem_shuffle.1 hx
    rw [e1] at h1
    simp only [Triangulator.includeHoles, Res.ok.injEq] at h1
    subst h1
    rw [e2, Res.bind_eq_ok] at h
    obtain ⟨r2, h2, h⟩ := h
    simp only [Triangulator.includeSegments, Res.ok.injEq] at h2
    subst h2
    rw [e3, Res.bind_eq_ok] at h
    obtain ⟨st, h3, h⟩ := h
    simp only [Res.ok.injEq] at h
    subst h
    rw [includeVertices_nil h3]
    exact h0
  · simp at h

theorem first_side {l : List (Vertex K)} {v1 v2 : Vertex K} {rest : List (Vertex K)} (h : l = v1 :: v2 :: rest) :
    (v1, v2) ∈ pairs l false := by
  subst h
  simp [pairs, consecutivePairs]

/-- C51, domains with a boundary only: the triangulation of a simple counterclockwise polygon is a partition of the
polygon into counterclockwise triangles, if all sides of the polygon appear as sides of its triangles. The full
statement is false (`C51_false`, and `C26` for boundaries whose sides do not appear); missing are holes, segments and
free vertices. -/
theorem C51_outline_partial {fuel : Nat} {σ : Sched} {T T' : Triangulator K} (hh : T.holes = []) (hsg : T.segments = [])
    (hv : T.vertices = []) (hb : T.boundary.opened = false) (hs : SimplePolygon T.boundary.vertices)
    (ha : 0 < shoelace T.boundary.vertices) (hreal : ∀ v ∈ T.boundary.vertices, v.isGhost = false)
    (h : T.triangulate 0 fuel σ = .ok T')
    (hin : ∀ s ∈ pairs T.boundary.vertices false, ∃ t ∈ T'.mesh.tris, Face t ∧ IsSide t ⟨s.1, s.2⟩) :
    TilesPolygon T.boundary.vertices T'.mesh.tris ∧ Simple T'.mesh.tris ∧ Watertight T'.mesh.tris ∧
      AdjSound T'.mesh ∧ AdjComplete T'.mesh := by
  obtain ⟨v1, v2, rest, hl, h⟩ := triangulate_boundary hh hsg hv h
  obtain ⟨r, -, -, -, -, k⟩ := boundary_step rfl hb hs ha hreal (first_side hl) h
  obtain ⟨k1, k2, k3, k4, k5⟩ := k hin
  exact ⟨k1.tiles (simplePolygon_back hs) k2, k3, k1.closed, k4, k5⟩

/-- C51, domains with a boundary only: if each side of the boundary has a circle through its ends with all other
boundary vertices strictly outside, and no vertex was lost (`C20_false`), then the triangulation is a partition of the
polygon into counterclockwise triangles. -/
theorem C51_free_sides_partial {fuel : Nat} {σ : Sched} {T T' : Triangulator K} (hh : T.holes = [])
    (hsg : T.segments = []) (hv : T.vertices = []) (hb : T.boundary.opened = false)
    (hs : SimplePolygon T.boundary.vertices) (ha : 0 < shoelace T.boundary.vertices)
    (hreal : ∀ v ∈ T.boundary.vertices, v.isGhost = false)
    (hfree : ∀ s ∈ pairs T.boundary.vertices false, FreeChord T.boundary.vertices s.1 s.2)
    (h : T.triangulate 0 fuel σ = .ok T')
    (hall : ∀ v ∈ T.boundary.vertices, ∃ t ∈ T'.mesh.tris, Face t ∧ IsCorner t v) :
    TilesPolygon T.boundary.vertices T'.mesh.tris ∧ Simple T'.mesh.tris ∧ Watertight T'.mesh.tris ∧
      AdjSound T'.mesh ∧ AdjComplete T'.mesh := by
  refine C51_outline_partial hh hsg hv hb hs ha hreal h ?_
  obtain ⟨v1, v2, rest, hl, h⟩ := triangulate_boundary hh hsg hv h
  obtain ⟨r, hgood, ⟨s0, hs0, hsol0⟩, hvx, hmem, -⟩ := boundary_step rfl hb hs ha hreal (first_side hl) h
  have hw := windsOnce hb hs ha
  have hvx' : ∀ v ∈ T.boundary.vertices, Vx r.tris v := by
    intro v hv
    obtain ⟨t, ht, k1, k2⟩ := hall v hv
    refine ⟨⟨t, ?_, k2⟩, hreal v hv⟩
    rcases (hmem t).1 ht with k | ⟨s, -, rfl⟩
    · exact k.1
    · have := (solid_iff.1 k1).r3
      simp [Vertex.ghost] at this
  have hE : Edged r.tris T.boundary.vertices := by
    intro s hm
    obtain ⟨m1, m2⟩ := mem_pairs hm
    refine hgood.chord hs0 hsol0 hvx (hvx' _ m1) (hvx' _ m2) ?_ (hfree s hm)
    intro e
    exact hs.proper s hm (by rw [e]; exact ⟨rfl, rfl⟩)
  intro s hm
  obtain ⟨t, ht, st, hside, hnr⟩ := Edged.kept_side hgood hs0 hsol0 hreal hE hs hw rfl hm
  exact ⟨t, (hmem t).2 (Or.inl ⟨ht, hnr⟩), solid_iff.2 st, hside⟩

/-- C51, domains with a boundary only: `triangulate` returns. -/
theorem C51_returns_partial {fuel : Nat} {σ : Sched} {T : Triangulator K} (hh : T.holes = [])
    (hsg : T.segments = []) (hv : T.vertices = []) (hs : SimplePolygon T.boundary.vertices)
    (hw : WindsOnce T.boundary.vertices)
    (hreal : ∀ v ∈ T.boundary.vertices, v.isGhost = false) (hf : 6 * T.boundary.vertices.length + 7 ≤ fuel) :
    ∃ T', T.triangulate 0 fuel σ = .ok T' := by
  have h2 := T.boundary.two_le
  obtain ⟨v1, v2, rest, hl⟩ : ∃ v1 v2 rest, T.boundary.vertices = v1 :: v2 :: rest := by
    match hl : T.boundary.vertices, h2 with
    | v1 :: v2 :: rest, _ => exact ⟨v1, v2, rest, rfl⟩
  have h12 := first_side hl
  obtain ⟨r, hr, hgood, k1, k2, k3, k4⟩ := polygon_inserted (f := fuel) (fuel := fuel) (σ := (σ.sub 0).sub 0)
    (g := Vertex.ghost) rfl hs hw hreal (by omega) h12
  have hlen : r.mesh.tris.length ≤ 2 + 2 * T.boundary.vertices.length := by
    obtain ⟨m1, m2⟩ := mem_pairs h12
    have hab : v1 ≠ v2 := by
      rintro rfl
      exact hs.proper _ h12 ⟨rfl, rfl⟩
    have hl2 : (Mesh.fromInitialSegment (Vertex.ghost : Vertex K) v1 v2).tris.length = 2 := by
      simp [Mesh.fromInitialSegment, Mesh.add, Mesh.include, Mesh.empty, hab.symm]
    have hd := C19_segment (g := Vertex.ghost) rfl (hreal _ m1) (hreal _ m2) hab
    have hcomp : AdjComplete (Mesh.fromInitialSegment (Vertex.ghost : Vertex K) v1 v2) := by
      refine adjComplete_add (adjComplete_add adjComplete_empty ?_) hd.simple.edgeDisjoint
      intro t ht s hs e h1 h2
      simp [Mesh.add, Mesh.include, Mesh.empty] at ht hs
      rw [ht, hs]
    have := include_size (fromInitialSegment_sound _ _ _) hcomp hd (simplePolygon_nodup hs) hreal
      (by rw [hl2]; omega) hr
    omega
  obtain ⟨m', hm'⟩ := C26_terminates Vertex.ghost T.boundary ((σ.sub 0).sub 1) k1 (fuel := fuel) (by omega)
  have h0 : includeBoundary (geoPreds 0 fuel none []) Vertex.ghost [] fuel (σ.sub 0)
      (Mesh.fromInitialSegment Vertex.ghost v1 v2) T.boundary = .ok m' := by
    unfold includeBoundary
    rw [hr, Res.bind_ok, hm']
  have e1 : (shuffle (σ.sub 1) ([] : List (Polyline (Vertex K)))) = [] :=
    List.eq_nil_iff_forall_not_mem.2 fun x hx => by simpa using mem_shuffle.1 hx
  have e2 : (shuffle (σ.sub 4) ([] : List (Edge (Vertex K)))) = [] :=
    List.eq_nil_iff_forall_not_mem.2 fun x hx => by simpa using mem_shuffle.1 hx
  have e3 : (shuffle (σ.sub 6) ([] : List (Vertex K))) = [] :=
    List.eq_nil_iff_forall_not_mem.2 fun x hx => by simpa using mem_shuffle.1 hx
  have e4 : ∀ (P : Preds (Vertex K)) C τ m, includeVertices P C fuel τ m [] = .ok ⟨m, [], [], [], []⟩ := by
    intro P C τ m
    unfold includeVertices
    simp only [List.filter_nil, solveConflicts]
    have : distributeAll P (shuffle (τ.sub 0) m.tris) [] [] = .ok ([], []) := by
      cases shuffle (τ.sub 0) m.tris <;> simp [distributeAll]
    rw [this, Res.bind_ok]
    cases fuel <;> simp [solveLoop]
  refine ⟨{ T with mesh := m' }, ?_⟩
  unfold Triangulator.triangulate
  rw [hl]
  simp only [h0, Res.bind_ok, hh, hsg, hv, e1, e2, e3, Triangulator.includeHoles, Triangulator.includeSegments, e4]

namespace ValidityExample

def pt (x y : ℚ) : Vertex ℚ := ⟨x, y, false⟩

/-- A polygon with a reflex corner. -/
def dart : Polyline (Vertex ℚ) := ⟨[pt 0 0, pt 4 0, pt 4 4, pt 2 3, pt 0 4], false, by decide⟩

/-- Some order of the hash tables. -/
def order (k : Nat) : Sched := fun path => k * (path.length + 1) + path.sum

def outcome (σ : Sched) (T : Triangulator ℚ) : List (Tri (Vertex ℚ)) :=
  match T.triangulate 0 60 σ with
  | .ok T' => T'.mesh.tris
  | _ => []

theorem dart_sides : ∀ s ∈ pairs dart.vertices false, FreeChord dart.vertices s.1 s.2 := by
  have h : ∀ s ∈ pairs dart.vertices false, ∀ o : Vertex ℚ, o = ⟨(s.1.x + s.2.x) / 2, (s.1.y + s.2.y) / 2, false⟩ →
      dist2 o s.1 = dist2 o s.2 ∧ ∀ p ∈ dart.vertices, p ≠ s.1 → p ≠ s.2 → dist2 o s.1 < dist2 o p := by
    rintro s hs o rfl
    revert s
    decide +kernel
  exact fun s hs => ⟨_, h s hs _ rfl⟩

/-- C51 applies to the dart. -/
example : ∃ T', (Triangulator.new dart).triangulate 0 60 (order 3) = .ok T' ∧
    TilesPolygon dart.vertices T'.mesh.tris ∧ T'.mesh.tris.length = 8 := by
  have hs : SimplePolygon dart.vertices := simple_of_check (by decide +kernel)
  have ha : 0 < shoelace dart.vertices := by decide +kernel
  have hr : ∀ v ∈ dart.vertices, v.isGhost = false := by decide +kernel
  obtain ⟨T', h⟩ := C51_returns_partial (T := Triangulator.new dart) (σ := order 3) (fuel := 60) rfl rfl rfl hs
    (windsOnce rfl hs ha) hr (by decide)
  have ho : T'.mesh.tris = outcome (order 3) (Triangulator.new dart) := by rw [outcome, h]
  refine ⟨T', h, ?_, ?_⟩
  · refine (C51_free_sides_partial (T := Triangulator.new dart) rfl rfl rfl rfl hs ha hr dart_sides h ?_).1
    rw [ho]
    have : ∀ v ∈ dart.vertices, ∃ t ∈ outcome (order 3) (Triangulator.new dart),
        (t.v1.isGhost = false ∧ t.v2.isGhost = false ∧ t.v3.isGhost = false ∧ 0 < cross t.v1 t.v2 t.v3) ∧
          (v = t.v1 ∨ v = t.v2 ∨ v = t.v3) := by decide +kernel
    intro v hv
    obtain ⟨t, ht, k1, k2⟩ := this v hv
    exact ⟨t, ht, solid_iff.2 ⟨k1.1, k1.2.1, k1.2.2.1, k1.2.2.2⟩, k2⟩
  · rw [ho]; decide +kernel

/-- A square with a segment, and a vertex above the segment. -/
def square : Polyline (Vertex ℚ) := ⟨[pt 0 0, pt 4 0, pt 4 4, pt 0 4], false, by decide⟩

def withSegment : Triangulator ℚ :=
  match Triangulator.insertSegments 0 60 (order 6) (Triangulator.new square) [⟨pt 1 2, pt 3 2⟩] with
  | .ok (.ok T) => T
  | _ => Triangulator.new square

def request : Triangulator ℚ :=
  match withSegment.insertVertices 0 (order 6) [pt 2 (11 / 5)] with
  | .ok T => T
  | .err T _ => T

end ValidityExample

open ValidityExample in
/-- C51 is false: a square with one segment and one vertex strictly inside, all accepted, and an order of the hash tables
such that `triangulate` finishes normally and returns a clockwise triangle. -/
theorem C51_false : ∃ (b : Polyline (Vertex ℚ)) (s : Edge (Vertex ℚ)) (v : Vertex ℚ) (σ : Sched)
    (T1 T2 T3 : Triangulator ℚ), SimplePolygon b.vertices ∧ b.opened = false ∧ 0 < shoelace b.vertices ∧
    (Triangulator.new b).insertSegments 0 60 σ [s] = .ok (.ok T1) ∧ T1.insertVertices 0 σ [v] = .ok T2 ∧
    T2.triangulate 0 60 σ = .ok T3 ∧ ∃ t ∈ T3.mesh.tris, ¬ HasGhost t ∧ cross t.v1 t.v2 t.v3 < 0 := by
  have h1 : (Triangulator.new square).insertSegments 0 60 (order 6) [⟨pt 1 2, pt 3 2⟩] = .ok (.ok withSegment) := by
    have : ∃ T, (Triangulator.new square).insertSegments 0 60 (order 6) [⟨pt 1 2, pt 3 2⟩] = .ok (.ok T) := by
      have hk : (match (Triangulator.new square).insertSegments 0 60 (order 6) [⟨pt 1 2, pt 3 2⟩] with
        | .ok (.ok _) => true | _ => false) = true := by decide +kernel
      split at hk
      · rename_i T h; exact ⟨T, h⟩
      · simp at hk
    obtain ⟨T, h⟩ := this
    rw [withSegment, h]
  have h2 : withSegment.insertVertices 0 (order 6) [pt 2 (11 / 5)] = .ok request := by
    have : ∃ T, withSegment.insertVertices 0 (order 6) [pt 2 (11 / 5)] = .ok T := by
      have hk : (match withSegment.insertVertices 0 (order 6) [pt 2 (11 / 5)] with
        | .ok _ => true | _ => false) = true := by decide +kernel
      split at hk
      · rename_i T h; exact ⟨T, h⟩
      · simp at hk
    obtain ⟨T, h⟩ := this
    rw [request, h]
  have hk : ∃ t ∈ outcome (order 6) request, ¬ HasGhost t ∧ cross t.v1 t.v2 t.v3 < 0 := by decide +kernel
  obtain ⟨t, ht, k⟩ := hk
  have h3 : ∃ T3, request.triangulate 0 60 (order 6) = .ok T3 ∧ T3.mesh.tris = outcome (order 6) request := by
    unfold outcome at ht ⊢
    match h : request.triangulate 0 60 (order 6) with
    | .ok T' => exact ⟨T', rfl, rfl⟩
    | .panic => rw [h] at ht; simp at ht
    | .diverged => rw [h] at ht; simp at ht
  obtain ⟨T3, h3, e3⟩ := h3
  exact ⟨square, _, _, order 6, withSegment, request, T3, simple_of_check (by decide +kernel), rfl, by decide +kernel, h1,
    h2, h3, t, by rw [e3]; exact ht, k⟩

end Verif.Props
