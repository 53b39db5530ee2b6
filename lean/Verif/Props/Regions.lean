import Verif.Lemmas.RegionOps
import Verif.Lemmas.RegionCheck
import Verif.Props.Boolean

/-!
# What union, intersection and subtraction of polygons enclose (C47, C48, C49)

Exact arithmetic (tolerance zero), polygons between ordinary vertices, every order of iteration of the hash sets.
-/

set_option linter.unusedSectionVars false

namespace Verif.Props

open Spec

variable {K : Type*} [Field K] [LinearOrder K] [IsStrictOrderedRing K]

/-- The hypotheses of the theorems below: two simple closed polygons that run counterclockwise and whose sides, where
they touch, are not parallel. -/
structure Overlay (p1 p2 : Polyline (Vertex K)) : Prop where
  closed1 : p1.opened = false
  closed2 : p2.opened = false
  ordinary1 : ∀ v ∈ p1.vertices, v.isGhost = false
  ordinary2 : ∀ v ∈ p2.vertices, v.isGhost = false
  simple1 : SimplePolygon p1.vertices
  simple2 : SimplePolygon p2.vertices
  ccw1 : 0 < shoelace p1.vertices
  ccw2 : 0 < shoelace p2.vertices
  crosswise : Crosswise p1.vertices p2.vertices

theorem Overlay.two {p1 p2 : Polyline (Vertex K)} (h : Overlay p1 p2) : Two p1 p2 :=
  ⟨h.closed1, h.closed2, h.ordinary1, h.ordinary2, h.simple1, h.simple2, windsOnce h.closed1 h.simple1 h.ccw1,
    windsOnce h.closed2 h.simple2 h.ccw2, h.crosswise⟩

/-- A simple polygon with positive area runs once around every point that it contains, and not around any other. -/
theorem C08_simple {p : Polyline (Vertex K)} (hc : p.opened = false) (hs : SimplePolygon p.vertices)
    (ha : 0 < shoelace p.vertices) (v : Vertex K) (hb : p.contains 0 v ≠ some .boundary) :
    windingNumber (pairs p.vertices false) v = if p.contains 0 v = some .inside then 1 else 0 :=
  contains_once hc (windsOnce hc hs ha) fun h => hb ((contains_boundary hc).2 h)

/-- C48: around each point, not on either polygon, the polygons returned by the intersection run once in total if the
point is inside both, and not at all otherwise. -/
theorem C48_region {p1 p2 : Polyline (Vertex K)} (h : Overlay p1 p2) :
    ∃ n, ∀ fuel, n ≤ fuel → ∀ σ, ∃ polys unused,
      Polyline.intersection 0 fuel σ p1 p2 = .ok (polys, unused) ∧ (∀ p ∈ polys, p.opened = false) ∧
      ∀ v, p1.contains 0 v ≠ some .boundary → p2.contains 0 v ≠ some .boundary →
        (polys.map fun p => windingNumber (pairs p.vertices false) v).sum =
          if p1.contains 0 v = some .inside ∧ p2.contains 0 v = some .inside then 1 else 0 := by
  have ht := h.two
  obtain ⟨n, r, ha, -, hn⟩ := ht.intersection
  refine ⟨n, fun fuel hf σ => ?_⟩
  obtain ⟨e1, e2⟩ := hn fuel hf σ
  have hprod : ∀ v, p1.contains 0 v ≠ some .boundary → p2.contains 0 v ≠ some .boundary →
      windingNumber (pairs p1.vertices false) v * windingNumber (pairs p2.vertices false) v =
        if p1.contains 0 v = some .inside ∧ p2.contains 0 v = some .inside then 1 else 0 := by
    intro v v1 v2
    rw [C08_simple h.closed1 h.simple1 h.ccw1 v v1, C08_simple h.closed2 h.simple2 h.ccw2 v v2]
    by_cases i1 : p1.contains 0 v = some .inside <;> by_cases i2 : p2.contains 0 v = some .inside <;> simp [i1, i2]
  by_cases hl : LineBetween p1.vertices p2.vertices
  · refine ⟨[], [], e1 hl, by simp, fun v v1 v2 => ?_⟩
    rw [← hprod v v1 v2]
    rcases boxes_apart ((boxesDisjoint_iff p1 p2).2 hl) v with h0 | h0 <;> rw [h0] <;> simp
  · obtain ⟨polys, unused, e, tr⟩ := e2 hl
    refine ⟨polys, unused, e, tr.closed, fun v v1 v2 => ?_⟩
    rw [tr.winding, (ht.inBoth_region ha).2.2 v (fun h' => v1 ((contains_boundary h.closed1).2 h'))
      (fun h' => v2 ((contains_boundary h.closed2).2 h')), hprod v v1 v2]

/-- C48: no point inside both polygons is lost; one of the returned polygons contains it. -/
theorem C48_covers {p1 p2 : Polyline (Vertex K)} (h : Overlay p1 p2) :
    ∃ n, ∀ fuel, n ≤ fuel → ∀ σ, ∃ polys unused,
      Polyline.intersection 0 fuel σ p1 p2 = .ok (polys, unused) ∧
      ∀ v, p1.contains 0 v = some .inside → p2.contains 0 v = some .inside →
        ∃ p ∈ polys, p.contains 0 v = some .inside ∨ p.contains 0 v = some .boundary := by
  obtain ⟨n, hn⟩ := C48_region h
  refine ⟨n, fun fuel hf σ => ?_⟩
  obtain ⟨polys, unused, e, hcl, hw⟩ := hn fuel hf σ
  refine ⟨polys, unused, e, fun v v1 v2 => ?_⟩
  have := hw v (by rw [v1]; simp) (by rw [v2]; simp)
  rw [if_pos ⟨v1, v2⟩] at this
  by_contra hno
  push Not at hno
  have hz : (polys.map fun p => windingNumber (pairs p.vertices false) v).sum = 0 := by
    refine List.sum_eq_zero fun x hx => ?_
    obtain ⟨p, hp, rfl⟩ := List.mem_map.1 hx
    obtain ⟨c1, c2⟩ := hno p hp
    by_contra hx
    exact c1 ((contains_off (hcl p hp) fun h' => c2 ((contains_boundary (hcl p hp)).2 h')).1.2 hx)
  rw [hz] at this
  exact absurd this (by decide)

/-- C48: unless a line separates the polygons, the sides of the returned polygons and the returned segments are together
the sides of the two polygons, cut where they cross; nothing is lost, doubled or turned around. -/
theorem C48_pieces {p1 p2 : Polyline (Vertex K)} (h : Overlay p1 p2) (hl : ¬ LineBetween p1.vertices p2.vertices) :
    ∃ n pieces, Cuts (pairs p1.vertices false ++ pairs p2.vertices false) pieces ∧ ∀ fuel, n ≤ fuel → ∀ σ,
      ∃ polys unused, Polyline.intersection 0 fuel σ p1 p2 = .ok (polys, unused) ∧
        ((polys.flatMap fun p => pairs p.vertices false) ++ unused).Perm pieces := by
  obtain ⟨n, r, ha, hcut, hn⟩ := h.two.intersection
  refine ⟨n, r, hcut, fun fuel hf σ => ?_⟩
  obtain ⟨polys, unused, e, tr⟩ := (hn fuel hf σ).2 hl
  exact ⟨polys, unused, e, tr.all ha.nodup⟩

/-- C48: opened polylines have no intersection; all their pieces are returned as segments. -/
theorem C48_opened {p1 p2 : Polyline (Vertex K)} (g1 : ∀ v ∈ p1.vertices, v.isGhost = false)
    (g2 : ∀ v ∈ p2.vertices, v.isGhost = false) (ho : p1.opened = true ∨ p2.opened = true) :
    ∃ n, ∀ fuel, n ≤ fuel → ∀ σ, ∃ pieces unused,
      Cuts (pairs p1.vertices p1.opened ++ pairs p2.vertices p2.opened) pieces ∧
      Polyline.intersection 0 fuel σ p1 p2 = .ok ([], unused) ∧ unused.Nodup ∧ ∀ s, s ∈ unused ↔ s ∈ pieces := by
  have hsol := Polyline.two_solid (o1 := p1.opened) (o2 := p2.opened) g1 g2
  obtain ⟨n, hn⟩ := splitIntersections_total hsol
  refine ⟨n, fun fuel hf σ => ?_⟩
  obtain ⟨r, hr⟩ := hn fuel hf
  refine ⟨r, toSet r, splitIntersections_cuts hsol hr, ?_, nodup_toSet r, fun s => mem_toSet⟩
  unfold Polyline.intersection Polyline.splitTwo
  rw [hr, Res.bind_ok, if_pos (by simpa using ho)]

/-- When the second polygon of a subtraction reaches the first one: a point of it is outside the first polygon, or one of
its vertices is on the first polygon. -/
def Reaches (p1 p2 : Polyline (Vertex K)) : Prop :=
  (∃ s ∈ pairs p2.vertices false, ∃ x, OnSegment s.1 s.2 x ∧ p1.contains 0 x = some .outside) ∨
    ∃ v ∈ p2.vertices, p1.contains 0 v = some .boundary

theorem Reaches.not_strict {p1 p2 : Polyline (Vertex K)} (h : Overlay p1 p2) (hr : Reaches p1 p2) (fuel : Nat) :
    Polyline.continence 0 fuel p1 p2 ≠ .ok (some (.inside, .opened)) := by
  intro hc
  rcases hr with ⟨s, hs, x, hx, ho⟩ | ⟨v, hv, hb⟩
  · rw [← h.closed2] at hs
    have := C42_everywhere_partial h.ordinary1 h.ordinary2 (h.simple1.noFold h.closed1) hc s hs x hx
    rw [ho] at this
    simp at this
  · obtain ⟨-, h2⟩ := C42_strict_partial hc
    obtain ⟨s, hs, e⟩ : ∃ s ∈ pairs p2.vertices false, s.1 = v := by
      have hn : 0 < p2.vertices.length := by have := p2.two_le; omega
      obtain ⟨i, hi⟩ := List.mem_iff_getElem?.1 hv
      refine ⟨_, (mem_pairs_cyc h.closed2 hn).2 ⟨(i : ℤ), rfl⟩, ?_⟩
      have := cyc_getElem hn (i : ℤ)
      have hlt : i < p2.vertices.length := by
        by_contra hlt
        rw [List.getElem?_eq_none (by omega)] at hi
        simp at hi
      have e : ((i : ℤ) % (p2.vertices.length : ℤ)).toNat = i := by
        rw [← Int.natCast_mod, Nat.mod_eq_of_lt hlt]; rfl
      rw [e, hi] at this
      injection this with this
      exact this.symm
    have := (h2 s (by rw [h.closed2]; exact hs)).1
    rw [e, hb] at this
    simp at this

/-- C49: if no horizontal or vertical line separates the polygons and the second one reaches the first one, the polygons
returned by the subtraction run once in total around each point inside the first and outside the second polygon, and
not at all around any other point, off the two polygons. -/
theorem C49_region {p1 p2 : Polyline (Vertex K)} (h : Overlay p1 p2) (hl : ¬ LineBetween p1.vertices p2.vertices)
    (hr : Reaches p1 p2) :
    ∃ n, ∀ fuel, n ≤ fuel → ∀ σ, ∃ polys unused,
      Polyline.subtraction 0 fuel σ p1 p2 = .ok (polys, unused) ∧ (∀ p ∈ polys, p.opened = false) ∧
      ∀ v, p1.contains 0 v ≠ some .boundary → p2.contains 0 v ≠ some .boundary →
        (polys.map fun p => windingNumber (pairs p.vertices false) v).sum =
          if p1.contains 0 v = some .inside ∧ p2.contains 0 v = some .outside then 1 else 0 := by
  have ht := h.two
  obtain ⟨n, r, ha, -, hn⟩ := ht.subtraction
  refine ⟨n, fun fuel hf σ => ?_⟩
  obtain ⟨polys, unused, e, tr⟩ := (hn fuel hf σ).2 hl (hr.not_strict h fuel)
  refine ⟨polys, unused, e, tr.closed, fun v v1 v2 => ?_⟩
  have o1 := fun h' => v1 ((contains_boundary h.closed1).2 h')
  have o2 := fun h' => v2 ((contains_boundary h.closed2).2 h')
  rw [tr.winding, (ht.inFirst_region ha).2.2 v o1 o2, C08_simple h.closed1 h.simple1 h.ccw1 v v1,
    C08_simple h.closed2 h.simple2 h.ccw2 v v2]
  obtain ⟨c1, c2⟩ := contains_off h.closed2 o2
  by_cases i2 : p2.contains 0 v = some .inside
  · simp [i2]
  · have : p2.contains 0 v = some .outside := c2.2 (by by_contra h'; exact i2 (c1.2 h'))
    by_cases i1 : p1.contains 0 v = some .inside <;> simp [i1, this]

/-- C49: under the same hypotheses the sides of the returned polygons and the returned segments are together the sides of
the first polygon and, in the opposite direction, those of the second, cut where they cross. -/
theorem C49_pieces {p1 p2 : Polyline (Vertex K)} (h : Overlay p1 p2) (hl : ¬ LineBetween p1.vertices p2.vertices)
    (hr : Reaches p1 p2) :
    ∃ n pieces, Cuts (pairs p1.vertices false ++ pairs p2.vertices.reverse false) pieces ∧ ∀ fuel, n ≤ fuel → ∀ σ,
      ∃ polys unused, Polyline.subtraction 0 fuel σ p1 p2 = .ok (polys, unused) ∧
        ((polys.flatMap fun p => pairs p.vertices false) ++ unused).Perm pieces := by
  obtain ⟨n, r, ha, hcut, hn⟩ := h.two.subtraction
  refine ⟨n, r, hcut, fun fuel hf σ => ?_⟩
  obtain ⟨polys, unused, e, tr⟩ := (hn fuel hf σ).2 hl (hr.not_strict h fuel)
  exact ⟨polys, unused, e, tr.all ha.nodup⟩

/-- C49: a polygon that is subtracted from strictly inside another one leaves a hole, which the result cannot express: no
polygon is returned, only segments. The same happens when a line separates the two polygons, although then the
difference is the first polygon. -/
theorem C49_nothing {p1 p2 : Polyline (Vertex K)} (h : Overlay p1 p2)
    (hc : LineBetween p1.vertices p2.vertices ∨
      ∀ s ∈ pairs p2.vertices false, ∀ x, OnSegment s.1 s.2 x → p1.contains 0 x = some .inside) :
    ∃ n pieces, Cuts (pairs p1.vertices false ++ pairs p2.vertices.reverse false) pieces ∧ ∀ fuel, n ≤ fuel → ∀ σ,
      ∃ unused, Polyline.subtraction 0 fuel σ p1 p2 = .ok ([], unused) ∧ unused.Perm pieces := by
  obtain ⟨n, r, ha, hcut, hn⟩ := h.two.subtraction
  rcases hc with hc | hc
  · exact ⟨n, r, hcut, fun fuel hf σ => (hn fuel hf σ).1 (Or.inl hc)⟩
  · obtain ⟨m, hm⟩ := C42_complete h.ordinary1 h.ordinary2 h.closed1 (c := .inside) (by simp)
      (by rw [h.closed2]; exact hc)
    exact ⟨max n m, r, hcut, fun fuel hf σ => (hn fuel ((le_max_left _ _).trans hf) σ).1
      (Or.inr (hm fuel ((le_max_right _ _).trans hf)))⟩

/-- The hypotheses are met by two overlapping squares, which also reach one another. -/
theorem overlay_plates : Overlay plate cornerPlate :=
  ⟨rfl, rfl, by decide +kernel, by decide +kernel, simple_of_check (by decide +kernel),
    simple_of_check (by decide +kernel), by decide +kernel, by decide +kernel, crosswise_of_check (by decide +kernel)⟩

example : ¬ LineBetween plate.vertices cornerPlate.vertices ∧ Reaches plate cornerPlate ∧
    (Polyline.intersection 0 100 Sched.first plate cornerPlate).toOption.map (·.1.map (·.vertices)) =
      some [[⟨1, 1, false⟩, ⟨2, 1, false⟩, ⟨2, 2, false⟩, ⟨1, 2, false⟩]] ∧
    (Polyline.subtraction 0 100 Sched.first plate cornerPlate).toOption.map (·.1.map (·.vertices)) =
      some [[⟨0, 0, false⟩, ⟨2, 0, false⟩, ⟨2, 1, false⟩, ⟨1, 1, false⟩, ⟨1, 2, false⟩, ⟨0, 2, false⟩]] := by
  refine ⟨by unfold LineBetween; decide +kernel, Or.inl ⟨(⟨3, 1, false⟩, ⟨3, 3, false⟩), by decide +kernel,
    ⟨3, 3, false⟩, onSegment_right _ _, by decide +kernel⟩, by decide +kernel, by decide +kernel⟩

end Verif.Props
